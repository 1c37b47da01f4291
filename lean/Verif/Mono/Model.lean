import Verif.Mono.Spec

/-
Model of the monomorphisation work list, /repo/spade-hir-lowering/src/monomorphisation.rs.

The threads are modelled by a transition system: the thread that runs `compile_items` (its program
counter is `State.main`) and one job per spawned item.  A step of the system is one atomic action of
one of them: a critical section of the mutex `inner`, or one access to the atomic counter
`remaining_units`.  Any thread can take the next step, so the runs of the system are all
interleavings.

Simplifications: `request_points` (only used to print diagnostics) and the body replacements of
lambdas are left out.  The requests made while an item is compiled are given by `Prog.uses`: they
are a function of the item, in a fixed order (an item whose compilation stops with an error makes the
requests up to the error).  Panics are left out: the property is about runs without a panic.  A job
contributes one entry to `results`; the code contributes the unit, nothing (for items without a
body) or one entry per error.
-/

namespace Spade.Mono

open Spec

variable {P : Type} [DecidableEq P]

/-- `MonoItem` (monomorphisation.rs:34-44): what to compile and the name to give it. -/
structure Item (P : Type) where
  key : Key P
  name : Nat
deriving DecidableEq, Repr

/-- What a spawned job is about to do (monomorphisation.rs:276-305). -/
inductive JobPc (P : Type) where
  /-- inside `monomorphize_item`, with these requests still to be made -/
  | running (todo : List (Key P))
  /-- inside `request_compilation`, holding the lock, about to increment `remaining_units` -/
  | adding (todo : List (Key P))
  /-- `remaining_units` has been decremented, the result has not been pushed yet -/
  | finishing
deriving DecidableEq, Repr

/-- A spawned job. -/
structure Job (P : Type) where
  item : Item P
  pc : JobPc P
deriving DecidableEq, Repr

/-- What the thread running `compile_items` is about to do. -/
inductive MainPc (P : Type) where
  /-- requesting the units without type parameters (monomorphisation.rs:235-246) -/
  | init (todo : List Nat)
  /-- inside `request_compilation`, holding the lock, about to increment `remaining_units` -/
  | initAdding (todo : List Nat)
  /-- `next_target`: about to take the lock and pop (:161) -/
  | pop
  /-- `next_target`: about to yield to the thread pool (:165) -/
  | yielding
  /-- `next_target`: the pool was idle, about to load `remaining_units` (:167-171) -/
  | check
  /-- about to spawn a job for the popped item (:269-276) -/
  | spawn (item : Item P)
  /-- left the loop, waiting for the scope to end (:307) -/
  | done
deriving DecidableEq, Repr

/-- The state shared by the threads (`MonoStateInner` :65-73, `MonoState` :75-81, the id tracker of
the symbol table, `result` :251) and the program counters.  `lockHeld` says that the mutex is held
in between two steps.  `log` is not in the code: it records the answers of `request_compilation`. -/
structure State (P : Type) where
  translation : List (Key P × Nat)
  queue : List (Item P)
  remaining : Nat
  nextId : Nat
  lockHeld : Bool
  main : MainPc P
  jobs : List (Job P)
  results : List (Item P)
  log : List (Key P × Nat)

/-- `translation.get` (monomorphisation.rs:116-118). -/
def lookup (tr : List (Key P × Nat)) (k : Key P) : Option Nat :=
  (tr.find? (fun e => e.1 = k)).map (·.2)

/-- The critical section of `request_compilation` (monomorphisation.rs:106-157) up to the increment
of `remaining_units`.  The boolean says whether the item is new: then the increment is still to come
and the lock stays held; otherwise the call returns and the lock is released.  `symtab.new_name`
takes the next number of the id tracker. -/
def request (s : State P) (k : Key P) (reuseNameid : Bool) : Bool × State P :=
  match lookup s.translation k with
  | some prev => (false, { s with log := (k, prev) :: s.log })
  | none =>
    let newName := if reuseNameid then k.source else s.nextId
    let nextId := if reuseNameid then s.nextId else s.nextId + 1
    (true, { s with
      translation := (k, newName) :: s.translation
      queue := s.queue ++ [⟨k, newName⟩]
      nextId := nextId
      lockHeld := true
      log := (k, newName) :: s.log })

/-- The rest of `request_compilation` for a new item: increment `remaining_units` and release the
lock (monomorphisation.rs:151-154). -/
def finishRequest (s : State P) : State P :=
  { s with remaining := s.remaining + 1, lockHeld := false }

/-- The initial state of `compile_items` (monomorphisation.rs:230-255). -/
def start (pg : Prog P) : State P :=
  { translation := [], queue := [], remaining := 0, nextId := pg.firstId, lockHeld := false,
    main := .init pg.roots, jobs := [], results := [], log := [] }

/-- One atomic action of some thread. -/
inductive Step (pg : Prog P) : State P → State P → Prop where
  /-- `compile_items` requests the next unit without type parameters, reusing its name (:239) -/
  | initRequest {s r todo} : s.main = .init (r :: todo) → s.lockHeld = false →
      Step pg s { (request s ⟨r, []⟩ true).2 with
        main := if (request s ⟨r, []⟩ true).1 then .initAdding todo else .init todo }
  | initAdd {s todo} : s.main = .initAdding todo →
      Step pg s { finishRequest s with main := .init todo }
  /-- all units without type parameters are requested: enter the loop of `next_target` -/
  | initDone {s} : s.main = .init [] → Step pg s { s with main := .pop }
  /-- `pop_front` on a non-empty queue (:161-163) -/
  | popSome {s i q} : s.main = .pop → s.lockHeld = false → s.queue = i :: q →
      Step pg s { s with queue := q, main := .spawn i }
  /-- `pop_front` on an empty queue (:164) -/
  | popNone {s} : s.main = .pop → s.lockHeld = false → s.queue = [] →
      Step pg s { s with main := .yielding }
  /-- `yield_now` executed some other work (:176) -/
  | yieldExecuted {s} : s.main = .yielding → Step pg s { s with main := .pop }
  /-- `yield_now` found nothing to do for this thread (:166) -/
  | yieldIdle {s} : s.main = .yielding → Step pg s { s with main := .check }
  /-- `remaining_units` is 0: leave the loop (:167-175) -/
  | checkZero {s} : s.main = .check → s.remaining = 0 → Step pg s { s with main := .done }
  /-- `remaining_units` is not 0: loop -/
  | checkMore {s} : s.main = .check → s.remaining ≠ 0 → Step pg s { s with main := .pop }
  /-- `spawn_fifo` (:276) -/
  | spawn {s i} : s.main = .spawn i →
      Step pg s { s with main := .pop, jobs := s.jobs ++ [⟨i, .running (pg.uses i.key)⟩] }
  /-- a job requests the next generic unit it instantiates, with a new name (spade-hir-lowering/src/lib.rs:2388-2398) -/
  | jobRequest {s pre post i k todo} : s.jobs = pre ++ ⟨i, .running (k :: todo)⟩ :: post →
      s.lockHeld = false →
      Step pg s { (request s k false).2 with
        jobs := pre ++
          ⟨i, if (request s k false).1 then .adding todo else .running todo⟩ :: post }
  | jobAdd {s pre post i todo} : s.jobs = pre ++ ⟨i, .adding todo⟩ :: post →
      Step pg s { finishRequest s with jobs := pre ++ ⟨i, .running todo⟩ :: post }
  /-- a job is done with `monomorphize_item` and decrements `remaining_units` (:293-295) -/
  | jobSub {s pre post i} : s.jobs = pre ++ ⟨i, .running []⟩ :: post →
      Step pg s { s with remaining := s.remaining - 1, jobs := pre ++ ⟨i, .finishing⟩ :: post }
  /-- a job pushes its result and ends (:297-304) -/
  | jobPush {s pre post i} : s.jobs = pre ++ ⟨i, .finishing⟩ :: post →
      Step pg s { s with results := s.results ++ [i], jobs := pre ++ post }
  /-- some thread takes a name number for another purpose -/
  | newName {s} : Step pg s { s with nextId := s.nextId + 1 }

/-- The states that some interleaving leads to. -/
inductive Reachable (pg : Prog P) : State P → Prop where
  | start : Reachable pg (start pg)
  | step {s s'} : Reachable pg s → Step pg s s' → Reachable pg s'

/-- The end of `scope_fifo`: the loop was left and all spawned jobs have ended
(monomorphisation.rs:307). -/
def Final (s : State P) : Prop := s.main = .done ∧ s.jobs = []

/-- The value `compile_items` returns: the results, stably sorted by key
(monomorphisation.rs:309-315).  `le` is the derived order of `MonoKey` (:56-63). -/
def output (le : Key P → Key P → Bool) (s : State P) : List (Item P) :=
  s.results.mergeSort (fun a b => le a.key b.key)

end Spade.Mono

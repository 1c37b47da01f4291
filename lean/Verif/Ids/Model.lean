/-!
# Identifier trackers and the string interner

Models spade-common/src/id_tracker.rs, spade-common/src/interning.rs, `Identifier` in
spade-common/src/name.rs, and the freezing of the symbol table (spade-hir/src/symbol_table.rs).
Threads are interleaved one atomic action at a time.
-/
namespace Spade.Ids

/-! ## Trackers -/

/-- Atomic instructions on the counter of a tracker, with one register per call. -/
inductive Instr where
  /-- `load` -/
  | load
  /-- `store` of the register plus one -/
  | storeSucc
  /-- `fetch_add(1, _)` -/
  | fetchAdd
  deriving DecidableEq, Repr

/-- Values of an `AtomicU64`. -/
def wrap (n : Nat) : Nat := n % 2 ^ 64

/-- `next` (id_tracker.rs:25-27,70-73): one `fetch_add`; the result is the old value. -/
def nextCode : List Instr := [.fetchAdd]

/-- `peek` (id_tracker.rs:29-31,75-77). -/
def peekCode : List Instr := [.load]

/-- Which call a thread is executing. -/
inductive Call where
  | next
  | peek
  deriving DecidableEq, Repr

def Call.code : Call → List Instr
  | .next => nextCode
  | .peek => peekCode

/-- One tracker and the threads that use it.  `returned` lists the results of `next`, newest first. -/
structure Tracker where
  counter : Nat
  threads : Nat → Option (Call × List Instr × Nat)
  returned : List Nat

/-- `new_at` (id_tracker.rs:19-23,64-68); `new` (13-17,58-62) is `new_at 0`. -/
def newAt (n : Nat) : Tracker := ⟨wrap n, fun _ => none, []⟩

/-- What may happen next: an idle thread starts a call, or a thread in a call takes one step. -/
inductive Act where
  | start (thread : Nat) (c : Call)
  | step (thread : Nat)
  deriving DecidableEq, Repr

/-- Effect of one atomic instruction on the counter and the register. -/
def exec : Instr → Nat × Nat → Nat × Nat
  | .load, (counter, _) => (counter, counter)
  | .storeSucc, (_, reg) => (wrap (reg + 1), reg)
  | .fetchAdd, (counter, _) => (wrap (counter + 1), counter)

/-- One action; `none` if it is not possible. -/
def act (t : Tracker) : Act → Option Tracker
  | .start i c =>
    match t.threads i with
    | none => some { t with threads := fun j => if j = i then some (c, c.code, 0) else t.threads j }
    | some _ => none
  | .step i =>
    match t.threads i with
    | some (c, ins :: code, reg) =>
      let (counter, reg) := exec ins (t.counter, reg)
      some { t with counter, threads := fun j => if j = i then some (c, code, reg) else t.threads j }
    | some (c, [], reg) =>
      some { t with
        threads := fun j => if j = i then none else t.threads j
        returned := match c with
          | .next => reg :: t.returned
          | .peek => t.returned }
    | none => none

/-- A schedule. -/
def runActs (t : Tracker) : List Act → Option Tracker
  | [] => some t
  | a :: as => (act t a).bind (runActs · as)

/-! ## Freezing the symbol table -/

/-- A symbol table, or a frozen one, as far as its trackers are concerned
(symbol_table.rs:538,1602-1605). -/
inductive Symtab where
  | live (tracker : Nat)
  | frozen (inner outer : Nat)
  deriving DecidableEq, Repr

inductive SymOp where
  /-- any of the `add_…` functions (symbol_table.rs:731,793,858,915) -/
  | add
  /-- `freeze` (symbol_table.rs:862-868) -/
  | freeze
  /-- `FrozenSymtab::new_name` (symbol_table.rs:1612-1614) -/
  | newName
  /-- `frozen.symtab().id_tracker.next()`: the tracker of the table inside, which is public -/
  | innerNext
  /-- `unfreeze` (symbol_table.rs:1618-1626) -/
  | unfreeze
  deriving DecidableEq, Repr

/-- The new state, and the id handed out, if any. -/
def symStep : Symtab → SymOp → Option (Symtab × Option Nat)
  | .live n, .add => some (.live (wrap (n + 1)), some n)
  | .live n, .freeze => some (.frozen n n, none)
  | .frozen i o, .newName => some (.frozen i (wrap (o + 1)), some o)
  | .frozen i o, .innerNext => some (.frozen (wrap (i + 1)) o, some i)
  | .frozen _ o, .unfreeze => some (.live o, none)
  | _, _ => none

/-- All ids handed out by a history, in order. -/
def symRun (s : Symtab) : List SymOp → Option (List Nat)
  | [] => some []
  | op :: ops => do
    let (s, id) ← symStep s op
    let ids ← symRun s ops
    some (id.toList ++ ids)

/-! ## The interner -/

/-- Strings are their bytes. -/
abbrev Str := List UInt8

/-- A `&'static str`: address and length.  `ptr::eq` compares both (name.rs:43-47). -/
structure Ref where
  addr : Nat
  len : Nat
  deriving DecidableEq, Repr

/-- The memory of the arena. -/
abbrev Mem := Nat → UInt8

/-- `as_str` (name.rs:33-35): the bytes behind a reference. -/
def read (m : Mem) (r : Ref) : Str := (List.range r.len).map (fun i => m (r.addr + i))

/-- Writing a string at an address. -/
def write (m : Mem) (a : Nat) (s : Str) : Mem := fun i =>
  if a ≤ i then (s[i - a]?).getD (m i) else m i

/-- Where a thread is in `intern` (interning.rs:25-40). -/
inductive Pc where
  | idle
  /-- before `lock` -/
  | waiting (s : Str)
  /-- the lock is held, before `lookup.get` -/
  | locked (s : Str)
  /-- not found, before `alloc_str` -/
  | missed (s : Str)
  /-- before `lookup.insert` -/
  | allocated (s : Str) (r : Ref)
  /-- before the lock is released and `r` returned -/
  | leaving (s : Str) (r : Ref)
  deriving DecidableEq

/-- The interner with its threads.  `blocks` are all blocks the arena has handed out, `returned` the
finished calls with their results. -/
structure Interner where
  lock : Option Nat
  table : List Ref
  mem : Mem
  blocks : List Ref
  pc : Nat → Pc
  returned : List (Str × Ref)

/-- `Interner::new` (interning.rs:16-23). -/
def newInterner (mem : Mem) : Interner := ⟨none, [], mem, [], fun _ => .idle, []⟩

inductive IAct where
  | call (thread : Nat) (s : Str)
  /-- `addr` is where the arena allocates, if this step does -/
  | step (thread : Nat) (addr : Nat)

/-- Two blocks share no byte. -/
def Ref.disjoint (a b : Ref) : Bool :=
  a.addr + a.len ≤ b.addr || b.addr + b.len ≤ a.addr || a.len == 0 || b.len == 0

def setPc (x : Interner) (t : Nat) (p : Pc) : Nat → Pc := fun j => if j = t then p else x.pc j

/-- One atomic step of a thread in `intern`; `none` if it has to wait, or if the arena would not
allocate at the given address: its blocks never overlap, as it lives forever. -/
def istep (x : Interner) (t addr : Nat) : Option Interner :=
  match x.pc t with
  | .idle => none
  | .waiting s =>
    match x.lock with
    | none => some { x with lock := some t, pc := setPc x t (.locked s) }
    | some _ => none
  | .locked s =>
    match x.table.find? (fun r => read x.mem r == s) with
    | some prev => some { x with pc := setPc x t (.leaving s prev) }
    | none => some { x with pc := setPc x t (.missed s) }
  | .missed s =>
    if x.blocks.all (fun b => b.disjoint ⟨addr, s.length⟩) then
      some { x with mem := write x.mem addr s, blocks := ⟨addr, s.length⟩ :: x.blocks,
                    pc := setPc x t (.allocated s ⟨addr, s.length⟩) }
    else none
  | .allocated s r => some { x with table := r :: x.table, pc := setPc x t (.leaving s r) }
  | .leaving s r =>
    some { x with lock := none, pc := setPc x t .idle, returned := (s, r) :: x.returned }

def iact (x : Interner) : IAct → Option Interner
  | .call t s => if x.pc t = .idle then some { x with pc := setPc x t (.waiting s) } else none
  | .step t addr => istep x t addr

def runIActs (x : Interner) : List IAct → Option Interner
  | [] => some x
  | a :: as => (iact x a).bind (runIActs · as)

/-- `Identifier`s are equal if their references are the same (name.rs:43-47). -/
def identEq (a b : Ref) : Bool := a == b

end Spade.Ids

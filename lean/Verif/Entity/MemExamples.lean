import Verif.Entity.Memory
import Verif.Entity.Examples
/-!
# C50: an entity with a memory that meets the hypotheses, and memories for which the property fails
-/
namespace Spade.Entity
open Spade.Verilog Spade.Codegen Spade.Lower Spade.Expr
open Spade.Match (Val Matches)

/-- The type of a write port for addresses of 2 bits. -/
def ramPort : MTy := .tuple [.bool, .uint 2, .uint 8]

/-- ```
inst clocked_memory_init(clk, [(we, waddr, data), (we, 1, 99)], [10, 20, 30, 40])
``` -/
def ramMem : Mem where
  id := 5
  name := 6
  elem := .uint 8
  len := 4
  width := 2
  ports := 2
  clock := .var 0 .bool
  writes := .array 7 (.array ramPort 2)
    [.tuple 8 ramPort [.var 1 .bool, .var 2 (.uint 2), .var 3 (.uint 8)],
     .tuple 16 ramPort [.var 1 .bool, .int 17 (.uint 2) 1, .int 18 (.uint 8) 99]]
  initial := some (.array 9 (.array (.uint 8) 4)
    [.int 10 (.uint 8) 10, .int 11 (.uint 8) 20, .int 12 (.uint 8) 30, .int 13 (.uint 8) 40])

/-- ```
entity ram(clk: clock, we: bool, waddr: uint<2>, data: uint<8>, raddr: uint<2>) -> uint<8> {
  let mem: Memory<uint<8>, 4> =
    inst clocked_memory_init(clk, [(we, waddr, data), (we, 1, 99)], [10, 20, 30, 40]);
  let x = inst read_memory(mem, raddr);
  x
}
``` -/
def ram : Ent where
  params := [(0, .bool), (1, .bool), (2, .uint 2), (3, .uint 8), (4, .uint 2)]
  body := [.mem ramMem, .read 14 (.uint 8) (.bound 15 (.uint 8)) 6 (.var 4 (.uint 2))]
  result := .var 15 (.uint 8)
  types n := if n ∈ [0, 1] then .bool else if n ∈ [2, 4, 17] then .uint 2
    else if n ∈ [5, 6] then .memory (.uint 8) 4 else if n = 7 then .array ramPort 2
    else if n ∈ [8, 16] then ramPort else if n = 9 then .array (.uint 8) 4 else .uint 8

/-- The program with this entity. -/
def ramEnts : Ents := fun u => if u = 0 then some ram else none

theorem ramEnts_ok : ramEnts.Ok exProg := by
  intro u E hE
  simp only [ramEnts, Option.ite_none_right_eq_some, Option.some.injEq] at hE
  obtain ⟨rfl, rfl⟩ := hE
  refine ⟨by simp [ram], ?_, by simp [ram, Expr.Ok]⟩
  intro s hs
  simp only [ram, List.mem_cons, List.not_mem_nil, or_false] at hs
  rcases hs with rfl | rfl
  · refine ⟨⟨?_, ?_, ?_, ?_, ?_, ?_, ?_⟩, by simp [ramMem, ram, Mem.ty]⟩
    · simp [ramMem, Expr.Ok, Expr.ty, ram]
    · simp [ramMem, Mem.portsTy, Expr.Ok, Exprs.Ok, Expr.ty, ram, ramPort, InRange]
    · intro e h
      simp only [ramMem, Option.some.injEq] at h
      subst h
      simp [ramMem, Expr.Ok, Exprs.Ok, Expr.ty, InRange, Foldable, Foldables, MTy.size, Expr.names,
        Exprs.names]
    · simp [ramMem]
    · simp [ramMem, MTy.size]
    · simp [ramMem]
    · simp [ramMem, Mem.portsTy, MTy.size, sizes]
  · refine ⟨by simp [PatOk, LPat.Ok, LPat.Readable, LPat.ty, MTy.size], rfl, ⟨4, by simp [ram]⟩,
      by simp [Expr.Ok, ram], 2, by simp [Expr.ty], by simp⟩

theorem ram_resolved : ram.Resolved 30 := by
  refine ⟨by decide, by decide, ?_, ?_⟩
  · simp [ram, ramMem, EStm.Scoped, Expr.Scoped, Exprs.Scoped, Ent.InScope, EStm.vars, patVars]
  · simp [ram, ramMem, EStm.Armed, Expr.Armed, Exprs.Armed]

theorem ram_ordered : ram.Ordered := by
  refine ⟨?_, ?_, ?_⟩
  · intro r hr
    simp [ram] at hr
  · intro m hm
    simp only [ram, List.mem_cons, EStm.mem.injEq, reduceCtorEq, List.not_mem_nil, or_false] at hm
    subst hm
    exact ⟨0, .bool, rfl, by simp [ram]⟩
  · simp [ram, ramMem, InOrder, EStm.Scoped, Expr.Scoped, Exprs.Scoped, EStm.regVars, EStm.vars]

theorem ram_accepted : Accepted exProg ramEnts (fun _ => 30) (fun _ => 30) where
  progOk := exProg_ok
  progAcyclic := exProg_acyclic
  progResolved := exProg_resolved
  entsOk := ramEnts_ok
  entsAcyclic := by
    refine ⟨id, ?_⟩
    intro u E hE
    simp only [ramEnts, Option.ite_none_right_eq_some, Option.some.injEq] at hE
    obtain ⟨rfl, rfl⟩ := hE
    simp [ram, EStm.insts]
  entsResolved := by
    intro u E hE
    simp only [ramEnts, Option.ite_none_right_eq_some, Option.some.injEq] at hE
    obtain ⟨rfl, rfl⟩ := hE
    exact ram_resolved

theorem ram_generated : Generated exProg ramEnts (fun _ => 30) (fun _ => 30) where
  units := exProg_typed
  entities := by
    intro u E hE
    simp only [ramEnts, Option.ite_none_right_eq_some, Option.some.injEq] at hE
    obtain ⟨rfl, rfl⟩ := hE
    refine ⟨_, rfl, ?_, C48_no_loops _ 30 _ ram_resolved ram_ordered rfl⟩
    simp [ram, ramMem, EItem.Typed, Item.Typed, target, LPat.name, LPat.ty, Mem.ty]

/-- The clock is low at even times.  Writes are enabled at times 2 and 3, at address 2.  The read
address counts from 0 to 3. -/
def ramIns : Inputs := fun t k => match k with
  | 0 => some (.bool (t % 2 == 1))
  | 1 => some (.bool (decide (2 ≤ t ∧ t < 4)))
  | 2 => some (.int 2)
  | 3 => some (.int (77 + (t % 4 : Nat)))
  | 4 => some (.int (t % 4 : Nat))
  | _ => none

/-- The bits of these inputs. -/
def ramBits : Nat → List Bits := fun t =>
  [[t % 2 == 1], [decide (2 ≤ t ∧ t < 4)], ofInt 2 2, ofInt 8 (77 + (t % 4 : Nat)),
   ofInt 2 (t % 4 : Nat)]

theorem ram_var (t : Nat) {k : Nat} {p : Nat × MTy} {v : Val} (hp : ram.params[k]? = some p)
    (hv : ramIns t k = some v) : Known exProg ramEnts 0 ramIns t p.1 v :=
  .input (E := ram) rfl hp hv

theorem ram_gives (t : Nat) {k : Nat} {p : Nat × MTy} {v : Val} (hp : ram.params[k]? = some p)
    (hv : ramIns t k = some v) : Gives exProg ramEnts 0 ramIns t (.var p.1 p.2) v := by
  refine .mk (env := fun n => if n = p.1 then some v else none) (.var (by simp)) ?_
  intro n w h
  simp only [Option.ite_none_right_eq_some, Option.some.injEq] at h
  obtain ⟨rfl, rfl⟩ := h
  exact ram_var t hp hv

/-- The values of the write ports. -/
def ramWs (t : Nat) : List Val :=
  [.tup [.bool (decide (2 ≤ t ∧ t < 4)), .int 2, .int (77 + (t % 4 : Nat))],
   .tup [.bool (decide (2 ≤ t ∧ t < 4)), .int 1, .int 99]]

theorem ram_writes (t : Nat) : Gives exProg ramEnts 0 ramIns t ramMem.writes (.tup (ramWs t)) := by
  refine .mk (env := fun n => if n = 1 then some (.bool (decide (2 ≤ t ∧ t < 4))) else
    if n = 2 then some (.int 2) else if n = 3 then some (.int (77 + (t % 4 : Nat))) else none) ?_ ?_
  · exact .array (.cons (.tuple (.cons (.var rfl) (.cons (.var rfl) (.cons (.var rfl) .nil))))
      (.cons (.tuple (.cons (.var rfl) (.cons .int (.cons .int .nil)))) .nil))
  · intro n w h
    split at h
    · next hn => subst hn; cases h; exact ram_var t (k := 1) (p := (1, .bool)) rfl rfl
    · split at h
      · next hn => subst hn; cases h; exact ram_var t (k := 2) (p := (2, .uint 2)) rfl rfl
      · split at h
        · next hn => subst hn; cases h; exact ram_var t (k := 3) (p := (3, .uint 8)) rfl rfl
        · cases h

theorem ram_kept {t a : Nat} (h : ¬ (2 ≤ t ∧ t < 4) ∨ (a ≠ 1 ∧ a ≠ 2)) :
    KeptAt exProg ramEnts 0 ramIns t ramMem a := by
  refine .inr (.inr ⟨_, ram_writes t, ?_⟩)
  rcases h with h | ⟨h1, h2⟩
  · simp [ramWs, lastWrite, written, h]
  · by_cases h : 2 ≤ t ∧ t < 4
    · have e1 : ¬ (1 : Int) = a := by omega
      have e2 : ¬ (2 : Int) = a := by omega
      simp [ramWs, lastWrite, written, h, e1, e2]
    · simp [ramWs, lastWrite, written, h]

theorem ram_clock (t : Nat) : Gives exProg ramEnts 0 ramIns t ramMem.clock (.bool (t % 2 == 1)) :=
  ram_gives t (k := 0) (p := (0, .bool)) rfl rfl

theorem ram_written {a : Nat} {v : Int} (h : (a = 2 ∧ v = 79) ∨ (a = 1 ∧ v = 99)) :
    WrittenAt exProg ramEnts 0 ramIns 2 ramMem a (.int v) := by
  refine ⟨ram_clock 2, ram_clock 3, _, ram_writes 2, ?_⟩
  rcases h with ⟨rfl, rfl⟩ | ⟨rfl, rfl⟩ <;> simp [ramWs, lastWrite, written, ramMem]

/-- All hypotheses of C50 hold: the hardware of `ram` has a history for these inputs, and in every one
of them it gives the initial values 10, 20 and 40, 79 after that was written at time 2, and 99, which
is written by the second port. -/
theorem example_ram :
    (∃ out, EProduces (lowerProg exProg fun _ => 30) (lowerEnts ramEnts fun _ => 30) 0 ramBits out) ∧
    ∀ out, EProduces (lowerProg exProg fun _ => 30) (lowerEnts ramEnts fun _ => 30) 0 ramBits out →
      Enc (.uint 8) (.int 10) (out 0) ∧ Enc (.uint 8) (.int 20) (out 1) ∧
      Enc (.uint 8) (.int 30) (out 2) ∧ Enc (.uint 8) (.int 40) (out 3) ∧
      Enc (.uint 8) (.int 99) (out 5) ∧ Enc (.uint 8) (.int 79) (out 6) := by
  have hin : InputsEncode ram.params ramIns ramBits := by
    intro t k v p b hv hp hb
    match k, hv, hp, hb with
    | 0, hv, hp, hb => cases hv; cases hp; cases hb; exact .bool
    | 1, hv, hp, hb => cases hv; cases hp; cases hb; exact .bool
    | 2, hv, hp, hb => cases hv; cases hp; cases hb; exact .uint (by simp [InRange])
    | 3, hv, hp, hb =>
      cases hv; cases hp; cases hb
      exact .uint (by simp only [InRange]; omega)
    | 4, hv, hp, hb =>
      cases hv; cases hp; cases hb
      exact .uint (by simp only [InRange]; omega)
    | k + 5, hv, hp, hb => cases hv
  have h1 := C48_entity_has_history exProg ramEnts (fun _ => 30) (fun _ => 30) ram_accepted
    ram_generated 0 ram rfl ramBits (fun t => by simp [ramBits, ram, MTy.size])
  obtain ⟨out, ho, _⟩ := h1
  refine ⟨⟨out, ho⟩, fun out ho => ?_⟩
  have key : ∀ (t : Nat) (v : Val), Stored exProg ramEnts 0 ramIns t ramMem (t % 4) v →
      Enc (.uint 8) v (out t) := fun t v h =>
    C50_read_last_write_partial exProg ramEnts (fun _ => 30) (fun _ => 30) 0 ram ramIns ramBits out t
      ramMem 14 15 (.uint 8) (.uint 8) (.var 4 (.uint 2)) (t % 4) v exProg_ok ramEnts_ok rfl
      (by simp [ram]) (by simp [ram, ramMem]) rfl (ram_gives t (k := 4) (p := (4, .uint 2)) rfl rfl) h
      hin ho
  have hi : Ev exProg (fun _ => none) (.array 9 (.array (.uint 8) 4)
      [.int 10 (.uint 8) 10, .int 11 (.uint 8) 20, .int 12 (.uint 8) 30, .int 13 (.uint 8) 40])
      (.tup [.int 10, .int 20, .int 30, .int 40]) :=
    .array (.cons .int (.cons .int (.cons .int (.cons .int .nil))))
  have hk : ∀ {r a : Nat}, 2 < r → KeptAt exProg ramEnts 0 ramIns r ramMem a := by
    intro r a h
    by_cases h3 : r = 3
    · subst h3; exact .inl (ram_clock 3)
    · exact ram_kept (by omega)
  exact ⟨key 0 _ (.initial _ _ rfl hi rfl fun r hr => by omega),
    key 1 _ (.initial _ _ rfl hi rfl fun r hr => ram_kept (by omega)),
    key 2 _ (.initial _ _ rfl hi rfl fun r hr => ram_kept (by omega)),
    key 3 _ (.initial _ _ rfl hi rfl fun r hr => ram_kept (by omega)),
    key 5 _ (.written 2 (by omega) (ram_written (.inr ⟨rfl, rfl⟩)) fun r h1 h2 => hk h1),
    key 6 _ (.written 2 (by omega) (ram_written (.inl ⟨rfl, rfl⟩)) fun r h1 h2 => hk h1)⟩

/-! ## Memories for which the property fails -/

/-- C50 fails for a memory whose address has no bits, as that of a memory with one element: the
address becomes `x[start-1:start]`, which is not legal. -/
theorem C50_counterexample_address (ρ : Env) (xs : Nat → Bool) (x dw port : Nat) (m : Nat → Bits)
    (hdw : dw ≠ 0) :
    ∃ p, memPort x 0 dw port = some p ∧ p.addr = .part x ((1 + dw) * port + dw - 1) ((1 + dw) * port + dw) ∧
      p.store ρ xs dw m = none := by
  refine ⟨_, by rw [memPort, if_neg (by omega)], ?_, ?_⟩
  · simp
  · simp only [MemPort.store, Nat.add_zero, if_neg (show ¬ (0 = 1) by omega)]
    have : (VExpr.part x ((1 + dw) * port + dw - 1) ((1 + dw) * port + dw)).value ρ xs = none := by
      simp only [VExpr.value, VExpr.eval]
      split
      · rfl
      · simp [slice]
        omega
    rw [this]
    cases VExpr.value ρ xs (.bit x (.dec ((1 + dw) * (port + 1) - 1))) <;> rfl

/-- C50 fails for a memory without bits, such as one with no elements or one of elements without bits,
which type inference allows: the compiler panics when it generates the `always` block. -/
theorem C50_counterexample_empty (t wty : MTy) (len x : Nat) (h : t.size = 0 ∨ len = 0) :
    memPorts (.memory t len) wty x = none := by
  rcases h with h | h <;> simp [memPorts, MTy.size, h]

/-- The code for a read, `m[addr]` (`IndexMemory`, spade-mir/src/codegen/mod.rs:512-514), in a unit to
which the memory is passed as an input: there `m` is declared as a vector with all bits of the memory
(`entity_code`, mod.rs:1328-1365) and not as an array of words. -/
def readInput (m addr : Nat) : VExpr := .bit m (.var addr)

/-- C50 fails for a memory that is passed to another unit, which type inference allows: a read there
selects a bit.  With `Memory<uint<2>, 2>` all of whose words are 3, the result is 1. -/
theorem C50_counterexample_input :
    ∃ (ρ : Env), (ρ 0).length = (MTy.memory (.uint 2) 2).size ∧
      (∀ a, a < 2 → word 2 (ρ 0) a = [true, true]) ∧ ρ 1 = [true] ∧
      ∀ xs, assigned ρ xs 2 (readInput 0 1) = some [false, true] := by
  refine ⟨fun n => if n = 0 then [true, true, true, true] else [true], rfl, ?_, rfl, fun xs => rfl⟩
  intro a ha
  match a with
  | 0 => rfl
  | 1 => rfl

end Spade.Entity

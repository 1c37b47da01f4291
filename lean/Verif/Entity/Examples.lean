import Verif.Entity.Check
import Verif.Entity.Exists
import Verif.Entity.Loops
import Verif.Expr.ExistsExamples
/-!
# C47 and C48: entities that meet the hypotheses, and initial values on which the compiler crashes
-/
namespace Spade.Entity
open Spade.Verilog Spade.Codegen Spade.Lower Spade.Expr
open Spade.Match (Val Matches)

/-- The register
`reg(clk) (x, b) reset(rst: (0, false)) initial((3, true)) = (clamp(trunc(x + 1)), !b)`. -/
def countReg : Reg where
  p := .tuple 2 exR [.bound 3 (.uint 4), .bound 4 .bool]
  clock := .var 0 .bool
  reset := some (.var 1 .bool, .tuple 5 exR [.int 6 (.uint 4) 0, .bool 7 false])
  initial := some (.tuple 8 exR [.int 9 (.uint 4) 3, .bool 10 true])
  value := .tuple 11 exR
    [.call 12 (.uint 4) (.unit 0) [.call 13 (.uint 4) (.intr .trunc)
      [.bin 14 (.uint 5) .add (.var 3 (.uint 4)) (.int 15 (.uint 4) 1)]],
     .un 16 .bool .not (.var 4 .bool)]

/-- ```
entity count(clk: clock, rst: bool) -> uint<4> {
  reg(clk) (x, b) reset(rst: (0, false)) initial((3, true)) = (clamp(trunc(x + 1)), !b);
  x
}
``` -/
def count : Ent where
  params := [(0, .bool), (1, .bool)]
  body := [.reg countReg]
  result := .var 3 (.uint 4)
  types n := if n ∈ [2, 5, 8, 11] then exR else if n ∈ [3, 6, 9, 12, 13, 15] then .uint 4
    else if n = 14 then .uint 5 else .bool

/-- `entity top(clk: clock, rst: bool) -> uint<4> { let y = inst count(clk, rst); y }`. -/
def top : Ent where
  params := [(0, .bool), (1, .bool)]
  body := [.inst 2 (.uint 4) (.bound 3 (.uint 4)) 0 [.var 0 .bool, .var 1 .bool]]
  result := .var 3 (.uint 4)
  types n := if n ∈ [2, 3] then .uint 4 else .bool

/-- Both entities. -/
def exEnts : Ents
  | 0 => some count
  | 1 => some top
  | _ => none

theorem exEnts_ok : exEnts.Ok exProg := by
  intro u E hE
  match u with
  | 0 =>
    simp only [exEnts, Option.some.injEq] at hE
    subst hE
    refine ⟨by simp [count], ?_, by simp [count, Expr.Ok]⟩
    intro s hs
    simp only [count, List.mem_singleton] at hs
    subst hs
    refine ⟨?_, ?_, ?_, ?_, ?_⟩
    · simp [countReg, PatOk, LPat.Ok, Oks, LPat.Readable, Readables, exR, LPat.ty, MTy.size, sizes]
    · simp [countReg, Expr.Ok, Expr.ty, count]
    · intro c e h
      simp only [countReg, Option.some.injEq, Prod.mk.injEq] at h
      obtain ⟨rfl, rfl⟩ := h
      simp [countReg, Expr.Ok, Exprs.Ok, Expr.ty, count, exR, LPat.ty, InRange]
    · intro e h
      simp only [countReg, Option.some.injEq] at h
      subst h
      simp [countReg, Expr.Ok, Exprs.Ok, Expr.ty, exR, LPat.ty, InRange, Foldable, Foldables,
        MTy.size, Expr.names, Exprs.names]
    · simp [countReg, Expr.Ok, Exprs.Ok, Expr.ty, count, exR, LPat.ty, InRange, Prog.sig, exProg, clamp,
        MTy.size]
      exact ⟨⟨.trunc (by simp [IsNum]) (by simp [IsNum]) (by simp [MTy.size]) (by simp [MTy.size]),
        .addUint⟩, .not⟩
  | 1 =>
    simp only [exEnts, Option.some.injEq] at hE
    subst hE
    refine ⟨by simp [top], ?_, by simp [top, Expr.Ok]⟩
    intro s hs
    simp only [top, List.mem_singleton] at hs
    subst hs
    refine ⟨by simp [PatOk, LPat.Ok, LPat.Readable, LPat.ty, MTy.size], rfl,
      by simp [Exprs.Ok, Expr.Ok, top], ?_⟩
    intro E hE
    simp only [exEnts, Option.some.injEq] at hE
    subst hE
    simp [Expr.ty, count]

theorem exEnts_resolved : ∀ u E, exEnts u = some E → E.Resolved 30 := by
  intro u E hE
  match u with
  | 0 =>
    simp only [exEnts, Option.some.injEq] at hE
    subst hE
    refine ⟨by decide, by decide, ?_, ?_⟩
    · simp [count, countReg, EStm.Scoped, Expr.Scoped, Exprs.Scoped, Ent.InScope, EStm.vars, patVars,
        patsVars]
    · simp [count, countReg, EStm.Armed, Expr.Armed, Exprs.Armed]
  | 1 =>
    simp only [exEnts, Option.some.injEq] at hE
    subst hE
    refine ⟨by decide, by decide, ?_, ?_⟩
    · simp [top, EStm.Scoped, Expr.Scoped, Exprs.Scoped, Ent.InScope, EStm.vars, patVars]
    · simp [top, EStm.Armed, Expr.Armed, Exprs.Armed]

theorem exEnts_ordered : ∀ u E, exEnts u = some E → E.Ordered := by
  intro u E hE
  match u with
  | 0 =>
    simp only [exEnts, Option.some.injEq] at hE
    subst hE
    refine ⟨?_, ?_, ?_⟩
    · intro r hr
      simp only [count, List.mem_singleton, EStm.reg.injEq] at hr
      subst hr
      exact ⟨0, .bool, rfl, by simp [count]⟩
    · intro m hm
      simp [count] at hm
    · simp [count, countReg, InOrder, EStm.Scoped, Expr.Scoped, Exprs.Scoped, EStm.regVars, patVars,
        patsVars]
  | 1 =>
    simp only [exEnts, Option.some.injEq] at hE
    subst hE
    refine ⟨?_, ?_, ?_⟩
    · intro r hr
      simp [top] at hr
    · intro m hm
      simp [top] at hm
    · simp [top, InOrder, EStm.Scoped, Expr.Scoped, Exprs.Scoped]

/-- The hypotheses of C48. -/
theorem example_accepted : Accepted exProg exEnts (fun _ => 30) (fun _ => 30) where
  progOk := exProg_ok
  progAcyclic := exProg_acyclic
  progResolved := exProg_resolved
  entsOk := exEnts_ok
  entsAcyclic := by
    refine ⟨id, ?_⟩
    intro u E hE
    match u with
    | 0 =>
      simp only [exEnts, Option.some.injEq] at hE
      subst hE
      simp [count, EStm.insts]
    | 1 =>
      simp only [exEnts, Option.some.injEq] at hE
      subst hE
      simp [top, EStm.insts, exEnts]
  entsResolved := exEnts_resolved

/-- The hypotheses of C48. -/
theorem example_generated : Generated exProg exEnts (fun _ => 30) (fun _ => 30) where
  units := exProg_typed
  entities := by
    intro u E hE
    have ho := exEnts_ordered u E hE
    have hr := exEnts_resolved u E hE
    match u with
    | 0 =>
      simp only [exEnts, Option.some.injEq] at hE
      subst hE
      refine ⟨_, rfl, ?_, C48_no_loops _ 30 _ hr ho rfl⟩
      simp [count, countReg, EItem.Typed, Item.Typed, target, LPat.name, LPat.ty, exR]
    | 1 =>
      simp only [exEnts, Option.some.injEq] at hE
      subst hE
      refine ⟨_, rfl, ?_, C48_no_loops _ 30 _ hr ho rfl⟩
      simp [top, EItem.Typed, Item.Typed, target, LPat.name, LPat.ty]

/-- The clock is low at even times and high at odd ones, and there is no reset. -/
def exIns : Inputs := fun t k => some (.bool (k == 0 && t % 2 == 1))

theorem count_clock (t : Nat) : Gives exProg exEnts 0 exIns t (.var 0 .bool) (.bool (t % 2 == 1)) := by
  refine .mk (env := fun n => if n = 0 then some (.bool (t % 2 == 1)) else none) (.var rfl) ?_
  intro n w h
  simp only [Option.ite_none_right_eq_some, Option.some.injEq] at h
  obtain ⟨rfl, rfl⟩ := h
  exact .input (k := 0) (p := (0, .bool)) rfl rfl (by simp [exIns])

theorem count_reset (t : Nat) : Gives exProg exEnts 0 exIns t (.var 1 .bool) (.bool false) := by
  refine .mk (env := fun n => if n = 1 then some (.bool false) else none) (.var rfl) ?_
  intro n w h
  simp only [Option.ite_none_right_eq_some, Option.some.injEq] at h
  obtain ⟨rfl, rfl⟩ := h
  exact .input (k := 1) (p := (1, .bool)) rfl rfl (by simp [exIns])

theorem count_initial : State exProg exEnts 0 exIns 0 countReg (.tup [.int 3, .bool true]) :=
  .initial rfl (.tuple (.cons .int (.cons .bool .nil)))

theorem clamp_small {x : Int} (hx : ¬ x > 9) :
    Ev exProg (callVars clamp.params [.int x]) clamp.body (.int x) := by
  refine .iteFalse ?_ (.var rfl)
  have := IntrVal.order (c := .gt) (ts := [.uint 4, .uint 4]) (ty := .bool) (x := x) (y := 9)
    (by simp) (by simp)
  simp only [Cmp.holds, hx, decide_false] at this
  exact .intr (.cons (.var rfl) (.cons .int .nil)) this

theorem count_vars {t : Nat} {x : Int} {b : Bool}
    (h : State exProg exEnts 0 exIns t countReg (.tup [.int x, .bool b])) :
    Known exProg exEnts 0 exIns t 3 (.int x) ∧ Known exProg exEnts 0 exIns t 4 (.bool b) := by
  have hm : Matches countReg.p.src (.tup [.int x, .bool b]) := ⟨trivial, trivial, trivial⟩
  exact ⟨.reg (r := countReg) (ty := .uint 4) (E := count) rfl (by simp [count]) h hm
      (by simp [countReg, LPat.binds, bindsAll]),
    .reg (r := countReg) (ty := .bool) (E := count) rfl (by simp [count]) h hm
      (by simp [countReg, LPat.binds, bindsAll])⟩

/-- One clock period. -/
theorem count_step {t : Nat} {x : Int} {b : Bool} (h0 : 0 ≤ x) (h9 : x < 9) (ht : t % 2 = 0)
    (h : State exProg exEnts 0 exIns t countReg (.tup [.int x, .bool b])) :
    State exProg exEnts 0 exIns (t + 1) countReg (.tup [.int (x + 1), .bool !b]) := by
  have c1 := count_clock t
  have c2 := count_clock (t + 1)
  have e1 : (t % 2 == 1) = false := by simp [ht]
  have e2 : ((t + 1) % 2 == 1) = true := by simp; omega
  rw [e1] at c1
  rw [e2] at c2
  refine .run rfl c1 c2 (count_reset t) ?_
  obtain ⟨k1, k2⟩ := count_vars h
  refine .mk (env := fun n => if n = 3 then some (.int x) else if n = 4 then some (.bool b) else none)
    ?_ ?_
  · refine .tuple (.cons ?_ (.cons (.un (.var rfl) .not) .nil))
    refine .unit (vs := [.int (x + 1)]) rfl (.cons ?_ .nil) (clamp_small (by omega))
    have w1 : wrap (.uint 5) (x + 1) = x + 1 := by simp only [wrap]; omega
    have w2 : wrap (.uint 4) (x + 1) = x + 1 := by simp only [wrap]; omega
    have := IntrVal.trunc (ts := [.uint 5]) (ty := .uint 4) (x := x + 1)
    rw [w2] at this
    refine .intr (vs := [.int (x + 1)]) (.cons (.bin (.var rfl) .int ?_) .nil) this
    simp only [binVal, w1]
  · intro n w h
    split at h
    · next hn => subst hn; cases h; exact k1
    · split at h
      · next hn => subst hn; cases h; exact k2
      · cases h

/-- The values the source gives to `top` for three clock edges: 3, 4, 4, 5, 5, 6. -/
theorem example_top :
    Gives exProg exEnts 1 exIns 0 top.result (.int 3) ∧ Gives exProg exEnts 1 exIns 1 top.result (.int 4) ∧
    Gives exProg exEnts 1 exIns 3 top.result (.int 5) ∧ Gives exProg exEnts 1 exIns 5 top.result (.int 6) := by
  have s0 := count_initial
  have s1 := count_step (by omega) (by omega) rfl s0
  have s2 := State.low (P := exProg) (D := exEnts) (count_clock 2) s1
  have s3 := count_step (by omega) (by omega) rfl s2
  have s4 := State.low (P := exProg) (D := exEnts) (count_clock 4) s3
  have s5 := count_step (by omega) (by omega) rfl s4
  have key : ∀ {t x b}, State exProg exEnts 0 exIns t countReg (.tup [.int x, .bool b]) →
      Gives exProg exEnts 1 exIns t top.result (.int x) := by
    intro t x b h
    refine .mk (env := fun n => if n = 3 then some (.int x) else none) (.var rfl) ?_
    intro n w h'
    simp only [Option.ite_none_right_eq_some, Option.some.injEq] at h'
    obtain ⟨rfl, rfl⟩ := h'
    refine .inst (E := top) (E' := count) (ins' := exIns) (u' := 0) (id := 2) (tyi := .uint 4)
      (p := .bound 3 (.uint 4)) (args := [.var 0 .bool, .var 1 .bool]) (v := .int x) (ty := .uint 4)
      rfl (by simp [top]) rfl ?_ ?_ trivial (by simp [LPat.binds])
    · intro s k e y he hy
      match k, he with
      | 0, he =>
        cases he
        simp only [exIns, Option.some.injEq] at hy
        subst hy
        refine .mk (env := fun n => if n = 0 then some (.bool (0 == 0 && s % 2 == 1)) else none)
          (.var rfl) ?_
        intro n w h'
        simp only [Option.ite_none_right_eq_some, Option.some.injEq] at h'
        obtain ⟨rfl, rfl⟩ := h'
        exact .input (k := 0) (p := (0, .bool)) (E := top) rfl rfl rfl
      | 1, he =>
        cases he
        simp only [exIns, Option.some.injEq] at hy
        subst hy
        refine .mk (env := fun n => if n = 1 then some (.bool (1 == 0 && s % 2 == 1)) else none)
          (.var rfl) ?_
        intro n w h'
        simp only [Option.ite_none_right_eq_some, Option.some.injEq] at h'
        obtain ⟨rfl, rfl⟩ := h'
        exact .input (k := 1) (p := (1, .bool)) (E := top) rfl rfl rfl
    · refine .mk (env := fun n => if n = 3 then some (.int x) else none) (.var rfl) ?_
      intro n w h'
      simp only [Option.ite_none_right_eq_some, Option.some.injEq] at h'
      obtain ⟨rfl, rfl⟩ := h'
      exact (count_vars h).1
  exact ⟨key s0, key s1, key s3, key s5⟩

/-- The bits of these inputs. -/
def exBits : Nat → List Bits := fun t => [[t % 2 == 1], [false]]

/-- All hypotheses of `C48_entity_runs` hold: the hardware of `top` has a history for these inputs, and
in every one of them the outputs are 3, 4, 5 and 6. -/
theorem example_runs :
    (∃ out, EProduces (lowerProg exProg fun _ => 30) (lowerEnts exEnts fun _ => 30) 1 exBits out) ∧
    ∀ out, EProduces (lowerProg exProg fun _ => 30) (lowerEnts exEnts fun _ => 30) 1 exBits out →
      Enc (.uint 4) (.int 3) (out 0) ∧ Enc (.uint 4) (.int 4) (out 1) ∧ Enc (.uint 4) (.int 5) (out 3) ∧
      Enc (.uint 4) (.int 6) (out 5) := by
  obtain ⟨h1, h2⟩ := C48_entity_runs exProg exEnts (fun _ => 30) (fun _ => 30) example_accepted
    example_generated 1 top rfl exIns exBits (fun t => rfl) (by
      intro t k v p b hv hp hb
      simp only [exIns, Option.some.injEq] at hv
      subst hv
      match k, hp, hb with
      | 0, hp, hb => cases hp; cases hb; exact .bool
      | 1, hp, hb => cases hp; cases hb; exact .bool)
  obtain ⟨g0, g1, g3, g5⟩ := example_top
  exact ⟨h1, fun out ho => ⟨h2 out ho 0 _ g0, h2 out ho 1 _ g1, h2 out ho 3 _ g3, h2 out ho 5 _ g5⟩⟩

/-! ## Initial values on which the compiler crashes -/

/-- C47 fails for `initial((3, true)#0)`.  The compiler checks that the value is known at compile
time, which it is, and then crashes: `eval_statements` (spade-mir/src/eval.rs) has `todo!()` for the
selection of a component, so that no hardware is generated. -/
theorem C47_counterexample_tuple_index :
    ∃ (e : Expr) (r : List Item × Nat) (ss : List Stmt), comptime e = true ∧ e.Ok (fun _ => none) (fun _ => .bool) ∧
      Ev (fun _ => none) (fun _ => none) e (.int 3) ∧ lowerE e 10 = some r ∧ stmtsOf r.1 = some ss ∧
      evalStatements ss = none ∧ lowerInitial (some e) 10 = some (some ss, 10) := by
  refine ⟨.proj 0 (.uint 4) (.tuple 1 exR [.int 2 (.uint 4) 3, .bool 3 true]) 0, _, _, rfl, ?_,
    .proj (.tuple (.cons .int (.cons .bool .nil))) (.tup rfl), rfl, rfl, rfl, rfl⟩
  simp [Expr.Ok, Exprs.Ok, Expr.ty, exR, unview, review, MTy.size, sizes, InRange]

/-- C47 fails for `initial([3, 5][1])`: the same for an element of an array. -/
theorem C47_counterexample_array_index :
    ∃ (e : Expr) (r : List Item × Nat) (ss : List Stmt), comptime e = true ∧ e.Ok (fun _ => none) (fun _ => .bool) ∧
      Ev (fun _ => none) (fun _ => none) e (.int 5) ∧ lowerE e 10 = some r ∧ stmtsOf r.1 = some ss ∧
      evalStatements ss = none ∧ lowerInitial (some e) 10 = some (some ss, 10) := by
  refine ⟨.elem 0 (.uint 4) (.array 1 (.array (.uint 4) 2) [.int 2 (.uint 4) 3, .int 3 (.uint 4) 5])
    (.int 4 (.uint 1) 1), _, _, rfl, ?_,
    .elem (k := 1) (.array (.cons .int (.cons .int .nil))) .int rfl, rfl, rfl, rfl, rfl⟩
  simp [Expr.Ok, Exprs.Ok, Expr.ty, MTy.size, InRange]

/-- C47 fails for `initial(3u4 + 4)`: literals become signed numbers in `eval_statements`, and the
sum of unsigned numbers then panics. -/
theorem C47_counterexample_unsigned :
    ∃ (e : Expr) (r : List Item × Nat) (ss : List Stmt), comptime e = true ∧ e.Ok (fun _ => none) (fun _ => .bool) ∧
      Ev (fun _ => none) (fun _ => none) e (.int 7) ∧ lowerE e 10 = some r ∧ stmtsOf r.1 = some ss ∧
      evalStatements ss = none ∧ lowerInitial (some e) 10 = some (some ss, 10) := by
  refine ⟨.bin 0 (.uint 5) .add (.int 1 (.uint 4) 3) (.int 2 (.uint 4) 4), _, _, rfl, ?_,
    .bin .int .int rfl, rfl, rfl, rfl, rfl⟩
  simp [Expr.Ok, Expr.ty, MTy.size, InRange]
  exact .addUint

/-- `(1 + 2, -4)`. -/
def exInit : Expr := .tuple 0 (.tuple [.int 4, .int 4])
  [.bin 1 (.int 4) .add (.int 2 (.int 3) 1) (.int 3 (.int 3) 2), .un 4 (.int 4) .neg (.int 5 (.int 4) 4)]

/-- `initial((1 + 2, -4))` is supported: the evaluator gives the bits of the value. -/
example : ∃ r v ss V str, lowerE exInit 10 = some r ∧ Ev exProg (fun _ => none) exInit v ∧
    stmtsOf r.1 = some ss ∧ evalStatements ss = some V ∧ V.asString = some str ∧ (∃ b, Fills str b) ∧
    ∀ b, Fills str b → Enc (.tuple [.int 4, .int 4]) v b := by
  obtain ⟨v, ss, V, str, h⟩ := C47_initial_value exProg (fun _ => none) (fun _ => .bool) exInit 10 _
    (by
      refine ⟨⟨.inl rfl, ⟨4, rfl⟩, ⟨⟨3, .inl rfl⟩, by simp [MTy.size]⟩, ⟨⟨3, .inl rfl⟩, by simp [MTy.size]⟩⟩,
        ⟨rfl, ⟨⟨4, .inl rfl⟩, by simp [MTy.size]⟩, ?_⟩, trivial⟩
      intro P z h
      cases h
      simp [InRange])
    (by decide) (by
      simp [exInit, Expr.Ok, Exprs.Ok, Expr.ty, InRange, MTy.size]
      exact ⟨.addInt, .neg⟩) rfl
  exact ⟨_, v, ss, V, str, rfl, h⟩

/-! ## Combinational loops -/

/-- `entity osc() -> bool { decl y; let x = !y; let y = x; y }`. -/
def osc : Ent where
  params := []
  body := [.stm .decl, .stm (.bind (.bound 1 .bool) (.un 2 .bool .not (.var 3 .bool))),
    .stm (.bind (.bound 3 .bool) (.var 1 .bool))]
  result := .var 3 .bool
  types _ := .bool

/-- The program with this entity. -/
def oscEnts : Ents := fun u => if u = 0 then some osc else none

/-- C48 fails if there is a combinational loop, and the compiler does not look for those: this entity
type checks, its names are resolved and it is lowered, but no history of signals satisfies the
generated assignments. -/
theorem C48_counterexample_loop :
    oscEnts.Ok (fun _ => none) ∧ oscEnts.Acyclic ∧ osc.Resolved 10 ∧ (∃ h, lowerEnt osc 10 = some h) ∧
    ∀ ins out, ¬ EProduces (fun _ => none) (lowerEnts oscEnts fun _ => 10) 0 ins out := by
  refine ⟨?_, ?_, ?_, ⟨_, rfl⟩, ?_⟩
  · intro u E hE
    simp only [oscEnts, Option.ite_none_right_eq_some, Option.some.injEq] at hE
    obtain ⟨rfl, rfl⟩ := hE
    refine ⟨by simp [osc], ?_, by simp [osc, Expr.Ok]⟩
    simp [osc, EStm.Ok, Stms.Ok, Expr.Ok, Expr.ty, LPat.ty, PatOk, LPat.Ok, LPat.Readable, MTy.size]
    exact .not
  · refine ⟨id, ?_⟩
    intro u E hE
    simp only [oscEnts, Option.ite_none_right_eq_some, Option.some.injEq] at hE
    obtain ⟨rfl, rfl⟩ := hE
    simp [osc, EStm.insts]
  · refine ⟨by decide, by decide, ?_, ?_⟩
    · simp [osc, EStm.Scoped, Stms.Scoped, Expr.Scoped, Ent.InScope, EStm.vars, patVars]
    · simp [osc, EStm.Armed, Stms.Armed, Expr.Armed]
  · intro ins out h
    cases h with
    | mk h1 h2 h3 h4 h5 =>
    rename_i h ρ xs
    have : lowerEnts oscEnts (fun _ => 10) 0 = some
      { inputs := [], items := [.item (.stmt (.bind 2 .bool .not [3])),
          .item (.stmt (.bind 1 .bool .alias [2])), .item (.stmt (.bind 3 .bool .alias [1]))],
        output := 3, types := fun _ => .bool } := rfl
    rw [this] at h1
    cases h1
    simp only [List.mem_cons, List.not_mem_nil, or_false, forall_eq_or_imp, forall_eq] at h4
    obtain ⟨k1, k2, k3⟩ := h4
    have f : ∀ n, (ρ 0 (fwd n)).length = 1 := fun n => h2 0 n
    obtain ⟨b, hb⟩ := one_bit (ρ := ρ 0) (f 3)
    have e1 : ρ 0 (fwd 2) = [!b] := by
      cases item_at k1 0 with
      | stmt h =>
        have h3 := (C44_logical (fun _ => .bool) 3 3 (ρ 0) (xs 0 2) b b hb hb).2.2.2
        exact Option.some.inj (h.2.symm.trans h3)
      | undefined _ h => cases h
    have e2 : ρ 0 (fwd 1) = ρ 0 (fwd 2) := by
      cases item_at k2 0 with
      | stmt h => exact holds_alias h (f 2)
      | undefined _ h => cases h
    have e3 : ρ 0 (fwd 3) = ρ 0 (fwd 1) := by
      cases item_at k3 0 with
      | stmt h => exact holds_alias h (f 1)
      | undefined _ h => cases h
    rw [e3, e2, e1] at hb
    simp at hb

end Spade.Entity

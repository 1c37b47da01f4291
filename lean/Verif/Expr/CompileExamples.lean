import Verif.Expr.Compile
import Verif.Expr.ExistsExamples
/-!
# C69: functions hardware is generated for, and functions it is not generated for
-/
namespace Spade.Expr
open Spade.Verilog Spade.Codegen Spade.Lower
open Spade.Match (Val)

theorem exProg_compiles : ∀ u f, exProg u = some f → f.body.Compiles := by
  intro u f hf
  match u with
  | 0 =>
    simp only [exProg, Option.some.injEq] at hf
    subst hf
    simp [clamp, Expr.Compiles, Exprs.Compile]
  | 1 =>
    simp only [exProg, Option.some.injEq] at hf
    subst hf
    simp [exMain, Expr.Compiles, Exprs.Compile, Stms.Compile, Arms.Compile, NoEmptyArray, NoEmptyArrays]

/-- The two functions of C45 meet the hypotheses of C69. -/
example (nid : Nat) : ∃ h, lowerFn exMain nid = some h :=
  (C69_lowered_iff exProg exProg_ok 1 exMain rfl nid).2 (exProg_compiles 1 exMain rfl)

theorem exProg_list : ∀ u f h, exProg u = some f → lowerFn f 30 = some h →
    ∀ n t, typeList h n = some t → f.types n = t := by
  intro u f h hu hl n t ht
  obtain ⟨h', hl', ht'⟩ := exProg_typed u f hu
  cases hl.symm.trans hl'
  have e : h.types = f.types ∧ h.inputs = f.params := by
    simp only [lowerFn, Option.bind_eq_bind, Option.bind_eq_some_iff, Option.some.injEq] at hl
    obtain ⟨r, _, rfl⟩ := hl
    exact ⟨rfl, rfl⟩
  rw [← e.1]
  exact list_of_typed (exProg_resolved u f hu) hl (by rw [e.1, e.2]; exact (exProg_ok u f hu).1) ht' n t ht

/-- So that `main` computes: for `Some(12)` and `false` the output is that for `(9, true)`. -/
example : ∃ out, Produces (lowerProg exProg fun _ => 30) 1 [[true, true, true, false, false], [false]] out ∧
    Enc exMain.body.ty (.tup [.int 9, .bool true]) out := by
  obtain ⟨_, _, hev, henc, _⟩ := example_program
  obtain ⟨⟨out, h1⟩, h2⟩ := C69_function_computes exProg (fun _ => 30) exProg_ok exProg_acyclic exProg_resolved
    exProg_compiles exProg_list 1 exMain rfl _ _ _ hev henc
  exact ⟨out, h1, h2 out h1⟩

/-- The types of the signals of `clamp`. -/
example : ∃ h, lowerFn clamp 30 = some h ∧ typeList h 0 = some (.uint 4) ∧ typeList h 2 = some .bool ∧
    typeList h 99 = none := ⟨_, rfl, by simp [typeList, clamp, addItem, insertTy], by
      simp [typeList, clamp, addItem, insertTy, Expr.variable], by
      simp [typeList, clamp, addItem, insertTy, Expr.variable]⟩

/-- `fn f(x: uint<8>) -> uint<8> { x / d }` for a literal `d`. -/
def divBy (d : Int) : Fn where
  params := [(0, .uint 8)]
  body := .bin 1 (.uint 8) .div (.var 0 (.uint 8)) (.int 2 (.uint 8) d)
  types _ := .uint 8

/-- Hardware is generated for division by 64, and not for division by 3 and by a variable. -/
example : (divBy 64).body.Compiles ∧ ¬ (divBy 3).body.Compiles ∧
    ¬ (Expr.bin 1 (.uint 8) .div (.var 0 (.uint 8)) (.var 0 (.uint 8))).Compiles := by
  refine ⟨?_, ?_, ?_⟩
  · simp only [divBy, Expr.Compiles, true_and]
    exact fun _ => ⟨2, .uint 8, 6, rfl, by omega⟩
  · simp only [divBy, Expr.Compiles, true_and, true_or, forall_const]
    rintro ⟨_, _, k, h, hk⟩
    have h := (isPow2_iff 3).2 ⟨k, by simpa using (Expr.int.inj h).2.2, hk⟩
    revert h
    decide +kernel
  · simp only [Expr.Compiles, true_and, true_or, forall_const]
    rintro ⟨_, _, k, h, hk⟩
    cases h

/-- `fn f(a: [bool; 0]) -> bool { match a { [] => true } }`. -/
def emptyMatch : Fn where
  params := [(0, .array .bool 0)]
  body := .match 1 .bool (.var 0 (.array .bool 0)) [.plain (.array 2 (.array .bool 0) []) (.bool 3 true)]
  types n := if n = 1 ∨ n = 3 then .bool else .array .bool 0

/-- C69 fails for patterns of arrays of length 0: the function type checks, its match has an arm for every
value, and lowering panics on it, whatever the next id. -/
theorem C69_counterexample_empty_array (sig : Nat → Option (List MTy × MTy)) (nid : Nat) :
    emptyMatch.body.Ok sig emptyMatch.types ∧ lowerFn emptyMatch nid = none := by
  constructor
  · simp only [emptyMatch, Expr.Ok, Arms.Ok, PatOk, LPat.Ok, Oks, LPat.Readable, Readables, LPat.ty, Expr.ty, MTy.size,
      and_true, true_and]
    simp
  · rfl

end Spade.Expr

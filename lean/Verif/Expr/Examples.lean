import Verif.Expr.Props
import Verif.Lower.Examples
/-!
# C45: a program that meets the hypotheses, and programs for which the property fails
-/
namespace Spade.Expr
open Spade.Verilog Spade.Codegen Spade.Lower
open Spade.Match (Val Matches)

/-- `enum Opt { None, Some(uint<4>) }`. -/
def exO : MTy := .enum [[], [.uint 4]]
/-- `(uint<4>, bool)`. -/
def exR : MTy := .tuple [.uint 4, .bool]

/-- `fn clamp(x: uint<4>) -> uint<4> { if x > 9 { 9 } else { x } }`. -/
def clamp : Fn where
  params := [(0, .uint 4)]
  body := .ite 1 (.uint 4) (.call 2 .bool (.intr (.cmp .gt)) [.var 0 (.uint 4), .int 3 (.uint 4) 9])
    (.int 4 (.uint 4) 9) (.var 0 (.uint 4))
  types n := if n = 2 then .bool else .uint 4

/-- ```
fn main(o: Opt, y: bool) -> (uint<4>, bool) {
  let (a, b) = (clamp(3), !y);
  match o { Some(n) if b => (clamp(n), b), Some(n) => (n, y), None => (a, false) }
}
``` -/
def exMain : Fn where
  params := [(0, exO), (1, .bool)]
  body := .block 2
    [.bind (.tuple 3 exR [.bound 4 (.uint 4), .bound 5 .bool])
      (.tuple 6 exR [.call 7 (.uint 4) (.unit 0) [.int 8 (.uint 4) 3], .un 9 .bool .not (.var 1 .bool)])]
    (.match 10 exR (.var 0 exO)
      [.guarded (.variant 11 exO 1 [.bound 12 (.uint 4)]) (.var 5 .bool)
        (.tuple 13 exR [.call 14 (.uint 4) (.unit 0) [.var 12 (.uint 4)], .var 5 .bool]),
       .plain (.variant 15 exO 1 [.bound 16 (.uint 4)]) (.tuple 17 exR [.var 16 (.uint 4), .var 1 .bool]),
       .plain (.variant 18 exO 0 []) (.tuple 19 exR [.var 4 (.uint 4), .bool 20 false])])
  types n := if n ∈ [0, 11, 15, 18] then exO else if n ∈ [3, 6, 10, 13, 17, 19] then exR
    else if n ∈ [4, 7, 8, 12, 14, 16] then .uint 4 else .bool

/-- The program with both functions. -/
def exProg : Prog
  | 0 => some clamp
  | 1 => some exMain
  | _ => none

/-- Values of the signals of `clamp` for the input `x` whose result is `y`. -/
def clampEnv (x : Bits) (gt : Bool) (y : Bits) : Env := fun v =>
  if v = fwd 0 then x else if v = fwd 1 then y else if v = fwd 2 then [gt]
  else [true, false, false, true]

/-- Values of the signals of `main` for `Some(12)` and `false`. -/
def mainEnv : Env := fun v => if v < 82 then envOf [
  [true, true, true, false, false], [false], [false], [false, false, true, true, true], [false,
  false, true, true], [true], [false, false, true, true, true], [false, false, true, true],
  [false, false, true, true], [true], [true, false, false, true, true], [true, true, true, false,
  false], [true, true, false, false], [true, false, false, true, true], [true, false, false,
  true], [true, true, true, false, false], [true, true, false, false], [true, true, false, false,
  false], [true, true, true, false, false], [false, false, true, true, false], [false], [false],
  [false], [false], [false], [false], [false], [false], [false], [false], [false], [true],
  [true], [true], [true], [false], [true], [true], [true], [false], [false]] v else [false]

theorem exProg_ok : exProg.Ok := by
  intro u f hf
  match u with
  | 0 =>
    simp only [exProg, Option.some.injEq] at hf
    subst hf
    refine ⟨by simp [clamp], ?_⟩
    simp [clamp, Expr.Ok, Exprs.Ok, Expr.ty, InRange]
    exact .order (by simp) (by simp) trivial
  | 1 =>
    simp only [exProg, Option.some.injEq] at hf
    subst hf
    refine ⟨by simp [exMain, exO], ?_⟩
    simp [exMain, Expr.Ok, Exprs.Ok, Stms.Ok, Arms.Ok, Expr.ty, InRange, LPat.ty, PatOk, LPat.Ok,
      Oks, LPat.Readable, Readables, exO, exR, Prog.sig, exProg, clamp, MTy.size, sizes]
    exact ⟨.not, by decide +kernel⟩

/-- Membership in a list of items, as a conjunction. -/
def AllItems (H : Nat → Option HUnit) (Γ : Nat → MTy) (ρ : Env) (xs : Nat → Nat → Bool) :
    List Item → Prop
  | [] => True
  | i :: is => ItemHolds H Γ ρ xs i ∧ AllItems H Γ ρ xs is

theorem allItems {H : Nat → Option HUnit} {Γ : Nat → MTy} {ρ : Env} {xs : Nat → Nat → Bool} :
    ∀ {is : List Item}, AllItems H Γ ρ xs is → ∀ i ∈ is, ItemHolds H Γ ρ xs i
  | _ :: _, h, i, hi => by
    simp only [List.mem_cons] at hi
    rcases hi with rfl | hi
    · exact h.1
    · exact allItems h.2 i hi

theorem clamp_produces {x : Bits} {gt : Bool} {y : Bits} (hx : x.length = 4) (hy : y.length = 4)
    (h1 : runOp clamp.types .bool .unsignedGt [0, 3] (clampEnv x gt y) (fun _ => false) = some [gt])
    (h2 : runOp clamp.types (.uint 4) .select [2, 4, 0] (clampEnv x gt y) (fun _ => false) = some y) :
    Produces (lowerProg exProg fun _ => 30) 0 [x] y := by
  refine .mk (ρ := clampEnv x gt y) (xs := fun _ _ => false) rfl ?_ rfl (allItems ?_) rfl
  · intro n
    match n with
    | 0 => exact hx
    | 1 => exact hy
    | 2 => rfl
    | n + 3 =>
      have h1 : clampEnv x gt y (fwd (n + 3)) = [true, false, false, true] := by
        unfold clampEnv
        rw [if_neg (by unfold fwd; omega), if_neg (by unfold fwd; omega),
          if_neg (by unfold fwd; omega)]
      have h2 : clamp.types (n + 3) = .uint 4 := by
        have : n + 3 ≠ 2 := by omega
        simp [clamp, this]
      unfold Fits
      rw [h1]
      show _ = (clamp.types (n + 3)).size
      rw [h2]; rfl
  · refine ⟨.stmt ⟨rfl, ?_⟩, .stmt ⟨rfl, h1⟩, .stmt ⟨rfl, ?_⟩, .stmt ⟨rfl, h2⟩, trivial⟩
    · show constBits (.uint 4) (.int 9) _ _ = some [true, false, false, true]
      rw [constBits_num (n := 4) (.inr rfl) (by simp [InRange])]
      decide +kernel
    · show constBits (.uint 4) (.int 9) _ _ = some [true, false, false, true]
      rw [constBits_num (n := 4) (.inr rfl) (by simp [InRange])]
      decide +kernel

/-- The hypotheses of `C45_function_value_partial` hold of a program with two functions, a `let`
with a pattern, an `if`, a `match` with a guard, and two calls. -/
theorem example_program :
    exProg.Ok ∧ exProg 1 = some exMain ∧
    Ev exProg (callVars exMain.params [.variant 1 [.int 12], .bool false]) exMain.body
      (.tup [.int 9, .bool true]) ∧
    EncAll (exMain.params.map (·.2)) [.variant 1 [.int 12], .bool false]
      [[true, true, true, false, false], [false]] ∧
    Produces (lowerProg exProg fun _ => 30) 1 [[true, true, true, false, false], [false]]
      [true, false, false, true, true] := by
  have clampEv : ∀ x : Int, x > 9 → Ev exProg (callVars clamp.params [.int x]) clamp.body (.int 9) := by
    intro x hx
    refine .iteTrue ?_ .int
    have := IntrVal.order (c := .gt) (ts := [.uint 4, .uint 4]) (ty := .bool) (x := x) (y := 9)
      (by simp) (by simp)
    simp only [Cmp.holds, hx, decide_true] at this
    exact .intr (.cons (.var rfl) (.cons .int .nil)) this
  have clampEv' : ∀ x : Int, ¬ x > 9 → Ev exProg (callVars clamp.params [.int x]) clamp.body (.int x) := by
    intro x hx
    refine .iteFalse ?_ (.var rfl)
    have := IntrVal.order (c := .gt) (ts := [.uint 4, .uint 4]) (ty := .bool) (x := x) (y := 9)
      (by simp) (by simp)
    simp only [Cmp.holds, hx, decide_false] at this
    exact .intr (.cons (.var rfl) (.cons .int .nil)) this
  refine ⟨exProg_ok, rfl, ?_, ?_, ?_⟩
  · refine .block (.bind (v := .tup [.int 3, .bool true]) (.tuple (.cons
      (.unit (vs := [.int 3]) rfl (.cons .int .nil) (clampEv' 3 (by omega)))
      (.cons (.un (.var rfl) (.not (b := false))) .nil))) ?_ .nil) ?_
    · simp [Matches, Match.MatchesAll, LPat.src, srcs]
    · refine .match (.var rfl) (.guarded ?_ (.var rfl) (.tuple (.cons
        (.unit (vs := [.int 12]) rfl (.cons (.var rfl) .nil) (clampEv 12 (by omega)))
        (.cons (.var rfl) .nil))))
      simp [Matches, Match.MatchesAll, LPat.src, srcs]
  · have h : [true, true, true, false, false] =
        ofNat (tagSize 2) 1 ++ [ofInt 4 12].flatten ++ [] := by decide +kernel
    rw [h]
    exact .cons (.enum (opts := [[], [.uint 4]]) (ts := [.uint 4]) rfl
      (.cons (.uint (by simp [InRange])) .nil) (by decide +kernel)) (.cons .bool .nil)
  · refine .mk (ρ := mainEnv) (xs := fun _ _ => false) rfl ?_ (by decide +kernel) (allItems ?_)
      (by decide +kernel)
    · intro n
      by_cases hn : n < 41
      · have : ∀ m < 41, Fits exMain.types mainEnv m := by unfold Fits; decide +kernel
        exact this n hn
      · have h1 : mainEnv (fwd n) = [false] := if_neg (by unfold fwd; omega)
        have h2 : exMain.types n = .bool := by
          simp only [exMain, List.mem_cons, List.not_mem_nil, or_false]
          rw [if_neg (by omega), if_neg (by omega), if_neg (by omega)]
        show (mainEnv (fwd n)).length = (exMain.types n).size
        rw [h1, h2]; rfl
    · repeat' first
        | exact trivial
        | exact .stmt ⟨rfl, by decide +kernel⟩
        | exact .inst rfl (clamp_produces (gt := false) rfl rfl (by decide +kernel)
            (by decide +kernel))
        | exact .inst rfl (clamp_produces (gt := true) rfl rfl (by decide +kernel)
            (by decide +kernel))
        | constructor

/-- `impl<#uint N, T: PartialEq> PartialEq for [T; N]` (spade-compiler/core/ops.spade:62-66) for
`[Opt; 1]`: `fn eq(self, rhs: Self) -> bool { intrinsics::eq(self, rhs) }`. -/
def arrayEq : Fn where
  params := [(0, .array exO 1), (1, .array exO 1)]
  body := .call 2 .bool (.intr (.cmp .eq)) [.var 0 (.array exO 1), .var 1 (.array exO 1)]
  types n := if n = 2 then .bool else .array exO 1

/-- C45 fails for `==` on arrays of enums with padding: the implementation in `core::ops` compares
all bits, also those that do not belong to the value.  Here `[None] == [None]` is false, because the
padding, for which the generated code leaves any bits, differs. -/
theorem C45_counterexample_padding :
    let P : Prog := fun u => if u = 0 then some arrayEq else none
    let vs : List Val := [.tup [.variant 0 []], .tup [.variant 0 []]]
    let ins : List Bits := [[false, false, false, false, false], [false, true, false, false, false]]
    Ev P (callVars arrayEq.params vs) arrayEq.body (.bool true) ∧
    EncAll (arrayEq.params.map (·.2)) vs ins ∧
    Produces (lowerProg P fun _ => 3) 0 ins [false] ∧ ¬ Enc .bool (.bool true) [false] := by
  refine ⟨.intr (.cons (.var rfl) (.cons (.var rfl) .nil)) .eqSame, ?_, ?_, ?_⟩
  · have enc : ∀ pad : Bits, pad.length = 4 →
        Enc (.array exO 1) (.tup [.variant 0 []]) (false :: pad) := by
      intro pad hp
      have h : false :: pad = [ofNat (tagSize 2) 0 ++ ([] : List Bits).flatten ++ pad].reverse.flatten := by
        have : ofNat (tagSize 2) 0 = [false] := by decide +kernel
        rw [this]
        simp
      rw [h]
      refine .array (.cons (.enum (opts := [[], [.uint 4]]) (ts := []) rfl .nil ?_) .nil)
      rw [hp]
      decide +kernel
    exact .cons (enc [false, false, false, false] rfl) (.cons (enc [true, false, false, false] rfl) .nil)
  · refine .mk (ρ := fun v => if v = fwd 2 then [false] else if v = fwd 0 then
      [false, false, false, false, false] else [false, true, false, false, false])
      (xs := fun _ _ => false) rfl ?_ (by decide +kernel) (allItems ⟨.stmt ⟨rfl, ?_⟩, trivial⟩)
      (by decide +kernel)
    · intro n
      have hs : exO.size = 5 := by decide +kernel
      match n with
      | 0 => simp [Fits, arrayEq, MTy.size, hs, fwd]
      | 1 => simp [Fits, arrayEq, MTy.size, hs, fwd]
      | 2 => rfl
      | n + 3 =>
        simp [Fits, arrayEq, MTy.size, hs, fwd]
        rw [if_neg (by omega)]
        rfl
    · decide +kernel
  · intro h
    cases h

end Spade.Expr

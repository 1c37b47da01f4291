import Verif.Lower.Encode
/-!
# C05: a case that meets the hypotheses, and cases in which the property fails
-/
namespace Spade.Lower
open Spade.Verilog Spade.Codegen

/-- Membership in a list of statements, as a conjunction. -/
def AllHold (Γ : Nat → MTy) (ρ : Env) (xs : Nat → Nat → Bool) : List Stmt → Prop
  | [] => True
  | s :: ss => Holds Γ ρ xs s ∧ AllHold Γ ρ xs ss

theorem allHold {Γ : Nat → MTy} {ρ : Env} {xs : Nat → Nat → Bool} : ∀ {ss : List Stmt},
    AllHold Γ ρ xs ss → ∀ s ∈ ss, Holds Γ ρ xs s
  | _ :: _, h, s, hs => by
    simp only [List.mem_cons] at hs
    rcases hs with rfl | hs
    · exact h.1
    · exact allHold h.2 s hs

/-- The types declared by statements. -/
def declared : List Stmt → Nat → MTy
  | [], _ => .bool
  | .const n t _ :: r, m => if n = m then t else declared r m
  | .bind n t _ _ :: r, m => if n = m then t else declared r m

/-- `enum Opt { None, Some(uint<2>) }`. -/
def exOpt : MTy := .enum [[], [.uint 2]]
/-- `(bool, Opt)`. -/
def exTy : MTy := .tuple [.bool, exOpt]

/-- `match x { (true, Some(n)) if g => r2, (_, None) => r3, (false, _) => r4,
(_, Some(2)) => r4, _ => r5 }`. -/
def exBranches : List Branch :=
  [⟨.tuple 10 exTy [.bool 11 true, .variant 12 exOpt 1 [.bound 13 (.uint 2)]], some ([], 1),
      ([], 2)⟩,
   ⟨.tuple 14 exTy [.bound 15 .bool, .variant 16 exOpt 0 []], none, ([], 3)⟩,
   ⟨.tuple 17 exTy [.bool 18 false, .bound 19 exOpt], none, ([], 4)⟩,
   ⟨.tuple 20 exTy [.bound 21 .bool, .variant 22 exOpt 1 [.int 23 (.uint 2) 2]], none, ([], 4)⟩,
   ⟨.bound 24 exTy, none, ([], 5)⟩]
/-- `(true, Some(2))`. -/
def exVal : Match.Val := .tup [.bool true, .variant 1 [.int 2]]
/-- The statements generated for it. -/
def exStmts : List Stmt := (lowerMatch 0 6 (.uint 3) exBranches 30).getD []
/-- The types of its signals. -/
def exΓ : Nat → MTy
  | 0 => exTy
  | 1 => .bool
  | 2 => .uint 3
  | 3 => .uint 3
  | 4 => .uint 3
  | 5 => .uint 3
  | n => declared exStmts n
/-- Values of the inputs: the scrutinee is `(true, Some(2))`, the guard is false. -/
def exIn : Env := envOf [[true, true, true, false], [false], [false, false, true],
  [false, true, false], [true, false, false], [true, true, true]]
/-- Values of all signals. -/
def exρ : Env := (hwRun exΓ (fun _ _ => false) exStmts exIn).getD exIn

/-- The hypotheses of `C05_first_arm_partial` and `C05_variables_partial` hold of a `match` with
five arms, one of them guarded, whose fourth arm is the first that is selected. -/
theorem example_match :
    lowerMatch 0 6 (.uint 3) exBranches 30 = some exStmts ∧
    (∀ s ∈ exStmts, Holds exΓ exρ (fun _ _ => false) s) ∧
    TypedBranches exΓ exρ 0 (.uint 3) exBranches ∧
    (∀ b ∈ exBranches, b.pat.Readable) ∧ (exΓ 0).size ≤ 2 ^ 32 ∧
    Enc (exΓ 0) exVal (exρ (fwd 0)) ∧
    (∃ b, exBranches[3]? = some b ∧ b.Selects exρ exVal ∧
      ∀ (j : Nat) b', j < 3 → exBranches[j]? = some b' → ¬ b'.Selects exρ exVal) ∧
    exρ (fwd 6) = [true, false, false] := by
  refine ⟨rfl, allHold ?_, ?_, ?_, by decide +kernel, ?_, ⟨_, rfl, ?_, ?_⟩, by decide +kernel⟩
  · simp only [exStmts, lowerMatch, lowerBranches, exBranches]
    repeat' first | exact ⟨rfl, by decide +kernel⟩ | exact trivial | constructor
  · intro b hb
    simp only [exBranches, List.mem_cons, List.not_mem_nil, or_false] at hb
    rcases hb with rfl | rfl | rfl | rfl | rfl
    all_goals refine ⟨rfl, ?_, ?_, by decide +kernel⟩
    all_goals first
      | (intro g hg; cases hg; decide +kernel)
      | simp [LPat.Ok, Oks, LPat.ty, exTy, exOpt, InRange]
  · intro b hb
    simp only [exBranches, List.mem_cons, List.not_mem_nil, or_false] at hb
    rcases hb with rfl | rfl | rfl | rfl | rfl <;>
      simp [LPat.Readable, Readables, exOpt]
  · have h : exρ (fwd 0) =
        [[true], ofNat (tagSize 2) 1 ++ [ofInt 2 2].flatten ++ []].flatten := by decide +kernel
    rw [h]
    exact .tuple (.cons .bool (.cons
      (.enum (opts := [[], [.uint 2]]) (ts := [.uint 2]) rfl
        (.cons (.uint (by simp [InRange])) .nil) (by decide +kernel)) .nil))
  · simp [Branch.Selects, Match.Matches, Match.MatchesAll, exVal, LPat.src, srcs]
  · intro j b' hj hb
    match j, hj with
    | 0, _ =>
      simp only [exBranches, List.getElem?_cons_zero, Option.some.injEq] at hb
      subst hb
      rintro ⟨_, h⟩
      have := h _ rfl
      revert this
      decide +kernel
    | 1, _ =>
      simp only [exBranches, List.getElem?_cons_zero, List.getElem?_cons_succ,
        Option.some.injEq] at hb
      subst hb
      simp [Branch.Selects, Match.Matches, Match.MatchesAll, exVal, LPat.src, srcs]
    | 2, _ =>
      simp only [exBranches, List.getElem?_cons_zero, List.getElem?_cons_succ,
        Option.some.injEq] at hb
      subst hb
      simp [Branch.Selects, Match.Matches, Match.MatchesAll, exVal, LPat.src, srcs]

/-- The further hypotheses of `C05_accepted_match_partial` hold of the `match` without its arm on
the literal: the check accepts it. -/
example : Match.checkMatch (srcTy exTy)
      ((exBranches.eraseIdx 3).map fun b => (b.pat.src, b.guard.isSome)) = some [] ∧
    Match.NoEnumView (srcTy exTy) ∧ Match.NoOpaque (srcTy exTy) ∧
    ∀ b ∈ exBranches.eraseIdx 3, Match.NoIntLit b.pat.src := by
  refine ⟨Match.C02_exhaustive_accepted_partial ?_ ?_ ?_, ?_, ?_, ?_⟩
  · intro a ha
    simp only [exBranches, List.eraseIdx, List.map_cons, List.map_nil, List.mem_cons,
      List.not_mem_nil, or_false] at ha
    rcases ha with rfl | rfl | rfl | rfl
    · exact ok_patTy (.tuple 10 exTy [.bool 11 true, .variant 12 exOpt 1 [.bound 13 (.uint 2)]])
        (by simp [LPat.Ok, Oks, LPat.ty, exTy, exOpt])
    · exact ok_patTy (.tuple 14 exTy [.bound 15 .bool, .variant 16 exOpt 0 []])
        (by simp [LPat.Ok, Oks, LPat.ty, exTy, exOpt])
    · exact ok_patTy (.tuple 17 exTy [.bool 18 false, .bound 19 exOpt])
        (by simp [LPat.Ok, Oks, LPat.ty, exTy, exOpt])
    · exact ok_patTy (.bound 24 exTy) (by simp [LPat.Ok])
  · simp [srcTy, srcTys, srcTyss, exTy, exOpt, Match.NoEnumView, Match.NoEnumViews,
      Match.NoEnumViewss]
  · intro v _
    exact ⟨(.bound (srcTy exTy), false), by simp [exBranches, LPat.src], rfl,
      by simp [Match.Matches]⟩
  · simp [srcTy, srcTys, srcTyss, exTy, exOpt, Match.NoEnumView, Match.NoEnumViews,
      Match.NoEnumViewss]
  · simp [srcTy, srcTys, srcTyss, exTy, exOpt, Match.NoOpaque, Match.NoOpaques, Match.NoOpaquess]
  · intro b hb
    simp only [exBranches, List.eraseIdx, List.mem_cons, List.not_mem_nil, or_false] at hb
    rcases hb with rfl | rfl | rfl | rfl <;>
      simp [LPat.src, srcs, Match.NoIntLit, Match.NoIntLits]

/-- C05 fails for one-bit payloads of an enum with a single variant
(`C06_counterexample_single_variant`): with `enum E { A(bool, uint<2>) }`, the expression
`match e { A(true, _) => r1, _ => r2 }` evaluates to `r2` when `e` is `A(true, 0)`. -/
theorem C05_counterexample_single_variant :
    let E : MTy := .enum [[.bool, .uint 2]]
    let bs : List Branch := [⟨.variant 4 E 0 [.bool 5 true, .bound 6 (.uint 2)], none, ([], 1)⟩,
      ⟨.bound 7 E, none, ([], 2)⟩]
    let v : Match.Val := .variant 0 [.bool true, .int 0]
    ∃ (Γ : Nat → MTy) (ρ : Env) (stmts : List Stmt),
      lowerMatch 0 3 .bool bs 10 = some stmts ∧ (∀ s ∈ stmts, Holds Γ ρ (fun _ _ => false) s) ∧
      TypedBranches Γ ρ 0 .bool bs ∧ Enc (Γ 0) v (ρ (fwd 0)) ∧
      (∃ b, bs[0]? = some b ∧ b.Selects ρ v ∧ ρ (fwd 3) ≠ ρ (fwd b.res.2)) := by
  intro E bs v
  let stmts := (lowerMatch 0 3 .bool bs 10).getD []
  let Γ : Nat → MTy := fun n => if n = 0 then E else declared stmts n
  let ρ : Env := (hwRun Γ (fun _ _ => false) stmts
    (envOf [[true, false, false], [true], [false]])).getD fun _ => []
  refine ⟨Γ, ρ, stmts, rfl, allHold ?_, ?_, ?_, ⟨_, rfl, ?_, by decide +kernel⟩⟩
  · simp only [stmts, lowerMatch, lowerBranches, bs]
    repeat' first | exact ⟨rfl, by decide +kernel⟩ | exact trivial | constructor
  · intro b hb
    simp only [bs, List.mem_cons, List.not_mem_nil, or_false] at hb
    rcases hb with rfl | rfl
    · exact ⟨rfl, by simp [LPat.Ok, Oks, LPat.ty, E], by simp, by decide +kernel⟩
    · exact ⟨rfl, by simp [LPat.Ok], by simp, by decide +kernel⟩
  · have h : ρ (fwd 0) = ofNat (tagSize 1) 0 ++ [[true], [false, false]].flatten ++ [] := by
      decide +kernel
    rw [h]
    exact .enum (opts := [[.bool, .uint 2]]) (ts := [.bool, .uint 2]) rfl
      (.cons .bool (.cons (.uint (by simp [InRange])) .nil)) (by decide +kernel)
  · simp [Branch.Selects, Match.Matches, Match.MatchesAll, v, LPat.src, srcs]

/-- C05 fails for patterns of arrays of length 0: the compiler panics on
`match a { [] => r }` (`inner.len().ilog2()`, lib.rs:455), for every scrutinee and result. -/
theorem C05_counterexample_empty_array (operand self n : Nat) (e ty : MTy)
    (res : List Stmt × Nat) (nid : Nat) :
    LPat.Ok (.array n (.array e 0) []) ∧
    lowerMatch operand self ty [⟨.array n (.array e 0) [], none, res⟩] nid = none := by
  refine ⟨⟨⟨e, rfl, rfl⟩, trivial⟩, rfl⟩

end Spade.Lower

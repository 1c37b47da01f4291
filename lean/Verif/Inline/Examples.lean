import Verif.Inline.Terminates
/-! C33: examples, and what goes wrong without the hypotheses. -/
namespace Spade.Inline

open Spade.Mir

/-- The operators of the examples. -/
inductive XOp where
  | not
  | and
  | inst (unit : String)
  deriving DecidableEq

abbrev XStmt := Stmt XOp Unit Bool Unit
abbrev XEntity := Entity XOp Unit Bool Unit

def xinterp : Interp XOp Unit Bool Unit Bool where
  op o _ r os := match o with
    | .not => os = [!r]
    | .and => ∃ a b, os = [a, b] ∧ r = (a && b)
    | .inst _ => True
  reg _ _ _ _ x r := x = r
  const _ c x := x = c
  assert x := x = true
  set _ _ := True

def xcallee : XOp → Option String
  | .inst n => some n
  | _ => none

/-- `#[inline] fn f(a) {!a}` -/
def unitF : XEntity := ⟨"f", [⟨"a", .named 1 "a", (), false⟩], .expr 1, (), [
  .binding ⟨.expr 1, .other .not, [.named 1 "a"], ()⟩]⟩

/-- `#[inline] fn g(a, b) {let x = f(a); f(x) && b}` -/
def unitG : XEntity := ⟨"g", [⟨"a", .named 2 "a", (), false⟩, ⟨"b", .named 3 "b", (), false⟩], .expr 4, (), [
  .binding ⟨.expr 2, .other (.inst "f"), [.named 2 "a"], ()⟩,
  .binding ⟨.named 4 "x", .alias, [.expr 2], ()⟩,
  .binding ⟨.expr 3, .other (.inst "f"), [.named 4 "x"], ()⟩,
  .binding ⟨.expr 4, .other .and, [.expr 3, .named 3 "b"], ()⟩]⟩

/-- `entity main(a, b) {f(g(b, a))}` -/
def unitMain : XEntity := ⟨"main", [⟨"a", .named 5 "a", (), false⟩, ⟨"b", .named 6 "b", (), false⟩], .expr 6, (), [
  .binding ⟨.expr 5, .other (.inst "g"), [.named 6 "b", .named 5 "a"], ()⟩,
  .binding ⟨.expr 6, .other (.inst "f"), [.expr 5], ()⟩]⟩

def exampleDesign : Design XOp Unit Bool Unit where
  unit n := match n with
    | "f" => some ⟨true, unitF⟩
    | "g" => some ⟨true, unitG⟩
    | "main" => some ⟨false, unitMain⟩
    | _ => none
  callee := xcallee

theorem exampleDesign_unit {n : String} {u : Source XOp Unit Bool Unit} (h : exampleDesign.unit n = some u) :
    (n = "f" ∧ u = ⟨true, unitF⟩) ∨ (n = "g" ∧ u = ⟨true, unitG⟩) ∨ (n = "main" ∧ u = ⟨false, unitMain⟩) := by
  simp only [exampleDesign] at h
  split at h <;> simp_all

theorem exampleDesign_ok : exampleDesign.Ok where
  named n u h := by rcases exampleDesign_unit h with ⟨rfl, rfl⟩ | ⟨rfl, rfl⟩ | ⟨rfl, rfl⟩ <;> rfl
  inputs n u h hi := by
    rcases exampleDesign_unit h with ⟨rfl, rfl⟩ | ⟨rfl, rfl⟩ | ⟨rfl, rfl⟩
    · decide
    · decide
    · cases hi
  closed n u h hi := by
    rcases exampleDesign_unit h with ⟨rfl, rfl⟩ | ⟨rfl, rfl⟩ | ⟨rfl, rfl⟩
    · decide
    · decide
    · cases hi
  arity n u h s hs r e ty os hin := by
    rcases exampleDesign_unit h with ⟨rfl, rfl⟩ | ⟨rfl, rfl⟩ | ⟨rfl, rfl⟩ <;>
      simp only [unitF, unitG, unitMain, List.mem_cons, List.not_mem_nil, or_false] at hs
    · subst hs; cases hin
    · rcases hs with rfl | rfl | rfl | rfl <;> cases hin <;> rfl
    · rcases hs with rfl | rfl <;> cases hin <;> rfl

/-- The design meets the hypotheses of `C33_inlining_partial` and `C33_terminates`, and inlining it yields one
unit without instances. -/
example : exampleDesign.Ok ∧
    exampleDesign.Acyclic (fun n => if n = "f" then 0 else if n = "g" then 1 else 2) ∧
    (∀ n ∈ ["main"], (exampleDesign.unit n).isSome) ∧
    (∀ n ∈ ["main"], ∀ u, exampleDesign.unit n = some u → ∀ s ∈ u.entity.stmts, ∀ x ∈ s.names,
      Below ⟨7, 7⟩ x) ∧
    (doInlining exampleDesign (fun _ => false) 20 ["main"] ⟨7, 7⟩).map (fun es => es.map (·.stmts)) = some [[
      .binding ⟨.expr 16, .other .not, [.named 6 "b"], ()⟩,
      .binding ⟨.expr 13, .alias, [.expr 16], ()⟩,
      .binding ⟨.named 8 "x", .alias, [.expr 13], ()⟩,
      .binding ⟨.expr 20, .other .not, [.named 8 "x"], ()⟩,
      .binding ⟨.expr 14, .alias, [.expr 20], ()⟩,
      .binding ⟨.expr 15, .other .and, [.expr 14, .named 5 "a"], ()⟩,
      .binding ⟨.expr 5, .alias, [.expr 15], ()⟩,
      .binding ⟨.expr 24, .other .not, [.expr 5], ()⟩,
      .binding ⟨.expr 6, .alias, [.expr 24], ()⟩]] := by
  refine ⟨exampleDesign_ok, ?_, by decide, ?_, ?_⟩
  · intro n u h s hs r e ty os hin
    rcases exampleDesign_unit h with ⟨rfl, rfl⟩ | ⟨rfl, rfl⟩ | ⟨rfl, rfl⟩ <;>
      simp only [unitF, unitG, unitMain, List.mem_cons, List.not_mem_nil, or_false] at hs
    · subst hs; cases hin
    · rcases hs with rfl | rfl | rfl | rfl <;> cases hin <;> decide
    · rcases hs with rfl | rfl <;> cases hin <;> decide
  · intro n hn u hu s hs x hx
    simp only [List.mem_singleton] at hn
    subst hn
    cases hu
    simp only [unitMain, List.mem_cons, List.not_mem_nil, or_false] at hs
    rcases hs with rfl | rfl <;>
      simp only [Stmt.names, List.mem_cons, List.not_mem_nil, or_false] at hx
    · rcases hx with rfl | rfl | rfl <;> simp [Below]
    · rcases hx with rfl | rfl <;> simp [Below]
  · decide +kernel

/-! ## Names that the tracker has not passed -/

/-- An inlined pipeline with a signal `s1_x` that is true. -/
def unitH : XEntity := ⟨"h", [], .named 3 "s1_x", (), [.constant (.named 3 "s1_x") () true]⟩

/-- A pipeline with a signal `s1_x` that is false, and an instance of `h`. -/
def unitP : XEntity := ⟨"p", [], .expr 1, (), [
  .constant (.named 8 "s1_x") () false,
  .binding ⟨.expr 1, .other (.inst "h"), [], ()⟩]⟩

def clashDesign : Design XOp Unit Bool Unit where
  unit n := match n with
    | "h" => some ⟨true, unitH⟩
    | "p" => some ⟨false, unitP⟩
    | _ => none
  callee := xcallee

theorem clashDesign_unit {n : String} {u : Source XOp Unit Bool Unit} (h : clashDesign.unit n = some u) :
    (n = "h" ∧ u = ⟨true, unitH⟩) ∨ (n = "p" ∧ u = ⟨false, unitP⟩) := by
  simp only [clashDesign] at h
  split at h <;> simp_all

theorem clashDesign_ok : clashDesign.Ok where
  named n u h := by rcases clashDesign_unit h with ⟨rfl, rfl⟩ | ⟨rfl, rfl⟩ <;> rfl
  inputs n u h hi := by
    rcases clashDesign_unit h with ⟨rfl, rfl⟩ | ⟨rfl, rfl⟩
    · decide
    · cases hi
  closed n u h hi := by
    rcases clashDesign_unit h with ⟨rfl, rfl⟩ | ⟨rfl, rfl⟩
    · decide
    · cases hi
  arity n u h s hs r e ty os hin := by
    rcases clashDesign_unit h with ⟨rfl, rfl⟩ | ⟨rfl, rfl⟩ <;>
      simp only [unitH, unitP, List.mem_cons, List.not_mem_nil, or_false] at hs
    · subst hs; cases hin
    · rcases hs with rfl | rfl <;> cases hin <;> rfl

/-- **Departure from C33.**  The tracker passed to `do_inlining` (spade-compiler/src/lib.rs:558) is
not the one that the names of pipeline stages come from (spade-hir-lowering/src/substitution.rs:109,
through `FrozenSymtab::new_name`, spade-hir/src/symbol_table.rs:1611-1614, 863-866): it has not passed
them.  The inlined copy of a signal can then get the very name of another signal with another value:
the result has two constants for one signal, and no valuation satisfies it. -/
theorem C33_counterexample_tracker :
    clashDesign.Ok ∧
    (∃ v, Possible clashDesign xinterp v unitP.stmts) ∧
    ∃ e, doInlining clashDesign (fun _ => false) 10 ["p"] ⟨7, 7⟩ = some [e] ∧ ¬ ∃ v, e.Sat xinterp v := by
  refine ⟨clashDesign_ok, ⟨fun n => decide (n = .expr 1), ?_⟩, ?_⟩
  · refine .plain (by decide +kernel) (by simp [Stmt.Sat, xinterp]) ?_
    refine .instance (r := .expr 1) (e := unitH) (ty := ()) (os := []) (fun _ => true)
      rfl ?_ rfl (by simp) .nil
    exact .plain (by decide +kernel) (by simp [Stmt.Sat, xinterp]) .nil
  · have h : (doInlining clashDesign (fun _ => false) 10 ["p"] ⟨7, 7⟩).map (fun es => es.map (·.stmts)) =
        some [[.constant (.named 8 "s1_x") () false, .constant (.named 8 "s1_x") () true,
          .binding ⟨.expr 1, .alias, [.named 8 "s1_x"], ()⟩]] := by decide +kernel
    rw [Option.map_eq_some_iff] at h
    obtain ⟨es, hes, hst⟩ := h
    cases es with
    | nil => simp at hst
    | cons e es =>
      simp only [List.map_cons, List.cons.injEq, List.map_eq_nil_iff] at hst
      obtain ⟨hst, rfl⟩ := hst
      refine ⟨e, hes, ?_⟩
      rintro ⟨v, hv⟩
      unfold Entity.Sat at hv
      rw [hst] at hv
      have h1 := hv (.constant (.named 8 "s1_x") () false) (by simp)
      have h2 := hv (.constant (.named 8 "s1_x") () true) (by simp)
      simp only [Stmt.Sat, xinterp] at h1 h2
      rw [h1] at h2
      cases h2

/-! ## Recursion -/

/-- `#[inline] fn r(a) {r(a)}` -/
def unitR : XEntity := ⟨"r", [⟨"a", .named 1 "a", (), false⟩], .expr 1, (), [
  .binding ⟨.expr 1, .other (.inst "r"), [.named 1 "a"], ()⟩]⟩

def recDesign : Design XOp Unit Bool Unit where
  unit n := if n = "r" then some ⟨true, unitR⟩ else if n = "m" then some ⟨false, { unitR with name := "m" }⟩
    else none
  callee := xcallee

/-- Inlining a unit that instantiates itself does not end: there is no check for this (the program
overflows its stack). -/
theorem C33_counterexample_recursion (typed : Typed) (ids : Ids) :
    ∀ fuel, doInlining recDesign typed fuel ["m"] ids = none := by
  have hin : recDesign.inlined (.binding ⟨.expr 1, .other (.inst "r"), [.named 1 "a"], ()⟩) =
      some (.expr 1, unitR, (), [.named 1 "a"]) := rfl
  have key : ∀ fuel, (∀ ids, perform recDesign typed fuel "r" ids [] = none) ∧
      (∀ ids, performStmts recDesign typed fuel unitR.stmts [] ids [] = none) := by
    intro fuel
    induction fuel with
    | zero => exact ⟨fun _ => rfl, fun _ => rfl⟩
    | succ fuel ih =>
      constructor
      · intro ids
        have : recDesign.unit "r" = some ⟨true, unitR⟩ := rfl
        simp only [perform, List.lookup_nil, this, ih.2, Option.bind_eq_bind, Option.bind_none]
      · intro ids
        show performStmts recDesign typed (fuel + 1)
          [.binding ⟨.expr 1, .other (.inst "r"), [.named 1 "a"], ()⟩] [] ids [] = none
        have hn : unitR.name = "r" := rfl
        simp only [performStmts, hin, hn, ih.1, Option.bind_eq_bind, Option.bind_none]
  intro fuel
  have hm : recDesign.unit "m" = some ⟨false, { unitR with name := "m" }⟩ := rfl
  have : perform recDesign typed fuel "m" ids [] = none := by
    cases fuel with
    | zero => rfl
    | succ fuel =>
      simp only [perform, List.lookup_nil, hm, (key fuel).2, Option.bind_eq_bind, Option.bind_none]
  simp only [doInlining, performAll, hm, this, Option.bind_eq_bind, Option.bind_some, Option.bind_none]

end Spade.Inline

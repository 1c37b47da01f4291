import Verif.Expr.Exists
import Verif.Expr.Examples
/-!
# C46: a program that meets the hypotheses, and units for which the property fails without them
-/
namespace Spade.Expr
open Spade.Verilog Spade.Codegen Spade.Lower
open Spade.Match (Val)

theorem exProg_resolved : ∀ u f, exProg u = some f → f.Resolved 30 := by
  intro u f hf
  match u with
  | 0 =>
    simp only [exProg, Option.some.injEq] at hf
    subst hf
    refine ⟨by decide, by decide, ?_, ?_⟩
    · simp [clamp, Expr.Scoped, Exprs.Scoped]
    · simp [clamp, Expr.Armed, Exprs.Armed]
  | 1 =>
    simp only [exProg, Option.some.injEq] at hf
    subst hf
    refine ⟨by decide, by decide, ?_, ?_⟩
    · simp [exMain, Expr.Scoped, Exprs.Scoped, Stms.Scoped, Arms.Scoped, scope, patVars, patsVars]
    · simp [exMain, Expr.Armed, Exprs.Armed, Stms.Armed, Arms.Armed]

theorem exProg_acyclic : exProg.Acyclic := by
  refine ⟨id, ?_⟩
  intro u f hf
  match u with
  | 0 =>
    simp only [exProg, Option.some.injEq] at hf
    subst hf
    simp [clamp, Expr.calls, Exprs.calls]
  | 1 =>
    simp only [exProg, Option.some.injEq] at hf
    subst hf
    simp [exMain, Expr.calls, Exprs.calls, Stms.calls, Arms.calls]

theorem exProg_typed : ∀ u f, exProg u = some f →
    ∃ h, lowerFn f 30 = some h ∧ ∀ i ∈ h.items, i.Typed h.types := by
  intro u f hf
  match u with
  | 0 =>
    simp only [exProg, Option.some.injEq] at hf
    subst hf
    refine ⟨_, rfl, ?_⟩
    simp [clamp, Item.Typed, target]
  | 1 =>
    simp only [exProg, Option.some.injEq] at hf
    subst hf
    refine ⟨_, rfl, ?_⟩
    simp [exMain, Item.Typed, target, LPat.name, LPat.ty, condition, conditions, allConditions, andAll,
      Expr.variable]

/-- The program of C45 meets the hypotheses of C46: `main` produces an output of 5 bits for all
inputs of 5 bits and 1 bit. -/
theorem example_complete :
    ∀ o y : Bits, o.length = 5 → y.length = 1 →
      ∃ out, Produces (lowerProg exProg fun _ => 30) 1 [o, y] out ∧ out.length = 5 := by
  intro o y ho hy
  obtain ⟨out, h1, h2⟩ := C46_unit_has_output exProg (fun _ => 30) exProg_ok exProg_acyclic
    exProg_resolved exProg_typed 1 exMain rfl [o, y] (by
      simp only [List.map_cons, List.map_nil, ho, hy, exMain, exO]
      decide +kernel)
  exact ⟨out, h1, h2.trans (by simp [exMain, Expr.ty, exR, MTy.size, sizes])⟩

/-- `main` has two inputs and more than 20 statements. -/
example : ∃ h, lowerFn exMain 30 = some h ∧ (h.inputs.map (·.1) ++ defsAll h.items).Nodup ∧
    h.inputs.length = 2 ∧ 20 ≤ h.items.length := by
  refine ⟨_, rfl, (C46_driven_once exMain 30 _ (exProg_resolved 1 exMain rfl) rfl).1, rfl, ?_⟩
  decide

/-- `fn f(x: bool) -> bool { !f(x) }`. -/
def loopFn : Fn where
  params := [(0, .bool)]
  body := .un 1 .bool .not (.call 2 .bool (.unit 0) [.var 0 .bool])
  types _ := .bool

/-- The program with this function. -/
def loopProg : Prog := fun u => if u = 0 then some loopFn else none

/-- Without acyclic calls there is no output: a function that calls itself is lowered to a unit that
instantiates itself, and no finite circuit is a solution. -/
theorem C46_recursion_has_no_output (ins : List Bits) (out : Bits) :
    ¬ Produces (lowerProg loopProg fun _ => 3) 0 ins out := by
  have key : ∀ {u : Nat} {ins : List Bits} {out : Bits},
      Produces (lowerProg loopProg fun _ => 3) u ins out → u = 0 → False := by
    intro u ins out h
    refine Produces.rec (motive_1 := fun _ _ _ i _ => 0 ∈ i.insts → False)
      (motive_2 := fun u _ _ _ => u = 0 → False) ?_ ?_ ?_ ?_ ?_ ?_ h
    · intros; simp_all [Item.insts]
    · intros; simp_all [Item.insts]
    · intros; simp_all [Item.insts]
    · intros; simp_all [Item.insts]
    · intro Γ ρ xs n ty u ops _ _ ih h
      exact ih (Eq.symm (by simpa [Item.insts] using h))
    · intro u h ρ xs ins out hH _ _ _ _ ih hu
      subst hu
      have : lowerProg loopProg (fun _ => 3) 0 = some
        { inputs := [(0, .bool)], items := [.inst 2 .bool 0 [0], .stmt (.bind 1 .bool .not [2])],
          output := 1, types := fun _ => .bool } := rfl
      rw [this] at hH
      cases hH
      exact ih (.inst 2 .bool 0 [0]) (by simp) (by simp [Item.insts])
  intro h
  exact key h rfl

end Spade.Expr

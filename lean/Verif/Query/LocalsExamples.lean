import Verif.Query.Locals
import Verif.Query.Examples

/-!
# Completion of local variables (C78): examples
-/

namespace Spade.Query

open Spade.Loc

/-- `{ let x = f(a); x }` with the cursor at the last `x`: `x` is in scope. -/
theorem ex_in_scope : InScope [exBody] [2] (pl 16 16) 1 :=
  .after ⟨exBody, by simp, .refl _⟩ rfl (by decide) (.head _ _ _) (by decide) (by decide)
    (.binding _ (.here _ _ _))

theorem ex_offered : 1 ∈ localCompletion [exBody] [2] (pl 16 16) ∧
    2 ∈ localCompletion [exBody] [2] (pl 16 16) :=
  ⟨C78_scope_partial ex_in_scope, C78_scope_partial (.param (by simp))⟩

/-- In front of the statement only the parameter is offered. -/
example : localCompletion [exBody] [2] (pl 1 1) = [2] := by decide +kernel

/-- A register is in scope in its own value: `{ reg(clk) x = x; }`. -/
def exReg : Expr :=
  .block 0 (pl 0 19) (.cons (pl 2 16) (.register (.bound (pl 11 12) (nm 1 11 12) .nil)
    (.ident 1 (pl 6 9) 0) .nil .nil (.ident 2 (pl 15 16) 1)) .nil) .nil

theorem ex_register : 1 ∈ localCompletion [exReg] [0] (pl 15 15) :=
  C78_scope_partial (.within ⟨exReg, by simp, .refl _⟩ rfl (by decide) (.head _ _ _) (by decide)
    (.here _ _ _))

theorem own_not_in_scope : ¬ InScope [exBody] [2] (pl 12 12) 1 := by
  have hb : ∀ i a ss r, InBodies [exBody] (.block i a ss r) →
      ss = .cons (pl 2 14) (.binding (.bound (pl 6 7) (nm 1 6 7) .nil)
        (.call 1 (pl 10 14) (nm 5 10 11) (.cons (.ident 2 (pl 12 13) 2) .nil))) .nil := by
    intro i a ss r h
    have := mem_ids.2 ⟨h, rfl⟩
    simp [idsOf, fromArtifacts, exBody, visitExpr, visitExprs, visitStmts, visitStmt,
      visitPat, visitPats, Expr.id] at this
    exact this.2.2.1
  intro h
  cases h with
  | param h => simp at h
  | after h1 h2 h3 h4 h5 h6 h7 =>
    rw [hb _ _ _ _ h1] at h4
    cases h4 with
    | head => exact absurd h6 (by decide)
    | tail _ _ h => cases h
  | within h1 h2 h3 h4 h5 h6 =>
    rw [hb _ _ _ _ h1] at h4
    cases h4 with
    | tail _ _ h => cases h

/-- Full statement: only variables in scope are offered. A variable is offered in its own value, where
it cannot be used: `x` in `{ let x = f(|a); x }`. -/
theorem C78_counterexample_own_value : ∃ (bodies : List Expr) (params : List Nat) (c : Place) (n : Nat),
    n ∈ localCompletion bodies params c ∧ ¬ InScope bodies params c n :=
  ⟨[exBody], [2], pl 12 12, 1, by decide +kernel, own_not_in_scope⟩

/-- Full statement: all variables in scope are offered. In `match a {x => x}` the variable of the
branch can be used in its value, but is not offered there. -/
theorem C78_counterexample_match : ∃ (p : Pat) (e : Expr) (x : Nat), Binds p x ∧
    nameAt [.match_ 0 (pl 0 16) (.ident 1 (pl 6 7) 2) (.cons p .nil e .nil)] e.place = some (x, 14, 15) ∧
    x ∉ localCompletion [.match_ 0 (pl 0 16) (.ident 1 (pl 6 7) 2) (.cons p .nil e .nil)] [2] e.place :=
  ⟨.bound (pl 9 10) (nm 1 9 10) .nil, .ident 2 (pl 14 15) 1, 1, .here _ _ _, by decide +kernel,
    by decide +kernel⟩

end Spade.Query

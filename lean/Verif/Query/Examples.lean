import Verif.Query.Source
import Verif.Hier.Examples

/-!
# Names at the cursor (C77): examples
-/

namespace Spade.Query

open Spade.Loc

/-- A place in the first file. -/
def pl (a b : Nat) (h : a ≤ b := by decide) : Place := ⟨(), ⟨a, b, h⟩, 0⟩

/-- A name in the first file. -/
def nm (n a b : Nat) (h : a ≤ b := by decide) : Located Nat := ⟨n, ⟨a, b, h⟩, 0⟩

/-- `{ let x = f(a); x }`: `x` is 1, `a` is 2, `f` is 5. -/
def exBody : Expr :=
  .block 0 (pl 0 19)
    (.cons (pl 2 14) (.binding (.bound (pl 6 7) (nm 1 6 7) .nil)
      (.call 1 (pl 10 14) (nm 5 10 11) (.cons (.ident 2 (pl 12 13) 2) .nil))) .nil)
    (.cons (.ident 3 (pl 16 17) 1) .nil)

theorem ex_occurs : Occurs [exBody] (nm 2 12 13) :=
  ⟨exBody, by simp, _, .step (.stmt _ _ _ (.head _ _ _)) (.step (.bindingV _ _)
    (.step (.call _ _ _ (.head _ _)) (.refl _))), .ident _ _ _⟩

/-- The cursor in front of `a`: the hypotheses of the theorem are met. -/
theorem ex_cursor : nameAt [exBody] (pl 12 12) = some (2, 12, 13) := by
  refine C77_cursor_partial ex_occurs (by decide) ?_
  intro y hy hc
  rw [← mem_names] at hy
  have : namesOf (fromArtifacts [exBody]) = [nm 1 6 7, nm 5 10 11, nm 2 12 13, nm 1 16 17] := by
    simp [namesOf, fromArtifacts, exBody, visitExpr, visitExprs, visitStmts, visitStmt, visitPat,
      visitPats, nm, pl]
  rw [this] at hy
  simp only [List.mem_cons, List.not_mem_nil, or_false] at hy
  rcases hy with rfl | rfl | rfl | rfl
  · exact absurd hc (by decide)
  · exact absurd hc (by decide)
  · exact ⟨rfl, rfl⟩
  · exact absurd hc (by decide)

/-- Nothing is at the `=`. -/
theorem ex_nothing : ∀ x : Located Nat, Occurs [exBody] x → ¬ x.Around 0 ⟨8, 8, Nat.le_refl _⟩ :=
  C77_nothing (c := pl 8 8).1 (by decide +kernel)

/-- The expression with id 2. -/
theorem ex_expression : idToExpression [exBody] 2 = some (.ident 2 (pl 12 13) 2) := by
  simp [idToExpression, idsOf, fromArtifacts, exBody, visitExpr, visitExprs, visitStmts, visitStmt,
    visitPat, visitPats, Expr.id, List.lookup]

theorem ex_written : WrittenAs [exBody] (.expr 3) (.expr (pl 16 17) 3) := by
  refine WrittenAs.expr (e := .ident 3 (pl 16 17) 1) ?_ ?_
  · exact ⟨exBody, by simp, .step (.result _ _ _ (.head _ _)) (.refl _)⟩
  · intro e' h1 h2
    have := mem_ids.2 ⟨h1, h2⟩
    simp [idsOf, fromArtifacts, exBody, visitExpr, visitExprs, visitStmts, visitStmt,
      visitPat, visitPats, Expr.id] at this
    exact this

/-- The output of the second instance of `sub` is the result of the body. -/
theorem ex_signal : nameSourceOf Hier.exCtx Hier.exTarget Hier.exProg [exBody] 1
    ["sub_1".toList, "output__".toList] = some (some (.expr (pl 16 17) 3)) :=
  C77_signal_partial (e := Hier.exSub) (by decide) Hier.exProg_fine Hier.exLeads (by simp [Hier.exProg])
    (.output (by decide)) trivial (by unfold Hier.OneWay; decide) ex_written

/-- Full statement: the name at the cursor is found wherever a name is written. The argument of the
lambda `fn (x) { x }` is not found where it is written, though it is where it is used, so that nothing
can be shown for it and its definition cannot be looked up there. -/
theorem C77_counterexample_lambda : ∃ (x : Nat) (arg body : Place),
    nameAt [.lambda 0 (pl 0 12) (.cons (.bound arg ⟨x, arg.span, arg.file⟩ .nil) .nil)
      (.ident 1 body x)] arg = none ∧
    nameAt [.lambda 0 (pl 0 12) (.cons (.bound arg ⟨x, arg.span, arg.file⟩ .nil) .nil)
      (.ident 1 body x)] body = some (x, body.span.start, body.span.stop) :=
  ⟨7, pl 4 5, pl 9 10, by decide +kernel, by decide +kernel⟩

/-- `fn f(a: bool) -> bool {gen if C {a} else {g}}` from byte 0 to byte 45, as `expand_type_level_if`
(spade-ast-lowering/src/type_level_if.rs:80-270) leaves it: the branches become units, which the body
calls, and the result is bound to a new variable whose place is the whole unit. `a` is 1, `g` is 2, `result` is 3, the
units are 4 and 5. -/
def exGenIf : List Expr :=
  [.block 0 (pl 22 45)
    (.cons (pl 0 45) (.binding (.bound (pl 0 45) (nm 3 0 45) .nil)
      (.genIf 1 (pl 22 45)
        (.call 2 (pl 22 45) (nm 4 3 4) (.cons (.ident 3 (pl 5 6) 1) .nil))
        (.call 4 (pl 22 45) (nm 5 3 4) (.cons (.ident 5 (pl 5 6) 1) .nil)))) .nil)
    (.cons (.ident 6 (pl 0 45) 3) .nil),
   .block 7 (pl 32 35) .nil (.cons (.ident 8 (pl 33 34) 1) .nil),
   .block 9 (pl 41 44) .nil (.cons (.ident 10 (pl 42 43) 2) .nil)]

/-- Full statement: the name at the cursor is the one written there. In a unit with `gen if` the cursor
on any name, such as the `a` at byte 33, is taken to be on the variable that the compiler made for the
result, whose place is the whole unit: all names around the cursor are found, the innermost first, and
the last one of them is taken. -/
theorem C77_counterexample_gen_if :
    Occurs exGenIf (nm 1 33 34) ∧ nameAt exGenIf (pl 33 33) = some (3, 0, 45) ∧
    (1, 33, 34) ∈ namesAround exGenIf (pl 33 33) := by
  refine ⟨?_, by decide +kernel, by decide +kernel⟩
  exact ⟨.block 7 (pl 32 35) .nil (.cons (.ident 8 (pl 33 34) 1) .nil), by simp [exGenIf], _,
    .step (.result _ _ _ (.head _ _)) (.refl _), .ident _ _ _⟩

end Spade.Query

import Verif.Query.Props
import Verif.Hier.Props

/-!
# The source of a signal (C77): model and theorem

`name_source_of_hierarchical_value` (`/repo/spade-compiler/src/compiler_state.rs:243-271`), with the lookup of
signals of Verif/Hier/Model.lean (C74) and the expressions of Verif/Query/Model.lean.
-/

namespace Spade.Query

open Spade.Mir Spade.Hier
open Spade.Hier.Spec

variable {Op Ty C Ini : Type}

/-- `NameSource` (spade-hir-lowering/src/name_map.rs:7-11): a name, or an expression with its place. -/
inductive Found where
  | name (id : Nat) (s : String)
  | expr (place : Place) (id : Nat)

/-- `name_source_of_hierarchical_value` (compiler_state.rs:243-271). The outer `none` is an error. -/
def nameSourceOf (X : NameCtx Op Ty) (target : Op → Nat) (prog : List (Nat × Entity Op Ty C Ini))
    (bodies : List Expr) (top : Nat) (hierarchy : List (List Char)) : Option (Option Found) :=
  (sourceOf X target prog top hierarchy).map fun
    | (_, (_, .named i s)) => some (.name i s)
    | (_, (_, .expr i)) => (idToExpression bodies i).map fun e => .expr e.place i

/-- What a value was written as: a name, or the place of the expression with its id. -/
inductive WrittenAs (bodies : List Expr) : Name → Found → Prop
  | name (i s) : WrittenAs bodies (.named i s) (.name i s)
  | expr {e} : InBodies bodies e → (∀ e', InBodies bodies e' → e'.id = e.id → e' = e) →
      WrittenAs bodies (.expr e.id) (.expr e.place e.id)

/-- A signal is found as the name or the expression it was generated for. Missing: the signals that
`C74_source_partial` misses. -/
theorem C77_signal_partial {X : NameCtx Op Ty} {e : Entity Op Ty C Ini} {target : Op → Nat}
    {prog : List (Nat × Entity Op Ty C Ini)} {bodies : List Expr}
    (hp : (prog.map (·.1)).Nodup) (hf : ∀ u e, (u, e) ∈ prog → Fine X e)
    {top u : Nat} {path : List (List Char)} (hl : Leads X target prog top path u)
    (he : (u, e) ∈ prog) {g : Signal} {v : List Char} {d : Dir} {n : Name}
    (hc : Carries X e (makeNamesPredictable e) g v d n) (hg : Listed e g) (hv : OneWay X e v)
    {w : Found} (hw : WrittenAs bodies n w) :
    nameSourceOf X target prog bodies top (path ++ [v]) = some (some w) := by
  rw [nameSourceOf, C74_source_partial hp hf hl he hc hg hv, Option.map_some]
  cases hw with
  | name i s => rfl
  | expr h1 h2 =>
    simp only [C77_expression.2 _ h1 rfl h2, Option.map_some]

/-- A helper signal, whose id no expression has, has no source. -/
theorem C77_helper {X : NameCtx Op Ty} {target : Op → Nat} {prog : List (Nat × Entity Op Ty C Ini)}
    {bodies : List Expr} {top u i : Nat} {hierarchy : List (List Char)} {d : Dir}
    (h : sourceOf X target prog top hierarchy = some (u, (d, .expr i)))
    (hi : ∀ e, InBodies bodies e → e.id ≠ i) :
    nameSourceOf X target prog bodies top hierarchy = some none := by
  rw [nameSourceOf, h, Option.map_some]
  cases hx : idToExpression bodies i with
  | none => simp [hx]
  | some e =>
    obtain ⟨h1, h2⟩ := C77_expression.1 e hx
    exact absurd h2 (hi e h1)

end Spade.Query

import Verif.Infer.Spec

/-!
# Kinds of type variables (C18)

Model of `unify_meta` (`/repo/spade-types/src/meta_types.rs`) and of the place where a known type
meets a variable of some kind (`unify_inner`, `/repo/spade-typeinference/src/lib.rs:3255-3320`).
-/

namespace Spade.Infer

open Spec (Kind Val)

/-- Models `unify_meta`, `spade-types/src/meta_types.rs:30-62`. -/
def unifyMeta : Kind → Kind → Option Kind
  | .any, other => some other
  | other, .any => some other
  | .number, .int => some .int
  | .number, .uint => some .uint
  | .int, .number => some .int
  | .uint, .number => some .uint
  | .type, .type => some .type
  | .int, .int => some .int
  | .number, .number => some .number
  | .bool, .bool => some .bool
  | .str, .str => some .str
  | .uint, .uint => some .uint
  | .bool, _ => none
  | _, .bool => none
  | .str, _ => none
  | _, .str => none
  | .type, .int => none
  | .type, .uint => none
  | .int, .type => none
  | .int, .uint => none
  | .uint, .type => none
  | .uint, .int => none
  | .type, .number => none
  | .number, .type => none

/-- Models the derived `Ord` on `MetaType`, `spade-types/src/meta_types.rs:13-26`: the position of
the constructor in the declaration. -/
def kindIdx : Kind → Nat
  | .any => 0
  | .type => 1
  | .number => 2
  | .int => 3
  | .uint => 4
  | .bool => 5
  | .str => 6

/-- Models `MetaType::is_more_concrete_than`, `spade-types/src/meta_types.rs:64-71`. -/
def isMoreConcreteThan (a b : Kind) : Bool :=
  if kindIdx a > kindIdx b then false else true

/-- Models the heads of known types: `KnownType`, `spade-types/src/lib.rs`, without `Error`.
Named types, tuples, arrays, inverted types and copy views are all types; which one it is does not
matter to any kind, so they are told apart by a label only. -/
abbrev Known := Val

/-- Models the final `match (base, meta)` of `unify_inner`,
`spade-typeinference/src/lib.rs:3255-3318`: whether a known type may replace an unknown variable of
the given kind. -/
def kindAccepts : Known → Kind → Bool
  | _, .any => true
  | .type _, .type => true
  | .bool _, .bool => true
  | .str _, .str => true
  | .int _, .int => true
  | .int _, .number => true
  | .int v, .uint => if v < 0 then false else true
  | .int _, .type => false
  | _, .bool => false
  | .bool _, _ => false
  | _, .str => false
  | .str _, _ => false
  | .type _, .int => false
  | .type _, .number => false
  | .type _, .uint => false

/-- What the code lets replace a variable of a kind is what the kind stands for. -/
theorem C18_kind_accepts (k : Kind) (v : Val) : kindAccepts v k = true ↔ k.Holds v := by
  cases k <;> cases v <;> simp [kindAccepts, Kind.Holds]

/-- C18 (what holds of it): if merging two kinds succeeds, the result accepts exactly the values
accepted by both; if it fails, no value is accepted by both, unless the two kinds are `#int` and
`#uint`. -/
theorem C18_merge_is_intersection_partial (a b : Kind) :
    match unifyMeta a b with
    | some c => ∀ v, c.Holds v ↔ a.Holds v ∧ b.Holds v
    | none => (a = .int ∧ b = .uint) ∨ (a = .uint ∧ b = .int) ∨
        ∀ v, ¬ (a.Holds v ∧ b.Holds v) := by
  cases a <;> cases b <;> simp only [unifyMeta] <;>
    first
      | (intro v; simp only [Kind.Holds, true_and, and_true, and_self]; done)
      | (intro v; cases v <;> simp [Kind.Holds] <;> done)
      | exact Or.inl ⟨by trivial, by trivial⟩
      | exact Or.inr (Or.inl ⟨by trivial, by trivial⟩)
      | (right; right; intro v; cases v <;> simp [Kind.Holds])

/-- C18, the part that fails: `#int` and `#uint` both accept `3`, yet merging them is rejected. -/
theorem C18_counterexample_int_uint :
    unifyMeta .int .uint = none ∧ Kind.Holds .int (.int 3) ∧ Kind.Holds .uint (.int 3) :=
  ⟨rfl, ⟨3, rfl⟩, ⟨3, by decide, rfl⟩⟩

/-- C18: merging kinds is commutative. -/
theorem C18_merge_comm (a b : Kind) : unifyMeta a b = unifyMeta b a := by
  cases a <;> cases b <;> rfl

/-- C18: merging kinds is idempotent. -/
theorem C18_merge_idem (a : Kind) : unifyMeta a a = some a := by
  cases a <;> rfl

/-- C18: merging kinds is associative, counting a failed merge as a failure of the whole. -/
theorem C18_merge_assoc (a b c : Kind) :
    (unifyMeta a b).bind (fun x => unifyMeta x c) = (unifyMeta b c).bind (fun x => unifyMeta a x) := by
  cases a <;> cases b <;> cases c <;> rfl

/-- C18, about `is_more_concrete_than`: it answers yes for the *less* concrete of two comparable
kinds. `#any` accepts everything `#uint` accepts and more, and is said to be more concrete. -/
theorem C18_counterexample_more_concrete :
    isMoreConcreteThan .any .uint = true ∧ isMoreConcreteThan .uint .any = false ∧
    (∀ v, Kind.Holds .uint v → Kind.Holds .any v) ∧ ¬ Kind.Holds .uint (.int (-1)) ∧
    Kind.Holds .any (.int (-1)) := by
  refine ⟨rfl, rfl, fun _ _ => trivial, ?_, trivial⟩
  rintro ⟨i, hi, h⟩
  simp only [Val.int.injEq] at h
  omega

/-- Merges that succeed with a proper intersection, and a merge that fails. -/
example : unifyMeta .number .uint = some .uint ∧ unifyMeta .bool .number = none ∧
    Kind.Holds .uint (.int 4) ∧ ¬ Kind.Holds .uint (.int (-4)) := by
  refine ⟨rfl, rfl, ⟨4, by decide, rfl⟩, ?_⟩
  rintro ⟨i, hi, h⟩
  simp only [Val.int.injEq] at h
  omega

end Spade.Infer

/-!
# Source spans

What spans should mean: a span is the set of positions between its ends.
-/
namespace Spade.Loc

/-- A span of one file, from byte `start` to byte `stop`; `start ≤ stop` is what the constructor of
the codespan crate asserts. -/
structure Span where
  start : Nat
  stop : Nat
  le : start ≤ stop
  deriving DecidableEq

/-- `s` contains `t`. -/
def Span.Contains (s t : Span) : Prop := s.start ≤ t.start ∧ t.stop ≤ s.stop

instance (s t : Span) : Decidable (s.Contains t) := by unfold Span.Contains; infer_instance

/-- A thing with its span and file (spade-common/src/location_info.rs:118-122). -/
structure Located (α : Type) where
  inner : α
  span : Span
  file : Nat

/-- The located thing is around the queried location: same file, and its span contains the span. -/
def Located.Around {α : Type} (x : Located α) (file : Nat) (s : Span) : Prop :=
  x.file = file ∧ x.span.Contains s

instance {α : Type} (x : Located α) (file : Nat) (s : Span) : Decidable (x.Around file s) := by
  unfold Located.Around; infer_instance

end Spade.Loc

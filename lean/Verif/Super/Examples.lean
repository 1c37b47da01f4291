import Verif.Super.Props

/-! # Supertraits: concrete hierarchies -/

namespace Spade.Super

/-- `trait A: B + C {}  trait B: D {}  trait C: D {}  trait D {}`. -/
def diamond : List Trait :=
  [⟨0, [], [⟨1, []⟩, ⟨2, []⟩]⟩, ⟨1, [], [⟨3, []⟩]⟩, ⟨2, [], [⟨3, []⟩]⟩, ⟨3, [], []⟩]

/-- `trait A: B {}  trait B: C {}  trait C: A {}`. -/
def ring : List Trait := [⟨0, [], [⟨1, []⟩]⟩, ⟨1, [], [⟨2, []⟩]⟩, ⟨2, [], [⟨0, []⟩]⟩]

theorem ex_step {T : List Trait} {self : Nat} {s : Search} {v : Verdict} (n : Nat) (h1 : n ∈ s.pending)
    (h2 : n ≠ self) (h : Run T self (Search.expand T ⟨s.pending.erase n, s.edges⟩ n) v) : Run T self s v :=
  .step (.mk h1 h2) h

/-- The diamond is accepted: the conditions of the theorems hold. -/
theorem diamond_accepted : Distinct diamond ∧ ∃ T, Process [] diamond T [] := by
  refine ⟨by simp [Distinct, diamond], _, .ok ?_ (.ok ?_ (.ok ?_ (.ok (.done rfl) .nil)))⟩
  · exact ex_step 1 (by decide) (by decide) (ex_step 2 (by decide) (by decide) (.done rfl))
  · exact ex_step 3 (by decide) (by decide) (.done rfl)
  · exact ex_step 3 (by decide) (by decide) (.done rfl)

/-- So it has no circle. -/
example : NoCircle diamond := by
  obtain ⟨hd, T, h⟩ := diamond_accepted
  exact (C70_accepted_iff_no_circle hd h).1 rfl

/-- The ring is rejected at its last trait, and the notes say how it goes round. -/
theorem ring_rejected : Distinct ring ∧ ∃ T, Process [] ring T [(2, [1, 0])] := by
  refine ⟨by simp [Distinct, ring], _, .ok ?_ (.ok ?_ (.error ?_ .nil))⟩
  · exact ex_step 1 (by decide) (by decide) (.done rfl)
  · exact ex_step 2 (by decide) (by decide) (.done rfl)
  · exact ex_step 0 (by decide) (by decide) (ex_step 1 (by decide) (by decide)
      (.found (k := 3) (by decide) (by decide)))

/-- `C` is a supertrait of `B`, which is one of `A`, which is one of `C`. -/
example : WayUp ring 2 2 [1, 0] := by
  obtain ⟨_, T, h⟩ := ring_rejected
  exact C70_error_names_a_circle h (by simp)

/-- A trait may not be its own supertrait. -/
example : ∃ T, Process [] [⟨0, [], [⟨0, []⟩]⟩] T [(0, [])] :=
  ⟨_, .error (.found (k := 1) (by decide) (by decide)) .nil⟩

theorem diamond_known : Known diamond (superBounds diamond) := by
  unfold Known
  decide

/-- `X: A` requires the four traits. -/
example : allBounds diamond 10 [⟨0, []⟩] =
    some [⟨3, []⟩, ⟨2, []⟩, ⟨1, []⟩, ⟨0, []⟩, ⟨0, []⟩] := by decide

/-- The conditions of `C70_required_partial` hold of the diamond, with the bounds `A` and `D`. -/
example : ∃ K, ∀ k, K ≤ k → ∃ r, boundsOf diamond k (fun _ => none) [⟨0, []⟩, ⟨3, []⟩] = some r ∧
    ∀ n ts, (n, ts) ∈ r ↔ ∃ b, Required diamond [⟨0, []⟩, ⟨3, []⟩] b ∧ b.name = n ∧
      ArgTypes (fun _ => none) b.args ts :=
  C70_required_partial diamond diamond_accepted.1 (by unfold NoParams; simp [diamond]) diamond_known _
    (by unfold Known; decide) _ (by simpa using ⟨[], trivial⟩)

/-- `trait B<T> {}  trait A<T>: B<T> {}`, where the parameter of `A` is the generic 4. -/
def passing : List Trait := [⟨1, [3], []⟩, ⟨0, [4], [⟨1, [.generic 4]⟩]⟩]

/-- **C70 is violated**: a trait that passes its parameter on to a supertrait is accepted, but whoever
writes the bound `X: A<bool>`, which requires `X: B<bool>`, makes the compiler panic, however long it runs:
the arguments of `A` are not put in place of its parameter, and the unit has no generic parameter of that
name (typeinference lib.rs:1941, 436-440). -/
theorem C70_counterexample_parameter_of_trait (X : Nat) (hX : X ≠ 4) (t : Nat) :
    (∃ T, Process [] passing T []) ∧
    Required passing [⟨0, [.type t]⟩] ⟨1, [.type t]⟩ ∧
    ∀ k, boundsOf passing k (fun g => if g = X then some 7 else none) [⟨0, [.type t]⟩] = none := by
  refine ⟨⟨_, .ok (.done rfl) (.ok (ex_step 1 (by decide) (by decide) (.done rfl)) .nil)⟩, ?_, fun k => ?_⟩
  · exact .super (d := ⟨0, [4], [⟨1, [.generic 4]⟩]⟩) (s := ⟨1, [.generic 4]⟩) (.given (.head _))
      (.tail _ (.head _)) rfl (.head _)
  · match k with
    | 0 => rfl
    | 1 => simp [boundsOf, allBounds, expandBounds, find, passing]
    | 2 => simp [boundsOf, allBounds, expandBounds, find, passing]
    | k + 3 =>
      simp [boundsOf, allBounds, expandBounds, find, passing, visitBounds, visitArg, Ne.symm hX]

end Spade.Super

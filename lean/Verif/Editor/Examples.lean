import Verif.Editor.Props

/-!
# Positions in an editor (C73): examples
-/

namespace Spade.Editor

open Spec (Pos size line position)
open Spade.Loc (Span)

/-- A project of two files; the second has two lines, with an accent behind what is looked at. -/
def project : List File :=
  [⟨"/a.spade".toList, "use b;".toList⟩, ⟨"/b.spade".toList, "fn f(\r\n  x: bool) é".toList⟩]

/-- The hypotheses of `C73_to_editor_partial`, `C73_from_editor_partial` and `C73_round_trip_partial`
hold for the span of `x: bool` in the second line. -/
theorem C73_example :
    locToLocation project ⟨1, ⟨9, 16, by decide⟩⟩ = some ⟨"/b.spade".toList, ⟨1, 2⟩, ⟨1, 9⟩⟩ ∧
    posUriToLoc project "/b.spade".toList ⟨1, 2⟩ = some ⟨1, ⟨9, 9, by decide⟩⟩ := by
  have hpre : ∀ a b, "fn f(\r\n  ".toList = a ++ '\r' :: b → b.head? = some '\n' := by
    intro a b h
    have : "fn f(\r\n  ".toList = ['f', 'n', ' ', 'f', '('] ++ '\r' :: ['\n', ' ', ' '] := by decide
    rw [this] at h
    match a, h with
    | [_, _, _, _, _], h => simp at h; rw [← h.2.2.2.2.2]; rfl
    | [], h => simp at h
    | [_], h => simp at h
    | [_, _], h => simp at h
    | [_, _, _], h => simp at h
    | [_, _, _, _], h => simp at h
    | [_, _, _, _, _, _], h => simp at h
    | [_, _, _, _, _, _, _], h => simp at h
    | [_, _, _, _, _, _, _, _], h => simp at h
    | _ :: _ :: _ :: _ :: _ :: _ :: _ :: _ :: _ :: a, h => simp at h
  have hmid : ∀ a b, "fn f(\r\n  ".toList ++ "x: bool".toList = a ++ '\r' :: b → b.head? = some '\n' := by
    intro a b h
    rcases List.append_eq_append_iff.1 h with ⟨c, h1, h2⟩ | ⟨c, h1, h2⟩
    · exfalso
      have : '\r' ∈ "x: bool".toList := by rw [h2]; simp
      revert this
      decide
    · cases c with
      | nil =>
        exfalso
        have : '\r' ∈ "x: bool".toList := by
          rw [List.nil_append] at h2
          rw [← h2]; simp
        revert this
        decide
      | cons d c =>
        simp only [List.cons_append, List.cons.injEq] at h2
        rw [← h2.1] at h1
        have := hpre a c h1
        rw [h2.2]
        cases c with
        | nil => simp at this
        | cons e c => simpa using this
  constructor
  · have := C73_to_editor_partial project 1 _ "fn f(\r\n  ".toList "x: bool".toList ") é".toList
      ⟨9, 16, by decide⟩ rfl (by decide) (by decide +kernel) (by decide +kernel) (by decide +kernel)
      hmid hpre (by decide +kernel) (by decide +kernel)
    rw [this]
    decide +kernel
  · have := C73_from_editor_partial project 1 _ "fn f(\r\n  ".toList "x: bool) é".toList rfl
      (by
        intro j g hj hg
        obtain rfl : j = 0 := by omega
        cases hg
        decide)
      (by decide +kernel) hpre (by decide +kernel)
    have hp : position "fn f(\r\n  ".toList = ⟨1, 2⟩ := by decide +kernel
    have hz : size "fn f(\r\n  ".toList = 9 := by decide +kernel
    rw [hp] at this
    simp only [hz] at this
    exact this

/-- The hypotheses of `C73_round_trip_partial` and `C73_order` hold for the same span; for `C73_order`
also with accents in the span. -/
theorem C73_example_order :
    (∃ l, locToLocation project ⟨1, ⟨9, 16, by decide⟩⟩ = some l ∧ l.path = "/b.spade".toList ∧
      posUriToLoc project l.path l.start = some ⟨1, ⟨9, 9, by decide⟩⟩) ∧
    (∃ l, locToLocation project ⟨1, ⟨5, 20, by decide⟩⟩ = some l ∧ l.path = "/b.spade".toList ∧
      l.start.Before l.stop) := by
  constructor
  · exact C73_round_trip_partial project 1 _ "fn f(\r\n  ".toList "x: bool".toList ") é".toList
      ⟨9, 16, by decide⟩ rfl (by decide)
      (by
        intro j g hj hg
        obtain rfl : j = 0 := by omega
        cases hg
        decide)
      (by decide +kernel) (by decide +kernel) (by decide +kernel) (by decide +kernel)
  · obtain ⟨l, h1, h2, _, h3⟩ := C73_order project 1 _ "fn f(".toList "\r\n  x: bool) é".toList []
      ⟨5, 20, by decide⟩ rfl (by decide) (by decide +kernel) (by decide +kernel) (by decide +kernel)
    exact ⟨l, h1, h2, h3 (by decide)⟩

/-- A file with the given text. -/
def one (s : String) : List File := [⟨"/a.spade".toList, s.toList⟩]

/-- With an accent in front of the cursor the server looks at the wrong byte: in the line `é x`, the
editor sends character 2 for the place in front of `x`, which is byte 3, and the server looks at
byte 2, the space. -/
theorem C73_counterexample_accent :
    position "é ".toList = ⟨0, 2⟩ ∧ size "é ".toList = 3 ∧
    (posUriToLoc (one "é x") "/a.spade".toList ⟨0, 2⟩).map (·.span.start) = some 2 := by
  refine ⟨by decide +kernel, by decide +kernel, by decide +kernel⟩

/-- With a character beyond the 16-bit ones the range shown is off: in `𝒳 x` the place in front of
`x`, byte 5, is character 3 for an editor, and the server sends character 2. -/
theorem C73_counterexample_wide_character :
    position "𝒳 ".toList = ⟨0, 3⟩ ∧ size "𝒳 ".toList = 5 ∧
    (locToLocation (one "𝒳 x") ⟨0, ⟨5, 6, by decide⟩⟩).map (·.start) = some ⟨0, 2⟩ := by
  refine ⟨by decide +kernel, by decide +kernel, by decide +kernel⟩

/-- A carriage return alone ends a line for an editor, but not for the server. -/
theorem C73_counterexample_carriage_return :
    position "a\r".toList = ⟨1, 0⟩ ∧
    (locToLocation (one "a\rb") ⟨0, ⟨2, 3, by decide⟩⟩).map (·.start) = some ⟨0, 2⟩ ∧
    (posUriToLoc (one "a\rb") "/a.spade".toList ⟨1, 0⟩).isNone = true := by
  refine ⟨by decide +kernel, by decide +kernel, by decide +kernel⟩

/-- A character behind the end of its line, which by the protocol means the end of the line, is taken
for a place in a later line: character 4 of the first line of `a`, `bcd` is the place behind `c`. -/
theorem C73_counterexample_behind_line :
    (posUriToLoc (one "a\nbcd") "/a.spade".toList ⟨0, 4⟩).map (·.span.start) = some 4 ∧
    position "a\nbc".toList = ⟨1, 2⟩ ∧ size "a\nbc".toList = 4 := by
  refine ⟨by decide +kernel, by decide +kernel, by decide +kernel⟩

end Spade.Editor

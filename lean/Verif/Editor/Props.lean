import Verif.Editor.Lemmas

/-!
# Positions in an editor (C73): theorems
-/

namespace Spade.Editor

open Spec (Pos size line position)
open Spade.Loc (Span)

/-- **C73, to the editor.** The range shown for a span of a file (diagnostics, go to definition) is
the range an editor takes for the same text: its ends are the positions of the ends of the span. It
is assumed that carriage returns occur only in front of line feeds, and that the lines up to the ends
of the span have no character beyond the 16-bit ones: with these, the columns of the server, which
count characters, are not those of editors (see `C73_counterexample_wide_character`,
`C73_counterexample_carriage_return`). -/
theorem C73_to_editor_partial (code : List File) (i : Nat) (f : File) (pre mid post : List Char)
    (sp : Span) (hi : code[i]? = some f) (hn : f.name.head? = some '/')
    (hs : f.source = pre ++ mid ++ post)
    (h1 : sp.start = size pre) (h2 : sp.stop = size (pre ++ mid))
    (he : Spec.Ends (pre ++ mid)) (he' : Spec.Ends pre)
    (hb : ∀ c ∈ line pre, c.toNat < 0x10000) (hb' : ∀ c ∈ line (pre ++ mid), c.toNat < 0x10000) :
    locToLocation code ⟨i, sp⟩ = some ⟨f.name, position pre, position (pre ++ mid)⟩ := by
  have l1 := location_at pre (mid ++ post)
  have l2 := location_at (pre ++ mid) post
  rw [← List.append_assoc, ← hs, len_size, ← h1] at l1
  rw [← hs, len_size, ← h2] at l2
  simp only [locToLocation, hi, Option.bind_some, l1, l2, if_pos hn, toPos, Nat.add_sub_cancel,
    position_eq he, position_eq he', units_sum_bmp hb, units_sum_bmp hb']

/-- **C73, from the editor.** The byte the server takes for a position of the cursor is the byte at
that position. It is assumed that carriage returns occur only in front of line feeds, and that the
line has only ASCII characters in front of the cursor: the server adds the characters to the start of
the line as if they were bytes (see `C73_counterexample_accent`). If several files have the same path
the first one counts. -/
theorem C73_from_editor_partial (code : List File) (i : Nat) (f : File) (pre post : List Char)
    (hi : code[i]? = some f) (hf : ∀ j g, j < i → code[j]? = some g → g.name ≠ f.name)
    (hs : f.source = pre ++ post) (he : Spec.Ends pre) (ha : ∀ c ∈ line pre, c.toNat < 128) :
    posUriToLoc code f.name (position pre) = some ⟨i, ⟨size pre, size pre, Nat.le_refl _⟩⟩ := by
  have hst := start_at pre post
  rw [← hs] at hst
  have hl := len_body pre
  have hx : len (body pre) + ((line pre).map Spec.units).sum = size pre := by
    rw [units_sum_bmp (fun c hc => Nat.lt_trans (ha c hc) (by omega)), ← len_ascii ha, hl, len_size]
  simp only [posUriToLoc, findFile_eq 0 hi rfl hf, Option.bind_some, position_eq he, hst,
    Option.map_some, hx, Nat.zero_add]

/-- **C73, there and back.** A position the server has sent, sent back by the editor, means the start
of the span it was sent for, in the same file, if the line is ASCII up to there. Nothing is assumed
of carriage returns. -/
theorem C73_round_trip_partial (code : List File) (i : Nat) (f : File) (pre mid post : List Char)
    (sp : Span) (hi : code[i]? = some f) (hn : f.name.head? = some '/')
    (hf : ∀ j g, j < i → code[j]? = some g → g.name ≠ f.name)
    (hs : f.source = pre ++ mid ++ post)
    (h1 : sp.start = size pre) (h2 : sp.stop = size (pre ++ mid))
    (ha : ∀ c ∈ line pre, c.toNat < 128) :
    ∃ l, locToLocation code ⟨i, sp⟩ = some l ∧ l.path = f.name ∧
      posUriToLoc code l.path l.start = some ⟨i, ⟨sp.start, sp.start, Nat.le_refl _⟩⟩ := by
  have l1 := location_at pre (mid ++ post)
  have l2 := location_at (pre ++ mid) post
  rw [← List.append_assoc, ← hs, len_size, ← h1] at l1
  rw [← hs, len_size, ← h2] at l2
  have hst := start_at pre (mid ++ post)
  rw [← List.append_assoc, ← hs] at hst
  have hl := len_body pre
  have hx : len (body pre) + (line pre).length = sp.start := by
    rw [← len_ascii ha, hl, len_size, h1]
  refine ⟨⟨f.name, toPos (pre.count '\n' + 1, (line pre).length + 1),
    toPos ((pre ++ mid).count '\n' + 1, (line (pre ++ mid)).length + 1)⟩, ?_, rfl, ?_⟩
  · simp only [locToLocation, hi, Option.bind_some, l1, l2, if_pos hn]
  · simp only [posUriToLoc, findFile_eq 0 hi rfl hf, Option.bind_some, toPos, Nat.add_sub_cancel, hst,
      Option.map_some, hx, Nat.zero_add]

/-- **C73, order.** Whatever the text is, every span between characters of a file with an absolute
path is shown; and the end of a span that is not empty is shown behind its start. So different
places are never shown as the same position. -/
theorem C73_order (code : List File) (i : Nat) (f : File) (pre mid post : List Char)
    (sp : Span) (hi : code[i]? = some f) (hn : f.name.head? = some '/')
    (hs : f.source = pre ++ mid ++ post)
    (h1 : sp.start = size pre) (h2 : sp.stop = size (pre ++ mid)) :
    ∃ l, locToLocation code ⟨i, sp⟩ = some l ∧ l.path = f.name ∧
      (mid = [] → l.start = l.stop) ∧ (mid ≠ [] → l.start.Before l.stop) := by
  have l1 := location_at pre (mid ++ post)
  have l2 := location_at (pre ++ mid) post
  rw [← List.append_assoc, ← hs, len_size, ← h1] at l1
  rw [← hs, len_size, ← h2] at l2
  refine ⟨⟨f.name, toPos (pre.count '\n' + 1, (line pre).length + 1),
    toPos ((pre ++ mid).count '\n' + 1, (line (pre ++ mid)).length + 1)⟩, ?_, rfl, ?_, ?_⟩
  · simp only [locToLocation, hi, Option.bind_some, l1, l2, if_pos hn]
  · rintro rfl
    simp
  · intro hm
    simp only [Pos.Before, toPos, Nat.add_sub_cancel, List.count_append]
    by_cases h : '\n' ∈ mid
    · left
      have := List.count_pos_iff.2 h
      omega
    · right
      rw [line_append_of_none _ _ h, List.count_eq_zero.2 h, List.length_append]
      have := List.length_pos_iff.2 hm
      omega

end Spade.Editor

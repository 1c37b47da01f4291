import Verif.Editor.Model

/-!
# Positions in an editor (C73): lemmas
-/

namespace Spade.Editor

open Spec (Pos units size line)

theorem len_append (a b : List Char) : len (a ++ b) = len a + len b := by
  induction a with
  | nil => simp [len]
  | cons c a ih => simp only [List.cons_append, len, ih]; omega

theorem len_size (s : List Char) : len s = size s := by
  induction s with
  | nil => rfl
  | cons c s ih => simp only [len, ih, size, List.map_cons, List.sum_cons]

theorem boundary_zero (s : List Char) : boundary s 0 = true := by
  cases s <;> rfl

theorem boundary_append (h s : List Char) (i : Nat) : boundary (h ++ s) (len h + i) = boundary s i := by
  induction h with
  | nil => simp [len]
  | cons c h ih =>
    have hp := Char.utf8Size_pos c
    simp only [List.cons_append, len]
    obtain ⟨k, hk⟩ : ∃ k, c.utf8Size + len h + i = k + 1 := ⟨c.utf8Size + len h + i - 1, by omega⟩
    rw [hk, boundary, if_neg (by omega), ← ih]
    congr 1
    omega

theorem filter_range_shift (p q : Nat → Bool) (a n : Nat) (h : ∀ k, p (a + k) = q k) :
    ((List.range' a n).filter p).length = ((List.range' 0 n).filter q).length := by
  have : List.range' a n = (List.range' 0 n).map (a + ·) := by
    rw [List.map_add_range']; simp
  rw [this, List.filter_map, List.length_map]
  congr 1
  exact List.filter_congr (fun k _ => h k)

/-- The boundaries in a text: one for each character. -/
theorem count_boundaries (t p : List Char) :
    ((List.range' 0 (len t)).filter (fun k => boundary (t ++ p) (k + 1))).length = t.length := by
  induction t with
  | nil => simp [len]
  | cons c t ih =>
    have hp := Char.utf8Size_pos c
    simp only [len]
    rw [← List.range'_append_1, List.filter_append, List.length_append]
    have h1 : ((List.range' 0 c.utf8Size).filter (fun k => boundary (c :: t ++ p) (k + 1))).length = 1 := by
      obtain ⟨m, hm⟩ : ∃ m, c.utf8Size = m + 1 := ⟨c.utf8Size - 1, by omega⟩
      rw [hm, List.range'_1_concat, List.filter_append, List.length_append]
      have ha : (List.range' 0 m).filter (fun k => boundary (c :: t ++ p) (k + 1)) = [] := by
        rw [List.filter_eq_nil_iff]
        intro k hk
        rw [List.mem_range'_1] at hk
        simp only [List.cons_append, boundary]
        rw [if_pos (by omega)]
        simp
      have hb : boundary (c :: t ++ p) (0 + m + 1) = true := by
        simp only [List.cons_append, boundary]
        rw [if_neg (by omega), hm]
        simp [boundary_zero]
      rw [ha, List.filter_cons, if_pos hb]
      rfl
    rw [h1, filter_range_shift _ (fun k => boundary (t ++ p) (k + 1)) (0 + c.utf8Size) (len t), ih]
    · simp; omega
    · intro k
      have := boundary_append [c] (t ++ p) (k + 1)
      simp only [len, List.cons_append, List.nil_append] at this
      rw [← this]
      simp only [List.cons_append]
      congr 1
      omega

theorem newlines_append (k : Nat) (a b : List Char) :
    newlines k (a ++ b) = newlines k a ++ newlines (k + len a) b := by
  induction a generalizing k with
  | nil => simp [newlines, len]
  | cons c a ih =>
    simp only [List.cons_append, newlines, len]
    by_cases hc : c = '\n'
    · subst hc
      simp only [if_true, List.cons_append, ih]
      have : ('\n' : Char).utf8Size = 1 := by decide
      rw [this, Nat.add_assoc]
    · simp only [if_neg hc, ih, Nat.add_assoc]

theorem newlines_bound {k x : Nat} {s : List Char} (h : x ∈ newlines k s) : k < x ∧ x ≤ k + len s := by
  induction s generalizing k with
  | nil => simp [newlines] at h
  | cons c s ih =>
    have hp := Char.utf8Size_pos c
    simp only [newlines] at h
    by_cases hc : c = '\n'
    · simp only [if_pos hc, List.mem_cons] at h
      simp only [len]
      rcases h with h | h
      · omega
      · have := ih h; omega
    · simp only [if_neg hc] at h
      have := ih h
      simp only [len]
      omega

theorem newlines_sorted (k : Nat) (s : List Char) : (newlines k s).Pairwise (· < ·) := by
  induction s generalizing k with
  | nil => simp [newlines]
  | cons c s ih =>
    simp only [newlines]
    by_cases hc : c = '\n'
    · simp only [if_pos hc, List.pairwise_cons]
      exact ⟨fun x hx => (newlines_bound hx).1, ih _⟩
    · simp only [if_neg hc]
      exact ih _

theorem newlines_length (k : Nat) (s : List Char) : (newlines k s).length = s.count '\n' := by
  induction s generalizing k with
  | nil => rfl
  | cons c s ih =>
    simp only [newlines]
    by_cases hc : c = '\n'
    · subst hc
      simp [ih]
    · simp only [if_neg hc, ih]
      rw [List.count_cons_of_ne (by simpa using hc)]

theorem newlines_none (k : Nat) {s : List Char} (h : '\n' ∉ s) : newlines k s = [] := by
  rw [← List.length_eq_zero_iff, newlines_length]
  exact List.count_eq_zero.2 h

theorem lineStarts_sorted (s : List Char) : (lineStarts s).Pairwise (· < ·) := by
  simp only [lineStarts, List.pairwise_cons]
  exact ⟨fun x hx => (newlines_bound hx).1, newlines_sorted _ _⟩

/-- The search finds the last entry that is not larger. -/
theorem lineIndex_eq {l : List Nat} (h : l.Pairwise (· < ·)) (x : Nat) :
    lineIndex l x = (l.filter (fun a => decide (a ≤ x))).length - 1 := by
  have key : ∀ l : List Nat, l.Pairwise (· < ·) →
      (match search l x with
        | .ok i => i + 1
        | .err i => i) = (l.filter (fun a => decide (a ≤ x))).length := by
    intro l
    induction l with
    | nil => intro _; rfl
    | cons a l ih =>
      intro h
      rw [List.pairwise_cons] at h
      have ih := ih h.2
      simp only [search]
      by_cases h1 : x = a
      · simp only [if_pos h1]
        have : l.filter (fun a => decide (a ≤ x)) = [] := by
          rw [List.filter_eq_nil_iff]
          intro b hb
          have := h.1 b hb
          simp; omega
        rw [List.filter_cons, if_pos (by simp; omega), List.length_cons, this]
        rfl
      · simp only [if_neg h1]
        by_cases h2 : x < a
        · simp only [if_pos h2]
          have : (a :: l).filter (fun a => decide (a ≤ x)) = [] := by
            rw [List.filter_eq_nil_iff]
            intro b hb
            rcases List.mem_cons.1 hb with hb | hb
            · simp; omega
            · have := h.1 b hb
              simp; omega
          rw [this]
          rfl
        · simp only [if_neg h2]
          rw [List.filter_cons, if_pos (by simp; omega), List.length_cons, ← ih]
          cases search l x <;> rfl
  have hk := key l h
  unfold lineIndex
  cases hs : search l x with
  | ok i =>
    rw [hs] at hk
    have hk : i + 1 = (l.filter (fun a => decide (a ≤ x))).length := hk
    show i = _
    omega
  | err i =>
    rw [hs] at hk
    have hk : i = (l.filter (fun a => decide (a ≤ x))).length := hk
    show i - 1 = _
    omega

/-- The lines in front of the last line. -/
def body (pre : List Char) : List Char := (pre.reverse.dropWhile (· ≠ '\n')).reverse

theorem body_line (pre : List Char) : body pre ++ line pre = pre := by
  unfold body line
  rw [← List.reverse_append, List.takeWhile_append_dropWhile, List.reverse_reverse]

theorem line_none (pre : List Char) : '\n' ∉ line pre := by
  unfold line
  rw [List.mem_reverse]
  intro h
  have := List.all_takeWhile (p := fun c => decide (c ≠ '\n')) (l := pre.reverse)
  rw [List.all_eq_true] at this
  have := this _ h
  simp at this

theorem body_cases (pre : List Char) : body pre = [] ∨ ∃ h, body pre = h ++ ['\n'] := by
  unfold body
  cases hd : pre.reverse.dropWhile (· ≠ '\n') with
  | nil => left; rfl
  | cons c s =>
    right
    have hc : c = '\n' := by
      have := List.head?_dropWhile_not (fun c => decide (c ≠ '\n')) pre.reverse
      rw [hd] at this
      simpa using this
    exact ⟨s.reverse, by simp [hc]⟩

theorem count_body (pre : List Char) : (body pre).count '\n' = pre.count '\n' := by
  have h : pre.count '\n' = (body pre ++ line pre).count '\n' := by rw [body_line]
  rw [h, List.count_append, List.count_eq_zero.2 (line_none pre)]
  simp

theorem len_body (pre : List Char) : len (body pre) + len (line pre) = len pre := by
  rw [← len_append, body_line]

/-- The starts of the lines of a text, divided at a place. -/
theorem lineStarts_split (pre post : List Char) :
    lineStarts (pre ++ post) = (0 :: newlines 0 (body pre)) ++ newlines (len pre) post := by
  have h : newlines 0 pre = newlines 0 (body pre) := by
    have : newlines 0 pre = newlines 0 (body pre ++ line pre) := by rw [body_line]
    rw [this, newlines_append, newlines_none _ (line_none pre), List.append_nil]
  unfold lineStarts
  rw [newlines_append, h]
  simp

theorem last_start (pre : List Char) :
    (0 :: newlines 0 (body pre))[pre.count '\n']? = some (len (body pre)) := by
  rw [← count_body]
  rcases body_cases pre with h | ⟨h, hb⟩
  · rw [h]; rfl
  · rw [hb, newlines_append, List.count_append]
    have : ('\n' : Char).utf8Size = 1 := by decide
    simp only [List.count_singleton_self, List.getElem?_cons_succ]
    rw [← newlines_length 0 h, List.getElem?_append_right (by omega), Nat.sub_self, len_append]
    simp [newlines, len, this]

theorem first_length (pre : List Char) :
    (0 :: newlines 0 (body pre)).length = pre.count '\n' + 1 := by
  rw [List.length_cons, newlines_length, count_body]

theorem lineIndex_at (pre post : List Char) :
    lineIndex (lineStarts (pre ++ post)) (len pre) = pre.count '\n' := by
  rw [lineIndex_eq (lineStarts_sorted _), lineStarts_split, List.filter_append]
  have h1 : (0 :: newlines 0 (body pre)).filter (fun a => decide (a ≤ len pre))
      = 0 :: newlines 0 (body pre) := by
    rw [List.filter_eq_self]
    intro a ha
    have := len_body pre
    rcases List.mem_cons.1 ha with ha | ha
    · simp [ha]
    · have := newlines_bound ha
      simp; omega
  have h2 : (newlines (len pre) post).filter (fun a => decide (a ≤ len pre)) = [] := by
    rw [List.filter_eq_nil_iff]
    intro a ha
    have := newlines_bound ha
    simp; omega
  rw [h1, h2, List.append_nil, first_length]
  omega

theorem lineStart_at (pre post : List Char) (n : Nat) :
    lineStart (lineStarts (pre ++ post)) n (pre.count '\n') = some (len (body pre)) := by
  have hl := first_length pre
  unfold lineStart
  rw [lineStarts_split, if_pos (by rw [List.length_append]; omega),
    List.getElem?_append_left (by omega), last_start]

/-- The next line starts behind the place, or the place is in the last line. -/
theorem lineStart_next (pre post : List Char) :
    ∃ b, lineStart (lineStarts (pre ++ post)) (len (pre ++ post)) (pre.count '\n' + 1) = some b ∧
      len pre ≤ b := by
  have hl := first_length pre
  unfold lineStart
  rw [lineStarts_split]
  cases hr : newlines (len pre) post with
  | nil =>
    refine ⟨len (pre ++ post), ?_, by rw [len_append]; omega⟩
    rw [List.append_nil, if_neg (by omega), if_pos (by omega)]
  | cons b r =>
    have hb : b ∈ newlines (len pre) post := by rw [hr]; exact List.mem_cons_self
    refine ⟨b, ?_, by have := newlines_bound hb; omega⟩
    rw [if_pos (by rw [List.length_append, hl, List.length_cons]; omega),
      List.getElem?_append_right (by omega), hl]
    simp

theorem columnIndex_at (pre post : List Char) (b : Nat) (hb : len pre ≤ b) :
    columnIndex (pre ++ post) (len (body pre)) b (len pre) = (line pre).length := by
  have hl := len_body pre
  have hm : min (len pre) (min b (len (pre ++ post))) - len (body pre) = len (line pre) := by
    rw [len_append]; omega
  unfold columnIndex
  rw [hm, filter_range_shift _ (fun k => boundary (line pre ++ post) (k + 1))]
  · exact count_boundaries _ _
  · intro k
    have := boundary_append (body pre) (line pre ++ post) (k + 1)
    rw [← List.append_assoc, body_line] at this
    rw [← this]
    congr 1

/-- Line and column of a place: the line feeds in front of it, and the characters behind the last. -/
theorem location_at (pre post : List Char) :
    location (pre ++ post) (len pre) = some (pre.count '\n' + 1, (line pre).length + 1) := by
  obtain ⟨b, hb, hle⟩ := lineStart_next pre post
  unfold location
  simp only [lineIndex_at, lineStart_at, hb, Option.bind_some, Option.map_some,
    columnIndex_at _ _ _ hle]

/-! Positions of an editor -/

theorem Ends.tail {c : Char} {s : List Char} (h : Spec.Ends (c :: s)) : Spec.Ends s :=
  fun a b e => h (c :: a) b (by rw [e]; rfl)

theorem after_newline (h t : List Char) (p : Pos) (he : Spec.Ends (h ++ '\n' :: t)) :
    Spec.after (h ++ '\n' :: t) p = Spec.after t ⟨p.line + h.count '\n' + 1, 0⟩ := by
  induction h generalizing p with
  | nil => simp [Spec.after]
  | cons c h ih =>
    simp only [List.cons_append] at he
    simp only [List.cons_append, Spec.after]
    by_cases h1 : c = '\n'
    · subst h1
      rw [if_pos rfl, ih _ (Ends.tail he), List.count_cons_self]
      congr 2
      simp only
      omega
    · rw [if_neg h1, List.count_cons_of_ne (by simpa using h1)]
      by_cases h2 : c = '\r'
      · subst h2
        rw [if_pos rfl, if_pos (he [] _ rfl), ih _ (Ends.tail he)]
      · rw [if_neg h2, ih _ (Ends.tail he)]

theorem after_line (t : List Char) (p : Pos) (h1 : '\n' ∉ t) (h2 : '\r' ∉ t) :
    Spec.after t p = ⟨p.line, p.character + (t.map units).sum⟩ := by
  induction t generalizing p with
  | nil => rfl
  | cons c t ih =>
    simp only [List.mem_cons, not_or] at h1 h2
    rw [Spec.after, if_neg (fun e => h1.1 e.symm), if_neg (fun e => h2.1 e.symm), ih _ h1.2 h2.2]
    simp [Nat.add_assoc]

theorem line_cr {pre : List Char} (he : Spec.Ends pre) : '\r' ∉ line pre := by
  intro h
  obtain ⟨a, b, hab⟩ := List.append_of_mem h
  have := he (body pre ++ a) b (by rw [List.append_assoc, ← hab, body_line])
  cases b with
  | nil => simp at this
  | cons c b =>
    simp only [List.head?_cons, Option.some.injEq] at this
    apply line_none pre
    rw [hab, this]
    simp

theorem position_eq {pre : List Char} (he : Spec.Ends pre) :
    Spec.position pre = ⟨pre.count '\n', ((line pre).map units).sum⟩ := by
  have hcr := line_cr he
  have hc := count_body pre
  have hpre : pre = body pre ++ line pre := (body_line pre).symm
  unfold Spec.position
  rcases body_cases pre with h | ⟨h, hb⟩
  · have : pre = line pre := by rw [h] at hpre; exact hpre
    rw [h] at hc
    rw [← hc]
    have h2 := after_line (line pre) ⟨0, 0⟩ (line_none pre) hcr
    rw [← this] at h2 ⊢
    rw [h2]
    simp
  · have : pre = h ++ '\n' :: line pre := by rw [hb] at hpre; simpa using hpre
    rw [hb] at hc
    have he' := he
    rw [this] at he'
    have h2 := after_newline h (line pre) ⟨0, 0⟩ he'
    rw [← this] at h2
    rw [h2, after_line _ _ (line_none pre) hcr, ← hc]
    simp

theorem units_sum_bmp {t : List Char} (h : ∀ c ∈ t, c.toNat < 0x10000) : (t.map units).sum = t.length := by
  induction t with
  | nil => rfl
  | cons c t ih =>
    rw [List.map_cons, List.sum_cons, ih (fun d hd => h d (List.mem_cons_of_mem _ hd)), units,
      if_pos (h c List.mem_cons_self), List.length_cons]
    omega

theorem utf8Size_ascii {c : Char} (h : c.toNat < 128) : c.utf8Size = 1 := by
  rw [Char.utf8Size_eq_one_iff]
  exact UInt32.le_iff_toNat_le.2 (by have : c.val.toNat = c.toNat := rfl; simp; omega)

theorem len_ascii {t : List Char} (h : ∀ c ∈ t, c.toNat < 128) : len t = t.length := by
  induction t with
  | nil => rfl
  | cons c t ih =>
    rw [len, ih (fun d hd => h d (List.mem_cons_of_mem _ hd)), utf8Size_ascii (h c List.mem_cons_self),
      List.length_cons]
    omega

theorem start_at (pre post : List Char) :
    ((lineStarts (pre ++ post)).drop (pre.count '\n')).head? = some (len (body pre)) := by
  have hl := first_length pre
  rw [List.head?_drop, lineStarts_split, List.getElem?_append_left (by omega), last_start]

theorem line_append_of_none (pre m : List Char) (h : '\n' ∉ m) : line (pre ++ m) = line pre ++ m := by
  unfold line
  rw [List.reverse_append, List.takeWhile_append_of_pos, List.reverse_append, List.reverse_reverse]
  intro c hc
  rw [List.mem_reverse] at hc
  simp only [decide_eq_true_eq]
  exact fun e => h (e ▸ hc)

theorem findFile_eq {code : List File} {path : List Char} {i : Nat} {f : File} (k : Nat)
    (hi : code[i]? = some f) (hp : f.name = path)
    (hf : ∀ j g, j < i → code[j]? = some g → g.name ≠ path) :
    findFile code path k = some (k + i, f) := by
  induction code generalizing i k with
  | nil => simp at hi
  | cons g code ih =>
    cases i with
    | zero =>
      simp only [List.getElem?_cons_zero, Option.some.injEq] at hi
      subst hi
      simp [findFile, hp]
    | succ i =>
      simp only [List.getElem?_cons_succ] at hi
      have hne := hf 0 g (by omega) rfl
      rw [findFile, if_neg hne, ih (k + 1) hi (fun j g' hj hg => hf (j + 1) g' (by omega) hg)]
      congr 2
      omega

end Spade.Editor

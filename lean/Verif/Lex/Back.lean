import Verif.Lex.Comments
import Verif.Lex.Quoted

/-! # From tokens back to what was written (C64) -/

namespace Spade.Lex

open Spec (Radix Kind Written IsDigit)

theorem take_takeWhile {p : Char → Bool} : ∀ {s : List Char},
    s.take (s.takeWhile p).length = s.takeWhile p
  | [] => rfl
  | c :: cs => by
    rw [List.takeWhile_cons]
    split
    · simp only [List.length_cons, List.take_succ_cons, take_takeWhile]
    · rfl

theorem suffixDigit_ten {r : Radix} {c : Char} (h : isSuffixDigit r c = true) : IsDigit 10 c := by
  apply (radixDigit_iff (r := .dec)).mp
  cases r with
  | oct =>
    simp only [isSuffixDigit, isRadixDigit, Bool.and_eq_true, decide_eq_true_eq, Char.le_toNat] at h ⊢
    simp only [Char.reduceToNat] at h ⊢
    omega
  | _ => exact h

/-- The suffix of a number the lexer takes. -/
theorem suffix_back (r : Radix) (s : List Char) : ∃ suf : Option (Char × List Char),
    s.take (suffixLen r s) = (match suf with | none => [] | some (l, ds) => l :: ds) ∧
    (∀ l ds, suf = some (l, ds) → l ∈ ['u', 'U', 'i', 'I']) ∧
    (∀ l ds, suf = some (l, ds) → ∀ c ∈ ds, IsDigit 10 c) := by
  cases s with
  | nil => exact ⟨none, rfl, by simp, by simp⟩
  | cons c cs =>
    simp only [suffixLen]
    split
    next hs =>
      refine ⟨some (c, cs.takeWhile (isSuffixDigit r)), ?_, ?_, ?_⟩
      · rw [Nat.add_comm, List.take_succ_cons, take_takeWhile]
      · intro l ds h
        cases h
        simpa using hs
      · intro l ds h
        cases h
        intro x hx
        rw [← take_takeWhile] at hx
        exact suffixDigit_ten (mem_takeWhile hx)
    next => exact ⟨none, rfl, by simp, by simp⟩

theorem bodyLen_back {r : Radix} {s : List Char} {n : Nat} (h : bodyLen r s = some n) :
    ∃ w : Written, w.Ok ∧ w.radix = r ∧ s.take n = Written.rest w := by
  cases s with
  | nil => simp [bodyLen] at h
  | cons c cs =>
    simp only [bodyLen] at h
    split at h
    next hs =>
      simp only [Option.some.injEq] at h
      subst h
      obtain ⟨suf, h1, h2, h3⟩ := suffix_back r
        (cs.drop (cs.takeWhile (fun c => isRadixDigit r c || c == '_')).length)
      refine ⟨⟨r, c, cs.takeWhile (fun c => isRadixDigit r c || c == '_'), suf⟩,
        ⟨radixDigit_iff.mp hs, ?_, h2, h3⟩, rfl, ?_⟩
      · intro x hx
        simp only at hx
        rw [← take_takeWhile] at hx
        have := mem_takeWhile hx
        simp only [Bool.or_eq_true, beq_iff_eq] at this
        exact this.imp radixDigit_iff.mp id
      · rw [Nat.add_assoc, Nat.add_comm, List.take_succ_cons, List.take_add, take_takeWhile, h1]
        cases suf <;> simp [Written.rest]
    next => cases h

/-- `parse_int` does not panic on what the rules take. -/
theorem parseInt_total {r : Radix} {s : List Char} {n : Nat} (h : bodyLen r s = some n) :
    ∃ v k, parseInt r.base (s.take n) = some (v, k) := by
  obtain ⟨w, hw, hr, ht⟩ := bodyLen_back h
  rw [ht, ← hr, parseInt_written hw]
  exact ⟨_, _, rfl⟩

theorem matchInt_back {r : Radix} {s : List Char} {b : Nat × Tok} (h : matchInt r s = some b) :
    ∃ w : Written, w.Ok ∧ w.text = s.take b.1 ∧ b.2 = .int w.radix w.value w.kind := by
  simp only [matchInt] at h
  split at h
  next ht =>
    split at h
    · cases h
    next n hn =>
      obtain ⟨w, hw, hr, hb⟩ := bodyLen_back hn
      subst hr
      rw [hb, parseInt_written hw] at h
      cases h
      refine ⟨w, hw, ?_, rfl⟩
      rw [written_text, List.take_add, ht, hb]
  next => cases h

/-- Only the rules for numbers give numbers. -/
theorem mem_matches_int {C : Classes} {s : List Char} {n : Nat} {r : Radix} {v : Nat} {k : Kind}
    (h : some (n, .int r v k) ∈ matches_ C s) : ∃ r', matchInt r' s = some (n, .int r v k) := by
  rcases mem_matches h with ⟨f, hf, h⟩ | ⟨r, h⟩ | h | h | h | h | h | h | h | h | h | h
  · cases (matchFixed_some h).2
  · exact ⟨r, h⟩
  · rw [matchIdent.eq_def] at h
    split at h
    · split at h
      · cases h
      · simp at h
    · simp at h
  · rw [matchLabel.eq_def] at h
    split at h
    · cases h
    · split at h
      · simp at h
      · cases h
  · rw [matchLabel.eq_def] at h
    split at h
    · cases h
    · split at h
      · simp at h
      · cases h
  · rw [matchQuoted.eq_def] at h
    split at h
    · split at h
      · simp at h
      · cases h
    · cases h
  · rw [matchQuoted.eq_def] at h
    split at h
    · split at h
      · simp at h
      · cases h
    · cases h
  · rw [matchUtf8.eq_def] at h
    split at h
    · split at h
      · cases h
      · cases h
    · cases h
  · rw [matchString.eq_def] at h
    split at h
    · simp only at h
      split at h
      · cases h
      · cases h
    · cases h
  all_goals
    rw [matchLine] at h
    split at h
    · cases h
    · cases h

/-- Only the rules for characters give characters. -/
theorem mem_matches_quoted {C : Classes} {s : List Char} {n : Nat} {x : List Char}
    (h : some (n, .asciiChar x) ∈ matches_ C s) :
    matchQuoted '\'' .asciiChar s = some (n, .asciiChar x) := by
  rcases mem_matches h with ⟨f, hf, h⟩ | ⟨r, h⟩ | h | h | h | h | h | h | h | h | h | h
  · cases (matchFixed_some h).2
  · obtain ⟨_, _, _, _, _, _, h⟩ := matchInt_some h
    cases h
  · rw [matchIdent.eq_def] at h
    split at h
    · split at h
      · cases h
      · simp at h
    · simp at h
  · rw [matchLabel.eq_def] at h
    split at h
    · cases h
    · split at h
      · simp at h
      · cases h
  · rw [matchLabel.eq_def] at h
    split at h
    · cases h
    · split at h
      · simp at h
      · cases h
  · exact h
  · rw [matchQuoted.eq_def] at h
    split at h
    · split at h
      · simp at h
      · cases h
    · cases h
  · rw [matchUtf8.eq_def] at h
    split at h
    · split at h
      · cases h
      · cases h
    · cases h
  · rw [matchString.eq_def] at h
    split at h
    · simp only at h
      split at h
      · cases h
      · cases h
    · cases h
  all_goals
    rw [matchLine] at h
    split at h
    · cases h
    · cases h

/-- A token of the lexer is a match at some place in the file. -/
theorem lexNext_tok {C : Classes} : ∀ {k : Nat} {s : List Char} {t : Tok} {rest : List Char},
    lexNext C k s = some (.tok t rest) →
    ∃ pre s' n, s = pre ++ s' ∧ longest (matches_ C s') = some (n, t) ∧ rest = s'.drop n
  | 0, _, _, _, h => by cases h
  | k + 1, [], t, rest, h => by rw [lexNext] at h; cases h
  | k + 1, c :: cs, t, rest, h => by
    rw [lexNext] at h
    split at h
    · obtain ⟨pre, s', n, h1, h2, h3⟩ := lexNext_tok h
      exact ⟨c :: pre, s', n, by rw [h1]; rfl, h2, h3⟩
    · cases hl : longest (matches_ C (c :: cs)) with
      | none => rw [hl] at h; cases h
      | some b =>
        obtain ⟨n, t'⟩ := b
        rw [hl] at h
        by_cases hc : t' = .comment
        · subst hc
          obtain ⟨pre, s', n', h1, h2, h3⟩ := lexNext_tok h
          refine ⟨(c :: cs).take n ++ pre, s', n', ?_, h2, h3⟩
          rw [List.append_assoc, ← h1, List.take_append_drop]
        · cases t' <;> first | exact absurd rfl hc | (cases h; exact ⟨[], c :: cs, n, rfl, hl, rfl⟩)

theorem lexNext_rest {C : Classes} : ∀ {k : Nat} {s : List Char} {r : Next},
    lexNext C k s = some r → ∃ pre, s = pre ++ r.rest
  | 0, _, _, h => by cases h
  | k + 1, [], r, h => by
    rw [lexNext] at h
    cases h
    exact ⟨[], rfl⟩
  | k + 1, c :: cs, r, h => by
    rw [lexNext] at h
    split at h
    · obtain ⟨pre, h1⟩ := lexNext_rest h
      exact ⟨c :: pre, by rw [List.cons_append, ← h1]⟩
    · cases hl : longest (matches_ C (c :: cs)) with
      | none =>
        rw [hl] at h
        cases h
        exact ⟨[c], rfl⟩
      | some b =>
        obtain ⟨n, t'⟩ := b
        rw [hl] at h
        by_cases hc : t' = .comment
        · subst hc
          obtain ⟨pre, h1⟩ := lexNext_rest h
          refine ⟨(c :: cs).take n ++ pre, ?_⟩
          rw [List.append_assoc, ← h1, List.take_append_drop]
        · cases t' <;> first
            | exact absurd rfl hc
            | (cases h; exact ⟨(c :: cs).take n, (List.take_append_drop _ _).symm⟩)

/-- A token of the parser is a match at some place in the file. -/
theorem nextToken_tok {C : Classes} (k : Nat) :
    (∀ s r, nextToken C k s = some r → (∃ pre, s = pre ++ r.rest) ∧ ∀ t rest, r = .tok t rest →
      ∃ pre s' n, s = pre ++ s' ∧ longest (matches_ C s') = some (n, t) ∧ rest = s'.drop n) ∧
    (∀ s r, inComment C k s = some r → (∃ pre, s = pre ++ r.rest) ∧ ∀ t rest, r = .tok t rest →
      ∃ pre s' n, s = pre ++ s' ∧ longest (matches_ C s') = some (n, t) ∧ rest = s'.drop n) := by
  have push : ∀ {s s1 : List Char} {r : Next}, (∃ pre, s = pre ++ s1) →
      ((∃ pre, s1 = pre ++ r.rest) ∧ ∀ t rest, r = .tok t rest →
        ∃ pre s' n, s1 = pre ++ s' ∧ longest (matches_ C s') = some (n, t) ∧ rest = s'.drop n) →
      (∃ pre, s = pre ++ r.rest) ∧ ∀ t rest, r = .tok t rest →
        ∃ pre s' n, s = pre ++ s' ∧ longest (matches_ C s') = some (n, t) ∧ rest = s'.drop n := by
    rintro s s1 r ⟨p, rfl⟩ ⟨⟨p', h⟩, h2⟩
    refine ⟨⟨p ++ p', by rw [List.append_assoc, ← h]⟩, ?_⟩
    intro t rest hr
    obtain ⟨pre, s', n, h3, h4, h5⟩ := h2 t rest hr
    exact ⟨p ++ pre, s', n, by rw [List.append_assoc, ← h3], h4, h5⟩
  induction k with
  | zero =>
    constructor
    · intro s r h; rw [nextToken] at h; cases h
    · intro s r h; rw [inComment] at h; cases h
  | succ k ih =>
    constructor
    · intro s r h
      rw [nextToken] at h
      cases hl : lexNext C (s.length + 1) s with
      | none => rw [hl] at h; cases h
      | some x =>
        rw [hl] at h
        cases x with
        | eof => cases h; exact ⟨lexNext_rest hl, by intro _ _ h; cases h⟩
        | error rest => cases h; exact ⟨lexNext_rest hl, by intro _ _ h; cases h⟩
        | tok t rest =>
          simp only at h
          split at h
          · exact push (lexNext_rest hl) (ih.2 _ _ h)
          · cases h
            refine ⟨lexNext_rest hl, ?_⟩
            intro t' rest' h
            cases h
            exact lexNext_tok hl
    · intro s r h
      rw [inComment] at h
      cases hn : nextToken C k s with
      | none => rw [hn] at h; cases h
      | some x =>
        have hp := (ih.1 _ _ hn).1
        rw [hn] at h
        cases x with
        | eof => cases h; exact ⟨hp, by intro _ _ h; cases h⟩
        | error rest => exact push hp (ih.2 _ _ h)
        | tok t rest =>
          simp only at h
          split at h
          · exact push hp (ih.1 _ _ h)
          · exact push hp (ih.2 _ _ h)

theorem gives_tok {C : Classes} {s rest : List Char} {t : Tok} (h : Gives C s (.tok t rest)) :
    ∃ pre s' n, s = pre ++ s' ∧ longest (matches_ C s') = some (n, t) ∧ rest = s'.drop n := by
  obtain ⟨k, hk⟩ := h
  exact ((nextToken_tok k).1 _ _ hk).2 _ _ rfl

end Spade.Lex

import Verif.Lex.Longest

/-! # Characters and strings in the lexer (C64) -/

namespace Spade.Lex

open Spec (Radix Kind Spelling Spellings)

theorem quotedLen_cons (q c : Char) (cs : List Char) : quotedLen q (c :: cs) =
    if c = q then some 1
    else if c = '\\' then
      match cs with
      | [] => none
      | d :: ds => if d = '\n' then none else (quotedLen q ds).map (2 + ·)
    else (quotedLen q cs).map (1 + ·) := by
  rw [quotedLen.eq_def]
  rfl

theorem quotedLen_spelling {q c : Char} {s : List Char} (hq : q = '\'' ∨ q = '"')
    (h : Spelling q c s) (t : List Char) : quotedLen q (s ++ t) = (quotedLen q t).map (s.length + ·) := by
  have hqb : ('\\' : Char) ≠ q := by rcases hq with rfl | rfl <;> decide
  have esc : ∀ d : Char, d ≠ '\n' → quotedLen q ('\\' :: d :: t) = (quotedLen q t).map (2 + ·) := by
    intro d hd
    rw [quotedLen_cons]
    simp [hqb, hd]
  cases h with
  | plain h1 h2 h3 =>
    rw [List.singleton_append, quotedLen_cons]
    simp [h2, h3]
  | quote => exact esc q (by rcases hq with rfl | rfl <;> decide)
  | nul => exact esc '0' (by decide)
  | tab => exact esc 't' (by decide)
  | newline => exact esc 'n' (by decide)
  | ret => exact esc 'r' (by decide)

theorem quotedLen_spellings {q : Char} (hq : q = '\'' ∨ q = '"') {cs s : List Char}
    (h : Spellings q cs s) (rest : List Char) : quotedLen q (s ++ q :: rest) = some (s.length + 1) := by
  induction h with
  | nil => simp [quotedLen_cons]
  | cons hc _ ih =>
    rw [List.append_assoc, quotedLen_spelling hq hc, ih, List.length_append]
    simp only [Option.map_some, Option.some.injEq]
    omega

theorem fixed_not_b : ∀ f ∈ fixedTokens, f.head? ≠ some 'b' := by decide +kernel

/-- Between `b` and the delimiter `q`, the lexer takes the whole literal. -/
theorem longest_quoted {C : Classes} (hC : C.Usual) {q : Char} (hq : q = '\'' ∨ q = '"')
    {s rest : List Char} (h : quotedLen q (s ++ q :: rest) = some (s.length + 1)) :
    longest (matches_ C ('b' :: q :: (s ++ q :: rest))) =
      some (s.length + 3, if q = '\'' then .asciiChar s else .asciiString s) := by
  have hm : ∀ mk : List Char → Tok, matchQuoted q mk ('b' :: q :: (s ++ q :: rest)) =
      some (s.length + 3, mk s) := by
    intro mk
    simp only [matchQuoted, if_true, h, Option.map_some, Nat.add_sub_cancel, List.take_left]
    congr 2
    omega
  have hcont : C.cont q = false := by
    rcases hq with rfl | rfl <;> rw [hC.cont _ (by decide)] <;> decide
  have hstart : C.start 'b' = true := by rw [hC.start _ (by decide)]; decide
  apply longest_eq
  · rw [matches_, List.mem_append]
    right
    rcases hq with rfl | rfl
    · simp [hm .asciiChar]
    · simp [hm .asciiString]
  · intro b hb
    rcases mem_matches hb with ⟨f, hf, h⟩ | ⟨r, h⟩ | h | h | h | h | h | h | h | h | h | h
    · obtain ⟨c', cs, hfc, _⟩ := fixed_head f hf
      have := matchFixed_head h hfc
      subst this
      exact absurd (by rw [hfc]; rfl) (fixed_not_b f hf)
    · cases r <;> simp [matchInt, Radix.intro, bodyLen, isRadixDigit] at h
    · rw [matchIdent.eq_def] at h
      split at h
      next heq => cases heq
      next =>
        simp only [nameLen, hstart, Bool.true_or, if_true, List.takeWhile_cons, hcont,
          Option.map_some, Option.some.injEq] at h
        right
        rw [← h]
        simp
    · simp [matchLabel] at h
    · simp [matchLabel] at h
    · rcases hq with rfl | rfl
      · rw [hm] at h
        cases h
        exact .inl rfl
      · simp [matchQuoted] at h
    · rcases hq with rfl | rfl
      · simp [matchQuoted] at h
      · rw [hm] at h
        cases h
        exact .inl rfl
    · simp [matchUtf8] at h
    · simp [matchString] at h
    · exact absurd (matchLine_head h) (by decide)
    · exact absurd (matchLine_head h) (by decide)
    · exact absurd (matchLine_head h) (by decide)

/-! ## What the parser makes of them -/

theorem asciiChar_spelling {c : Char} {s : List Char} (h : Spelling '\'' c s) :
    asciiChar s = some c.toNat := by
  cases h with
  | plain h1 h2 h3 =>
    simp only [asciiChar, List.all_cons, List.all_nil, Bool.and_true, decide_eq_true_eq, h1, if_true]
  | quote => decide
  | nul => decide
  | tab => decide
  | newline => decide
  | ret => decide

theorem asciiString_spelling {c : Char} {s : List Char} (h : Spelling '"' c s) (t : List Char) :
    asciiString false (s ++ t) = (asciiString false t).map (c.toNat :: ·) := by
  have esc : ∀ d e : Char, d.toNat < 128 → escape '"' d = some e →
      asciiString false ('\\' :: d :: t) = (asciiString false t).map (e.toNat :: ·) := by
    intro d e hd he
    rw [asciiString, if_pos (by decide), if_neg (by decide), if_pos rfl, asciiString, if_pos hd,
      if_pos rfl, he, Option.bind_some]
  cases h with
  | plain h1 h2 h3 =>
    rw [List.singleton_append, asciiString, if_pos h1, if_neg (by decide), if_neg h3]
  | quote => exact esc '"' '"' (by decide) (by decide)
  | nul => exact esc '0' _ (by decide) (by decide)
  | tab => exact esc 't' _ (by decide) (by decide)
  | newline => exact esc 'n' _ (by decide) (by decide)
  | ret => exact esc 'r' _ (by decide) (by decide)

theorem asciiString_spellings {cs s : List Char} (h : Spellings '"' cs s) :
    asciiString false s = some (cs.map Char.toNat) := by
  induction h with
  | nil => rfl
  | cons hc _ ih => rw [asciiString_spelling hc, ih]; rfl

/-! ## The backslash -/

theorem escape_ne {q c e : Char} (hq : q ≠ '\\') (h : escape q c = some e) : e.toNat ≠ 92 := by
  have hq' : q.toNat ≠ 92 := fun h => hq (by rw [← Char.ofNat_toNat q, h])
  simp only [escape] at h
  repeat' split at h
  all_goals first | (cases h; done) | (cases h; decide) | (cases h; exact hq')

theorem asciiString_ne : ∀ {s : List Char} {e : Bool} {bs : List Nat}, asciiString e s = some bs →
    92 ∉ bs
  | [], e, bs, h => by
    rw [asciiString] at h
    cases h
    simp
  | c :: cs, e, bs, h => by
    rw [asciiString] at h
    split at h
    next =>
      split at h
      next =>
        simp only [Option.bind_eq_some_iff, Option.map_eq_some_iff] at h
        obtain ⟨x, hx, r, hr, rfl⟩ := h
        simp only [List.mem_cons, not_or]
        exact ⟨fun h => escape_ne (by decide) hx h.symm, asciiString_ne hr⟩
      next =>
        split at h
        next => exact asciiString_ne h
        next hne =>
          simp only [Option.map_eq_some_iff] at h
          obtain ⟨r, hr, rfl⟩ := h
          simp only [List.mem_cons, not_or]
          refine ⟨fun h => ?_, asciiString_ne hr⟩
          exact hne (by rw [← Char.ofNat_toNat c, ← h])
    next => cases h

theorem quotedLen_content {q : Char} {s : List Char} {n : Nat} (hq : q ≠ '\\')
    (h : quotedLen q s = some n) : s.take (n - 1) ≠ ['\\'] := by
  intro hs
  cases s with
  | nil => simp at hs
  | cons c cs =>
    rw [quotedLen_cons] at h
    split at h
    next hcq =>
      cases h
      simp at hs
    next hcq =>
      have hn : n - 1 ≠ 0 := by rintro h0; rw [h0] at hs; simp at hs
      obtain ⟨m, hm⟩ : ∃ m, n - 1 = m + 1 := ⟨n - 2, by omega⟩
      rw [hm, List.take_succ_cons] at hs
      have hc : c = '\\' := by simpa using (List.cons.inj hs).1
      have hnil : cs.take m = [] := (List.cons.inj hs).2
      split at h
      next =>
        cases cs with
        | nil => cases h
        | cons d ds =>
          simp only at h
          split at h
          · cases h
          · simp only [Option.map_eq_some_iff] at h
            obtain ⟨k, hk, rfl⟩ := h
            have hk0 : 1 ≤ k := by
              cases k with
              | zero =>
                exfalso
                cases ds with
                | nil => simp [quotedLen] at hk
                | cons x xs =>
                  rw [quotedLen_cons] at hk
                  split at hk
                  · cases hk
                  · split at hk
                    · cases xs with
                      | nil => cases hk
                      | cons y ys =>
                        simp only at hk
                        split at hk
                        · cases hk
                        · simp only [Option.map_eq_some_iff] at hk
                          obtain ⟨j, _, hj⟩ := hk
                          omega
                    · simp only [Option.map_eq_some_iff] at hk
                      obtain ⟨j, _, hj⟩ := hk
                      omega
              | succ k => omega
            have : m = k := by omega
            subst this
            obtain ⟨m', rfl⟩ : ∃ m', m = m' + 1 := ⟨m - 1, by omega⟩
            simp at hnil
      next hne => exact hne hc

/-- No token of the lexer is a character literal that the parser reads as a backslash. -/
theorem asciiChar_ne {q : Char} (hq : q ≠ '\\') {s : List Char} {n : Nat}
    (h : quotedLen q s = some n) : asciiChar (s.take (n - 1)) ≠ some 92 := by
  intro hc
  rw [asciiChar.eq_def] at hc
  split at hc
  next =>
    split at hc
    next =>
      simp only [Option.map_eq_some_iff] at hc
      obtain ⟨e, he, h92⟩ := hc
      exact escape_ne (by decide) he h92
    next c heq =>
      simp only [Option.some.injEq] at hc
      have : c = '\\' := by rw [← Char.ofNat_toNat c, hc]
      subst this
      exact quotedLen_content hq h heq
    next => cases hc
  next => cases hc

end Spade.Lex

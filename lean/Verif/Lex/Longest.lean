import Verif.Lex.Numbers

/-! # The longest match (C64, C65) -/

namespace Spade.Lex

open Spec (Radix Kind IsDigit Written Ends)

/-- The character classes are the usual ones on ASCII characters. -/
structure Classes.Usual (C : Classes) : Prop where
  start : ∀ c : Char, c.toNat < 128 → C.start c = c.isAlpha
  cont : ∀ c : Char, c.toNat < 128 → C.cont c = (c.isAlphanum || c == '_')

theorem longest_mem : ∀ {ms : List (Option (Nat × Tok))} {a : Nat × Tok}, longest ms = some a →
    some a ∈ ms
  | m :: ms, a, h => by
    rw [longest] at h
    cases hl : longest ms with
    | none =>
      rw [hl] at h
      cases m with
      | none => cases h
      | some x => cases h; exact List.mem_cons_self
    | some y =>
      have hy := List.mem_cons_of_mem m (longest_mem hl)
      rw [hl] at h
      cases m with
      | none => cases h; exact hy
      | some x =>
        simp only [longer] at h
        split at h <;> cases h
        · exact hy
        · exact List.mem_cons_self

theorem longest_le : ∀ {ms : List (Option (Nat × Tok))} {a : Nat × Tok}, some a ∈ ms →
    ∃ b, longest ms = some b ∧ a.1 ≤ b.1
  | m :: ms, a, h => by
    rw [longest]
    rcases List.mem_cons.mp h with rfl | h
    · cases hl : longest ms with
      | none => exact ⟨a, rfl, Nat.le_refl _⟩
      | some y =>
        simp only [longer]
        split
        · exact ⟨y, rfl, by omega⟩
        · exact ⟨a, rfl, Nat.le_refl _⟩
    · obtain ⟨b, hb, hle⟩ := longest_le h
      rw [hb]
      cases m with
      | none => exact ⟨b, rfl, hle⟩
      | some x =>
        simp only [longer]
        split
        · exact ⟨b, rfl, hle⟩
        · exact ⟨x, rfl, by omega⟩

/-- A match that is longer than all others counts. -/
theorem longest_eq {ms : List (Option (Nat × Tok))} {a : Nat × Tok} (ha : some a ∈ ms)
    (h : ∀ b, some b ∈ ms → b = a ∨ b.1 < a.1) : longest ms = some a := by
  obtain ⟨b, hb, hle⟩ := longest_le ha
  rcases h b (longest_mem hb) with rfl | hlt
  · exact hb
  · omega

theorem longest_none {ms : List (Option (Nat × Tok))} (h : ∀ m ∈ ms, m = none) :
    longest ms = none := by
  cases hl : longest ms with
  | none => rfl
  | some a => have := h _ (longest_mem hl); cases this

/-- A match of one of the rules. -/
theorem mem_matches {C : Classes} {s : List Char} {b : Nat × Tok} (h : some b ∈ matches_ C s) :
    (∃ f ∈ fixedTokens, matchFixed f s = some b) ∨ (∃ r, matchInt r s = some b) ∨
    matchIdent C s = some b ∨ matchLabel C '\'' .label s = some b ∨
    matchLabel C '@' .labelRef s = some b ∨ matchQuoted '\'' .asciiChar s = some b ∨
    matchQuoted '"' .asciiString s = some b ∨ matchUtf8 C s = some b ∨ matchString s = some b ∨
    matchLine ['/', '/', '/'] .outsideDoc s = some b ∨
    matchLine ['/', '/', '!'] .insideDoc s = some b ∨
    matchLine ['/', '/'] (fun _ => .comment) s = some b := by
  rw [matches_, List.mem_append, List.mem_map] at h
  rcases h with h | h
  · exact .inl h
  · right
    simp only [List.mem_cons, List.not_mem_nil, or_false] at h
    rcases h with h | h | h | h | h | h | h | h | h | h | h | h | h | h
    · exact .inl ⟨_, h.symm⟩
    · exact .inl ⟨_, h.symm⟩
    · exact .inl ⟨_, h.symm⟩
    · exact .inl ⟨_, h.symm⟩
    all_goals (right; simp only [← h, true_or, or_true])

theorem int_mem_matches {C : Classes} {s : List Char} {r : Radix} : matchInt r s ∈ matches_ C s := by
  rw [matches_, List.mem_append]
  right
  cases r <;> simp

/-- The first characters of the fixed tokens. -/
theorem fixed_head : ∀ f ∈ fixedTokens, ∃ c cs, f = c :: cs ∧ c.isDigit = false ∧ c ≠ '\'' ∧
    c ≠ '"' ∧ isSpace c = false := by
  have : ∀ f ∈ fixedTokens, (match f with
      | [] => false
      | c :: _ => !c.isDigit && c != '\'' && c != '"' && !isSpace c) = true := by decide +kernel
  intro f hf
  have h := this f hf
  cases f with
  | nil => cases h
  | cons c cs =>
    simp only [Bool.and_eq_true, Bool.not_eq_true', bne_iff_ne, ne_eq] at h
    exact ⟨c, cs, rfl, h.1.1.1, h.1.1.2, h.1.2, h.2⟩

theorem matchFixed_some {f s : List Char} {b : Nat × Tok} (h : matchFixed f s = some b) :
    s.take f.length = f ∧ b = (f.length, .fixed f) := by
  rw [matchFixed] at h
  split at h
  next ht => cases h; exact ⟨ht, rfl⟩
  next => cases h

theorem matchFixed_head {f s : List Char} {b : Nat × Tok} {c : Char} {cs : List Char}
    (h : matchFixed f (c :: s) = some b) (hf : f = c' :: cs) : c' = c := by
  have := (matchFixed_some h).1
  subst hf
  simp only [List.length_cons, List.take_succ_cons, List.cons.injEq] at this
  exact this.1.symm

theorem matchLine_head {p s : List Char} {mk : List Char → Tok} {b : Nat × Tok} {c d : Char}
    (h : matchLine (d :: p) mk (c :: s) = some b) : c = d := by
  rw [matchLine] at h
  split at h
  next ht =>
    simp only [List.length_cons, List.take_succ_cons, List.cons.injEq] at ht
    exact ht.1
  next => cases h

/-! ## Numbers -/

/-- Where a digit comes first, only the rules for numbers match. -/
theorem mem_matches_digit {C : Classes} (hC : C.Usual) {c : Char} {s : List Char} {b : Nat × Tok}
    (hc : c.isDigit = true) (h : some b ∈ matches_ C (c :: s)) : ∃ r, matchInt r (c :: s) = some b := by
  have hlt : c.toNat < 128 := by
    simp only [Char.isDigit, Bool.and_eq_true, decide_eq_true_eq, UInt32.le_iff_toNat_le] at hc
    have : c.val.toNat = c.toNat := rfl
    have h2 := hc.2
    rw [this] at h2
    have : ('9' : Char).val.toNat = 57 := by decide
    omega
  have hstart : (C.start c || c == '_') = false := by
    rw [hC.start c hlt]
    have h1 : c.isAlpha = false := by
      simp only [Char.isDigit, Bool.and_eq_true, decide_eq_true_eq, UInt32.le_iff_toNat_le] at hc
      simp only [Char.isAlpha, Char.isUpper, Char.isLower, Bool.or_eq_false_iff,
        Bool.and_eq_false_iff, decide_eq_false_iff_not, UInt32.le_iff_toNat_le, ge_iff_le] at *
      have a1 : ('0' : Char).val.toNat = 48 := by decide
      have a2 : ('9' : Char).val.toNat = 57 := by decide
      have a3 : ('A' : Char).val.toNat = 65 := by decide
      have a4 : ('a' : Char).val.toNat = 97 := by decide
      simp only [a1, a2] at hc
      constructor <;> omega
    have h2 : c ≠ '_' := by rintro rfl; revert hc; decide
    simp [h1, h2]
  have hne : c ≠ '\'' ∧ c ≠ '@' ∧ c ≠ 'b' ∧ c ≠ '"' ∧ c ≠ '/' ∧ c ≠ 'r' := by
    refine ⟨?_, ?_, ?_, ?_, ?_, ?_⟩ <;> (rintro rfl; revert hc; decide)
  obtain ⟨n1, n2, n3, n4, n5, n6⟩ := hne
  rcases mem_matches h with ⟨f, hf, h⟩ | h | h | h | h | h | h | h | h | h | h | h
  · obtain ⟨c', cs, hfc, hd, _⟩ := fixed_head f hf
    have := matchFixed_head h hfc
    subst this
    rw [hd] at hc
    cases hc
  · exact h
  · rw [matchIdent.eq_def] at h
    split at h
    next heq => cases heq; exact absurd rfl n6
    next => simp [nameLen, hstart] at h
  · simp [matchLabel, n1] at h
  · simp [matchLabel, n2] at h
  · rw [matchQuoted.eq_def] at h
    split at h
    next heq => cases heq; exact absurd rfl n3
    next => cases h
  · rw [matchQuoted.eq_def] at h
    split at h
    next heq => cases heq; exact absurd rfl n3
    next => cases h
  · rw [matchUtf8.eq_def] at h
    split at h
    next heq => cases heq; exact absurd rfl n1
    next => cases h
  · rw [matchString.eq_def] at h
    split at h
    next heq => cases heq; exact absurd rfl n4
    next => cases h
  · exact absurd (matchLine_head h) n5
  · exact absurd (matchLine_head h) n5
  · exact absurd (matchLine_head h) n5

/-- A number of another radix does not match, or only its introductory zero does. -/
theorem matchInt_other {w : Written} (hw : w.Ok) {rest : List Char} (hr : Ends rest) {r : Radix}
    (hne : r ≠ w.radix) {b : Nat × Tok} (h : matchInt r (w.text ++ rest) = some b) :
    b.1 < w.text.length := by
  have hx : ∀ c, (w.more ++ (match w.suffix with | none => [] | some (l, ds) => l :: ds) ++
      rest).head? = some c → c ≠ 'x' ∧ c ≠ 'o' ∧ (c = 'b' → w.radix = .hex) := by
    intro c hc
    have : (c ∈ w.more) ∨ (c ∈ ['u', 'U', 'i', 'I']) ∨ rest.head? = some c := by
      cases hm : w.more with
      | cons d ds =>
        rw [hm] at hc
        simp only [List.cons_append, List.head?_cons, Option.some.injEq] at hc
        exact .inl (by simp [hc])
      | nil =>
        rw [hm] at hc
        cases hs : w.suffix with
        | none => rw [hs] at hc; exact .inr (.inr hc)
        | some p =>
          obtain ⟨l, ds⟩ := p
          rw [hs] at hc
          simp only [List.nil_append, List.cons_append, List.head?_cons, Option.some.injEq] at hc
          exact .inr (.inl (hc ▸ hw.letter l ds hs))
    rcases this with hm | hm | hm
    · rcases hw.more c hm with hd | rfl
      · obtain ⟨d, hd, hlt⟩ := hd
        have hmem := mem_hexDigits hd
        have hxo : ∀ c ∈ hexDigits, c ≠ 'x' ∧ c ≠ 'o' := by decide
        refine ⟨(hxo c hmem).1, (hxo c hmem).2, ?_⟩
        rintro rfl
        have : Spec.digit 'b' = some 11 := by decide
        rw [this] at hd
        cases hd
        cases hrad : w.radix <;> rw [hrad] at hlt <;> simp [Radix.base] at hlt ⊢
      · exact ⟨by decide, by decide, fun h => absurd h (by decide)⟩
    · simp only [List.mem_cons, List.not_mem_nil, or_false] at hm
      rcases hm with rfl | rfl | rfl | rfl <;>
        exact ⟨by decide, by decide, fun h => absurd h (by decide)⟩
    · have ha := (hr c hm).1
      refine ⟨?_, ?_, ?_⟩
      · rintro rfl; revert ha; decide
      · rintro rfl; revert ha; decide
      · rintro rfl; exact absurd ha (by decide)
  have hlen1 : 1 ≤ w.text.length := by
    simp only [Written.text, List.length_append, List.length_cons]
    omega
  cases hrad : w.radix with
  | dec =>
    -- the second character is not `x`, `o` or `b`
    exfalso
    have htext : w.text ++ rest = w.first :: (w.more ++
        (match w.suffix with | none => [] | some (l, ds) => l :: ds) ++ rest) := by
      simp only [Written.text, hrad, Radix.intro, List.nil_append, List.cons_append]
      rfl
    rw [htext] at h
    rw [hrad] at hne hx
    cases hrest : (w.more ++ (match w.suffix with | none => [] | some (l, ds) => l :: ds) ++ rest) with
    | nil =>
      rw [hrest] at h
      cases r <;> simp [matchInt, Radix.intro] at h hne
    | cons c cs =>
      rw [hrest] at h hx
      obtain ⟨h1, h2, h3⟩ := hx c rfl
      have h3 : c ≠ 'b' := fun h => nomatch h3 h
      cases r <;> simp [matchInt, Radix.intro, h1, h2, h3] at h hne
  | hex =>
    have htext : w.text ++ rest = '0' :: 'x' :: (Written.rest w ++ rest) := by
      rw [written_text, hrad]; rfl
    have hlen : 2 < w.text.length := by
      rw [written_text, hrad]
      simp only [Radix.intro, Written.rest, List.length_append, List.length_cons]
      omega
    rw [htext] at h
    cases r with
    | dec =>
      have : matchInt .dec ('0' :: 'x' :: (Written.rest w ++ rest)) = some (1, .int .dec 0 .unsized) := by
        simp only [matchInt, Radix.intro, List.length_nil, List.take_zero, List.drop_zero, if_true,
          bodyLen, Radix.base]
        have e1 : isRadixDigit .dec '0' = true := by decide
        have e2 : (isRadixDigit .dec 'x' || 'x' == '_') = false := by decide
        simp only [e1, if_true, List.takeWhile_cons, e2]
        simp [suffixLen, parseInt, parseBytes, parseDigits, Spec.digit]
      rw [this] at h
      cases h
      show 1 < _
      omega
    | hex => exact absurd hrad.symm hne
    | oct => simp [matchInt, Radix.intro] at h
    | bin => simp [matchInt, Radix.intro] at h
  | oct =>
    have htext : w.text ++ rest = '0' :: 'o' :: (Written.rest w ++ rest) := by
      rw [written_text, hrad]; rfl
    have hlen : 2 < w.text.length := by
      rw [written_text, hrad]
      simp only [Radix.intro, Written.rest, List.length_append, List.length_cons]
      omega
    rw [htext] at h
    cases r with
    | dec =>
      have : matchInt .dec ('0' :: 'o' :: (Written.rest w ++ rest)) = some (1, .int .dec 0 .unsized) := by
        simp only [matchInt, Radix.intro, List.length_nil, List.take_zero, List.drop_zero, if_true,
          bodyLen, Radix.base]
        have e1 : isRadixDigit .dec '0' = true := by decide
        have e2 : (isRadixDigit .dec 'o' || 'o' == '_') = false := by decide
        simp only [e1, if_true, List.takeWhile_cons, e2]
        simp [suffixLen, parseInt, parseBytes, parseDigits, Spec.digit]
      rw [this] at h
      cases h
      show 1 < _
      omega
    | oct => exact absurd hrad.symm hne
    | hex => simp [matchInt, Radix.intro] at h
    | bin => simp [matchInt, Radix.intro] at h
  | bin =>
    have htext : w.text ++ rest = '0' :: 'b' :: (Written.rest w ++ rest) := by
      rw [written_text, hrad]; rfl
    have hlen : 2 < w.text.length := by
      rw [written_text, hrad]
      simp only [Radix.intro, Written.rest, List.length_append, List.length_cons]
      omega
    rw [htext] at h
    cases r with
    | dec =>
      have : matchInt .dec ('0' :: 'b' :: (Written.rest w ++ rest)) = some (1, .int .dec 0 .unsized) := by
        simp only [matchInt, Radix.intro, List.length_nil, List.take_zero, List.drop_zero, if_true,
          bodyLen, Radix.base]
        have e1 : isRadixDigit .dec '0' = true := by decide
        have e2 : (isRadixDigit .dec 'b' || 'b' == '_') = false := by decide
        simp only [e1, if_true, List.takeWhile_cons, e2]
        simp [suffixLen, parseInt, parseBytes, parseDigits, Spec.digit]
      rw [this] at h
      cases h
      show 1 < _
      omega
    | bin => exact absurd hrad.symm hne
    | hex => simp [matchInt, Radix.intro] at h
    | oct => simp [matchInt, Radix.intro] at h

/-- The first character of a number is a digit. -/
theorem written_head {w : Written} (hw : w.Ok) : ∃ c cs, w.text = c :: cs ∧ c.isDigit = true := by
  rw [written_text]
  cases hrad : w.radix with
  | dec =>
    refine ⟨w.first, _, rfl, ?_⟩
    obtain ⟨d, hd, hlt⟩ := hw.first
    rw [hrad] at hlt
    have key : ∀ c ∈ hexDigits, ∀ d, Spec.digit c = some d → d < 10 → c.isDigit = true := by
      have : ∀ c ∈ hexDigits, (match Spec.digit c with
          | some d => !decide (d < 10) || c.isDigit
          | none => true) = true := by decide
      intro c hc d hd hlt
      have := this c hc
      rw [hd] at this
      simpa [hlt] using this
    exact key _ (mem_hexDigits hd) d hd hlt
  | hex => exact ⟨'0', _, rfl, by decide⟩
  | oct => exact ⟨'0', _, rfl, by decide⟩
  | bin => exact ⟨'0', _, rfl, by decide⟩

/-- The lexer takes the whole number. -/
theorem longest_written {C : Classes} (hC : C.Usual) {w : Written} (hw : w.Ok)
    (hsd : SuffixDigits w) {rest : List Char} (hr : Ends rest) :
    longest (matches_ C (w.text ++ rest)) = some (w.text.length, .int w.radix w.value w.kind) := by
  apply longest_eq
  · rw [← matchInt_written hw hsd hr]
    exact int_mem_matches
  · intro b hb
    obtain ⟨c, cs, hcs, hd⟩ := written_head hw
    have hb' := hb
    rw [hcs, List.cons_append] at hb'
    obtain ⟨r, h⟩ := mem_matches_digit hC hd hb'
    rw [← List.cons_append, ← hcs] at h
    by_cases hne : r = w.radix
    · subst hne
      rw [matchInt_written hw hsd hr] at h
      cases h
      exact .inl rfl
    · exact .inr (matchInt_other hw hr hne h)

end Spade.Lex

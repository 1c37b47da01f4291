import Verif.Lex.Longest

/-! # Comments in the lexer (C65) -/

namespace Spade.Lex

open Spec (Radix Kind Body Calm)

/-! ## Lengths -/

theorem bodyLen_pos {r : Radix} {s : List Char} {n : Nat} (h : bodyLen r s = some n) : 1 ≤ n := by
  cases s with
  | nil => simp [bodyLen] at h
  | cons c cs =>
    simp only [bodyLen] at h
    split at h
    · simp only [Option.some.injEq] at h
      omega
    · cases h

theorem nameLen_pos {C : Classes} {s : List Char} {n : Nat} (h : nameLen C s = some n) : 1 ≤ n := by
  cases s with
  | nil => simp [nameLen] at h
  | cons c cs =>
    simp only [nameLen] at h
    split at h
    · simp only [Option.some.injEq] at h
      omega
    · cases h

theorem matchInt_some {r : Radix} {s : List Char} {b : Nat × Tok} (h : matchInt r s = some b) :
    s.take r.intro.length = r.intro ∧ ∃ n, bodyLen r (s.drop r.intro.length) = some n ∧
      b.1 = r.intro.length + n ∧ ∃ v k, b.2 = .int r v k := by
  simp only [matchInt] at h
  split at h
  next ht =>
    refine ⟨ht, ?_⟩
    split at h
    · cases h
    next n hn =>
      split at h
      · cases h
      · cases h
        exact ⟨n, hn, rfl, _, _, rfl⟩
  next => cases h

/-- Every match takes at least one character. -/
theorem match_pos {C : Classes} {s : List Char} {b : Nat × Tok} (h : some b ∈ matches_ C s) :
    1 ≤ b.1 := by
  rcases mem_matches h with ⟨f, hf, h⟩ | ⟨r, h⟩ | h | h | h | h | h | h | h | h | h | h
  · obtain ⟨c', cs, hfc, _⟩ := fixed_head f hf
    rw [(matchFixed_some h).2, hfc]
    simp
  · obtain ⟨_, n, hn, hb, _⟩ := matchInt_some h
    have := bodyLen_pos hn
    omega
  · rw [matchIdent.eq_def] at h
    split at h
    · split at h
      · cases h
        simp only
        omega
      · simp only [Option.map_eq_some_iff] at h
        obtain ⟨n, hn, rfl⟩ := h
        exact nameLen_pos hn
    · simp only [Option.map_eq_some_iff] at h
      obtain ⟨n, hn, rfl⟩ := h
      exact nameLen_pos hn
  · rw [matchLabel.eq_def] at h
    split at h
    · cases h
    · split at h
      · simp only [Option.map_eq_some_iff] at h
        obtain ⟨n, hn, rfl⟩ := h
        simp only
        omega
      · cases h
  · rw [matchLabel.eq_def] at h
    split at h
    · cases h
    · split at h
      · simp only [Option.map_eq_some_iff] at h
        obtain ⟨n, hn, rfl⟩ := h
        simp only
        omega
      · cases h
  · rw [matchQuoted.eq_def] at h
    split at h
    · split at h
      · simp only [Option.map_eq_some_iff] at h
        obtain ⟨n, hn, rfl⟩ := h
        simp only
        omega
      · cases h
    · cases h
  · rw [matchQuoted.eq_def] at h
    split at h
    · split at h
      · simp only [Option.map_eq_some_iff] at h
        obtain ⟨n, hn, rfl⟩ := h
        simp only
        omega
      · cases h
    · cases h
  · rw [matchUtf8.eq_def] at h
    split at h
    · split at h
      · cases h
        simp
      · cases h
    · cases h
  · rw [matchString.eq_def] at h
    split at h
    · simp only at h
      split at h
      · cases h
        simp only
        omega
      · cases h
    · cases h
  all_goals
    rw [matchLine] at h
    split at h
    · cases h
      simp only [List.length_cons]
      omega
    · cases h

/-- The text that is left. -/
def Next.rest : Next → List Char
  | .eof => []
  | .error r => r
  | .tok _ r => r

theorem longest_pos {C : Classes} {s : List Char} {b : Nat × Tok}
    (h : longest (matches_ C s) = some b) : 1 ≤ b.1 := match_pos (longest_mem h)

theorem lexNext_some {C : Classes} : ∀ {k : Nat} {s : List Char}, s.length < k →
    ∃ r, lexNext C k s = some r ∧ (r.rest.length < s.length ∨ r = .eof)
  | 0, _, h => by omega
  | k + 1, [], _ => ⟨.eof, rfl, .inr rfl⟩
  | k + 1, c :: cs, h => by
    simp only [List.length_cons] at h
    rw [lexNext]
    split
    · obtain ⟨r, hr, hl⟩ := lexNext_some (C := C) (k := k) (s := cs) (by omega)
      refine ⟨r, hr, hl.imp (fun h => ?_) id⟩
      simp only [List.length_cons]
      omega
    · split
      · exact ⟨_, rfl, .inl (by simp [Next.rest])⟩
      next n hl =>
        have hp : 1 ≤ n := longest_pos hl
        have hlen : ((c :: cs).drop n).length ≤ cs.length := by
          simp only [List.length_drop, List.length_cons]
          omega
        obtain ⟨r, hr, hle⟩ := lexNext_some (C := C) (k := k) (s := (c :: cs).drop n) (by omega)
        refine ⟨r, hr, hle.imp (fun h => ?_) id⟩
        simp only [List.length_cons]
        omega
      next n t _ hl =>
        have hp : 1 ≤ n := longest_pos hl
        refine ⟨_, rfl, .inl ?_⟩
        simp only [Next.rest, List.length_drop, List.length_cons]
        omega

theorem lexNext_step {C : Classes} : ∀ {k : Nat} {s : List Char} {r : Next},
    lexNext C k s = some r → lexNext C (k + 1) s = some r
  | 0, _, _, h => by cases h
  | k + 1, [], r, h => by rw [lexNext] at h ⊢; exact h
  | k + 1, c :: cs, r, h => by
    rw [lexNext] at h ⊢
    split at h
    next hs => rw [if_pos hs]; exact lexNext_step h
    next hs =>
      rw [if_neg hs]
      cases hl : longest (matches_ C (c :: cs)) with
      | none => rw [hl] at h; exact h
      | some b =>
        obtain ⟨n, t⟩ := b
        rw [hl] at h
        cases t <;> first | exact lexNext_step h | exact h

theorem lexNext_mono {C : Classes} {k k' : Nat} {s : List Char} {r : Next}
    (h : lexNext C k s = some r) (hk : k ≤ k') : lexNext C k' s = some r := by
  induction hk with
  | refl => exact h
  | step _ ih => exact lexNext_step ih

/-- What `self.lex.next()` gives. -/
def lex (C : Classes) (s : List Char) : Option Next := lexNext C (s.length + 1) s

theorem lex_eq {C : Classes} {k : Nat} {s : List Char} (h : s.length < k) :
    lexNext C k s = lex C s := by
  obtain ⟨r, hr, _⟩ := lexNext_some (C := C) (k := s.length + 1) (s := s) (by omega)
  rw [lex, hr]
  exact lexNext_mono hr h

/-! ## More steps do not change the result -/

theorem nextToken_step {C : Classes} (k : Nat) :
    (∀ s r, nextToken C k s = some r → nextToken C (k + 1) s = some r) ∧
    (∀ s r, inComment C k s = some r → inComment C (k + 1) s = some r) := by
  induction k with
  | zero =>
    constructor
    · intro s r h; rw [nextToken] at h; cases h
    · intro s r h; rw [inComment] at h; cases h
  | succ k ih =>
    constructor
    · intro s r h
      rw [nextToken] at h ⊢
      split at h
      next t rest hl =>
        split at h
        next hb => rw [if_pos hb]; exact ih.2 _ _ h
        next hb => rw [if_neg hb]; exact h
      next => exact h
    · intro s r h
      rw [inComment] at h ⊢
      cases hn : nextToken C k s with
      | none => rw [hn] at h; cases h
      | some x =>
        rw [ih.1 _ _ hn]
        rw [hn] at h
        cases x with
        | eof => exact h
        | error rest => exact ih.2 _ _ h
        | tok t rest =>
          simp only at h ⊢
          split at h
          next hb => rw [if_pos hb]; exact ih.1 _ _ h
          next hb => rw [if_neg hb]; exact ih.2 _ _ h

theorem nextToken_mono {C : Classes} {k k' : Nat} {s : List Char} {r : Next}
    (h : nextToken C k s = some r) (hk : k ≤ k') : nextToken C k' s = some r := by
  induction hk with
  | refl => exact h
  | step _ ih => exact (nextToken_step _).1 _ _ ih

theorem inComment_mono {C : Classes} {k k' : Nat} {s : List Char} {r : Next}
    (h : inComment C k s = some r) (hk : k ≤ k') : inComment C k' s = some r := by
  induction hk with
  | refl => exact h
  | step _ ih => exact (nextToken_step _).2 _ _ ih

/-- Steps in proportion to the text suffice. -/
theorem nextToken_total {C : Classes} : ∀ (n : Nat) (s : List Char), s.length ≤ n →
    (∃ r, nextToken C (2 * n + 1) s = some r ∧ (r.rest.length < s.length ∨ r.rest = [])) ∧
    (∃ r, inComment C (2 * n + 2) s = some r ∧ (r.rest.length < s.length ∨ r.rest = [])) := by
  intro n
  induction n with
  | zero =>
    intro s hs
    have : s = [] := by
      cases s with
      | nil => rfl
      | cons c cs => simp at hs
    subst this
    exact ⟨⟨.eof, rfl, .inr rfl⟩, ⟨.error [], rfl, .inr rfl⟩⟩
  | succ n ih =>
    intro s hs
    have h1 : ∃ r, nextToken C (2 * (n + 1) + 1) s = some r ∧
        (r.rest.length < s.length ∨ r.rest = []) := by
      rw [nextToken]
      obtain ⟨r, hr, hl⟩ := lexNext_some (C := C) (k := s.length + 1) (s := s) (by omega)
      rw [hr]
      cases r with
      | eof => exact ⟨_, rfl, .inr rfl⟩
      | error rest => exact ⟨_, rfl, .inl (hl.resolve_right (by simp))⟩
      | tok t rest =>
        have hl := hl.resolve_right (by simp)
        simp only [Next.rest] at hl
        simp only
        split
        · obtain ⟨r, hr, hle⟩ := (ih rest (by omega)).2
          refine ⟨r, hr, hle.imp (fun h => ?_) id⟩
          omega
        · exact ⟨_, rfl, .inl hl⟩
    refine ⟨h1, ?_⟩
    obtain ⟨r, hr, hl⟩ := h1
    rw [show 2 * (n + 1) + 2 = (2 * (n + 1) + 1) + 1 from rfl, inComment, hr]
    have hshort : ∀ rest : List Char, rest.length < s.length ∨ rest = [] → s ≠ [] →
        rest.length ≤ n := by
      rintro rest (h | h) _
      · omega
      · subst h; simp
    have hs0 : ∀ rest t, r = .tok t rest ∨ r = .error rest → rest.length ≤ n := by
      intro rest t hrr
      have hl' : rest.length < s.length ∨ rest = [] := by
        rcases hrr with rfl | rfl <;> exact hl
      rcases hl' with h | h
      · omega
      · subst h; simp
    cases r with
    | eof => exact ⟨_, rfl, .inr rfl⟩
    | error rest =>
      obtain ⟨r', hr', hle'⟩ := (ih rest (hs0 rest .comment (.inr rfl))).2
      refine ⟨r', inComment_mono hr' (by omega), ?_⟩
      simp only [Next.rest] at hl
      rcases hl with h | h
      · exact hle'.imp (fun h' => by omega) id
      · subst h
        right
        rcases hle' with h' | h'
        · simp at h'
        · exact h'
    | tok t rest =>
      have hlen := hs0 rest t (.inl rfl)
      simp only [Next.rest] at hl
      simp only
      split
      · obtain ⟨r', hr', hle'⟩ := (ih rest hlen).1
        refine ⟨r', nextToken_mono hr' (by omega), ?_⟩
        rcases hl with h | h
        · exact hle'.imp (fun h' => by omega) id
        · subst h
          right
          rcases hle' with h' | h'
          · simp at h'
          · exact h'
      · obtain ⟨r', hr', hle'⟩ := (ih rest hlen).2
        refine ⟨r', inComment_mono hr' (by omega), ?_⟩
        rcases hl with h | h
        · exact hle'.imp (fun h' => by omega) id
        · subst h
          right
          rcases hle' with h' | h'
          · simp at h'
          · exact h'

/-- What the parser's token function comes to. -/
def Gives (C : Classes) (s : List Char) (r : Next) : Prop := ∃ k, nextToken C k s = some r

/-- What the loop in a block comment comes to. -/
def InComment (C : Classes) (s : List Char) (r : Next) : Prop := ∃ k, inComment C k s = some r

theorem Gives.det {C : Classes} {s : List Char} {r r' : Next} (h : Gives C s r) (h' : Gives C s r') :
    r = r' := by
  obtain ⟨k, hk⟩ := h
  obtain ⟨k', hk'⟩ := h'
  have h1 := nextToken_mono hk (Nat.le_max_left k k')
  have h2 := nextToken_mono hk' (Nat.le_max_right k k')
  rw [h1] at h2
  cases h2
  rfl

/-! ## One turn -/

theorem gives_of_lex {C : Classes} {s : List Char} {r : Next} (h : lex C s = some r)
    (hb : ∀ rest, r ≠ .tok blockStart rest) : Gives C s r := by
  refine ⟨1, ?_⟩
  rw [nextToken, ← lex.eq_1, h]
  cases r with
  | eof => rfl
  | error _ => rfl
  | tok t rest =>
    simp only
    rw [if_neg]
    rintro rfl
    exact hb rest rfl

theorem gives_start {C : Classes} {s rest : List Char} {r : Next}
    (h : lex C s = some (.tok blockStart rest)) (hc : InComment C rest r) : Gives C s r := by
  obtain ⟨k, hk⟩ := hc
  refine ⟨k + 1, ?_⟩
  rw [nextToken, ← lex.eq_1, h]
  simp only [if_true, hk]

theorem gives_congr {C : Classes} {s s' : List Char} {r : Next} (h : lex C s = lex C s')
    (hg : Gives C s' r) : Gives C s r := by
  obtain ⟨k, hk⟩ := hg
  cases k with
  | zero => rw [nextToken] at hk; cases hk
  | succ k =>
    refine ⟨k + 1, ?_⟩
    rw [nextToken, ← lex.eq_1] at hk ⊢
    rw [h]
    exact hk

theorem inComment_end {C : Classes} {s rest : List Char} {r : Next}
    (h : Gives C s (.tok blockEnd rest)) (hr : Gives C rest r) : InComment C s r := by
  obtain ⟨k, hk⟩ := h
  obtain ⟨k', hk'⟩ := hr
  refine ⟨max k k' + 1, ?_⟩
  rw [inComment, nextToken_mono hk (Nat.le_max_left k k')]
  simp only [if_true]
  exact nextToken_mono hk' (Nat.le_max_right k k')

theorem inComment_tok {C : Classes} {s rest : List Char} {t : Tok} {r : Next}
    (h : Gives C s (.tok t rest)) (ht : t ≠ blockEnd) (hr : InComment C rest r) :
    InComment C s r := by
  obtain ⟨k, hk⟩ := h
  obtain ⟨k', hk'⟩ := hr
  refine ⟨max k k' + 1, ?_⟩
  rw [inComment, nextToken_mono hk (Nat.le_max_left k k')]
  simp only [if_neg ht]
  exact inComment_mono hk' (Nat.le_max_right k k')

theorem inComment_error {C : Classes} {s rest : List Char} {r : Next}
    (h : Gives C s (.error rest)) (hr : InComment C rest r) : InComment C s r := by
  obtain ⟨k, hk⟩ := h
  obtain ⟨k', hk'⟩ := hr
  refine ⟨max k k' + 1, ?_⟩
  rw [inComment, nextToken_mono hk (Nat.le_max_left k k')]
  exact inComment_mono hk' (Nat.le_max_right k k')

theorem inComment_congr {C : Classes} {s s' : List Char} {r : Next}
    (h : ∀ x, Gives C s' x → Gives C s x) (hr : InComment C s' r) : InComment C s r := by
  obtain ⟨k, hk⟩ := hr
  cases k with
  | zero => rw [inComment] at hk; cases hk
  | succ k =>
    rw [inComment] at hk
    cases hn : nextToken C k s' with
    | none => rw [hn] at hk; cases hk
    | some x =>
      obtain ⟨k', hk'⟩ := h x ⟨k, hn⟩
      rw [hn] at hk
      refine ⟨max k k' + 1, ?_⟩
      rw [inComment, nextToken_mono hk' (Nat.le_max_right k k')]
      cases x with
      | eof => exact hk
      | error rest => exact inComment_mono hk (Nat.le_max_left k k')
      | tok t rest =>
        simp only at hk ⊢
        split at hk
        next hb => rw [if_pos hb]; exact nextToken_mono hk (Nat.le_max_left k k')
        next hb => rw [if_neg hb]; exact inComment_mono hk (Nat.le_max_left k k')

/-! ## What the lexer does -/

theorem lex_space {C : Classes} {c : Char} {s : List Char} (h : isSpace c = true) :
    lex C (c :: s) = lex C s := by
  rw [lex, lexNext, if_pos h]
  exact lex_eq (by simp)

theorem lex_error {C : Classes} {c : Char} {s : List Char} (h : isSpace c = false)
    (hl : longest (matches_ C (c :: s)) = none) : lex C (c :: s) = some (.error s) := by
  rw [lex, lexNext, hl]
  simp [h]

theorem lex_tok {C : Classes} {c : Char} {s : List Char} {n : Nat} {t : Tok} (h : isSpace c = false)
    (ht : t ≠ .comment) (hl : longest (matches_ C (c :: s)) = some (n, t)) :
    lex C (c :: s) = some (.tok t ((c :: s).drop n)) := by
  rw [lex, lexNext, hl]
  cases t <;> first | exact absurd rfl ht | simp [h]

theorem lex_comment {C : Classes} {c : Char} {s : List Char} {n : Nat} (h : isSpace c = false)
    (hl : longest (matches_ C (c :: s)) = some (n, .comment)) :
    lex C (c :: s) = lex C ((c :: s).drop n) := by
  have hp : 1 ≤ n := longest_pos hl
  rw [lex, lexNext, hl]
  simp only [h, Bool.false_eq_true, if_false]
  apply lex_eq
  simp only [List.length_drop, List.length_cons]
  omega

/-! ## Which characters a match can cover -/

/-- Not part of a comment delimiter. -/
def Plain (c : Char) : Prop := c ≠ '/' ∧ c ≠ '*'

theorem mem_takeWhile {p : Char → Bool} : ∀ {s : List Char} {x : Char},
    x ∈ s.take (s.takeWhile p).length → p x = true
  | [], _, h => by simp at h
  | c :: cs, x, h => by
    rw [List.takeWhile_cons] at h
    split at h
    next hp =>
      simp only [List.length_cons, List.take_succ_cons, List.mem_cons] at h
      rcases h with rfl | h
      · exact hp
      · exact mem_takeWhile h
    next => simp at h

theorem mem_take_add {s : List Char} {m n : Nat} {x : Char} (h : x ∈ s.take (m + n)) :
    x ∈ s.take m ∨ x ∈ (s.drop m).take n := by
  rw [List.take_add, List.mem_append] at h
  exact h

theorem plain_of {p : Char → Bool} {x : Char} (h : p x = true) (h1 : p '/' = false)
    (h2 : p '*' = false) : Plain x := by
  constructor
  · rintro rfl; rw [h1] at h; cases h
  · rintro rfl; rw [h2] at h; cases h

theorem nameLen_plain {C : Classes} (hC : C.Usual) {s : List Char} {n : Nat}
    (h : nameLen C s = some n) : ∀ x ∈ s.take n, Plain x := by
  cases s with
  | nil => simp [nameLen] at h
  | cons c cs =>
    simp only [nameLen] at h
    split at h
    next hs =>
      simp only [Option.some.injEq] at h
      subst h
      intro x hx
      rw [Nat.add_comm, List.take_succ_cons, List.mem_cons] at hx
      rcases hx with rfl | hx
      · exact plain_of (p := fun c => C.start c || c == '_') hs
          (by simp only [hC.start _ (by decide : '/'.toNat < 128)]; decide)
          (by simp only [hC.start _ (by decide : '*'.toNat < 128)]; decide)
      · exact plain_of (mem_takeWhile hx) (by rw [hC.cont _ (by decide)]; decide)
          (by rw [hC.cont _ (by decide)]; decide)
    next => cases h

theorem suffixLen_plain {r : Radix} {s : List Char} : ∀ x ∈ s.take (suffixLen r s), Plain x := by
  cases s with
  | nil => intro x hx; simp at hx
  | cons c cs =>
    simp only [suffixLen]
    split
    next hs =>
      intro x hx
      rw [Nat.add_comm, List.take_succ_cons, List.mem_cons] at hx
      rcases hx with rfl | hx
      · rcases hs with rfl | rfl | rfl | rfl <;> exact ⟨by decide, by decide⟩
      · exact plain_of (mem_takeWhile hx) (by cases r <;> decide) (by cases r <;> decide)
    next => intro x hx; simp at hx

theorem bodyLen_plain {r : Radix} {s : List Char} {n : Nat} (h : bodyLen r s = some n) :
    ∀ x ∈ s.take n, Plain x := by
  cases s with
  | nil => simp [bodyLen] at h
  | cons c cs =>
    simp only [bodyLen] at h
    split at h
    next hs =>
      simp only [Option.some.injEq] at h
      subst h
      intro x hx
      rw [Nat.add_assoc, Nat.add_comm, List.take_succ_cons, List.mem_cons] at hx
      rcases hx with rfl | hx
      · exact plain_of hs (by cases r <;> decide) (by cases r <;> decide)
      · rcases mem_take_add hx with hx | hx
        · exact plain_of (mem_takeWhile hx) (by cases r <;> decide) (by cases r <;> decide)
        · exact suffixLen_plain x hx
    next => cases h

theorem matchInt_plain {r : Radix} {s : List Char} {b : Nat × Tok} (h : matchInt r s = some b) :
    ∀ x ∈ s.take b.1, Plain x := by
  obtain ⟨ht, n, hn, hb, _⟩ := matchInt_some h
  rw [hb]
  intro x hx
  rcases mem_take_add hx with hx | hx
  · rw [ht] at hx
    have : ∀ r : Radix, ∀ x ∈ r.intro, Plain x := by
      intro r
      cases r <;> simp [Radix.intro, Plain]
    exact this r x hx
  · exact bodyLen_plain hn x hx

theorem fixed_plain : ∀ f ∈ fixedTokens, f.head? ≠ some '/' → f.head? ≠ some '*' →
    ∀ x ∈ f, Plain x := by
  have : ∀ f ∈ fixedTokens, (f.head? == some '/' || f.head? == some '*' ||
      f.all (fun x => x != '/' && x != '*')) = true := by decide +kernel
  intro f hf h1 h2 x hx
  have h := this f hf
  simp only [Bool.or_eq_true, beq_iff_eq, h1, h2, false_or, List.all_eq_true, Bool.and_eq_true,
    bne_iff_ne] at h
  exact h x hx

/-- A match that begins with neither a delimiter nor a quotation mark stops before the next
delimiter. -/
theorem match_plain {C : Classes} (hC : C.Usual) {c : Char} {s : List Char} {b : Nat × Tok}
    (hc : Plain c) (hq : c ≠ '\'' ∧ c ≠ '"') (hs : s.head? ≠ some '\'' ∧ s.head? ≠ some '"')
    (h : some b ∈ matches_ C (c :: s)) :
    (∀ x ∈ (c :: s).take b.1, Plain x) ∧ b.2 ≠ .comment ∧ b.2 ≠ blockStart ∧ b.2 ≠ blockEnd := by
  rcases mem_matches h with ⟨f, hf, h⟩ | ⟨r, h⟩ | h | h | h | h | h | h | h | h | h | h
  · obtain ⟨c', cs, hfc, _⟩ := fixed_head f hf
    have hcc := matchFixed_head h hfc
    obtain ⟨ht, hb⟩ := matchFixed_some h
    have hp := fixed_plain f hf (by rw [hfc, hcc]; simpa using hc.1) (by rw [hfc, hcc]; simpa using hc.2)
    rw [hb]
    refine ⟨fun x hx => hp x (by rw [← ht]; exact hx), by simp, ?_, ?_⟩
    · intro he
      simp only [blockStart, Tok.fixed.injEq] at he
      exact (hp '/' (by rw [he]; simp)).1 rfl
    · intro he
      simp only [blockEnd, Tok.fixed.injEq] at he
      exact (hp '/' (by rw [he]; simp)).1 rfl
  · obtain ⟨_, _, _, _, v, k, hb⟩ := matchInt_some h
    exact ⟨matchInt_plain h, by rw [hb]; simp, by rw [hb]; simp [blockStart], by rw [hb]; simp [blockEnd]⟩
  · rw [matchIdent.eq_def] at h
    split at h
    next cs heq =>
      split at h
      next n hn =>
        cases h
        refine ⟨?_, by simp, by simp [blockStart], by simp [blockEnd]⟩
        intro x hx
        rw [heq, Nat.add_comm 2 n, List.take_succ_cons, List.take_succ_cons, List.mem_cons,
          List.mem_cons] at hx
        rcases hx with rfl | rfl | hx
        · exact ⟨by decide, by decide⟩
        · exact ⟨by decide, by decide⟩
        · exact nameLen_plain hC hn x hx
      next =>
        simp only [Option.map_eq_some_iff] at h
        obtain ⟨n, hn, rfl⟩ := h
        exact ⟨nameLen_plain hC hn, by simp, by simp [blockStart], by simp [blockEnd]⟩
    next =>
      simp only [Option.map_eq_some_iff] at h
      obtain ⟨n, hn, rfl⟩ := h
      exact ⟨nameLen_plain hC hn, by simp, by simp [blockStart], by simp [blockEnd]⟩
  · simp [matchLabel, hq.1] at h
  · simp only [matchLabel] at h
    split at h
    next hcc =>
      simp only [Option.map_eq_some_iff] at h
      obtain ⟨n, hn, rfl⟩ := h
      refine ⟨?_, by simp, by simp [blockStart], by simp [blockEnd]⟩
      intro x hx
      rw [Nat.add_comm, List.take_succ_cons, List.mem_cons] at hx
      rcases hx with rfl | hx
      · exact hc
      · exact nameLen_plain hC hn x hx
    next => cases h
  · rw [matchQuoted.eq_def] at h
    split at h
    next d ds heq =>
      simp only [List.cons.injEq] at heq
      rw [heq.2] at hs
      rw [if_neg (by rintro rfl; exact hs.1 rfl)] at h
      cases h
    next => cases h
  · rw [matchQuoted.eq_def] at h
    split at h
    next d ds heq =>
      simp only [List.cons.injEq] at heq
      rw [heq.2] at hs
      rw [if_neg (by rintro rfl; exact hs.2 rfl)] at h
      cases h
    next => cases h
  · rw [matchUtf8.eq_def] at h
    split at h
    next heq =>
      simp only [List.cons.injEq] at heq
      exact absurd heq.1 hq.1
    next => cases h
  · rw [matchString.eq_def] at h
    split at h
    next heq =>
      simp only [List.cons.injEq] at heq
      exact absurd heq.1 hq.2
    next => cases h
  all_goals exact absurd (matchLine_head h) hc.1

/-- A match that begins with a star. -/
theorem match_star {C : Classes} (hC : C.Usual) {s : List Char} {b : Nat × Tok}
    (h : some b ∈ matches_ C ('*' :: s)) : b = (1, .fixed ['*']) ∨
      (b = (2, .fixed ['*', '.']) ∧ s.head? = some '.') ∨ (b = (2, blockEnd) ∧ s.head? = some '/') := by
  have hstart : C.start '*' = false := by rw [hC.start _ (by decide)]; decide
  rcases mem_matches h with ⟨f, hf, h⟩ | ⟨r, h⟩ | h | h | h | h | h | h | h | h | h | h
  · obtain ⟨c', cs, hfc, _⟩ := fixed_head f hf
    have hcc := matchFixed_head h hfc
    obtain ⟨ht, hb⟩ := matchFixed_some h
    have : ∀ f ∈ fixedTokens, (f.head? != some '*' || f == ['*'] || f == ['*', '.'] ||
        f == ['*', '/']) = true := by decide +kernel
    have hh := this f hf
    rw [hfc, hcc] at hh
    rw [hb]
    subst hfc hcc
    simp only [List.head?_cons, bne_self_eq_false, Bool.false_or, Bool.or_eq_true, beq_iff_eq] at hh
    rcases hh with (hh | hh) | hh
    · left; rw [hh]; rfl
    · right; left
      rw [hh] at ht ⊢
      refine ⟨rfl, ?_⟩
      cases s with
      | nil => cases ht
      | cons d ds =>
        simp only [List.length_cons, List.length_nil, List.take_succ_cons, List.take_zero,
          List.cons.injEq] at ht
        simp [ht.2.1]
    · right; right
      rw [hh] at ht ⊢
      refine ⟨rfl, ?_⟩
      cases s with
      | nil => cases ht
      | cons d ds =>
        simp only [List.length_cons, List.length_nil, List.take_succ_cons, List.take_zero,
          List.cons.injEq] at ht
        simp [ht.2.1]
  · cases r <;> simp [matchInt, Radix.intro, bodyLen, isRadixDigit] at h
  · rw [matchIdent.eq_def] at h
    split at h
    next heq => cases heq
    next => simp [nameLen, hstart] at h
  · simp [matchLabel] at h
  · simp [matchLabel] at h
  · simp [matchQuoted] at h
  · simp [matchQuoted] at h
  · simp [matchUtf8] at h
  · simp [matchString] at h
  all_goals exact absurd (matchLine_head h) (by decide)

/-- A match that begins with a slash. -/
theorem match_slash {C : Classes} (hC : C.Usual) {s : List Char} {b : Nat × Tok}
    (h : some b ∈ matches_ C ('/' :: s)) : b = (1, .fixed ['/']) ∨
      (b = (2, blockStart) ∧ s.head? = some '*') ∨ s.head? = some '/' := by
  have hstart : C.start '/' = false := by rw [hC.start _ (by decide)]; decide
  have line : ∀ p mk, matchLine ('/' :: '/' :: p) mk ('/' :: s) = some b → s.head? = some '/' := by
    intro p mk h
    rw [matchLine] at h
    split at h
    next ht =>
      cases s with
      | nil => cases ht
      | cons d ds =>
        simp only [List.length_cons, List.take_succ_cons, List.cons.injEq] at ht
        simp [ht.2.1]
    next => cases h
  rcases mem_matches h with ⟨f, hf, h⟩ | ⟨r, h⟩ | h | h | h | h | h | h | h | h | h | h
  · obtain ⟨c', cs, hfc, _⟩ := fixed_head f hf
    have hcc := matchFixed_head h hfc
    obtain ⟨ht, hb⟩ := matchFixed_some h
    have : ∀ f ∈ fixedTokens, (f.head? != some '/' || f == ['/'] || f == ['/', '*']) = true := by
      decide +kernel
    have hh := this f hf
    rw [hfc, hcc] at hh
    rw [hb]
    subst hfc hcc
    simp only [List.head?_cons, bne_self_eq_false, Bool.false_or, Bool.or_eq_true, beq_iff_eq] at hh
    rcases hh with hh | hh
    · left; rw [hh]; rfl
    · right; left
      rw [hh] at ht ⊢
      refine ⟨rfl, ?_⟩
      cases s with
      | nil => cases ht
      | cons d ds =>
        simp only [List.length_cons, List.length_nil, List.take_succ_cons, List.take_zero,
          List.cons.injEq] at ht
        simp [ht.2.1]
  · cases r <;> simp [matchInt, Radix.intro, bodyLen, isRadixDigit] at h
  · rw [matchIdent.eq_def] at h
    split at h
    next heq => cases heq
    next => simp [nameLen, hstart] at h
  · simp [matchLabel] at h
  · simp [matchLabel] at h
  · simp [matchQuoted] at h
  · simp [matchQuoted] at h
  · simp [matchUtf8] at h
  · simp [matchString] at h
  all_goals exact .inr (.inr (line _ _ h))

theorem fixed_mem_matches {C : Classes} {s f : List Char} (hf : f ∈ fixedTokens) :
    matchFixed f s ∈ matches_ C s := by
  rw [matches_, List.mem_append, List.mem_map]
  exact .inl ⟨f, hf, rfl⟩

theorem longest_star {C : Classes} (hC : C.Usual) {s : List Char} (h1 : s.head? ≠ some '/')
    (h2 : s.head? ≠ some '.') : longest (matches_ C ('*' :: s)) = some (1, .fixed ['*']) := by
  apply longest_eq
  · have := fixed_mem_matches (C := C) (s := '*' :: s) (f := ['*']) (by decide +kernel)
    simpa [matchFixed] using this
  · intro b hb
    rcases match_star hC hb with h | ⟨_, h⟩ | ⟨_, h⟩
    · exact .inl h
    · exact absurd h h2
    · exact absurd h h1

theorem longest_star_dot {C : Classes} (hC : C.Usual) {s : List Char} :
    longest (matches_ C ('*' :: '.' :: s)) = some (2, .fixed ['*', '.']) := by
  apply longest_eq
  · have := fixed_mem_matches (C := C) (s := '*' :: '.' :: s) (f := ['*', '.']) (by decide +kernel)
    simpa [matchFixed] using this
  · intro b hb
    rcases match_star hC hb with h | ⟨h, _⟩ | ⟨_, h⟩
    · right; rw [h]; decide
    · exact .inl h
    · exact absurd h (by simp)

theorem longest_block_end {C : Classes} (hC : C.Usual) {s : List Char} :
    longest (matches_ C ('*' :: '/' :: s)) = some (2, blockEnd) := by
  apply longest_eq
  · have := fixed_mem_matches (C := C) (s := '*' :: '/' :: s) (f := ['*', '/']) (by decide +kernel)
    simpa [matchFixed, blockEnd] using this
  · intro b hb
    rcases match_star hC hb with h | ⟨_, h⟩ | ⟨h, _⟩
    · right; rw [h]; decide
    · exact absurd h (by simp)
    · exact .inl h

theorem longest_slash {C : Classes} (hC : C.Usual) {s : List Char} (h1 : s.head? ≠ some '/')
    (h2 : s.head? ≠ some '*') : longest (matches_ C ('/' :: s)) = some (1, .fixed ['/']) := by
  apply longest_eq
  · have := fixed_mem_matches (C := C) (s := '/' :: s) (f := ['/']) (by decide +kernel)
    simpa [matchFixed] using this
  · intro b hb
    rcases match_slash hC hb with h | ⟨_, h⟩ | h
    · exact .inl h
    · exact absurd h h2
    · exact absurd h h1

theorem longest_block_start {C : Classes} (hC : C.Usual) {s : List Char} :
    longest (matches_ C ('/' :: '*' :: s)) = some (2, blockStart) := by
  apply longest_eq
  · have := fixed_mem_matches (C := C) (s := '/' :: '*' :: s) (f := ['/', '*']) (by decide +kernel)
    simpa [matchFixed, blockStart] using this
  · intro b hb
    rcases match_slash hC hb with h | ⟨h, _⟩ | h
    · right; rw [h]; decide
    · exact .inl h
    · exact absurd h (by simp)

/-! ## The text of a block comment -/

theorem Spec.Calm.append_left {a b : List Char} (h : Calm (a ++ b)) : Calm a :=
  ⟨fun hm => h.1 (List.mem_append_left _ hm), fun hm => h.2.1 (List.mem_append_left _ hm),
    fun x y he => h.2.2 x (y ++ b) (by rw [he]; simp)⟩

theorem Spec.Calm.append_right {a b : List Char} (h : Calm (a ++ b)) : Calm b :=
  ⟨fun hm => h.1 (List.mem_append_right _ hm), fun hm => h.2.1 (List.mem_append_right _ hm),
    fun x y he => h.2.2 (a ++ x) y (by rw [he]; simp)⟩

theorem Spec.Calm.tail {c : Char} {s : List Char} (h : Calm (c :: s)) : Calm s :=
  Spec.Calm.append_right (a := [c]) h

theorem Spec.Calm.drop {s : List Char} (h : Calm s) (n : Nat) : Calm (s.drop n) := by
  rw [← List.take_append_drop n s] at h
  exact h.append_right

theorem Spec.Calm.head {c : Char} {s t : List Char} (h : Calm s) :
    (s ++ '*' :: t).head? ≠ some '\'' ∧ (s ++ '*' :: t).head? ≠ some '"' := by
  cases s with
  | nil => exact ⟨by simp, by simp⟩
  | cons d ds =>
    constructor
    · intro he
      simp only [List.cons_append, List.head?_cons, Option.some.injEq] at he
      exact h.2.1 (by rw [he]; simp)
    · intro he
      simp only [List.cons_append, List.head?_cons, Option.some.injEq] at he
      exact h.1 (by rw [he]; simp)

theorem Spec.Body.tail {c : Char} {s : List Char} (h : Body (c :: s)) (hc : Plain c) : Body s := by
  cases h with
  | char _ _ h => exact h
  | slash _ _ => exact absurd rfl hc.1
  | star _ _ => exact absurd rfl hc.2
  | nested _ _ => exact absurd rfl hc.1

theorem Spec.Body.drop : ∀ {n : Nat} {b t : List Char}, Body b →
    (∀ x ∈ (b ++ '*' :: t).take n, Plain x) → n ≤ b.length ∧ Body (b.drop n)
  | 0, b, t, h, _ => ⟨by omega, h⟩
  | n + 1, [], t, h, hp => absurd rfl (hp '*' (by simp)).2
  | n + 1, c :: cs, t, h, hp => by
    have hc := hp c (by simp)
    obtain ⟨hl, hb⟩ := Spec.Body.drop (n := n) (t := t) (h.tail hc) (fun x hx => hp x (by
      rw [List.cons_append, List.take_succ_cons]
      exact List.mem_cons_of_mem _ hx))
    exact ⟨by simp only [List.length_cons]; omega, hb⟩

theorem inComment_body {C : Classes} (hC : C.Usual) : ∀ (m : Nat) (b : List Char), b.length ≤ m →
    Body b → Calm b → ∀ rest r, Gives C rest r → InComment C (b ++ '*' :: '/' :: rest) r := by
  have hend : ∀ s, Gives C ('*' :: '/' :: s) (.tok blockEnd s) := fun s =>
    gives_of_lex (lex_tok (by decide) (by simp [blockEnd]) (longest_block_end hC))
      (by intro rest h; cases h)
  intro m
  induction m with
  | zero =>
    intro b hb _ _ rest r hr
    have : b = [] := by
      cases b with
      | nil => rfl
      | cons c cs => simp at hb
    subst this
    exact inComment_end (hend rest) hr
  | succ m ih =>
    intro b hb hbody hcalm rest r hr
    cases hbody with
    | nil => exact inComment_end (hend rest) hr
    | @char c s h1 h2 hs =>
      simp only [List.length_cons] at hb
      have hcq : c ≠ '\'' ∧ c ≠ '"' :=
        ⟨by rintro rfl; exact hcalm.2.1 (by simp), by rintro rfl; exact hcalm.1 (by simp)⟩
      rw [List.cons_append]
      by_cases hsp : isSpace c = true
      · exact inComment_congr (fun x hx => gives_congr (lex_space hsp) hx)
          (ih s (by omega) hs hcalm.tail rest r hr)
      · have hsp : isSpace c = false := by simpa using hsp
        cases hl : longest (matches_ C (c :: (s ++ '*' :: '/' :: rest))) with
        | none =>
          exact inComment_error (gives_of_lex (lex_error hsp hl) (by intro _ h; cases h))
            (ih s (by omega) hs hcalm.tail rest r hr)
        | some nt =>
          obtain ⟨n, t⟩ := nt
          have hpos : 1 ≤ n := longest_pos hl
          obtain ⟨hp, ht1, ht2, ht3⟩ := match_plain hC ⟨h1, h2⟩ hcq (Spec.Calm.head (c := c) hcalm.tail)
            (longest_mem hl)
          obtain ⟨hle, hbd⟩ := Spec.Body.drop (n := n) (b := c :: s) (t := '/' :: rest) (.char h1 h2 hs) hp
          have hlex := lex_tok hsp ht1 hl
          rw [← List.cons_append, List.drop_append_of_le_length hle] at hlex
          refine inComment_tok (gives_of_lex hlex ?_) ht3
            (ih _ ?_ hbd (hcalm.drop n) rest r hr)
          · intro rest' h
            cases h
            exact ht2 rfl
          · simp only [List.length_drop, List.length_cons]
            omega
    | @slash c s h1 hs =>
      simp only [List.length_cons] at hb
      have hne : c ≠ '/' := by
        rintro rfl
        exact hcalm.2.2 [] s rfl
      refine inComment_tok (t := .fixed ['/']) (rest := (c :: s) ++ '*' :: '/' :: rest)
        (gives_of_lex (lex_tok (n := 1) (by decide) (by simp) (longest_slash hC ?_ ?_)) ?_)
        (by decide) (ih (c :: s) (by simp only [List.length_cons]; omega) hs hcalm.tail rest r hr)
      · simpa using hne
      · simpa using h1
      · intro rest' h
        cases h
    | @star s h1 hs =>
      simp only [List.length_cons] at hb
      cases s with
      | nil =>
        refine inComment_tok (t := .fixed ['*']) (rest := '*' :: '/' :: rest)
          (gives_of_lex (lex_tok (n := 1) (by decide) (by simp) (longest_star hC ?_ ?_)) ?_)
          (by decide) (ih [] (by simp) .nil hcalm.tail rest r hr)
        · simp
        · simp
        · intro rest' h
          cases h
      | cons d ds =>
        by_cases hd : d = '.'
        · subst hd
          have hb' : ds.length ≤ m := by simp only [List.length_cons] at hb; omega
          refine inComment_tok (t := .fixed ['*', '.']) (rest := ds ++ '*' :: '/' :: rest)
            (gives_of_lex (lex_tok (n := 2) (by decide) (by simp) (longest_star_dot hC)) ?_)
            (by decide) (ih ds hb' (hs.tail ⟨by decide, by decide⟩) hcalm.tail.tail rest r hr)
          intro rest' h
          cases h
        · refine inComment_tok (t := .fixed ['*']) (rest := (d :: ds) ++ '*' :: '/' :: rest)
            (gives_of_lex (lex_tok (n := 1) (by decide) (by simp) (longest_star hC ?_ ?_)) ?_)
            (by decide) (ih (d :: ds) (by omega) hs hcalm.tail rest r hr)
          · simpa using h1
          · simpa using hd
          · intro rest' h
            cases h
    | @nested b1 s hb1 hs =>
      simp only [List.length_cons, List.length_append] at hb
      have hc1 : Calm b1 := hcalm.tail.tail.append_left
      have hc2 : Calm s := hcalm.tail.tail.append_right.tail.tail
      refine inComment_congr (s' := s ++ '*' :: '/' :: rest) ?_
        (ih s (by omega) hs hc2 rest r hr)
      intro x hx
      have := ih b1 (by omega) hb1 hc1 _ x hx
      refine gives_start (rest := b1 ++ '*' :: '/' :: (s ++ '*' :: '/' :: rest)) ?_ this
      have hl := lex_tok (C := C) (c := '/') (s := '*' :: (b1 ++ '*' :: '/' :: (s ++ '*' :: '/' :: rest)))
        (n := 2) (by decide) (by simp [blockStart]) (longest_block_start hC)
      simpa using hl

/-! ## Line comments -/

theorem longest_line {C : Classes} (hC : C.Usual) {t rest : List Char}
    (h1 : t.head? ≠ some '/') (h2 : t.head? ≠ some '!') (hn : '\n' ∉ t) :
    longest (matches_ C ('/' :: '/' :: (t ++ '\n' :: rest))) = some (2 + t.length, .comment) := by
  have hstart : C.start '/' = false := by rw [hC.start _ (by decide)]; decide
  have htw : (t ++ '\n' :: rest).takeWhile (· != '\n') = t := by
    clear h1 h2
    induction t with
    | nil => simp
    | cons c cs ih =>
      simp only [List.mem_cons, not_or] at hn
      have : (c != '\n') = true := by simpa using Ne.symm hn.1
      rw [List.cons_append, List.takeWhile_cons, if_pos this, ih hn.2]
  have hm : matchLine ['/', '/'] (fun _ => .comment) ('/' :: '/' :: (t ++ '\n' :: rest)) =
      some (2 + t.length, .comment) := by
    simp [matchLine, htw]
  have hthird : ∀ d : Char, (t ++ '\n' :: rest).head? = some d → d ≠ '/' ∧ d ≠ '!' := by
    intro d hd
    cases t with
    | nil =>
      simp only [List.nil_append, List.head?_cons, Option.some.injEq] at hd
      subst hd
      exact ⟨by decide, by decide⟩
    | cons c cs =>
      simp only [List.cons_append, List.head?_cons, Option.some.injEq] at hd
      subst hd
      exact ⟨by simpa using h1, by simpa using h2⟩
  have third : ∀ d mk b, matchLine ['/', '/', d] mk ('/' :: '/' :: (t ++ '\n' :: rest)) = some b →
      (t ++ '\n' :: rest).head? = some d := by
    intro d mk b h
    rw [matchLine] at h
    split at h
    next ht =>
      cases hu : t ++ '\n' :: rest with
      | nil => simp at hu
      | cons e es =>
        rw [hu] at ht
        simp only [List.length_cons, List.length_nil, List.take_succ_cons, List.take_zero,
          List.cons.injEq] at ht
        simp [ht.2.2.1]
    next => cases h
  apply longest_eq
  · rw [matches_, List.mem_append]
    right
    simp [hm]
  · intro b hb
    rcases mem_matches hb with ⟨f, hf, h⟩ | ⟨r, h⟩ | h | h | h | h | h | h | h | h | h | h
    · obtain ⟨c', cs, hfc, _⟩ := fixed_head f hf
      have hcc := matchFixed_head h hfc
      obtain ⟨ht, hb⟩ := matchFixed_some h
      have : ∀ f ∈ fixedTokens, (f.head? != some '/' || f == ['/'] || f == ['/', '*']) = true := by
        decide +kernel
      have hh := this f hf
      rw [hb]
      subst hfc hcc
      simp only [List.head?_cons, bne_self_eq_false, Bool.false_or, Bool.or_eq_true, beq_iff_eq] at hh
      rcases hh with hh | hh
      · right; rw [hh]; simp only [List.length_cons, List.length_nil]; omega
      · rw [hh] at ht
        simp at ht
    · cases r <;> simp [matchInt, Radix.intro, bodyLen, isRadixDigit] at h
    · rw [matchIdent.eq_def] at h
      split at h
      next heq => cases heq
      next => simp [nameLen, hstart] at h
    · simp [matchLabel] at h
    · simp [matchLabel] at h
    · simp [matchQuoted] at h
    · simp [matchQuoted] at h
    · simp [matchUtf8] at h
    · simp [matchString] at h
    · exact absurd rfl (hthird _ (third _ _ _ h)).1
    · exact absurd rfl (hthird _ (third _ _ _ h)).2
    · rw [hm] at h
      cases h
      exact .inl rfl

theorem lex_line {C : Classes} (hC : C.Usual) {t rest : List Char}
    (h1 : t.head? ≠ some '/') (h2 : t.head? ≠ some '!') (hn : '\n' ∉ t) :
    lex C ('/' :: '/' :: (t ++ '\n' :: rest)) = lex C rest := by
  rw [lex_comment (by decide) (longest_line hC h1 h2 hn), Nat.add_comm]
  simp only [List.drop_succ_cons, List.drop_left]
  exact lex_space (by decide)

end Spade.Lex

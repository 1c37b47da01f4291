import Verif.Lex.Back

/-!
# Literals and comments: the theorems (C64, C65)

`Gives C s r`: the parser, asked for the next token of the text `s`, comes to `r`, a token with the
text after it, the end of the file, or an error. `C` are the Unicode classes of identifiers, `Usual`
if they are the usual ones on ASCII.
-/

namespace Spade.Lex

open Spec (Radix Kind Written IsDigit Spelling Spellings Body Calm Gap Ends)

/-- **C64** (part: only the digits up to seven in the width of an octal number, see
`C64_counterexample_octal_suffix`). A number in the source becomes one token with the number and the
type that are written. -/
theorem C64_integer_literal_partial {C : Classes} (hC : C.Usual) {w : Written} (hw : w.Ok)
    (hoct : w.radix = .oct → ∀ l ds, w.suffix = some (l, ds) → ∀ c ∈ ds, IsDigit 8 c)
    {rest : List Char} (hr : Ends rest) :
    Gives C (w.text ++ rest) (.tok (.int w.radix w.value w.kind) rest) := by
  have hsd : SuffixDigits w := by
    intro l ds hs c hc
    have h10 := hw.width l ds hs c hc
    cases hrad : w.radix with
    | oct => exact (radixDigit_iff (r := .oct)).mpr (hoct hrad l ds hs c hc)
    | dec => exact (radixDigit_iff (r := .dec)).mpr h10
    | hex => exact (radixDigit_iff (r := .dec)).mpr h10
    | bin => exact (radixDigit_iff (r := .dec)).mpr h10
  have hl := longest_written hC hw hsd hr
  obtain ⟨c, cs, hcs, hd⟩ := written_head hw
  have hsp : isSpace c = false := by
    cases h : isSpace c with
    | false => rfl
    | true =>
      simp only [isSpace, Bool.or_eq_true, beq_iff_eq] at h
      rcases h with ((rfl | rfl) | rfl) | rfl <;> cases hd
  rw [hcs, List.cons_append] at hl ⊢
  have := lex_tok hsp (by simp) hl
  rw [← List.cons_append, List.drop_left] at this
  exact gives_of_lex this (by intro _ h; cases h)

/-- **C64.** Every number the parser sees is the one that is written where it was found, with the
type that is written. -/
theorem C64_integer_token {C : Classes} {s rest : List Char} {r : Radix} {v : Nat} {k : Kind}
    (h : Gives C s (.tok (.int r v k) rest)) :
    ∃ (before : List Char) (w : Written), w.Ok ∧ s = before ++ w.text ++ rest ∧ w.radix = r ∧
      w.value = v ∧ w.kind = k := by
  obtain ⟨pre, s', n, h1, h2, h3⟩ := gives_tok h
  obtain ⟨r', hm⟩ := mem_matches_int (longest_mem h2)
  obtain ⟨w, hw, ht, hb⟩ := matchInt_back hm
  cases hb
  refine ⟨pre, w, hw, ?_, rfl, rfl, rfl⟩
  rw [h1, h3, List.append_assoc, ht, List.take_append_drop]

/-- **C64.** The number in the digits of a token can be read: the lexer does not panic. -/
theorem C64_integer_never_panics {r : Radix} {s : List Char} {n : Nat} (h : bodyLen r s = some n) :
    ∃ v k, parseInt r.base (s.take n) = some (v, k) := parseInt_total h

/-- The number with the sign before it. -/
def withSign (minus : Bool) (n : Nat) : Int := if minus then -(n : Int) else n

/-- **C64** (part: not unsigned numbers with a sign, see
`C64_counterexample_negative_unsigned_pattern`). The sign of a number in a pattern or as a generic
argument is not lost. -/
theorem C64_sign_partial (minus : Bool) (n : Nat) (k : Kind)
    (h : minus = false ∨ ∀ w, k ≠ .unsigned w) : (intLiteral minus n k).val = withSign minus n := by
  cases k with
  | unsigned w =>
    rcases h with rfl | h
    · rfl
    · exact absurd rfl (h w)
  | unsized => rfl
  | signed w => rfl

/-- **C64.** A `-` before a number in an expression gives the negative number, or an error if the
type is unsigned. -/
theorem C64_negative_expression (n : Nat) (k : Kind) :
    match negLiteral (intLiteral false n k) with
    | some l => l.val = -(n : Int) ∧ ∀ w, k ≠ .unsigned w
    | none => ∃ w, k = .unsigned w := by
  cases k with
  | unsigned w => exact ⟨w, rfl⟩
  | unsized => exact ⟨rfl, by intro w h; cases h⟩
  | signed w => exact ⟨rfl, by intro w h; cases h⟩

/-- **C64** (part: there is no spelling of the backslash, see `C64_counterexample_backslash`). A
character in the source becomes one token that stands for the byte that is written. -/
theorem C64_char_literal_partial {C : Classes} (hC : C.Usual) {c : Char} {s rest : List Char}
    (h : Spelling '\'' c s) :
    Gives C ('b' :: '\'' :: (s ++ '\'' :: rest)) (.tok (.asciiChar s) rest) ∧
      asciiChar s = some c.toNat := by
  refine ⟨?_, asciiChar_spelling h⟩
  have hq : quotedLen '\'' (s ++ '\'' :: rest) = some (s.length + 1) := by
    rw [quotedLen_spelling (.inl rfl) h, quotedLen_cons]
    rfl
  have hl := longest_quoted hC (.inl rfl) hq
  simp only [if_true] at hl
  have := lex_tok (by decide) (by simp) hl
  simp only [List.drop_succ_cons] at this
  rw [List.drop_append, List.drop_eq_nil_of_le (by omega), Nat.add_sub_cancel_left,
    List.drop_one, List.tail_cons, List.nil_append] at this
  exact gives_of_lex this (by intro _ h; cases h)

/-- **C64** (part: there is no spelling of the backslash). A string in the source becomes one token
that stands for the bytes that are written. -/
theorem C64_string_literal_partial {C : Classes} (hC : C.Usual) {cs s rest : List Char}
    (h : Spellings '"' cs s) :
    Gives C ('b' :: '"' :: (s ++ '"' :: rest)) (.tok (.asciiString s) rest) ∧
      asciiString false s = some (cs.map Char.toNat) := by
  refine ⟨?_, asciiString_spellings h⟩
  have hl := longest_quoted hC (.inr rfl) (quotedLen_spellings (.inr rfl) h rest)
  rw [if_neg (by decide)] at hl
  have := lex_tok (by decide) (by simp) hl
  simp only [List.drop_succ_cons] at this
  rw [List.drop_append, List.drop_eq_nil_of_le (by omega), Nat.add_sub_cancel_left,
    List.drop_one, List.tail_cons, List.nil_append] at this
  exact gives_of_lex this (by intro _ h; cases h)

/-- **C64, violated.** No character and no string in any source file stands for a backslash or for
bytes with one in them: `b'\\'` is an error. -/
theorem C64_counterexample_backslash (C : Classes) :
    (∀ s t rest, Gives C s (.tok (.asciiChar t) rest) → asciiChar t ≠ some 92) ∧
    (∀ t bs, asciiString false t = some bs → 92 ∉ bs) := by
  refine ⟨?_, fun t bs h => asciiString_ne h⟩
  intro s t rest h
  obtain ⟨pre, s', n, h1, h2, h3⟩ := gives_tok h
  have hm := mem_matches_quoted (longest_mem h2)
  rw [matchQuoted.eq_def] at hm
  split at hm
  · split at hm
    · simp only [Option.map_eq_some_iff] at hm
      obtain ⟨m, hm, he⟩ := hm
      cases he
      exact asciiChar_ne (by decide) hm
    · cases hm
  · cases hm

/-- **C64, violated.** As a pattern, `-5u8` matches the number 5. -/
theorem C64_counterexample_negative_unsigned_pattern :
    (intLiteral true 5 (.unsigned (some 8))).val = 5 := rfl

/-! ## Comments -/

/-- The tokens of a whole file. -/
def Tokens (C : Classes) (s : List Char) (ts : List Tok) : Prop := ∃ k, tokens C k s = some ts

theorem tokens_step {C : Classes} : ∀ {k : Nat} {s : List Char} {ts : List Tok},
    tokens C k s = some ts → tokens C (k + 1) s = some ts
  | 0, _, _, h => by cases h
  | k + 1, s, ts, h => by
    rw [tokens] at h ⊢
    cases hn : nextToken C k s with
    | none => rw [hn] at h; cases h
    | some x =>
      rw [(nextToken_step k).1 _ _ hn]
      rw [hn] at h
      cases x with
      | eof => exact h
      | error rest => cases h
      | tok t rest =>
        simp only [Option.map_eq_some_iff] at h ⊢
        obtain ⟨ts', h1, h2⟩ := h
        exact ⟨ts', tokens_step h1, h2⟩

theorem tokens_mono {C : Classes} {k k' : Nat} {s : List Char} {ts : List Tok}
    (h : tokens C k s = some ts) (hk : k ≤ k') : tokens C k' s = some ts := by
  induction hk with
  | refl => exact h
  | step _ ih => exact tokens_step ih

theorem Tokens.of_gives {C : Classes} {s s' : List Char} {ts : List Tok}
    (h : ∀ r, Gives C s' r → Gives C s r) (ht : Tokens C s' ts) : Tokens C s ts := by
  obtain ⟨k, hk⟩ := ht
  cases k with
  | zero => cases hk
  | succ k =>
    rw [tokens] at hk
    cases hn : nextToken C k s' with
    | none => rw [hn] at hk; cases hk
    | some x =>
      rw [hn] at hk
      obtain ⟨k', hk'⟩ := h x ⟨k, hn⟩
      refine ⟨max k k' + 1, ?_⟩
      rw [tokens, nextToken_mono hk' (Nat.le_max_right k k')]
      cases x with
      | eof => exact hk
      | error rest => exact hk
      | tok t rest =>
        simp only [Option.map_eq_some_iff] at hk ⊢
        obtain ⟨ts', h1, h2⟩ := hk
        exact ⟨ts', tokens_mono h1 (Nat.le_max_left k k'), h2⟩

/-- **C65.** Whatever the text, the parser comes to a next token, the end or an error, and to no
more than one of them. -/
theorem C65_lexing_ends (C : Classes) (s : List Char) :
    ∃ r, Gives C s r ∧ ∀ r', Gives C s r' → r' = r := by
  obtain ⟨⟨r, hr, _⟩, _⟩ := nextToken_total (C := C) s.length s (Nat.le_refl _)
  exact ⟨r, ⟨_, hr⟩, fun r' h => h.det ⟨_, hr⟩⟩

theorem gap_gives {C : Classes} (hC : C.Usual) {g rest : List Char} (hg : Gap Calm g) {r : Next}
    (h : Gives C rest r) : Gives C (g ++ rest) r := by
  induction hg with
  | nil => exact h
  | @space c g hc _ ih =>
    refine gives_congr (lex_space ?_) ih
    simp only [List.mem_cons, List.not_mem_nil, or_false] at hc
    rcases hc with rfl | rfl | rfl | rfl <;> decide
  | @line t g hn h1 h2 _ ih =>
    rw [show '/' :: '/' :: (t ++ '\n' :: g) ++ rest = '/' :: '/' :: (t ++ '\n' :: (g ++ rest)) from by simp]
    exact gives_congr (lex_line hC h1 h2 hn) ih
  | @block b g hb hcalm _ ih =>
    rw [show '/' :: '*' :: (b ++ '*' :: '/' :: g) ++ rest =
      '/' :: '*' :: (b ++ '*' :: '/' :: (g ++ rest)) from by simp]
    have hl := lex_tok (C := C) (c := '/') (s := '*' :: (b ++ '*' :: '/' :: (g ++ rest)))
      (n := 2) (by decide) (by simp [blockStart]) (longest_block_start hC)
    simp only [List.drop_succ_cons, List.drop_zero] at hl
    exact gives_start hl (inComment_body hC _ b (Nat.le_refl _) hb hcalm _ r ih)

/-- **C65** (part: no quotation marks and no `//` in block comments, see
`C65_counterexample_line_comment_inside` and `C65_counterexample_quotes_inside`). White space, line
comments and block comments, nested ones too, do not change what comes next. -/
theorem C65_gap_partial {C : Classes} (hC : C.Usual) {g rest : List Char} (hg : Gap Calm g)
    (r : Next) : Gives C (g ++ rest) r ↔ Gives C rest r := by
  refine ⟨fun h => ?_, gap_gives hC hg⟩
  obtain ⟨r', hr', _⟩ := C65_lexing_ends C rest
  have := h.det (gap_gives hC hg hr')
  subst this
  exact hr'

/-- **C65** (part, as above). Two files with the same tokens but other white space and comments
before one of them: if a token is followed by `g` in one file and not in the other, the tokens of
the files are the same. -/
theorem C65_same_tokens_partial {C : Classes} (hC : C.Usual) {g s s' rest : List Char} {t : Tok}
    (hg : Gap Calm g) (hs : Gives C s (.tok t (g ++ rest))) (hs' : Gives C s' (.tok t rest))
    (ts : List Tok) : Tokens C s ts ↔ Tokens C s' ts := by
  have key : ∀ {s s' u u' : List Char}, Gives C s (.tok t u) → Gives C s' (.tok t u') →
      (∀ r, Gives C u r → Gives C u' r) → Tokens C s ts → Tokens C s' ts := by
    rintro s s' u u' h h' hu ⟨k, hk⟩
    cases k with
    | zero => cases hk
    | succ k =>
      rw [tokens] at hk
      cases hn : nextToken C k s with
      | none => rw [hn] at hk; cases hk
      | some x =>
        have := Gives.det ⟨k, hn⟩ h
        subst this
        rw [hn] at hk
        simp only [Option.map_eq_some_iff] at hk
        obtain ⟨ts', h1, h2⟩ := hk
        obtain ⟨k2, hk2⟩ := Tokens.of_gives hu ⟨k, h1⟩
        obtain ⟨k3, hk3⟩ := h'
        refine ⟨max k2 k3 + 1, ?_⟩
        rw [tokens, nextToken_mono hk3 (Nat.le_max_right k2 k3)]
        simp only [Option.map_eq_some_iff]
        exact ⟨ts', tokens_mono hk2 (Nat.le_max_left k2 k3), h2⟩
  exact ⟨key hs hs' (fun r h => (C65_gap_partial hC hg r).mp h),
    key hs' hs (fun r h => (C65_gap_partial hC hg r).mpr h)⟩

end Spade.Lex

import Verif.Files.Model
import Verif.Files.Spec

/-!
# File arguments (C76): theorems
-/

namespace Spade.Files

open Spade.Lex

/-! ## Lexing of paths -/

theorem start_ascii {C : Classes} (hC : C.Usual) {c : Char} (h : C.start c = true ∨ c = '_') :
    isSpace c = false ∧ c.isDigit = false ∧ c ≠ '\'' ∧ c ≠ '@' ∧ c ≠ '"' ∧ c ≠ '/' ∧ c ≠ ':' ∧ c ≠ ',' := by
  have key : ∀ d : Char, d.toNat < 128 → (d.isAlpha || d == '_') = false → c ≠ d := by
    rintro d hd hn rfl
    rcases h with h | rfl
    · rw [hC.start c hd] at h
      simp [h] at hn
    · simp at hn
  refine ⟨?_, ?_, key _ (by decide) (by decide), key _ (by decide) (by decide),
    key _ (by decide) (by decide), key _ (by decide) (by decide), key _ (by decide) (by decide),
    key _ (by decide) (by decide)⟩
  · have h1 := key ' ' (by decide) (by decide)
    have h2 := key '\t' (by decide) (by decide)
    have h3 := key '\n' (by decide) (by decide)
    have h4 := key '\r' (by decide) (by decide)
    simp [isSpace, h1, h2, h3, h4]
  · cases hd : c.isDigit with
    | false => rfl
    | true =>
      exfalso
      have hlt : c.toNat < 128 := by
        simp only [Char.isDigit, Bool.and_eq_true, decide_eq_true_eq] at hd
        have := hd.2
        have h9 : c.val ≤ 57 := this
        have : c.val.toNat ≤ 57 := by simpa using (UInt32.le_iff_toNat_le.1 h9)
        show c.val.toNat < 128
        omega
      rcases h with h | rfl
      · rw [hC.start c hlt] at h
        simp only [Char.isAlpha, Char.isUpper, Char.isLower, Char.isDigit, Bool.or_eq_true,
          Bool.and_eq_true, decide_eq_true_eq] at h hd
        have h9 : c.val.toNat ≤ 57 := UInt32.le_iff_toNat_le.1 hd.2
        rcases h with h | h
        · have : 65 ≤ c.val.toNat := UInt32.le_iff_toNat_le.1 h.1
          omega
        · have : 97 ≤ c.val.toNat := UInt32.le_iff_toNat_le.1 h.1
          omega
      · revert hd; decide

/-- Fixed tokens with a colon begin with a symbol. -/
theorem fixed_letters : ∀ f ∈ fixedTokens, (':' ∉ f) ∨
    ∃ c cs, f = c :: cs ∧ c.toNat < 128 ∧ (c.isAlpha || c == '_') = false := by
  have : ∀ f ∈ fixedTokens, (f.all (· != ':') || (match f with
      | [] => false
      | c :: _ => decide (c.toNat < 128) && !(c.isAlpha || c == '_'))) = true := by decide +kernel
  intro f hf
  have h := this f hf
  rw [Bool.or_eq_true] at h
  rcases h with h | h
  · left
    intro hc
    have := List.all_eq_true.1 h _ hc
    simp at this
  · right
    cases f with
    | nil => cases h
    | cons c cs =>
      simp only [Bool.and_eq_true, decide_eq_true_eq, Bool.not_eq_true'] at h
      exact ⟨c, cs, rfl, h.1, h.2⟩

/-- What may follow a name of a path. -/
def After (rest : List Char) : Prop := rest = [] ∨ ∃ r, rest = ':' :: r

theorem cont_colon {C : Classes} (hC : C.Usual) : C.cont ':' = false := by
  rw [hC.cont ':' (by decide)]; decide

theorem takeWhile_word {C : Classes} (hC : C.Usual) {cs rest : List Char}
    (hcs : ∀ d ∈ cs, C.cont d = true) (hr : After rest) : (cs ++ rest).takeWhile C.cont = cs := by
  induction cs with
  | nil =>
    rcases hr with rfl | ⟨r, rfl⟩
    · rfl
    · simp [cont_colon hC]
  | cons d cs ih =>
    rw [List.cons_append, List.takeWhile_cons, hcs d (by simp)]
    simp [ih fun x hx => hcs x (by simp [hx])]

theorem longest_word {C : Classes} (hC : C.Usual) {c : Char} {cs rest : List Char}
    (hc : C.start c = true ∨ c = '_') (hcs : ∀ d ∈ cs, C.cont d = true)
    (hk : c :: cs ∉ fixedTokens) (hr : After rest) :
    longest (matches_ C (c :: (cs ++ rest))) = some (1 + cs.length, .ident (c :: cs)) := by
  have htw := takeWhile_word hC hcs hr
  have hlen : nameLen C (c :: (cs ++ rest)) = some (1 + cs.length) := by
    have : (C.start c || c == '_') = true := by
      rcases hc with h | h <;> simp [h]
    rw [nameLen, if_pos this, htw]
  have htake : (c :: (cs ++ rest)).take (1 + cs.length) = c :: cs := by
    rw [Nat.add_comm, List.take_succ_cons, List.take_left]
  have hid : matchIdent C (c :: (cs ++ rest)) = some (1 + cs.length, .ident (c :: cs)) := by
    rw [matchIdent.eq_def]
    split
    next x heq =>
      exfalso
      simp only [List.cons.injEq] at heq
      obtain ⟨_, h2⟩ := heq
      cases cs with
      | nil =>
        rcases hr with rfl | ⟨r, rfl⟩
        · cases h2
        · simp at h2
      | cons d cs =>
        simp only [List.cons_append, List.cons.injEq] at h2
        have := hcs d (by simp)
        rw [h2.1, hC.cont '#' (by decide)] at this
        revert this
        decide
    next => rw [hlen, Option.map_some, htake]
  obtain ⟨_, hdig, n1, n2, n4, n5, _, _⟩ := start_ascii hC hc
  refine longest_eq ?_ ?_
  · rw [matches_, List.mem_append]
    right
    simp [hid]
  · intro b hb
    rcases mem_matches hb with ⟨f, hf, h⟩ | ⟨r, h⟩ | h | h | h | h | h | h | h | h | h | h
    · right
      obtain ⟨ht, rfl⟩ := matchFixed_some h
      show f.length < 1 + cs.length
      rcases fixed_letters f hf with hl | ⟨d, ds, hfd, hsmall, hsym⟩
      · apply Nat.lt_of_not_le
        intro hle
        have hcut : f = c :: cs ++ rest.take (f.length - (1 + cs.length)) := by
          have : (c :: (cs ++ rest)) = (c :: cs) ++ rest := rfl
          rw [this, List.take_append] at ht
          rw [List.take_of_length_le (by simp; omega)] at ht
          rw [List.length_cons, Nat.add_comm cs.length 1] at ht
          exact ht.symm
        by_cases hz : rest.take (f.length - (1 + cs.length)) = []
        · rw [hz, List.append_nil] at hcut
          exact hk (hcut ▸ hf)
        · rcases hr with rfl | ⟨r, rfl⟩
          · simp at hz
          · cases hm : f.length - (1 + cs.length) with
            | zero => rw [hm] at hz; simp at hz
            | succ m =>
              rw [hm, List.take_succ_cons] at hcut
              exact hl (by rw [hcut]; simp)
      · exfalso
        have := matchFixed_head h hfd
        subst this
        rcases hc with h | rfl
        · rw [hC.start _ hsmall] at h
          simp [h] at hsym
        · simp at hsym
    · exfalso
      obtain ⟨w, hw, ht, _⟩ := matchInt_back h
      obtain ⟨d, ds, hwd, hd⟩ := written_head hw
      rw [hwd] at ht
      cases hb1 : b.1 with
      | zero => rw [hb1] at ht; cases ht
      | succ m =>
        rw [hb1, List.take_succ_cons] at ht
        cases ht
        rw [hd] at hdig
        cases hdig
    · left
      rw [hid] at h
      exact (Option.some.inj h).symm
    · simp [matchLabel, n1] at h
    · simp [matchLabel, n2] at h
    all_goals exfalso
    · rw [matchQuoted.eq_def] at h
      split at h
      next c' cs' heq =>
        have hq : c' ≠ '\'' := by
          rintro rfl
          simp only [List.cons.injEq] at heq
          cases cs with
          | nil => rcases hr with rfl | ⟨r, rfl⟩ <;> simp at heq
          | cons d cs =>
            simp only [List.cons_append, List.cons.injEq] at heq
            have := hcs d (by simp)
            rw [heq.2.1, hC.cont '\'' (by decide)] at this
            revert this; decide
        rw [if_neg hq] at h
        cases h
      next => cases h
    · rw [matchQuoted.eq_def] at h
      split at h
      next c' cs' heq =>
        have hq : c' ≠ '"' := by
          rintro rfl
          simp only [List.cons.injEq] at heq
          cases cs with
          | nil => rcases hr with rfl | ⟨r, rfl⟩ <;> simp at heq
          | cons d cs =>
            simp only [List.cons_append, List.cons.injEq] at heq
            have := hcs d (by simp)
            rw [heq.2.1, hC.cont '"' (by decide)] at this
            revert this; decide
        rw [if_neg hq] at h
        cases h
      next => cases h
    · rw [matchUtf8.eq_def] at h
      split at h
      next heq => exact n1 (List.cons.inj heq).1
      next => cases h
    · rw [matchString.eq_def] at h
      split at h
      next heq => exact n4 (List.cons.inj heq).1
      next => cases h
    · exact n5 (matchLine_head h)
    · exact n5 (matchLine_head h)
    · exact n5 (matchLine_head h)

theorem longest_sep {C : Classes} (hC : C.Usual) (rest : List Char) :
    longest (matches_ C (':' :: ':' :: rest)) = some (2, .fixed [':', ':']) := by
  have hfix : matchFixed [':', ':'] (':' :: ':' :: rest) = some (2, .fixed [':', ':']) := by
    simp [matchFixed]
  refine longest_eq ?_ ?_
  · rw [matches_, List.mem_append]
    left
    rw [List.mem_map]
    exact ⟨[':', ':'], by decide +kernel, hfix⟩
  · intro b hb
    rcases mem_matches hb with ⟨f, hf, h⟩ | ⟨r, h⟩ | h | h | h | h | h | h | h | h | h | h
    · obtain ⟨ht, rfl⟩ := matchFixed_some h
      have hcol : ∀ f ∈ fixedTokens, f.head? = some ':' → f = [':', ':'] ∨ f = [':'] := by decide +kernel
      have hh : f.head? = some ':' := by
        obtain ⟨c, cs, hfc, _⟩ := fixed_head f hf
        have := matchFixed_head h hfc
        rw [hfc, this]; rfl
      rcases hcol f hf hh with rfl | rfl
      · exact .inl rfl
      · exact .inr (by decide)
    · exfalso
      obtain ⟨w, hw, ht, _⟩ := matchInt_back h
      obtain ⟨d, ds, hwd, hd⟩ := written_head hw
      rw [hwd] at ht
      cases hb1 : b.1 with
      | zero => rw [hb1] at ht; cases ht
      | succ m =>
        rw [hb1, List.take_succ_cons] at ht
        cases ht
        revert hd; decide
    · exfalso
      have hs : C.start ':' = false := by rw [hC.start ':' (by decide)]; decide
      simp [matchIdent, nameLen, hs] at h
    · simp [matchLabel] at h
    · simp [matchLabel] at h
    · simp [matchQuoted] at h
    · simp [matchQuoted] at h
    · simp [matchUtf8] at h
    · simp [matchString] at h
    · exact absurd (matchLine_head h) (by decide)
    · exact absurd (matchLine_head h) (by decide)
    · exact absurd (matchLine_head h) (by decide)

theorem tokens_cons {C : Classes} {s rest : List Char} {t : Tok} {ts : List Tok}
    (h : lex C s = some (.tok t rest)) (hb : t ≠ blockStart) (ht : Tokens C rest ts) :
    Tokens C s (t :: ts) := by
  obtain ⟨k, hk⟩ := ht
  refine ⟨k + 2, ?_⟩
  rw [tokens, nextToken, ← lex.eq_1, h]
  simp only [hb, if_false]
  rw [tokens_step hk]
  rfl

theorem tokens_nil (C : Classes) : Tokens C [] [] := ⟨2, by simp [tokens, nextToken, lexNext]⟩

theorem tokens_written {C : Classes} (hC : C.Usual) : ∀ {p : List (List Char)}, (∀ x ∈ p, Word C x) →
    Tokens C (written p) (pathTokens p)
  | [], _ => tokens_nil C
  | [x], h => by
    obtain ⟨c, cs, rfl, hc, hcs, hk⟩ := h x (by simp)
    have hl := lex_tok (C := C) (c := c) (s := cs ++ []) (start_ascii hC hc).1
      (by simp) (longest_word hC hc hcs hk (.inl rfl))
    have hd : (c :: (cs ++ [])).drop (1 + cs.length) = [] := by simp [Nat.add_comm]
    rw [hd, List.append_nil] at hl
    exact tokens_cons hl (by simp [blockStart]) (tokens_nil C)
  | x :: y :: p, h => by
    have ih := tokens_written hC (p := y :: p) fun z hz => h z (List.mem_cons_of_mem _ hz)
    obtain ⟨c, cs, rfl, hc, hcs, hk⟩ := h x (by simp)
    have hl := lex_tok (C := C) (c := c) (s := cs ++ ':' :: ':' :: written (y :: p)) (start_ascii hC hc).1
      (by simp) (longest_word hC hc hcs hk (.inr ⟨_, rfl⟩))
    have hd : (c :: (cs ++ ':' :: ':' :: written (y :: p))).drop (1 + cs.length) =
        ':' :: ':' :: written (y :: p) := by
      rw [Nat.add_comm, List.drop_succ_cons, List.drop_left]
    rw [hd] at hl
    refine tokens_cons (s := written ((c :: cs) :: y :: p)) hl (by simp [blockStart]) ?_
    have hl2 := lex_tok (C := C) (c := ':') (s := ':' :: written (y :: p)) (by decide) (by simp)
      (longest_sep hC _)
    exact tokens_cons hl2 (by simp [blockStart]) ih

/-- The steps given to the lexer suffice. -/
theorem tokens_enough {C : Classes} : ∀ (n : Nat) (s : List Char), s.length ≤ n → ∀ {ts : List Tok},
    Tokens C s ts → tokens C (2 * n + 3) s = some ts := by
  intro n
  induction n with
  | zero =>
    intro s hs ts ⟨k, hk⟩
    have : s = [] := List.length_eq_zero_iff.1 (by omega)
    subst this
    have h0 : tokens C 3 [] = some [] := by simp [tokens, nextToken, lexNext]
    have h1 := tokens_mono h0 (Nat.le_max_left 3 k)
    have h2 := tokens_mono hk (Nat.le_max_right 3 k)
    rw [h1] at h2
    cases h2
    exact h0
  | succ n ih =>
    intro s hs ts ⟨k, hk⟩
    cases k with
    | zero => cases hk
    | succ k =>
      rw [tokens] at hk
      obtain ⟨⟨r, hr, hlen⟩, _⟩ := nextToken_total (C := C) (n + 1) s hs
      cases hn : nextToken C k s with
      | none => rw [hn] at hk; cases hk
      | some x =>
        have h1 := nextToken_mono hr (Nat.le_max_left (2 * (n + 1) + 1) k)
        have h2 := nextToken_mono hn (Nat.le_max_right (2 * (n + 1) + 1) k)
        rw [h1] at h2
        cases h2
        rw [hn] at hk
        rw [tokens, nextToken_mono hr (Nat.le_succ _)]
        cases r with
        | eof => exact hk
        | error rest => cases hk
        | tok t rest =>
          simp only [Option.map_eq_some_iff] at hk ⊢
          obtain ⟨ts', h3, h4⟩ := hk
          have hl : rest.length ≤ n := by
            rcases hlen with hlen | hlen
            · have : rest.length < s.length := hlen
              omega
            · have : rest = [] := hlen
              simp [this]
          exact ⟨ts', tokens_mono (ih rest hl ⟨k, h3⟩) (by omega), h4⟩

/-! ## Parsing of paths -/

theorem continue_tokens : ∀ (p : List (List Char)) (leading : List (List Char)) (x : List Char),
    continuePath leading (.fixed [':', ':'] :: pathTokens (x :: p)) = (leading ++ x :: p, [])
  | [], leading, x => by simp [pathTokens, continuePath]
  | y :: p, leading, x => by
    rw [pathTokens, continuePath, continue_tokens p (leading ++ [x]) y]
    simp

theorem path_tokens (p : List (List Char)) (x : List Char) :
    path (pathTokens (x :: p)) = some (x :: p, []) := by
  cases p with
  | nil => simp [path, pathTokens, continuePath]
  | cons y p =>
    rw [pathTokens, path, continue_tokens]
    rfl

theorem written_ne {C : Classes} {x : List Char} {p : List (List Char)} (h : Word C x) :
    written (x :: p) ≠ [] := by
  obtain ⟨c, cs, rfl, _⟩ := h
  cases p <;> simp [written]

theorem namespace_written {C : Classes} (hC : C.Usual) {p : List (List Char)} (h : ∀ x ∈ p, Word C x) :
    namespaceOf C (written p) = some p := by
  cases p with
  | nil => rfl
  | cons x p =>
    rw [namespaceOf, if_neg (written_ne (h x (by simp))),
      tokens_enough _ _ (Nat.le_refl _) (tokens_written hC h), Option.bind_some, path_tokens]
    rfl

theorem comma_word {C : Classes} (hC : C.Usual) {x : List Char} (h : Word C x) : ',' ∉ x := by
  obtain ⟨c, cs, rfl, hc, hcs, _⟩ := h
  intro hm
  rcases List.mem_cons.1 hm with hm | hm
  · exact (start_ascii hC hc).2.2.2.2.2.2.2 hm.symm
  · have := hcs _ hm
    rw [hC.cont ',' (by decide)] at this
    revert this; decide

theorem comma_written {C : Classes} (hC : C.Usual) : ∀ {p : List (List Char)}, (∀ x ∈ p, Word C x) →
    ',' ∉ written p
  | [], _ => by simp [written]
  | [x], h => comma_word hC (h x (by simp))
  | x :: y :: p, h => by
    have ih := comma_written hC (p := y :: p) fun z hz => h z (List.mem_cons_of_mem _ hz)
    have hx := comma_word hC (h x (by simp))
    rw [written]
    simp [hx, ih]

theorem split_plain : ∀ {s : List Char}, ',' ∉ s → splitCommas s = [s]
  | [], _ => rfl
  | c :: s, h => by
    have hc : c ≠ ',' := fun hc => h (by simp [hc])
    rw [splitCommas, if_neg hc, split_plain fun hm => h (List.mem_cons_of_mem _ hm)]

theorem split_comma : ∀ {s : List Char} (t : List Char), ',' ∉ s →
    splitCommas (s ++ ',' :: t) = s :: splitCommas t
  | [], t, _ => by simp [splitCommas]
  | c :: s, t, h => by
    have hc : c ≠ ',' := fun hc => h (by simp [hc])
    rw [List.cons_append, splitCommas, if_neg hc, split_comma t fun hm => h (List.mem_cons_of_mem _ hm)]

/-- The parts have no commas and give the text. -/
theorem split_back : ∀ (s : List Char), (∀ p ∈ splitCommas s, ',' ∉ p) ∧ splitCommas s ≠ [] ∧
    [','].intercalate (splitCommas s) = s
  | [] => by simp [splitCommas]
  | c :: s => by
    obtain ⟨h1, h2, h3⟩ := split_back s
    rw [splitCommas]
    split
    next hc =>
      subst hc
      refine ⟨?_, by simp, ?_⟩
      · intro p hp
        rcases List.mem_cons.1 hp with rfl | hp
        · simp
        · exact h1 p hp
      · cases hs : splitCommas s with
        | nil => exact absurd hs h2
        | cons p ps =>
          rw [hs] at h3
          rw [List.intercalate_cons_cons, h3]
          simp
    next hc =>
      cases hs : splitCommas s with
      | nil => exact absurd hs h2
      | cons p ps =>
        rw [hs] at h1 h3
        refine ⟨?_, by simp, ?_⟩
        · intro q hq
          rcases List.mem_cons.1 hq with rfl | hq
          · have := h1 p (by simp)
            simp [this, Ne.symm hc]
          · exact h1 q (List.mem_cons_of_mem _ hq)
        · cases ps with
          | nil => simp at h3 ⊢; exact h3
          | cons q ps =>
            rw [List.intercalate_cons_cons] at h3 ⊢
            rw [← h3]
            simp

/-! ## Theorems -/

/-- `root,namespace,file` gives the file the two namespaces as they are written; either may be empty. -/
theorem C76_namespaces {C : Classes} (hC : C.Usual) {root ns : List (List Char)} {file : List Char}
    (hr : ∀ x ∈ root, Word C x) (hn : ∀ x ∈ ns, Word C x) (hf : ',' ∉ file) :
    namespacedFile C (written root ++ ',' :: (written ns ++ ',' :: file)) = some ⟨root, ns, file⟩ := by
  rw [namespacedFile, split_comma _ (comma_written hC hr), split_comma _ (comma_written hC hn),
    split_plain hf]
  simp only [namespace_written hC hr, namespace_written hC hn, Option.bind_some]

/-- A file without namespaces is taken as it is. -/
theorem C76_plain (C : Classes) {file : List Char} (hf : ',' ∉ file) :
    namespacedFile C file = some ⟨[], [], file⟩ := by
  rw [namespacedFile, split_plain hf]

theorem continue_back : ∀ (ts : List Tok) (leading q : List (List Char)),
    continuePath leading ts = (q, []) →
    ∃ p, q = leading ++ p ∧ ∃ t, (t = [] ∨ t = [.fixed [':', ':']]) ∧
      ts = p.flatMap (fun x => [.fixed [':', ':'], .ident x]) ++ t
  | ts, leading, q, h => by
    rw [continuePath.eq_def] at h
    split at h
    next x ts' =>
      obtain ⟨p, h1, t, ht, h2⟩ := continue_back ts' (leading ++ [x]) q h
      exact ⟨x :: p, by rw [h1]; simp, t, ht, by rw [h2]; simp⟩
    next ts' _ =>
      cases h
      exact ⟨[], by simp, _, .inr rfl, rfl⟩
    next =>
      cases h
      exact ⟨[], by simp, _, .inl rfl, rfl⟩
  termination_by ts => ts.length

theorem flat_tokens : ∀ (p : List (List Char)) (x : List Char),
    Tok.ident x :: p.flatMap (fun y => [.fixed [':', ':'], .ident y]) = pathTokens (x :: p)
  | [], x => rfl
  | y :: p, x => by
    rw [pathTokens, ← flat_tokens p y]
    rfl

/-- What a text for a namespace is accepted as: nothing, or the tokens of the path, possibly with
`::` at the end. -/
theorem namespace_back {C : Classes} {part : List Char} {p : List (List Char)}
    (h : namespaceOf C part = some p) :
    (part = [] ∧ p = []) ∨
    (p ≠ [] ∧ (Tokens C part (pathTokens p) ∨ Tokens C part (pathTokens p ++ [.fixed [':', ':']]))) := by
  rw [namespaceOf] at h
  split at h
  next he => cases h; exact .inl ⟨he, rfl⟩
  next he =>
    right
    rw [Option.bind_eq_some_iff] at h
    obtain ⟨ts, ht, h⟩ := h
    rw [Option.bind_eq_some_iff] at h
    obtain ⟨⟨q, rest⟩, hp, h⟩ := h
    cases rest with
    | cons a l => cases h
    | nil =>
      cases h
      rw [path.eq_def] at hp
      split at hp
      next x ts' =>
        obtain ⟨r, h1, t, h2, h3⟩ := continue_back ts' [x] p (Option.some.inj hp)
        subst h1
        refine ⟨by simp, ?_⟩
        have : Tok.ident x :: ts' = pathTokens ([x] ++ r) ++ t := by
          rw [h3, ← List.cons_append, flat_tokens]
          rfl
        rcases h2 with rfl | rfl
        · left; rw [List.append_nil] at this; rw [← this]; exact ⟨_, ht⟩
        · right; rw [← this]; exact ⟨_, ht⟩
      next => cases hp

theorem continue_tokens_sep : ∀ (p : List (List Char)) (leading : List (List Char)) (x : List Char),
    continuePath leading (.fixed [':', ':'] :: (pathTokens (x :: p) ++ [.fixed [':', ':']])) =
      (leading ++ x :: p, [])
  | [], leading, x => by simp [pathTokens, continuePath]
  | y :: p, leading, x => by
    rw [pathTokens, List.cons_append, List.cons_append, continuePath,
      continue_tokens_sep p (leading ++ [x]) y]
    simp

theorem path_tokens_sep (p : List (List Char)) (x : List Char) :
    path (pathTokens (x :: p) ++ [.fixed [':', ':']]) = some (x :: p, []) := by
  cases p with
  | nil => simp [path, pathTokens, continuePath]
  | cons y p =>
    rw [pathTokens, List.cons_append, List.cons_append, path, continue_tokens_sep]
    rfl

theorem namespace_of_tokens {C : Classes} {part : List Char} {p : List (List Char)} (hp : p ≠ [])
    (h : Tokens C part (pathTokens p) ∨ Tokens C part (pathTokens p ++ [.fixed [':', ':']])) :
    namespaceOf C part = some p := by
  cases p with
  | nil => exact absurd rfl hp
  | cons x p =>
    have hne : part ≠ [] := by
      rintro rfl
      rcases h with h | h
      · have h1 := tokens_enough 0 [] (Nat.le_refl _) h
        rw [tokens_enough 0 [] (Nat.le_refl _) (tokens_nil C)] at h1
        cases p <;> simp [pathTokens] at h1
      · have h1 := tokens_enough 0 [] (Nat.le_refl _) h
        rw [tokens_enough 0 [] (Nat.le_refl _) (tokens_nil C)] at h1
        cases p <;> simp [pathTokens] at h1
    rw [namespaceOf, if_neg hne]
    rcases h with h | h
    · rw [tokens_enough _ _ (Nat.le_refl _) h, Option.bind_some, path_tokens]
      rfl
    · rw [tokens_enough _ _ (Nat.le_refl _) h, Option.bind_some, path_tokens_sep]
      rfl

theorem namespace_iff {C : Classes} {part : List Char} {p : List (List Char)} :
    namespaceOf C part = some p ↔ Names C part p := by
  constructor
  · exact namespace_back
  · rintro (⟨rfl, rfl⟩ | ⟨h1, h2⟩)
    · rfl
    · exact namespace_of_tokens h1 h2

/-- Exactly these arguments are accepted: a file without commas, or two namespaces and a file without
commas, each of the namespaces empty or a path. Missing: a `::` at the end of a path is accepted too
(`C76_counterexample_separator`). -/
theorem C76_accepted_partial {C : Classes} {arg : List Char} {r : NamespacedFile} :
    namespacedFile C arg = some r ↔
    (',' ∉ arg ∧ r = ⟨[], [], arg⟩) ∨
    ∃ a b, ',' ∉ a ∧ ',' ∉ b ∧ ',' ∉ r.file ∧ arg = a ++ ',' :: (b ++ ',' :: r.file) ∧
      Names C a r.base ∧ Names C b r.namespace_ := by
  constructor
  case mpr =>
    rintro (⟨h, rfl⟩ | ⟨a, b, ha, hb, hf, rfl, h1, h2⟩)
    · exact C76_plain C h
    · rw [namespacedFile, split_comma _ ha, split_comma _ hb, split_plain hf]
      simp only [namespace_iff.2 h1, namespace_iff.2 h2, Option.bind_some]
  intro h
  obtain ⟨h1, _, h3⟩ := split_back arg
  rw [namespacedFile] at h
  split at h
  next x heq =>
    left
    cases h
    rw [heq] at h1 h3
    have hx : x = arg := by simpa using h3
    subst hx
    exact ⟨h1 x (by simp), rfl⟩
  next a b f heq =>
    right
    rw [Option.bind_eq_some_iff] at h
    obtain ⟨root, hr, h⟩ := h
    rw [Option.bind_eq_some_iff] at h
    obtain ⟨ns, hn, h⟩ := h
    cases h
    rw [heq] at h1 h3
    refine ⟨a, b, h1 a (by simp), h1 b (by simp), h1 f (by simp), ?_, namespace_back hr,
      namespace_back hn⟩
    rw [← h3]; simp [List.intercalate_cons_cons]
  next => cases h

end Spade.Files

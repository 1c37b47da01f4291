import Verif.Lex.Model

/-! # Numbers in the lexer (C64) -/

namespace Spade.Lex

open Spec (Radix Kind IsDigit Written Ends)

/-! ## Characters -/

/-- All characters that are digits in some radix. -/
def hexDigits : List Char := "0123456789abcdefABCDEF".toList

theorem Char.le_toNat {a b : Char} : a ≤ b ↔ a.toNat ≤ b.toNat := by
  rw [Char.le_def, UInt32.le_iff_toNat_le]
  rfl

theorem mem_hexDigits {c : Char} {d : Nat} (h : Spec.digit c = some d) : c ∈ hexDigits := by
  have key : (48 ≤ c.toNat ∧ c.toNat ≤ 57) ∨ (97 ≤ c.toNat ∧ c.toNat ≤ 102) ∨
      (65 ≤ c.toNat ∧ c.toNat ≤ 70) := by
    simp only [Spec.digit, Char.le_toNat] at h
    split at h
    next h' => exact .inl (by simpa using h')
    next =>
      split at h
      next h' => exact .inr (.inl (by simpa using h'))
      next =>
        split at h
        next h' => exact .inr (.inr (by simpa using h'))
        next => cases h
  have hc : c = Char.ofNat c.toNat := (Char.ofNat_toNat c).symm
  have : c.toNat ∈ hexDigits.map Char.toNat := by
    have : hexDigits.map Char.toNat = [48, 49, 50, 51, 52, 53, 54, 55, 56, 57, 97, 98, 99, 100, 101,
      102, 65, 66, 67, 68, 69, 70] := by decide
    rw [this]
    simp only [List.mem_cons, List.not_mem_nil, or_false]
    omega
  obtain ⟨e, he, hec⟩ := List.mem_map.mp this
  rw [hc, ← hec, Char.ofNat_toNat]
  exact he

theorem radixDigit_mem {r : Radix} {c : Char} (h : isRadixDigit r c = true) : c ∈ hexDigits := by
  have : Spec.digit c ≠ none := by
    simp only [Spec.digit]
    cases r <;> simp only [isRadixDigit, Bool.and_eq_true, Bool.or_eq_true, decide_eq_true_eq,
      Char.le_toNat] at h ⊢ <;> simp only [Char.reduceToNat] at h ⊢ <;>
      repeat' split
    all_goals first | (intro hh; cases hh; done) | (exfalso; omega)
  cases hd : Spec.digit c with
  | none => exact absurd hd this
  | some d => exact mem_hexDigits hd

/-- The classes of the rules are the digits of the radix. -/
theorem radixDigit_iff {r : Radix} {c : Char} : isRadixDigit r c = true ↔ IsDigit r.base c := by
  have key : ∀ r : Radix, ∀ c ∈ hexDigits,
      isRadixDigit r c = (match Spec.digit c with | some d => decide (d < r.base) | none => false) := by
    intro r; cases r <;> decide
  constructor
  · intro h
    have hm := radixDigit_mem h
    rw [key r c hm] at h
    split at h
    next d hd => exact ⟨d, hd, by simpa using h⟩
    next => cases h
  · rintro ⟨d, hd, hlt⟩
    rw [key r c (mem_hexDigits hd), hd]
    simpa using hlt

/-! ## The value -/

theorem parseDigits_digits {radix : Nat} : ∀ {cs : List Char} {n : Nat},
    (∀ c ∈ cs, IsDigit radix c) → parseDigits radix n cs =
      some ((cs.filterMap Spec.digit).foldl (fun n d => n * radix + d) n)
  | [], n, _ => rfl
  | c :: cs, n, h => by
    obtain ⟨d, hd, hlt⟩ := h c List.mem_cons_self
    rw [parseDigits, hd]
    simp only [if_pos hlt]
    rw [parseDigits_digits (fun c hc => h c (List.mem_cons_of_mem _ hc)),
      List.filterMap_cons_some hd]
    rfl

theorem parseBytes_digits {radix : Nat} {cs : List Char} (hne : cs ≠ [])
    (h : ∀ c ∈ cs, IsDigit radix c) : parseBytes radix cs = some (Spec.number radix cs) := by
  rw [parseBytes, if_neg hne, parseDigits_digits h]
  rfl

/-- The text of digits after lowering the case and dropping underscores. -/
def clean (s : List Char) : List Char := (s.map Char.toLower).filter (· != '_')

theorem clean_append (s t : List Char) : clean (s ++ t) = clean s ++ clean t := by simp [clean]

theorem clean_cons (c : Char) (t : List Char) : clean (c :: t) = clean [c] ++ clean t :=
  clean_append [c] t

theorem clean_digit {c : Char} {radix : Nat} (h : IsDigit radix c) :
    ∃ e, clean [c] = [e] ∧ Spec.digit e = Spec.digit c ∧ e ≠ 'u' ∧ e ≠ 'i' := by
  obtain ⟨d, hd, _⟩ := h
  have key : ∀ c ∈ hexDigits, clean [c] = [c.toLower] ∧ Spec.digit c.toLower = Spec.digit c ∧
      c.toLower ≠ 'u' ∧ c.toLower ≠ 'i' := by decide
  exact ⟨_, key c (mem_hexDigits hd)⟩

theorem clean_underscore : clean ['_'] = [] := by decide

theorem clean_digits {radix : Nat} : ∀ {cs : List Char},
    (∀ c ∈ cs, IsDigit radix c ∨ c = '_') →
    (∀ e ∈ clean cs, IsDigit radix e ∧ e ≠ 'u' ∧ e ≠ 'i') ∧
    (clean cs).filterMap Spec.digit = cs.filterMap Spec.digit
  | [], _ => by simp [clean]
  | c :: cs, h => by
    obtain ⟨h1, h2⟩ := clean_digits (fun c hc => h c (List.mem_cons_of_mem _ hc))
    rw [clean_cons]
    rcases h c List.mem_cons_self with hd | rfl
    · obtain ⟨e, he, hed, hu, hi⟩ := clean_digit hd
      obtain ⟨d, hcd, hlt⟩ := hd
      refine ⟨fun x hx => ?_, ?_⟩
      · rw [he] at hx
        rcases List.mem_append.mp hx with hx | hx
        · rw [List.mem_singleton] at hx
          subst hx
          exact ⟨⟨d, hed.trans hcd, hlt⟩, hu, hi⟩
        · exact h1 x hx
      · rw [he, List.singleton_append, List.filterMap_cons_some (hed.trans hcd),
          List.filterMap_cons_some hcd, h2]
    · rw [clean_underscore]
      refine ⟨h1, ?_⟩
      have : Spec.digit '_' = none := by decide
      rw [List.nil_append, h2, List.filterMap_cons_none this]

theorem takeWhile_all {p : Char → Bool} : ∀ {a b : List Char}, (∀ c ∈ a, p c = true) →
    (∀ c, b.head? = some c → p c = false) → (a ++ b).takeWhile p = a
  | [], [], _, _ => rfl
  | [], c :: b, _, hb => by
    have := hb c rfl
    simp [this]
  | c :: a, b, ha, hb => by
    rw [List.cons_append, List.takeWhile_cons_of_pos (ha c List.mem_cons_self),
      takeWhile_all (fun x hx => ha x (List.mem_cons_of_mem _ hx)) hb]

theorem dropWhile_all {p : Char → Bool} : ∀ {a b : List Char}, (∀ c ∈ a, p c = true) →
    (∀ c, b.head? = some c → p c = false) → (a ++ b).dropWhile p = b
  | [], [], _, _ => rfl
  | [], c :: b, _, hb => by
    have := hb c rfl
    simp [this]
  | c :: a, b, ha, hb => by
    rw [List.cons_append, List.dropWhile_cons_of_pos (ha c List.mem_cons_self),
      dropWhile_all (fun x hx => ha x (List.mem_cons_of_mem _ hx)) hb]

theorem splitAt2_append {l : Char} {a b : List Char} (ha : l ∉ a) (hb : l ∉ b) :
    splitAt2 l (a ++ l :: b) = (a, b) := by
  have hne : ∀ c : List Char, l ∉ c → ∀ x ∈ c, (x != l) = true := by
    intro c hc x hx
    have : x ≠ l := fun h => hc (h ▸ hx)
    simpa using this
  have hh : ∀ c, (l :: b).head? = some c → (c != l) = false := by
    intro c hc
    simp only [List.head?_cons, Option.some.injEq] at hc
    simp [hc]
  have h3 := takeWhile_all (hne b hb) (b := []) (by simp)
  rw [List.append_nil] at h3
  rw [splitAt2, takeWhile_all (hne a ha) hh, dropWhile_all (hne a ha) hh, List.drop_one,
    List.tail_cons, h3]

/-- The part of a written number after its introduction. -/
def Written.rest (w : Written) : List Char :=
  w.first :: w.more ++
    match w.suffix with
    | none => []
    | some (l, ds) => l :: ds

theorem written_text (w : Written) : w.text = w.radix.intro ++ Written.rest w := by
  simp only [Written.text, Written.rest, List.append_assoc, List.cons_append]
  rfl

theorem width_clean {ds : List Char} (h : ∀ c ∈ ds, IsDigit 10 c) :
    parseBytes 10 (clean ds) = Spec.width ds := by
  obtain ⟨h1, h2⟩ := clean_digits (cs := ds) (radix := 10) (fun c hc => .inl (h c hc))
  cases ds with
  | nil => rfl
  | cons d ds =>
    have hne : clean (d :: ds) ≠ [] := by
      obtain ⟨e, he, _⟩ := clean_digit (h d List.mem_cons_self)
      rw [clean_cons, he]
      simp
    rw [parseBytes_digits hne (fun c hc => (h1 c hc).1), Spec.width, if_neg (by simp)]
    simp only [Spec.number, h2]

/-- `parse_int` gives the value and type of what is written. -/
theorem parseInt_written {w : Written} (hw : w.Ok) :
    parseInt w.radix.base (Written.rest w) = some (w.value, w.kind) := by
  have hds : ∀ c ∈ w.first :: w.more, IsDigit w.radix.base c ∨ c = '_' := by
    intro c hc
    rcases List.mem_cons.mp hc with rfl | hc
    · exact .inl hw.first
    · exact hw.more c hc
  obtain ⟨h1, h2⟩ := clean_digits hds
  have hne : clean (w.first :: w.more) ≠ [] := by
    obtain ⟨e, he, _⟩ := clean_digit hw.first
    rw [clean_cons, he]
    simp
  have hval : parseBytes w.radix.base (clean (w.first :: w.more)) = some w.value := by
    rw [parseBytes_digits hne (fun c hc => (h1 c hc).1)]
    simp only [Spec.number, h2, Written.value]
  have hu : 'u' ∉ clean (w.first :: w.more) := fun h => (h1 _ h).2.1 rfl
  have hi : 'i' ∉ clean (w.first :: w.more) := fun h => (h1 _ h).2.2 rfl
  have hdef : ∀ s, parseInt w.radix.base s =
      (parseBytes w.radix.base (if 'u' ∈ clean s then (splitAt2 'u' (clean s)).1
        else if 'i' ∈ clean s then (splitAt2 'i' (clean s)).1 else clean s)).map
      (fun n => (n, if 'u' ∈ clean s then Kind.unsigned (parseBytes 10 (splitAt2 'u' (clean s)).2)
        else if 'i' ∈ clean s then Kind.signed (parseBytes 10 (splitAt2 'i' (clean s)).2)
        else Kind.unsized)) := by
    intro s
    show parseInt w.radix.base s = _
    unfold parseInt
    simp only [← clean.eq_1]
    by_cases h1 : 'u' ∈ clean s
    · simp only [if_pos h1]
    · by_cases h2 : 'i' ∈ clean s
      · simp only [if_neg h1, if_pos h2]
      · simp only [if_neg h1, if_neg h2]
  rw [hdef]
  cases hs : w.suffix with
  | none =>
    have : Written.rest w = w.first :: w.more := by simp [Written.rest, hs]
    rw [this]
    simp only [if_neg hu, if_neg hi, hval, Option.map_some, Written.kind, hs]
  | some p =>
    obtain ⟨l, ds⟩ := p
    have hl := hw.letter l ds hs
    have hd := hw.width l ds hs
    obtain ⟨g1, g2⟩ := clean_digits (cs := ds) (radix := 10) (fun c hc => .inl (hd c hc))
    have gu : 'u' ∉ clean ds := fun h => (g1 _ h).2.1 rfl
    have gi : 'i' ∉ clean ds := fun h => (g1 _ h).2.2 rfl
    have hr : Written.rest w = (w.first :: w.more) ++ l :: ds := by simp [Written.rest, hs]
    rw [hr, clean_append, clean_cons l ds]
    have hkind : w.kind = if l = 'u' ∨ l = 'U' then .unsigned (Spec.width ds)
        else .signed (Spec.width ds) := by simp only [Written.kind, hs]
    rw [hkind]
    have hlc : (l = 'u' ∨ l = 'U') ∧ clean [l] = ['u'] ∨
        ¬ (l = 'u' ∨ l = 'U') ∧ clean [l] = ['i'] := by
      simp only [List.mem_cons, List.not_mem_nil, or_false] at hl
      rcases hl with rfl | rfl | rfl | rfl <;> decide
    rcases hlc with ⟨hl', hc⟩ | ⟨hl', hc⟩
    · rw [hc, List.singleton_append]
      have hin : 'u' ∈ clean (w.first :: w.more) ++ 'u' :: clean ds := by simp
      simp only [if_pos hin, splitAt2_append hu gu, hval, Option.map_some, width_clean hd, if_pos hl']
    · rw [hc, List.singleton_append]
      have hout : 'u' ∉ clean (w.first :: w.more) ++ 'i' :: clean ds := by
        simp only [List.mem_append, List.mem_cons, not_or]
        exact ⟨hu, by decide, gu⟩
      have hin : 'i' ∈ clean (w.first :: w.more) ++ 'i' :: clean ds := by simp
      simp only [if_neg hout, if_pos hin, splitAt2_append hi gi, hval, Option.map_some,
        width_clean hd, if_neg hl']

/-! ## The length -/

theorem ends_not_digit {rest : List Char} (h : Ends rest) (r : Radix) :
    ∀ c, rest.head? = some c → (isRadixDigit r c || c == '_') = false ∧ isSuffixDigit r c = false ∧
      ¬ (c = 'u' ∨ c = 'U' ∨ c = 'i' ∨ c = 'I') := by
  intro c hc
  obtain ⟨ha, hu⟩ := h c hc
  have hx : c ∉ hexDigits := by
    intro hm
    have : ∀ c ∈ hexDigits, c.isAlphanum = true := by decide
    rw [this c hm] at ha
    cases ha
  have hs : isSuffixDigit r c = false := by
    cases h : isSuffixDigit r c with
    | false => rfl
    | true =>
      refine absurd ?_ hx
      cases r with
      | oct => exact radixDigit_mem (r := .oct) h
      | dec => exact radixDigit_mem (r := .dec) h
      | hex => exact radixDigit_mem (r := .dec) h
      | bin => exact radixDigit_mem (r := .dec) h
  refine ⟨?_, hs, ?_⟩
  · have : isRadixDigit r c = false := by
      cases h : isRadixDigit r c with
      | false => rfl
      | true => exact absurd (radixDigit_mem h) hx
    simp [this, hu]
  · rintro (rfl | rfl | rfl | rfl) <;> revert ha <;> decide

/-- The digits of the width are ones the rule takes. -/
def SuffixDigits (w : Written) : Prop :=
  ∀ l ds, w.suffix = some (l, ds) → ∀ c ∈ ds, isSuffixDigit w.radix c = true

theorem suffix_letter_not_digit (r : Radix) {l : Char} (hl : l ∈ ['u', 'U', 'i', 'I']) :
    (isRadixDigit r l || l == '_') = false := by
  simp only [List.mem_cons, List.not_mem_nil, or_false] at hl
  cases r <;> rcases hl with rfl | rfl | rfl | rfl <;> decide

theorem bodyLen_written {w : Written} (hw : w.Ok) (hsd : SuffixDigits w) {rest : List Char}
    (hr : Ends rest) : bodyLen w.radix (Written.rest w ++ rest) = some (Written.rest w).length := by
  have hmore : ∀ c ∈ w.more, (isRadixDigit w.radix c || c == '_') = true := by
    intro c hc
    rcases hw.more c hc with h | rfl
    · simp [radixDigit_iff.mpr h]
    · simp
  cases hs : w.suffix with
  | none =>
    have : Written.rest w = w.first :: w.more := by simp [Written.rest, hs]
    rw [this, List.cons_append, bodyLen, if_pos (radixDigit_iff.mpr hw.first)]
    simp only [takeWhile_all hmore (fun c hc => (ends_not_digit hr w.radix c hc).1), List.drop_left,
      List.length_cons]
    have : suffixLen w.radix rest = 0 := by
      cases rest with
      | nil => rfl
      | cons c cs => rw [suffixLen, if_neg (ends_not_digit hr w.radix c rfl).2.2]
    rw [this]
    congr 1
    omega
  | some p =>
    obtain ⟨l, ds⟩ := p
    have hl := hw.letter l ds hs
    have : Written.rest w = w.first :: (w.more ++ l :: ds) := by simp [Written.rest, hs]
    rw [this, List.cons_append, bodyLen, if_pos (radixDigit_iff.mpr hw.first)]
    have hsplit : w.more ++ l :: ds ++ rest = w.more ++ (l :: (ds ++ rest)) := by simp
    have htw := takeWhile_all hmore (b := l :: (ds ++ rest)) (fun c hc => by
      simp only [List.head?_cons, Option.some.injEq] at hc
      subst hc
      exact suffix_letter_not_digit w.radix hl)
    simp only [hsplit, htw, List.drop_left, List.length_cons, List.length_append]
    have hl' : l = 'u' ∨ l = 'U' ∨ l = 'i' ∨ l = 'I' := by simpa using hl
    rw [suffixLen, if_pos hl', takeWhile_all (hsd l ds hs)
      (fun c hc => (ends_not_digit hr w.radix c hc).2.1)]
    congr 1
    omega

theorem matchInt_written {w : Written} (hw : w.Ok) (hsd : SuffixDigits w) {rest : List Char}
    (hr : Ends rest) : matchInt w.radix (w.text ++ rest) =
      some (w.text.length, .int w.radix w.value w.kind) := by
  have ht : w.text ++ rest = w.radix.intro ++ (Written.rest w ++ rest) := by
    rw [written_text, List.append_assoc]
  rw [ht]
  unfold matchInt
  simp only [List.take_left, List.drop_left, if_true, bodyLen_written hw hsd hr,
    parseInt_written hw, written_text, List.length_append]

end Spade.Lex

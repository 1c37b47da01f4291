import Verif.Vcd.Total
/-! C34: the text determines the value. -/
namespace Spade.Vcd

open Spade.Codegen Spade.Verilog

/-! ## Decimal notation -/

theorem digit_toNat : ∀ n, n < 10 → (digit n).toNat = n + 48 := by decide

/-- The number that digits stand for. -/
def undec (s : Str) : Nat := s.foldl (fun a c => a * 10 + (c.toNat - 48)) 0

theorem undec_decNat (n : Nat) : undec (decNat n) = n := by
  induction n using decNat.induct with
  | case1 n h => rw [decNat, if_pos h]; simp [undec, digit_toNat n h]
  | case2 n h ih =>
    rw [decNat, if_neg h]
    unfold undec at ih ⊢
    rw [List.foldl_append, ih]
    simp only [List.foldl_cons, List.foldl_nil, digit_toNat (n % 10) (by omega)]
    omega

theorem decNat_digits (n : Nat) : ∀ c ∈ decNat n, ∃ k, k < 10 ∧ c = digit k := by
  induction n using decNat.induct with
  | case1 n h => rw [decNat, if_pos h]; simp; exact ⟨n, h, rfl⟩
  | case2 n h ih =>
    rw [decNat, if_neg h]
    intro c hc
    simp only [List.mem_append, List.mem_singleton] at hc
    rcases hc with hc | rfl
    · exact ih c hc
    · exact ⟨n % 10, by omega, rfl⟩

theorem decNat_ne_nil (n : Nat) : decNat n ≠ [] := by
  rw [decNat]; split <;> simp

theorem digit_ne : ∀ k, k < 10 → special (digit k) = false ∧ digit k ≠ '-' ∧ digit k ≠ 'U' ∧ digit k ≠ 'H' := by
  decide

theorem decNat_inj {n m : Nat} (h : decNat n = decNat m) : n = m := by
  have := congrArg undec h
  rwa [undec_decNat, undec_decNat] at this

theorem minus_notin (n : Nat) : '-' ∉ decNat n := by
  intro h
  obtain ⟨k, hk, e⟩ := decNat_digits n _ h
  exact (digit_ne k hk).2.1 e.symm

theorem dec_inj {a b : Int} (h : dec a = dec b) : a = b := by
  match a, b, h with
  | .ofNat n, .ofNat m, h => simp only [dec] at h; rw [decNat_inj h]
  | .negSucc n, .negSucc m, h =>
    simp only [dec, List.cons.injEq, true_and] at h
    have := decNat_inj h
    congr 1; omega
  | .ofNat n, .negSucc m, h =>
    simp only [dec] at h
    exact absurd (by rw [h]; simp) (minus_notin n)
  | .negSucc n, .ofNat m, h =>
    simp only [dec] at h
    exact absurd (by rw [← h]; simp) (minus_notin m)

/-- The characters of a number. -/
theorem dec_chars (z : Int) : ∀ c ∈ dec z, special c = false ∧ c ≠ 'U' ∧ c ≠ 'H' := by
  intro c hc
  match z, hc with
  | .ofNat n, hc =>
    obtain ⟨k, hk, rfl⟩ := decNat_digits n c hc
    have := digit_ne k hk
    exact ⟨this.1, this.2.2⟩
  | .negSucc n, hc =>
    simp only [dec, List.mem_cons] at hc
    rcases hc with rfl | hc
    · decide
    · obtain ⟨k, hk, rfl⟩ := decNat_digits _ c hc
      have := digit_ne k hk
      exact ⟨this.1, this.2.2⟩

theorem dec_ne {z : Int} {c : Char} {s : Str} (hc : c = 'U' ∨ c = 'H') : dec z ≠ c :: s := by
  intro h
  have := dec_chars z c (by rw [h]; simp)
  rcases hc with rfl | rfl
  · exact this.2.1 rfl
  · exact this.2.2 rfl

/-! ## What may follow a value -/

/-- What may follow a value: nothing, a comma or a closing bracket. -/
def Ends (r : Str) : Prop := ∀ c, r.head? = some c → special c = true ∧ c ≠ '('

theorem ends_nil : Ends [] := by intro c h; simp at h
theorem ends_comma (r : Str) : Ends (',' :: r) := by intro c h; simp at h; subst h; decide
theorem ends_paren (r : Str) : Ends (')' :: r) := by intro c h; simp at h; subst h; decide
theorem ends_bracket (r : Str) : Ends (']' :: r) := by intro c h; simp at h; subst h; decide
theorem ends_brace (r : Str) : Ends ('}' :: r) := by intro c h; simp at h; subst h; decide

/-- Texts without special characters, followed by nothing or a special character. -/
theorem split_special {a b r r' : Str} (ha : ∀ c ∈ a, special c = false) (hb : ∀ c ∈ b, special c = false)
    (hr : ∀ c, r.head? = some c → special c = true) (hr' : ∀ c, r'.head? = some c → special c = true)
    (h : a ++ r = b ++ r') : a = b ∧ r = r' := by
  induction a generalizing b with
  | nil =>
    cases b with
    | nil => exact ⟨rfl, h⟩
    | cons c b =>
      simp only [List.nil_append, List.cons_append] at h
      subst h
      have := hr c rfl
      rw [hb c (by simp)] at this
      cases this
  | cons c a ih =>
    cases b with
    | nil =>
      simp only [List.nil_append, List.cons_append] at h
      subst h
      have := hr' c rfl
      rw [ha c (by simp)] at this
      cases this
    | cons d b =>
      simp only [List.cons_append, List.cons.injEq] at h
      obtain ⟨h1, h2⟩ := ih (fun c hc => ha c (by simp [hc])) (fun c hc => hb c (by simp [hc])) h.2
      exact ⟨by rw [h.1, h1], h2⟩

theorem split_ends {a b r r' : Str} (ha : ∀ c ∈ a, special c = false) (hb : ∀ c ∈ b, special c = false)
    (hr : Ends r) (hr' : Ends r') (h : a ++ r = b ++ r') : a = b ∧ r = r' :=
  split_special ha hb (fun c hc => (hr c hc).1) (fun c hc => (hr' c hc).1) h

theorem ends_tail {ps : List Shown} {r : Str} (hr : Ends r) :
    Ends ((if ps.isEmpty then [] else [',']) ++ texts ps ++ r) := by
  cases ps with
  | nil => simpa [texts] using hr
  | cons p ps => simp only [List.isEmpty_cons, Bool.false_eq_true, ↓reduceIte, List.cons_append,
      List.nil_append, List.append_assoc]; exact ends_comma _

theorem ends_fields {ns : List Str} {ps : List Shown} {r : Str} (hr : Ends r) :
    Ends ((if ps.isEmpty then [] else [',']) ++ fieldTexts ns ps ++ r) := by
  cases ps with
  | nil => cases ns <;> simpa [fieldTexts] using hr
  | cons p ps => simp only [List.isEmpty_cons, Bool.false_eq_true, ↓reduceIte, List.cons_append,
      List.nil_append, List.append_assoc]; exact ends_comma _

/-- The text of the value can be told from what follows it, and determines the value. -/
def Determines (t : Ty) : Prop := ∀ (p p' : Shown) (l l' : List Level) (r r' : Str), Reads t p l →
  Reads t p' l' → Ends r → Ends r' → text (t.seen p) ++ r = text (t.seen p') ++ r' → p = p' ∧ r = r'

theorem texts_each {t : Ty} (ht : Determines t) : ∀ {ls ls' : List (List Level)} {ps ps' : List Shown}
    {r r' : Str}, Each (fun l p => Reads t p l) ls ps → Each (fun l p => Reads t p l) ls' ps' →
    ls.length = ls'.length → Ends r → Ends r' →
    texts (ps.map t.seen) ++ r = texts (ps'.map t.seen) ++ r' → ps = ps' ∧ r = r' := by
  intro ls ls' ps ps' r r' h h' hlen hr hr' e
  induction h generalizing ls' ps' with
  | nil =>
    cases h' with
    | nil => exact ⟨rfl, by simpa [texts] using e⟩
    | cons _ _ => simp at hlen
  | @cons l p ls ps h1 h2 ih =>
    cases h' with
    | nil => simp at hlen
    | @cons l' p' ls' ps' h1' h2' =>
      simp only [List.map_cons, texts, List.append_assoc] at e
      have hl : ls.length = ls'.length := by simpa using hlen
      have hem : ps.isEmpty = ps'.isEmpty := by
        have hp : ps.length = ps'.length := by rw [← h2.length, ← h2'.length, hl]
        cases ps <;> cases ps' <;> simp at hp ⊢
      obtain ⟨e1, e2⟩ := ht p p' l l' _ _ h1 h1'
        (by rw [← List.append_assoc]; exact ends_tail hr) (by rw [← List.append_assoc]; exact ends_tail hr') e
      have e3 : texts (ps.map t.seen) ++ r = texts (ps'.map t.seen) ++ r' := by
        have hm : (ps.map t.seen).isEmpty = (ps'.map t.seen).isEmpty := by simpa using hem
        rw [hm] at e2
        exact List.append_cancel_left e2
      obtain ⟨e4, e5⟩ := ih h2' hl e3
      exact ⟨by rw [e1, e4], e5⟩

theorem allsLegible_get : ∀ {opts : List (List Ty)} {i : Nat} {ts : List Ty}, AllsLegible opts →
    opts[i]? = some ts → AllLegible ts
  | o :: os, 0, ts, h, e => by simp at e; subst e; exact h.1
  | o :: os, i + 1, ts, h, e => by simp at e; exact allsLegible_get (opts := os) h.2 e

/-- Without wires there is only one value. -/
theorem determines_zero {t : Ty} (hz : t.size = 0) : Determines t := by
  intro p p' l l' r r' h h' _ _ e
  have hl : l = [] := List.eq_nil_of_length_eq_zero (by rw [h.length, hz])
  have hl' : l' = [] := List.eq_nil_of_length_eq_zero (by rw [h'.length, hz])
  subst hl hl'
  rw [seen_zero h hz, seen_zero h' hz] at e
  exact ⟨reads_unique t [] p p' h h', e⟩

theorem seens_empty : ∀ {ts ps ls}, ReadsAll ts ps ls → (seens ts ps).isEmpty = ts.isEmpty
  | _, _, _, .nil => rfl
  | _, _, _, .cons _ _ => rfl

/-- Texts of values that are not defined numbers. -/
inductive Leaf : Shown → Prop
  | num {z} : Leaf (.num z)
  | undef : Leaf .undef
  | highz : Leaf .highz

theorem Leaf.chars {p : Shown} (h : Leaf p) : ∀ c ∈ text p, special c = false := by
  cases h with
  | num => intro c hc; exact (dec_chars _ c hc).1
  | undef => rw [text]; decide
  | highz => rw [text]; decide

theorem Leaf.inj {p p' : Shown} (h : Leaf p) (h' : Leaf p') (e : text p = text p') : p = p' := by
  cases h <;> cases h' <;> simp only [text] at e
  · rw [dec_inj e]
  · exact absurd e (dec_ne (.inl rfl))
  · exact absurd e (dec_ne (.inr rfl))
  · exact absurd e.symm (dec_ne (.inl rfl))
  · rfl
  · exact absurd e (by decide)
  · exact absurd e.symm (dec_ne (.inr rfl))
  · exact absurd e (by decide)
  · rfl

theorem Bad.leaf {l : List Level} {p : Shown} (h : Bad l p) : Leaf p := by cases h <;> constructor

theorem leaf_determines {t : Ty} (h : ∀ p l, Reads t p l → Leaf p ∧ t.seen p = p) : Determines t := by
  intro p p' l l' r r' h1 h2 hr hr' e
  obtain ⟨k1, e1⟩ := h p l h1
  obtain ⟨k2, e2⟩ := h p' l' h2
  rw [e1, e2] at e
  obtain ⟨a, b⟩ := split_ends k1.chars k2.chars hr hr' e
  exact ⟨k1.inj k2 a, b⟩

/-- The text of the part of a variant before the payload. -/
theorem enum_text {ns : List Str} {opts : List (List Ty)} {p : Shown} {l : List Level}
    (hz : (Ty.enum ns opts).size ≠ 0) (hn : ∀ n ∈ ns, ∀ c ∈ n, special c = false)
    (h : Reads (.enum ns opts) p l) (r : Str) (hr : Ends r) :
    (∃ i name ts ps ls, p = .variant i name ps ∧ opts[i]? = some ts ∧ ns[i]? = some name ∧
      ReadsAll ts ps ls ∧
      text ((Ty.enum ns opts).seen p) ++ r = name ++ '(' :: (texts (seens ts ps) ++ ')' :: r) ∧
      (∀ c ∈ name, special c = false)) ∨
    ((p = .badTag ∨ p = .undef ∨ p = .highz) ∧ text ((Ty.enum ns opts).seen p) = text p ∧
      ∀ c ∈ text p, special c = false) := by
  rcases enum_tag h with ⟨i, name, ts, ps, ls, pad, rfl, ho, hname, hr, hl, hv⟩ |
        ⟨i, rfl, hi, hv⟩ | ⟨rfl, hv⟩ | ⟨rfl, hv⟩
  · left
    refine ⟨i, name, ts, ps, ls, rfl, ho, hname, hr, ?_, hn name (List.mem_of_getElem? hname)⟩
    simp [Ty.seen, hz, text, optSeens_get ps ho]
  · right
    refine ⟨.inl rfl, by simp [Ty.seen, hz], by rw [text]; decide⟩
  · right
    refine ⟨.inr (.inl rfl), by simp [Ty.seen, hz], by rw [text]; decide⟩
  · right
    refine ⟨.inr (.inr rfl), by simp [Ty.seen, hz], by rw [text]; decide⟩

mutual
theorem determines : ∀ (t : Ty), t.Legible → Determines t
  | t, hleg => by
    by_cases hz : t.size = 0
    · exact determines_zero hz
    match t, hleg with
    | .error, _ =>
      intro p p' l l' r r' h h' _ _ e
      cases h; cases h'
      exact ⟨rfl, by simpa [Ty.seen, text] using e⟩
    | .int n, _ =>
      refine leaf_determines ?_
      intro p l h
      cases h with
      | int _ => exact ⟨.num, by simp [Ty.seen, hz]⟩
      | intBad _ hb => exact ⟨hb.leaf, by simp [Ty.seen, hz]⟩
    | .uint n, _ =>
      refine leaf_determines ?_
      intro p l h
      cases h with
      | uint _ => exact ⟨.num, by simp [Ty.seen, hz]⟩
      | uintBad _ hb => exact ⟨hb.leaf, by simp [Ty.seen, hz]⟩
    | .bool, _ =>
      intro p p' l l' r r' h h' hr hr' e
      have key : ∀ p l, Reads .bool p l → (p = .bool true ∨ p = .bool false ∨ p = .undef ∨ p = .highz) ∧
          Ty.bool.seen p = p := by
        intro p l h
        refine ⟨?_, by simp [Ty.seen, hz]⟩
        cases h with
        | @bool b => cases b <;> simp
        | boolBad _ hb => cases hb <;> simp
      obtain ⟨k, e1⟩ := key p l h
      obtain ⟨k', e2⟩ := key p' l' h'
      rw [e1, e2] at e
      have chars : ∀ p, (p = Shown.bool true ∨ p = .bool false ∨ p = .undef ∨ p = .highz) →
          ∀ c ∈ text p, special c = false := by
        rintro p (rfl | rfl | rfl | rfl) <;> rw [text] <;> decide
      obtain ⟨a, b⟩ := split_ends (chars p k) (chars p' k') hr hr' e
      refine ⟨?_, b⟩
      rcases k with rfl | rfl | rfl | rfl <;> rcases k' with rfl | rfl | rfl | rfl <;>
        simp only [text] at a <;> first | rfl | exact absurd a (by decide)
    | .memory t n, _ =>
      intro p p' l l' r r' h h' _ _ e
      cases h; cases h'
      exact ⟨rfl, List.append_cancel_left e⟩
    | .backward t, _ => exact absurd rfl hz
    | .inout t, hl =>
      intro p p' l l' r r' h h' hr hr' e
      cases h with
      | inout h => cases h' with
        | inout h' => exact determines t hl p p' l l' r r' h h' hr hr' (by simpa [Ty.seen] using e)
    | .copyView t, hl =>
      intro p p' l l' r r' h h' hr hr' e
      cases h with
      | copyView h => cases h' with
        | copyView h' => exact determines t hl p p' l l' r r' h h' hr hr' (by simpa [Ty.seen] using e)
    | .tuple ts, hl =>
      intro p p' l l' r r' h h' hr hr' e
      cases h with
      | tuple h => cases h' with
        | tuple h' =>
          simp only [Ty.seen, hz, ↓reduceIte, text, List.cons_append, List.cons.injEq, true_and,
            List.append_assoc, List.nil_append] at e
          obtain ⟨e1, e2⟩ := determines_all ts hl _ _ _ _ _ _ h h' (ends_paren r) (ends_paren r') e
          rw [List.cons.injEq] at e2
          exact ⟨by rw [e1], e2.2⟩
    | .struct ns ts, hl =>
      intro p p' l l' r r' h h' hr hr' e
      cases h with
      | struct h => cases h' with
        | struct h' =>
          simp only [Ty.seen, hz, ↓reduceIte, text, List.cons_append, List.cons.injEq, true_and,
            List.append_assoc, List.nil_append] at e
          obtain ⟨e1, e2⟩ := determines_fields ns ts hl.1 hl.2 _ _ _ _ _ _ h h' (ends_brace r)
            (ends_brace r') e
          rw [List.cons.injEq] at e2
          exact ⟨by rw [e1], e2.2⟩
    | .array t n, hl =>
      intro p p' l l' r r' h h' hr hr' e
      cases h with
      | array h => cases h' with
        | array h' =>
          simp only [Ty.seen, hz, ↓reduceIte, text, List.cons_append, List.cons.injEq, true_and,
            List.append_assoc, List.nil_append, ← List.map_reverse] at e
          obtain ⟨n1, k1⟩ := h.each
          obtain ⟨n2, k2⟩ := h'.each
          obtain ⟨e1, e2⟩ := texts_each (determines t hl) k1.reverse k2.reverse (by simp [← n1, ← n2])
            (ends_bracket r) (ends_bracket r') e
          rw [List.cons.injEq] at e2
          exact ⟨by rw [List.reverse_inj.mp e1], e2.2⟩
    | .enum ns opts, hl =>
      intro p p' l l' r r' h h' hr hr' e
      rcases enum_text hz hl.2.1 h r hr with ⟨i, name, ts, ps, ls, rfl, ho, hname, hra, ht, hc⟩ | ⟨hp, ht, hc⟩ <;>
        rcases enum_text hz hl.2.1 h' r' hr' with
          ⟨i', name', ts', ps', ls', rfl, ho', hname', hra', ht', hc'⟩ | ⟨hp', ht', hc'⟩
      · rw [ht, ht'] at e
        obtain ⟨e1, e2⟩ := split_special hc hc' (by intro c h; simp at h; subst h; decide)
          (by intro c h; simp at h; subst h; decide) e
        have hi : i = i' := by
          obtain ⟨b1, g1⟩ := List.getElem?_eq_some_iff.mp hname
          exact (List.getElem?_inj b1 hl.1).mp (by rw [hname, hname', e1])
        subst hi
        rw [ho] at ho'
        cases ho'
        simp only [List.cons.injEq, true_and] at e2
        obtain ⟨e3, e4⟩ := determines_opts opts i ts hl.2.2 ho _ _ _ _ _ _ hra hra' (ends_paren r)
          (ends_paren r') e2
        rw [List.cons.injEq] at e4
        exact ⟨by rw [e1, e3], e4.2⟩
      · rw [ht, ht'] at e
        obtain ⟨e1, e2⟩ := split_special hc hc' (by intro c h; simp at h; subst h; decide)
          (fun c h => (hr' c h).1) e
        exact absurd rfl ((hr' '(' (by rw [← e2]; rfl)).2)
      · rw [ht, ht'] at e
        obtain ⟨e1, e2⟩ := split_special hc hc' (fun c h => (hr c h).1)
          (by intro c h; simp at h; subst h; decide) e
        exact absurd rfl ((hr '(' (by rw [e2]; rfl)).2)
      · rw [ht, ht'] at e
        obtain ⟨e1, e2⟩ := split_ends hc hc' hr hr' e
        refine ⟨?_, e2⟩
        rcases hp with rfl | rfl | rfl <;> rcases hp' with rfl | rfl | rfl <;>
          simp only [text] at e1 <;> first | rfl | exact absurd e1 (by decide)
theorem determines_all : ∀ (ts : List Ty), AllLegible ts → ∀ (ps ps' : List Shown)
    (ls ls' : List (List Level)) (r r' : Str), ReadsAll ts ps ls → ReadsAll ts ps' ls' → Ends r → Ends r' →
    texts (seens ts ps) ++ r = texts (seens ts ps') ++ r' → ps = ps' ∧ r = r'
  | [], _, _, _, _, _, r, r', .nil, .nil, hr, hr', e => ⟨rfl, by simpa [seens, texts] using e⟩
  | t :: ts, hl, _, _, _, _, r, r', .cons (p := p) h1 h2, .cons (p := p') h1' h2', hr, hr', e => by
    simp only [seens, texts, List.append_assoc] at e
    obtain ⟨e1, e2⟩ := determines t hl.1 _ _ _ _ _ _ h1 h1'
      (by rw [← List.append_assoc]; exact ends_tail hr) (by rw [← List.append_assoc]; exact ends_tail hr') e
    rw [seens_empty h2, seens_empty h2'] at e2
    obtain ⟨e3, e4⟩ := determines_all ts hl.2 _ _ _ _ _ _ h2 h2' hr hr' (List.append_cancel_left e2)
    exact ⟨by rw [e1, e3], e4⟩
theorem determines_fields : ∀ (ns : List Str) (ts : List Ty), ns.length = ts.length → AllLegible ts →
    ∀ (ps ps' : List Shown) (ls ls' : List (List Level)) (r r' : Str), ReadsAll ts ps ls →
    ReadsAll ts ps' ls' → Ends r → Ends r' →
    fieldTexts ns (seens ts ps) ++ r = fieldTexts ns (seens ts ps') ++ r' → ps = ps' ∧ r = r'
  | ns, [], _, _, _, _, _, _, r, r', .nil, .nil, hr, hr', e => ⟨rfl, List.append_cancel_left e⟩
  | [], t :: ts, hn, _, _, _, _, _, _, _, _, _, _, _, _ => by simp at hn
  | n :: ns, t :: ts, hn, hl, _, _, _, _, r, r', .cons (p := p) h1 h2, .cons (p := p') h1' h2', hr, hr', e => by
    simp only [seens, fieldTexts, List.append_assoc, List.cons_append] at e
    have e0 := List.append_cancel_left e
    rw [List.cons.injEq] at e0
    obtain ⟨e1, e2⟩ := determines t hl.1 _ _ _ _ _ _ h1 h1'
      (by rw [← List.append_assoc]; exact ends_fields hr)
      (by rw [← List.append_assoc]; exact ends_fields hr') e0.2
    rw [seens_empty h2, seens_empty h2'] at e2
    obtain ⟨e3, e4⟩ := determines_fields ns ts (by simpa using hn) hl.2 _ _ _ _ _ _ h2 h2' hr hr'
      (List.append_cancel_left e2)
    exact ⟨by rw [e1, e3], e4⟩
theorem determines_opts : ∀ (opts : List (List Ty)) (i : Nat) (ts : List Ty), AllsLegible opts →
    opts[i]? = some ts → ∀ (ps ps' : List Shown)
    (ls ls' : List (List Level)) (r r' : Str), ReadsAll ts ps ls → ReadsAll ts ps' ls' → Ends r → Ends r' →
    texts (seens ts ps) ++ r = texts (seens ts ps') ++ r' → ps = ps' ∧ r = r'
  | [], i, ts, _, h, _, _, _, _, _, _, _, _, _, _, _ => by simp at h
  | o :: os, 0, ts, hl, h, _, _, _, _, _, _, h1, h2, hr, hr', e => by
    simp only [List.getElem?_cons_zero, Option.some.injEq] at h
    subst h
    exact determines_all o hl.1 _ _ _ _ _ _ h1 h2 hr hr' e
  | o :: os, i + 1, ts, hl, h, _, _, _, _, _, _, h1, h2, hr, hr', e => by
    simp only [List.getElem?_cons_succ] at h
    exact determines_opts os i ts hl.2 h _ _ _ _ _ _ h1 h2 hr hr' e
end

end Spade.Vcd

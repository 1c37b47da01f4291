import Verif.Vcd.Props
/-! C34: any levels carry exactly one value. -/
namespace Spade.Vcd

open Spade.Codegen Spade.Verilog

theorem level_cases (l : List Level) : (∃ bs, l = lift bs) ∨ ∃ p, Bad l p := by
  by_cases hx : Level.x ∈ l
  · exact .inr ⟨_, .x hx⟩
  by_cases hz : Level.z ∈ l
  · exact .inr ⟨_, .z hx hz⟩
  left
  induction l with
  | nil => exact ⟨[], rfl⟩
  | cons v l ih =>
    simp only [List.mem_cons, not_or] at hx hz
    obtain ⟨bs, rfl⟩ := ih hx.2 hz.2
    cases v with
    | v0 => exact ⟨false :: bs, rfl⟩
    | v1 => exact ⟨true :: bs, rfl⟩
    | x => exact absurd rfl hx.1
    | z => exact absurd rfl hz.1

theorem tag_cases (l : List Level) : (∃ bs, l = lift bs) ∨ (∃ bs post, l = lift bs ++ .x :: post) ∨
    (∃ bs post, l = lift bs ++ .z :: post) := by
  induction l with
  | nil => exact .inl ⟨[], rfl⟩
  | cons v l ih =>
    cases v with
    | x => exact .inr (.inl ⟨[], l, rfl⟩)
    | z => exact .inr (.inr ⟨[], l, rfl⟩)
    | v0 =>
      rcases ih with ⟨bs, rfl⟩ | ⟨bs, post, rfl⟩ | ⟨bs, post, rfl⟩
      · exact .inl ⟨false :: bs, rfl⟩
      · exact .inr (.inl ⟨false :: bs, post, rfl⟩)
      · exact .inr (.inr ⟨false :: bs, post, rfl⟩)
    | v1 =>
      rcases ih with ⟨bs, rfl⟩ | ⟨bs, post, rfl⟩ | ⟨bs, post, rfl⟩
      · exact .inl ⟨true :: bs, rfl⟩
      · exact .inr (.inl ⟨true :: bs, post, rfl⟩)
      · exact .inr (.inr ⟨true :: bs, post, rfl⟩)

theorem sizes_le_max : ∀ {opts : List (List Ty)} {i : Nat} {ts : List Ty}, opts[i]? = some ts →
    (ts.map Ty.size).sum ≤ maxSize (toMirss opts)
  | [], i, ts, h => by simp at h
  | o :: os, 0, ts, h => by
    simp at h; subst h; simp only [toMirss, maxSize, toMirs_sizes]; omega
  | o :: os, i + 1, ts, h => by
    simp at h
    have := sizes_le_max (opts := os) h
    simp only [toMirss, maxSize]; omega

theorem allsNamed_get : ∀ {opts : List (List Ty)} {i : Nat} {ts : List Ty}, AllsNamed opts →
    opts[i]? = some ts → AllNamed ts
  | o :: os, 0, ts, h, e => by simp at e; subst e; exact h.1
  | o :: os, i + 1, ts, h, e => by simp at e; exact allsNamed_get (opts := os) h.2 e

theorem Ty.size_enum (ns : List Str) (opts : List (List Ty)) :
    (Ty.enum ns opts).size = tagSize opts.length + maxSize (toMirss opts) := by
  simp [Ty.size, Ty.toMir, MTy.size, toMirss_length]

theorem readsArray_total {t : Ty} (ht : ∀ l : List Level, l.length = t.size → ∃ p, Reads t p l) :
    ∀ (n : Nat) (l : List Level), l.length = t.size * n →
    ∃ ps ls, ReadsAll (List.replicate n t) ps ls ∧ ls.reverse.flatten = l
  | 0, l, h => ⟨[], [], .nil, by simp at h; simp [h]⟩
  | n + 1, l, h => by
    rw [Nat.mul_succ] at h
    obtain ⟨ps, ls, h1, h2⟩ := readsArray_total ht n (l.take (t.size * n)) (by simp; omega)
    obtain ⟨p, hp⟩ := ht (l.drop (t.size * n)) (by simp; omega)
    refine ⟨p :: ps, _ :: ls, .cons hp h1, ?_⟩
    simp [h2]

mutual
theorem reads_total : ∀ (t : Ty) (l : List Level), t.Named → l.length = t.size → ∃ p, Reads t p l
  | .error, l, _, hl => by
    match l, hl with
    | [v], _ => exact ⟨_, .error⟩
  | .int n, l, _, hl => by
    have hl : l.length = n := hl
    rcases level_cases l with ⟨bs, rfl⟩ | ⟨p, hp⟩
    · exact ⟨_, .int (by simpa using hl)⟩
    · exact ⟨p, .intBad hl hp⟩
  | .uint n, l, _, hl => by
    have hl : l.length = n := hl
    rcases level_cases l with ⟨bs, rfl⟩ | ⟨p, hp⟩
    · exact ⟨_, .uint (by simpa using hl)⟩
    · exact ⟨p, .uintBad hl hp⟩
  | .bool, l, _, hl => by
    have hl : l.length = 1 := hl
    rcases level_cases l with ⟨bs, rfl⟩ | ⟨p, hp⟩
    · match bs, hl with
      | [b], _ => exact ⟨_, .bool⟩
    · exact ⟨p, .boolBad hl hp⟩
  | .memory t n, l, _, hl => ⟨_, .memory hl⟩
  | .inout t, l, hn, hl => by
    obtain ⟨p, hp⟩ := reads_total t l hn hl
    exact ⟨p, .inout hp⟩
  | .copyView t, l, hn, hl => by
    obtain ⟨p, hp⟩ := reads_total t l hn hl
    exact ⟨p, .copyView hp⟩
  | .backward t, l, _, hl => by
    have : l = [] := List.eq_nil_of_length_eq_zero hl
    subst this
    exact ⟨_, .backward⟩
  | .tuple ts, l, hn, hl => by
    rw [Ty.size_tuple] at hl
    obtain ⟨ps, ls, h, rfl⟩ := readsAll_total ts l hn hl
    exact ⟨_, .tuple h⟩
  | .struct ns ts, l, hn, hl => by
    rw [Ty.size_struct] at hl
    obtain ⟨ps, ls, h, rfl⟩ := readsAll_total ts l hn.2 hl
    exact ⟨_, .struct h⟩
  | .array t n, l, hn, hl => by
    rw [Ty.size_array] at hl
    obtain ⟨ps, ls, h, rfl⟩ := readsArray_total (fun l hl => reads_total t l hn hl) n l hl
    exact ⟨_, .array h⟩
  | .enum ns opts, l, hn, hl => by
    have hs := Ty.size_enum ns opts
    obtain ⟨tag, rest, rfl, htag⟩ : ∃ tag rest, l = tag ++ rest ∧ tag.length = tagSize opts.length :=
      ⟨l.take (tagSize opts.length), l.drop (tagSize opts.length), by simp, by simp; omega⟩
    simp only [List.length_append] at hl
    rcases tag_cases tag with ⟨bs, rfl⟩ | ⟨bs, post, rfl⟩ | ⟨bs, post, rfl⟩
    · simp only [lift_length] at htag hl
      by_cases hi : toNat bs < opts.length
      · have ho : opts[toNat bs]? = some opts[toNat bs] := List.getElem?_eq_getElem hi
        have hname : ns[toNat bs]? = some (ns[toNat bs]'(by rw [hn.1]; exact hi)) :=
          List.getElem?_eq_getElem _
        have hle := sizes_le_max ho
        obtain ⟨ps, ls, h, hfl⟩ := options_total opts (toNat bs) opts[toNat bs]
          (rest.take ((opts[toNat bs].map Ty.size).sum)) hn.2 ho (by simp; omega)
        have e : lift bs ++ rest = lift (ofNat (tagSize opts.length) (toNat bs)) ++ ls.flatten ++
            rest.drop ((opts[toNat bs].map Ty.size).sum) := by
          rw [hfl, ← htag, ofNat_toNat, List.append_assoc, List.take_append_drop]
        rw [e]
        exact ⟨_, .variant ho hname h (by rw [hfl]; simp; omega)⟩
      · exact ⟨_, .noVariant htag (by omega) hl⟩
    · exact ⟨_, .undefTag (by simpa [Nat.add_assoc, Nat.add_comm, Nat.add_left_comm] using htag)
        (by simpa [Nat.add_assoc, Nat.add_comm, Nat.add_left_comm] using hl)⟩
    · exact ⟨_, .highzTag (by simpa [Nat.add_assoc, Nat.add_comm, Nat.add_left_comm] using htag)
        (by simpa [Nat.add_assoc, Nat.add_comm, Nat.add_left_comm] using hl)⟩
theorem readsAll_total : ∀ (ts : List Ty) (l : List Level), AllNamed ts →
    l.length = (ts.map Ty.size).sum → ∃ ps ls, ReadsAll ts ps ls ∧ ls.flatten = l
  | [], l, _, hl => ⟨[], [], .nil, by simp at hl; simp [hl]⟩
  | t :: ts, l, hn, hl => by
    simp only [List.map_cons, List.sum_cons] at hl
    obtain ⟨p, hp⟩ := reads_total t (l.take t.size) hn.1 (by simp; omega)
    obtain ⟨ps, ls, h, hfl⟩ := readsAll_total ts (l.drop t.size) hn.2 (by simp; omega)
    exact ⟨p :: ps, _ :: ls, .cons hp h, by simp [hfl]⟩
theorem options_total : ∀ (opts : List (List Ty)) (i : Nat) (ts : List Ty) (l : List Level), AllsNamed opts →
    opts[i]? = some ts → l.length = (ts.map Ty.size).sum → ∃ ps ls, ReadsAll ts ps ls ∧ ls.flatten = l
  | [], i, ts, l, _, h, _ => by simp at h
  | o :: os, 0, ts, l, hn, h, hl => by
    simp only [List.getElem?_cons_zero, Option.some.injEq] at h
    subst h
    exact readsAll_total o l hn.1 hl
  | o :: os, i + 1, ts, l, hn, h, hl => by
    simp only [List.getElem?_cons_succ] at h
    exact options_total os i ts l hn.2 h hl
end

/-! ## Only one value -/

theorem lift_inj : ∀ {a b : Bits}, lift a = lift b → a = b
  | [], [], _ => rfl
  | [], b :: bs, h => by simp at h
  | a :: as, [], h => by simp at h
  | a :: as, b :: bs, h => by
    simp only [lift_cons, List.cons.injEq] at h
    rw [lift_inj h.2]
    have := h.1
    cases a <;> cases b <;> simp_all

theorem bad_lift {bs : Bits} {p : Shown} (h : Bad (lift bs) p) : False := by
  cases h with
  | x h => exact x_notin_lift bs h
  | z _ h => exact z_notin_lift bs h

theorem bad_unique {l : List Level} {p p' : Shown} (h : Bad l p) (h' : Bad l p') : p = p' := by
  cases h <;> cases h' <;> first | rfl | contradiction

theorem readsArray_unique {t : Ty} (ht : ∀ l p p', Reads t p l → Reads t p' l → p = p') :
    ∀ (n : Nat) (ps ps' : List Shown) (ls ls' : List (List Level)),
    ReadsAll (List.replicate n t) ps ls → ReadsAll (List.replicate n t) ps' ls' →
    ls.reverse.flatten = ls'.reverse.flatten → ps = ps'
  | 0, _, _, _, _, .nil, .nil, _ => rfl
  | n + 1, ps, ps', ls, ls', h, h', e => by
    rw [List.replicate_succ] at h h'
    cases h with
    | cons h1 h2 =>
    cases h' with
    | cons h1' h2' =>
      simp only [List.reverse_cons, List.flatten_append, List.flatten_cons, List.flatten_nil,
        List.append_nil] at e
      obtain ⟨e1, e2⟩ := List.append_inj e (by
        rw [length_reverse_flatten, length_reverse_flatten, h2.length, h2'.length])
      subst e2
      rw [ht _ _ _ h1 h1', readsArray_unique ht n _ _ _ _ h2 h2' e1]

/-- What the levels of the tag say. -/
theorem enum_tag {ns : List Str} {opts : List (List Ty)} {p : Shown} {l : List Level}
    (h : Reads (.enum ns opts) p l) :
    (∃ i name ts ps ls pad, p = .variant i name ps ∧ opts[i]? = some ts ∧ ns[i]? = some name ∧
      ReadsAll ts ps ls ∧ l = lift (ofNat (tagSize opts.length) i) ++ ls.flatten ++ pad ∧
      translateUint (l.take (tagSize opts.length)) false = .value i) ∨
    (∃ i, p = .badTag ∧ opts.length ≤ i ∧ translateUint (l.take (tagSize opts.length)) false = .value i) ∨
    (p = .undef ∧ translateUint (l.take (tagSize opts.length)) false = .undef) ∨
    (p = .highz ∧ translateUint (l.take (tagSize opts.length)) false = .highz) := by
  cases h with
  | @variant _ _ i name ts ps ls pad ho hname hr hp =>
    refine .inl ⟨i, name, ts, ps, ls, pad, rfl, ho, hname, hr, rfl, ?_⟩
    have hi : i < opts.length := (List.getElem?_eq_some_iff.mp ho).1
    rw [List.append_assoc, List.take_append_of_le_length (by simp [ofNat_length]),
      List.take_of_length_le (by simp [ofNat_length]), translateUint_lift, map_bne_false, toNat_ofNat,
      Nat.mod_eq_of_lt (variant_lt_tag hi)]
  | @noVariant _ _ tag rest ht hge hp =>
    refine .inr (.inl ⟨toNat tag, rfl, hge, ?_⟩)
    rw [List.take_append_of_le_length (by simp [ht]), List.take_of_length_le (by simp [ht]),
      translateUint_lift, map_bne_false]
  | @undefTag _ _ tag post rest ht hp =>
    refine .inr (.inr (.inl ⟨rfl, ?_⟩))
    rw [List.take_append_of_le_length (by simp; omega), List.take_of_length_le (by simp; omega),
      translateUint_x]
  | @highzTag _ _ tag post rest ht hp =>
    refine .inr (.inr (.inr ⟨rfl, ?_⟩))
    rw [List.take_append_of_le_length (by simp; omega), List.take_of_length_le (by simp; omega),
      translateUint_z]

mutual
theorem reads_unique : ∀ (t : Ty) (l : List Level) (p p' : Shown), Reads t p l → Reads t p' l → p = p'
  | .error, l, p, p', h, h' => by cases h; cases h'; rfl
  | .int n, l, p, p', h, h' => by
    cases h with
    | int h1 =>
      generalize hl : lift _ = l at h'
      cases h' with
      | int h2 => rw [lift_inj hl]
      | intBad _ h2 => subst hl; exact (bad_lift h2).elim
    | intBad h1 h2 =>
      cases h' with
      | int h3 => exact (bad_lift h2).elim
      | intBad _ h3 => exact bad_unique h2 h3
  | .uint n, l, p, p', h, h' => by
    cases h with
    | uint h1 =>
      generalize hl : lift _ = l at h'
      cases h' with
      | uint h2 => rw [lift_inj hl]
      | uintBad _ h2 => subst hl; exact (bad_lift h2).elim
    | uintBad h1 h2 =>
      cases h' with
      | uint h3 => exact (bad_lift h2).elim
      | uintBad _ h3 => exact bad_unique h2 h3
  | .bool, l, p, p', h, h' => by
    cases h with
    | bool =>
      generalize hl : lift _ = l at h'
      cases h' with
      | bool => have := lift_inj hl; simp at this; rw [this]
      | boolBad _ h2 => subst hl; exact (bad_lift h2).elim
    | boolBad h1 h2 =>
      cases h' with
      | bool => exact (bad_lift h2).elim
      | boolBad _ h3 => exact bad_unique h2 h3
  | .memory t n, l, p, p', h, h' => by cases h; cases h'; rfl
  | .backward t, l, p, p', h, h' => by cases h; cases h'; rfl
  | .inout t, l, p, p', h, h' => by
    cases h with
    | inout h => cases h' with
      | inout h' => exact reads_unique t l p p' h h'
  | .copyView t, l, p, p', h, h' => by
    cases h with
    | copyView h => cases h' with
      | copyView h' => exact reads_unique t l p p' h h'
  | .tuple ts, l, p, p', h, h' => by
    cases h with
    | tuple h =>
      generalize hl : List.flatten _ = l at h'
      cases h' with
      | tuple h' => rw [readsAll_unique ts _ _ _ _ h h' hl]
  | .struct ns ts, l, p, p', h, h' => by
    cases h with
    | struct h =>
      generalize hl : List.flatten _ = l at h'
      cases h' with
      | struct h' => rw [readsAll_unique ts _ _ _ _ h h' hl]
  | .array t n, l, p, p', h, h' => by
    cases h with
    | array h =>
      generalize hl : List.flatten _ = l at h'
      cases h' with
      | array h' => rw [readsArray_unique (fun l p p' => reads_unique t l p p') n _ _ _ _ h h' hl]
  | .enum ns opts, l, p, p', h, h' => by
    rcases enum_tag h with ⟨i, name, ts, ps, ls, pad, rfl, ho, hname, hr, hl, hv⟩ |
        ⟨i, rfl, hi, hv⟩ | ⟨rfl, hv⟩ | ⟨rfl, hv⟩ <;>
      rcases enum_tag h' with ⟨i', name', ts', ps', ls', pad', rfl, ho', hname', hr', hl', hv'⟩ |
        ⟨i', rfl, hi', hv'⟩ | ⟨rfl, hv'⟩ | ⟨rfl, hv'⟩ <;>
      rw [hv] at hv' <;> first | (cases hv'; done) | skip
    · simp only [Maybe.value.injEq] at hv'
      subst hv'
      rw [ho] at ho'
      cases ho'
      rw [hname] at hname'
      cases hname'
      rw [hl, List.append_assoc, List.append_assoc] at hl'
      have e := List.append_cancel_left hl'
      obtain ⟨e1, _⟩ := List.append_inj e (by rw [hr.length, hr'.length])
      rw [options_unique opts i ts _ _ _ _ ho hr hr' e1]
    · simp only [Maybe.value.injEq] at hv'
      have := (List.getElem?_eq_some_iff.mp ho).1
      omega
    · simp only [Maybe.value.injEq] at hv'
      have := (List.getElem?_eq_some_iff.mp ho').1
      omega
theorem readsAll_unique : ∀ (ts : List Ty) (ps ps' : List Shown) (ls ls' : List (List Level)),
    ReadsAll ts ps ls → ReadsAll ts ps' ls' → ls.flatten = ls'.flatten → ps = ps'
  | [], _, _, _, _, .nil, .nil, _ => rfl
  | t :: ts, _, _, _, _, .cons (p := p) (l := l) h1 h2, .cons (p := p') h1' h2', e => by
    simp only [List.flatten_cons] at e
    obtain ⟨e1, e2⟩ := List.append_inj e (by rw [h1.length, h1'.length])
    subst e1
    rw [reads_unique t l p p' h1 h1', readsAll_unique ts _ _ _ _ h2 h2' e2]
theorem options_unique : ∀ (opts : List (List Ty)) (i : Nat) (ts : List Ty) (ps ps' : List Shown)
    (ls ls' : List (List Level)), opts[i]? = some ts → ReadsAll ts ps ls → ReadsAll ts ps' ls' →
    ls.flatten = ls'.flatten → ps = ps'
  | [], i, ts, _, _, _, _, h, _, _, _ => by simp at h
  | o :: os, 0, ts, _, _, _, _, h, h1, h2, e => by
    simp only [List.getElem?_cons_zero, Option.some.injEq] at h
    subst h
    exact readsAll_unique o _ _ _ _ h1 h2 e
  | o :: os, i + 1, ts, _, _, _, _, h, h1, h2, e => by
    simp only [List.getElem?_cons_succ] at h
    exact options_unique os i ts _ _ _ _ h h1 h2 e
end

end Spade.Vcd

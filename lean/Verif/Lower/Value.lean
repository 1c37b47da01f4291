import Verif.Lower.Lemmas
/-!
# The condition of a pattern decides whether the value matches
-/
namespace Spade.Lower
open Spade.Verilog Spade.Codegen
open Spade.Match (Val Matches MatchesAll)

section
variable {Γ : Nat → MTy} {ρ : Env} {xs : Nat → Nat → Bool}

theorem encAll_lengths : ∀ {ts : List MTy} {vs : List Val} {bss : List Bits}, EncAll ts vs bss →
    ∀ i, (bss.take i).flatten.length = sizes (ts.take i)
  | _, _, _, .nil, i => by simp [sizes]
  | _, _, _, .cons h h', 0 => rfl
  | _, _, _, .cons h h', i + 1 => by
    simp only [List.take_succ_cons, List.flatten_cons, List.length_append, sizes, enc_length h,
      encAll_lengths h' i]

theorem encAll_get : ∀ {ts : List MTy} {vs : List Val} {bss : List Bits}, EncAll ts vs bss →
    ∀ (i : Nat) (b : Bits), bss[i]? = some b → ∃ t v, ts[i]? = some t ∧ vs[i]? = some v ∧ Enc t v b
  | _, _, _, .nil, i, b, h => by simp at h
  | _, _, _, .cons h h', 0, b, hb => by
    simp only [List.getElem?_cons_zero, Option.some.injEq] at hb
    subst hb; exact ⟨_, _, rfl, rfl, h⟩
  | _, _, _, .cons h h', i + 1, b, hb => by
    simp only [List.getElem?_cons_succ] at hb ⊢
    exact encAll_get h' i b hb

theorem encAll_len : ∀ {ts : List MTy} {vs : List Val} {bss : List Bits}, EncAll ts vs bss →
    ts.length = bss.length ∧ vs.length = bss.length
  | _, _, _, .nil => ⟨rfl, rfl⟩
  | _, _, _, .cons h h' => by have := encAll_len h'; simp [this.1, this.2]

theorem flatten_split {bss : List Bits} {i : Nat} {b : Bits} (h : bss[i]? = some b) :
    bss.flatten = (bss.take i).flatten ++ b ++ (bss.drop (i + 1)).flatten := by
  have hi : i < bss.length := (List.getElem?_eq_some_iff.1 h).1
  have hb : bss[i] = b := (List.getElem?_eq_some_iff.1 h).2
  conv => lhs; rw [← List.take_append_drop i bss, List.drop_eq_getElem_cons hi, hb]
  simp

theorem flatten_reverse_split {bss : List Bits} {i : Nat} {b : Bits} (h : bss[i]? = some b) :
    bss.reverse.flatten =
      (bss.drop (i + 1)).reverse.flatten ++ b ++ (bss.take i).reverse.flatten := by
  have hi : i < bss.length := (List.getElem?_eq_some_iff.1 h).1
  have hb : bss[i] = b := (List.getElem?_eq_some_iff.1 h).2
  conv => lhs; rw [← List.take_append_drop i bss, List.drop_eq_getElem_cons hi, hb]
  simp

theorem lowerMembers_enc {op : Nat → Op} {self : Nat} : ∀ (ps : List LPat) (vs : List Val)
    (bss : List Bits) (k nid : Nat) (r : List Stmt × Nat), EncAll (ps.map LPat.ty) vs bss →
    (∀ i p b, ps[i]? = some p → bss[i]? = some b →
      ∀ xs, runOp Γ p.ty (op (k + i)) [self] ρ xs = some b) →
    lowerMembers op self k ps nid = some r → (∀ s ∈ r.1, Holds Γ ρ xs s) → Sub Γ ρ xs ps vs
  | [], vs, bss, k, nid, r, he, hop, h, hs => by cases he; exact .nil
  | p :: ps, vs, bss, k, nid, r, he, hop, h, hs => by
    rw [List.map_cons] at he
    cases he with
    | cons he he' =>
    next v b vs bss =>
    simp only [lowerMembers, Option.bind_eq_bind, Option.bind_eq_some_iff, Option.some.injEq] at h
    obtain ⟨r1, h1, r2, h2, rfl⟩ := h
    simp only [List.mem_cons, List.mem_append, List.cons_append, or_imp, forall_and,
      forall_eq] at hs
    obtain ⟨hs1, hs2⟩ := hs.1
    have hb : ρ (fwd p.name) = b := by
      have := hop 0 p b rfl rfl (xs p.name)
      rw [Nat.add_zero, hs2] at this
      exact Option.some.inj this
    refine .cons hs1 (hb ▸ he) h1 hs.2.1 (lowerMembers_enc ps vs bss (k + 1) _ _ he' ?_ h2 hs.2.2)
    intro i p' b' hp hb'
    have := hop (i + 1) p' b' hp hb'
    rwa [show k + (i + 1) = k + 1 + i by omega] at this

theorem lowerElements_enc {it : MTy} {self : Nat} : ∀ (ps : List LPat) (vs : List Val)
    (bss : List Bits) (k nid : Nat) (r : List Stmt × Nat), EncAll (ps.map LPat.ty) vs bss →
    (∀ i p b n, ps[i]? = some p → bss[i]? = some b →
      Holds Γ ρ xs (.const n it (.int ((k + i : Nat) : Int))) →
      ∀ xs, runOp Γ p.ty .indexArray [self, n] ρ xs = some b) →
    lowerElements it self k ps nid = some r → (∀ s ∈ r.1, Holds Γ ρ xs s) → Sub Γ ρ xs ps vs
  | [], vs, bss, k, nid, r, he, hop, h, hs => by cases he; exact .nil
  | p :: ps, vs, bss, k, nid, r, he, hop, h, hs => by
    rw [List.map_cons] at he
    cases he with
    | cons he he' =>
    next v b vs bss =>
    simp only [lowerElements, Option.bind_eq_bind, Option.bind_eq_some_iff, Option.some.injEq] at h
    obtain ⟨r1, h1, r2, h2, rfl⟩ := h
    simp only [List.mem_cons, List.mem_append, List.cons_append, or_imp, forall_and,
      forall_eq] at hs
    obtain ⟨hs1, hs2⟩ := hs.2.1
    have hb : ρ (fwd p.name) = b := by
      have := hop 0 p b nid rfl rfl hs.1 (xs p.name)
      rw [hs2] at this
      exact Option.some.inj this
    refine .cons hs1 (hb ▸ he) h1 hs.2.2.1
      (lowerElements_enc ps vs bss (k + 1) _ _ he' ?_ h2 hs.2.2.2)
    intro i p' b' n hp hb' hn
    exact hop (i + 1) p' b' n hp hb' (by rwa [show k + (i + 1) = k + 1 + i by omega])

theorem size_le_sizes : ∀ {ts : List MTy} {t : MTy}, t ∈ ts → t.size ≤ sizes ts
  | t :: ts, t', h => by
    simp only [List.mem_cons] at h
    simp only [sizes]
    rcases h with rfl | h
    · omega
    · have := size_le_sizes h; omega

/-- The statements of a tuple or struct pattern bind the members. -/
theorem tuple_sub {self : Nat} {ps : List LPat} {vs : List Val} {bss : List Bits} {nid : Nat}
    {r : List Stmt × Nat} (ht : tupleTypes (Γ self) = some (ps.map LPat.ty))
    (he : EncAll (ps.map LPat.ty) vs bss) (hb : ρ (fwd self) = bss.flatten)
    (h32 : sizes (ps.map LPat.ty) ≤ 2 ^ 32)
    (h : lowerMembers .indexTuple self 0 ps nid = some r) (hs : ∀ s ∈ r.1, Holds Γ ρ xs s) :
    Sub Γ ρ xs ps vs := by
  refine lowerMembers_enc ps vs bss 0 nid r he ?_ h hs
  intro i p b hp hbi ys
  rw [Nat.zero_add]
  obtain ⟨t, v, h1, h2, h3⟩ := encAll_get he i b hbi
  have ht' : t = p.ty := by simpa [hp] using h1.symm
  subst ht'
  exact index_bits ht h1 rfl (hb.trans (flatten_split hbi)) (encAll_lengths he i) (enc_length h3)
    (by rw [hb, encAll_length he]) h32

/-- The statements of a variant pattern bind the payload, if the value is of that variant. -/
theorem variant_sub {self : Nat} {opts : List (List MTy)} {j : Nat} {ps : List LPat}
    {vs : List Val} {bss : List Bits} {pad : Bits} {nid : Nat} {r : List Stmt × Nat}
    (ht : Γ self = .enum opts) (hv : opts[j]? = some (ps.map LPat.ty))
    (he : EncAll (ps.map LPat.ty) vs bss)
    (hpad : sizes (ps.map LPat.ty) + pad.length = maxSize opts)
    (hb : ρ (fwd self) = ofNat (tagSize opts.length) j ++ bss.flatten ++ pad)
    (hread : opts.length ≠ 1 ∨ (MTy.enum opts).size = 1 ∨ ∀ p ∈ ps, p.ty.size ≠ 1)
    (h : lowerMembers (.enumMember j) self 0 ps nid = some r) (hs : ∀ s ∈ r.1, Holds Γ ρ xs s) :
    Sub Γ ρ xs ps vs := by
  refine lowerMembers_enc ps vs bss 0 nid r he ?_ h hs
  intro i p b hp hbi ys
  rw [Nat.zero_add]
  obtain ⟨t, v, h1, h2, h3⟩ := encAll_get he i b hbi
  have ht' : t = p.ty := by simpa [hp] using h1.symm
  subst ht'
  refine member_bits (before := ofNat (tagSize opts.length) j ++ (bss.take i).flatten)
    (after := (bss.drop (i + 1)).flatten ++ pad) ht hv h1 ?_ ?_ (enc_length h3) ?_ ?_
  · rw [hb, flatten_split hbi]; simp
  · simp only [List.length_append, ofNat_length, encAll_lengths he i]
  · simp only [Fits, hb, ht, List.length_append, ofNat_length, encAll_length he, MTy.size]; omega
  · rcases hread with h | h | h
    · exact .inl h
    · exact .inr (.inr h)
    · exact .inr (.inl (h p (List.mem_of_getElem? hp)))

/-- The statements of an array pattern bind the elements. -/
theorem array_sub {self n w : Nat} {e : MTy} {ps : List LPat} {vs : List Val} {bss : List Bits}
    {nid : Nat} {r : List Stmt × Nat} (ht : Γ self = .array e n) (hn : ps.length = n)
    (hw : ilog2 ps.length = some w) (hps : ps.map LPat.ty = List.replicate n e)
    (he : EncAll (ps.map LPat.ty) vs bss) (hb : ρ (fwd self) = bss.reverse.flatten)
    (h32 : (MTy.array e n).size ≤ 2 ^ 32)
    (h : lowerElements (.int (w + 1)) self 0 ps nid = some r) (hs : ∀ s ∈ r.1, Holds Γ ρ xs s) :
    Sub Γ ρ xs ps vs := by
  refine lowerElements_enc ps vs bss 0 nid r he ?_ h hs
  intro i p b m hp hbi hm ys
  rw [Nat.zero_add] at hm
  obtain ⟨t, v, h1, h2, h3⟩ := encAll_get he i b hbi
  have hlen := encAll_len he
  have hi : i < bss.length := (List.getElem?_eq_some_iff.1 hbi).1
  rw [List.length_map] at hlen
  have ht' : t = p.ty := by simpa [hp] using h1.symm
  subst ht'
  have hpe : p.ty = e := by
    rw [hps, List.getElem?_replicate] at h1
    split at h1
    · exact (Option.some.inj h1).symm
    · cases h1
  have hlt : i < 2 ^ (w + 1) := by
    simp only [ilog2] at hw
    split at hw
    · cases hw
    · cases hw
      have := Nat.lt_log2_self (n := ps.length)
      omega
  have hk : ρ (fwd m) = ofNat (w + 1) i := by
    have h4 := hm.2
    rw [constBits_int (k := w + 1) (.inl rfl) (by omega)
      (by have := two_pow_pos (w + 1 - 1); omega)
      (by have : ((2 ^ (w + 1) : Nat) : Int) = 2 ^ (w + 1) := by simp
          omega) (by simp)] at h4
    rw [ofInt_natCast] at h4
    exact (Option.some.inj h4).symm
  have hafter : (bss.take i).reverse.flatten.length = e.size * i := by
    have h5 := encAll_lengths he i
    rw [hps, List.take_replicate, sizes_replicate, Nat.min_eq_left (by omega)] at h5
    rw [← h5, List.length_flatten, List.length_flatten, List.map_reverse, List.sum_reverse]
  refine indexArray_bits (k := i) (n := n) (t := e)
    (before := (bss.drop (i + 1)).reverse.flatten) (after := (bss.take i).reverse.flatten) ht
    (by rw [hpe]) (hb.trans (flatten_reverse_split hbi)) (by rw [enc_length h3, hpe]) hafter ?_ ?_
    (by omega) ?_ (by simpa [MTy.size] using h32)
  · rw [hk, toNat_ofNat, Nat.mod_eq_of_lt hlt]
  · intro _ hc
    rw [hk] at hc
    have := congrArg List.length hc
    simp at this
  · have h6 := encAll_length he
    rw [hps, sizes_replicate] at h6
    rw [Fits, ht, hb, MTy.size, ← h6, List.length_flatten, List.length_flatten, List.map_reverse,
      List.sum_reverse]

/-- Two numbers of a type have the same bits exactly when they are equal. -/
theorem ofInt_eq_iff {t : MTy} {n : Nat} (ht : t = .int n ∨ t = .uint n) {a b : Int}
    (ha : InRange t a) (hb : InRange t b) : ofInt n a = ofInt n b ↔ a = b := by
  refine ⟨fun h => ?_, fun h => by rw [h]⟩
  rcases ht with rfl | rfl
  · have h1 := numVal_ofInt (t := .int n) trivial ha
    have h2 := numVal_ofInt (t := .int n) trivial hb
    simp only [MTy.size] at h1 h2
    rw [← h1, ← h2, h]
  · have h1 := numVal_ofInt (t := .uint n) trivial ha
    have h2 := numVal_ofInt (t := .uint n) trivial hb
    simp only [MTy.size] at h1 h2
    rw [← h1, ← h2, h]

theorem constBits_num {t : MTy} {n : Nat} (ht : t = .int n ∨ t = .uint n) {z : Int}
    (hz : InRange t z) {ρ : Env} {xs : Nat → Bool} :
    constBits t (.int z) ρ xs = some (ofInt n z) := by
  by_cases hn : n = 0
  · subst hn
    rcases ht with rfl | rfl <;> simp [constBits, constExpr, MTy.size, ofInt, ofNat]
  · refine constBits_int ht hn ?_ ?_ ?_
    · have := two_pow_pos (n - 1)
      rcases ht with rfl | rfl <;> simp only [InRange] at hz <;> omega
    · have : (2 : Int) ^ n = 2 * 2 ^ (n - 1) := by
        obtain ⟨m, rfl⟩ : ∃ m, n = m + 1 := ⟨n - 1, by omega⟩
        simp [Int.pow_succ, Int.mul_comm]
      have := two_pow_pos (n - 1)
      rcases ht with rfl | rfl <;> simp only [InRange] at hz <;> omega
    · rintro rfl
      simp only [InRange] at hz; omega

/-- The comparison with an integer literal. -/
theorem literal_value {t : MTy} {z z' : Int} {x n m : Nat} {bits : Bits} (hx : Γ x = t)
    (hz : InRange t z) (he : Enc t (.int z') bits) (hb : ρ (fwd x) = bits)
    (hc : Holds Γ ρ xs (.const n t (.int z))) (h : Holds Γ ρ xs (.bind m .bool .eq [x, n])) :
    ρ (fwd m) = [decide (z' = z)] := by
  have key : ∀ k, (t = .int k ∨ t = .uint k) → InRange t z' → bits = ofInt k z' →
      ρ (fwd m) = [decide (z' = z)] := by
    intro k hk hz' hbits
    have h1 := hc.2
    rw [constBits_num hk hz] at h1
    have h2 := h.2
    rw [(C42_equality Γ x n ρ (xs m) (by rw [hx, hc.1])
      (by rw [Fits, hx, hb]; exact enc_length he) hc.const.2.2).1, hb, hbits,
      ← Option.some.inj h1] at h2
    rw [← Option.some.inj h2]
    congr 1
    exact decide_eq_decide.2 (ofInt_eq_iff hk hz' hz)
  cases he with
  | int h' => exact key _ (.inl rfl) h' rfl
  | uint h' => exact key _ (.inr rfl) h' rfl

theorem guard_cons {c : Option Nat} {gs : List Bool} (h : Values ρ c.toList gs) :
    (c = none ∧ gs = []) ∨ ∃ g b, c = some g ∧ gs = [b] ∧ ρ (fwd g) = [b] := by
  cases c with
  | none => cases gs with
    | nil => exact .inl ⟨rfl, rfl⟩
    | cons _ _ => simp [Values] at h
  | some g => cases gs with
    | nil => simp [Values] at h
    | cons b bs => cases bs with
      | nil => exact .inr ⟨g, b, rfl, rfl, by simpa [Values] using h⟩
      | cons _ _ => simp [Values] at h

mutual
/-- The condition of a pattern holds exactly when the value matches and the guard holds. -/
theorem condition_value : ∀ (p : LPat) (x : Nat) (c : Option Nat) (gs : List Bool) (nid nid' : Nat)
    (r : List Stmt × Nat) (v : Val), Γ x = p.ty → Enc p.ty v (ρ (fwd x)) → p.Ok → p.Readable →
    p.ty.size ≤ 2 ^ 32 → Values ρ c.toList gs →
    lowerPat p x nid = some r → (∀ s ∈ r.1, Holds Γ ρ xs s) →
    (∀ s ∈ (condition p x c nid').1, Holds Γ ρ xs s) →
    ∃ b : Bool, ρ (fwd (condition p x c nid').2.1) = [b && gs.all id] ∧ (b = true ↔ Matches p.src v)
  | .int nm ty z, x, c, gs, nid, nid', r, v, hx, he, ho, hr, h32, hg, hl, hls, h => by
    simp only [LPat.ty, LPat.Ok] at hx he ho
    have hv : ∃ z', v = .int z' := by
      generalize ρ (fwd x) = xb at he
      cases he <;> simp only [InRange] at ho <;> exact ⟨_, rfl⟩
    obtain ⟨z', rfl⟩ := hv
    refine ⟨decide (z' = z), ?_, by simp [LPat.src, Matches]⟩
    rcases guard_cons hg with ⟨rfl, rfl⟩ | ⟨g, b, rfl, rfl, hgb⟩
    · simp only [condition, List.mem_cons, List.not_mem_nil, or_false, forall_eq_or_imp,
        forall_eq] at h ⊢
      rw [literal_value hx ho he rfl h.1 h.2]; simp
    · simp only [condition, List.mem_cons, List.not_mem_nil, or_false, forall_eq_or_imp,
        forall_eq] at h ⊢
      rw [holds_and h.2.2 (literal_value hx ho he rfl h.1 h.2.1) hgb]; simp
  | .bool nm b, x, c, gs, nid, nid', r, v, hx, he, ho, hr, h32, hg, hl, hls, h => by
    simp only [LPat.ty] at he
    generalize hxb : ρ (fwd x) = xb at he
    cases he with
    | bool =>
    next b' =>
    refine ⟨b' == b, ?_, by simp [LPat.src, Matches]⟩
    cases b <;> rcases guard_cons hg with ⟨rfl, rfl⟩ | ⟨g, gb, rfl, rfl, hgb⟩ <;>
      simp only [condition, List.mem_cons, List.not_mem_nil, or_false, forall_eq_or_imp,
        forall_eq] at h ⊢
    · rw [holds_not h hxb]; cases b' <;> rfl
    · rw [holds_and h.2 (holds_not h.1 hxb) hgb]; cases b' <;> simp
    · rw [hxb]; cases b' <;> rfl
    · rw [holds_and h hxb hgb]; cases b' <;> simp
  | .bound nm t, x, c, gs, nid, nid', r, v, hx, he, ho, hr, h32, hg, hl, hls, h => by
    refine ⟨true, ?_, by simp [LPat.src, Matches]⟩
    rcases guard_cons hg with ⟨rfl, rfl⟩ | ⟨g, gb, rfl, rfl, hgb⟩ <;>
      simp only [condition, List.mem_cons, List.not_mem_nil, or_false, forall_eq] at h ⊢
    · rw [holds_true h]; rfl
    · rw [holds_alias h (by rw [hgb]; rfl), hgb]; simp
  | .boundInner nm t p, x, c, gs, nid, nid', r, v, hx, he, ho, hr, h32, hg, hl, hls, h => by
    simp only [lowerPat, Option.bind_eq_bind, Option.bind_eq_some_iff, Option.some.injEq] at hl
    obtain ⟨r1, h1, rfl⟩ := hl
    simp only [List.mem_cons, forall_eq_or_imp] at hls
    simp only [condition, List.mem_append] at h ⊢
    simp only [LPat.Ok] at ho
    simp only [LPat.ty, ← ho.1] at he h32
    have ha := holds_alias hls.1 (enc_length he)
    obtain ⟨b, hb, hm⟩ := condition_value p p.name c gs nid (nid' + 1) r1 v hls.1.bind.1
      (ha ▸ he) ho.2 hr h32 hg h1 hls.2 (fun s hs => h s (.inl hs))
    exact ⟨b, hb, by rw [hm]; simp [LPat.src, Matches]⟩
  | .tuple nm t ps, x, c, gs, nid, nid', r, v, hx, he, ho, hr, h32, hg, hl, hls, h => by
    simp only [condition, List.mem_append, or_imp, forall_and] at h ⊢
    simp only [lowerPat] at hl
    simp only [LPat.Ok] at ho
    obtain ⟨rfl, ho⟩ := ho
    simp only [LPat.ty, MTy.size] at hx he h32
    generalize hxb : ρ (fwd x) = xb at he
    cases he with
    | tuple he =>
    have hsub := tuple_sub (by rw [hx]; rfl) he hxb h32 hl hls
    obtain ⟨bs, hbs, hm⟩ := conditions_value ps _ (nid' + 1) hsub ho hr
      (fun p hp => Nat.le_trans (size_le_sizes (List.mem_map_of_mem hp)) h32) h.1
    exact ⟨bs.all id, by rw [allConditions_value (values_append hbs hg) h.2]; simp,
      by rw [hm]; simp [LPat.src, Matches]⟩
  | .array nm t ps, x, c, gs, nid, nid', r, v, hx, he, ho, hr, h32, hg, hl, hls, h => by
    simp only [condition, List.mem_append, or_imp, forall_and] at h ⊢
    simp only [lowerPat, Option.bind_eq_bind, Option.bind_eq_some_iff] at hl
    obtain ⟨w, hw, hl⟩ := hl
    simp only [LPat.Ok] at ho
    obtain ⟨⟨e, rfl, hps⟩, ho⟩ := ho
    simp only [LPat.ty] at hx he h32
    generalize hxb : ρ (fwd x) = xb at he
    cases he with
    | array he =>
    rw [← hps] at he
    have hsub := array_sub hx rfl hw hps he hxb h32 hl hls
    have hsz : ∀ p ∈ ps, p.ty.size ≤ 2 ^ 32 := by
      intro p hp
      have h1 := size_le_sizes (List.mem_map_of_mem (f := LPat.ty) hp)
      rw [hps, sizes_replicate] at h1
      simp only [MTy.size] at h32
      exact Nat.le_trans h1 h32
    obtain ⟨bs, hbs, hm⟩ := conditions_value ps _ (nid' + 1) hsub ho hr hsz h.1
    exact ⟨bs.all id, by rw [allConditions_value (values_append hbs hg) h.2]; simp,
      by rw [hm]; simp [LPat.src, Matches]⟩
  | .struct nm t ps, x, c, gs, nid, nid', r, v, hx, he, ho, hr, h32, hg, hl, hls, h => by
    simp only [condition, List.mem_append, List.mem_cons, List.cons_append, or_imp, forall_and,
      forall_eq] at h ⊢
    simp only [lowerPat] at hl
    simp only [LPat.Ok] at ho
    obtain ⟨rfl, ho⟩ := ho
    simp only [LPat.ty, MTy.size] at hx he h32
    generalize hxb : ρ (fwd x) = xb at he
    cases he with
    | struct he =>
    have hsub := tuple_sub (by rw [hx]; rfl) he hxb h32 hl hls
    obtain ⟨bs, hbs, hm⟩ := conditions_value ps _ (nid' + 2) hsub ho hr
      (fun p hp => Nat.le_trans (size_le_sizes (List.mem_map_of_mem hp)) h32) h.2.1
    exact ⟨bs.all id, by
      rw [allConditions_value (values_cons (holds_true h.1) (values_append hbs hg)) h.2.2]; simp,
      by rw [hm]; simp [LPat.src, Matches]⟩
  | .variant nm t i ps, x, c, gs, nid, nid', r, v, hx, he, ho, hr, h32, hg, hl, hls, h => by
    simp only [condition, List.mem_append, List.mem_cons, List.cons_append, or_imp, forall_and,
      forall_eq] at h ⊢
    simp only [lowerPat] at hl
    simp only [LPat.Ok] at ho
    obtain ⟨⟨opts, rfl, hv⟩, ho⟩ := ho
    simp only [LPat.ty] at hx he h32
    have hfx : Fits Γ ρ x := by rw [Fits, hx]; exact enc_length he
    generalize hxb : ρ (fwd x) = xb at he
    cases he with
    | enum hv' he hpad =>
    next j ts vs bss pad =>
    have hj : j < opts.length := (List.getElem?_eq_some_iff.1 hv').1
    have hi : i < opts.length := (List.getElem?_eq_some_iff.1 hv).1
    have hself : ρ (fwd (nid' + 1)) = [decide (j = i)] := by
      have h1 := h.1.2
      rw [isVariant_bits hx hj hi (by rw [hxb, List.append_assoc]) hfx h32] at h1
      exact (Option.some.inj h1).symm
    by_cases hij : j = i
    · subst hij
      rw [hv] at hv'
      cases hv'
      have hsub := variant_sub hx hv he hpad hxb (hr.1 opts rfl) hl hls
      have hsz : ∀ p ∈ ps, p.ty.size ≤ 2 ^ 32 := by
        intro p hp
        have h1 := size_le_sizes (List.mem_map_of_mem (f := LPat.ty) hp)
        have h2 := sizes_le_max hv
        simp only [MTy.size] at h32
        omega
      obtain ⟨bs, hbs, hm⟩ := conditions_value ps _ (nid' + 2) hsub ho hr.2 hsz h.2.1
      exact ⟨bs.all id, by
        rw [allConditions_value (values_cons hself (values_append hbs hg)) h.2.2]; simp,
        by rw [hm]; simp [LPat.src, Matches]⟩
    · obtain ⟨bs, hbs⟩ := conditions_bits ps (nid' + 2) (lowerMembers_fits _ _ _ _ hl hls) ho h.2.1
      refine ⟨false, ?_, by simp [LPat.src, Matches, hij]⟩
      rw [allConditions_value (values_cons hself (values_append hbs hg)) h.2.2]
      simp [hij]
theorem conditions_value : ∀ (ps : List LPat) (vs : List Val) (nid : Nat), Sub Γ ρ xs ps vs →
    Oks ps → Readables ps → (∀ p ∈ ps, p.ty.size ≤ 2 ^ 32) →
    (∀ s ∈ (conditions ps nid).1, Holds Γ ρ xs s) →
    ∃ bs, Values ρ (conditions ps nid).2.1 bs ∧ (bs.all id = true ↔ MatchesAll (srcs ps) vs)
  | [], vs, nid, hsub, ho, hr, h32, h => by
    cases hsub
    exact ⟨[], rfl, by simp [srcs, MatchesAll]⟩
  | p :: ps, _, nid, .cons (v := v) (vs := vs') h1 h2 h3 h4 h5, ho, hr, h32, h => by
    simp only [conditions, List.mem_append, or_imp, forall_and] at h ⊢
    simp only [List.mem_cons, forall_eq_or_imp] at h32
    obtain ⟨b, hb, hm⟩ := condition_value p p.name none [] _ nid _ v h1 h2 ho.1 hr.1 h32.1 rfl h3 h4
      h.1
    obtain ⟨bs, hbs, hms⟩ := conditions_value ps vs' _ h5 ho.2 hr.2 h32.2 h.2
    refine ⟨b :: bs, values_cons (by simpa using hb) hbs, ?_⟩
    simp only [List.all_cons, id, Bool.and_eq_true, hm, hms, srcs, MatchesAll]
end

end
end Spade.Lower

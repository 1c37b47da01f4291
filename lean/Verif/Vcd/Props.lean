import Verif.Vcd.Lemmas
/-! C34: the translator shows the value. -/
namespace Spade.Vcd

open Spade.Codegen Spade.Verilog

/-! ## Sizes -/

theorem toMirs_sizes : ∀ ts : List Ty, sizes (toMirs ts) = (ts.map Ty.size).sum
  | [] => rfl
  | t :: ts => by simp [toMirs, sizes, toMirs_sizes ts, Ty.size]

theorem toMirss_length : ∀ o : List (List Ty), (toMirss o).length = o.length
  | [] => rfl
  | o :: os => by simp [toMirss, toMirss_length os]

theorem toMirs_replicate (n : Nat) (t : Ty) : toMirs (List.replicate n t) = List.replicate n t.toMir := by
  induction n with
  | zero => rfl
  | succ n ih => simp [List.replicate_succ, toMirs, ih]

theorem sum_replicate (n m : Nat) : (List.replicate n m).sum = m * n := by
  induction n with
  | zero => simp
  | succ n ih => simp [List.replicate_succ, ih, Nat.mul_succ, Nat.add_comm]

theorem length_reverse_flatten (ls : List (List Level)) : ls.reverse.flatten.length = ls.flatten.length := by
  simp [List.length_flatten, List.sum_reverse]

theorem Ty.size_tuple (ts : List Ty) : (Ty.tuple ts).size = (ts.map Ty.size).sum := by
  simp [Ty.size, Ty.toMir, MTy.size, toMirs_sizes]
theorem Ty.size_struct (ns : List Str) (ts : List Ty) : (Ty.struct ns ts).size = (ts.map Ty.size).sum := by
  simp [Ty.size, Ty.toMir, MTy.size, toMirs_sizes]
theorem Ty.size_array (t : Ty) (n : Nat) : (Ty.array t n).size = t.size * n := by
  simp [Ty.size, Ty.toMir, MTy.size]

mutual
theorem Reads.length : ∀ {t p l}, Reads t p l → l.length = t.size
  | _, _, _, .error => rfl
  | _, _, _, .int h => by simp [h, Ty.size, Ty.toMir, MTy.size]
  | _, _, _, .intBad h _ => by simp [h, Ty.size, Ty.toMir, MTy.size]
  | _, _, _, .uint h => by simp [h, Ty.size, Ty.toMir, MTy.size]
  | _, _, _, .uintBad h _ => by simp [h, Ty.size, Ty.toMir, MTy.size]
  | _, _, _, .bool => by simp [Ty.size, Ty.toMir, MTy.size]
  | _, _, _, .boolBad h _ => by simp [h, Ty.size, Ty.toMir, MTy.size]
  | _, _, _, .memory h => h
  | _, _, _, .inout h => by rw [Reads.length h]; simp [Ty.size, Ty.toMir, MTy.size]
  | _, _, _, .tuple h => by rw [Ty.size_tuple, ReadsAll.length h]
  | _, _, _, .struct h => by rw [Ty.size_struct, ReadsAll.length h]
  | _, _, _, .array (t := t) (n := n) h => by
    rw [Ty.size_array, length_reverse_flatten, ReadsAll.length h, List.map_replicate, sum_replicate]
  | _, _, _, .variant _ _ _ h => by rw [← h]; simp [ofNat_length]; omega
  | _, _, _, .noVariant _ _ h => by rw [← h]; simp
  | _, _, _, .undefTag _ h => by rw [← h]; simp; omega
  | _, _, _, .highzTag _ h => by rw [← h]; simp; omega
  | _, _, _, .backward => rfl
  | _, _, _, .copyView h => by rw [Reads.length h]; simp [Ty.size, Ty.toMir, MTy.size]
theorem ReadsAll.length : ∀ {ts ps ls}, ReadsAll ts ps ls → ls.flatten.length = (ts.map Ty.size).sum
  | _, _, _, .nil => rfl
  | _, _, _, .cons h h' => by simp [Reads.length h, ReadsAll.length h']
end

theorem ReadsAll.isEmpty : ∀ {ts ps ls}, ReadsAll ts ps ls → ts.isEmpty = ps.isEmpty
  | _, _, _, .nil => rfl
  | _, _, _, .cons _ _ => rfl

/-- The elements of an array. -/
theorem ReadsAll.each {t : Ty} : ∀ {n : Nat} {ps : List Shown} {ls : List (List Level)},
    ReadsAll (List.replicate n t) ps ls → n = ls.length ∧ Each (fun l p => Reads t p l) ls ps
  | 0, _, _, .nil => ⟨rfl, .nil⟩
  | n + 1, _, _, h => by
    rw [List.replicate_succ] at h
    cases h with
    | cons h h' =>
      obtain ⟨h1, h2⟩ := ReadsAll.each h'
      exact ⟨by simp [← h1], .cons h h2⟩

/-! ## Arrays -/

theorem arrayLoop_spec {f : List Level → Option Str} {w : Nat} {g : Shown → Shown} :
    ∀ {ls : List (List Level)} {ps : List Shown},
    Each (fun l p => l.length = w ∧ f l = some (text (g p))) ls ps → ∀ pre post : List Level,
    arrayLoop f w (pre ++ ls.flatten ++ post) ls.length pre.length = some (texts (ps.map g)) := by
  intro ls ps h
  induction h with
  | nil => intro pre post; rfl
  | @cons l p ls ps hr h ih =>
    intro pre post
    have e1 : pre ++ (l :: ls).flatten ++ post = pre ++ l ++ (ls.flatten ++ post) := by simp
    have e2 : pre ++ (l :: ls).flatten ++ post = (pre ++ l) ++ ls.flatten ++ post := by simp
    have hih := ih (pre ++ l) post
    rw [← e2, List.length_append, hr.1] at hih
    simp only [List.length_cons, arrayLoop, Option.bind_eq_bind]
    rw [hih]
    rw [e1, slice_mid _ _ _ _ hr.1]
    simp only [Option.bind_some, hr.2, List.map_cons, texts]
    have hlen := h.length
    congr 3
    cases ls <;> cases ps <;> simp at hlen ⊢

/-! ## The main lemma -/

theorem optSeens_get : ∀ {opts : List (List Ty)} {i : Nat} {ts : List Ty} (ps : List Shown),
    opts[i]? = some ts → optSeens opts i ps = seens ts ps
  | [], i, ts, ps, h => by simp at h
  | o :: os, 0, ts, ps, h => by simp at h; subst h; rfl
  | o :: os, i + 1, ts, ps, h => by simp at h; simp only [optSeens]; exact optSeens_get (opts := os) ps h

theorem optionLoop_get (debug : Bool) (value : List Level) : ∀ {opts : List (List Ty)} {i : Nat} {ts : List Ty}
    (offset : Nat), opts[i]? = some ts →
    optionLoop debug value opts i offset = tupleLoop debug value ts offset
  | [], i, ts, ps, h => by simp at h
  | o :: os, 0, ts, ps, h => by simp at h; subst h; rfl
  | o :: os, i + 1, ts, ps, h => by
    simp at h; simp only [optionLoop]; exact optionLoop_get debug value ps h

theorem seen_zero : ∀ {t : Ty} {p : Shown} {l : List Level}, Reads t p l → t.size = 0 →
    text (t.seen p) = []
  | .inout t, p, l, h, hz => by cases h with | inout h => simp only [Ty.seen]; exact seen_zero h hz
  | .copyView t, p, l, h, hz => by cases h with | copyView h => simp only [Ty.seen]; exact seen_zero h hz
  | .error, p, l, h, hz => by cases h; simp [Ty.seen, text]
  | .int n, p, l, h, hz => by cases h <;> simp [Ty.seen, hz, text]
  | .uint n, p, l, h, hz => by cases h <;> simp [Ty.seen, hz, text]
  | .bool, p, l, h, hz => by cases h <;> simp [Ty.seen, hz, text]
  | .memory t n, p, l, h, hz => by cases h <;> simp [Ty.seen, hz, text]
  | .tuple ts, p, l, h, hz => by cases h <;> simp [Ty.seen, hz, text]
  | .struct ns ts, p, l, h, hz => by cases h <;> simp [Ty.seen, hz, text]
  | .array t n, p, l, h, hz => by cases h <;> simp [Ty.seen, hz, text]
  | .enum ns o, p, l, h, hz => by cases h <;> simp [Ty.seen, hz, text]
  | .backward t, p, l, h, hz => by cases h <;> simp [Ty.seen, hz, text]

/-- Everything but wrappers is written as nothing if it has no wires. -/
theorem translate_zero (debug : Bool) {t : Ty} {l : List Level} (h : l.length = t.size) (hz : t.size = 0) :
    translate debug t l = some [] := by
  have hl : l = [] := List.eq_nil_of_length_eq_zero (by omega)
  subst hl
  cases t <;> rw [translate, hz, withValue_zero]

mutual
/-- With all the wires of the type, the translator writes the value, up to `Ty.seen`. -/
theorem translate_reads (debug : Bool) : ∀ (t : Ty) (p : Shown) (l : List Level), Reads t p l →
    translate debug t l = some (text (t.seen p))
  | t, p, l, h => by
    by_cases hz : t.size = 0
    · rw [translate_zero debug h.length hz, seen_zero h hz]
    have hl := h.length
    match t, p, l, h with
    | .error, _, _, .error => rw [translate, withValue_full debug hl hz]; rfl
    | .int n, _, _, .int (bs := bs) hn =>
      have hb : bs ≠ [] := by rintro rfl; simp at hl; omega
      rw [translate, withValue_full debug hl hz, translateSigned_lift hb]
      simp [Ty.seen, hz, text, Maybe.writeInt]
    | .int n, p, l, .intBad _ hb =>
      rw [translate, withValue_full debug hl hz, translateSigned_bad hb]
      simp [Ty.seen, hz]
    | .uint n, _, _, .uint (bs := bs) hn =>
      rw [translate, withValue_full debug hl hz, translateUnsigned_lift]
      simp [Ty.seen, hz, text, Maybe.writeNat, dec]
    | .uint n, p, l, .uintBad _ hb =>
      rw [translate, withValue_full debug hl hz, translateUnsigned_bad hb]
      simp [Ty.seen, hz]
    | .bool, _, _, .bool (b := b) =>
      rw [translate, withValue_full debug hl hz]
      cases b <;> simp [Ty.seen, hz, text]
    | .bool, p, [v], .boolBad _ hb =>
      rw [translate, withValue_full debug hl hz]
      cases hb with
      | x hm => simp at hm; subst hm; simp [Ty.seen, hz, text]
      | z hm hm' => simp at hm'; subst hm'; simp [Ty.seen, hz, text]
    | .memory t n, _, l, .memory _ =>
      rw [translate, withValue_full debug hl hz]; simp [Ty.seen, hz, text]
    | .inout t, p, l, .inout h =>
      rw [translate, withValue_full debug hl hz]; simp only [Ty.seen]
      exact translate_reads debug t p l h
    | .copyView t, p, l, .copyView h =>
      rw [translate, withValue_full debug hl hz]; simp only [Ty.seen]
      exact translate_reads debug t p l h
    | .backward t, _, _, .backward => exact absurd rfl hz
    | .tuple ts, _, _, .tuple (ps := ps) (ls := ls) h =>
      rw [translate, withValue_full debug hl hz]
      have := tupleLoop_reads debug ts ps ls h [] []
      simp only [List.nil_append, List.append_nil, List.length_nil] at this
      simp [this, Ty.seen, hz, text]
    | .struct ns ts, _, _, .struct (ps := ps) (ls := ls) h =>
      rw [translate, withValue_full debug hl hz]
      have := structLoop_reads debug ns ts ps ls h [] []
      simp only [List.nil_append, List.append_nil, List.length_nil] at this
      simp [this, Ty.seen, hz, text]
    | .array t n, _, _, .array (ps := ps) (ls := ls) h =>
      rw [translate, withValue_full debug hl hz]
      obtain ⟨hn, he⟩ := h.each
      have he' : Each (fun l p => l.length = t.size ∧ translate debug t l = some (text (t.seen p))) ls ps :=
        he.imp (fun l p hr => ⟨hr.length, translate_reads debug t p l hr⟩)
      have := arrayLoop_spec he'.reverse [] []
      simp only [List.nil_append, List.append_nil, List.length_nil, List.length_reverse, ← hn] at this
      simp [this, Ty.seen, hz, text]
    | .enum ns opts, _, _, .variant (i := i) (ts := ts) (ps := ps) (ls := ls) (pad := pad) ho hname h hp =>
      rw [translate, withValue_full debug hl hz]
      have htag := slice_mid [] (lift (ofNat (tagSize opts.length) i)) (ls.flatten ++ pad)
        (tagSize opts.length) (by simp [ofNat_length])
      simp only [List.nil_append, List.length_nil, Nat.zero_add, ← List.append_assoc] at htag
      have hi : i < opts.length := (List.getElem?_eq_some_iff.mp ho).1
      have hval : toNat (ofNat (tagSize opts.length) i) = i := by
        rw [toNat_ofNat]; exact Nat.mod_eq_of_lt (variant_lt_tag hi)
      have hloop := optLoop_reads debug opts i ts ps ls ho h (lift (ofNat (tagSize opts.length) i)) pad
      rw [lift_length, ofNat_length] at hloop
      simp only [Option.bind_eq_bind]
      rw [show (nextPow2 opts.length).log2 = tagSize opts.length from rfl, htag]
      simp only [Option.bind_some, translateUint_lift, map_bne_false, hval]
      rw [if_neg (by omega), hname]
      simp only [Option.bind_some, hloop]
      simp [Ty.seen, hz, text, optSeens_get ps ho]
    | .enum ns opts, _, _, .noVariant (tag := tag) (rest := rest) ht hge hp =>
      rw [translate, withValue_full debug hl hz]
      have htag := slice_mid [] (lift tag) rest (tagSize opts.length) (by simp [ht])
      simp only [List.nil_append, List.length_nil, Nat.zero_add] at htag
      simp only [Option.bind_eq_bind]
      rw [show (nextPow2 opts.length).log2 = tagSize opts.length from rfl, htag]
      simp only [Option.bind_some, translateUint_lift, map_bne_false]
      rw [if_pos hge]
      simp [Ty.seen, hz, text]
    | .enum ns opts, _, _, .undefTag (tag := tag) (post := post) (rest := rest) ht hp =>
      rw [translate, withValue_full debug hl hz]
      have htag := slice_mid [] (lift tag ++ .x :: post) rest (tagSize opts.length) (by simp; omega)
      simp only [List.nil_append, List.length_nil, Nat.zero_add] at htag
      simp only [Option.bind_eq_bind]
      rw [show (nextPow2 opts.length).log2 = tagSize opts.length from rfl, htag]
      simp [translateUint_x, Ty.seen, hz, text]
    | .enum ns opts, _, _, .highzTag (tag := tag) (post := post) (rest := rest) ht hp =>
      rw [translate, withValue_full debug hl hz]
      have htag := slice_mid [] (lift tag ++ .z :: post) rest (tagSize opts.length) (by simp; omega)
      simp only [List.nil_append, List.length_nil, Nat.zero_add] at htag
      simp only [Option.bind_eq_bind]
      rw [show (nextPow2 opts.length).log2 = tagSize opts.length from rfl, htag]
      simp [translateUint_z, Ty.seen, hz, text]
theorem tupleLoop_reads (debug : Bool) : ∀ (ts : List Ty) (ps : List Shown) (ls : List (List Level)),
    ReadsAll ts ps ls → ∀ pre post : List Level,
    tupleLoop debug (pre ++ ls.flatten ++ post) ts pre.length = some (texts (seens ts ps))
  | [], _, _, .nil, pre, post => rfl
  | t :: ts, p :: ps, l :: ls, .cons h h', pre, post => by
    have e1 : pre ++ (l :: ls).flatten ++ post = pre ++ l ++ (ls.flatten ++ post) := by simp
    have e2 : pre ++ (l :: ls).flatten ++ post = (pre ++ l) ++ ls.flatten ++ post := by simp
    have hih := tupleLoop_reads debug ts ps ls h' (pre ++ l) post
    rw [← e2, List.length_append, h.length] at hih
    simp only [tupleLoop, Option.bind_eq_bind, hih]
    rw [e1, slice_mid _ _ _ _ h.length]
    simp only [Option.bind_some, translate_reads debug t p l h, seens, texts, h'.isEmpty]
    congr 3
    cases h' <;> simp [seens]
theorem structLoop_reads (debug : Bool) : ∀ (ns : List Str) (ts : List Ty) (ps : List Shown)
    (ls : List (List Level)), ReadsAll ts ps ls → ∀ pre post : List Level,
    structLoop debug (pre ++ ls.flatten ++ post) ns ts pre.length = some (fieldTexts ns (seens ts ps))
  | [], ts, ps, _, _, pre, post => by cases ts <;> simp [structLoop, fieldTexts]
  | n :: ns, [], _, _, .nil, pre, post => rfl
  | n :: ns, t :: ts, p :: ps, l :: ls, .cons h h', pre, post => by
    have e1 : pre ++ (l :: ls).flatten ++ post = pre ++ l ++ (ls.flatten ++ post) := by simp
    have e2 : pre ++ (l :: ls).flatten ++ post = (pre ++ l) ++ ls.flatten ++ post := by simp
    have hih := structLoop_reads debug ns ts ps ls h' (pre ++ l) post
    rw [← e2, List.length_append, h.length] at hih
    simp only [structLoop, Option.bind_eq_bind, hih]
    rw [e1, slice_mid _ _ _ _ h.length]
    simp only [Option.bind_some, translate_reads debug t p l h, seens, fieldTexts, h'.isEmpty]
    congr 3
    cases h' <;> simp [seens]
theorem optLoop_reads (debug : Bool) : ∀ (opts : List (List Ty)) (i : Nat) (ts : List Ty) (ps : List Shown)
    (ls : List (List Level)), opts[i]? = some ts → ReadsAll ts ps ls → ∀ pre post : List Level,
    optionLoop debug (pre ++ ls.flatten ++ post) opts i pre.length = some (texts (seens ts ps))
  | [], i, ts, ps, ls, h, _, _, _ => by simp at h
  | o :: os, 0, ts, ps, ls, h, hr, pre, post => by
    simp only [List.getElem?_cons_zero, Option.some.injEq] at h
    subst h
    exact tupleLoop_reads debug o ps ls hr pre post
  | o :: os, i + 1, ts, ps, ls, h, hr, pre, post => by
    simp only [List.getElem?_cons_succ] at h
    simp only [optionLoop]
    exact optLoop_reads debug os i ts ps ls h hr pre post
end

end Spade.Vcd

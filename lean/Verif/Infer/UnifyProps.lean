import Verif.Infer.UnifyLemmas

/-!
# Unification (C23): theorems
-/

namespace Spade.Infer

open Spec (Kind Base GT Ty)

/-! ## The final loop -/

theorem replaceAll_same (S : St) (v n : Nat) : ∀ rs, replaceAll S v v n rs = .ok S n
  | [] => rfl
  | _ :: rs => by
    unfold replaceAll
    rw [if_neg (by simp)]
    exact replaceAll_same S v n rs

/-- Two distinct roots `x` and `y` and a fresh variable `n` they are replaced by. -/
structure LinkCtx (S : St) (x y : Nat) : Prop where
  wf : WF S
  xr : S.res x = x
  yr : S.res y = y
  xl : x < S.vars.length
  yl : y < S.vars.length
  ne : x ≠ y

/-- The state after replacing `x` by the fresh variable. -/
def link1 (S : St) (tv : TV) (x : Nat) : St := (S.add tv).bind x S.vars.length
/-- The state after replacing both. -/
def link2 (S : St) (tv : TV) (x y : Nat) : St := (link1 S tv x).bind y S.vars.length

theorem fresh_root {S : St} (h : WF S) (tv : TV) : (S.add tv).res S.vars.length = S.vars.length :=
  h.out _ (Nat.le_refl _)

theorem link1_wf {S : St} {x y : Nat} (h : LinkCtx S x y) {tv : TV} (ht : GoodTV S tv) :
    WF (link1 S tv x) := by
  have := h.xl
  exact bind_wf (add_wf h.wf ht) h.xr (fresh_root h.wf tv) (by rw [add_length]; omega)
    (by rw [add_length]; omega) (by omega)

theorem link1_fresh {S : St} {x y : Nat} (h : LinkCtx S x y) (tv : TV) :
    (link1 S tv x).res S.vars.length = S.vars.length := by
  have := h.xl
  have hf : S.res S.vars.length = S.vars.length := h.wf.out _ (Nat.le_refl _)
  show (if S.res S.vars.length = x then S.res S.vars.length else S.res S.vars.length) = _
  rw [hf]; split <;> rfl

theorem link1_y {S : St} {x y : Nat} (h : LinkCtx S x y) (tv : TV) :
    (link1 S tv x).res y = y := by
  show (if S.res y = x then S.res S.vars.length else S.res y) = _
  rw [h.yr, if_neg (fun e => h.ne e.symm)]

theorem link1_length (S : St) (tv : TV) (x : Nat) :
    (link1 S tv x).vars.length = S.vars.length + 1 := add_length S tv

theorem link2_length (S : St) (tv : TV) (x y : Nat) :
    (link2 S tv x y).vars.length = S.vars.length + 1 := add_length S tv

theorem link2_wf {S : St} {x y : Nat} (h : LinkCtx S x y) {tv : TV} (ht : GoodTV S tv) :
    WF (link2 S tv x y) := by
  have := h.yl
  have hl := link1_length S tv x
  exact bind_wf (link1_wf h ht) (link1_y h tv) (link1_fresh h tv) (by omega) (by omega) (by omega)

theorem link1_sol {impls S V} {x y : Nat} (h : LinkCtx S x y) {tv : TV} (ht : GoodTV S tv) :
    Sol impls (link1 S tv x) V ↔
      SolX impls S [x] V ∧ RootOk impls (S.add tv) V S.vars.length ∧ V x = V S.vars.length := by
  have := h.xl
  rw [sol_iff_solX]
  unfold link1
  rw [solX_bind (add_wf h.wf ht) h.xr (fresh_root h.wf tv) (by rw [add_length]; omega) (by omega),
    solX_add h.wf _ (by simp; omega)]
  constructor
  · rintro ⟨⟨a, b⟩, c⟩; exact ⟨a, b, c⟩
  · rintro ⟨a, b, c⟩; exact ⟨⟨a, b⟩, c⟩

theorem link2_sol {impls S V} {x y : Nat} (h : LinkCtx S x y) {tv : TV} (ht : GoodTV S tv) :
    Sol impls (link2 S tv x y) V ↔
      SolX impls S [x, y] V ∧ RootOk impls (S.add tv) V S.vars.length ∧ V x = V S.vars.length ∧
        V y = V S.vars.length := by
  have hx := h.xl
  have hy := h.yl
  have hl := link1_length S tv x
  rw [sol_iff_solX]
  unfold link2
  rw [solX_bind (link1_wf h ht) (link1_y h tv) (link1_fresh h tv) (by omega) (by omega)]
  unfold link1
  rw [solX_bind (add_wf h.wf ht) h.xr (fresh_root h.wf tv) (by rw [add_length]; omega) (by omega),
    solX_add h.wf _ (by simp; omega)]
  constructor
  · rintro ⟨⟨⟨a, b⟩, c⟩, d⟩; exact ⟨a, b, c, d⟩
  · rintro ⟨a, b, c, d⟩; exact ⟨⟨⟨a, b⟩, c⟩, d⟩

/-- What the final loop does. -/
theorem replaceAll_cases {S : St} {x y v1 v2 : Nat} (h : LinkCtx S x y) {tv : TV}
    (ht : GoodTV S tv) (hv : v1 ≠ v2) :
    (∃ n', replaceAll (S.add tv) v1 v2 S.vars.length [x, y] = .ok (link2 S tv x y) S.vars.length ∧
        checkRec (link1 S tv x) n' [] S.vars.length = some true ∧
        checkRec (link2 S tv x y) n' [] S.vars.length = some true) ∨
    (replaceAll (S.add tv) v1 v2 S.vars.length [x, y] = .err .recursiveType ∧
      ∃ n', checkRec (link1 S tv x) n' [] S.vars.length = some false ∨
        checkRec (link2 S tv x y) n' [] S.vars.length = some false) := by
  have hf := fresh_root h.wf tv
  have hf1 := link1_fresh h tv
  have hx := h.xl
  have hl1 := link1_length S tv x
  have hl2 := link2_length S tv x y
  have hxr : (S.add tv).res x = x := h.xr
  have hyr := link1_y h tv
  have hr1 : ∀ n, replaceOne (S.add tv) x n = replaceOne (S.add tv) x n := fun _ => rfl
  have e1 : replaceOne (S.add tv) x S.vars.length =
      (match checkRec (link1 S tv x) (S.vars.length + 1 + 1) [] S.vars.length with
       | none => none | some false => some none | some true => some (some (link1 S tv x))) := by
    unfold replaceOne
    simp only [hxr, hf]
    show (match checkRec (link1 S tv x) ((link1 S tv x).vars.length + 1) [] S.vars.length with
       | none => none | some false => some none | some true => some (some (link1 S tv x))) = _
    rw [hl1]
  have e2 : replaceOne (link1 S tv x) y S.vars.length =
      (match checkRec (link2 S tv x y) (S.vars.length + 1 + 1) [] S.vars.length with
       | none => none | some false => some none | some true => some (some (link2 S tv x y))) := by
    unfold replaceOne
    simp only [hyr, hf1]
    show (match checkRec (link2 S tv x y) ((link2 S tv x y).vars.length + 1) [] S.vars.length with
       | none => none | some false => some none | some true => some (some (link2 S tv x y))) = _
    rw [hl2]
  have n1 : checkRec (link1 S tv x) (S.vars.length + 1 + 1) [] S.vars.length ≠ none :=
    checkRec_ne_none (link1_wf h ht) _ _ _ (by omega) (by simp) (by simp) (by simp) (by simp; omega)
  have n2 : checkRec (link2 S tv x y) (S.vars.length + 1 + 1) [] S.vars.length ≠ none :=
    checkRec_ne_none (link2_wf h ht) _ _ _ (by omega) (by simp) (by simp) (by simp) (by simp; omega)
  cases c1 : checkRec (link1 S tv x) (S.vars.length + 1 + 1) [] S.vars.length with
  | none => exact absurd c1 n1
  | some r1 =>
    rw [c1] at e1
    cases r1 with
    | false =>
      right
      refine ⟨?_, _, Or.inl c1⟩
      simp only [replaceAll, if_pos hv, e1]
    | true =>
      cases c2 : checkRec (link2 S tv x y) (S.vars.length + 1 + 1) [] S.vars.length with
      | none => exact absurd c2 n2
      | some r2 =>
        rw [c2] at e2
        cases r2 with
        | false =>
          right
          refine ⟨?_, _, Or.inr c2⟩
          simp only [replaceAll, if_pos hv, e1, e2]
        | true =>
          left
          refine ⟨_, ?_, c1, c2⟩
          simp only [replaceAll, if_pos hv, e1, e2]

/-! ## Kinds and traits -/

/-- A head satisfies a kind and trait bounds. -/
def BaseOk (impls : Base → Nat → Bool) (k : Kind) (ts : List Nat) (b : Base) : Prop :=
  k.Holds b.val ∧ ∀ t ∈ ts, impls b t = true

theorem mergeTraits_mem (t1 t2 : List Nat) (t : Nat) : t ∈ mergeTraits t1 t2 ↔ t ∈ t1 ∨ t ∈ t2 := by
  simp only [mergeTraits, List.mem_append, List.mem_filter, Bool.not_eq_true',
    List.contains_eq_mem, decide_eq_false_iff_not]
  by_cases h : t ∈ t1 <;> simp [h]

theorem merge_type {k1 k2 k : Kind} (h : unifyMeta k1 k2 = some k) (hk : k ≠ .type) :
    k1 ≠ .type ∧ k2 ≠ .type := by
  revert h hk
  cases k1 <;> cases k2 <;> cases k <;> simp [unifyMeta]

theorem merge_some {impls k1 k2 t1 t2 tv} (h1 : k1 ≠ .type → t1 = []) (h2 : k2 ≠ .type → t2 = [])
    (h : mergeUnknown k1 k2 t1 t2 = some tv) :
    ∃ k ts, tv = .unknown k ts ∧ (k ≠ .type → ts = []) ∧ unifyMeta k1 k2 = some k ∧
      ∀ b, BaseOk impls k ts b ↔ BaseOk impls k1 t1 b ∧ BaseOk impls k2 t2 b := by
  unfold mergeUnknown at h
  have hi := C18_merge_is_intersection_partial k1 k2
  split at h
  · rename_i he
    rw [he] at hi
    simp only [Option.some.injEq] at h
    refine ⟨_, _, h.symm, by simp, he, fun b => ?_⟩
    unfold BaseOk
    rw [hi b.val]
    constructor
    · rintro ⟨⟨a, b'⟩, c⟩
      exact ⟨⟨a, fun t ht => c t ((mergeTraits_mem ..).2 (Or.inl ht))⟩,
        b', fun t ht => c t ((mergeTraits_mem ..).2 (Or.inr ht))⟩
    · rintro ⟨⟨a, c1⟩, b', c2⟩
      refine ⟨⟨a, b'⟩, fun t ht => ?_⟩
      rcases (mergeTraits_mem ..).1 ht with ht | ht
      · exact c1 t ht
      · exact c2 t ht
  · rename_i k hne he
    rw [he] at hi
    simp only [Option.some.injEq] at h
    have hk : k ≠ .type := by intro e; exact hne (by rw [e])
    have hm := merge_type he hk
    refine ⟨_, _, h.symm, by simp, he, fun b => ?_⟩
    unfold BaseOk
    rw [hi b.val, h1 hm.1, h2 hm.2]
    simp
  · simp at h

theorem merge_none {impls k1 k2 t1 t2} (h : mergeUnknown k1 k2 t1 t2 = none) :
    (k1 = .int ∧ k2 = .uint) ∨ (k1 = .uint ∧ k2 = .int) ∨
      ∀ b, ¬ (BaseOk impls k1 t1 b ∧ BaseOk impls k2 t2 b) := by
  unfold mergeUnknown at h
  have hi := C18_merge_is_intersection_partial k1 k2
  split at h
  · simp at h
  · simp at h
  · rename_i he
    rw [he] at hi
    rcases hi with hi | hi | hi
    · exact Or.inl hi
    · exact Or.inr (Or.inl hi)
    · exact Or.inr (Or.inr (fun b hb => hi b.val ⟨hb.1.1, hb.2.1⟩))

theorem fill_none {impls b k ts} : fillUnknown impls b k ts = none ↔ BaseOk impls k ts b := by
  unfold fillUnknown BaseOk
  rw [← C18_kind_accepts]
  split
  · rename_i h
    rw [List.all_eq_true] at h
    split
    · simp_all
    · simp_all
  · rename_i h
    rw [List.all_eq_true] at h
    simp only [reduceCtorEq, false_iff, not_and]
    exact fun _ => h

/-! ## Resolving to the same type -/

mutual
theorem subst_subst (σ τ : Nat → Ty) : ∀ t, (Ty.subst σ t).subst τ = t.subst (fun r => (σ r).subst τ)
  | .var r => rfl
  | .app b args => by
    show Ty.app b _ = Ty.app b _
    rw [substs_substs σ τ args]
theorem substs_substs (σ τ : Nat → Ty) : ∀ ts,
    Ty.substs τ (Ty.substs σ ts) = Ty.substs (fun r => (σ r).subst τ) ts
  | [] => rfl
  | t :: ts => by
    show _ :: _ = _ :: _
    rw [subst_subst σ τ t, substs_substs σ τ ts]
end

mutual
theorem subst_var : ∀ t, Ty.subst .var t = t
  | .var r => rfl
  | .app b args => by show Ty.app b _ = _; rw [substs_var args]
theorem substs_var : ∀ ts, Ty.substs .var ts = ts
  | [] => rfl
  | t :: ts => by show _ :: _ = _; rw [subst_var t, substs_var ts]
end

theorem denotes_res {S : St} {x y : Nat} {t : Ty} (h : S.res x = S.res y) (hd : Denotes S y t) :
    Denotes S x t := by
  cases hd with
  | var hg => rw [← h] at hg ⊢; exact .var hg
  | app hg ha => rw [← h] at hg; exact .app hg ha

mutual
theorem denotes_det {S : St} {x : Nat} : ∀ {t t' : Ty}, Denotes S x t → Denotes S x t' → t = t'
  | _, _, .var h, .var h' => rfl
  | _, _, .var h, .app h' _ => by rw [h] at h'; simp at h'
  | _, _, .app h _, .var h' => by rw [h] at h'; simp at h'
  | _, _, .app h ha, .app h' ha' => by
    rw [h] at h'
    simp only [Option.some.injEq, TV.known.injEq] at h'
    obtain ⟨rfl, rfl⟩ := h'
    rw [denotesAll_det ha ha']
theorem denotesAll_det {S : St} : ∀ {ps : List Nat} {ts ts' : List Ty}, DenotesAll S ps ts →
    DenotesAll S ps ts' → ts = ts'
  | _, _, _, .nil, .nil => rfl
  | _, _, _, .cons h hs, .cons h' hs' => by rw [denotes_det h h', denotesAll_det hs hs']
end

/-- Every type of `S` is still there in `S'`, refined by a substitution. -/
def Refines (S S' : St) : Prop :=
  ∃ σ : Nat → Ty, ∀ x t, x < S.vars.length → Denotes S x t → Denotes S' x (t.subst σ)

theorem Refines.rfl {S : St} : Refines S S := ⟨.var, fun x t _ h => by rwa [subst_var]⟩

theorem Refines.trans {S1 S2 S3 : St} (hl : S1.vars.length ≤ S2.vars.length) (h1 : Refines S1 S2)
    (h2 : Refines S2 S3) : Refines S1 S3 := by
  obtain ⟨σ, h1⟩ := h1
  obtain ⟨τ, h2⟩ := h2
  refine ⟨fun r => (σ r).subst τ, fun x t hx hd => ?_⟩
  rw [← subst_subst]
  exact h2 _ _ (Nat.lt_of_lt_of_le hx hl) (h1 _ _ hx hd)

theorem substs_all {S S' : St} {σ : Nat → Ty}
    (h : ∀ x t, x < S.vars.length → Denotes S x t → Denotes S' x (t.subst σ)) :
    ∀ {ps : List Nat} {ts : List Ty}, (∀ p ∈ ps, p < S.vars.length) → DenotesAll S ps ts →
      DenotesAll S' ps (Ty.substs σ ts)
  | _, _, _, .nil => .nil
  | _, _, hp, .cons hd hs => .cons (h _ _ (hp _ (List.mem_cons_self ..)) hd)
      (substs_all h (fun q hq => hp q (List.mem_cons_of_mem _ hq)) hs)

mutual
theorem bind_denotes {S : St} {v n : Nat} {T : Ty} (hn : S.res n = n)
    (hT : Denotes (S.bind v n) n T)
    (hc : ∀ b ps, S.vars[v]? = some (.known b ps) → S.vars[n]? = some (.known b ps)) :
    ∀ {x : Nat} {t : Ty}, Denotes S x t →
      Denotes (S.bind v n) x (t.subst (fun r => if r = v then T else .var r))
  | x, _, .var h => by
    show Denotes _ _ (if S.res x = v then T else .var (S.res x))
    split
    · rename_i he
      refine denotes_res ?_ hT
      rw [bind_res, bind_res, if_pos he, hn]
      split <;> rfl
    · rename_i he
      have hr : (S.bind v n).res x = S.res x := by rw [bind_res, if_neg he]
      rw [← hr] at h ⊢
      exact .var (S := S.bind v n) h
  | x, _, .app (b := b) (ps := ps) h ha => by
    refine .app (ps := ps) ?_ (bind_denotesAll hn hT hc ha)
    rw [bind_res]
    split
    · rename_i he
      rw [hn]
      exact hc b ps (he ▸ h)
    · exact h
theorem bind_denotesAll {S : St} {v n : Nat} {T : Ty} (hn : S.res n = n)
    (hT : Denotes (S.bind v n) n T)
    (hc : ∀ b ps, S.vars[v]? = some (.known b ps) → S.vars[n]? = some (.known b ps)) :
    ∀ {ps : List Nat} {ts : List Ty}, DenotesAll S ps ts →
      DenotesAll (S.bind v n) ps (Ty.substs (fun r => if r = v then T else .var r) ts)
  | _, _, .nil => .nil
  | _, _, .cons h hs => .cons (bind_denotes hn hT hc h) (bind_denotesAll hn hT hc hs)
end

mutual
theorem add_denotes {S : St} (hw : WF S) (tv : TV) : ∀ {x : Nat} {t : Ty}, x < S.vars.length →
    Denotes S x t → Denotes (S.add tv) x t
  | x, _, hx, .var h => .var (S := S.add tv) (by
      show (S.add tv).vars[S.res x]? = _
      rw [add_get_lt S tv (hw.lt x hx)]; exact h)
  | x, _, hx, .app h ha => .app (by
      show (S.add tv).vars[S.res x]? = _
      rw [add_get_lt S tv (hw.lt x hx)]; exact h)
      (add_denotesAll hw tv (hw.params _ _ _ h) ha)
theorem add_denotesAll {S : St} (hw : WF S) (tv : TV) : ∀ {ps : List Nat} {ts : List Ty},
    (∀ p ∈ ps, p < S.vars.length) → DenotesAll S ps ts → DenotesAll (S.add tv) ps ts
  | _, _, _, .nil => .nil
  | _, _, hp, .cons h hs => .cons (add_denotes hw tv (hp _ (List.mem_cons_self ..)) h)
      (add_denotesAll hw tv (fun q hq => hp q (List.mem_cons_of_mem _ hq)) hs)
end

theorem add_refines {S : St} (hw : WF S) (tv : TV) : Refines S (S.add tv) :=
  ⟨.var, fun x t hx hd => by rw [subst_var]; exact add_denotes hw tv hx hd⟩

theorem link2_refines {S : St} {x y : Nat} (h : LinkCtx S x y) {tv : TV}
    {f : Nat} (c1 : checkRec (link1 S tv x) f [] S.vars.length = some true)
    (c2 : checkRec (link2 S tv x y) f [] S.vars.length = some true)
    (hx : ∀ b ps, S.vars[x]? = some (.known b ps) → tv = .known b ps)
    (hy : ∀ b ps, S.vars[y]? = some (.known b ps) → tv = .known b ps) :
    Refines S (link2 S tv x y) := by
  obtain ⟨T1, hT1⟩ := checkRec_true _ _ _ c1
  obtain ⟨T2, hT2⟩ := checkRec_true _ _ _ c2
  have hn : (S.add tv).vars[S.vars.length]? = some tv := add_get_new S tv
  have r0 := add_refines h.wf tv
  have r1 : Refines (S.add tv) (link1 S tv x) := by
    refine ⟨_, fun z t _ hd => bind_denotes (fresh_root h.wf tv) hT1 ?_ hd⟩
    intro b ps hg
    rw [add_get_lt S tv h.xl] at hg
    rw [hn, hx b ps hg]
  have r2 : Refines (link1 S tv x) (link2 S tv x y) := by
    refine ⟨_, fun z t _ hd => bind_denotes (link1_fresh h tv) hT2 ?_ hd⟩
    intro b ps hg
    have hg' : (S.add tv).vars[y]? = some (.known b ps) := hg
    rw [add_get_lt S tv h.yl] at hg'
    show (S.add tv).vars[S.vars.length]? = _
    rw [hn, hy b ps hg']
  refine (r0.trans (by rw [add_length]; omega) r1).trans ?_ r2
  rw [link1_length]; omega

/-! ## The main induction -/

/-- No unknown variable has kind `k`. -/
def NoKind (k : Kind) (S : St) : Prop := ∀ (r : Nat) k' ts, S.vars[r]? = some (.unknown k' ts) → k' ≠ k

/-- Not both `#int` and `#uint` variables occur: the two kinds whose merge is wrongly rejected
(`C18_counterexample_int_uint`). -/
def NoClash (S : St) : Prop := NoKind .int S ∨ NoKind .uint S

/-- Every variable resolves to a finite type: no type contains itself. -/
def Acyclic (S : St) : Prop := ∀ id < S.vars.length, ∃ t, Denotes S id t

/-- What is shown of the new state. -/
structure Step (impls : Base → Nat → Bool) (S S' : St) (eqn : (Nat → GT) → Prop) : Prop where
  wf : WF S'
  len : S.vars.length ≤ S'.vars.length
  sound : ∀ V, Sol impls S' V → Sol impls S V ∧ eqn V
  complete : ∀ V, Sol impls S V → eqn V → ∃ V', Agree S.vars.length V V' ∧ Sol impls S' V' ∧
    ∀ id, ∃ j, V' id = V j
  clash : NoClash S → NoClash S'
  refines : Refines S S'
  acyclic : Acyclic S → Acyclic S'

/-- What is shown of unifying two variables. -/
def Good (impls : Base → Nat → Bool) (S : St) (a b : Nat) : Out → Prop
  | .ok S' r => Step impls S S' (fun V => V a = V b) ∧ r < S'.vars.length ∧
      (Acyclic S → ∃ t, Denotes S' a t ∧ Denotes S' b t)
  | .err _ => NoClash S → ∀ V, Sol impls S V → V a ≠ V b
  | .stuck => True

/-- What is shown of unifying two lists of variables. -/
def GoodList (impls : Base → Nat → Bool) (S : St) (ps qs : List Nat) : Out → Prop
  | .ok S' _ => Step impls S S' (fun V => ps.map V = qs.map V) ∧
      (Acyclic S → ∃ ts, DenotesAll S' ps ts ∧ DenotesAll S' qs ts)
  | .err _ => NoClash S → ∀ V, Sol impls S V → ps.map V ≠ qs.map V
  | .stuck => True

theorem Step.refl {impls S} {eqn : (Nat → GT) → Prop} (hw : WF S)
    (h : ∀ V, Sol impls S V → eqn V) : Step impls S S eqn where
  wf := hw
  len := Nat.le_refl _
  sound V hs := ⟨hs, h V hs⟩
  complete V hs _ := ⟨V, fun _ _ => rfl, hs, fun id => ⟨id, rfl⟩⟩
  clash := id
  refines := Refines.rfl
  acyclic := id

theorem params_good {impls u} (hu : ∀ S a b, WF S → a < S.vars.length → b < S.vars.length →
    Good impls S a b (u S a b)) :
    ∀ (ps qs : List Nat) (S : St), WF S → (∀ p ∈ ps, p < S.vars.length) →
      (∀ q ∈ qs, q < S.vars.length) → GoodList impls S ps qs (unifyParams u S ps qs)
  | [], [], S, hw, _, _ => by
    refine ⟨Step.refl hw (fun _ _ => rfl), fun _ => ⟨[], .nil, .nil⟩⟩
  | [], q :: qs, S, hw, _, _ => by
    intro _ V _ h
    simp at h
  | p :: ps, [], S, hw, _, _ => by
    intro _ V _ h
    simp at h
  | p :: ps, q :: qs, S, hw, hp, hq => by
    have h1 := hu S p q hw (hp p (List.mem_cons_self ..)) (hq q (List.mem_cons_self ..))
    unfold unifyParams
    cases ho : u S p q with
    | stuck => trivial
    | err e =>
      rw [ho] at h1
      intro hc V hs he
      simp only [List.map_cons, List.cons.injEq] at he
      exact h1 hc V hs he.1
    | ok S1 r =>
      rw [ho] at h1
      obtain ⟨st, _, hden⟩ := h1
      have hp' : ∀ x ∈ ps, x < S.vars.length := fun x hx => hp x (List.mem_cons_of_mem _ hx)
      have hq' : ∀ x ∈ qs, x < S.vars.length := fun x hx => hq x (List.mem_cons_of_mem _ hx)
      have h2 := params_good hu ps qs S1 st.wf
        (fun x hx => Nat.lt_of_lt_of_le (hp' x hx) st.len)
        (fun x hx => Nat.lt_of_lt_of_le (hq' x hx) st.len)
      simp only
      cases ho2 : unifyParams u S1 ps qs with
      | stuck => trivial
      | err e =>
        rw [ho2] at h2
        intro hc V hs he
        simp only [List.map_cons, List.cons.injEq] at he
        obtain ⟨V', ha, hs', _⟩ := st.complete V hs he.1
        refine h2 (st.clash hc) V' hs' ?_
        rw [← map_agree ha hp', ← map_agree ha hq']
        exact he.2
      | ok S2 r2 =>
        rw [ho2] at h2
        obtain ⟨st2, hden2⟩ := h2
        refine ⟨⟨st2.wf, Nat.le_trans st.len st2.len, ?_, ?_, ?_, ?_, ?_⟩, ?_⟩
        · intro V hs
          obtain ⟨h3, h4⟩ := st2.sound V hs
          obtain ⟨h5, h6⟩ := st.sound V h3
          exact ⟨h5, by simp only [List.map_cons]; rw [h6, h4]⟩
        · intro V hs he
          simp only [List.map_cons, List.cons.injEq] at he
          obtain ⟨V', ha, hs', hr⟩ := st.complete V hs he.1
          obtain ⟨V2, ha2, hs2, hr2⟩ := st2.complete V' hs' (by
            rw [← map_agree ha hp', ← map_agree ha hq']; exact he.2)
          exact ⟨V2, fun id hid => (ha id hid).trans (ha2 id (Nat.lt_of_lt_of_le hid st.len)), hs2,
            fun id => (by
              obtain ⟨j, hj⟩ := hr2 id
              obtain ⟨j', hj'⟩ := hr j
              exact ⟨j', hj.trans hj'⟩)⟩
        · exact fun h => st2.clash (st.clash h)
        · exact st.refines.trans st.len st2.refines
        · exact fun h => st2.acyclic (st.acyclic h)
        · intro hac
          obtain ⟨t, ht1, ht2⟩ := hden hac
          obtain ⟨ts, hts1, hts2⟩ := hden2 (st.acyclic hac)
          obtain ⟨σ, hσ⟩ := st2.refines
          have l1 := Nat.lt_of_lt_of_le (hp p (List.mem_cons_self ..)) st.len
          have l2 := Nat.lt_of_lt_of_le (hq q (List.mem_cons_self ..)) st.len
          exact ⟨_, .cons (hσ _ _ l1 ht1) hts1, .cons (hσ _ _ l2 ht2) hts2⟩

theorem noClash_add {S : St} {k ts} (h : NoClash S)
    (hk : ∀ k', k' ≠ .any → k = k' → ∃ (r : Nat) (ts' : List Nat), S.vars[r]? = some (.unknown k' ts')) :
    NoClash (S.add (.unknown k ts)) := by
  have key : ∀ k', k' ≠ .any → NoKind k' S → NoKind k' (S.add (.unknown k ts)) := by
    intro k' hk' hn r k2 ts2 hg
    by_cases hr : r < S.vars.length
    · rw [add_get_lt S _ hr] at hg
      exact hn r k2 ts2 hg
    · have hlt := (List.getElem?_eq_some_iff.1 hg).1
      rw [add_length] at hlt
      have he : r = S.vars.length := by omega
      subst he
      rw [add_get_new] at hg
      simp only [Option.some.injEq, TV.unknown.injEq] at hg
      obtain ⟨rfl, rfl⟩ := hg
      intro he
      obtain ⟨r', ts', hr'⟩ := hk k' hk' he
      exact hn r' k' ts' hr' rfl
  rcases h with h | h
  · exact Or.inl (key _ (by simp) h)
  · exact Or.inr (key _ (by simp) h)

theorem noClash_add_known {S : St} {b ps} (h : NoClash S) : NoClash (S.add (.known b ps)) := by
  have key : ∀ k', NoKind k' S → NoKind k' (S.add (.known b ps)) := by
    intro k' hn r k2 ts2 hg
    by_cases hr : r < S.vars.length
    · rw [add_get_lt S _ hr] at hg
      exact hn r k2 ts2 hg
    · have hlt := (List.getElem?_eq_some_iff.1 hg).1
      rw [add_length] at hlt
      have he : r = S.vars.length := by omega
      subst he
      rw [add_get_new] at hg
      simp at hg
  rcases h with h | h
  · exact Or.inl (key _ h)
  · exact Or.inr (key _ h)

theorem merge_kind {k1 k2 k : Kind} (h : unifyMeta k1 k2 = some k) : k = k1 ∨ k = k2 := by
  revert h
  cases k1 <;> cases k2 <;> cases k <;> simp [unifyMeta]

/-- An assignment extended to the fresh variable. -/
def extend (V : Nat → GT) (n : Nat) (g : GT) : Nat → GT := fun id => if id = n then g else V id

theorem extend_agree (V : Nat → GT) (n : Nat) (g : GT) : Agree n V (extend V n g) := by
  intro id hid
  unfold extend
  rw [if_neg (by omega)]

theorem extend_ran (V : Nat → GT) (n x : Nat) (id : Nat) : ∃ j, extend V n (V x) id = V j := by
  unfold extend
  split
  · exact ⟨x, rfl⟩
  · exact ⟨id, rfl⟩

/-- The two roots are replaced by one fresh variable that says what both said. -/
theorem link_good {impls S} {a b x y v1 v2 : Nat} (h : LinkCtx S x y) (hab : a < S.vars.length)
    (hbb : b < S.vars.length)
    (hx : (S.res a = x ∧ S.res b = y) ∨ (S.res a = y ∧ S.res b = x)) (hv : v1 ≠ v2) {tv : TV}
    (ht : GoodTV S tv)
    (hc : NoClash S → NoClash (S.add tv))
    (hok : ∀ V, V x = V y → V x = V S.vars.length →
      (RootOk impls (S.add tv) V S.vars.length ↔ RootOk impls S V x ∧ RootOk impls S V y))
    (hkx : ∀ b ps, S.vars[x]? = some (.known b ps) → tv = .known b ps)
    (hky : ∀ b ps, S.vars[y]? = some (.known b ps) → tv = .known b ps) :
    Good impls S a b (replaceAll (S.add tv) v1 v2 S.vars.length [x, y]) := by
  have hxl := h.xl
  have hyl := h.yl
  have hlen2 := link2_length S tv x y
  have hVab : ∀ V, Sol impls S V → (V a = V b ↔ V x = V y) := by
    intro V hs
    rw [(hs a hab).1, (hs b hbb).1]
    rcases hx with ⟨h1, h2⟩ | ⟨h1, h2⟩
    · rw [h1, h2]
    · rw [h1, h2]; exact eq_comm
  have hext : ∀ V, Sol impls S V → V a = V b → Sol impls (link2 S tv x y) (extend V S.vars.length (V x)) ∧
      Sol impls (link1 S tv x) (extend V S.vars.length (V x)) := by
    intro V hs he
    rw [hVab V hs] at he
    have hag := extend_agree V S.vars.length (V x)
    have hs' := (sol_congr h.wf hag).1 hs
    have e1 : extend V S.vars.length (V x) x = V x := (hag x hxl).symm
    have e2 : extend V S.vars.length (V x) y = V y := (hag y hyl).symm
    have e3 : extend V S.vars.length (V x) S.vars.length = V x := by simp [extend]
    have hsp := (sol_split h.xr h.yr hxl hyl).1 hs'
    have hroot := (hok _ (by rw [e1, e2, he]) (by rw [e1, e3])).2 hsp.2
    refine ⟨(link2_sol h ht).2 ⟨hsp.1, hroot, by rw [e1, e3], by rw [e2, e3, he]⟩,
      (link1_sol h ht).2 ⟨?_, hroot, by rw [e1, e3]⟩⟩
    intro id hid
    exact ⟨(hs' id hid).1, fun hr _ => (hs' id hid).2 hr⟩
  rcases replaceAll_cases h ht hv with ⟨f, he, c1, c2⟩ | ⟨he, f, hcf⟩
  · rw [he]
    have hres : ∀ z, (S.res z = x ∨ S.res z = y) →
        (link2 S tv x y).res z = S.vars.length := by
      intro z hz
      show (if (link1 S tv x).res z = y then _ else _) = _
      rw [link1_fresh h tv]
      split
      · rfl
      · rename_i hne
        show (if S.res z = x then S.res S.vars.length else S.res z) = _
        rcases hz with hz | hz
        · rw [if_pos hz]; exact fresh_root h.wf tv
        · exfalso
          apply hne
          show (if S.res z = x then S.res S.vars.length else S.res z) = _
          rw [hz, if_neg (fun e => h.ne e.symm)]
    obtain ⟨T, hT⟩ := checkRec_true _ _ _ c2
    have hda : ∀ z, (S.res z = x ∨ S.res z = y) → Denotes (link2 S tv x y) z T := by
      intro z hz
      refine denotes_res ?_ hT
      rw [hres z hz]
      show _ = (if (link1 S tv x).res S.vars.length = y then _ else _)
      rw [link1_fresh h tv]
      split <;> rfl
    have href := link2_refines h c1 c2 hkx hky
    refine ⟨⟨link2_wf h ht, by omega, ?_, ?_, hc, href, ?_⟩, by omega, ?_⟩
    · intro V hs
      obtain ⟨h1, h2, h3, h4⟩ := (link2_sol h ht).1 hs
      have hxy : V x = V y := h3.trans h4.symm
      have hsol := (sol_split h.xr h.yr hxl hyl).2 ⟨h1, (hok V hxy h3).1 h2⟩
      exact ⟨hsol, (hVab V hsol).2 hxy⟩
    · intro V hs hab'
      exact ⟨_, extend_agree V _ _, (hext V hs hab').1, extend_ran V _ _⟩
    · intro hac id hid
      by_cases hlt : id < S.vars.length
      · obtain ⟨t, ht'⟩ := hac id hlt
        obtain ⟨σ, hσ⟩ := href
        exact ⟨_, hσ id t hlt ht'⟩
      · have : id = S.vars.length := by omega
        exact ⟨T, this ▸ hT⟩
    · intro _
      rcases hx with ⟨h1, h2⟩ | ⟨h1, h2⟩
      · exact ⟨T, hda a (Or.inl h1), hda b (Or.inr h2)⟩
      · exact ⟨T, hda a (Or.inr h1), hda b (Or.inl h2)⟩
  · rw [he]
    intro _ V hs hab'
    obtain ⟨hs2, hs1⟩ := hext V hs hab'
    have hl1 := link1_length S tv x
    rcases hcf with hcf | hcf
    · exact checkRec_false (link1_wf h ht) hs1 _ _ _ (by omega) (by simp) hcf
    · exact checkRec_false (link2_wf h ht) hs2 _ _ _ (by omega) (by simp) hcf

/-- A variable unified with itself gets a fresh copy. -/
theorem same_good {impls S} {a b v : Nat} (hw : WF S) (ha : a < S.vars.length)
    (hra : S.res a = v) (hrb : S.res b = v) {tv : TV} (ht : GoodTV S tv) {k ts} (hk : tv = .unknown k ts)
    (hg : S.vars[v]? = some (.unknown k ts)) (hb : b < S.vars.length) :
    Good impls S a b (.ok (S.add tv) S.vars.length) := by
  have hvl : v < S.vars.length := hra ▸ hw.lt a ha
  have hvr : S.res v = v := by rw [← hra]; exact hw.root a
  have hsol : ∀ V, Sol impls (S.add tv) V ↔ Sol impls S V ∧ RootOk impls (S.add tv) V S.vars.length := by
    intro V
    rw [sol_iff_solX, solX_add hw _ (by simp), ← sol_iff_solX]
  have heq : ∀ V, Sol impls S V → V a = V b := by
    intro V hs
    rw [(hs a ha).1, (hs b hb).1, hra, hrb]
  have href := add_refines hw tv
  refine ⟨⟨add_wf hw ht, by rw [add_length]; omega, ?_, ?_, ?_, href, ?_⟩, by rw [add_length]; omega, ?_⟩
  · intro V hs
    exact ⟨((hsol V).1 hs).1, heq V ((hsol V).1 hs).1⟩
  · intro V hs _
    have hag := extend_agree V S.vars.length (V v)
    refine ⟨_, hag, (hsol _).2 ⟨(sol_congr hw hag).1 hs, ?_⟩, extend_ran V _ _⟩
    have h1 := (hs v hvl).2 hvr
    unfold RootOk at h1 ⊢
    rw [add_get_new, hk]
    rw [hg] at h1
    have e3 : extend V S.vars.length (V v) S.vars.length = V v := by simp [extend]
    simp only [e3]
    exact h1
  · intro hc
    rw [hk]
    refine noClash_add hc (fun k' _ he => ⟨v, ts, he ▸ hg⟩)
  · intro hac id hid
    rw [add_length] at hid
    by_cases hlt : id < S.vars.length
    · obtain ⟨t, h'⟩ := hac id hlt
      exact ⟨t, add_denotes hw tv hlt h'⟩
    · have he : id = S.vars.length := by omega
      subst he
      refine ⟨.var ((S.add tv).res S.vars.length), .var (k := k) (ts := ts) ?_⟩
      rw [fresh_root hw, add_get_new, hk]
  · intro hac
    obtain ⟨t, h'⟩ := hac a ha
    refine ⟨t, add_denotes hw tv ha h', denotes_res ?_ (add_denotes hw tv ha h')⟩
    show S.res b = S.res a
    rw [hra, hrb]

theorem rootOk_unknown {impls S V} {r : Nat} {k ts} (h : S.vars[r]? = some (.unknown k ts)) :
    RootOk impls S V r ↔ BaseOk impls k ts (V r).head := by
  unfold RootOk BaseOk
  rw [h]

theorem rootOk_known {impls S V} {r : Nat} {b ps} (h : S.vars[r]? = some (.known b ps)) :
    RootOk impls S V r ↔ V r = .node b (ps.map V) := by
  unfold RootOk
  rw [h]

/-- Two known types with the same head. -/
theorem known_good {impls S} {a b : Nat} (hw : WF S) (ha : a < S.vars.length)
    (hb : b < S.vars.length) {bs p1 p2} (g1 : S.vars[S.res a]? = some (.known bs p1))
    (g2 : S.vars[S.res b]? = some (.known bs p2)) {o : Out}
    (ho : GoodList impls S p1 p2 o) :
    Good impls S a b
      (if p1.length ≠ p2.length then .err .normal
       else Out.withResult (S.res a) o) := by
  have hV : ∀ V, Sol impls S V → (V a = V b ↔ p1.map V = p2.map V) := by
    intro V hs
    rw [sol_get hw hs ha g1, sol_get hw hs hb g2]
    simp
  split
  · rename_i hl
    intro _ V hs he
    rw [hV V hs] at he
    exact hl (by simpa using congrArg List.length he)
  · cases o with
    | stuck => trivial
    | err e =>
      intro hc V hs he
      exact ho hc V hs ((hV V hs).1 he)
    | ok S' r =>
      obtain ⟨st, hden⟩ := ho
      refine ⟨⟨st.wf, st.len, ?_, ?_, st.clash, st.refines, st.acyclic⟩, ?_, ?_⟩
      · intro V hs
        obtain ⟨h1, h2⟩ := st.sound V hs
        exact ⟨h1, (hV V h1).2 h2⟩
      · intro V hs he
        exact st.complete V hs ((hV V hs).1 he)
      · exact Nat.lt_of_lt_of_le (hw.lt a ha) st.len
      · intro hac
        obtain ⟨ts, hts1, hts2⟩ := hden hac
        obtain ⟨σ, hσ⟩ := st.refines
        obtain ⟨t1, ht1⟩ := hac a ha
        obtain ⟨t2, ht2⟩ := hac b hb
        have d1 := hσ a t1 ha ht1
        have d2 := hσ b t2 hb ht2
        cases ht1 with
        | var h => rw [g1] at h; simp at h
        | app h hp1 =>
          rw [g1] at h
          simp only [Option.some.injEq, TV.known.injEq] at h
          obtain ⟨rfl, rfl⟩ := h
          cases ht2 with
          | var h => rw [g2] at h; simp at h
          | app h hp2 =>
            rw [g2] at h
            simp only [Option.some.injEq, TV.known.injEq] at h
            obtain ⟨rfl, rfl⟩ := h
            have e1 := denotesAll_det (substs_all hσ (hw.params _ _ _ g1) hp1) hts1
            have e2 := denotesAll_det (substs_all hσ (hw.params _ _ _ g2) hp2) hts2
            refine ⟨_, d1, ?_⟩
            simp only [Ty.subst] at d1 d2 ⊢
            rw [e1, ← e2]
            exact d2

/-- Two known types with different heads. -/
theorem known_ne_good {impls S} {a b : Nat} (hw : WF S) (ha : a < S.vars.length)
    (hb : b < S.vars.length) {b1 b2 p1 p2} (g1 : S.vars[S.res a]? = some (.known b1 p1))
    (g2 : S.vars[S.res b]? = some (.known b2 p2)) (hne : b1 ≠ b2) (e : UErr) :
    Good impls S a b (.err e) := by
  intro _ V hs he
  rw [sol_get hw hs ha g1, sol_get hw hs hb g2] at he
  simp only [GT.node.injEq] at he
  exact hne he.1

/-- Two equal type-level values. -/
theorem known_lit_good {impls S} {a b : Nat} (hw : WF S) (ha : a < S.vars.length)
    (hb : b < S.vars.length) {bs p1 p2} (g1 : S.vars[S.res a]? = some (.known bs p1))
    (g2 : S.vars[S.res b]? = some (.known bs p2)) (hl : ∀ l, bs.val ≠ .type l) :
    Good impls S a b (.ok S (S.res a)) := by
  have e1 := hw.lit _ _ _ g1 hl
  have e2 := hw.lit _ _ _ g2 hl
  subst e1 e2
  have := known_good (impls := impls) (o := .ok S 0) hw ha hb g1 g2
    ⟨Step.refl hw (fun _ _ => rfl), fun _ => ⟨[], .nil, .nil⟩⟩
  simpa [Out.withResult] using this

theorem unifyInner_good (impls : Base → Nat → Bool) :
    ∀ (fuel : Nat) (S : St) (a b : Nat), WF S → a < S.vars.length → b < S.vars.length →
      Good impls S a b (unifyInner impls fuel S a b) := by
  intro fuel
  induction fuel with
  | zero => intros; trivial
  | succ fuel ih =>
    intro S a b hw ha hb
    have hga : S.get (S.res a) = S.vars[S.res a]? := by unfold St.get; rw [hw.root]
    have hgb : S.get (S.res b) = S.vars[S.res b]? := by unfold St.get; rw [hw.root]
    have hla := hw.lt a ha
    have hlb := hw.lt b hb
    unfold unifyInner
    simp only [hga, hgb]
    cases g1 : S.vars[S.res a]? with
    | none => trivial
    | some tv1 =>
      cases g2 : S.vars[S.res b]? with
      | none => cases tv1 <;> trivial
      | some tv2 =>
        cases tv1 with
        | known b1 p1 =>
          cases tv2 with
          | known b2 p2 =>
            have hps := fun (he : b1 = b2) => known_good (impls := impls) hw ha hb g1 (he ▸ g2)
              (params_good ih p1 p2 S hw (hw.params _ _ _ g1) (hw.params _ _ _ g2))
            have hne := fun (he : b1 ≠ b2) => known_ne_good (impls := impls) hw ha hb g1 g2 he .normal
            simp only
            split
            · rename_i i j
              split
              · rename_i he; subst he
                exact known_lit_good hw ha hb g1 g2 (by simp [Base.val])
              · exact hne (by simpa using ‹_›)
            · rename_i i j
              split
              · rename_i he; subst he
                exact known_lit_good hw ha hb g1 g2 (by simp [Base.val])
              · exact hne (by simpa using ‹_›)
            · rename_i i j
              split
              · rename_i he; subst he
                exact known_lit_good hw ha hb g1 g2 (by simp [Base.val])
              · exact hne (by simpa using ‹_›)
            · rename_i i j
              split
              · exact hne (by simpa using ‹_›)
              · exact hps (by simp_all)
            · exact hps rfl
            · exact hps rfl
            · exact hps rfl
            · exact hps rfl
            · apply hne
              intro he
              subst he
              cases b1 <;> simp_all
          | unknown k ts =>
            simp only
            cases hf : fillUnknown impls b1 k ts with
            | some e =>
              intro _ V hs he
              have hn : ¬ BaseOk impls k ts b1 := by rw [← fill_none, hf]; simp
              have h1 := sol_get hw hs ha (b := b1) (ps := p1) g1
              have h2 := (rootOk_unknown g2).1 ((hs _ hlb).2 (hw.root b))
              rw [← (hs b hb).1, ← he, h1] at h2
              exact hn h2
            | none =>
              have hf' := fill_none.1 hf
              have hne : S.res a ≠ S.res b := by
                intro he; rw [he, g2] at g1; simp at g1
              refine link_good ⟨hw, hw.root a, hw.root b, hla, hlb, hne⟩ ha hb
                (Or.inl ⟨rfl, rfl⟩) hne ⟨?_, ?_, ?_⟩ noClash_add_known ?_ ?_ ?_
              · intro b' ps' he
                cases he
                exact hw.params _ _ _ g1
              · intro b' ps' he
                cases he
                exact hw.lit _ _ _ g1
              · intro k' ts' he; cases he
              · intro V hxy hxn
                rw [rootOk_known (add_get_new S _), rootOk_known g1, rootOk_unknown g2, ← hxn, ← hxy]
                constructor
                · intro h; exact ⟨h, by rw [h]; exact hf'⟩
                · exact fun h => h.1
              · intro b' ps' hg; rw [g1] at hg; simpa using hg
              · intro b' ps' hg; rw [g2] at hg; simp at hg
        | unknown k1 t1 =>
          cases tv2 with
          | known b2 p2 =>
            simp only
            cases hf : fillUnknown impls b2 k1 t1 with
            | some e =>
              intro _ V hs he
              have hn : ¬ BaseOk impls k1 t1 b2 := by rw [← fill_none, hf]; simp
              have h1 := sol_get hw hs hb (b := b2) (ps := p2) g2
              have h2 := (rootOk_unknown g1).1 ((hs _ hla).2 (hw.root a))
              rw [← (hs a ha).1, he, h1] at h2
              exact hn h2
            | none =>
              have hf' := fill_none.1 hf
              have hne : S.res a ≠ S.res b := by
                intro he; rw [he, g2] at g1; simp at g1
              refine link_good ⟨hw, hw.root b, hw.root a, hlb, hla, hne.symm⟩ ha hb
                (Or.inr ⟨rfl, rfl⟩) hne ⟨?_, ?_, ?_⟩ noClash_add_known ?_ ?_ ?_
              · intro b' ps' he
                cases he
                exact hw.params _ _ _ g2
              · intro b' ps' he
                cases he
                exact hw.lit _ _ _ g2
              · intro k' ts' he; cases he
              · intro V hxy hxn
                rw [rootOk_known (add_get_new S _), rootOk_known g2, rootOk_unknown g1, ← hxn, ← hxy]
                constructor
                · intro h; exact ⟨h, by rw [h]; exact hf'⟩
                · exact fun h => h.1
              · intro b' ps' hg; rw [g2] at hg; simpa using hg
              · intro b' ps' hg; rw [g1] at hg; simp at hg
          | unknown k2 t2 =>
            simp only
            cases hm : mergeUnknown k1 k2 t1 t2 with
            | none =>
              intro hc V hs he
              have h1 := (rootOk_unknown g1).1 ((hs _ hla).2 (hw.root a))
              have h2 := (rootOk_unknown g2).1 ((hs _ hlb).2 (hw.root b))
              rw [← (hs b hb).1, ← he, (hs a ha).1] at h2
              rcases merge_none (impls := impls) hm with h | h | h
              · rcases hc with hc | hc
                · exact hc _ _ _ g1 h.1
                · exact hc _ _ _ g2 h.2
              · rcases hc with hc | hc
                · exact hc _ _ _ g2 h.2
                · exact hc _ _ _ g1 h.1
              · exact h _ ⟨h1, h2⟩
            | some tv =>
              obtain ⟨k, ts, rfl, hts, hk, hB⟩ := merge_some (impls := impls)
                (hw.traits _ _ _ g1) (hw.traits _ _ _ g2) hm
              have hgood : GoodTV S (.unknown k ts) :=
                ⟨fun b' ps' he => (nomatch he), fun b' ps' he => (nomatch he),
                  fun k' ts' he => (by cases he; exact hts)⟩
              by_cases hne : S.res a = S.res b
              · simp only
                rw [← hne, replaceAll_same]
                have he : k1 = k2 ∧ t1 = t2 := by
                  rw [hne, g2] at g1
                  simp only [Option.some.injEq, TV.unknown.injEq] at g1
                  exact ⟨g1.1.symm, g1.2.symm⟩
                obtain ⟨rfl, rfl⟩ := he
                have htv : k = k1 ∧ ts = t1 := by
                  have hk' : k = k1 := by
                    rw [C18_merge_idem] at hk; simpa using hk.symm
                  refine ⟨hk', ?_⟩
                  subst hk'
                  unfold mergeUnknown at hm
                  rw [C18_merge_idem] at hm
                  by_cases hty : k = .type
                  · subst hty
                    simp only [Option.some.injEq, TV.unknown.injEq, true_and] at hm
                    rw [← hm]
                    have : t1.filter (fun t => !(t1.contains t)) = [] := by
                      rw [List.filter_eq_nil_iff]
                      intro t ht
                      simp [ht]
                    unfold mergeTraits
                    rw [this, List.append_nil]
                  · rw [hts hty, hw.traits _ _ _ g1 hty]
                obtain ⟨rfl, rfl⟩ := htv
                exact same_good hw ha rfl hne.symm hgood rfl g1 hb
              · refine link_good ⟨hw, hw.root a, hw.root b, hla, hlb, hne⟩ ha hb
                  (Or.inl ⟨rfl, rfl⟩) hne hgood ?_ ?_ ?_ ?_
                · intro hc
                  refine noClash_add hc (fun k' _ he => ?_)
                  rcases merge_kind hk with h | h
                  · exact ⟨_, t1, by rw [g1, ← he, h]⟩
                  · exact ⟨_, t2, by rw [g2, ← he, h]⟩
                · intro V hxy hxn
                  rw [rootOk_unknown (add_get_new S _), rootOk_unknown g1, rootOk_unknown g2, hB,
                    ← hxn, ← hxy]
                · intro b' ps' hg; rw [g1] at hg; simp at hg
                · intro b' ps' hg; rw [g2] at hg; simp at hg

/-! ## The theorems -/

/-- C23, soundness and generality in one: when unifying `a` and `b` succeeds, the assignments of
ground types to the existing variables that satisfy the new state are exactly those that satisfied
the old state and give `a` and `b` the same type. So `a` and `b` are equal from now on, everything
known before still holds (every previous equality in particular), and nothing else has been
identified or fixed. -/
theorem C23_most_general_partial (impls : Base → Nat → Bool) (fuel : Nat) (S S' : St) (a b r : Nat)
    (hw : WF S) (ha : a < S.vars.length) (hb : b < S.vars.length)
    (h : unifyInner impls fuel S a b = .ok S' r) (V : Nat → GT) :
    (Sol impls S V ∧ V a = V b) ↔
      ∃ V', (∀ id < S.vars.length, V id = V' id) ∧ Sol impls S' V' := by
  have hg := unifyInner_good impls fuel S a b hw ha hb
  rw [h] at hg
  constructor
  · rintro ⟨hs, he⟩
    obtain ⟨V', h1, h2, _⟩ := hg.1.complete V hs he
    exact ⟨V', h1, h2⟩
  · rintro ⟨V', hag, hs⟩
    obtain ⟨h1, h2⟩ := hg.1.sound V' hs
    exact ⟨(sol_congr hw hag).2 h1, by rw [hag a ha, hag b hb]; exact h2⟩

/-- C23: after a successful unification both variables resolve to the same finite type, and every
variable of the state still resolves to a finite type. -/
theorem C23_same_type_partial (impls : Base → Nat → Bool) (fuel : Nat) (S S' : St) (a b r : Nat)
    (hw : WF S) (hac : Acyclic S) (ha : a < S.vars.length) (hb : b < S.vars.length)
    (h : unifyInner impls fuel S a b = .ok S' r) :
    WF S' ∧ Acyclic S' ∧ ∃ t, Denotes S' a t ∧ Denotes S' b t := by
  have hg := unifyInner_good impls fuel S a b hw ha hb
  rw [h] at hg
  exact ⟨hg.1.wf, hg.1.acyclic hac, hg.2.2 hac⟩

/-- C23: what variables resolved to before is only refined, by one substitution for all of them; in
particular variables that resolved to the same type still do. -/
theorem C23_equalities_kept_partial (impls : Base → Nat → Bool) (fuel : Nat) (S S' : St)
    (a b r : Nat) (hw : WF S) (ha : a < S.vars.length) (hb : b < S.vars.length)
    (h : unifyInner impls fuel S a b = .ok S' r) :
    (∃ σ : Nat → Ty, ∀ x t, x < S.vars.length → Denotes S x t → Denotes S' x (t.subst σ)) ∧
    ∀ x y t, x < S.vars.length → y < S.vars.length → Denotes S x t → Denotes S y t →
      ∃ t', Denotes S' x t' ∧ Denotes S' y t' := by
  have hg := unifyInner_good impls fuel S a b hw ha hb
  rw [h] at hg
  obtain ⟨σ, hσ⟩ := hg.1.refines
  exact ⟨⟨σ, hσ⟩, fun x y t hx hy h1 h2 => ⟨_, hσ x t hx h1, hσ y t hy h2⟩⟩

/-- C23: a rejected unification has no solution, as long as the state does not contain variables of
both kinds `#int` and `#uint`. -/
theorem C23_rejection_justified_partial (impls : Base → Nat → Bool) (fuel : Nat) (S : St) (a b : Nat)
    (e : UErr) (hw : WF S) (hc : NoClash S) (ha : a < S.vars.length) (hb : b < S.vars.length)
    (h : unifyInner impls fuel S a b = .err e) :
    ¬ ∃ V, Sol impls S V ∧ V a = V b := by
  have hg := unifyInner_good impls fuel S a b hw ha hb
  rw [h] at hg
  rintro ⟨V, hs, he⟩
  exact hg hc V hs he

/-- The states of inference: variables are created, with parameters that exist already, and
unified. -/
inductive Reach (impls : Base → Nat → Bool) : St → Prop
  | init : Reach impls { vars := [], res := id }
  | add {S tv} : Reach impls S → GoodTV S tv → Reach impls (S.add tv)
  | unify {S S' fuel a b r} : Reach impls S → a < S.vars.length → b < S.vars.length →
      unifyInner impls fuel S a b = .ok S' r → Reach impls S'

/-- C23: the hypotheses of the theorems above hold in every reachable state. -/
theorem C23_reachable_states {impls : Base → Nat → Bool} {S : St} (h : Reach impls S) :
    WF S ∧ Acyclic S := by
  induction h with
  | init =>
    refine ⟨⟨?_, ?_, ?_, ?_, ?_, ?_⟩, fun id hid => absurd hid (Nat.not_lt_zero _)⟩
    all_goals intros; first | rfl | (simp_all; done)
  | @add S tv _ ht ih =>
    refine ⟨add_wf ih.1 ht, fun id hid => ?_⟩
    rw [add_length] at hid
    by_cases hlt : id < S.vars.length
    · obtain ⟨t, h'⟩ := ih.2 id hlt
      exact ⟨t, add_denotes ih.1 tv hlt h'⟩
    · have he : id = S.vars.length := by omega
      subst he
      cases tv with
      | unknown k ts =>
        refine ⟨.var ((S.add _).res S.vars.length), .var (k := k) (ts := ts) ?_⟩
        rw [fresh_root ih.1, add_get_new]
      | known b ps =>
        have hp := ht.params b ps rfl
        obtain ⟨ts, hts⟩ := denotesAll_of (S := S) (ps := ps) (fun p hm => ih.2 p (hp p hm))
        refine ⟨.app b ts, .app (ps := ps) ?_ (add_denotesAll ih.1 _ hp hts)⟩
        rw [fresh_root ih.1, add_get_new]
  | @unify S S' fuel a b r _ ha hb hu ih =>
    obtain ⟨h1, h2, _⟩ := C23_same_type_partial impls fuel S S' a b r ih.1 ih.2 ha hb hu
    exact ⟨h1, h2⟩

/-! ## Cases that meet the hypotheses, and counterexamples -/

/-- Four variables: an unknown type `?0`, an unknown number `?1`, `T<?1>` and `(?0, ?0)`. -/
def exState : St :=
  { vars := [.unknown .type [], .unknown .uint [], .known (.named 7) [1], .known .tuple [0, 0]],
    res := id }

theorem exState_reach (impls : Base → Nat → Bool) : Reach impls exState := by
  have h0 : Reach impls { vars := [], res := id } := .init
  have h1 := Reach.add (tv := .unknown .type []) h0
    ⟨fun _ _ he => (nomatch he), fun _ _ he => (nomatch he), fun _ _ _ _ => by simp_all⟩
  have h2 := Reach.add (tv := .unknown .uint []) h1
    ⟨fun _ _ he => (nomatch he), fun _ _ he => (nomatch he), fun _ _ _ _ => by simp_all⟩
  have h3 := Reach.add (tv := .known (.named 7) [1]) h2
    ⟨fun b ps he p hp => by cases he; simp [St.add] at hp ⊢; omega,
      fun b ps he hl => by cases he; exact absurd rfl (hl "named"), fun _ _ he => (nomatch he)⟩
  exact Reach.add (tv := .known .tuple [0, 0]) h3
    ⟨fun b ps he p hp => by cases he; simp [St.add] at hp ⊢; omega,
      fun b ps he hl => by cases he; exact absurd rfl (hl "tuple"), fun _ _ he => (nomatch he)⟩

/-- Unifying `?0` with `T<?1>` succeeds and replaces both by a new variable, after which `(?0, ?0)`
cannot be unified with `?0` any more. -/
example : (match unifyInner (fun _ _ => false) 9 exState 0 2 with
    | .ok S r => (S.vars.length, r, [0, 1, 2, 3, 4].map S.res,
        match unifyInner (fun _ _ => false) 9 S 3 0 with | .err .normal => true | _ => false)
    | _ => (0, 0, [], false)) = (5, 4, [4, 1, 4, 3, 4], true) := by decide +kernel

/-- Unifying `?0` with `(?0, ?0)` is rejected as a recursive type. -/
example : (match unifyInner (fun _ _ => false) 9 exState 0 3 with
    | .err .recursiveType => true | _ => false) = true := by decide +kernel

/-- C23, the part that fails for kinds: `#int` and `#uint` variables are not unified although `3` is
a solution. -/
theorem C23_counterexample_int_uint :
    let S : St := { vars := [.unknown .int [], .unknown .uint []], res := id }
    (unifyInner (fun _ _ => false) 1 S 0 1 = .err .metaMismatch) ∧
      Sol (fun _ _ => false) S (fun _ => .node (.int 3) []) := by
  refine ⟨rfl, ?_⟩
  intro id hid
  refine ⟨rfl, fun _ => ?_⟩
  match id, hid with
  | 0, _ => exact ⟨⟨3, rfl⟩, by simp⟩
  | 1, _ => exact ⟨⟨3, by decide, rfl⟩, by simp⟩

/-- C23, about the variable that is returned: unifying an unknown variable with itself returns a
variable that is not connected to it, so that what is later learned about the result is not learned
about the variable (`lib.rs:3322` skips the replacement when both roots are the same). -/
theorem C23_counterexample_result_of_self :
    let impls : Base → Nat → Bool := fun _ _ => false
    let S : St := { vars := [.unknown .uint []], res := id }
    ∃ S' V, unifyInner impls 1 S 0 0 = .ok S' 1 ∧ Sol impls S' V ∧ V 0 ≠ V 1 := by
  refine ⟨_, fun id => .node (.int id) [], rfl, ?_, ?_⟩
  · intro id hid
    refine ⟨rfl, fun _ => ?_⟩
    match id, hid with
    | 0, _ => exact ⟨⟨0, by decide, rfl⟩, by simp⟩
    | 1, _ => exact ⟨⟨1, by decide, rfl⟩, by simp⟩
  · simp

end Spade.Infer

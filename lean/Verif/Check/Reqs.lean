import Verif.Check.Generics

/-!
# Requirements are sound (C51)
-/

namespace Spade.Check

open Spade.Infer.Spec (Kind Base GT Val TExpr Value LeastUint)
open Spade.Infer (CE VState Proper groundSeen Satisfies evalVal evaluate RResult CInt Target)

section
variable {Δ : Decls}

/-- Some views of a type. -/
def views : Nat → GT → GT
  | 0, t => t
  | n + 1, t => tView (views n t)

theorem peelTV_snd {go : Nat → M (Nat × Nat)}
    (hg : ∀ id, Snd Δ (go id) (fun r F => F.V id = views r.1 (F.V r.2))) (id : Nat) (tv : TV) :
    Snd Δ (peelTV go id tv) (fun r F => tv.Holds Δ.impls F.V (F.V id) →
      F.V id = views r.1 (F.V r.2)) := by
  unfold peelTV
  split
  next v =>
    refine (hg v).bind (fun r => Snd.pure (fun F h1 h2 => ?_))
    simp only [TV.Holds, List.map_cons, List.map_nil] at h2
    rw [h2, h1]
    rfl
  · exact Snd.pure (fun F _ => rfl)

theorem peel_snd : ∀ n id, Snd Δ (peel n id) (fun r F => F.V id = views r.1 (F.V r.2))
  | 0, _ => Snd.stuck
  | n + 1, id => by
    unfold peel
    exact (getVar_snd id).bind (fun tv => peelTV_snd (peel_snd n) id tv)

theorem wrapViews_snd : ∀ n v, Snd Δ (wrapViews n v) (fun r F => F.V r = views n (F.V v))
  | 0, v => Snd.pure (fun F => rfl)
  | n + 1, v => by
    unfold wrapViews
    refine (wrapViews_snd n v).bind (fun w => (addVar_snd _).mono (fun r F h1 h2 => ?_))
    simp only [TV.Holds, List.map_cons, List.map_nil] at h1
    rw [h1, h2]
    rfl

theorem resolveNamed_snd : ∀ n inv id, Snd Δ (resolveNamed n inv id) (fun o F =>
    ∀ inv' s ps, o = .named inv' s ps → ∃ b, StructTy (F.V id) b s (ps.map F.V) ∧ inv' = (inv != b))
  | 0, _, _ => Snd.stuck
  | n + 1, inv, id => by
    unfold resolveNamed
    refine (getVar_snd id).bind (fun tv => ?_)
    split
    · exact Snd.pure (fun F _ _ _ _ h => nomatch h)
    next v =>
      refine (resolveNamed_snd n (!inv) v).mono (fun o F h1 h2 inv' s ps ho => ?_)
      obtain ⟨b, h3, h4⟩ := h1 inv' s ps ho
      simp only [TV.Holds, List.map_cons, List.map_nil] at h2
      refine ⟨!b, ?_, ?_⟩
      · rw [h2]; exact .inv h3
      · rw [h4]; cases inv <;> cases b <;> rfl
    next s ps =>
      refine Snd.pure (fun F h inv' s' ps' ho => ?_)
      injection ho with h1 h2 h3
      subst h1 h2 h3
      refine ⟨false, ?_, by simp⟩
      rw [h]
      exact .named
    · exact Snd.pure (fun F _ _ _ _ h => nomatch h)

theorem lookup_zip_map {V : Nat → GT} (g : String) : ∀ (gs : List String) (ps : List Nat),
    ((gs.zip ps).lookup g).map V = (gs.zip (ps.map V)).lookup g
  | [], _ => by simp
  | _ :: _, [] => by simp
  | n :: gs, p :: ps => by
    simp only [List.zip_cons_cons, List.map_cons, List.lookup]
    cases g == n
    · exact lookup_zip_map g gs ps
    · rfl

theorem zip_vals (V : Nat → GT) (gs : List String) (ps : List Nat) :
    GL.vals (gs.zip ps) V = fun g => (gs.zip (ps.map V)).lookup g := by
  funext g
  exact lookup_zip_map g gs ps

theorem invertOf_snd (raw : Nat) (tv : TV) : Snd Δ (invertOf raw tv) (fun r F =>
    tv.Holds Δ.impls F.V (F.V raw) → F.V r = tInv (F.V raw) ∨ F.V raw = tInv (F.V r)) := by
  unfold invertOf
  split
  · exact Snd.pure (fun F h => .inr h)
  · exact (addVar_snd _).mono (fun r F h _ => .inl h)

theorem views_field {t u : GT} {f : String} (h : FieldTy Δ t f u) :
    ∀ n, FieldTy Δ (views n t) f (views n u)
  | 0 => h
  | n + 1 => .view (views_field h n)

theorem fieldVar_snd (layers : Nat) (inv : Bool) (s : Nat) (ps : List Nat) (f : String) :
    Snd Δ (fieldVar Δ layers inv s ps f) (fun v F => ∀ t, StructTy t inv s (ps.map F.V) →
      FieldTy Δ (views layers t) f (F.V v)) := by
  unfold fieldVar
  cases hs : Δ.structs s with
  | none => exact Snd.err
  | some gf =>
    obtain ⟨gs, fs⟩ := gf
    simp only
    cases hf : fs.lookup f with
    | none => exact Snd.err
    | some spec =>
      simp only
      refine (specVar_snd (gs.zip ps) spec).bind (fun raw => (getVar_snd raw).bind (fun tv => ?_))
      have inner : Snd Δ (if inv then invertOf raw tv else pure raw) (fun r F =>
          tv.Holds Δ.impls F.V (F.V raw) →
          (inv = true ∧ (F.V r = tInv (F.V raw) ∨ F.V raw = tInv (F.V r))) ∨
          (inv = false ∧ F.V r = F.V raw)) := by
        split
        next h => exact (invertOf_snd raw tv).mono (fun r F h1 h2 => .inl ⟨h, h1 h2⟩)
        next h => exact Snd.pure (fun F _ => .inr ⟨by simpa using h, rfl⟩)
      refine inner.bind (fun ft => (wrapViews_snd layers ft).mono (fun v F h1 h2 h3 h4 t ht => ?_))
      rw [h1]
      rw [zip_vals] at h4
      refine views_field ?_ layers
      rcases h2 h3 with ⟨rfl, h5⟩ | ⟨rfl, h5⟩
      · exact .flipped ht hs hf h4 h5
      · rw [h5]; exact .plain ht hs hf h4

/-- What is seen of a variable holds of its type. -/
def SeenOk (s : VState) (t : GT) : Prop := ∀ i, s = .int i → t = .node (.int i) []

theorem seenM_snd (id : Nat) : Snd Δ (seenM id) (fun s F => SeenOk s (F.V id)) := by
  unfold seenM
  refine ((getVar_snd id).proper).bind (fun tv => Snd.pure (fun F h i hi => ?_))
  obtain ⟨h1, h2⟩ := h
  cases tv with
  | unknown k ts => exact nomatch hi
  | known b ps =>
    simp only [seenOf] at hi
    cases b <;> simp [Base.val, VState.ofVal] at hi
    subst hi
    simp only [TV.Holds] at h1
    have := h2 id _ _ h1 (by simp [Base.val])
    rw [h1, this]

theorem seenAll_snd : ∀ vs : List Nat, Snd Δ (seenAll vs) (fun ss F => Each SeenOk ss (vs.map F.V))
  | [] => by
    unfold seenAll
    exact Snd.pure (fun F => .nil)
  | v :: vs => by
    unfold seenAll
    exact (seenM_snd v).bind (fun s => (seenAll_snd vs).bind (fun ss =>
      Snd.pure (fun F h1 h2 => .cons h2 h1)))

theorem targetM_snd (id : Nat) : Snd Δ (targetM id) (fun tg F => ∀ name ss, tg = .named name ss →
    ∃ n ts, F.V id = .node (.named n) ts ∧ name = tname n ∧ Each SeenOk ss ts) := by
  unfold targetM
  refine (getVar_snd id).bind (fun tv => ?_)
  split
  next n ps =>
    refine (seenAll_snd ps).bind (fun ss => Snd.pure (fun F h1 h2 name ss' h => ?_))
    injection h with h3 h4
    subst h3 h4
    exact ⟨n, _, h2, rfl, h1⟩
  · exact Snd.pure (fun F _ name ss h => nomatch h)
  · exact Snd.pure (fun F _ name ss h => nomatch h)

/-- The literal has a value. -/
def LitVal (V : Nat → GT) (v : Int) : CLit → Prop
  | .lit w => w = v
  | .generic g => V g = .node (.int v) []

theorem litM_snd (l : CLit) : Snd Δ (litM l) (fun x F =>
    ∀ v, x = .lit v ∨ x = .generic (.int v) → LitVal F.V v l) := by
  cases l with
  | lit w =>
    refine Snd.pure (fun F v h => ?_)
    rcases h with h | h
    · injection h
    · exact nomatch h
  | generic g =>
    refine (seenM_snd g).bind (fun s => Snd.pure (fun F h v hx => ?_))
    rcases hx with hx | hx
    · exact nomatch hx
    · injection hx with hx
      exact h v hx

theorem ofResult_snd (r : RResult) :
    Snd Δ (ofResult r) (fun o _ => ∀ rs, o = some rs → r = .satisfied) := by
  cases r with
  | satisfied => exact Snd.pure (fun _ _ _ => rfl)
  | noChange => exact Snd.pure (fun _ _ h => nomatch h)
  | error => exact Snd.err

theorem checkFits_ok {x : CInt} {tg : Target} (h : Infer.checkFits x tg = .satisfied) :
    ∃ name s n v, tg = .named name [.int s] ∧ name ≠ .other ∧ Infer.toU32 s = some n ∧
      (x = .lit v ∨ x = .generic (.int v)) ∧
      Infer.fitsRange (name == .uint) n v = .satisfied := by
  unfold Infer.checkFits at h
  cases tg with
  | named name params =>
    have hn : name ≠ .other := by rintro rfl; exact nomatch h
    rcases params with _ | ⟨p, _ | ⟨q, ps⟩⟩
    · cases name <;> exact nomatch h
    · cases p with
      | int s =>
        cases hu : Infer.toU32 s with
        | none => cases name <;> simp [hu] at h
        | some n =>
          cases x with
          | lit v =>
            refine ⟨name, s, n, v, rfl, hn, hu, .inl rfl, ?_⟩
            cases name
            · simpa [hu] using h
            · simpa [hu] using h
            · exact absurd rfl hn
          | generic g =>
            cases g with
            | int v =>
              refine ⟨name, s, n, v, rfl, hn, hu, .inr rfl, ?_⟩
              cases name
              · simpa [hu] using h
              · simpa [hu] using h
              · exact absurd rfl hn
            | _ => cases name <;> simp [hu] at h
      | _ => cases name <;> exact nomatch h
    · cases name <;> exact nomatch h
  | _ => exact nomatch h

theorem toU32_some {s : Int} {n : Nat} (h : Infer.toU32 s = some n) : s = n := by
  unfold Infer.toU32 at h
  split at h
  next hc =>
    injection h with h
    subst h
    omega
  · exact nomatch h

theorem fitsRange_uint {n : Nat} {v : Int} (h : Infer.fitsRange true n v = .satisfied) :
    ∃ b : BitVec n, (b.toNat : Int) = v := by
  rw [Infer.exists_toNat_iff]
  unfold Infer.fitsRange at h
  split at h
  next hz =>
    subst hz
    exact ⟨by omega, Int.pow_pos (by decide)⟩
  · simp only [if_true] at h
    split at h
    · exact nomatch h
    next hc => omega

theorem fitsRange_int {n : Nat} {v : Int} (h : Infer.fitsRange false n v = .satisfied) :
    (∃ b : BitVec n, b.toInt = v) ∨ (n = 0 ∧ v = -1) := by
  unfold Infer.fitsRange at h
  split at h
  next hz =>
    subst hz
    exact .inl (Infer.zero_representable_int n)
  next hz =>
    simp only [Bool.false_eq_true, if_false] at h
    split at h
    · exact nomatch h
    next hc =>
      cases n with
      | zero =>
        simp at hc
        exact .inr ⟨rfl, by omega⟩
      | succ m =>
        left
        rw [Infer.exists_toInt_iff]
        simp only [Nat.add_sub_cancel] at hc
        omega

theorem fits_ok {x : CInt} {tg : Target} {V : Nat → GT} {l : CLit} {t : Nat}
    (h : Infer.checkFits x tg = .satisfied)
    (h1 : ∀ name ss, tg = .named name ss →
      ∃ n ts, V t = .node (.named n) ts ∧ name = tname n ∧ Each SeenOk ss ts)
    (h2 : ∀ v, x = .lit v ∨ x = .generic (.int v) → LitVal V v l) :
    ∃ v, LitVal V v l ∧ LitOk (V t) v := by
  obtain ⟨name, s, n, v, rfl, hn, hu, hx, hf⟩ := checkFits_ok h
  refine ⟨v, h2 v hx, n, ?_⟩
  obtain ⟨k, ts, h3, h4, h5⟩ := h1 _ _ rfl
  cases h5 with
  | cons h6 h7 =>
    cases h7
    rw [h6 s rfl, toU32_some hu] at h3
    unfold tname at h4
    split at h4
    next hk =>
      subst hk h4
      exact .inr ⟨h3, fitsRange_int hf⟩
    · split at h4
      next hk =>
        subst hk h4
        exact .inl ⟨h3, fitsRange_uint hf⟩
      · exact absurd h4 hn

theorem firstKnown_snd : ∀ ts : List Nat, Snd Δ (firstKnown ts) (fun _ _ => True)
  | [] => Snd.pure (fun _ => trivial)
  | t :: ts => by
    unfold firstKnown
    refine (getVar_snd t).bind (fun tv => ?_)
    split
    · exact Snd.pure (fun _ _ => trivial)
    · exact (firstKnown_snd ts).mono (fun _ _ _ _ => trivial)

theorem anyVars_snd : ∀ n, Snd Δ (anyVars n) (fun _ _ => True)
  | 0 => Snd.pure (fun _ => trivial)
  | n + 1 => (addVar_snd _).bind (fun _ => (anyVars_snd n).bind (fun _ => Snd.pure (fun _ _ _ => trivial)))

/-- The replacements are made. -/
def ReplOk (V : Nat → GT) (rs : List (Nat × Nat)) : Prop := ∀ r ∈ rs, V r.1 = V r.2

theorem sharedRepl_snd (b : Base) (n : Nat) : ∀ ts : List Nat,
    Snd Δ (sharedRepl b n ts) (fun rs F => ReplOk F.V rs → ∀ t ∈ ts, (F.V t).head = b)
  | [] => Snd.pure (fun F _ t h => (nomatch h))
  | t :: ts => by
    unfold sharedRepl
    refine (anyVars_snd n).bind (fun vs => (addVar_snd _).bind (fun v =>
      (sharedRepl_snd b n ts).bind (fun rest => Snd.pure (fun F h1 h2 _ hr t' ht => ?_))))
    rcases List.mem_cons.1 ht with rfl | ht
    · have := hr (t', v) (by simp)
      simp only at this
      rw [this, h2]
      rfl
    · exact h1 (fun r h => hr r (List.mem_cons_of_mem _ h)) t' ht

theorem checkReq_snd (c : Cfg) (r : Req) : Snd c.Δ (checkReq c r) (fun o F =>
    ∀ rs, o = some rs → ReplOk F.V rs → r.Holds c.Δ F.V) := by
  cases r with
  | field t f e =>
    unfold checkReq
    refine (peel_snd c.fuel t).bind (fun r => (resolveNamed_snd c.fuel false r.2).bind (fun o => ?_))
    split
    next inv s ps =>
      refine (fieldVar_snd r.1 inv s ps f).bind (fun v => Snd.pure (fun F h1 h2 h3 rs hrs hok => ?_))
      injection hrs with hrs
      subst hrs
      obtain ⟨b, h4, h5⟩ := h2 inv s ps rfl
      have hb : inv = b := by rw [h5]; simp
      subst hb
      have he := hok (e, v) (by simp)
      simp only at he
      show FieldTy _ _ _ _
      rw [h3, he]
      exact h1 _ h4
    · exact Snd.pure (fun F _ _ rs h => nomatch h)
    · exact Snd.err
  | fits l t =>
    unfold checkReq
    refine (targetM_snd t).bind (fun tg => (litM_snd l).bind (fun x => (ofResult_snd _).mono
      (fun o F h1 h2 h3 rs hrs _ => ?_)))
    obtain ⟨v, h4, h5⟩ := fits_ok (h1 rs hrs) h3 h2
    cases l with
    | lit w => cases h4; exact h5
    | generic g => exact ⟨v, h4, h5⟩
  | endAfterStart s e =>
    unfold checkReq
    refine (seenM_snd s).bind (fun a => (seenM_snd e).bind (fun b => (ofResult_snd _).mono
      (fun o F h1 h2 h3 rs hrs _ => ?_)))
    have h := h1 rs hrs
    unfold Infer.checkEndAfterStart at h
    cases a <;> cases b <;> simp at h
    exact ⟨_, _, h3 _ rfl, h2 _ rfl, by omega⟩
  | inArray s e =>
    unfold checkReq
    refine (seenM_snd s).bind (fun a => (seenM_snd e).bind (fun b => (ofResult_snd _).mono
      (fun o F h1 h2 h3 rs hrs _ => ?_)))
    have h := h1 rs hrs
    unfold Infer.checkInArray at h
    cases a <;> cases b <;> simp at h
    exact ⟨_, _, h3 _ rfl, h2 _ rfl, by omega⟩
  | nonZero n =>
    unfold checkReq
    refine (seenM_snd n).bind (fun a => (ofResult_snd _).mono (fun o F h1 h2 rs hrs _ => ?_))
    have h := h1 rs hrs
    unfold Infer.checkNonZero at h
    cases a <;> simp at h
    exact ⟨_, h2 _ rfl, h⟩
  | whereCmp k l r =>
    unfold checkReq
    refine (seenM_snd l).bind (fun a => (seenM_snd r).bind (fun b => (ofResult_snd _).mono
      (fun o F h1 h2 h3 rs hrs _ => ?_)))
    have h := h1 rs hrs
    unfold Infer.checkWhere at h
    cases a <;> cases b <;> simp at h
    refine ⟨_, _, h3 _ rfl, h2 _ rfl, ?_⟩
    cases k <;> simpa [Cmp.kind, Cmp.Holds] using h
  | sharedBase ts =>
    unfold checkReq
    refine (firstKnown_snd ts).bind (fun o => ?_)
    split
    next b n =>
      refine (sharedRepl_snd b n ts).bind (fun rs => Snd.pure (fun F h1 _ rs' h hok => ?_))
      injection h with h
      subst h
      exact ⟨b, h1 hok⟩
    · exact Snd.pure (fun F _ rs h => nomatch h)

theorem applyRepl_snd (c : Cfg) : ∀ rs : List (Nat × Nat),
    Snd c.Δ (applyRepl c rs) (fun _ F => ReplOk F.V rs)
  | [] => Snd.pure (fun F r h => (nomatch h))
  | (src, dst) :: rs => by
    unfold applyRepl
    refine (uni_snd c src dst).bind (fun _ => (applyRepl_snd c rs).mono (fun _ F h1 h2 r hr => ?_))
    rcases List.mem_cons.1 hr with rfl | hr
    · exact h2
    · exact h1 r hr

theorem checkOrAdd_snd (c : Cfg) (r : Req) :
    Snd c.Δ (checkOrAdd c r) (fun _ F => r.Holds c.Δ F.V) := by
  unfold checkOrAdd
  refine (checkReq_snd c r).bind (fun o => ?_)
  split
  next rs => exact (applyRepl_snd c rs).mono (fun _ F h1 h2 => h2 rs rfl h1)
  · exact (addReq_snd r).mono (fun _ F h1 _ => h1)

theorem checkAll_snd (c : Cfg) : ∀ rs : List Req, Snd c.Δ (checkAll c rs) (fun o F =>
    ReplOk F.V o.2 → (∀ r ∈ o.1, r.Holds c.Δ F.V) → ∀ r ∈ rs, r.Holds c.Δ F.V)
  | [] => Snd.pure (fun F _ _ r h => (nomatch h))
  | r :: rs => by
    unfold checkAll
    refine (checkReq_snd c r).bind (fun o => (checkAll_snd c rs).bind (fun rest => ?_))
    split
    next ps =>
      refine Snd.pure (fun F h1 h2 h3 h4 r' hr => ?_)
      rcases List.mem_cons.1 hr with rfl | hr
      · exact h2 ps rfl (fun p hp => h3 p (List.mem_append_left _ hp))
      · exact h1 (fun p hp => h3 p (List.mem_append_right _ hp)) h4 r' hr
    · refine Snd.pure (fun F h1 h2 h3 h4 r' hr => ?_)
      rcases List.mem_cons.1 hr with rfl | hr
      · exact h4 _ (by simp)
      · exact h1 h3 (fun p hp => h4 p (List.mem_cons_of_mem _ hp)) r' hr

theorem WF.setReqs {S : St} {rs : List Req} (h : WF S) : WF { S with reqs := rs } :=
  ⟨h.root, h.out, h.lit, h.traits, h.busy⟩

theorem checkRequirements_snd (c : Cfg) : ∀ n, Snd c.Δ (checkRequirements c n) (fun _ _ => True)
  | 0 => Snd.stuck
  | n + 1 => by
    intro S x S' hw he
    unfold checkRequirements at he
    obtain ⟨rs, S1, k1, h1⟩ := bind_eq_ok.1 he
    unfold takeReqs at k1
    injection k1 with k2 k3
    subst k2 k3
    obtain ⟨r, S2, k4, h2⟩ := bind_eq_ok.1 h1
    have p1 := checkAll_snd c S.reqs _ _ _ hw.setReqs k4
    obtain ⟨y, S3, k5, h3⟩ := bind_eq_ok.1 h2
    unfold putReqs at k5
    injection k5 with _ k6
    subst k6
    have p2 : Post c.Δ { S2 with reqs := S2.reqs ++ r.1 } S' (fun F => ReplOk F.V r.2) := by
      split at h3
      next hem =>
        obtain ⟨_, rfl⟩ := pure_eq_ok.1 h3
        refine Post.refl p1.wf.setReqs (fun F p hp => ?_)
        rw [List.isEmpty_iff.1 hem] at hp
        exact nomatch hp
      · exact ((applyRepl_snd c r.2).bind (fun _ => (checkRequirements_snd c n).mono
          (fun _ F _ h => h))) _ _ _ p1.wf.setReqs h3
    refine ⟨p2.wf, ?_, ?_, ?_⟩
    · exact Grows.trans p1.grows p2.grows
    · exact p2.busy.trans p1.busy
    · intro X F hX hF
      have hb : S2.busy = S.busy := p1.busy
      obtain ⟨h4, h5⟩ := p2.back X F (by simp only [hb]; exact hX) hF
      have h6 : FinX c.Δ X F S2 := ⟨h4.proper, h4.eq, h4.root, h4.cons,
        fun q hq => h4.reqs q (List.mem_append_left _ hq), h4.ids, h4.names, h4.calls, h4.lost⟩
      obtain ⟨h7, h8⟩ := p1.back X F hX h6
      exact ⟨⟨h7.proper, h7.eq, h7.root, h7.cons,
        h8 h5 (fun q hq => h4.reqs q (List.mem_append_right _ hq)), h7.ids, h7.names, h7.calls, h7.lost⟩, trivial⟩

end

end Spade.Check

import Verif.Pipe.StallProps

/-
The signal of the condition of a register statement.
-/

namespace Spade.Pipe

theorem insertLast_inner (s : Subs) (x : Name) (sub : Sub) {K : Nat} (h : s.inner.length = K + 1) :
    (s.insertLast x sub).cur = s.cur ∧ (s.insertLast x sub).inner.length = K + 1 ∧
    ∀ k, k < K → (s.insertLast x sub).inner[k]? = s.inner[k]? := by
  refine ⟨rfl, Subs.length_insertLast h x sub, fun k hk => ?_⟩
  have hl : s.inner.dropLast.length = K := by rw [List.length_dropLast, h]; rfl
  unfold Subs.insertLast
  simp only
  rw [List.getElem?_append_left (by omega), List.getElem?_dropLast, if_pos (by omega)]

theorem bindVars_inner (time stage : Nat) {K : Nat} : ∀ (vs : List Var) (s : Subs),
    s.inner.length = K + 1 →
    (vs.foldl (Pipe.bindVar time stage) s).cur = s.cur ∧
    (vs.foldl (Pipe.bindVar time stage) s).inner.length = K + 1 ∧
    ∀ k, k < K → (vs.foldl (Pipe.bindVar time stage) s).inner[k]? = s.inner[k]?
  | [], s, h => ⟨rfl, h, fun _ _ => rfl⟩
  | v :: vs, s, h => by
    have h1 : (Pipe.bindVar time stage s v).cur = s.cur ∧
        (Pipe.bindVar time stage s v).inner.length = K + 1 ∧
        ∀ k, k < K → (Pipe.bindVar time stage s v).inner[k]? = s.inner[k]? := by
      unfold Pipe.bindVar setWire setAvailable
      split
      · exact insertLast_inner { s with live := s.live ++ [v.name] } _ _ h
      · exact insertLast_inner { s with live := s.live ++ [v.name] } _ _ h
    obtain ⟨h2, h3, h4⟩ := bindVars_inner time stage vs _ h1.2.1
    exact ⟨h2.trans h1.1, h3, fun k hk => (h4 k hk).trans (h1.2.2 k hk)⟩

/-- Later statements do not change the table of earlier stages. -/
theorem handleAll_prefix {enables} : ∀ (body : List Stmt) {st st'},
    handleAll enables body st = some st' → st.subs.inner.length = st.stage + 1 →
    st'.subs.cur = st.subs.cur ∧ ∀ k, k < st.stage → st'.subs.inner[k]? = st.subs.inner[k]?
  | [], st, st', h, _ => by
    simp only [handleAll, Option.some.injEq] at h
    subst h
    exact ⟨rfl, fun _ _ => rfl⟩
  | s :: ss, st, st', h, hlen => by
    unfold handleAll at h
    split at h
    · exact (nomatch h)
    · next st1 h1 =>
      unfold handleStatement at h1
      split at h1
      · next vars e =>
        split at h1
        · exact (nomatch h1)
        · next time _ =>
          simp only [Option.some.injEq] at h1
          subst h1
          obtain ⟨h2, h3, h4⟩ := bindVars_inner (time.getD 0) st.stage (vars.map (·.1)) st.subs hlen
          obtain ⟨h5, h6⟩ := handleAll_prefix ss h h3
          exact ⟨h5.trans h2, fun k hk => (h6 k hk).trans (h4 k hk)⟩
      · next vars e =>
        split at h1
        · exact (nomatch h1)
        · next time _ =>
          simp only [Option.some.injEq] at h1
          subst h1
          obtain ⟨h2, h3, h4⟩ := bindVars_inner (time.getD 0) st.stage (vars.map (·.1)) st.subs hlen
          obtain ⟨h5, h6⟩ := handleAll_prefix ss h h3
          exact ⟨h5.trans h2, fun k hk => (h6 k hk).trans (h4 k hk)⟩
      · simp only [Option.some.injEq] at h1
        subst h1
        exact handleAll_prefix ss h hlen
      · split at h1
        · exact (nomatch h1)
        · split at h1
          · exact (nomatch h1)
          · next nid regs subs hn =>
            split at h1
            · exact (nomatch h1)
            · simp only [Option.some.injEq] at h1
              subst h1
              unfold nextStage at hn
              split at hn
              · exact (nomatch hn)
              · simp only [Option.some.injEq, Prod.mk.injEq] at hn
                obtain ⟨_, _, rfl⟩ := hn
                obtain ⟨h5, h6⟩ := handleAll_prefix ss h (by simp [hlen])
                refine ⟨h5, fun k hk => ?_⟩
                rw [h6 k (by simp only; omega)]
                simp only
                rw [List.getElem?_append_left (by omega)]

theorem marker_prefix {enables ss st st' cond}
    (h : handleAll enables (.marker cond :: ss) st = some st')
    (hlen : st.subs.inner.length = st.stage + 1) :
    st'.subs.cur = st.subs.cur ∧ ∀ k, k ≤ st.stage → st'.subs.inner[k]? = st.subs.inner[k]? := by
  unfold handleAll at h
  split at h
  · exact (nomatch h)
  · next st1 h1 =>
    unfold handleStatement at h1
    simp only at h1
    split at h1
    · exact (nomatch h1)
    · split at h1
      · exact (nomatch h1)
      · next nid regs subs hn =>
        split at h1
        · exact (nomatch h1)
        · simp only [Option.some.injEq] at h1
          subst h1
          unfold nextStage at hn
          split at hn
          · exact (nomatch hn)
          · simp only [Option.some.injEq, Prod.mk.injEq] at hn
            obtain ⟨_, _, rfl⟩ := hn
            obtain ⟨h5, h6⟩ := handleAll_prefix ss h (by simp [hlen])
            refine ⟨h5, fun k hk => ?_⟩
            rw [h6 k (by simp only; omega)]
            simp only
            rw [List.getElem?_append_left (by omega)]

mutual
theorem value_extend {s s' : Subs} {g : Option (List (Option Sig) × List (Option Sig))} (K : Nat)
    (hl : s.inner.length = K) (hc : s'.cur = s.cur) (hcur : s.cur < K)
    (hs : ∀ k, k < K → s'.inner[k]? = s.inner[k]?) : ∀ (e : Expr) {r},
    value ⟨s, g⟩ e = some r → value ⟨s', g⟩ e = some r
  | .ident x, r, h => by
    simp only [value, Subs.lookup] at h ⊢
    rw [hc, hs _ hcur]
    exact h
  | .pref k x, r, h => by
    simp only [value, Subs.lookupReferenced] at h ⊢
    by_cases hk : k < K
    · rw [hs k hk]
      exact h
    · rw [List.getElem?_eq_none (by omega)] at h
      exact (nomatch h)
  | .lit _, r, h => h
  | .op _ args, r, h => by
    simp only [value, Option.map_eq_some_iff] at h ⊢
    obtain ⟨rs, h1, h2⟩ := h
    exact ⟨rs, values_extend K hl hc hcur hs args h1, h2⟩
  | .sel _ sc arms, r, h => by
    simp only [value] at h ⊢
    split at h
    · exact (nomatch h)
    · next r1 h1 =>
      rw [value_extend K hl hc hcur hs sc h1]
      simp only [Option.map_eq_some_iff] at h ⊢
      obtain ⟨rs, h1, h2⟩ := h
      exact ⟨rs, values_extend K hl hc hcur hs arms h1, h2⟩
  | .block _ _ e, r, h => by
    simp only [value] at h ⊢
    exact value_extend K hl hc hcur hs e h
  | .pipe _ _ _ _, r, h => h
  | .stageReady, r, h => by
    simp only [value, hc] at h ⊢
    exact h
  | .stageValid, r, h => by
    simp only [value, hc] at h ⊢
    exact h

theorem values_extend {s s' : Subs} {g : Option (List (Option Sig) × List (Option Sig))} (K : Nat)
    (hl : s.inner.length = K) (hc : s'.cur = s.cur) (hcur : s.cur < K)
    (hs : ∀ k, k < K → s'.inner[k]? = s.inner[k]?) : ∀ (es : List Expr) {rs},
    values ⟨s, g⟩ es = some rs → values ⟨s', g⟩ es = some rs
  | [], rs, h => h
  | e :: es, rs, h => by
    simp only [values] at h ⊢
    split at h
    · next r1 rs1 h1 h2 =>
      rw [value_extend K hl hc hcur hs e h1, values_extend K hl hc hcur hs es h2]
      exact h
    · exact (nomatch h)
end

theorem conditions_lowered {enables} : ∀ (body : List Stmt) {st st'},
    handleAll enables body st = some st' → st.subs.inner.length = st.stage + 1 → st.subs.cur = 0 →
    (∀ q ∈ st.eqns, q ∈ st'.eqns) ∧
    ∀ id e, some (id, e) ∈ conditions body →
      ∃ r, value ⟨st'.subs, none⟩ e = some r ∧ Eqn.comb (.expr id) r ∈ st'.eqns
  | [], st, st', h, _, _ => by
    simp only [handleAll, Option.some.injEq] at h
    subst h
    exact ⟨fun _ h => h, fun id e he => (by cases he)⟩
  | s :: ss, st, st', h, hlen, hcur => by
    have h0 := h
    unfold handleAll at h
    split at h
    · exact (nomatch h)
    · next st1 h1 =>
      unfold handleStatement at h1
      split at h1
      · next vars e =>
        split at h1
        · exact (nomatch h1)
        · next time _ =>
          simp only [Option.some.injEq] at h1
          subst h1
          obtain ⟨h2, h3, h4⟩ := bindVars_inner (time.getD 0) st.stage (vars.map (·.1)) st.subs hlen
          have := conditions_lowered ss h h3 (h2.trans hcur)
          exact this
      · next vars e =>
        split at h1
        · exact (nomatch h1)
        · next time _ =>
          simp only [Option.some.injEq] at h1
          subst h1
          obtain ⟨h2, h3, h4⟩ := bindVars_inner (time.getD 0) st.stage (vars.map (·.1)) st.subs hlen
          have := conditions_lowered ss h h3 (h2.trans hcur)
          exact this
      · simp only [Option.some.injEq] at h1
        subst h1
        exact conditions_lowered ss h hlen hcur
      · next cond =>
        obtain ⟨hp1, hp2⟩ := marker_prefix h0 hlen
        split at h1
        · exact (nomatch h1)
        · next ces lc hce =>
          split at h1
          · exact (nomatch h1)
          · next nid regs subs hn =>
            split at h1
            · exact (nomatch h1)
            · simp only [Option.some.injEq] at h1
              subst h1
              have hsub : subs.inner.length = st.stage + 1 + 1 ∧ subs.cur = 0 := by
                unfold nextStage at hn
                split at hn
                · exact (nomatch hn)
                · simp only [Option.some.injEq, Prod.mk.injEq] at hn
                  obtain ⟨_, _, rfl⟩ := hn
                  exact ⟨by simp [hlen], hcur⟩
              obtain ⟨h3, h4⟩ := conditions_lowered ss h hsub.1 hsub.2
              refine ⟨fun q hq => h3 q (by simp [hq]), fun id e he => ?_⟩
              rcases List.mem_cons.1 he with he | he
              · subst he
                simp only [condEqns] at hce
                split at hce
                · next r l hv _ =>
                  simp only [Option.some.injEq, Prod.mk.injEq] at hce
                  obtain ⟨rfl, _⟩ := hce
                  refine ⟨r, ?_, h3 _ (by simp)⟩
                  exact value_extend (st.stage + 1) hlen hp1 (by omega)
                    (fun k hk => hp2 k (by omega)) e hv
                · exact (nomatch hce)
              · exact h4 id e he

/-- **C28, conditions.**  The signal that stands for the condition of a register statement carries the
value of the condition, as written in stage 0 (see `C27_counterexample_condition`). -/
theorem C28_condition_signal {V : Type} (I : Interp V) (σ : Sig → Nat → V)
    (inputs : List Var) (body : List Stmt) (result : Expr) (nid eid : Nat) (p : Lowered)
    (hl : lowerPipeline inputs body result nid eid = some p) (hσ : ∀ q ∈ p.eqns, q.Holds I σ)
    (m id : Nat) (e : Expr) (hm : (conditions body)[m]? = some (some (id, e))) :
    ∃ r, value ⟨{ p.ctx.subs with cur := 0 }, none⟩ e = some r ∧
      ∀ c, condAt I σ body m c = I.truth (r.eval I σ c) := by
  unfold lowerPipeline at hl
  simp only at hl
  split at hl
  · exact (nomatch hl)
  next st hst =>
  split at hl
  · exact (nomatch hl)
  next ees cur hees =>
  split at hl
  · exact (nomatch hl)
  next ves vs hves =>
  split at hl
  · exact (nomatch hl)
  split at hl
  · exact (nomatch hl)
  simp only [Option.some.injEq] at hl
  subst hl
  have hb := bindVars_inner 0 0 inputs Subs.new (K := 0) rfl
  obtain ⟨_, h2⟩ := conditions_lowered body hst hb.2.1 hb.1
  obtain ⟨r, h3, h4⟩ := h2 id e (List.mem_of_getElem? hm)
  have hcur : st.subs.cur = 0 := (handleAll_prefix body hst hb.2.1).1.trans hb.1
  have hsubs : ({ st.subs with cur := 0 } : Subs) = st.subs := by
    rw [← hcur]
  refine ⟨r, by simp only [hsubs]; exact h3, fun c => ?_⟩
  have h5 := hσ (.comb (.expr id) r) (by simp [h4]) c
  simp only [condAt, condSigs, List.getElem?_map, hm, Option.map_some, Option.getD_some, sigTrue]
  rw [h5]

end Spade.Pipe

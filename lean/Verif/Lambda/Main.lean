import Verif.Lambda.Sim
/-!
# The code made for lambdas behaves like closures: expressions and calls
-/
namespace Spade.Lambda

variable {V : Type}
section
variable {I : Ids} {Q : HProg V} {items : List (Nat × LUnit)}

/-- What the code for a lambda is made of. -/
theorem lam_code {G isFn ps ss} {r : Exp V} {st st' : St} {L k outer clk ps' caps ss' r'}
    (hi : st.Inv)
    (hv : visit I G (.lam isFn ps ss r) st = some (.lam L k outer clk ps' caps ss' r', st'))
    (hf : Fin items st') (hc : Code Q items (lower (.lam L k outer clk ps' caps ss' r')).2) :
    ∃ clk₀ ps₁ st₄ man outs i l, handleKind I.clk isFn ps = some (clk₀, ps₁) ∧
      clk = ((st.push (some [])).addClock clk₀).1 ∧
      ps' = (visitPs ps₁ ((st.push (some [])).addClock clk₀).2).1 ∧
      visit I G (.block ss r) (visitPs ps₁ ((st.push (some [])).addClock clk₀).2).2 =
        some (.block ss' r', st₄) ∧ caps = st₄.close.1 ∧
      man.length = k ∧ k = ps'.length + 1 + caps.length ∧ outs.length = G.length ∧ (∀ x ∈ man, x ∉ outs) ∧
      outs.Nodup ∧ (∀ x ∈ man, st₄.next ≤ x) ∧ st₄.next ≤ i ∧ outer = outs.zip G ∧
      Q.lams.lookup L = some l ∧ l.members = caps.map (·.1) ∧ l.arity = ps'.length ∧
      Repl.replaceIn { outer, clk, ps := ps', caps, ss := (lowerS ss').1, r := (lower r').1 }
        { tparams := man ++ outs, arity := ps'.length, members := caps.map (·.1),
          inputs := lamInputs I.self I.clk I.args i clk } = some l.unit ∧
      EStep ((visitPs ps₁ ((st.push (some [])).addClock clk₀).2).2) st₄ ∧
      Step st₄ st' := by
  obtain ⟨clk₀, ps₁, ss₀, st₃, r₀, st₄, hk, h1, h2, hd⟩ := visit_lam hv
  have ea := addClock_step (c := clk₀) (push_inv' hi)
  have eb := visitPs_step (ps := ps₁) ea.inv
  obtain ⟨e1, _⟩ := visitS_step h1 (push_inv eb.inv)
  obtain ⟨e2, _⟩ := visit_step h2 e1.inv
  obtain ⟨_, _, _, _, _, _, _, e3⟩ := close_step (e1.trans e2.pstep)
  obtain ⟨s, t, hs, hcl, hg, hn, hb, e4⟩ := close_step ((ea.trans eb).trans e3.pstep)
  have hst := (makeDef_step (s := I.self) (c := I.clk) (a := I.args) (G := G)
      (clk := ((st.push (some [])).addClock clk₀).1)
      (ps := (visitPs ps₁ ((st.push (some [])).addClock clk₀).2).1) (caps := (st₄.close).2.close.1)
      (ss := ss₀) (r := r₀) e4.inv).toStep
  rw [← hd] at hst
  obtain ⟨man, outs, i, m1, m2, m3, m4, m5, m6, m7, m8⟩ := makeDef_parts hd
  simp only [HExp.lam.injEq] at m7
  obtain ⟨rfl, rfl, rfl, rfl, rfl, rfl, rfl, rfl⟩ := m7
  have hx := hc _ (show (st₄.close.2.close.2.next, (⟨_, _, _, _, _, _⟩ : Repl V)) ∈ _ from
    List.mem_append_right _ (List.mem_singleton.mpr rfl))
  obtain ⟨u, w, hu, hw, hq⟩ := hx
  have hu' := hf _ _ m8
  simp only at hu
  rw [hu'] at hu
  injection hu with hu
  subst hu
  have hnx : st₄.close.2.close.2.next = st₄.close.2.next := by rw [hcl]
  have hst' : Step st₄.close.2 st' := by
    refine Step.trans ⟨Nat.le_of_eq hnx.symm, ?_⟩ hst
    rw [hcl]
    exact fun _ _ h => h
  refine ⟨clk₀, ps₁, st₄.close.2, man, outs, i, _, hk, rfl, rfl, ?_, rfl, m1, rfl, m2, m3, m4,
    hnx ▸ m5, hnx ▸ m6, rfl, hq, rfl, rfl, hw, e3, hst'⟩
  show (visitS I G ss (St.push _ none)).bind _ = _
  rw [h1]
  simp only [Option.bind_some, h2, Option.map_some]

mutual
/-- Expressions give related values. -/
theorem sim {c : Calls V} {d : HCalls V} (hcd : CallsOk I Q items c d) {G ρ ρ'}
    (hρ : GenOk G ρ ρ') : ∀ {e : Exp V} {st st' : St} {h E F},
    visit I G e st = some (h, st') → st.Inv → (∀ g ∈ G, g < st.next) → Fin items st' →
    Code Q items (lower h).2 → Agree I Q items E F st.scopes (hnames h) →
    OptRel (relV I Q items) ((lower h).1.ev d ρ' F) (e.ev c ρ E)
  | .var x, st, st', h, E, F, hv, hi, hG, hf, hc, ha => by
    simp only [visit, Option.map_eq_some_iff] at hv
    obtain ⟨⟨n, ss⟩, hl, hv⟩ := hv
    simp only [Prod.mk.injEq] at hv
    obtain ⟨rfl, rfl⟩ := hv
    obtain ⟨hg, hr, _⟩ := look_some hl hi.scopes
    obtain ⟨v, t, h1, h2, h3⟩ := ha x n (hg.resolve ▸ hr.resolve) (by simp [hnames])
    simp only [lower, HExp.ev, Exp.ev, h1, h2]
    exact h3
  | .prim gs f args, st, st', h, E, F, hv, hi, hG, hf, hc, ha => by
    simp only [visit] at hv
    split at hv
    · rename_i hgs
      rw [Option.map_eq_some_iff] at hv
      obtain ⟨⟨as, st₁⟩, hl, hv⟩ := hv
      simp only [Prod.mk.injEq] at hv
      obtain ⟨rfl, rfl⟩ := hv
      obtain ⟨is, g1, g2⟩ := hρ.gens (gs := gs) (fun g hg => by
        rw [List.all_eq_true] at hgs; simpa using hgs g hg)
      simp only [lower, HExp.ev, Exp.ev, g1, g2, Option.bind_some]
      refine (sims hcd hρ hl hi hG hf hc (by simpa only [hnames] using ha)).bind fun ts vs hr => ?_
      rw [relV_datas hr]
      cases datas vs with
      | none => trivial
      | some ds =>
        simp only [Option.bind_some]
        cases f is ds with
        | none => trivial
        | some v => simp only [Option.map_some, OptRel, relV]
    · cases hv
  | .tup es, st, st', h, E, F, hv, hi, hG, hf, hc, ha => by
    simp only [visit, Option.map_eq_some_iff] at hv
    obtain ⟨⟨as, st₁⟩, hl, hv⟩ := hv
    simp only [Prod.mk.injEq] at hv
    obtain ⟨rfl, rfl⟩ := hv
    simp only [lower, HExp.ev, Exp.ev]
    exact (sims hcd hρ hl hi hG hf hc (by simpa only [hnames] using ha)).map fun ts vs hr => by
      simpa only [relV] using hr
  | .call u gs f args, st, st', h, E, F, hv, hi, hG, hf, hc, ha => by
    simp only [visit] at hv
    split at hv
    · rename_i hgs
      rw [Option.map_eq_some_iff] at hv
      obtain ⟨⟨as, st₁⟩, hl, hv⟩ := hv
      simp only [Prod.mk.injEq] at hv
      obtain ⟨rfl, rfl⟩ := hv
      obtain ⟨is, g1, g2⟩ := hρ.gens (gs := gs) (fun g hg => by
        rw [List.all_eq_true] at hgs; simpa using hgs g hg)
      simp only [lower, HExp.ev, Exp.ev, g1, g2, Option.bind_some]
      cases f is with
      | none => trivial
      | some js =>
        simp only [Option.bind_some]
        exact (sims hcd hρ hl hi hG hf hc (by simpa only [hnames] using ha)).bind fun ts vs hr =>
          hcd.unit u js ts vs hr
    · cases hv
  | .app f clk a, st, st', h, E, F, hv, hi, hG, hf, hc, ha => by
    simp only [visit, Option.bind_eq_some_iff, Option.map_eq_some_iff] at hv
    obtain ⟨⟨f', st₁⟩, h1, ⟨clk', st₂⟩, h2, ⟨a', st₃⟩, h3, hv⟩ := hv
    simp only [Prod.mk.injEq] at hv
    obtain ⟨rfl, rfl⟩ := hv
    obtain ⟨e1, _⟩ := visit_step h1 hi
    obtain ⟨e2, _⟩ := visits_step h2 e1.inv
    obtain ⟨e3, _⟩ := visit_step h3 e2.inv
    simp only [lower] at hc
    simp only [lower, HExp.ev, Exp.ev]
    refine (sim hcd hρ h1 hi hG (hf.step (e2.trans e3).toStep) hc.left.left
      (ha.sub (.refl _) (by simp only [hnames]; simp +contextual))).bind fun t v ht => ?_
    refine (sims hcd hρ h2 e1.inv (fun g hg => Nat.lt_of_lt_of_le (hG g hg) e1.next)
      (hf.step e3.toStep) hc.left.right
      (ha.sub e1.grow (by simp only [hnames]; simp +contextual))).bind fun ts vs hts => ?_
    refine (sim hcd hρ h3 e2.inv
      (fun g hg => Nat.lt_of_lt_of_le (hG g hg) (Nat.le_trans e1.next e2.next)) hf hc.right
      (ha.sub (e1.grow.trans e2.grow) (by simp only [hnames]; simp +contextual))).bind
        fun t' v' ht' => ?_
    exact hcd.method _ _ _ _ _ _ ht hts ht'
  | .block ss r, st, st', h, E, F, hv, hi, hG, hf, hc, ha => by
    simp only [visit, Option.bind_eq_some_iff, Option.map_eq_some_iff] at hv
    obtain ⟨⟨ss', st₁⟩, h1, ⟨r', st₂⟩, h2, hv⟩ := hv
    simp only [Prod.mk.injEq] at hv
    obtain ⟨rfl, rfl⟩ := hv
    replace h1 : visitS I G ss (st.push none) = some (ss', st₁) := h1
    obtain ⟨e1, _⟩ := visitS_step h1 (push_inv hi)
    obtain ⟨e2, _⟩ := visit_step h2 e1.inv
    obtain ⟨s, t, hs, hcl, hg, hn, _, hE⟩ := close_step (e1.trans e2.pstep)
    have hf2 : Fin items st₂ := by
      intro L u hl
      refine hf L u ?_
      rw [hcl]
      exact hl
    simp only [lower] at hc
    simp only [lower, HExp.ev, Exp.ev]
    refine (simS (N := hnames r') hcd hρ h1 (push_inv hi) hG (hf2.step e2.toStep) hc.left ?_).bind
      fun F' E' ha' => ?_
    · intro x n hr hm
      refine ha x n ?_ (by simpa only [hnames] using hm)
      simpa only [St.push, resolve, List.lookup_nil] using hr
    · exact sim hcd hρ h2 e1.inv (fun g hg => Nat.lt_of_lt_of_le (hG g hg) e1.next) hf2 hc.right ha'
  | .lam isFn ps ss r, st, st', h, E, F, hv, hi, hG, hf, hc, ha => by
    obtain ⟨hE, _⟩ := visit_step hv hi
    obtain ⟨L, k, outer, clk, ps', caps, ss', r', rfl⟩ : ∃ L k outer clk ps' caps ss' r',
        h = .lam L k outer clk ps' caps ss' r' := by
      obtain ⟨_, _, _, _, _, _, _, _, _, hd⟩ := visit_lam hv
      exact ⟨_, _, _, _, _, _, _, _, congrArg Prod.fst hd⟩
    obtain ⟨clk₀, ps₁, st₄, man, outs, i, l, hk, hclk, hps, hvb, hcaps, m1, m1', m2, m3, m4, m5, m6, m7, m8,
      m9, m10, m11, e4, hst⟩ := lam_code hi hv hf hc
    obtain ⟨is, _, g2⟩ := hρ.gens (gs := G) (fun _ h => h)
    obtain ⟨hGl, hz⟩ := hgens_zip g2
    -- captures resolve
    have hcap : ∀ c ∈ caps, resolve c.1 st.scopes = some c.2 := by
      intro c hcm
      have ea := addClock_step (c := clk₀) (push_inv' hi)
      have eb := visitPs_step (ps := ps₁) ea.inv
      obtain ⟨s, t, hs, hcl, hg, hn, hb, _⟩ := close_step ((ea.trans eb).trans e4.pstep)
      have hinv := e4.inv.scopes
      rw [hs] at hinv
      rw [hcaps, hcl] at hcm
      simp only at hcm
      cases hbar : s.barrier with
      | none => rw [hbar] at hcm; cases hcm
      | some cs =>
        rw [hbar, Option.getD_some] at hcm
        have := (hinv.2.1 cs hbar c hcm).resolve
        rwa [hg.resolve] at this
    obtain ⟨ts, t1, t2, t3⟩ := hevs_vars (I := I) (Q := Q) (items := items) (d := d) (ρ := ρ') (E := E)
      (F := F) (caps := caps) (fun c hcm => ha c.1 c.2 (hcap c hcm)
        (by simp only [hnames]; exact List.mem_map.mpr ⟨c, hcm, rfl⟩))
    have ho : outer.map (·.2) = G := by
      rw [m7]
      exact List.map_snd_zip (by omega)
    have hgens : l.unit.gens = man ++ G := by
      simp only [Repl.replaceIn, Option.bind_eq_some_iff, Option.map_eq_some_iff] at m11
      obtain ⟨_, _, _, _, _, _, hu⟩ := m11
      rw [← hu]
      simp only
      rw [m7, map_lookup m4 m3 m2]
    simp only [lower, HExp.ev, Exp.ev]
    rw [ho, g2]
    simp only [Option.bind_some]
    rw [t1]
    simp only [Option.bind_some, hcd.members, m8, Option.map_some, m9]
    rw [if_pos (by simp [t2])]
    simp only [OptRel, relV]
    refine ⟨⟨G, st, st', k, outer, clk, ps', caps, ss', r', l, hi, hG, hv, hf, hc, ?_, m8, ?_, ?_⟩, t3⟩
    · rw [List.map_fst_zip (by simp [t2])]
    · rw [hgens]; simp [m1, hGl]
    · intro g hg
      obtain ⟨j, j1, j2⟩ := hρ g hg
      refine ⟨j, j1, ?_⟩
      have hgm : g ∉ man := by
        intro hm
        have h1 := m5 g hm
        have h2 := hG g hg
        have h3 : st.next ≤ st₄.next := by
          have ea := addClock_step (c := clk₀) (push_inv' hi)
          have eb := visitPs_step (ps := ps₁) ea.inv
          exact Nat.le_trans (Nat.le_trans ea.next eb.next) e4.next
        omega
      rw [hgens, List.zip_append (by simp [m1]), lookup_append_none (lookup_zip_none hgm), hz g hg, j2]
/-- Several expressions give related values. -/
theorem sims {c : Calls V} {d : HCalls V} (hcd : CallsOk I Q items c d) {G ρ ρ'}
    (hρ : GenOk G ρ ρ') : ∀ {es : List (Exp V)} {st st' : St} {hs E F},
    visits I G es st = some (hs, st') → st.Inv → (∀ g ∈ G, g < st.next) → Fin items st' →
    Code Q items (lowers hs).2 → Agree I Q items E F st.scopes (hnamess hs) →
    OptRel (relVs I Q items) (hevs d ρ' F (lowers hs).1) (evs c ρ E es)
  | [], st, st', hs, E, F, hv, hi, hG, hf, hc, ha => by
    simp only [visits, Option.some.injEq, Prod.mk.injEq] at hv
    obtain ⟨rfl, rfl⟩ := hv
    simp only [lowers, hevs, evs, OptRel, relVs]
  | e :: es, st, st', hs, E, F, hv, hi, hG, hf, hc, ha => by
    simp only [visits, Option.bind_eq_some_iff, Option.map_eq_some_iff] at hv
    obtain ⟨⟨h', st₁⟩, h1, ⟨hs', st₂⟩, h2, hv⟩ := hv
    simp only [Prod.mk.injEq] at hv
    obtain ⟨rfl, rfl⟩ := hv
    obtain ⟨e1, _⟩ := visit_step h1 hi
    obtain ⟨e2, _⟩ := visits_step h2 e1.inv
    simp only [lowers] at hc
    simp only [lowers, hevs, evs]
    refine (sim hcd hρ h1 hi hG (hf.step e2.toStep) hc.left
      (ha.sub (.refl _) (by simp only [hnamess]; simp +contextual))).bind fun t v ht => ?_
    refine (sims hcd hρ h2 e1.inv (fun g hg => Nat.lt_of_lt_of_le (hG g hg) e1.next) hf hc.right
      (ha.sub e1.grow (by simp only [hnamess]; simp +contextual))).map fun ts vs hts => ?_
    simp only [relVs]
    exact ⟨ht, hts⟩
/-- Statements give related variables. -/
theorem simS {c : Calls V} {d : HCalls V} (hcd : CallsOk I Q items c d) {G ρ ρ'}
    (hρ : GenOk G ρ ρ') : ∀ {ss : List (Pat × Exp V)} {st st' : St} {hs E F N},
    visitS I G ss st = some (hs, st') → st.Inv → (∀ g ∈ G, g < st.next) → Fin items st' →
    Code Q items (lowerS hs).2 → Agree I Q items E F st.scopes (hnamesS hs ++ N) →
    OptRel (fun F' E' => Agree I Q items E' F' st'.scopes N)
      (hstms d ρ' F (lowerS hs).1) (stms c ρ E ss)
  | [], st, st', hs, E, F, N, hv, hi, hG, hf, hc, ha => by
    simp only [visitS, Option.some.injEq, Prod.mk.injEq] at hv
    obtain ⟨rfl, rfl⟩ := hv
    simp only [lowerS, hstms, stms, OptRel]
    simpa only [hnamesS, List.nil_append] using ha
  | (p, e) :: ss, st, st', hs, E, F, N, hv, hi, hG, hf, hc, ha => by
    simp only [visitS, Option.bind_eq_some_iff, Option.map_eq_some_iff] at hv
    obtain ⟨⟨h', st₁⟩, h1, ⟨hs', st₂⟩, h2, hv⟩ := hv
    simp only [Prod.mk.injEq] at hv
    obtain ⟨rfl, rfl⟩ := hv
    obtain ⟨e1, _⟩ := visit_step h1 hi
    have ep := visitP_step (p := p) e1.inv
    obtain ⟨e2, _⟩ := visitS_step h2 ep.inv
    simp only [lowerS] at hc
    simp only [lowerS, hstms, stms]
    refine (sim hcd hρ h1 hi hG (hf.step (ep.trans e2).toStep) hc.left
      (ha.sub (.refl _) (by simp only [hnamesS]; simp +contextual))).bind fun t v ht => ?_
    refine (bind_sim (p := p) e1.inv ht).bind fun F' E' hb => ?_
    refine simS hcd hρ h2 ep.inv
      (fun g hg => Nat.lt_of_lt_of_le (hG g hg) (Nat.le_trans e1.next ep.next)) hf hc.right ?_
    intro x n hr hm
    rcases hb.res x n hr with ⟨hlt, hr', he⟩ | ⟨_, hrel⟩
    · obtain ⟨v, t, a1, a2, a3⟩ := ha x n (e1.grow.resolve ▸ hr')
        (by simp only [hnamesS, List.mem_append] at hm ⊢; exact hm.imp Or.inr id)
      exact ⟨v, t, he.trans a1, (hb.frame n (Or.inl hlt)).trans a2, a3⟩
    · exact hrel
end

end
end Spade.Lambda

import Verif.Match.Lemmas
/-! The main induction over `isUseful`. -/
namespace Spade.Match

theorem applyCtor1_spec {w : Witness} {c ty fts} (hf : c.fields ty = some fts)
    (hl : fts.length ≤ w.length) :
    ∃ w', applyCtor1 w c ty = some w' ∧
      w'.reverse = .mk c (w.reverse.take fts.length) ty :: w.reverse.drop fts.length := by
  have h : ¬ w.length < fts.length := by omega
  refine ⟨_, by simp [applyCtor1, hf, h]; rfl, ?_⟩
  simp only [List.reverse_append, List.reverse_cons, List.reverse_nil, List.nil_append,
    List.singleton_append]
  congr 1
  · congr 1
    rw [List.take_reverse]
  · rw [List.drop_reverse]

theorem applyCtor_spec {ws : List Witness} {c ty fts heads} (hb : BuildOk c ty heads)
    (hf : c.fields ty = some fts)
    (hfa : ∀ c', Atom c' c → c'.fields ty = some fts)
    (hl : ∀ w ∈ ws, fts.length ≤ w.length) :
    ∃ ws', applyCtor ws c ty = some ws' ∧ (ws' = [] → ws = []) ∧
      (∀ w' ∈ ws', ∃ w ∈ ws, ∃ c', Atom c' c ∧
        w'.reverse = .mk c' (w.reverse.take fts.length) ty :: w.reverse.drop fts.length) := by
  cases hws : ws.isEmpty with
  | true =>
    refine ⟨[], ?_, ?_, by simp⟩
    · simp [List.isEmpty_iff] at hws; subst hws; simp [applyCtor]
    · intro _; simpa [List.isEmpty_iff] using hws
  | false =>
    have hne : ws ≠ [] := by intro h; subst h; simp at hws
    -- one witness
    have h1 : ∀ w ∈ ws, ∃ l : List Witness,
        applyCtorW c ty w = some l ∧ l ≠ [] ∧
        ∀ w' ∈ l, ∃ c', Atom c' c ∧
          w'.reverse = .mk c' (w.reverse.take fts.length) ty :: w.reverse.drop fts.length := by
      intro w hw
      have hlw := hl w hw
      have hnm : (∀ c', Atom c' c ↔ c' = c) → ∃ l : List Witness,
          (do return [← applyCtor1 w c ty]) = some l ∧ l ≠ [] ∧
          ∀ w' ∈ l, ∃ c', Atom c' c ∧
            w'.reverse = .mk c' (w.reverse.take fts.length) ty :: w.reverse.drop fts.length := by
        intro ha
        obtain ⟨w', e1, e2⟩ := applyCtor1_spec hf hlw
        refine ⟨[w'], by simp [e1], by simp, ?_⟩
        intro x hx; simp at hx; subst hx
        exact ⟨c, (ha c).2 rfl, e2⟩
      cases c with
      | missing all =>
        obtain ⟨l, e1, e2, e3⟩ := mapM_some (l := all) (f := fun c' => applyCtor1 w c' ty) (by
          intro c' hc'
          obtain ⟨w', e, _⟩ := applyCtor1_spec (hfa c' hc') hlw
          exact ⟨w', e⟩)
        refine ⟨l, e1, ?_, ?_⟩
        · obtain ⟨c', hc'⟩ := hb.1
          obtain ⟨y, hy, _⟩ := e3 c' hc'
          intro h; subst h; simp at hy
        · intro w' hw'
          obtain ⟨c', hc', e⟩ := e2 w' hw'
          obtain ⟨w'', e', e''⟩ := applyCtor1_spec (hfa c' hc') hlw
          rw [e] at e'; cases e'
          exact ⟨c', hc', e''⟩
      | _ => exact hnm (fun _ => Iff.rfl)
    obtain ⟨wss, e1, e2, e3⟩ := mapM_some (fun w hw => by
      obtain ⟨l, h, _⟩ := h1 w hw; exact ⟨l, h⟩)
    refine ⟨wss.flatten, ?_, ?_, ?_⟩
    · simp only [applyCtor, hws, Bool.false_eq_true, if_false]
      rw [e1]; rfl
    · intro hfl
      exfalso
      cases ws with
      | nil => exact hne rfl
      | cons w ws =>
        obtain ⟨l, hl', e⟩ := e3 w (by simp)
        obtain ⟨l', h, hne', _⟩ := h1 w (by simp)
        rw [h] at e; cases e
        apply hne'
        have := List.flatten_eq_nil_iff.1 hfl l hl'
        exact this
    · intro w' hw'
      obtain ⟨l, hl', hw'⟩ := List.mem_flatten.1 hw'
      obtain ⟨w, hw, e⟩ := e2 l hl'
      obtain ⟨l', h, _, hp⟩ := h1 w hw
      rw [h] at e; cases e
      obtain ⟨c', hc', e⟩ := hp w' hw'
      exact ⟨w, hw, c', hc', e⟩

/-- What `isUseful` on a stack of wildcards computes. -/
structure UsefulSpec (tys : List Ty) (rows : List PatStack) (ws : List Witness) : Prop where
  len : ∀ w ∈ ws, w.length = tys.length
  sound : ws = [] → NoOpaques tys → ∀ vs, HasTys vs tys → ∃ row ∈ rows, DMs Incl row vs
  witness : ∀ w ∈ ws, ∃ vs, HasTys vs tys ∧ DMs Incl w.reverse vs ∧
    ∀ row ∈ rows, ¬ DMs Excl row vs

theorem isUseful_spec (n : Nat) : ∀ (tys : List Ty) (rows : List PatStack), weights tys ≤ n →
    NoEnumViews tys → (∀ row ∈ rows, DWTs row tys) →
    ∃ ws, isUseful (tys.map DPat.wildcard) rows = some ws ∧ UsefulSpec tys rows ws := by
  induction n using Nat.strongRecOn with
  | ind n ih =>
  intro tys rows hn hev hrows
  cases tys with
  | nil =>
    have hr : ∀ row ∈ rows, row = [] := by
      intro row hrow; have := hrows row hrow; cases this; rfl
    refine ⟨if rows.isEmpty then [[]] else [], by simp [isUseful], ?_, ?_, ?_⟩
    · intro w hw; split at hw <;> simp_all
    · intro h _ vs hvs
      cases hvs
      cases rows with
      | nil => simp at h
      | cons row rows => exact ⟨row, by simp, by rw [hr row (by simp)]; simp [DMs]⟩
    · intro w hw
      cases rows with
      | nil => simp at hw; subst hw; exact ⟨[], .nil, by simp [DMs], by simp⟩
      | cons row rows => simp at hw
  | cons ty tys =>
    have hev' : NoEnumView ty ∧ NoEnumViews tys := by simpa [NoEnumViews] using hev
    -- heads
    obtain ⟨heads, hh1, hh2, hh3⟩ := mapM_some (l := rows)
      (f := fun row => row.head?.map DPat.ctor) (by
        intro row hrow
        cases hrows row hrow with
        | cons h _ => exact ⟨_, rfl⟩)
    have hheads : ∀ c ∈ heads, ∃ d, DWT d ty ∧ d.ctor = c := by
      intro c hc
      obtain ⟨row, hrow, e⟩ := hh2 c hc
      cases hrows row hrow with
      | cons h _ => simp at e; exact ⟨_, h, e⟩
    have hheadmem : ∀ d ps, (d :: ps) ∈ rows → d.ctor ∈ heads := by
      intro d ps h
      obtain ⟨c, hc, e⟩ := hh3 _ h
      simp at e; rw [e]; exact hc
    obtain ⟨cs, hs1, hs2, hs3, hs4⟩ := splitWildcard_spec hev'.1 hheads
    -- per constructor
    have hstep : ∀ c ∈ cs, ∃ fts rows' u u', c.fields ty = some fts ∧
        specializeRows c rows = some rows' ∧
        isUseful ((fts ++ tys).map DPat.wildcard) rows' = some u ∧
        applyCtor u c ty = some u' ∧
        (∀ r, r ∈ rows' ↔ RowFrom c rows r) ∧ UsefulSpec (fts ++ tys) rows' u ∧
        (u' = [] → u = []) ∧
        (∀ w' ∈ u', ∃ w ∈ u, ∃ c', Atom c' c ∧
          w'.reverse = .mk c' (w.reverse.take fts.length) ty :: w.reverse.drop fts.length) := by
      intro c hc
      obtain ⟨fts, hf⟩ := (hs2 c hc).fields_some
      obtain ⟨rows', hr1, hr2, hr3⟩ := specializeRows_some (tys := tys) (hs2 c hc) hf hrows
      have hw := fields_weight hf
      have hlt : weights (fts ++ tys) < n := by
        have : weights (fts ++ tys) = weights fts + weights tys := by
          clear hr2 hf hw hr1 hr3
          induction fts with
          | nil => simp [weights]
          | cons t ts ih => simp [weights, ih]; omega
        simp [weights] at hn
        omega
      obtain ⟨u, hu1, hu2⟩ := ih _ hlt (fts ++ tys) rows' (Nat.le_refl _)
        (noEnumViews_append.2 ⟨(hs2 c hc).noEnumView hf hev'.1, hev'.2⟩) hr2
      obtain ⟨u', ha1, ha2, ha3⟩ := applyCtor_spec (ws := u) (hs4 c hc) hf (by
          intro c' hc'
          cases hs2 c hc with
          | missing h => obtain ⟨b, rfl⟩ := h c' hc'; simpa [Ctor.fields] using hf
          | _ => simp only [Atom] at hc'; subst hc'; exact hf) (by
        intro w hw; rw [hu2.len w hw]; simp)
      exact ⟨fts, rows', u, u', hf, hr1, hu1, ha1, hr3, hu2, ha2, ha3⟩
    -- the loop
    have hloop : ∀ c ∈ cs, ∃ u', (match h : (DPat.wildcard ty).specialize c with
        | none => none
        | some fs => do
          let rows' ← specializeRows c rows
          let u ← isUseful (fs ++ tys.map DPat.wildcard) rows'
          applyCtor u c ty) = some u' := by
      intro c hc
      obtain ⟨fts, rows', u, u', h1, h2, h3, h4, _⟩ := hstep c hc
      refine ⟨u', ?_⟩
      have hsp : (DPat.wildcard ty).specialize c = some (fts.map DPat.wildcard) := by
        simp [DPat.specialize, DPat.wildcard, DPat.ctor, DPat.ty, h1]
      rw [List.map_append] at h3
      split
      · rename_i h; rw [hsp] at h; cases h
      · rename_i fs h; rw [hsp] at h; cases h
        simp [h2, h3, h4]
    obtain ⟨us, hus1, hus2, hus3⟩ := mapM_some hloop
    have hloopeq : ∀ c ∈ cs, ∀ u', (match h : (DPat.wildcard ty).specialize c with
        | none => none
        | some fs => do
          let rows' ← specializeRows c rows
          let u ← isUseful (fs ++ tys.map DPat.wildcard) rows'
          applyCtor u c ty) = some u' → ∃ fts rows' u, c.fields ty = some fts ∧
        (∀ r, r ∈ rows' ↔ RowFrom c rows r) ∧ UsefulSpec (fts ++ tys) rows' u ∧
        (u' = [] → u = []) ∧
        (∀ w' ∈ u', ∃ w ∈ u, ∃ c', Atom c' c ∧
          w'.reverse = .mk c' (w.reverse.take fts.length) ty :: w.reverse.drop fts.length) := by
      intro c hc u' hu'
      obtain ⟨fts, rows', u, u'', h1, h2, h3, h4, h5, h6, h7, h8⟩ := hstep c hc
      have hsp : (DPat.wildcard ty).specialize c = some (fts.map DPat.wildcard) := by
        simp [DPat.specialize, DPat.wildcard, DPat.ctor, DPat.ty, h1]
      rw [List.map_append] at h3
      split at hu'
      · cases hu'
      · rename_i fs h; rw [hsp] at h; cases h
        simp [h2, h3, h4] at hu'
        subst hu'
        exact ⟨fts, rows', u, h1, h5, h6, h7, h8⟩
    have hres : isUseful ((ty :: tys).map DPat.wildcard) rows = some us.flatten := by
      rw [List.map_cons, isUseful]
      simp only [hh1, Option.bind_eq_bind, Option.bind_some]
      have : (DPat.wildcard ty).ctor.split (DPat.wildcard ty).ty heads = some cs := by
        simpa [DPat.wildcard, DPat.ctor, DPat.ty, Ctor.split] using hs1
      rw [this]
      simp only [Option.bind_some]
      have hty : (DPat.wildcard ty).ty = ty := rfl
      rw [hty]
      refine Eq.trans (congrArg (fun o => Option.bind o _) hus1) ?_
      simp [foldl_extendW]
    refine ⟨us.flatten, hres, ?_, ?_, ?_⟩
    · intro w' hw'
      obtain ⟨u', hu', hw'⟩ := List.mem_flatten.1 hw'
      obtain ⟨c, hc, e⟩ := hus2 u' hu'
      obtain ⟨fts, rows', u, h1, h2, h3, h4, h5⟩ := hloopeq c hc u' e
      obtain ⟨w, hw, c', _, e⟩ := h5 w' hw'
      have := congrArg List.length e
      have hl := h3.len w hw
      simp at this hl ⊢
      omega
    · intro hnil hno vs hvs
      have hno' : NoOpaque ty ∧ NoOpaques tys := by simpa [NoOpaques] using hno
      cases hvs with
      | @cons v _ vs _ hv hvs =>
      obtain ⟨c, hc, hin⟩ := hs3 hno'.1 v hv
      obtain ⟨u', hu', e⟩ := hus3 c hc
      have hu'nil : u' = [] := List.flatten_eq_nil_iff.1 hnil u' hu'
      obtain ⟨fts, rows', u, h1, h2, h3, h4, h5⟩ := hloopeq c hc u' e
      have hargs := (hs2 c hc).hasTys h1 hv hin
      obtain ⟨row', hrow', hm⟩ := h3.sound (h4 hu'nil)
        (noOpaques_append.2 ⟨(hs2 c hc).noOpaque h1 hno'.1, hno'.2⟩) (valArgs v ++ vs)
        (hargs.append hvs)
      obtain ⟨p, ps, fs, hmem, hcov, hsp, rfl⟩ := (h2 row').1 hrow'
      cases hrows _ hmem with
      | cons hp hps =>
      obtain ⟨fs', hsp', hwt⟩ := specialize_some (hs2 c hc) h1 hp hcov
      rw [hsp] at hsp'; cases hsp'
      have hlen : fs.length = (valArgs v).length := by
        rw [hwt.length_eq, hargs.length_eq]
      rw [DMs_append hlen] at hm
      exact ⟨_, hmem, match_of_specialized (hs2 c hc) hp hv hin hcov hsp hm.1, hm.2⟩
    · intro w' hw'
      obtain ⟨u', hu', hw'⟩ := List.mem_flatten.1 hw'
      obtain ⟨c, hc, e⟩ := hus2 u' hu'
      obtain ⟨fts, rows', u, h1, h2, h3, h4, h5⟩ := hloopeq c hc u' e
      obtain ⟨w, hw, c', hat, erev⟩ := h5 w' hw'
      obtain ⟨vs0, hvs0, hwm, hun⟩ := h3.witness w hw
      obtain ⟨args, vs, rfl, hargs, hvs⟩ := hvs0.split_append
      obtain ⟨_, v, hv, hva, hwit, hrow⟩ := (hs4 c hc).2 c' fts args hat h1 hargs
      refine ⟨v :: vs, .cons hv hvs, ?_, ?_⟩
      · rw [erev]
        have hl := h3.len w hw
        have hla := hargs.length_eq
        have hsplit : DMs Incl (w.reverse.take fts.length ++ w.reverse.drop fts.length)
            (args ++ vs) := by rw [List.take_append_drop]; exact hwm
        rw [DMs_append (by simp at hl ⊢; omega)] at hsplit
        exact ⟨hwit _ hsplit.1, hsplit.2⟩
      · intro row hrow' hm
        cases hrows row hrow' with
        | @cons p _ ps _ hp hps =>
        simp only [DMs] at hm
        obtain ⟨hcov, hfs⟩ := hrow p hp (hheadmem p ps hrow') hm.1
        obtain ⟨fs, hsp, hwt⟩ := specialize_some (hs2 c hc) h1 hp hcov
        refine hun (fs ++ ps) ((h2 _).2 ⟨p, ps, fs, hrow', hcov, hsp, rfl⟩) ?_
        rw [DMs_append (by rw [hwt.length_eq, hargs.length_eq])]
        exact ⟨hfs fs hsp, hm.2⟩

end Spade.Match

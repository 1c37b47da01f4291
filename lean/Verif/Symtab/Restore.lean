import Verif.Symtab.Lookup
/-! Lookups depend only on the scopes and on what is stored about the items in them; closing a scope
therefore brings back all lookups (C24). -/
namespace Spade.Symtab

/-- Two tables with the same scopes that store the same about all items in these. -/
structure Agree (t t' : Table) : Prop where
  scopes : t'.scopes = t.scopes
  ns : t'.ns = t.ns
  base : t'.base = t.base
  types : ∀ (o : Nat) s q id, t.scopes[o]? = some s → get s q = some id →
    (get t'.types id).isSome = (get t.types id).isSome
  things : ∀ (o : Nat) s q id, t.scopes[o]? = some s → get s q = some id →
    get t'.things id = get t.things id
  vis : ∀ (o : Nat) s q id, t.scopes[o]? = some s → get s q = some id → get t'.vis id = get t.vis id

theorem start_agree {t t' : Table} (h : Agree t t') (path ns : Path) :
    start t' path ns = start t path ns := by
  simp only [start, h.scopes, h.base, h.ns]

theorem canon_agree {t t' : Table} (h : Agree t t') (check : Bool) : ∀ fuel,
    (∀ forbidden path ns, canon fuel t' check forbidden path ns = canon fuel t check forbidden path ns) ∧
    (∀ forbidden ns off q segs, walk fuel t' check forbidden ns off q segs =
      walk fuel t check forbidden ns off q segs) ∧
    (∀ forbidden loc ns off q segs, step fuel t' check forbidden loc ns off q segs =
      step fuel t check forbidden loc ns off q segs) := by
  intro fuel
  induction fuel with
  | zero => refine ⟨?_, ?_, ?_⟩ <;> intros <;> simp [canon, walk, step]
  | succ fuel ih =>
    obtain ⟨ih1, ih2, ih3⟩ := ih
    refine ⟨?_, ?_, ?_⟩
    · intro forbidden path ns
      simp only [canon, start_agree h]
      split
      · rfl
      · exact ih2 ..
    · intro forbidden ns off q segs
      cases segs with
      | nil => simp [walk]
      | cons s segs =>
        simp only [walk, ih3]
        split
        · exact ih2 ..
        · rfl
    · intro forbidden loc ns off q segs
      simp only [step, h.scopes]
      cases hs : t.scopes[off]? with
      | none => rfl
      | some scope =>
        dsimp only
        cases hg : get scope q with
        | none => rfl
        | some id =>
          simp only [checkVis, h.base, h.vis off scope q id hs hg, h.types off scope q id hs hg,
            h.things off scope q id hs hg, ih1, ih3]

theorem lookup_agree {t t' : Table} (h : Agree t t') (fuel : Nat) (check : Bool) (path ns : Path) :
    lookup fuel t' check path ns = lookup fuel t check path ns := by
  simp only [lookup, (canon_agree h check fuel).1, h.scopes]

/-- The ids in the scopes belong to items that have been declared. -/
theorem ids_below (evs : List Ev) (t : Table) (h : run evs = some t) :
    ∀ (o : Nat) s q id, t.scopes[o]? = some s → get s q = some id → id < itemsOf evs := by
  revert evs t
  apply run_induct
  · intro o s q id hs hg
    have : s = [([], 0)] := by
      cases o with
      | zero => simpa [newTable] using hs.symm
      | succ o => simp [newTable] at hs
    subst this
    simp only [get] at hg
    split at hg
    · cases hg; simp [itemsOf]
    · cases hg
  · intro evs t e t' hrun ih ha o s q id hs hg
    obtain ⟨hlen, hns, _, hid, hpos⟩ := run_facts evs t hrun
    have hmono : itemsOf evs ≤ itemsOf (evs ++ [e]) := by
      rw [itemsOf_snoc]; cases e <;> simp
    suffices h : id < itemsOf evs ∨ (id = itemsOf evs ∧ ∃ o n d, e = .declare o n d) by
      rcases h with h | ⟨h, o, n, d, rfl⟩
      · omega
      · rw [itemsOf_snoc]; simp; omega
    have ins : ∀ (k : Nat) (q' : Path) (nid : Nat), t'.scopes = insertAt k q' nid t.scopes →
        id = nid ∨ id < itemsOf evs := by
      intro k q' nid hsc
      rw [hsc, getElem?_insertAt] at hs
      split at hs
      · obtain ⟨s', hs', rfl⟩ := Option.map_eq_some_iff.mp hs
        simp only [get] at hg
        split at hg
        · cases hg; exact Or.inl rfl
        · exact Or.inr (ih _ _ _ _ hs' hg)
      · exact Or.inr (ih _ _ _ _ hs hg)
    cases e with
    | openScope =>
      simp [apply, newScope] at ha; subst ha
      cases o with
      | zero => simp at hs; subst hs; simp [get] at hg
      | succ o => exact Or.inl (ih o s q id (by simpa using hs) hg)
    | closeScope =>
      simp only [apply] at ha
      split at ha
      · simp [closeScope] at ha; subst ha
        exact Or.inl (ih (o + 1) s q id (by simpa using hs) hg)
      · cases ha
    | declare o' n d =>
      simp only [apply, add] at ha
      split at ha
      · simp at ha
        rcases ins o' (t.ns ++ n) t.nextId (by subst ha; rfl) with h | h
        · exact Or.inr ⟨by omega, _, _, _, rfl⟩
        · exact Or.inl h
      · cases ha
    | reAdd s' i =>
      simp only [apply, reAdd] at ha
      split at ha
      · rename_i hc
        simp at ha
        rcases ins 0 (t.ns ++ [s']) i (by subst ha; rfl) with h | h
        · subst h
          left
          false_or_by_contra
          have := ((run_described evs t hrun).2.1 id (Or.inl (by omega))).1
          simp [this] at hc
        · exact Or.inl h
      · cases ha
    | pushNs s' => simp [apply, pushNs] at ha; subst ha; exact Or.inl (ih _ _ _ _ hs hg)
    | popNs =>
      simp only [apply, popNs] at ha
      split at ha
      · cases ha
      · simp at ha; subst ha; exact Or.inl (ih _ _ _ _ hs hg)
    | setBase p => simp [apply, setBase] at ha; subst ha; exact Or.inl (ih _ _ _ _ hs hg)

theorem described_append {evs : List Ev} {id : Nat} {d : Entry} (h : Described evs id d)
    (evs' : List Ev) : Described (evs ++ evs') id d := by
  obtain ⟨k, o, n, hk, hid⟩ := h
  have hlt := (List.getElem?_eq_some_iff.mp hk).1
  exact ⟨k, o, n, by rw [List.getElem?_append_left hlt]; exact hk,
    by rw [List.take_append_of_le_length (by omega)]; exact hid⟩

theorem insertAt_append (q : Path) (i : Nat) {o : Nat} {extra : List Scope} (ss : List Scope)
    (h : o < extra.length) : insertAt o q i (extra ++ ss) = insertAt o q i extra ++ ss := by
  induction extra generalizing o with
  | nil => simp at h
  | cons s extra ih =>
    cases o with
    | zero => simp [insertAt]
    | succ o => simp [insertAt, ih (by simpa using h)]

/-- Events that stay inside a scope leave the scopes around it alone. -/
theorem inner_scopes {evs : List Ev} {t : Table} (hrun : run evs = some t) (inner : List Ev)
    (hdepth : ∀ j, j ≤ inner.length → depthOf evs < depthOf (evs ++ [.openScope] ++ inner.take j))
    (hlevel : ∀ (j : Nat) o n e, inner[j]? = some (.declare o n e) →
      depthOf evs + o + 1 ≤ depthOf (evs ++ [.openScope] ++ inner.take j)) :
    ∀ j, j ≤ inner.length → ∀ t', run (evs ++ [.openScope] ++ inner.take j) = some t' →
      ∃ extra, t'.scopes = extra ++ t.scopes ∧
        extra.length + depthOf evs = depthOf (evs ++ [.openScope] ++ inner.take j) := by
  have hl0 := (run_facts evs t hrun).1
  intro j
  induction j with
  | zero =>
    intro _ t' h
    simp only [List.take_zero, List.append_nil] at h ⊢
    rw [run_snoc, hrun] at h
    simp [apply, newScope] at h
    subst h
    refine ⟨[[]], by simp, ?_⟩
    rw [depthOf_snoc]; simp; omega
  | succ j ih =>
    intro hj t' h
    have hlt : j < inner.length := by omega
    have htake : inner.take (j + 1) = inner.take j ++ [inner[j]] := by
      rw [List.take_succ_eq_append_getElem hlt]
    have hget : inner[j]? = some inner[j] := List.getElem?_eq_getElem hlt
    have hd1 := hdepth (j + 1) hj
    have hl1 := hlevel j
    rw [hget] at hl1
    rw [htake, ← List.append_assoc] at h hd1 ⊢
    generalize inner[j] = e at *
    rw [run_snoc] at h
    obtain ⟨t1, h1, ha⟩ := Option.bind_eq_some_iff.mp h
    obtain ⟨extra, hsc, hlen⟩ := ih (by omega) t1 h1
    have hd0 := hdepth j (by omega)
    rw [depthOf_snoc] at hd1 ⊢
    clear ih h h1
    generalize depthOf (evs ++ [.openScope] ++ inner.take j) = D at *
    cases e with
    | openScope =>
      simp [apply, newScope] at ha; subst ha
      exact ⟨[] :: extra, by simp [hsc], by simp; omega⟩
    | closeScope =>
      simp only [apply] at ha
      split at ha
      · simp [closeScope] at ha; subst ha
        cases extra with
        | nil => simp at hlen hd1; omega
        | cons s extra => exact ⟨extra, by simp [hsc], by simp at hlen ⊢; omega⟩
      · cases ha
    | declare o n d =>
      have hl := hl1 o n d rfl
      simp only [apply, add] at ha
      split at ha
      · simp at ha; subst ha
        refine ⟨insertAt o (t1.ns ++ n) t1.nextId extra, ?_, by simp [length_insertAt]; omega⟩
        have : o < extra.length := by omega
        simp only [hsc]; exact insertAt_append _ _ _ this
      · cases ha
    | reAdd s' i =>
      simp only [apply, reAdd] at ha
      split at ha
      · simp at ha; subst ha
        cases extra with
        | nil => simp at hlen; omega
        | cons s extra =>
          exact ⟨((t1.ns ++ [s'], i) :: s) :: extra, by simp [hsc, insertAt], by simp at hlen ⊢; omega⟩
      · cases ha
    | pushNs s' => simp [apply, pushNs] at ha; subst ha; exact ⟨extra, hsc, by simp; omega⟩
    | popNs =>
      simp only [apply, popNs] at ha
      split at ha
      · cases ha
      · simp at ha; subst ha; exact ⟨extra, hsc, by simp; omega⟩
    | setBase p => simp [apply, setBase] at ha; subst ha; exact ⟨extra, hsc, by simp; omega⟩

/-- **C24, closing a scope.**  After any history, open a scope, do whatever may be done inside it —
declare, open and close further scopes, enter and leave namespaces — and close it: then every
lookup, of every path from every namespace, gives what it gave before the scope was opened.  The
conditions on `inner` say that it does not close the scope itself, does not declare names in the
scopes around it (`hlevel`; `add_thing_at_offset` can do that), and leaves the namespaces it
entered. -/
theorem C24_scope_restored (evs inner : List Ev) (t t' : Table) (hrun : run evs = some t)
    (hrun' : run (evs ++ [.openScope] ++ inner ++ [.closeScope]) = some t')
    (hdepth : ∀ j, j ≤ inner.length → depthOf evs < depthOf (evs ++ [.openScope] ++ inner.take j))
    (hclosed : depthOf (evs ++ [.openScope] ++ inner) = depthOf evs + 1)
    (hlevel : ∀ (j : Nat) o n e, inner[j]? = some (.declare o n e) →
      depthOf evs + o + 1 ≤ depthOf (evs ++ [.openScope] ++ inner.take j))
    (hns : nsOf (evs ++ [.openScope] ++ inner) = nsOf evs)
    (hbase : baseOf (evs ++ [.openScope] ++ inner) = baseOf evs) :
    ∀ fuel check path ns, lookup fuel t' check path ns = lookup fuel t check path ns := by
  intro fuel check path ns
  apply lookup_agree
  have hf := run_facts evs t hrun
  have hf' := run_facts _ t' hrun'
  have hd := run_described evs t hrun
  have hd' := run_described _ t' hrun'
  rw [run_snoc] at hrun'
  obtain ⟨t1, h1, ha⟩ := Option.bind_eq_some_iff.mp hrun'
  obtain ⟨extra, hsc, hlen⟩ := inner_scopes hrun inner hdepth hlevel inner.length (Nat.le_refl _) t1
    (by rw [List.take_length]; exact h1)
  rw [List.take_length, hclosed] at hlen
  have hone : ∃ s, extra = [s] := List.length_eq_one_iff.mp (by omega)
  obtain ⟨s0, rfl⟩ := hone
  have hscopes : t'.scopes = t.scopes := by
    simp only [apply] at ha
    split at ha
    · simp [closeScope] at ha; subst ha; simp [hsc]
    · cases ha
  -- what is stored about the items of `evs` is unchanged
  have hstored : ∀ (o : Nat) s q id, t.scopes[o]? = some s → get s q = some id →
      (get t'.types id).isSome = (get t.types id).isSome ∧ get t'.things id = get t.things id ∧
      get t'.vis id = get t.vis id := by
    intro o s q id hs hg
    have hlt := ids_below evs t hrun o s q id hs hg
    by_cases h0 : id = 0
    · subst h0
      rw [(hd.2.1 0 (Or.inr rfl)).1, (hd'.2.1 0 (Or.inr rfl)).1, (hd.2.1 0 (Or.inr rfl)).2,
        (hd'.2.1 0 (Or.inr rfl)).2, hd.2.2.2.1, hd'.2.2.2.1]
      simp
    · obtain ⟨d, hdd⟩ := hd.2.2.2.2 id (by omega) hlt
      obtain ⟨f1, f2, f3⟩ := hd.1 id d hdd
      have hdd' : Described (evs ++ [.openScope] ++ inner ++ [.closeScope]) id d := by
        rw [List.append_assoc, List.append_assoc]; exact described_append hdd _
      obtain ⟨g1, g2, g3⟩ := hd'.1 id d hdd'
      exact ⟨by rw [f1, g1], by rw [f2, g2], by rw [f3, g3]⟩
  refine ⟨hscopes, ?_, ?_, fun o s q id hs hg => (hstored o s q id hs hg).1,
    fun o s q id hs hg => (hstored o s q id hs hg).2.1,
    fun o s q id hs hg => (hstored o s q id hs hg).2.2⟩
  · rw [hf'.2.1, nsOf_snoc, hf.2.1]; exact hns
  · rw [hf'.2.2.1, baseOf_snoc, hf.2.2.1]; exact hbase

end Spade.Symtab

import Verif.Symtab.Scope
/-! Lookups of plain names, and lookups after a scope is closed (C24). -/
namespace Spade.Symtab

theorem findScope_some {q : Path} {ss : List Scope} {o : Nat} :
    findScope q ss = some o ↔
      (∃ s, ss[o]? = some s ∧ get s q ≠ none) ∧ ∀ o' s, o' < o → ss[o']? = some s → get s q = none := by
  induction ss generalizing o with
  | nil => simp [findScope]
  | cons s ss ih =>
    simp only [findScope]
    split
    · rename_i h
      rw [Option.isSome_iff_ne_none] at h
      cases o with
      | zero => simp [h]
      | succ o =>
        constructor
        · intro h'; simp at h'
        · rintro ⟨_, h2⟩
          exact (h (h2 0 s (by omega) (by simp))).elim
    · rename_i h
      have h : get s q = none := by simpa using h
      cases o with
      | zero => simp [h]
      | succ o =>
        simp only [Option.map_eq_some_iff, Nat.add_right_cancel_iff, exists_eq_right, ih,
          List.getElem?_cons_succ, and_congr_right_iff]
        intro _
        constructor
        · intro h2 o' s' ho' hs'
          cases o' with
          | zero => simp at hs'; subst hs'; exact h
          | succ o' => exact h2 o' s' (by omega) (by simpa using hs')
        · intro h2 o' s' ho' hs'
          exact h2 (o' + 1) s' (by omega) (by simpa using hs')

theorem findScope_none {q : Path} {ss : List Scope} :
    findScope q ss = none ↔ ∀ (o : Nat) s, ss[o]? = some s → get s q = none := by
  constructor
  · intro h
    induction ss with
    | nil => simp
    | cons s ss ih =>
      simp only [findScope] at h
      split at h
      · cases h
      · rename_i hs
        intro o s' hs'
        cases o with
        | zero => simp at hs'; subst hs'; simpa using hs
        | succ o => exact ih (by simpa using h) o s' (by simpa using hs')
  · intro h
    cases hf : findScope q ss with
    | none => rfl
    | some o =>
      obtain ⟨⟨s, h1, h2⟩, _⟩ := findScope_some.mp hf
      exact (h2 (h o s h1)).elim

theorem exists_latest {evs : List Ev} {k : Nat} {q : Path} {level id : Nat}
    (h : InForce evs k q level id) : ∃ id', Latest evs q level id' := by
  -- the largest index of a declaration in force
  have : ∀ n, (∃ k id, InForce evs k q level id ∧ evs.length ≤ k + n) → ∃ id', Latest evs q level id' := by
    intro n
    induction n with
    | zero =>
      rintro ⟨k, id, hk, hn⟩
      have := declares_lt hk.1
      omega
    | succ n ih =>
      rintro ⟨k, id, hk, hn⟩
      by_cases h : ∃ k' id', InForce evs k' q level id' ∧ k < k'
      · obtain ⟨k', id', hk', hlt⟩ := h
        exact ih ⟨k', id', hk', by omega⟩
      · refine ⟨id, k, hk, fun k' id' hk' => ?_⟩
        false_or_by_contra
        exact h ⟨k', id', hk', by omega⟩
  exact this evs.length ⟨k, id, h, by omega⟩

theorem inForce_level {evs : List Ev} {k : Nat} {q : Path} {level id : Nat}
    (h : InForce evs k q level id) : level < depthOf evs := by
  have := h.2 evs.length (Nat.le_of_lt (declares_lt h.1)) (Nat.le_refl _)
  rwa [List.take_length] at this

/-- The nearest entry for a name is the innermost declaration in force. -/
theorem find_iff_innermost {evs : List Ev} {t : Table} (h : run evs = some t) {q : Path}
    (hq : q ≠ []) (id : Nat) :
    (∃ o s, findScope q t.scopes = some o ∧ t.scopes[o]? = some s ∧ get s q = some id) ↔
      Innermost evs q id := by
  obtain ⟨hlen, hns, _, hid, hpos⟩ := run_facts evs t h
  have key := get_iff_latest evs t h
  constructor
  · rintro ⟨o, s, hf, hs, hg⟩
    have ho : o < t.scopes.length := (List.getElem?_eq_some_iff.mp hs).1
    have hi : depthOf evs - 1 - (depthOf evs - 1 - o) = o := by omega
    refine ⟨depthOf evs - 1 - o, ?_, ?_⟩
    · rw [← key _ (by omega) q hq id, hi, hs]; exact hg
    · intro k' level' id' hk'
      false_or_by_contra
      rename_i hlt
      have hl' := inForce_level hk'
      obtain ⟨id'', hl⟩ := exists_latest hk'
      rw [← key level' hl' q hq id''] at hl
      obtain ⟨s', hs', hg'⟩ := Option.bind_eq_some_iff.mp hl
      have := (findScope_some.mp hf).2 (depthOf evs - 1 - level') s' (by omega) hs'
      rw [hg'] at this; cases this
  · rintro ⟨level, hl, hmax⟩
    have hk := hl
    obtain ⟨k, hk, _⟩ := hk
    have hlv := inForce_level hk
    rw [← key level hlv q hq id] at hl
    obtain ⟨s, hs, hg⟩ := Option.bind_eq_some_iff.mp hl
    refine ⟨depthOf evs - 1 - level, s, ?_, hs, hg⟩
    rw [findScope_some]
    refine ⟨⟨s, hs, by rw [hg]; simp⟩, fun o' s' ho' hs' => ?_⟩
    cases hg' : get s' q with
    | none => rfl
    | some id' =>
      have hi : depthOf evs - 1 - (depthOf evs - 1 - o') = o' := by omega
      have : Latest evs q (depthOf evs - 1 - o') id' := by
        rw [← key _ (by omega) q hq id', hi, hs']; exact hg'
      obtain ⟨k', hk', _⟩ := this
      have := hmax _ _ _ hk'
      omega

theorem find_none_iff {evs : List Ev} {t : Table} (h : run evs = some t) {q : Path} (hq : q ≠ []) :
    findScope q t.scopes = none ↔ ¬ ∃ k level id, InForce evs k q level id := by
  obtain ⟨hlen, _⟩ := run_facts evs t h
  have key := get_iff_latest evs t h
  rw [findScope_none]
  constructor
  · rintro hn ⟨k, level, id, hk⟩
    obtain ⟨id', hl⟩ := exists_latest hk
    rw [← key level (inForce_level hk) q hq id'] at hl
    obtain ⟨s, hs, hg⟩ := Option.bind_eq_some_iff.mp hl
    rw [hn _ _ hs] at hg; cases hg
  · intro hn o s hs
    cases hg : get s q with
    | none => rfl
    | some id =>
      have ho : o < t.scopes.length := (List.getElem?_eq_some_iff.mp hs).1
      have hi : depthOf evs - 1 - (depthOf evs - 1 - o) = o := by omega
      have : Latest evs q (depthOf evs - 1 - o) id := by
        rw [← key _ (by omega) q hq id, hi, hs]; exact hg
      obtain ⟨k, hk, _⟩ := this
      exact (hn ⟨_, _, _, hk⟩).elim

/-! ## What is stored about the items -/

theorem described_snoc {evs : List Ev} {e : Ev} {id : Nat} {d : Entry} :
    Described (evs ++ [e]) id d ↔ Described evs id d ∨
      (id = itemsOf evs ∧ ∃ o n, e = .declare o n d) := by
  constructor
  · rintro ⟨k, o, n, hk, hid⟩
    have hlt := (List.getElem?_eq_some_iff.mp hk).1
    by_cases hkl : k < evs.length
    · left
      rw [List.getElem?_append_left hkl] at hk
      rw [List.take_append_of_le_length (by omega)] at hid
      exact ⟨k, o, n, hk, hid⟩
    · have : k = evs.length := by simp at hlt; omega
      subst this
      right
      simp at hk hid
      exact ⟨hid, o, n, hk⟩
  · rintro (⟨k, o, n, hk, hid⟩ | ⟨hid, o, n, rfl⟩)
    · have hlt := (List.getElem?_eq_some_iff.mp hk).1
      exact ⟨k, o, n, by rw [List.getElem?_append_left hlt]; exact hk,
        by rw [List.take_append_of_le_length (by omega)]; exact hid⟩
    · exact ⟨evs.length, o, n, by simp, by simp [hid]⟩

theorem described_lt {evs : List Ev} {id : Nat} {d : Entry} (h : Described evs id d) :
    id < itemsOf evs ∧ 0 < id := by
  have : ∀ (rev : List Ev), (0 < itemsOf rev.reverse) ∧
      (Described rev.reverse id d → id < itemsOf rev.reverse ∧ 0 < id) := by
    intro rev
    induction rev with
    | nil =>
      refine ⟨by simp [itemsOf], ?_⟩
      rintro ⟨k, o, n, hk, _⟩
      simp at hk
    | cons e rev ih =>
      rw [List.reverse_cons, described_snoc, itemsOf_snoc]
      obtain ⟨ih0, ih⟩ := ih
      refine ⟨by cases e <;> simp <;> omega, ?_⟩
      rintro (h | ⟨hid, o, n, rfl⟩)
      · have := ih h
        refine ⟨?_, this.2⟩
        cases e <;> simp <;> omega
      · exact ⟨by simp; omega, by omega⟩
  have h2 := (this evs.reverse).2
  rw [List.reverse_reverse] at h2
  exact h2 h

/-- The tables describe the items as they were declared; the root module has number 0. -/
def Matches (evs : List Ev) (t : Table) : Prop :=
    (∀ id d, Described evs id d →
      ((get t.types id).isSome = d.isType ∧ get t.things id = d.thing ∧ get t.vis id = d.vis)) ∧
    (∀ id, (itemsOf evs ≤ id ∨ id = 0) → get t.types id = none ∧ get t.vis id = none) ∧
    (∀ id, itemsOf evs ≤ id → get t.things id = none) ∧ get t.things 0 = some .item ∧
    (∀ id, 0 < id → id < itemsOf evs → ∃ d, Described evs id d)

theorem run_described (evs : List Ev) (t : Table) (h : run evs = some t) : Matches evs t := by
  revert evs t
  apply run_induct
  · refine ⟨?_, ?_, ?_, ?_, ?_⟩
    · rintro id d ⟨k, o, n, hk, _⟩; simp at hk
    · simp [newTable, get]
    · intro id h
      simp [itemsOf] at h
      simp [newTable, get]; omega
    · simp [newTable, get]
    · intro id h1 h2
      simp [itemsOf] at h2; omega
  · intro evs t e t' hrun ih ha
    obtain ⟨h1, h2, h3, h4, h5⟩ := ih
    obtain ⟨hlen, hns, _, hid, hpos⟩ := run_facts evs t hrun
    have same : (∀ o n d, e ≠ .declare o n d) → t'.types = t.types → t'.things = t.things →
        t'.vis = t.vis → Matches (evs ++ [e]) t' := by
      intro hne e1 e2 e3
      have hd : ∀ id d, Described (evs ++ [e]) id d ↔ Described evs id d := by
        intro id d
        rw [described_snoc]
        constructor
        · rintro (h | ⟨_, o, n, h⟩)
          · exact h
          · exact (hne _ _ _ h).elim
        · exact Or.inl
      have hi : itemsOf (evs ++ [e]) = itemsOf evs := by
        rw [itemsOf_snoc]
        cases e <;> simp_all
      refine ⟨?_, ?_, ?_, ?_, ?_⟩
      · intro id d; rw [hd, e1, e2, e3]; exact h1 id d
      · intro id; rw [hi, e1, e3]; exact h2 id
      · intro id; rw [hi, e2]; exact h3 id
      · rw [e2]; exact h4
      · intro id; rw [hi]; simp only [hd]; exact h5 id
    cases e with
    | openScope => simp [apply, newScope] at ha; subst ha; exact same (by simp) rfl rfl rfl
    | closeScope =>
      simp only [apply] at ha
      split at ha
      · simp [closeScope] at ha; subst ha; exact same (by simp) rfl rfl rfl
      · cases ha
    | reAdd s id =>
      simp only [apply, reAdd] at ha
      split at ha
      · simp at ha; subst ha; exact same (by simp) rfl rfl rfl
      · cases ha
    | pushNs s => simp [apply, pushNs] at ha; subst ha; exact same (by simp) rfl rfl rfl
    | popNs =>
      simp only [apply, popNs] at ha
      split at ha
      · cases ha
      · simp at ha; subst ha; exact same (by simp) rfl rfl rfl
    | setBase p => simp [apply, setBase] at ha; subst ha; exact same (by simp) rfl rfl rfl
    | declare o n d =>
      simp only [apply, add] at ha
      split at ha
      · simp at ha
        subst ha
        have hi : itemsOf (evs ++ [.declare o n d]) = itemsOf evs + 1 := by rw [itemsOf_snoc]
        have hpos' : 0 < itemsOf evs := by
          false_or_by_contra
          have := (h3 0 (by omega))
          rw [h4] at this; cases this
        have hold : ∀ id, id ≠ itemsOf evs →
            get (if d.isType then (t.nextId, ()) :: t.types else t.types) id = get t.types id ∧
            get (match d.thing with | some th => (t.nextId, th) :: t.things | none => t.things) id =
              get t.things id ∧
            get (match d.vis with | some v => (t.nextId, v) :: t.vis | none => t.vis) id =
              get t.vis id := by
          intro id hne
          have hne' : t.nextId ≠ id := by omega
          refine ⟨?_, ?_, ?_⟩
          · split <;> simp [get, hne']
          · split <;> simp [get, hne']
          · split <;> simp [get, hne']
        refine ⟨?_, ?_, ?_, ?_, ?_⟩
        · intro id d' hd
          rcases described_snoc.mp hd with hd | ⟨hidx, o', n', he⟩
          · have hlt := (described_lt hd).1
            obtain ⟨e1, e2, e3⟩ := hold id (by omega)
            obtain ⟨f1, f2, f3⟩ := h1 id d' hd
            exact ⟨by rw [← f1]; exact congrArg Option.isSome e1, by rw [← f2]; exact e2,
              by rw [← f3]; exact e3⟩
          · cases he
            have g1 := h2 id (Or.inl (by omega))
            have g2 := h3 id (by omega)
            have hidx' : t.nextId = id := by omega
            refine ⟨?_, ?_, ?_⟩
            · cases d.isType <;> simp [get, g1, hidx']
            · cases d.thing <;> simp [get, g2, hidx']
            · cases d.vis <;> simp [get, g1, hidx']
        · intro id hid'
          have hne : id ≠ itemsOf evs := by omega
          obtain ⟨e1, e2, e3⟩ := hold id hne
          have g1 := h2 id (by omega)
          exact ⟨by rw [← g1.1]; exact e1, by rw [← g1.2]; exact e3⟩
        · intro id hid'
          obtain ⟨e1, e2, e3⟩ := hold id (by omega)
          rw [← h3 id (by omega)]; exact e2
        · obtain ⟨e1, e2, e3⟩ := hold 0 (by omega)
          rw [← h4]; exact e2
        · intro id hp hlt
          simp only [described_snoc]
          by_cases hlt' : id < itemsOf evs
          · obtain ⟨d', hd'⟩ := h5 id hp hlt'
            exact ⟨d', Or.inl hd'⟩
          · exact ⟨d, Or.inr ⟨by omega, o, n, rfl⟩⟩
      · cases ha

end Spade.Symtab

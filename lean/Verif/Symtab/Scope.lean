import Verif.Symtab.Model
/-! Properties of histories of scope operations, towards C24. -/
namespace Spade.Symtab

theorem runFrom_append (t : Table) (a b : List Ev) :
    runFrom t (a ++ b) = (runFrom t a).bind (runFrom · b) := by
  induction a generalizing t with
  | nil => rfl
  | cons e a ih =>
    simp only [List.cons_append, runFrom]
    cases apply t e with
    | none => rfl
    | some t' => exact ih t'

theorem run_snoc (evs : List Ev) (e : Ev) : run (evs ++ [e]) = (run evs).bind (apply · e) := by
  rw [run, runFrom_append]
  cases h : runFrom newTable evs with
  | none => simp [run, h]
  | some t =>
    simp only [run, h, Option.bind_some, runFrom]
    cases apply t e <;> rfl

/-- Induction on the successful histories. -/
theorem run_induct {motive : List Ev → Table → Prop} (h0 : motive [] newTable)
    (hs : ∀ evs t e t', run evs = some t → motive evs t → apply t e = some t' →
      motive (evs ++ [e]) t') :
    ∀ evs t, run evs = some t → motive evs t := by
  intro evs
  suffices h : ∀ (rev : List Ev) t, run rev.reverse = some t → motive rev.reverse t by
    intro t ht; simpa using h evs.reverse t (by simpa using ht)
  intro rev
  induction rev with
  | nil => intro t ht; simp [run, runFrom] at ht; subst ht; exact h0
  | cons e rev ih =>
    intro t ht
    rw [List.reverse_cons] at ht ⊢
    rw [run_snoc] at ht
    obtain ⟨t1, h1, h2⟩ := Option.bind_eq_some_iff.mp ht
    exact hs _ _ _ _ h1 (ih t1 h1) h2

theorem depthOf_snoc (evs : List Ev) (e : Ev) : depthOf (evs ++ [e]) = (match e with
    | .openScope => depthOf evs + 1
    | .closeScope => depthOf evs - 1
    | _ => depthOf evs) := by
  cases e <;> simp [depthOf, List.foldl_append]

theorem nsOf_snoc (evs : List Ev) (e : Ev) : nsOf (evs ++ [e]) = (match e with
    | .pushNs s => nsOf evs ++ [s]
    | .popNs => (nsOf evs).dropLast
    | _ => nsOf evs) := by
  cases e <;> simp [nsOf, List.foldl_append]

theorem baseOf_snoc (evs : List Ev) (e : Ev) : baseOf (evs ++ [e]) = (match e with
    | .setBase p => p
    | _ => baseOf evs) := by
  cases e <;> simp [baseOf, List.foldl_append]

theorem itemsOf_snoc (evs : List Ev) (e : Ev) : itemsOf (evs ++ [e]) = (match e with
    | .declare .. => itemsOf evs + 1
    | _ => itemsOf evs) := by
  cases e <;> simp [itemsOf, List.foldl_append]

theorem length_insertAt (k : Nat) (q : Path) (id : Nat) (ss : List Scope) :
    (insertAt k q id ss).length = ss.length := by
  induction ss generalizing k with
  | nil => simp [insertAt]
  | cons s ss ih => cases k <;> simp [insertAt, ih]

theorem getElem?_insertAt (k : Nat) (q : Path) (id : Nat) (ss : List Scope) (i : Nat) :
    (insertAt k q id ss)[i]? = if i = k then ss[i]?.map ((q, id) :: ·) else ss[i]? := by
  induction ss generalizing k i with
  | nil => simp [insertAt]
  | cons s ss ih =>
    cases k with
    | zero => cases i <;> simp [insertAt]
    | succ k =>
      cases i with
      | zero => simp [insertAt]
      | succ i => simp [insertAt, ih]

/-- The plain facts about the state after a history. -/
theorem run_facts (evs : List Ev) (t : Table) (h : run evs = some t) :
    t.scopes.length = depthOf evs ∧ t.ns = nsOf evs ∧ t.base = baseOf evs ∧
    t.nextId = itemsOf evs ∧ 0 < depthOf evs := by
  revert evs t
  apply run_induct
  · simp [newTable, depthOf, nsOf, baseOf, itemsOf]
  · intro evs t e t' _ ih ha
    obtain ⟨h1, h2, h3, h4, h5⟩ := ih
    rw [depthOf_snoc, nsOf_snoc, baseOf_snoc, itemsOf_snoc]
    cases e with
    | openScope => simp [apply, newScope] at ha; subst ha; simp [*]
    | closeScope =>
      simp only [apply] at ha
      split at ha
      · simp [closeScope] at ha; subst ha; simp [*]; omega
      · cases ha
    | declare o n e =>
      simp only [apply, add] at ha
      split at ha
      · simp at ha; subst ha; simp [length_insertAt, *]
      · cases ha
    | reAdd s id =>
      simp only [apply, reAdd] at ha
      split at ha
      · simp at ha; subst ha; simp [length_insertAt, *]
      · cases ha
    | pushNs s => simp [apply, pushNs] at ha; subst ha; simp [*]
    | popNs =>
      simp only [apply, popNs] at ha
      split at ha
      · cases ha
      · simp at ha; subst ha; simp [*]
    | setBase p => simp [apply, setBase] at ha; subst ha; simp [*]

/-! ## Declarations in force -/

theorem declares_snoc_old {evs : List Ev} {e : Ev} {k : Nat} {q : Path} {level id : Nat}
    (hk : k < evs.length) :
    Declares (evs ++ [e]) k q level id ↔ Declares evs k q level id := by
  unfold Declares
  rw [List.getElem?_append_left hk, List.take_append_of_le_length (by omega)]

theorem declares_lt {evs : List Ev} {k : Nat} {q : Path} {level id : Nat}
    (h : Declares evs k q level id) : k < evs.length := by
  rcases h with ⟨o, n, e, h, _⟩ | ⟨s, h, _⟩
  · exact (List.getElem?_eq_some_iff.mp h).1
  · exact (List.getElem?_eq_some_iff.mp h).1

theorem stillOpen_snoc {evs : List Ev} {e : Ev} {k level : Nat} (hk : k ≤ evs.length) :
    StillOpen (evs ++ [e]) k level ↔ StillOpen evs k level ∧ level < depthOf (evs ++ [e]) := by
  unfold StillOpen
  constructor
  · intro h
    refine ⟨fun j hj hj' => ?_, ?_⟩
    · have := h j hj (by simp; omega)
      rwa [List.take_append_of_le_length (by omega)] at this
    · have := h (evs ++ [e]).length (by simp; omega) (Nat.le_refl _)
      rwa [List.take_length] at this
  · intro ⟨h1, h2⟩ j hj hj'
    by_cases hjl : j ≤ evs.length
    · rw [List.take_append_of_le_length hjl]; exact h1 j hj hjl
    · have : j = (evs ++ [e]).length := by simp at hj' ⊢; omega
      rw [this, List.take_length]; exact h2

/-- What the last event declares. -/
def New (evs : List Ev) (e : Ev) (q : Path) (level id : Nat) : Prop :=
  (∃ offset name d, e = .declare offset name d ∧ q = nsOf evs ++ name ∧
    level + offset + 1 = depthOf evs ∧ id = itemsOf evs) ∨
  (∃ s, e = .reAdd s id ∧ q = nsOf evs ++ [s] ∧ level + 1 = depthOf evs)

theorem inForce_snoc {evs : List Ev} {e : Ev} {k : Nat} {q : Path} {level id : Nat} :
    InForce (evs ++ [e]) k q level id ↔
      (InForce evs k q level id ∧ level < depthOf (evs ++ [e])) ∨
      (k = evs.length ∧ New evs e q level id) := by
  constructor
  · intro ⟨hd, ho⟩
    have hk := declares_lt hd
    by_cases hkl : k < evs.length
    · left
      rw [stillOpen_snoc (by omega)] at ho
      exact ⟨⟨(declares_snoc_old hkl).mp hd, ho.1⟩, ho.2⟩
    · right
      have hk' : k = evs.length := by simp at hk; omega
      subst hk'
      refine ⟨rfl, ?_⟩
      unfold Declares at hd
      simpa [New] using hd
  · rintro (⟨⟨hd, ho⟩, hl⟩ | ⟨rfl, hn⟩)
    · have hk := declares_lt hd
      exact ⟨(declares_snoc_old hk).mpr hd, (stillOpen_snoc (by omega)).mpr ⟨ho, hl⟩⟩
    · have hdep : level < depthOf evs ∧ depthOf (evs ++ [e]) = depthOf evs := by
        rw [depthOf_snoc]
        rcases hn with ⟨o, n, d, rfl, _, h, _⟩ | ⟨s, rfl, _, h⟩
        · exact ⟨by omega, rfl⟩
        · exact ⟨by omega, rfl⟩
      refine ⟨?_, ?_⟩
      · unfold Declares
        simpa [New] using hn
      · rw [stillOpen_snoc (Nat.le_refl _)]
        refine ⟨fun j h1 h2 => ?_, by omega⟩
        have : j = evs.length := by omega
        rw [this, List.take_length]; exact hdep.1

/-- In each scope, the table has the latest declaration in force. -/
theorem get_iff_latest (evs : List Ev) (t : Table) (h : run evs = some t) :
    ∀ level, level < depthOf evs → ∀ q, q ≠ [] → ∀ id,
      (t.scopes[depthOf evs - 1 - level]?.bind (get · q) = some id ↔ Latest evs q level id) := by
  revert evs t
  apply run_induct
  · intro level hl q hq id
    simp only [depthOf, List.foldl_nil] at hl ⊢
    have : level = 0 := by omega
    subst this
    constructor
    · intro h; simp [newTable, get, hq.symm] at h
    · rintro ⟨k, ⟨hd, _⟩, _⟩
      have := declares_lt hd
      simp at this
  · intro evs t e t' hrun ih ha level hl q hq id
    obtain ⟨hlen, hns, _, hid, hpos⟩ := run_facts evs t hrun
    -- the case of an unchanged scope
    have keep : level < depthOf evs →
        (∀ id', ¬ New evs e q level id') →
        t'.scopes[depthOf (evs ++ [e]) - 1 - level]?.bind (get · q) =
          t.scopes[depthOf evs - 1 - level]?.bind (get · q) →
        (t'.scopes[depthOf (evs ++ [e]) - 1 - level]?.bind (get · q) = some id ↔
          Latest (evs ++ [e]) q level id) := by
      intro hl' hnew heq
      rw [heq, ih level hl' q hq id]
      have hforce : ∀ k id', InForce (evs ++ [e]) k q level id' ↔ InForce evs k q level id' := by
        intro k id'
        rw [inForce_snoc]
        constructor
        · rintro (⟨h, _⟩ | ⟨_, h⟩)
          · exact h
          · exact (hnew _ h).elim
        · intro h; exact Or.inl ⟨h, hl⟩
      simp only [Latest, hforce]
    -- the case of a new entry
    have enter : ∀ (o : Nat) (nid : Nat), level + o + 1 = depthOf evs → New evs e q level nid →
        (∀ id', New evs e q level id' → id' = nid) → depthOf (evs ++ [e]) = depthOf evs →
        t'.scopes = insertAt o q nid t.scopes →
        (t'.scopes[depthOf (evs ++ [e]) - 1 - level]?.bind (get · q) = some id ↔
          Latest (evs ++ [e]) q level id) := by
      intro o nid hlo hnew huniq hdep hsc
      have hi : depthOf (evs ++ [e]) - 1 - level = o := by omega
      have hlt : o < t.scopes.length := by omega
      rw [hi, hsc, getElem?_insertAt]
      simp only [↓reduceIte, List.getElem?_eq_getElem hlt, Option.map_some, Option.bind_some, get,
        Option.some.injEq]
      constructor
      · rintro rfl
        refine ⟨evs.length, inForce_snoc.mpr (Or.inr ⟨rfl, hnew⟩), fun k' id' hk' => ?_⟩
        have := declares_lt hk'.1
        simp at this; omega
      · rintro ⟨k, hk, hmax⟩
        have h1 := hmax evs.length nid (inForce_snoc.mpr (Or.inr ⟨rfl, hnew⟩))
        rcases inForce_snoc.mp hk with ⟨⟨hd, _⟩, _⟩ | ⟨_, hn⟩
        · have := declares_lt hd; omega
        · exact (huniq _ hn).symm
    have nonew : (∀ o n d, e ≠ .declare o n d) → (∀ s i, e ≠ .reAdd s i) →
        ∀ id', ¬ New evs e q level id' := by
      rintro h1 h2 id' (⟨o, n, d, h, _⟩ | ⟨s, h, _⟩)
      · exact h1 _ _ _ h
      · exact h2 _ _ h
    cases e with
    | openScope =>
      have hdep : depthOf (evs ++ [.openScope]) = depthOf evs + 1 := by rw [depthOf_snoc]
      simp only [apply, newScope, Option.some.injEq] at ha
      subst ha
      by_cases hlv : level < depthOf evs
      · refine keep hlv (nonew (by simp) (by simp)) ?_
        have : depthOf (evs ++ [.openScope]) - 1 - level = (depthOf evs - 1 - level) + 1 := by omega
        rw [this]; simp
      · have : depthOf (evs ++ [.openScope]) - 1 - level = 0 := by omega
        rw [this]
        constructor
        · intro h; simp [get] at h
        · rintro ⟨k, hk, _⟩
          rcases inForce_snoc.mp hk with ⟨⟨hd, ho⟩, _⟩ | ⟨_, hn⟩
          · have h1 := declares_lt hd
            have := ho evs.length (by omega) (Nat.le_refl _)
            rw [List.take_length] at this
            omega
          · exact (nonew (by simp) (by simp) _ hn).elim
    | closeScope =>
      have hdep : depthOf (evs ++ [.closeScope]) = depthOf evs - 1 := by rw [depthOf_snoc]
      simp only [apply] at ha
      split at ha
      · rename_i hlen1
        simp only [closeScope, Option.some.injEq] at ha
        subst ha
        refine keep (by omega) (nonew (by simp) (by simp)) ?_
        have : depthOf evs - 1 - level = (depthOf (evs ++ [.closeScope]) - 1 - level) + 1 := by omega
        rw [this]
        cases hsc : t.scopes with
        | nil => simp [hsc] at hlen1
        | cons s ss => simp
      · cases ha
    | declare o n d =>
      have hdep : depthOf (evs ++ [.declare o n d]) = depthOf evs := by rw [depthOf_snoc]
      simp only [apply, add] at ha
      split at ha
      · rename_i hol
        simp only [Option.map_some, Option.some.injEq] at ha
        subst ha
        by_cases hq' : q = nsOf evs ++ n ∧ level + o + 1 = depthOf evs
        · refine enter o t.nextId hq'.2 (Or.inl ⟨o, n, d, rfl, hq'.1, hq'.2, hid⟩) ?_ hdep ?_
          · rintro id' (⟨o', n', d', h, _, _, h'⟩ | ⟨s, h, _⟩)
            · rw [h', hid]
            · cases h
          · simp [hns, hq'.1]
        · refine keep (by omega) ?_ ?_
          · rintro id' (⟨o', n', d', h, h1, h2, _⟩ | ⟨s, h, _⟩)
            · cases h; exact hq' ⟨h1, h2⟩
            · cases h
          · rw [hdep, getElem?_insertAt]
            split
            · rename_i hi
              have hne : ¬ (t.ns ++ n = q) := by
                intro h; rw [hns] at h; exact hq' ⟨h.symm, by omega⟩
              cases t.scopes[depthOf evs - 1 - level]? with
              | none => rfl
              | some s => simp [get, hne]
            · rfl
      · cases ha
    | reAdd s i =>
      have hdep : depthOf (evs ++ [.reAdd s i]) = depthOf evs := by rw [depthOf_snoc]
      simp only [apply, reAdd] at ha
      split at ha
      · simp only [Option.some.injEq] at ha
        subst ha
        by_cases hq' : q = nsOf evs ++ [s] ∧ level + 1 = depthOf evs
        · refine enter 0 i hq'.2 (Or.inr ⟨s, rfl, hq'.1, hq'.2⟩) ?_ hdep ?_
          · rintro id' (⟨o', n', d', h, _, _, h'⟩ | ⟨s', h, _⟩)
            · cases h
            · cases h; rfl
          · simp [hns, hq'.1]
        · refine keep (by omega) ?_ ?_
          · rintro id' (⟨o', n', d', h, h1, h2, _⟩ | ⟨s', h, h1, h2⟩)
            · cases h
            · cases h; exact hq' ⟨h1, h2⟩
          · rw [hdep, getElem?_insertAt]
            split
            · rename_i hi
              have hne : ¬ (t.ns ++ [s] = q) := by
                intro h; rw [hns] at h; exact hq' ⟨h.symm, by omega⟩
              cases t.scopes[depthOf evs - 1 - level]? with
              | none => rfl
              | some s => simp [get, hne]
            · rfl
      · cases ha
    | pushNs s =>
      have hdep : depthOf (evs ++ [.pushNs s]) = depthOf evs := by rw [depthOf_snoc]
      simp only [apply, pushNs, Option.some.injEq] at ha
      subst ha
      exact keep (by omega) (nonew (by simp) (by simp)) (by rw [hdep])
    | popNs =>
      have hdep : depthOf (evs ++ [.popNs]) = depthOf evs := by rw [depthOf_snoc]
      simp only [apply, popNs] at ha
      split at ha
      · cases ha
      · simp only [Option.some.injEq] at ha
        subst ha
        exact keep (by omega) (nonew (by simp) (by simp)) (by rw [hdep])
    | setBase p =>
      have hdep : depthOf (evs ++ [.setBase p]) = depthOf evs := by rw [depthOf_snoc]
      simp only [apply, setBase, Option.some.injEq] at ha
      subst ha
      exact keep (by omega) (nonew (by simp) (by simp)) (by rw [hdep])

end Spade.Symtab

import Verif.Symtab.ScopeProps
/-! Path resolution is the walk through the module tree (C41). -/
namespace Spade.Symtab

/-- The module tree that a symbol table stands for. -/
def worldOf (t : Table) : World where
  entry off q := t.scopes[off]?.bind (get · q)
  last := t.scopes.length - 1
  isType id := (get t.types id).isSome = true
  alias id := match get t.things id with
    | some (.alias p n) => some (p, n)
    | _ => none
  vis id := get t.vis id
  base := t.base
  here := t.ns

/-- The check that path resolution makes for each item on the way. -/
def Passes (t : Table) (check : Bool) (ns : Path) (id : Nat) (q : Path) : Prop :=
  checkVis t check id q ns = .ok ()

/-! ## More fuel does not change a result -/

theorem fuel_mono_aux (t : Table) (check : Bool) : ∀ fuel,
    (∀ forbidden path ns, canon fuel t check forbidden path ns ≠ .fuel →
      canon (fuel + 1) t check forbidden path ns = canon fuel t check forbidden path ns) ∧
    (∀ forbidden ns off q segs, walk fuel t check forbidden ns off q segs ≠ .fuel →
      walk (fuel + 1) t check forbidden ns off q segs = walk fuel t check forbidden ns off q segs) ∧
    (∀ forbidden loc ns off q segs, step fuel t check forbidden loc ns off q segs ≠ .fuel →
      step (fuel + 1) t check forbidden loc ns off q segs =
        step fuel t check forbidden loc ns off q segs) := by
  intro fuel
  induction fuel with
  | zero => refine ⟨?_, ?_, ?_⟩ <;> intros <;> simp_all [canon, walk, step]
  | succ fuel ih =>
    obtain ⟨ih1, ih2, ih3⟩ := ih
    refine ⟨?_, ?_, ?_⟩
    · intro forbidden path ns h
      rw [canon] at h ⊢
      conv => rhs; rw [canon]
      cases hst : start t path ns with
      | error e => rfl
      | ok r =>
        obtain ⟨off, q, segs⟩ := r
        simp only [hst] at h ⊢
        exact ih2 _ _ _ _ _ h
    · intro forbidden ns off q segs h
      cases segs with
      | nil => simp [walk]
      | cons s segs =>
        rw [walk] at h ⊢
        conv => rhs; rw [walk]
        cases hst : step fuel t check forbidden forbidden ns off (q ++ [s]) segs with
        | fuel => simp [hst] at h
        | err e => rw [ih3 _ _ _ _ _ _ (by rw [hst]; simp), hst]
        | ok off' q' =>
          rw [ih3 _ _ _ _ _ _ (by rw [hst]; simp), hst]
          simp only [hst] at h ⊢
          exact ih2 _ _ _ _ _ h
    · intro forbidden loc ns off q segs h
      rw [step] at h ⊢
      conv => rhs; rw [step]
      cases hsc : t.scopes[off]? with
      | none => rfl
      | some scope =>
      simp only [hsc] at h ⊢
      cases hg : get scope q with
      | none => rfl
      | some id =>
      simp only [hg] at h ⊢
      split
      · rfl
      · rename_i hnf
        simp only [hnf, ↓reduceIte] at h
        cases hv : checkVis t check id q ns with
        | error e => rfl
        | ok _ =>
        simp only [hv] at h ⊢
        split
        · rfl
        · rename_i hty
          simp only [hty] at h
          cases hth : get t.things id with
          | none => rfl
          | some th =>
          cases th with
          | item => rfl
          | alias target tns =>
          simp only [hth] at h ⊢
          cases hc : canon fuel t check (id :: loc) target tns with
          | fuel => simp [hc] at h
          | err e => rw [ih1 _ _ _ (by rw [hc]; simp), hc]
          | ok aoff aq =>
            rw [ih1 _ _ _ (by rw [hc]; simp), hc]
            simp only [hc] at h ⊢
            cases segs with
            | nil => simp only at h ⊢; exact ih3 _ _ _ _ _ _ (by simpa using h)
            | cons s segs =>
              simp only at h ⊢
              cases hsc' : t.scopes[aoff]? with
              | none => rfl
              | some ascope =>
                simp only [hsc'] at h ⊢
                cases h1 : (get ascope (aq ++ [s])).isSome <;>
                  cases h2 : (get scope (q ++ [s])).isSome <;>
                  simp only [h1, h2] at h ⊢
                · exact ih3 _ _ _ _ _ _ (by simpa using h)
                · exact ih3 _ _ _ _ _ _ (by simpa using h)

theorem canon_mono {t : Table} {check : Bool} {forbidden : List Nat} {path ns : Path} {r : Res}
    {fuel fuel' : Nat} (h : canon fuel t check forbidden path ns = r) (hr : r ≠ .fuel)
    (hle : fuel ≤ fuel') : canon fuel' t check forbidden path ns = r := by
  induction hle with
  | refl => exact h
  | step _ ih => rw [(fuel_mono_aux t check _).1 _ _ _ (by rw [ih]; exact hr), ih]

theorem walk_mono {t : Table} {check : Bool} {forbidden : List Nat} {ns : Path} {off : Nat}
    {q segs : Path} {r : Res} {fuel fuel' : Nat}
    (h : walk fuel t check forbidden ns off q segs = r) (hr : r ≠ .fuel)
    (hle : fuel ≤ fuel') : walk fuel' t check forbidden ns off q segs = r := by
  induction hle with
  | refl => exact h
  | step _ ih => rw [(fuel_mono_aux t check _).2.1 _ _ _ _ _ (by rw [ih]; exact hr), ih]

theorem step_mono {t : Table} {check : Bool} {forbidden loc : List Nat} {ns : Path} {off : Nat}
    {q segs : Path} {r : Res} {fuel fuel' : Nat}
    (h : step fuel t check forbidden loc ns off q segs = r) (hr : r ≠ .fuel)
    (hle : fuel ≤ fuel') : step fuel' t check forbidden loc ns off q segs = r := by
  induction hle with
  | refl => exact h
  | step _ ih => rw [(fuel_mono_aux t check _).2.2 _ _ _ _ _ _ (by rw [ih]; exact hr), ih]

/-! ## Where paths begin -/

theorem nearest_iff {t : Table} {q : Path} {off : Nat} :
    findScope q t.scopes = some off ↔ (worldOf t).Nearest q off := by
  rw [findScope_some]
  simp only [World.Nearest, worldOf]
  constructor
  · rintro ⟨⟨s, h1, h2⟩, h3⟩
    have := (List.getElem?_eq_some_iff.mp h1).1
    refine ⟨by omega, by rw [h1]; exact h2, fun o ho => ?_⟩
    cases hs : t.scopes[o]? with
    | none => rfl
    | some s' => exact h3 o s' ho hs
  · rintro ⟨_, h2, h3⟩
    cases hs : t.scopes[off]? with
    | none => simp [hs] at h2
    | some s =>
      refine ⟨⟨s, rfl, by simpa [hs] using h2⟩, fun o s' ho hs' => ?_⟩
      simpa [hs'] using h3 o ho

theorem nowhere_iff {t : Table} {q : Path} :
    findScope q t.scopes = none ↔ ∀ o, o ≤ (worldOf t).last → (worldOf t).entry o q = none := by
  rw [findScope_none]
  simp only [worldOf]
  constructor
  · intro h o _
    cases hs : t.scopes[o]? with
    | none => rfl
    | some s => exact h o s hs
  · intro h o s hs
    have := (List.getElem?_eq_some_iff.mp hs).1
    have := h o (by omega)
    simpa [hs] using this

theorem countSuper_spec (p : Path) :
    ∃ rest, p = List.replicate (countSuper p) (.named "super") ++ rest ∧
      rest.head? ≠ some (.named "super") ∧ p.drop (countSuper p) = rest := by
  induction p with
  | nil => exact ⟨[], by simp [countSuper]⟩
  | cons s p ih =>
    by_cases hs : s = .named "super"
    · subst hs
      obtain ⟨rest, h1, h2, h3⟩ := ih
      refine ⟨rest, ?_, h2, ?_⟩
      · simp only [countSuper, List.replicate_succ, List.cons_append, List.cons.injEq, true_and]
        exact h1
      · simpa [countSuper] using h3
    · have : countSuper (s :: p) = 0 := by
        unfold countSuper
        split
        · rename_i heq; exact (hs (List.cons.inj heq).1).elim
        · rfl
      exact ⟨s :: p, by simp [this], by simpa using hs, by simp [this]⟩

theorem countSuper_replicate (k : Nat) (rest : Path) (h : rest.head? ≠ some (.named "super")) :
    countSuper (List.replicate k (.named "super") ++ rest) = k := by
  induction k with
  | zero =>
    simp only [List.replicate_zero, List.nil_append]
    unfold countSuper
    split
    · simp_all
    · rfl
  | succ k ih => simp only [List.replicate_succ, List.cons_append, countSuper, ih]

theorem begins_of_start {t : Table} {path ns : Path} {off : Nat} {q segs : Path}
    (h : start t path ns = .ok (off, q, segs)) : Begins (worldOf t) ns path off q segs := by
  cases path with
  | nil =>
    simp [start, extractPrefix] at h
    obtain ⟨rfl, rfl, rfl⟩ := h
    exact .empty
  | cons s rest =>
    by_cases hk : Keyword s
    · rcases hk with rfl | rfl | rfl
      · simp [start, extractPrefix] at h
        obtain ⟨rfl, rfl, rfl⟩ := h
        exact .lib _
      · simp only [start, extractPrefix] at h
        split at h
        · rename_i o hf
          simp at h
          obtain ⟨rfl, rfl, rfl⟩ := h
          exact .selfVariable _ (nearest_iff.mp (by simpa using hf))
        · rename_i hno
          simp at h
          obtain ⟨rfl, rfl, rfl⟩ := h
          refine .self _ (fun hr => ?_)
          subst hr
          rw [← nowhere_iff]
          cases hf : findScope (ns ++ [.named "self"]) t.scopes with
          | none => rfl
          | some o => exact (hno o rfl (by simpa using hf)).elim
      · simp only [start, extractPrefix] at h
        obtain ⟨rest', h1, h2, h3⟩ := countSuper_spec rest
        split at h
        · rename_i hle
          simp at h
          obtain ⟨rfl, rfl, rfl⟩ := h
          have := Begins.super (w := worldOf t) (ns := ns)
            (ns.take (ns.length - (countSuper rest + 1)))
            (ns.drop (ns.length - (countSuper rest + 1))) rest' (by simp)
            (by
              intro hnil
              have := congrArg List.length hnil
              simp at this; omega)
            h2
          have hlen : (ns.drop (ns.length - (countSuper rest + 1))).length = countSuper rest + 1 := by
            simp; omega
          rw [hlen, List.replicate_succ, List.cons_append, ← h1] at this
          rw [h3]
          exact this
        · cases h
    · rw [start_plain hk] at h
      split at h
      · rename_i o hf
        simp at h
        obtain ⟨rfl, rfl, rfl⟩ := h
        exact .relative _ _ _ hk (nearest_iff.mp hf)
      · rename_i hf
        simp at h
        obtain ⟨rfl, rfl, rfl⟩ := h
        exact .absolute _ _ hk (nowhere_iff.mp hf)

theorem start_of_begins {t : Table} {path ns : Path} {off : Nat} {q segs : Path}
    (h : Begins (worldOf t) ns path off q segs) : start t path ns = .ok (off, q, segs) := by
  cases h with
  | lib => simp [start, extractPrefix, worldOf]
  | self _ h =>
    simp only [start, extractPrefix]
    split
    · rename_i o hf
      have := nowhere_iff.mpr (h rfl)
      simp [this] at hf
    · rfl
  | selfVariable _ h =>
    have := nearest_iff.mpr h
    simp [start, extractPrefix, this]
  | super _ dropped _ hns hk hrest =>
    cases dropped with
    | nil => exact (hk rfl).elim
    | cons d dropped =>
      subst hns
      simp only [List.length_cons, List.replicate_succ, List.cons_append, start, extractPrefix,
        countSuper_replicate _ _ hrest]
      have h1 : (List.replicate dropped.length (Seg.named "super") ++ segs).drop dropped.length =
          segs := by
        rw [List.drop_append_of_le_length (by simp)]
        simp
      rw [h1, if_pos (by simp)]
      congr 2
      congr 1
      rw [List.length_append]
      simp
  | relative _ _ _ hs h => rw [start_plain hs, nearest_iff.mpr h]
  | absolute _ _ hs h => rw [start_plain hs, nowhere_iff.mpr h]; rfl
  | empty => rfl

/-! ## Resolution and walks -/

theorem entry_of {t : Table} {off : Nat} {scope : Scope} (h : t.scopes[off]? = some scope) (q : Path) :
    (worldOf t).entry off q = get scope q := by
  simp [worldOf, h]

theorem alias_of {t : Table} {id : Nat} {p n : Path} (h : get t.things id = some (.alias p n)) :
    (worldOf t).alias id = some (p, n) := by
  simp [worldOf, h]

theorem thing_of {t : Table} {id : Nat} {p n : Path} (h : (worldOf t).alias id = some (p, n)) :
    get t.things id = some (.alias p n) := by
  simp only [worldOf] at h
  split at h
  · rename_i p' n' hth; simp at h; rw [hth, h.1, h.2]
  · cases h

theorem sound (t : Table) (check : Bool) : ∀ fuel,
    (∀ forbidden path ns off q, canon fuel t check forbidden path ns = .ok off q →
      Denotes (worldOf t) (Passes t check) forbidden ns path off q) ∧
    (∀ forbidden ns off q segs off' q', walk fuel t check forbidden ns off q segs = .ok off' q' →
      Walks (worldOf t) (Passes t check) forbidden ns off q segs off' q') ∧
    (∀ forbidden loc ns off q segs off' q', step fuel t check forbidden loc ns off q segs = .ok off' q' →
      Stands (worldOf t) (Passes t check) forbidden loc ns off q segs off' q') := by
  intro fuel
  induction fuel with
  | zero => refine ⟨?_, ?_, ?_⟩ <;> intros <;> simp_all [canon, walk, step]
  | succ fuel ih =>
    obtain ⟨ih1, ih2, ih3⟩ := ih
    refine ⟨?_, ?_, ?_⟩
    · intro forbidden path ns off q h
      rw [canon] at h
      cases hst : start t path ns with
      | error e => simp [hst] at h
      | ok r =>
        obtain ⟨off0, q0, segs⟩ := r
        simp only [hst] at h
        exact .mk (begins_of_start hst) (ih2 _ _ _ _ _ _ _ h)
    · intro forbidden ns off q segs off' q' h
      cases segs with
      | nil => simp [walk] at h; obtain ⟨rfl, rfl⟩ := h; exact .nil
      | cons s segs =>
        rw [walk] at h
        split at h
        · rename_i off1 q1 hst
          exact .cons (ih3 _ _ _ _ _ _ _ _ hst) (ih2 _ _ _ _ _ _ _ h)
        · rename_i hne
          exact (hne _ _ h).elim
    · intro forbidden loc ns off q segs off' q' h
      rw [step] at h
      cases hsc : t.scopes[off]? with
      | none => simp [hsc] at h
      | some scope =>
      simp only [hsc] at h
      cases hg : get scope q with
      | none => simp [hg] at h
      | some id =>
      simp only [hg] at h
      have he : (worldOf t).entry off q = some id := by rw [entry_of hsc, hg]
      split at h
      · cases h
      · rename_i hnf
        cases hv : checkVis t check id q ns with
        | error e => simp [hv] at h
        | ok _ =>
        simp only [hv] at h
        split at h
        · rename_i hty
          simp at h; obtain ⟨rfl, rfl⟩ := h
          simp only [Bool.and_eq_true, List.isEmpty_iff] at hty
          exact .itself he hnf hv (Or.inr hty)
        · rename_i hty
          simp only [Bool.and_eq_true, List.isEmpty_iff] at hty
          split at h
          · rename_i target tns hth
            have hal := alias_of hth
            cases hc : canon fuel t check (id :: loc) target tns with
            | fuel => simp [hc] at h
            | err e => simp [hc] at h
            | ok aoff aq =>
              have hd := ih1 _ _ _ _ _ hc
              simp only [hc] at h
              cases segs with
              | nil =>
                simp only at h
                exact .follow he hnf hv hty hal hd (by simp) (ih3 _ _ _ _ _ _ _ _ h)
              | cons s segs =>
                simp only at h
                cases hsc' : t.scopes[aoff]? with
                | none => simp [hsc'] at h
                | some ascope =>
                  simp only [hsc'] at h
                  have e1 := entry_of hsc' (aq ++ [s])
                  have e2 := entry_of hsc (q ++ [s])
                  split at h
                  · rename_i h1 h2
                    simp at h; obtain ⟨rfl, rfl⟩ := h
                    exact .member he hnf hv hal hd (by rw [e1]; simpa using h1)
                      (by rw [e2]; exact Option.isSome_iff_ne_none.mp h2)
                  · cases h
                  · rename_i h1 h2
                    refine .follow he hnf hv hty hal hd ?_ (ih3 _ _ _ _ _ _ _ _ h)
                    intro s' hs'
                    simp at hs'; subst hs'
                    rw [e2]
                    cases hx : get scope (q ++ [s]) with
                    | none => rfl
                    | some v =>
                      cases hy : (get ascope (aq ++ [s])).isSome with
                      | true => exact (h2 hy (by simp [hx])).elim
                      | false => exact (h1 hy (by simp [hx])).elim
          · rename_i hth
            simp at h; obtain ⟨rfl, rfl⟩ := h
            refine .itself he hnf hv (Or.inl ?_)
            cases hal : (worldOf t).alias id with
            | none => rfl
            | some pn => exact (hth pn.1 pn.2 (thing_of hal)).elim

theorem begins_le {w : World} {ns path : Path} {off : Nat} {q segs : Path}
    (h : Begins w ns path off q segs) : off ≤ w.last := by
  cases h with
  | lib | self | super | absolute => exact Nat.le_refl _
  | selfVariable _ h => exact h.1
  | relative _ _ _ _ h => exact h.1
  | empty => omega

mutual
theorem denotes_le {w : World} {V : Path → Nat → Path → Prop} {above : List Nat} {ns path : Path}
    {off : Nat} {q : Path} (h : Denotes w V above ns path off q) : off ≤ w.last :=
  match h with
  | .mk hb hw => walks_le hw (begins_le hb)
theorem walks_le {w : World} {V : Path → Nat → Path → Prop} {above : List Nat} {ns : Path}
    {off : Nat} {q segs : Path} {off' : Nat} {q' : Path} (h : Walks w V above ns off q segs off' q')
    (hle : off ≤ w.last) : off' ≤ w.last :=
  match h with
  | .nil => hle
  | .cons hs hw => walks_le hw (stands_le hs hle)
theorem stands_le {w : World} {V : Path → Nat → Path → Prop} {above loc : List Nat} {ns : Path}
    {off : Nat} {q segs : Path} {off' : Nat} {q' : Path}
    (h : Stands w V above loc ns off q segs off' q') (hle : off ≤ w.last) : off' ≤ w.last :=
  match h with
  | .itself _ _ _ _ => hle
  | .member _ _ _ _ _ _ _ => hle
  | .follow _ _ _ _ _ hd _ hs => stands_le hs (denotes_le hd)
end

mutual
theorem complete {t : Table} (ht : t.scopes ≠ []) {check : Bool} {above : List Nat} {ns path : Path}
    {off : Nat} {q : Path} (h : Denotes (worldOf t) (Passes t check) above ns path off q) :
    ∃ fuel, canon fuel t check above path ns = .ok off q :=
  match h with
  | .mk hb hw => by
    obtain ⟨fuel, hf⟩ := complete_walks ht hw
    refine ⟨fuel + 1, ?_⟩
    rw [canon, start_of_begins hb]
    exact hf
theorem complete_walks {t : Table} (ht : t.scopes ≠ []) {check : Bool} {above : List Nat} {ns : Path}
    {off : Nat} {q segs : Path} {off' : Nat} {q' : Path}
    (h : Walks (worldOf t) (Passes t check) above ns off q segs off' q') :
    ∃ fuel, walk fuel t check above ns off q segs = .ok off' q' :=
  match h with
  | .nil => ⟨1, by simp [walk]⟩
  | .cons hs hw => by
    obtain ⟨f1, h1⟩ := complete_stands ht hs
    obtain ⟨f2, h2⟩ := complete_walks ht hw
    refine ⟨max f1 f2 + 1, ?_⟩
    rw [walk, step_mono h1 (by simp) (Nat.le_max_left f1 f2)]
    exact walk_mono h2 (by simp) (Nat.le_max_right f1 f2)
theorem complete_stands {t : Table} (ht : t.scopes ≠ []) {check : Bool} {above loc : List Nat}
    {ns : Path} {off : Nat} {q segs : Path} {off' : Nat} {q' : Path}
    (h : Stands (worldOf t) (Passes t check) above loc ns off q segs off' q') :
    ∃ fuel, step fuel t check above loc ns off q segs = .ok off' q' :=
  match h with
  | .itself he ha hv hcase => by
    refine ⟨1, ?_⟩
    obtain ⟨scope, hsc, hg⟩ := Option.bind_eq_some_iff.mp he
    rw [step, hsc]
    simp only [hg, ha, ↓reduceIte, show checkVis t check _ q ns = .ok () from hv]
    split
    · rfl
    · rename_i hty
      rcases hcase with hcase | hcase
      · split
        · rename_i p n hth; rw [alias_of hth] at hcase; cases hcase
        · rfl
      · simp only [Bool.and_eq_true, List.isEmpty_iff] at hty
        exact (hty hcase).elim
  | .member (s := s) (segs := segs) (id := id) (off' := aoff) (q' := aq) he ha hv hal hd h1 h2 => by
    obtain ⟨fuel, hf⟩ := complete ht hd
    refine ⟨fuel + 1, ?_⟩
    have hle := denotes_le hd
    obtain ⟨scope, hsc, hg⟩ := Option.bind_eq_some_iff.mp he
    have hpos := List.length_pos_iff.mpr ht
    have hlt : aoff < t.scopes.length := by
      simp only [worldOf] at hle; omega
    have hsc' := List.getElem?_eq_getElem hlt
    rw [entry_of hsc'] at h1
    rw [entry_of hsc, ← Option.isSome_iff_ne_none] at h2
    rw [step, hsc]
    simp only [hg, ha, ↓reduceIte, show checkVis t check _ q ns = .ok () from hv,
      List.isEmpty_cons, Bool.and_false, Bool.false_eq_true]
    have hth := thing_of hal
    simp only [hth, hf, hsc', h1, h2, Option.isSome_none]
  | .follow (segs := segs) (id := id) (off' := aoff) (q' := aq) he ha hv hty hal hd h1 hs => by
    obtain ⟨f1, hf1⟩ := complete ht hd
    obtain ⟨f2, hf2⟩ := complete_stands ht hs
    refine ⟨max f1 f2 + 1, ?_⟩
    have hle := denotes_le hd
    obtain ⟨scope, hsc, hg⟩ := Option.bind_eq_some_iff.mp he
    have hpos := List.length_pos_iff.mpr ht
    have hlt : aoff < t.scopes.length := by
      simp only [worldOf] at hle; omega
    have hsc' := List.getElem?_eq_getElem hlt
    rw [step, hsc]
    simp only [hg, ha, ↓reduceIte, show checkVis t check _ q ns = .ok () from hv]
    rw [if_neg (by simp only [Bool.and_eq_true, List.isEmpty_iff]; exact hty)]
    have hth := thing_of hal
    have hf1' := canon_mono hf1 (by simp) (Nat.le_max_left f1 f2)
    have hf2' := step_mono hf2 (by simp) (Nat.le_max_right f1 f2)
    simp only [hth, hf1']
    cases segs with
    | nil => simpa using hf2'
    | cons s segs =>
      have h1 := h1 s rfl
      rw [entry_of hsc] at h1
      simp only [hsc', h1, Option.isSome_none]
      split
      · rename_i hb; cases hb
      · rename_i hb; cases hb
      · exact hf2'
end

end Spade.Symtab

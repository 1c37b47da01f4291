import Verif.Mir.AliasGraph
/-!
# Alias flattening preserves behaviour (C13)
-/
namespace Spade.Mir
variable {Op Ty C Ini : Type}

/-! ## Alias statements -/

theorem mem_aliasPairs : ∀ {ss : List (Stmt Op Ty C Ini)} {ps}, aliasPairs ss = some ps →
    ∀ n o t, (n, o, t) ∈ ps ↔ ∃ os, os.head? = some o ∧ .binding ⟨n, .alias, os, t⟩ ∈ ss
  | [], ps, h, n, o, t => by simp [aliasPairs] at h; subst h; simp
  | s :: ss, ps, h, n, o, t => by
    have skip : (∀ n os t, s ≠ .binding ⟨n, .alias, os, t⟩) → aliasPairs ss = some ps →
        ((n, o, t) ∈ ps ↔ ∃ os, os.head? = some o ∧ .binding ⟨n, .alias, os, t⟩ ∈ s :: ss) := by
      intro hs hp
      rw [mem_aliasPairs hp]
      constructor
      · rintro ⟨os, h1, h2⟩; exact ⟨os, h1, List.mem_cons_of_mem _ h2⟩
      · rintro ⟨os, h1, h2⟩
        rcases List.mem_cons.1 h2 with h2 | h2
        · exact (hs _ _ _ h2.symm).elim
        · exact ⟨os, h1, h2⟩
    cases s with
    | binding b =>
      obtain ⟨n', op, os, t'⟩ := b
      cases op with
      | other op => exact skip (by simp) (by simpa [aliasPairs] using h)
      | alias =>
        simp only [aliasPairs, Option.bind_eq_bind, Option.bind_eq_some_iff, Option.some.injEq] at h
        obtain ⟨o', ho', rest, hr, rfl⟩ := h
        simp only [List.mem_cons, Prod.mk.injEq, mem_aliasPairs hr]
        constructor
        · rintro (⟨rfl, rfl, rfl⟩ | ⟨os', h1, h2⟩)
          · exact ⟨os, ho', Or.inl rfl⟩
          · exact ⟨os', h1, Or.inr h2⟩
        · rintro ⟨os', h1, h2 | h2⟩
          · cases h2
            rw [ho'] at h1; cases h1
            exact Or.inl ⟨rfl, rfl, rfl⟩
          · exact Or.inr ⟨os', h1, h2⟩
    | register r => exact skip (by simp) (by simpa [aliasPairs] using h)
    | constant a b c => exact skip (by simp) (by simpa [aliasPairs] using h)
    | assert a => exact skip (by simp) (by simpa [aliasPairs] using h)
    | set a b => exact skip (by simp) (by simpa [aliasPairs] using h)
    | error => exact skip (by simp) (by simpa [aliasPairs] using h)

theorem aliasPairs_some : ∀ {ss : List (Stmt Op Ty C Ini)},
    (∀ n os t, .binding ⟨n, .alias, os, t⟩ ∈ ss → os ≠ []) → ∃ ps, aliasPairs ss = some ps
  | [], _ => ⟨[], rfl⟩
  | s :: ss, h => by
    obtain ⟨ps, hps⟩ := aliasPairs_some (ss := ss) fun n os t hm =>
      h n os t (List.mem_cons_of_mem _ hm)
    cases s with
    | binding b =>
      obtain ⟨n', op, os, t'⟩ := b
      cases op with
      | other op => exact ⟨ps, by simpa [aliasPairs] using hps⟩
      | alias =>
        have := h n' os t' (by simp)
        cases os with
        | nil => exact (this rfl).elim
        | cons o os => exact ⟨(n', o, t') :: ps, by simp [aliasPairs, hps]⟩
    | _ => exact ⟨ps, by simpa [aliasPairs] using hps⟩

theorem aliasTypes_from : ∀ (ps : List (Name × Name × Ty)) (f : Name → Option Ty) (x : Name) (t : Ty),
    aliasTypes ps f x = some t → f x = some t ∨ ∃ y, (x, y, t) ∈ ps ∨ (y, x, t) ∈ ps
  | [], f, x, t, h => Or.inl h
  | (n, o, u) :: ps, f, x, t, h => by
    rw [aliasTypes] at h
    rcases aliasTypes_from ps _ x t h with h | ⟨y, h | h⟩
    · split at h
      · rename_i he; cases h; subst he; exact Or.inr ⟨n, Or.inr (by simp)⟩
      · split at h
        · rename_i he; cases h; subst he; exact Or.inr ⟨o, Or.inl (by simp)⟩
        · exact Or.inl h
    · exact Or.inr ⟨y, Or.inl (List.mem_cons_of_mem _ h)⟩
    · exact Or.inr ⟨y, Or.inr (List.mem_cons_of_mem _ h)⟩

theorem aliasTypes_some : ∀ (ps : List (Name × Name × Ty)) (f : Name → Option Ty) (x : Name),
    (f x).isSome ∨ (∃ y, IsPair ps x y ∨ IsPair ps y x) → (aliasTypes ps f x).isSome
  | [], f, x, h => by
    rcases h with h | ⟨y, ⟨_, h⟩ | ⟨_, h⟩⟩
    · exact h
    · cases h
    · cases h
  | (n, o, t) :: ps, f, x, h => by
    rw [aliasTypes]
    apply aliasTypes_some
    rcases h with h | ⟨y, ⟨t', h⟩ | ⟨t', h⟩⟩
    · left
      split
      · rfl
      · split
        · rfl
        · exact h
    · rcases List.mem_cons.1 h with h | h
      · cases h; left; split
        · rfl
        · simp
      · right; exact ⟨y, Or.inl ⟨t', h⟩⟩
    · rcases List.mem_cons.1 h with h | h
      · cases h; left; simp
      · right; exact ⟨y, Or.inr ⟨t', h⟩⟩

/-! ## Representatives -/

theorem minBy_spec {key : Name → Nat} : ∀ {l : List Name} {r}, minBy key l = some r →
    r ∈ l ∧ ∀ x ∈ l, key r ≤ key x
  | n :: ns, r, h => by
    simp only [minBy] at h
    cases hm : minBy key ns with
    | none =>
      simp only [hm, Option.some.injEq] at h; subst h
      have : ns = [] := by
        cases ns with
        | nil => rfl
        | cons a as =>
          simp only [minBy] at hm
          cases h2 : minBy key as <;> simp only [h2] at hm
          · cases hm
          · split at hm <;> cases hm
      subst this
      simp
    | some m =>
      obtain ⟨h1, h2⟩ := minBy_spec hm
      simp only [hm] at h
      split at h <;> cases h
      · rename_i hle
        refine ⟨by simp, fun x hx => ?_⟩
        rcases List.mem_cons.1 hx with rfl | hx
        · exact Nat.le_refl _
        · exact Nat.le_trans hle (h2 x hx)
      · rename_i hle
        refine ⟨List.mem_cons_of_mem _ h1, fun x hx => ?_⟩
        rcases List.mem_cons.1 hx with rfl | hx
        · omega
        · exact h2 x hx

theorem minBy_some {key : Name → Nat} {l : List Name} (h : l ≠ []) : ∃ r, minBy key l = some r := by
  cases l with
  | nil => exact (h rfl).elim
  | cons n ns =>
    simp only [minBy]
    cases minBy key ns with
    | none => exact ⟨_, rfl⟩
    | some m => simp only; split <;> exact ⟨_, rfl⟩

theorem lookup_const (l : List Name) (r x : Name) :
    (l.map fun n => (n, r)).lookup x = if x ∈ l then some r else none := by
  induction l with
  | nil => rfl
  | cons a l ih =>
    simp only [List.map_cons, List.lookup_cons, ih, List.mem_cons]
    by_cases h : x = a
    · simp [h]
    · have : (x == a) = false := by simpa using h
      simp [this, h]

section
variable {ord : List Name → List Name} {un : List Name} {types : Name → Option Ty}
  {nb : Ty → Bool}

theorem chooseReps_lookup (hord : ∀ l, (ord l).Perm l) : ∀ {cs : List (List Name)},
    (cs.Pairwise fun c d => ∀ x ∈ c, x ∉ d) →
    (∀ x, (∀ c ∈ cs, x ∉ c) → (chooseReps ord un types nb cs).1.lookup x = none) ∧
    (∀ c ∈ cs, ∀ x ∈ c, ∃ r ∈ c, (∀ y ∈ c, aliasKey un r ≤ aliasKey un y) ∧
      ∀ y ∈ c, (chooseReps ord un types nb cs).1.lookup y = if y = r then none else some r)
  | [], _ => ⟨fun x _ => rfl, fun c hc => by cases hc⟩
  | c :: cs, hd => by
    rw [List.pairwise_cons] at hd
    obtain ⟨ih1, ih2⟩ := chooseReps_lookup hord hd.2
    have hpm : ∀ x, x ∈ ord c ↔ x ∈ c := fun x => (hord c).mem_iff
    cases hm : minBy (aliasKey un) (ord c) with
    | none =>
      have hc : c = [] := by
        cases c with
        | nil => rfl
        | cons a as =>
          obtain ⟨r, hr⟩ := minBy_some (key := aliasKey un) (l := ord (a :: as))
            (fun h => by have := (hord (a :: as)).length_eq; rw [h] at this; simp at this)
          rw [hr] at hm; cases hm
      subst hc
      simp only [chooseReps, hm]
      refine ⟨fun x hx => ih1 x fun d hd => hx d (List.mem_cons_of_mem _ hd), fun d hd' x hx => ?_⟩
      rcases List.mem_cons.1 hd' with rfl | hd'
      · cases hx
      · exact ih2 d hd' x hx
    | some r =>
      obtain ⟨h1, h2⟩ := minBy_spec hm
      have hlk : ∀ x, (chooseReps ord un types nb (c :: cs)).1.lookup x =
          (if x ∈ c ∧ x ≠ r then some r else none).or
            ((chooseReps ord un types nb cs).1.lookup x) := by
        intro x
        simp only [chooseReps, hm, List.lookup_append, lookup_const, List.mem_filter, hpm,
          decide_eq_true_eq]
      refine ⟨fun x hx => ?_, fun d hd' x hx => ?_⟩
      · rw [hlk, ih1 x fun d hd => hx d (List.mem_cons_of_mem _ hd)]
        simp [hx c (by simp)]
      · rcases List.mem_cons.1 hd' with rfl | hd'
        · refine ⟨r, (hpm r).1 h1, fun y hy => h2 y ((hpm y).2 hy), fun y hy => ?_⟩
          rw [hlk, ih1 y fun e he => hd.1 e he y hy]
          by_cases hyr : y = r <;> simp [hyr, hy]
        · obtain ⟨r', h3, h4, h5⟩ := ih2 d hd' x hx
          refine ⟨r', h3, h4, fun y hy => ?_⟩
          rw [hlk, h5 y hy]
          have : y ∉ c := fun hc => hd.1 d hd' y hc hy
          simp [this]

/-- What is re-created: pairs of the representative of a cluster and another of its names. -/
theorem chooseReps_fresh (hord : ∀ l, (ord l).Perm l) : ∀ {cs : List (List Name)},
    (∀ c ∈ cs, c.Nodup) → (cs.Pairwise fun c d => ∀ x ∈ c, x ∉ d) →
    ((chooseReps ord un types nb cs).2.map (·.2)).Nodup ∧
    (∀ p, p ∈ (chooseReps ord un types nb cs).2 ↔
      ((chooseReps ord un types nb cs).1.lookup p.2 = some p.1 ∧
        (∃ i s, p.2 = .named i s) ∧ (types p.2).any nb = true)) ∧
    (∀ p ∈ (chooseReps ord un types nb cs).2, ∃ c ∈ cs, p.1 ∈ c ∧ p.2 ∈ c)
  | [], _, _ => ⟨by simp [chooseReps], by simp [chooseReps], by simp [chooseReps]⟩
  | c :: cs, hn, hd => by
    have hl := chooseReps_lookup (un := un) (types := types) (nb := nb) hord hd
    have hd0 := hd
    rw [List.pairwise_cons] at hd
    have hl' := chooseReps_lookup (un := un) (types := types) (nb := nb) hord hd.2
    obtain ⟨ih0, ih1, ih2⟩ := chooseReps_fresh hord
      (fun d hd' => hn d (List.mem_cons_of_mem _ hd')) hd.2
    have hpm : ∀ x, x ∈ ord c ↔ x ∈ c := fun x => (hord c).mem_iff
    cases hm : minBy (aliasKey un) (ord c) with
    | none =>
      simp only [chooseReps, hm]
      refine ⟨ih0, ih1, fun p hp => ?_⟩
      obtain ⟨d, h1, h2⟩ := ih2 p hp
      exact ⟨d, List.mem_cons_of_mem _ h1, h2⟩
    | some r =>
      obtain ⟨h1, h2⟩ := minBy_spec hm
      have hlk : ∀ x, (chooseReps ord un types nb (c :: cs)).1.lookup x =
          (if x ∈ c ∧ x ≠ r then some r else none).or
            ((chooseReps ord un types nb cs).1.lookup x) := by
        intro x
        simp only [chooseReps, hm, List.lookup_append, lookup_const, List.mem_filter, hpm,
          decide_eq_true_eq]
      have hmem : ∀ p, p ∈ (chooseReps ord un types nb (c :: cs)).2 ↔
          (p.1 = r ∧ p.2 ∈ c ∧ p.2 ≠ r ∧ (∃ i s, p.2 = .named i s) ∧ (types p.2).any nb = true) ∨
          p ∈ (chooseReps ord un types nb cs).2 := by
        rintro ⟨a, n⟩
        simp only [chooseReps, hm, List.mem_append, List.mem_map, List.mem_filter, hpm,
          decide_eq_true_eq, Prod.mk.injEq]
        constructor
        · rintro (⟨x, ⟨⟨h1, h2⟩, h3⟩, rfl, rfl⟩ | h)
          · left
            cases x with
            | named i s => exact ⟨rfl, h1, h2, ⟨i, s, rfl⟩, h3⟩
            | expr i => cases h3
          · exact Or.inr h
        · rintro (⟨rfl, h2, h3, ⟨i, s, rfl⟩, h4⟩ | h)
          · exact Or.inl ⟨_, ⟨⟨h2, h3⟩, h4⟩, rfl, rfl⟩
          · exact Or.inr h
      refine ⟨?_, fun p => ?_, fun p hp => ?_⟩
      · simp only [chooseReps, hm, List.map_append, List.map_map, Function.comp_def, List.map_id']
        rw [List.nodup_append]
        refine ⟨?_, ih0, ?_⟩
        · exact (((hord c).nodup_iff.2 (hn c (by simp))).filter _).filter _
        · intro x hx y hy
          rintro rfl
          obtain ⟨p, hp, rfl⟩ := List.mem_map.1 hy
          obtain ⟨d, hd1, hd2⟩ := ih2 p hp
          have : p.2 ∈ c := by
            have := (List.mem_filter.1 (List.mem_filter.1 hx).1).1
            exact (hpm _).1 this
          exact hd.1 d hd1 _ this hd2.2
      · rw [hmem, hlk, ih1]
        constructor
        · rintro (⟨h3, h4, h5, h6, h7⟩ | ⟨h3, h4, h5⟩)
          · refine ⟨?_, h6, h7⟩
            simp [h4, h5, h3]
          · refine ⟨?_, h4, h5⟩
            have : ¬ (p.2 ∈ c ∧ p.2 ≠ r) := by
              rintro ⟨hc, _⟩
              rw [hl'.1 p.2 fun d hd' hx => hd.1 d hd' _ hc hx] at h3
              cases h3
            simp [this, h3]
        · rintro ⟨h3, h4, h5⟩
          by_cases hc : p.2 ∈ c ∧ p.2 ≠ r
          · simp only [hc, ne_eq, and_self, not_false_eq_true, if_true, Option.some_or,
              Option.some.injEq] at h3
            exact Or.inl ⟨h3.symm, hc.1, hc.2, h4, h5⟩
          · right
            simp only [hc, if_false, Option.none_or] at h3
            exact ⟨h3, h4, h5⟩
      · rcases (hmem p).1 hp with ⟨h3, h4, _⟩ | h
        · exact ⟨c, by simp, by rw [h3]; exact (hpm r).1 h1, h4⟩
        · obtain ⟨d, h3, h4⟩ := ih2 p h
          exact ⟨d, List.mem_cons_of_mem _ h3, h4⟩
end

theorem mem_newAliases {types : Name → Option Ty} : ∀ {ps : List (Name × Name)}
    {ss : List (Stmt Op Ty C Ini)}, newAliases types ps = some ss →
    ss.filterMap Stmt.defines = ps.map (·.2) ∧
    ∀ s, s ∈ ss ↔ ∃ p ∈ ps, ∃ t, types p.1 = some t ∧ s = .binding ⟨p.2, .alias, [p.1], t⟩
  | [], ss, h => by
    simp only [newAliases, Option.some.injEq] at h; subst h; simp
  | (r, n) :: ps, ss, h => by
    simp only [newAliases, Option.bind_eq_bind, Option.bind_eq_some_iff, Option.some.injEq] at h
    obtain ⟨t, ht, rest, hr, rfl⟩ := h
    obtain ⟨h1, h2⟩ := mem_newAliases hr
    refine ⟨by simp [Stmt.defines, h1], fun s => ?_⟩
    simp only [List.mem_cons, h2, exists_eq_or_imp]
    constructor
    · rintro (rfl | h)
      · exact Or.inl ⟨t, ht, rfl⟩
      · exact Or.inr h
    · rintro (⟨t', ht', rfl⟩ | h)
      · rw [ht] at ht'; cases ht'; exact Or.inl rfl
      · exact Or.inr h

theorem newAliases_some {types : Name → Option Ty} : ∀ {ps : List (Name × Name)},
    (∀ p ∈ ps, (types p.1).isSome) → ∃ ss : List (Stmt Op Ty C Ini), newAliases types ps = some ss
  | [], _ => ⟨[], rfl⟩
  | (r, n) :: ps, h => by
    obtain ⟨ss, hss⟩ : ∃ ss : List (Stmt Op Ty C Ini), newAliases types ps = some ss :=
      newAliases_some fun p hp => h p (List.mem_cons_of_mem _ hp)
    have := h (r, n) (by simp)
    obtain ⟨t, ht⟩ := Option.isSome_iff_exists.1 this
    exact ⟨.binding ⟨n, .alias, [r], t⟩ :: ss, by simp [newAliases, ht, hss]⟩

/-! ## Everything known about a run -/

/-- The facts used below about the renaming `f = try_rename`. -/
structure Run (e e' : Entity Op Ty C Ini) (ps : List (Name × Name × Ty)) (f : Name → Name) : Prop where
  pairs : ∀ n o t, (n, o, t) ∈ ps ↔ ∃ os, os.head? = some o ∧ .binding ⟨n, .alias, os, t⟩ ∈ e.stmts
  /-- renamed within a cluster -/
  conn : ∀ x, Conn (fun a b => IsPair ps a b ∨ IsPair ps b a) x (f x)
  /-- one representative for each cluster -/
  same : ∀ x y, Conn (fun a b => IsPair ps a b ∨ IsPair ps b a) x y → f x = f y
  input : ∀ x, Conn (fun a b => IsPair ps a b ∨ IsPair ps b a) x (f x) → x ∈ e.inputNames →
    f x ∈ e.inputNames
  output : e'.output = f e.output
  inputs : e'.inputs = e.inputs
  name : e'.name = e.name
  ty : e'.outputTy = e.outputTy
  /-- the resulting statements -/
  stmts : ∃ kept added : List (Stmt Op Ty C Ini), e'.stmts = kept.map (Stmt.rename f) ++ added ∧
    kept.Sublist e.stmts ∧
    (∀ s ∈ e.stmts, s ∈ kept ∨ ∃ n os t, s = .binding ⟨n, .alias, os, t⟩) ∧
    (∀ n os o t, Stmt.binding ⟨n, .alias, os, t⟩ ∈ kept → os.head? = some o → n = o) ∧
    (∀ s ∈ added, ∃ r n t, s = .binding ⟨n, .alias, [r], t⟩ ∧ f n = r ∧ n ≠ r) ∧
    (added.filterMap Stmt.defines).Nodup

theorem lookup_eq_getD {m : List (Name × Name)} {x : Name} :
    tryRename m x = (m.lookup x).getD x := rfl

theorem flatten_run {ord : List Name → List Name} (hord : ∀ l, (ord l).Perm l) {nb : Ty → Bool}
    {e : Entity Op Ty C Ini} (hal : ∀ n os t, .binding ⟨n, .alias, os, t⟩ ∈ e.stmts → os ≠ []) :
    ∃ e' ps f, flattenAliases ord nb e = some e' ∧ Run e e' ps f ∧
      ∀ n, f n ≠ n → (∃ i s, n = .named i s) →
        (∀ y t, (n, y, t) ∈ ps ∨ (y, n, t) ∈ ps → nb t = true) → n ∈ e'.defs := by
  obtain ⟨ps, hps⟩ := aliasPairs_some hal
  have hpm := mem_aliasPairs hps
  obtain ⟨hk, hadj⟩ := buildEdges_spec ps [] (by simp [Graph.keys])
  have hadj' : ∀ x y, Adj (buildEdges ps []) x y ↔ (IsPair ps x y ∨ IsPair ps y x) := by
    intro x y; rw [hadj]; simp [Adj]
  have hok : Graph.Ok (buildEdges ps []) := ⟨hk, fun a b h => by
    rw [hadj'] at h ⊢; exact h.symm⟩
  have hcl := clusters_ok _ hok
  generalize hg : buildEdges ps [] = g at hcl hadj' hok
  have hR : (Adj g) = fun a b => IsPair ps a b ∨ IsPair ps b a := by
    funext a b; exact propext (hadj' a b)
  generalize hty : aliasTypes ps (fun _ => none) = types
  have htypes : ∀ x y, (IsPair ps x y ∨ IsPair ps y x) → (types x).isSome := by
    intro x y h
    rw [← hty]; exact aliasTypes_some ps _ x (Or.inr ⟨y, h⟩)
  generalize hmf : chooseReps ord e.inputNames types nb (clusters g) = mf
  obtain ⟨hl1, hl2⟩ := chooseReps_lookup (un := e.inputNames) (types := types) (nb := nb) hord
    hcl.disjoint
  obtain ⟨hf0, hf1, hf2⟩ := chooseReps_fresh (un := e.inputNames) (types := types) (nb := nb) hord
    hcl.nodup hcl.disjoint
  rw [hmf] at hl1 hl2 hf0 hf1 hf2
  -- members of clusters have neighbours
  have hnb : ∀ c ∈ clusters g, ∀ x ∈ c, (types x).isSome := by
    intro c hc x hx
    have hxk := (hcl.mem x).1 ⟨c, hc, hx⟩
    obtain ⟨⟨x', l⟩, hxl, rfl⟩ := List.mem_map.1 hxk
    have hne : ∀ (ps : List (Name × Name × Ty)) (g : Graph), (∀ e ∈ g, e.2 ≠ []) →
        ∀ e ∈ buildEdges ps g, e.2 ≠ [] := by
      have hpush : ∀ (g : Graph) a b, (∀ e ∈ g, e.2 ≠ []) → ∀ e ∈ pushEdge g a b, e.2 ≠ [] := by
        intro g a b
        induction g with
        | nil => intro _ e he; simp [pushEdge] at he; simp [he]
        | cons y g ih =>
          obtain ⟨n, l⟩ := y
          intro h e he
          simp only [pushEdge] at he
          split at he
          · rcases List.mem_cons.1 he with rfl | he
            · simp
            · exact h e (List.mem_cons_of_mem _ he)
          · rcases List.mem_cons.1 he with rfl | he
            · exact h _ (by simp)
            · exact ih (fun e he => h e (List.mem_cons_of_mem _ he)) e he
      intro ps
      induction ps with
      | nil => intro g h; exact h
      | cons p ps ih =>
        obtain ⟨n, o, t⟩ := p
        intro g h
        exact ih _ (hpush _ _ _ (hpush _ _ _ h))
    have := hne ps [] (by simp) (x', l) (by rw [hg]; exact hxl)
    cases l with
    | nil => exact (this rfl).elim
    | cons y l => exact htypes x' y ((hadj' x' y).1 ⟨_, hxl, by simp⟩)
  obtain ⟨added, hadd⟩ := newAliases_some (Op := Op) (C := C) (Ini := Ini) (types := types)
    (ps := mf.2) fun p hp => by
      obtain ⟨c, h1, h2, _⟩ := hf2 p hp; exact hnb c h1 _ h2
  obtain ⟨hadd0, hadd1⟩ := mem_newAliases hadd
  -- the renaming
  have hin : ∀ c ∈ clusters g, ∀ x ∈ c, tryRename mf.1 x ∈ c ∧
      (∀ y ∈ c, tryRename mf.1 y = tryRename mf.1 x) ∧
      aliasKey e.inputNames (tryRename mf.1 x) ≤ aliasKey e.inputNames x := by
    intro c hc x hx
    obtain ⟨r, h1, h2, h3⟩ := hl2 c hc x hx
    have hfr : ∀ y ∈ c, tryRename mf.1 y = r := by
      intro y hy
      rw [lookup_eq_getD, h3 y hy]
      by_cases h : y = r <;> simp [h]
    rw [hfr x hx]
    exact ⟨h1, hfr, h2 x hx⟩
  have hout : ∀ x, (∀ c ∈ clusters g, x ∉ c) → tryRename mf.1 x = x := by
    intro x hx; rw [lookup_eq_getD, hl1 x hx]; rfl
  have hsome : ∀ x, (mf.1.lookup x).isSome → tryRename mf.1 x ≠ x := by
    intro x hx
    by_cases hc : ∃ c ∈ clusters g, x ∈ c
    · obtain ⟨c, hc, hxc⟩ := hc
      obtain ⟨r, h1, h2, h3⟩ := hl2 c hc x hxc
      rw [lookup_eq_getD, h3 x hxc]
      rw [h3 x hxc] at hx
      by_cases h : x = r
      · simp [h] at hx
      · simp only [h, if_false, Option.getD_some]; exact Ne.symm h
    · rw [hl1 x fun c hc' hx' => hc ⟨c, hc', hx'⟩] at hx; cases hx
  have hnone : ∀ x, mf.1.lookup x = none → tryRename mf.1 x = x := by
    intro x hx; rw [lookup_eq_getD, hx]; rfl
  have hconn : ∀ x, Conn (Adj g) x (tryRename mf.1 x) := by
    intro x
    by_cases hc : ∃ c ∈ clusters g, x ∈ c
    · obtain ⟨c, hc, hxc⟩ := hc
      exact hcl.conn c hc x hxc _ (hin c hc x hxc).1
    · rw [hout x fun c hc' hx' => hc ⟨c, hc', hx'⟩]; exact .refl _
  have hsame : ∀ x y, Conn (Adj g) x y → tryRename mf.1 x = tryRename mf.1 y := by
    intro x y h
    induction h with
    | refl => rfl
    | @tail b c _ hr ih =>
      rw [ih]
      obtain ⟨d, hd, hbd⟩ := (hcl.mem b).2 hr.key
      exact ((hin d hd b hbd).2.1 c (hcl.closed d hd b hbd c hr)).symm
  refine ⟨{ e with stmts := (e.stmts.filter (keepStmt mf.1)).map (Stmt.rename (tryRename mf.1)) ++ added,
                   output := tryRename mf.1 e.output }, ps, tryRename mf.1, ?_, ⟨hpm, ?_, ?_, ?_, rfl, rfl, rfl, rfl, ?_⟩, ?_⟩
  · simp only [flattenAliases, Option.bind_eq_bind, hps, Option.bind_some, hg, hty, hmf, hadd]
  · rw [← hR]; exact hconn
  · rw [← hR]; exact hsame
  · intro x _ hx
    by_cases hc : ∃ c ∈ clusters g, x ∈ c
    · obtain ⟨c, hc, hxc⟩ := hc
      have := (hin c hc x hxc).2.2
      have h0 : aliasKey e.inputNames x = 0 := by simp [aliasKey, hx]
      rw [h0] at this
      unfold aliasKey at this
      split at this
      · assumption
      · split at this <;> omega
    · rw [hout x fun c hc' hx' => hc ⟨c, hc', hx'⟩]; exact hx
  · refine ⟨e.stmts.filter (keepStmt mf.1), added, rfl, List.filter_sublist, ?_, ?_, ?_, ?_⟩
    · intro s hs
      by_cases hkp : keepStmt mf.1 s = true
      · exact Or.inl (List.mem_filter.2 ⟨hs, hkp⟩)
      · right
        unfold keepStmt at hkp
        split at hkp
        · exact ⟨_, _, _, rfl⟩
        · simp at hkp
    · intro n os o t hm ho
      obtain ⟨hs, hkp⟩ := List.mem_filter.1 hm
      simp only [keepStmt, ho, Option.map_some, Option.getD_some, Bool.and_eq_true,
        Bool.not_eq_true', Option.isSome_eq_false_iff, Option.isNone_iff_eq_none] at hkp
      have h1 := hnone o hkp.1
      have h2 := hnone n hkp.2
      have hp : (n, o, t) ∈ ps := (hpm n o t).2 ⟨os, ho, hs⟩
      have := hsame n o (.tail (.refl _) ((hadj' n o).2 (Or.inl ⟨t, hp⟩)))
      rw [h1, h2] at this; exact this
    · intro s hs
      obtain ⟨p, hp, t, ht, rfl⟩ := (hadd1 s).1 hs
      have := ((hf1 p).1 hp).1
      refine ⟨p.1, p.2, t, rfl, ?_, ?_⟩
      · rw [lookup_eq_getD, this]; rfl
      · intro he
        have h2 := hsome p.2 (by rw [this]; rfl)
        apply h2
        rw [lookup_eq_getD, this, he]; rfl
    · rw [hadd0]; exact hf0
  · intro n hn hnm hall
    simp only [Entity.defs, List.filterMap_append, List.mem_append, hadd0]
    right
    cases hlk : mf.1.lookup n with
    | none => exact (hn (hnone n hlk)).elim
    | some r =>
      have hany : (types n).any nb = true := by
        by_cases hc : ∃ c ∈ clusters g, n ∈ c
        · obtain ⟨c, hc, hnc⟩ := hc
          obtain ⟨t, ht⟩ := Option.isSome_iff_exists.1 (hnb c hc n hnc)
          have : nb t = true := by
            rw [← hty] at ht
            rcases aliasTypes_from _ _ _ _ ht with h | ⟨y, h⟩
            · cases h
            · exact hall y t h
          simp [ht, this]
        · rw [hl1 n fun c hc' hx' => hc ⟨c, hc', hx'⟩] at hlk; cases hlk
      exact List.mem_map.2 ⟨(r, n), (hf1 (r, n)).2 ⟨hlk, hnm, hany⟩, rfl⟩

/-! ## Roots

With one definition for each name, the alias statements form a forest. -/

theorem Conn.head {R : Name → Name → Prop} {a b : Name} (h : Conn R a b) :
    a = b ∨ ∃ c, R a c ∧ Conn R c b := by
  induction h with
  | refl => exact Or.inl rfl
  | @tail b c _ r ih =>
    rcases ih with rfl | ⟨d, h1, h2⟩
    · exact Or.inr ⟨c, r, .refl _⟩
    · exact Or.inr ⟨d, h1, .tail h2 r⟩

/-- Nothing but itself is aliased by `a`. -/
def IsRoot (P : Name → Name → Prop) (a : Name) : Prop := ∀ b, P a b → b = a

theorem reach_root {P : Name → Name → Prop} (hu : ∀ a b c, P a b → P a c → b = c) {x y : Name}
    (hx : IsRoot P x) (h : Conn (fun a b => P a b ∨ P b a) x y) : Conn P y x := by
  induction h with
  | refl => exact .refl _
  | @tail b c _ r ih =>
    rcases r with r | r
    · rcases ih.head with rfl | ⟨d, h1, h2⟩
      · rw [hx c r]; exact .refl _
      · rw [hu _ _ _ r h1]; exact h2
    · exact Conn.trans (.tail (.refl _) r) ih

theorem root_unique {P : Name → Name → Prop} (hu : ∀ a b c, P a b → P a c → b = c) {x y : Name}
    (hx : IsRoot P x) (hy : IsRoot P y) (h : Conn (fun a b => P a b ∨ P b a) x y) : x = y := by
  have := reach_root hu hx h
  clear h
  induction this with
  | refl => rfl
  | @tail b c _ r ih =>
    by_cases hb : b = y
    · subst hb; exact hy c r
    · exact (hb (by
        have : ∀ z, Conn P y z → z = y := by
          intro z hz
          induction hz with
          | refl => rfl
          | @tail b c _ r ih => rw [ih] at r; exact hy c r
        exact this b (by assumption))).elim

theorem filterMap_unique {α β : Type} {f : α → Option β} : ∀ {l : List α}, (l.filterMap f).Nodup →
    ∀ {a b : α} {x : β}, a ∈ l → b ∈ l → f a = some x → f b = some x → a = b
  | c :: l, hn, a, b, x, ha, hb, hfa, hfb => by
    have hmem : ∀ d ∈ l, f d = some x → x ∈ l.filterMap f := fun d hd h =>
      List.mem_filterMap.2 ⟨d, hd, h⟩
    have hrest : (l.filterMap f).Nodup := by
      simp only [List.filterMap_cons] at hn
      split at hn
      · exact hn
      · exact (List.nodup_cons.1 hn).2
    have hc : f c = some x → x ∉ l.filterMap f := by
      intro h; simp only [List.filterMap_cons, h, List.nodup_cons] at hn; exact hn.1
    rcases List.mem_cons.1 ha with ha' | ha' <;> rcases List.mem_cons.1 hb with hb' | hb'
    · rw [ha', hb']
    · subst ha'; exact (hc hfa (hmem b hb' hfb)).elim
    · subst hb'; exact (hc hfb (hmem a ha' hfa)).elim
    · exact filterMap_unique hrest ha' hb' hfa hfb

theorem nodup_map_on {α β : Type} {f : α → β} : ∀ {l : List α}, l.Nodup →
    (∀ x ∈ l, ∀ y ∈ l, f x = f y → x = y) → (l.map f).Nodup
  | [], _, _ => by simp
  | a :: l, hn, h => by
    rw [List.nodup_cons] at hn
    rw [List.map_cons, List.nodup_cons]
    refine ⟨fun hm => ?_, nodup_map_on hn.2 fun x hx y hy =>
      h x (List.mem_cons_of_mem _ hx) y (List.mem_cons_of_mem _ hy)⟩
    obtain ⟨b, hb, he⟩ := List.mem_map.1 hm
    have := h b (List.mem_cons_of_mem _ hb) a (by simp) he
    subst this
    exact hn.1 hb

section
variable {e e' : Entity Op Ty C Ini} {ps : List (Name × Name × Ty)} {f : Name → Name}

theorem Run.idem (h : Run e e' ps f) (x : Name) : f (f x) = f x := (h.same _ _ (h.conn x)).symm

theorem Run.unique (h : Run e e' ps f) (hs : e.SingleDefs) (a b c : Name) (h1 : IsPair ps a b)
    (h2 : IsPair ps a c) : b = c := by
  obtain ⟨t, h1⟩ := h1
  obtain ⟨t', h2⟩ := h2
  obtain ⟨os, ho, hm⟩ := (h.pairs _ _ _).1 h1
  obtain ⟨os', ho', hm'⟩ := (h.pairs _ _ _).1 h2
  have := filterMap_unique hs.1 hm hm' rfl rfl
  cases this
  rw [ho] at ho'; cases ho'; rfl

theorem Run.root_input (h : Run e e' ps f) (hs : e.SingleDefs) {x : Name} (hx : x ∈ e.inputNames) :
    IsRoot (IsPair ps) x := by
  rintro b ⟨t, hb⟩
  obtain ⟨os, _, hm⟩ := (h.pairs _ _ _).1 hb
  exact (hs.2 x hx (List.mem_filterMap.2 ⟨_, hm, rfl⟩)).elim

/-- Inputs are not renamed. -/
theorem Run.fix_input (h : Run e e' ps f) (hs : e.SingleDefs) {x : Name} (hx : x ∈ e.inputNames) :
    f x = x :=
  (root_unique (h.unique hs) (h.root_input hs hx) (h.root_input hs (h.input x (h.conn x) hx))
    (h.conn x)).symm

/-- The name defined by a statement that is kept is the root of its cluster. -/
theorem Run.root_kept (h : Run e e' ps f) (hs : e.SingleDefs) {kept : List (Stmt Op Ty C Ini)}
    (hk : ∀ s ∈ kept, s ∈ e.stmts)
    (hself : ∀ n os o t, Stmt.binding ⟨n, .alias, os, t⟩ ∈ kept → os.head? = some o → n = o)
    {s : Stmt Op Ty C Ini} (hm : s ∈ kept) {n : Name} (hd : s.defines = some n) :
    IsRoot (IsPair ps) n := by
  rintro b ⟨t, hb⟩
  obtain ⟨os, ho, hm'⟩ := (h.pairs _ _ _).1 hb
  have := filterMap_unique hs.1 (hk s hm) hm' hd rfl
  subst this
  exact (hself _ _ _ _ hm ho).symm

end

/-! ## The property -/

/-- All names occurring in the statements of a unit. -/
def Entity.names (e : Entity Op Ty C Ini) : List Name := e.stmts.flatMap Stmt.names

/-- Every name in use is an input or has a definition. -/
def Entity.Closed (e : Entity Op Ty C Ini) : Prop :=
  ∀ n, n ∈ e.names ∨ n = e.output → n ∈ e.inputNames ∨ n ∈ e.defs

/-- Aliases have something to be an alias of. -/
def Entity.AliasesOk (e : Entity Op Ty C Ini) : Prop :=
  ∀ n os t, Stmt.binding ⟨n, .alias, os, t⟩ ∈ e.stmts → os ≠ []

/-- The alias statements form no loop. -/
def Entity.AliasesAcyclic (e : Entity Op Ty C Ini) : Prop :=
  ∃ rank : Name → Nat, ∀ n os o t, Stmt.binding ⟨n, .alias, os, t⟩ ∈ e.stmts → os.head? = some o →
    rank o < rank n

theorem Run.added_sat {V : Type} {I : Interp Op Ty C Ini V} {f : Name → Name} {v : Name → V}
    (hv : ∀ x, v (f x) = v x) {added : List (Stmt Op Ty C Ini)}
    (ha : ∀ s ∈ added, ∃ r n t, s = .binding ⟨n, .alias, [r], t⟩ ∧ f n = r ∧ n ≠ r) :
    ∀ s ∈ added, s.Sat I v := by
  intro s hs
  obtain ⟨r, n, t, rfl, hr, _⟩ := ha s hs
  intro o ho
  simp only [List.head?_cons, Option.some.injEq] at ho
  subst ho hr
  exact (hv n).symm

/-- **C13.** Removing aliases keeps the interface and the behaviour of every unit: the pass returns a
unit, whatever the order in which sets are iterated; every assignment of values to signals that
satisfies the statements before satisfies those after and gives the output the same value; and every
assignment that satisfies the statements after agrees, on the output and on all names still in use,
with one that satisfies those before. -/
theorem C13_flatten {V : Type} (I : Interp Op Ty C Ini V) {ord : List Name → List Name}
    (hord : ∀ l, (ord l).Perm l) (nb : Ty → Bool) (e : Entity Op Ty C Ini) (hal : e.AliasesOk) :
    ∃ e', flattenAliases ord nb e = some e' ∧
      e'.inputs = e.inputs ∧ e'.name = e.name ∧ e'.outputTy = e.outputTy ∧
      (∀ v, e.Sat I v → e'.Sat I v ∧ v e'.output = v e.output) ∧
      (∀ w, e'.Sat I w → ∃ v, e.Sat I v ∧ v e.output = w e'.output ∧
        (∀ n ∈ e'.names, v n = w n) ∧ (e.SingleDefs → ∀ n ∈ e.inputNames, v n = w n)) := by
  obtain ⟨e', ps, f, hf, h, _⟩ := flatten_run hord (nb := nb) hal
  obtain ⟨kept, added, hst, hsub, hall, hself, hadd, _⟩ := h.stmts
  refine ⟨e', hf, h.inputs, h.name, h.ty, fun v hv => ?_, fun w hw => ?_⟩
  · have hpair : ∀ a b, IsPair ps a b → v a = v b := by
      rintro a b ⟨t, hp⟩
      obtain ⟨os, ho, hm⟩ := (h.pairs _ _ _).1 hp
      exact hv _ hm b ho
    have hc : ∀ x y, Conn (fun a b => IsPair ps a b ∨ IsPair ps b a) x y → v x = v y := by
      intro x y hxy
      induction hxy with
      | refl => rfl
      | tail _ r ih =>
        rw [ih]
        rcases r with r | r
        · exact hpair _ _ r
        · exact (hpair _ _ r).symm
    have hvf : ∀ x, v (f x) = v x := fun x => (hc _ _ (h.conn x)).symm
    refine ⟨fun s hs => ?_, by rw [h.output, hvf]⟩
    rw [hst] at hs
    rcases List.mem_append.1 hs with hs | hs
    · obtain ⟨s', hs', rfl⟩ := List.mem_map.1 hs
      rw [Stmt.sat_rename, funext hvf]
      exact hv s' (hsub.subset hs')
    · exact Run.added_sat hvf hadd s hs
  · refine ⟨fun x => w (f x), fun s hs => ?_, by rw [h.output], ?_, ?_⟩
    · rcases hall s hs with hk | ⟨n, os, t, rfl⟩
      · rw [← Stmt.sat_rename]
        exact hw _ (by rw [hst]; exact List.mem_append_left _ (List.mem_map.2 ⟨s, hk, rfl⟩))
      · intro o ho
        have : f n = f o := h.same _ _ (.tail (.refl _) (Or.inl ⟨t, (h.pairs _ _ _).2 ⟨os, ho, hs⟩⟩))
        simp only [this]
    · intro n hn
      obtain ⟨s, hs, hns⟩ := List.mem_flatMap.1 hn
      have hs0 := hs
      rw [hst] at hs
      rcases List.mem_append.1 hs with hs | hs
      · obtain ⟨s', hs', rfl⟩ := List.mem_map.1 hs
        obtain ⟨m, _, rfl⟩ := (Stmt.mem_names_rename f s' n).1 hns
        simp only [h.idem]
      · obtain ⟨r, m, t, rfl, hr, _⟩ := hadd s hs
        simp only [Stmt.names, List.mem_cons, List.not_mem_nil, or_false] at hns
        rcases hns with rfl | rfl
        · have := hw _ hs0 r rfl
          simp only at this
          simp only [this, hr]
        · simp only [← hr, h.idem]
    · intro hsd n hn
      simp only [h.fix_input hsd hn]

/-- **C13.** Afterwards every name still has at most one definition and no input is defined. -/
theorem C13_single_definitions {ord : List Name → List Name}
    (hord : ∀ l, (ord l).Perm l) (nb : Ty → Bool) (e e' : Entity Op Ty C Ini) (hal : e.AliasesOk)
    (hs : e.SingleDefs) (hf : flattenAliases ord nb e = some e') : e'.SingleDefs := by
  obtain ⟨e'', ps, f, hf', h, _⟩ := flatten_run hord (nb := nb) hal
  rw [hf] at hf'; cases hf'
  obtain ⟨kept, added, hst, hsub, hall, hself, hadd, haddn⟩ := h.stmts
  have hroot : ∀ n ∈ kept.filterMap Stmt.defines, IsRoot (IsPair ps) n := by
    intro n hn
    obtain ⟨s, hs', hd⟩ := List.mem_filterMap.1 hn
    exact h.root_kept hs (fun s h => hsub.subset h) hself hs' hd
  have hdefs : e'.defs = (kept.filterMap Stmt.defines).map f ++ added.filterMap Stmt.defines := by
    rw [Entity.defs, hst, List.filterMap_append, List.filterMap_map]
    congr 1
    rw [List.map_filterMap]
    congr 1
    funext s
    simp [Stmt.defines_rename]
  have hmove : ∀ n ∈ added.filterMap Stmt.defines, f n ≠ n := by
    intro n hn
    obtain ⟨s, hs', hd⟩ := List.mem_filterMap.1 hn
    obtain ⟨r, m, t, rfl, hr, hne⟩ := hadd s hs'
    cases hd
    rw [hr]; exact Ne.symm hne
  refine ⟨?_, ?_⟩
  · rw [hdefs, List.nodup_append]
    refine ⟨?_, haddn, ?_⟩
    · have hnd : (kept.filterMap Stmt.defines).Nodup := hs.1.sublist (hsub.filterMap _)
      refine nodup_map_on hnd fun x hx y hy hxy => ?_
      refine root_unique (h.unique hs) (hroot x hx) (hroot y hy) ?_
      have h1 := h.conn x
      rw [hxy] at h1
      exact h1.trans (Conn.symm (fun a b h => h.symm) (h.conn y))
    · rintro x hx y hy rfl
      obtain ⟨m, _, rfl⟩ := List.mem_map.1 hx
      exact hmove _ hy (h.idem m)
  · intro n hn hd
    have hn : n ∈ e.inputNames := by simpa [Entity.inputNames, h.inputs] using hn
    rw [hdefs] at hd
    rcases List.mem_append.1 hd with hd | hd
    · obtain ⟨m, hm, hmn⟩ := List.mem_map.1 hd
      have hmn' : m = n := by
        refine root_unique (h.unique hs) (hroot m hm) (h.root_input hs hn) ?_
        rw [← hmn]; exact h.conn m
      subst hmn'
      exact hs.2 m hn ((hsub.filterMap _).subset hm)
    · exact hmove n hd (h.fix_input hs hn)

/-- The root of a name in a unit without alias loops. -/
theorem exists_root {P : Name → Name → Prop} {rank : Name → Nat} (hr : ∀ a b, P a b → rank b < rank a) :
    ∀ x : Name, ∃ m, (∀ b, ¬ P m b) ∧ Conn P x m := by
  have : ∀ k x, rank x ≤ k → ∃ m, (∀ b, ¬ P m b) ∧ Conn P x m := by
    intro k
    induction k with
    | zero => intro x hx; exact ⟨x, fun b hb => by have := hr _ _ hb; omega, .refl _⟩
    | succ k ih =>
      intro x hx
      by_cases h : ∃ b, P x b
      · obtain ⟨b, hb⟩ := h
        obtain ⟨m, h1, h2⟩ := ih b (by have := hr _ _ hb; omega)
        exact ⟨m, h1, Conn.trans (.tail (.refl _) hb) h2⟩
      · exact ⟨x, fun b hb => h ⟨b, hb⟩, .refl _⟩
  exact fun x => this _ x (Nat.le_refl _)

/-- **C13.** Nothing loses its definition: in a unit without alias loops in which every name in use is
an input or defined, the same holds afterwards, and every user-visible signal without a backward part
is still defined under its own name, so that it can still be found in a waveform. -/
theorem C13_definitions_kept {ord : List Name → List Name}
    (hord : ∀ l, (ord l).Perm l) (nb : Ty → Bool) (e e' : Entity Op Ty C Ini) (hal : e.AliasesOk)
    (hs : e.SingleDefs) (hc : e.Closed) (hac : e.AliasesAcyclic)
    (hf : flattenAliases ord nb e = some e') :
    e'.Closed ∧
    ∀ i s, Name.named i s ∈ e.defs →
      (∀ n os t, Stmt.binding ⟨n, .alias, os, t⟩ ∈ e.stmts →
        (n = .named i s ∨ os.head? = some (.named i s)) → nb t = true) →
      Name.named i s ∈ e'.defs := by
  obtain ⟨e'', ps, f, hf', h, hnamed⟩ := flatten_run hord (nb := nb) hal
  rw [hf] at hf'; cases hf'
  obtain ⟨kept, added, hst, hsub, hall, hself, hadd, haddn⟩ := h.stmts
  obtain ⟨rank, hrank⟩ := hac
  have hr : ∀ a b, IsPair ps a b → rank b < rank a := by
    rintro a b ⟨t, hp⟩
    obtain ⟨os, ho, hm⟩ := (h.pairs _ _ _).1 hp
    exact hrank _ _ _ _ hm ho
  have hpn : ∀ a b, IsPair ps a b → a ∈ e.names ∧ b ∈ e.names := by
    rintro a b ⟨t, hp⟩
    obtain ⟨os, ho, hm⟩ := (h.pairs _ _ _).1 hp
    exact ⟨List.mem_flatMap.2 ⟨_, hm, by simp [Stmt.names]⟩,
      List.mem_flatMap.2 ⟨_, hm, by simp [Stmt.names, List.mem_of_head? ho]⟩⟩
  -- the new name of everything in use is an input or defined
  have key : ∀ x, (x ∈ e.inputNames ∨ x ∈ e.defs) →
      (f x ∈ e.inputNames ∨ f x ∈ e'.defs) ∧ (x ∈ e.defs → f x = x → x ∈ e'.defs) := by
    intro x hx
    obtain ⟨m, hm, hxm⟩ := exists_root hr x
    have hcon : Conn (fun a b => IsPair ps a b ∨ IsPair ps b a) x m :=
      hxm.mono fun a b h => Or.inl h
    have hfm : f x = f m := h.same _ _ hcon
    have hm' : m ∈ e.inputNames ∨ m ∈ e.defs := by
      have hcon' := hcon
      cases hcon with
      | refl => exact hx
      | tail _ r =>
        rcases r with r | r
        · exact hc m (Or.inl (hpn _ _ r).2)
        · exact hc m (Or.inl (hpn _ _ r).1)
    rcases hm' with hm' | hm'
    · have hfx : f x = m := by rw [hfm, h.fix_input hs hm']
      refine ⟨Or.inl (by rw [hfx]; exact hm'), fun hd hxx => ?_⟩
      rw [hxx] at hfx; subst hfx
      exact (hs.2 _ hm' hd).elim
    · obtain ⟨s, hsm, hd⟩ := List.mem_filterMap.1 hm'
      have hk : s ∈ kept := by
        rcases hall s hsm with hk | ⟨n, os, t, rfl⟩
        · exact hk
        · cases hd
          have hne := hal _ _ _ hsm
          cases os with
          | nil => exact (hne rfl).elim
          | cons o os => exact (hm o ⟨t, (h.pairs _ _ _).2 ⟨_, rfl, hsm⟩⟩).elim
      have : f m ∈ e'.defs := by
        rw [Entity.defs, hst]
        refine List.mem_filterMap.2 ⟨s.rename f, List.mem_append_left _ (List.mem_map.2 ⟨s, hk, rfl⟩), ?_⟩
        rw [Stmt.defines_rename, hd]; rfl
      exact ⟨Or.inr (by rw [hfm]; exact this), fun _ hxx => by rw [← hxx, hfm]; exact this⟩
  have hin : e'.inputNames = e.inputNames := by rw [Entity.inputNames, h.inputs]; rfl
  refine ⟨?_, ?_⟩
  · rintro n (hn | rfl)
    · rw [hin]
      obtain ⟨s, hs', hns⟩ := List.mem_flatMap.1 hn
      have hs0 := hs'
      rw [hst] at hs'
      rcases List.mem_append.1 hs' with hs' | hs'
      · obtain ⟨s', hk, rfl⟩ := List.mem_map.1 hs'
        obtain ⟨m, hm, rfl⟩ := (Stmt.mem_names_rename f s' n).1 hns
        exact (key m (hc m (Or.inl (List.mem_flatMap.2 ⟨s', hsub.subset hk, hm⟩)))).1
      · obtain ⟨r, m, t, rfl, hr', hne⟩ := hadd s hs'
        simp only [Stmt.names, List.mem_cons, List.not_mem_nil, or_false] at hns
        rcases hns with rfl | rfl
        · exact Or.inr (List.mem_filterMap.2 ⟨_, hs0, rfl⟩)
        · have hmn : m ∈ e.names := by
            rcases (h.conn m).head with he | ⟨c, hc', _⟩
            · rw [hr'] at he; exact (hne he).elim
            · rcases hc' with hc' | hc'
              · exact (hpn _ _ hc').1
              · exact (hpn _ _ hc').2
          rw [← hr']
          exact (key m (hc m (Or.inl hmn))).1
    · rw [hin, h.output]
      exact (key _ (hc _ (Or.inr rfl))).1
  · intro i s hd hty
    by_cases hfx : f (.named i s) = .named i s
    · exact (key _ (Or.inr hd)).2 hd hfx
    · refine hnamed _ hfx ⟨i, s, rfl⟩ fun y t hp => ?_
      rcases hp with hp | hp
      · obtain ⟨os, ho, hm⟩ := (h.pairs _ _ _).1 hp
        exact hty _ _ _ hm (Or.inl rfl)
      · obtain ⟨os, ho, hm⟩ := (h.pairs _ _ _).1 hp
        exact hty _ _ _ hm (Or.inr ho)

/-- A unit with a chain of aliases from an input to the output, through a named signal, meets the
hypotheses. -/
example : let e : Entity Nat Nat Nat Nat :=
    { name := "t", inputs := [⟨"a", .named 0 "a", 8, false⟩], output := .expr 2, outputTy := 8,
      stmts := [.binding ⟨.named 1 "x", .alias, [.named 0 "a"], 8⟩,
                .binding ⟨.expr 3, .other 7, [.named 1 "x"], 8⟩,
                .binding ⟨.expr 2, .alias, [.expr 3], 8⟩] }
    e.AliasesOk ∧ e.SingleDefs ∧ e.Closed ∧ e.AliasesAcyclic ∧
      flattenAliases id (fun _ => true) e = some { e with
        stmts := [.binding ⟨.expr 2, .other 7, [.named 0 "a"], 8⟩,
                  .binding ⟨.named 1 "x", .alias, [.named 0 "a"], 8⟩] } := by
  refine ⟨?_, ?_, ?_, ?_, ?_⟩
  · intro n os t h
    simp at h
    rcases h with h | h <;> simp [h.2]
  · simp [Entity.SingleDefs, Entity.defs, Entity.inputNames, Stmt.defines]
  · intro n
    simp [Entity.names, Entity.defs, Entity.inputNames, Stmt.defines, Stmt.names]
    grind
  · refine ⟨fun n => match n with | .named i _ => i | .expr 3 => 2 | .expr i => i + 5, ?_⟩
    intro n os o t h ho
    simp at h
    rcases h with ⟨rfl, rfl, rfl⟩ | ⟨rfl, rfl, rfl⟩ <;> cases ho <;> decide
  · simp [flattenAliases, aliasPairs, buildEdges, pushEdge, aliasTypes, clusters, collect, removeEntry,
      setInsert, chooseReps, minBy, aliasKey, Entity.inputNames, newAliases]
    exact ⟨rfl, rfl⟩

end Spade.Mir

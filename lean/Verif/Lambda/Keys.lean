import Verif.Lambda.Calls
/-!
# The code of every lambda is found, and programs that make sense are accepted
-/
namespace Spade.Lambda

variable {V : Type}

/-- Distinct numbers between `lo` and `hi`. -/
def Fresh (lo hi : Nat) (ks : List Nat) : Prop := ks.Nodup ∧ ∀ k ∈ ks, lo ≤ k ∧ k < hi

theorem Fresh.nil {lo hi} : Fresh lo hi [] := ⟨.nil, fun _ h => nomatch h⟩

theorem Fresh.append {a b c : Nat} {ks ls} (hab : a ≤ b) (hbc : b ≤ c) (h : Fresh a b ks) (h' : Fresh b c ls) :
    Fresh a c (ks ++ ls) := by
  refine ⟨List.nodup_append.mpr ⟨h.1, h'.1, fun x hx y hy e => ?_⟩, fun k hk => ?_⟩
  · have := h.2 x hx
    have := h'.2 y hy
    omega
  · rcases List.mem_append.mp hk with hk | hk
    · have := h.2 k hk; omega
    · have := h'.2 k hk; omega

theorem Fresh.mono {a a' b b' : Nat} {ks} (ha : a' ≤ a) (hb : b ≤ b') (h : Fresh a b ks) :
    Fresh a' b' ks :=
  ⟨h.1, fun k hk => by have := h.2 k hk; omega⟩

mutual
theorem visit_keys {I : Ids} {G : List Nat} : ∀ {e : Exp V} {st st' : St} {h},
    visit I G e st = some (h, st') → st.Inv → Fresh st.next st'.next ((lower h).2.map (·.1))
  | .var x, st, st', h, hv, hi => by
    simp only [visit, Option.map_eq_some_iff] at hv
    obtain ⟨⟨n, ss⟩, hl, hv⟩ := hv
    simp only [Prod.mk.injEq] at hv
    obtain ⟨rfl, rfl⟩ := hv
    exact .nil
  | .prim gs f args, st, st', h, hv, hi => by
    simp only [visit] at hv
    split at hv
    · rw [Option.map_eq_some_iff] at hv
      obtain ⟨⟨as, st₁⟩, hl, hv⟩ := hv
      simp only [Prod.mk.injEq] at hv
      obtain ⟨rfl, rfl⟩ := hv
      exact visits_keys hl hi
    · cases hv
  | .tup es, st, st', h, hv, hi => by
    simp only [visit, Option.map_eq_some_iff] at hv
    obtain ⟨⟨as, st₁⟩, hl, hv⟩ := hv
    simp only [Prod.mk.injEq] at hv
    obtain ⟨rfl, rfl⟩ := hv
    exact visits_keys hl hi
  | .call u gs f args, st, st', h, hv, hi => by
    simp only [visit] at hv
    split at hv
    · rw [Option.map_eq_some_iff] at hv
      obtain ⟨⟨as, st₁⟩, hl, hv⟩ := hv
      simp only [Prod.mk.injEq] at hv
      obtain ⟨rfl, rfl⟩ := hv
      exact visits_keys hl hi
    · cases hv
  | .app f clk a, st, st', h, hv, hi => by
    simp only [visit, Option.bind_eq_some_iff, Option.map_eq_some_iff] at hv
    obtain ⟨⟨f', st₁⟩, h1, ⟨clk', st₂⟩, h2, ⟨a', st₃⟩, h3, hv⟩ := hv
    simp only [Prod.mk.injEq] at hv
    obtain ⟨rfl, rfl⟩ := hv
    obtain ⟨e1, _⟩ := visit_step h1 hi
    obtain ⟨e2, _⟩ := visits_step h2 e1.inv
    obtain ⟨e3, _⟩ := visit_step h3 e2.inv
    simp only [lower, List.map_append]
    exact ((visit_keys h1 hi).append e1.next e2.next (visits_keys h2 e1.inv)).append
      (e1.trans e2).next e3.next (visit_keys h3 e2.inv)
  | .block ss r, st, st', h, hv, hi => by
    simp only [visit, Option.bind_eq_some_iff, Option.map_eq_some_iff] at hv
    obtain ⟨⟨ss', st₁⟩, h1, ⟨r', st₂⟩, h2, hv⟩ := hv
    simp only [Prod.mk.injEq] at hv
    obtain ⟨rfl, rfl⟩ := hv
    replace h1 : visitS I G ss (st.push none) = some (ss', st₁) := h1
    obtain ⟨e1, _⟩ := visitS_step h1 (push_inv hi)
    obtain ⟨e2, _⟩ := visit_step h2 e1.inv
    obtain ⟨s, t, hs, hcl, hg, hn, _, hE⟩ := close_step (e1.trans e2.pstep)
    simp only [lower, List.map_append]
    have : st₂.close.2.next = st₂.next := by rw [hcl]
    rw [this]
    exact (visitS_keys h1 (push_inv hi)).append e1.next e2.next (visit_keys h2 e1.inv)
  | .lam isFn ps ss r, st, st', h, hv, hi => by
    obtain ⟨clk, ps₁, ss', st₃, r', st₄, hk, h1, h2, hd⟩ := visit_lam hv
    have ea := addClock_step (c := clk) (push_inv' hi)
    have eb := visitPs_step (ps := ps₁) ea.inv
    obtain ⟨e1, _⟩ := visitS_step h1 (push_inv eb.inv)
    obtain ⟨e2, _⟩ := visit_step h2 e1.inv
    obtain ⟨_, _, hs', hcl', _, _, _, e3⟩ := close_step (e1.trans e2.pstep)
    obtain ⟨s, t, hs, hcl, hg, hn, hb, e4⟩ := close_step ((ea.trans eb).trans e3.pstep)
    have k1 := visitS_keys h1 (push_inv eb.inv)
    have k2 := visit_keys h2 e1.inv
    have hn : st₄.close.2.close.2.next = st₄.next := by rw [hcl, hcl']
    unfold makeDef at hd
    simp only [Prod.mk.injEq] at hd
    obtain ⟨rfl, rfl⟩ := hd
    simp only [lower, List.map_append, List.map_cons, List.map_nil]
    have k3 : Fresh st₄.next (st₄.next + 1) [st₄.next] :=
      ⟨by simp, fun k hk => by rw [List.mem_singleton] at hk; omega⟩
    have n1 := ea.next
    have n2 := eb.next
    have n3 := e1.next
    have n4 := e2.next
    refine Fresh.mono (a := (visitPs ps₁ ((st.push (some [])).addClock clk).2).2.next) (b := st₄.next + 1)
      (Nat.le_trans n1 n2) (by omega) ?_
    rw [hn]
    exact ((k1.append n3 n4 k2).append (Nat.le_trans n3 n4) (by omega) k3)
theorem visits_keys {I : Ids} {G : List Nat} : ∀ {es : List (Exp V)} {st st' : St} {hs},
    visits I G es st = some (hs, st') → st.Inv → Fresh st.next st'.next ((lowers hs).2.map (·.1))
  | [], st, st', hs, hv, hi => by
    simp only [visits, Option.some.injEq, Prod.mk.injEq] at hv
    obtain ⟨rfl, rfl⟩ := hv
    exact .nil
  | e :: es, st, st', hs, hv, hi => by
    simp only [visits, Option.bind_eq_some_iff, Option.map_eq_some_iff] at hv
    obtain ⟨⟨h', st₁⟩, h1, ⟨hs', st₂⟩, h2, hv⟩ := hv
    simp only [Prod.mk.injEq] at hv
    obtain ⟨rfl, rfl⟩ := hv
    obtain ⟨e1, _⟩ := visit_step h1 hi
    obtain ⟨e2, _⟩ := visits_step h2 e1.inv
    simp only [lowers, List.map_append]
    exact (visit_keys h1 hi).append e1.next e2.next (visits_keys h2 e1.inv)
theorem visitS_keys {I : Ids} {G : List Nat} : ∀ {ss : List (Pat × Exp V)} {st st' : St} {hs},
    visitS I G ss st = some (hs, st') → st.Inv → Fresh st.next st'.next ((lowerS hs).2.map (·.1))
  | [], st, st', hs, hv, hi => by
    simp only [visitS, Option.some.injEq, Prod.mk.injEq] at hv
    obtain ⟨rfl, rfl⟩ := hv
    exact .nil
  | (p, e) :: ss, st, st', hs, hv, hi => by
    simp only [visitS, Option.bind_eq_some_iff, Option.map_eq_some_iff] at hv
    obtain ⟨⟨h', st₁⟩, h1, ⟨hs', st₂⟩, h2, hv⟩ := hv
    simp only [Prod.mk.injEq] at hv
    obtain ⟨rfl, rfl⟩ := hv
    obtain ⟨e1, _⟩ := visit_step h1 hi
    have ep := visitP_step (p := p) e1.inv
    obtain ⟨e2, _⟩ := visitS_step h2 ep.inv
    simp only [lowerS, List.map_append]
    exact (visit_keys h1 hi).append e1.next (Nat.le_trans ep.next e2.next)
      ((visitS_keys h2 ep.inv).mono ep.next (Nat.le_refl _))
end

theorem replaceAll_code {items : List (Nat × LUnit)} : ∀ {rs : List (Nat × Repl V)} {cs},
    replaceAll items rs = some cs → (rs.map (·.1)).Nodup →
    ∀ x ∈ rs, ∃ u w, items.lookup x.1 = some u ∧ x.2.replaceIn u = some w ∧
      cs.lookup x.1 = some { members := u.members, arity := u.arity, unit := w }
  | [], _, _, _ => fun _ h => nomatch h
  | (L, R) :: rs, cs, h, hn => by
    simp only [replaceAll, Option.bind_eq_some_iff, Option.map_eq_some_iff] at h
    obtain ⟨u, hu, w, hw, cs', hr, rfl⟩ := h
    rw [List.map_cons, List.nodup_cons] at hn
    intro x hx
    rcases List.mem_cons.mp hx with rfl | hx
    · exact ⟨u, w, hu, hw, by simp⟩
    · obtain ⟨u', w', h1, h2, h3⟩ := replaceAll_code hr hn.2 x hx
      refine ⟨u', w', h1, h2, ?_⟩
      rw [List.lookup_cons]
      have : (x.1 == L) = false := beq_eq_false_iff_ne.mpr fun e =>
        hn.1 (e ▸ List.mem_map.mpr ⟨x, hx, rfl⟩)
      rw [this]
      exact h3

/-! ## Units -/

theorem addInputs_step : ∀ {xs : List Nat} {st : St}, st.Inv → PStep st (addInputs xs st).2
  | [], _, hi => (EStep.refl hi).pstep
  | x :: xs, st, hi => by
    simp only [addInputs]
    have h := add_step (x := x) hi
    exact h.trans (addInputs_step h.inv)

theorem inputs_sim {I : Ids} {Q : HProg V} {items : List (Nat × LUnit)} :
    ∀ {xs : List Nat} {st : St} {E : Env V} {F : HEnv V} {ts vs}, st.Inv → relVs I Q items ts vs →
    OptRel (BExt I Q items st (addInputs xs st).2 E F) (hbinds ((addInputs xs st).1.map .var) ts F)
      (binds (xs.map .var) vs E)
  | [], st, E, F, ts, vs, hi, h => by
    cases ts <;> cases vs <;> simp only [relVs] at h
    · exact BExt.refl (.refl hi) hi
    · trivial
  | x :: xs, st, E, F, ts, vs, hi, h => by
    cases ts <;> cases vs <;> simp only [relVs] at h
    · trivial
    · simp only [addInputs, List.map_cons, hbinds, binds, HPat.bind, Pat.bind, Option.bind_some]
      have e := add_step (x := x) hi
      exact (inputs_sim e.inv h.2).imp fun _ _ hb' =>
        (BExt.add hi h.1).trans e.next (addInputs_step e.inv).next hb'

/-- States between units. -/
def ItemsOk (st : St) : Prop := ∀ e ∈ st.items, e.1 < st.next

theorem base_inv {st : St} (h : ItemsOk st) : St.Inv { st with scopes := [{}] } :=
  ⟨⟨(fun _ h => nomatch h), (fun _ h => nomatch h), trivial⟩, h⟩

theorem visitUnit_step {I : Ids} {u : Unit V} {st st' : St} {h} (hv : visitUnit I u st = some (h, st'))
    (hi : ItemsOk st) : Step st st' ∧ ItemsOk st' ∧
      Fresh st.next st'.next ((lower h.body).2.map (·.1)) := by
  simp only [visitUnit, Option.map_eq_some_iff] at hv
  obtain ⟨⟨b, st₂⟩, hb, hv⟩ := hv
  simp only [Prod.mk.injEq] at hv
  obtain ⟨rfl, rfl⟩ := hv
  have e := addInputs_step (xs := u.params) (base_inv hi)
  obtain ⟨e2, _⟩ := visit_step hb e.inv
  have hs := e.toStep.trans e2.toStep
  exact ⟨⟨hs.next, hs.items⟩, e2.inv.items, (visit_keys hb e.inv).mono e.next (Nat.le_refl _)⟩

/-- What is known about all units. -/
theorem visitAll_ok {I : Ids} : ∀ {P : Prog V} {st st' : St} {us}, visitAll I P st = some (us, st') →
    ItemsOk st → Step st st' ∧ Fresh st.next st'.next ((lowerAll us).2.map (·.1)) ∧
    ∀ n, (P.lookup n = none ∧ (lowerAll us).1.lookup n = none) ∨
      ∃ w h st₁ st₂, P.lookup n = some w ∧
        (lowerAll us).1.lookup n = some { h with body := (lower h.body).1 } ∧
        visitUnit I w st₁ = some (h, st₂) ∧ ItemsOk st₁ ∧ Step st st₁ ∧ Step st₂ st' ∧
        ∀ x ∈ (lower h.body).2, x ∈ (lowerAll us).2
  | [], st, st', us, hv, hi => by
    simp only [visitAll, Option.some.injEq, Prod.mk.injEq] at hv
    obtain ⟨rfl, rfl⟩ := hv
    exact ⟨.refl _, .nil, fun n => Or.inl ⟨rfl, rfl⟩⟩
  | (m, u) :: P, st, st', us, hv, hi => by
    simp only [visitAll, Option.bind_eq_some_iff, Option.map_eq_some_iff] at hv
    obtain ⟨⟨h, st₁⟩, h1, ⟨hs, st₂⟩, h2, hv⟩ := hv
    simp only [Prod.mk.injEq] at hv
    obtain ⟨rfl, rfl⟩ := hv
    obtain ⟨s1, i1, f1⟩ := visitUnit_step h1 hi
    obtain ⟨s2, f2, ih⟩ := visitAll_ok h2 i1
    refine ⟨s1.trans s2, ?_, fun n => ?_⟩
    · simp only [lowerAll, List.map_append]
      exact f1.append s1.next s2.next f2
    · simp only [lowerAll, List.lookup_cons]
      by_cases hn : n = m
      · subst hn
        simp only [beq_self_eq_true]
        exact Or.inr ⟨u, h, st, st₁, rfl, rfl, h1, hi, .refl _, s2, fun x hx => List.mem_append_left _ hx⟩
      · simp only [beq_eq_false_iff_ne.mpr hn]
        rcases ih n with h' | ⟨w, h', a, b, h3, h4, h5, h6, h7, h8, h9⟩
        · exact Or.inl h'
        · exact Or.inr ⟨w, h', a, b, h3, h4, h5, h6, s1.trans h7, h8,
            fun x hx => List.mem_append_right _ (h9 x hx)⟩

/-! ## Acceptance -/

theorem add_isSome {st : St} {x y : Nat} (hne : st.scopes ≠ []) :
    (resolve y (st.add x).2.scopes).isSome ↔ y = x ∨ (resolve y st.scopes).isSome := by
  unfold St.add
  split
  · rename_i h; exact absurd h hne
  · rename_i s ss h
    by_cases hy : y = x
    · simp [resolve, hy]
    · simp only [resolve, List.lookup_cons, beq_eq_false_iff_ne.mpr hy, h, hy, false_or]

theorem TGrow.ne {lo : Nat} : ∀ {a b}, TGrow lo a b → a ≠ [] → b ≠ []
  | [], [], _, h => h
  | _ :: _, _ :: _, _, _ => by simp
  | [], _ :: _, h, _ => h.elim
  | _ :: _, [], h, _ => h.elim

mutual
theorem visitP_isSome : ∀ {p : Pat} {st : St} {y : Nat}, st.Inv → st.scopes ≠ [] →
    ((resolve y (visitP p st).2.scopes).isSome ↔ y ∈ p.vars ∨ (resolve y st.scopes).isSome)
  | .wild, st, y, hi, hne => by simp [visitP, Pat.vars]
  | .var x, st, y, hi, hne => by
    have e := touch_step (x := x) hi
    simp only [visitP, Pat.vars, List.mem_singleton]
    rw [add_isSome ((e.grow.top (lo := 0)).ne hne), e.grow.resolve]
  | .bnd x p, st, y, hi, hne => by
    have e := visitP_step (p := p) hi
    simp only [visitP, Pat.vars, List.mem_cons]
    rw [add_isSome (e.grow.ne hne), visitP_isSome hi hne, or_assoc]
  | .tup ps, st, y, hi, hne => by
    simp only [visitP, Pat.vars]
    exact visitPs_isSome hi hne
theorem visitPs_isSome : ∀ {ps : List Pat} {st : St} {y : Nat}, st.Inv → st.scopes ≠ [] →
    ((resolve y (visitPs ps st).2.scopes).isSome ↔ y ∈ varss ps ∨ (resolve y st.scopes).isSome)
  | [], st, y, hi, hne => by simp [visitPs, varss]
  | p :: ps, st, y, hi, hne => by
    have e := visitP_step (p := p) hi
    simp only [visitPs, varss, List.mem_append]
    rw [visitPs_isSome e.inv (e.grow.ne hne), visitP_isSome hi hne, ← or_assoc]
    simp only [or_assoc, or_comm, or_left_comm]
end

theorem resolve_push {st : St} {b} {x : Nat} : resolve x (st.push b).scopes = resolve x st.scopes := by
  simp only [St.push, resolve, List.lookup_nil]

mutual
theorem visit_isSome {I : Ids} {G : List Nat} : ∀ {e : Exp V} {st : St}, st.Inv →
    ((visit I G e st).isSome ↔ e.Scoped I.clk G (fun x => (resolve x st.scopes).isSome))
  | .var x, st, hi => by
    simp only [visit, Option.isSome_map, Exp.Scoped]
    constructor
    · intro h
      obtain ⟨⟨n, ss⟩, h⟩ := Option.isSome_iff_exists.mp h
      obtain ⟨hg, hr, _⟩ := look_some h hi.scopes
      rw [← hg.resolve, hr.resolve]
      rfl
    · intro h
      obtain ⟨n, h⟩ := Option.isSome_iff_exists.mp h
      obtain ⟨ss, h⟩ := look_isSome h
      rw [h]
      rfl
  | .prim gs f args, st, hi => by
    simp only [visit, Exp.Scoped]
    by_cases h : gs.all (· ∈ G)
    · rw [if_pos h, Option.isSome_map, visits_isSome hi]
      rw [List.all_eq_true] at h
      exact ⟨fun hs => ⟨fun g hg => by simpa using h g hg, hs⟩, fun hs => hs.2⟩
    · rw [if_neg h]
      rw [List.all_eq_true] at h
      exact ⟨fun hs => (nomatch hs), fun hs => absurd (fun g hg => by simpa using hs.1 g hg) h⟩
  | .tup es, st, hi => by
    simp only [visit, Option.isSome_map, Exp.Scoped]
    exact visits_isSome hi
  | .call u gs f args, st, hi => by
    simp only [visit, Exp.Scoped]
    by_cases h : gs.all (· ∈ G)
    · rw [if_pos h, Option.isSome_map, visits_isSome hi]
      rw [List.all_eq_true] at h
      exact ⟨fun hs => ⟨fun g hg => by simpa using h g hg, hs⟩, fun hs => hs.2⟩
    · rw [if_neg h]
      rw [List.all_eq_true] at h
      exact ⟨fun hs => (nomatch hs), fun hs => absurd (fun g hg => by simpa using hs.1 g hg) h⟩
  | .app f clk a, st, hi => by
    simp only [visit, Exp.Scoped]
    have i1 := visit_isSome (I := I) (G := G) (e := f) hi
    cases h1 : visit I G f st with
    | none =>
      rw [h1] at i1
      simp only [Option.bind_none, Option.isSome_none, Bool.false_eq_true, false_iff] at i1 ⊢
      exact fun h => i1 h.1
    | some x1 =>
      obtain ⟨f', st₁⟩ := x1
      rw [h1] at i1
      obtain ⟨e1, _⟩ := visit_step h1 hi
      have i2 := visits_isSome (I := I) (G := G) (es := clk) e1.inv
      simp only [e1.grow.resolve] at i2
      simp only [Option.bind_some]
      cases h2 : visits I G clk st₁ with
      | none =>
        rw [h2] at i2
        simp only [Option.bind_none, Option.isSome_none, Bool.false_eq_true, false_iff] at i2 ⊢
        exact fun h => i2 h.2.1
      | some x2 =>
        obtain ⟨clk', st₂⟩ := x2
        rw [h2] at i2
        obtain ⟨e2, _⟩ := visits_step h2 e1.inv
        have i3 := visit_isSome (I := I) (G := G) (e := a) e2.inv
        simp only [e2.grow.resolve, e1.grow.resolve] at i3
        simp only [Option.bind_some, Option.isSome_map, i3]
        exact ⟨fun h => ⟨i1.mp rfl, i2.mp rfl, h⟩, fun h => h.2.2⟩
  | .block ss r, st, hi => by
    simp only [visit, Exp.Scoped]
    have i1 := visitS_isSome (I := I) (G := G) (ss := ss) (push_inv hi) (by simp [St.push])
    simp only [resolve_push] at i1
    show ((visitS I G ss (st.push none)).bind _).isSome ↔ _
    cases h1 : visitS I G ss (st.push none) with
    | none =>
      rw [h1] at i1
      simp only [Option.bind_none, Option.isSome_none, Bool.false_eq_true, false_iff] at i1 ⊢
      exact fun h => i1.1 h.1
    | some x1 =>
      obtain ⟨ss', st₁⟩ := x1
      rw [h1] at i1
      obtain ⟨e1, _⟩ := visitS_step h1 (push_inv hi)
      have i2 := visit_isSome (I := I) (G := G) (e := r) e1.inv
      have i3 := i1.2 ss' st₁ rfl
      simp only [i3] at i2
      simp only [Option.bind_some, Option.isSome_map]
      rw [i2]
      exact ⟨fun h => ⟨i1.1.mp rfl, h⟩, fun h => h.2⟩
  | .lam isFn ps ss r, st, hi => by
    simp only [visit, Exp.Scoped]
    have hk : (∃ clk ps₁, handleKind I.clk isFn ps = some (clk, ps₁) ∧
          (∀ y, (resolve y (visitPs ps₁ ((st.push (some [])).addClock clk).2).2.scopes).isSome ↔
            y ∈ varss ps ∨ (resolve y st.scopes).isSome)) ∧
          (isFn = false → ∃ ps', ps = .var I.clk :: ps') ∨
        handleKind I.clk isFn ps = none ∧ ¬ (isFn = false → ∃ ps', ps = .var I.clk :: ps') := by
      cases isFn with
      | true =>
        refine Or.inl ⟨⟨none, ps, rfl, fun y => ?_⟩, fun h => nomatch h⟩
        rw [visitPs_isSome (by exact push_inv' hi) (by simp [St.push, St.addClock])]
        show _ ∨ (resolve y (st.push (some [])).scopes).isSome ↔ _
        rw [resolve_push]
      | false =>
        have bad : (∀ ps', ps ≠ .var I.clk :: ps') → ¬ (false = false → ∃ ps', ps = .var I.clk :: ps') :=
          fun h h2 => by obtain ⟨ps', h3⟩ := h2 rfl; exact h ps' h3
        cases ps with
        | nil => exact Or.inr ⟨rfl, bad (by simp)⟩
        | cons p ps =>
          cases p with
          | wild => exact Or.inr ⟨rfl, bad (by simp)⟩
          | bnd => exact Or.inr ⟨rfl, bad (by simp)⟩
          | tup => exact Or.inr ⟨rfl, bad (by simp)⟩
          | var x =>
            by_cases hx : x = I.clk
            · subst hx
              refine Or.inl ⟨⟨some I.clk, ps, by simp [handleKind], fun y => ?_⟩, fun _ => ⟨ps, rfl⟩⟩
              have ea := addClock_step (c := some I.clk) (push_inv' hi)
              rw [visitPs_isSome ea.inv (ea.grow.ne (by simp [St.push]))]
              show _ ∨ (resolve y ((st.push (some [])).add I.clk).2.scopes).isSome ↔ _
              rw [add_isSome (by simp [St.push]), resolve_push]
              simp only [varss, Pat.vars, List.mem_append, List.mem_singleton]
              simp only [or_assoc, or_comm, or_left_comm]
            · exact Or.inr ⟨by simp [handleKind, hx], bad (by simp [hx])⟩
    rcases hk with ⟨⟨clk, ps₁, hk, hy⟩, hcl⟩ | ⟨hk, hcl⟩
    · rw [hk]
      simp only [Option.bind_some]
      have ea := addClock_step (c := clk) (push_inv' hi)
      have eb := visitPs_step (ps := ps₁) ea.inv
      have i1 := visitS_isSome (I := I) (G := G) (ss := ss) (push_inv eb.inv) (by simp [St.push])
      simp only [resolve_push, hy] at i1
      show ((visitS I G ss ((visitPs ps₁ ((st.push (some [])).addClock clk).2).2.push none)).bind _).isSome ↔ _
      cases h1 : visitS I G ss ((visitPs ps₁ ((st.push (some [])).addClock clk).2).2.push none) with
      | none =>
        rw [h1] at i1
        simp only [Option.bind_none, Option.isSome_none, Bool.false_eq_true, false_iff] at i1 ⊢
        exact fun h => i1.1 h.2.1
      | some x1 =>
        obtain ⟨ss', st₁⟩ := x1
        rw [h1] at i1
        obtain ⟨e1, _⟩ := visitS_step h1 (push_inv eb.inv)
        have i2 := visit_isSome (I := I) (G := G) (e := r) e1.inv
        have i3 := i1.2 ss' st₁ rfl
        simp only [i3] at i2
        simp only [Option.bind_some, Option.isSome_map]
        rw [i2]
        exact ⟨fun h => ⟨hcl, i1.1.mp rfl, h⟩, fun h => h.2.2⟩
    · rw [hk]
      simp only [Option.bind_none, Option.isSome_none, Bool.false_eq_true, false_iff]
      exact fun h => hcl h.1
theorem visits_isSome {I : Ids} {G : List Nat} : ∀ {es : List (Exp V)} {st : St}, st.Inv →
    ((visits I G es st).isSome ↔ scopeds I.clk G (fun x => (resolve x st.scopes).isSome) es)
  | [], st, hi => by simp [visits, scopeds]
  | e :: es, st, hi => by
    simp only [visits, scopeds]
    have i1 := visit_isSome (I := I) (G := G) (e := e) hi
    cases h1 : visit I G e st with
    | none =>
      rw [h1] at i1
      simp only [Option.bind_none, Option.isSome_none, Bool.false_eq_true, false_iff] at i1 ⊢
      exact fun h => i1 h.1
    | some x1 =>
      obtain ⟨f', st₁⟩ := x1
      rw [h1] at i1
      obtain ⟨e1, _⟩ := visit_step h1 hi
      have i2 := visits_isSome (I := I) (G := G) (es := es) e1.inv
      simp only [e1.grow.resolve] at i2
      simp only [Option.bind_some, Option.isSome_map, i2]
      exact ⟨fun h => ⟨i1.mp rfl, h⟩, fun h => h.2⟩
theorem visitS_isSome {I : Ids} {G : List Nat} : ∀ {ss : List (Pat × Exp V)} {st : St}, st.Inv →
    st.scopes ≠ [] →
    ((visitS I G ss st).isSome ↔ scopedS I.clk G (fun x => (resolve x st.scopes).isSome) ss) ∧
    ∀ ss' st', visitS I G ss st = some (ss', st') → ∀ y, (resolve y st'.scopes).isSome ↔
      (∃ s ∈ ss, y ∈ s.1.vars) ∨ (resolve y st.scopes).isSome
  | [], st, hi, _ => by
    refine ⟨by simp [visitS, scopedS], fun ss' st' h y => ?_⟩
    simp only [visitS, Option.some.injEq, Prod.mk.injEq] at h
    obtain ⟨rfl, rfl⟩ := h
    simp
  | (p, e) :: ss, st, hi, hne => by
    simp only [visitS, scopedS]
    have i1 := visit_isSome (I := I) (G := G) (e := e) hi
    cases h1 : visit I G e st with
    | none =>
      rw [h1] at i1
      simp only [Option.bind_none, Option.isSome_none, Bool.false_eq_true, false_iff] at i1 ⊢
      exact ⟨fun h => i1 h.1, fun _ _ h => nomatch h⟩
    | some x1 =>
      obtain ⟨f', st₁⟩ := x1
      rw [h1] at i1
      obtain ⟨e1, _⟩ := visit_step h1 hi
      have ep := visitP_step (p := p) e1.inv
      have hne1 := (e1.grow.top (lo := 0)).ne hne
      have i2 := visitS_isSome (I := I) (G := G) (ss := ss) ep.inv (ep.grow.ne hne1)
      have hp : ∀ y, (resolve y (visitP p st₁).2.scopes).isSome ↔ y ∈ p.vars ∨ (resolve y st.scopes).isSome := by
        intro y
        rw [visitP_isSome e1.inv hne1, e1.grow.resolve]
      simp only [hp] at i2
      simp only [Option.bind_some, Option.isSome_map]
      refine ⟨⟨fun h => ⟨i1.mp rfl, i2.1.mp h⟩, fun h => i2.1.mpr h.2⟩, fun ss' st' h y => ?_⟩
      rw [Option.map_eq_some_iff] at h
      obtain ⟨⟨ss'', st''⟩, h2, h3⟩ := h
      simp only [Prod.mk.injEq] at h3
      obtain ⟨rfl, rfl⟩ := h3
      rw [i2.2 _ _ h2 y]
      simp only [List.mem_cons, exists_eq_or_imp]
      simp only [or_assoc, or_comm, or_left_comm]
end

end Spade.Lambda

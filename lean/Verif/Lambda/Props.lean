import Verif.Lambda.Keys
/-!
# C54: lambdas are closures
-/
namespace Spade.Lambda

variable {V : Type}

section
variable {I : Ids} {Q : HProg V} {items : List (Nat × LUnit)}

theorem gens_zip {G : List Nat} : ∀ {is : List Int}, G.length = is.length →
    GenOk G (G.zip is) (G.zip (is.map some)) := by
  induction G with
  | nil => intro is _ g hg; cases hg
  | cons g G ih =>
    intro is hl
    cases is with
    | nil => simp at hl
    | cons i is =>
      intro g' hg'
      simp only [List.map_cons, List.zip_cons_cons, List.lookup_cons]
      by_cases he : g' = g
      · subst he
        simp only [beq_self_eq_true]
        exact ⟨i, rfl, rfl⟩
      · simp only [beq_eq_false_iff_ne.mpr he]
        exact ih (by simpa using hl) g' ((List.mem_cons.mp hg').resolve_left he)

theorem calls_ok {P : Prog V} {next : Nat} {us st'}
    (hv : visitAll I P { next, scopes := [], items := [] } = some (us, st'))
    (hg : ∀ e ∈ P, ∀ g ∈ e.2.gens, g < next) (hQ : Q.units = (lowerAll us).1)
    (hc : Code Q st'.items (lowerAll us).2) :
    ∀ n, CallsOk I Q st'.items (P.calls n) (Q.calls n)
  | 0 => ⟨fun _ _ _ _ _ => trivial, fun _ _ _ _ _ _ _ _ _ => trivial, fun _ => rfl⟩
  | n + 1 => by
    have ih := calls_ok hv hg hQ hc n
    obtain ⟨_, _, hu⟩ := visitAll_ok hv (fun _ h => nomatch h)
    refine ⟨fun u is ts vs h => ?_, fun t v ts vs t' v' h1 h2 h3 => ?_, fun _ => rfl⟩
    · simp only [HProg.calls, Prog.calls, hQ]
      rcases hu u with ⟨h1, h2⟩ | ⟨w, hw, st₁, st₂, h1, h2, h3, h4, h5, h6, h7⟩
      · rw [h1, h2]
        trivial
      · rw [h1, h2]
        simp only [Option.bind_some, HUnit.run, List.length_map]
        simp only [visitUnit, Option.map_eq_some_iff] at h3
        obtain ⟨⟨b, st₃⟩, hb, h3⟩ := h3
        simp only [Prod.mk.injEq] at h3
        obtain ⟨rfl, rfl⟩ := h3
        simp only
        by_cases hl : w.gens.length = is.length
        · rw [if_pos hl, if_pos hl]
          have e := addInputs_step (xs := w.params) (base_inv h4)
          refine (inputs_sim (base_inv h4) h).bind fun F E hb' => ?_
          refine sim ih (gens_zip hl) hb e.inv ?_ ?_ ?_ ?_
          · intro g hg'
            have hm := mem_of_lookup h1
            have := hg _ hm g hg'
            exact Nat.lt_of_lt_of_le this (Nat.le_trans h5.next e.next)
          · exact fun L u hl => h6.items L u hl
          · exact fun x hx => hc x (h7 x hx)
          · intro x m hr _
            rcases hb'.res x m hr with ⟨_, h', _⟩ | ⟨_, h'⟩
            · simp [resolve] at h'
            · exact h'
        · rw [if_neg hl, if_neg hl]
          trivial
    · cases t with
      | data => cases v <;> simp only [relV] at h1; trivial
      | tup => cases v <;> simp only [relV] at h1; trivial
      | str L targs fs =>
        cases v with
        | data => simp only [relV] at h1
        | tup => simp only [relV] at h1
        | clo ρ isFn ps ss r E =>
          cases t' with
          | data => cases v' <;> simp only [relV] at h3; trivial
          | str => cases v' <;> simp only [relV] at h3; trivial
          | tup ts' =>
            cases v' with
            | data => simp only [relV] at h3
            | clo => simp only [relV] at h3
            | tup vs' =>
              simp only [relV] at h3
              exact method_sim ih h1 h2 h3

end

/-- **C54**.  Lambdas are closures: the compiled program, where every lambda has
become a struct with the variables it captures and a unit that takes them out again,
gives exactly what the program gives when a lambda is a closure over all the
variables and generic parameters around it. -/
theorem C54_lambdas_are_closures {I : Ids} {next : Nat} {P : Prog V} {Q : HProg V}
    (hc : compile I next P = some Q) (hg : ∀ e ∈ P, ∀ g ∈ e.2.gens, g < next)
    (u : Nat) (is : List Int) (vs : List V) (v : V) : Q.Gives u is vs v ↔ P.Gives u is vs v := by
  simp only [compile, Option.bind_eq_some_iff, Option.map_eq_some_iff] at hc
  obtain ⟨⟨us, st'⟩, hv, lams, hr, rfl⟩ := hc
  obtain ⟨_, hf, _⟩ := visitAll_ok hv (fun _ h => nomatch h)
  have hok := calls_ok (I := I) (Q := { units := (lowerAll us).1, lams := lams }) hv hg rfl
    (fun x hx => replaceAll_code hr hf.1 x hx)
  have key := fun n => (hok n).unit u is _ _ (relVs_data vs)
  constructor
  · rintro ⟨n, h⟩
    have := key n
    rw [h] at this
    cases h' : (P.calls n).unit u is (vs.map .data) with
    | none => rw [h'] at this; exact this.elim
    | some w =>
      rw [h'] at this
      cases w <;> simp only [OptRel, relV] at this
      subst this
      exact ⟨n, h'⟩
  · rintro ⟨n, h⟩
    have := key n
    rw [h] at this
    cases h' : (HProg.calls { units := (lowerAll us).1, lams := lams } n).unit u is (vs.map .data) with
    | none => rw [h'] at this; exact this.elim
    | some w =>
      rw [h'] at this
      cases w <;> simp only [OptRel, relV] at this
      subst this
      exact ⟨n, h'⟩

theorem replaceIn_isSome {outer clk ps caps ss r tparams arity members} {s c a i : Nat} :
    (Repl.replaceIn { outer := outer, clk := clk, ps := ps, caps := caps, ss := ss, r := (r : HExp V) }
      { tparams := tparams, arity := arity, members := members, inputs := lamInputs s c a i clk }).isSome := by
  cases clk <;> rfl

/-- Every replacement fits the unit made for its lambda. -/
def Fits (items : List (Nat × LUnit)) (rs : List (Nat × Repl V)) : Prop :=
  ∀ x ∈ rs, ∃ u, items.lookup x.1 = some u ∧ (x.2.replaceIn u).isSome

theorem Fits.append {items} {a b : List (Nat × Repl V)} (h : Fits items a) (h' : Fits items b) :
    Fits items (a ++ b) :=
  fun x hx => (List.mem_append.mp hx).elim (h x) (h' x)

theorem Fits.step {st st' : St} {rs : List (Nat × Repl V)} (h : Fits st.items rs) (hs : Step st st') :
    Fits st'.items rs := fun x hx => by
  obtain ⟨u, h1, h2⟩ := h x hx
  exact ⟨u, hs.items _ _ h1, h2⟩

mutual
theorem visit_fits {I : Ids} {G : List Nat} : ∀ {e : Exp V} {st st' : St} {h},
    visit I G e st = some (h, st') → st.Inv → Fits st'.items (lower h).2
  | .var x, st, st', h, hv, hi => by
    simp only [visit, Option.map_eq_some_iff] at hv
    obtain ⟨⟨n, ss⟩, hl, hv⟩ := hv
    simp only [Prod.mk.injEq] at hv
    obtain ⟨rfl, rfl⟩ := hv
    exact fun _ h => nomatch h
  | .prim gs f args, st, st', h, hv, hi => by
    simp only [visit] at hv
    split at hv
    · rw [Option.map_eq_some_iff] at hv
      obtain ⟨⟨as, st₁⟩, hl, hv⟩ := hv
      simp only [Prod.mk.injEq] at hv
      obtain ⟨rfl, rfl⟩ := hv
      exact visits_fits hl hi
    · cases hv
  | .tup es, st, st', h, hv, hi => by
    simp only [visit, Option.map_eq_some_iff] at hv
    obtain ⟨⟨as, st₁⟩, hl, hv⟩ := hv
    simp only [Prod.mk.injEq] at hv
    obtain ⟨rfl, rfl⟩ := hv
    exact visits_fits hl hi
  | .call u gs f args, st, st', h, hv, hi => by
    simp only [visit] at hv
    split at hv
    · rw [Option.map_eq_some_iff] at hv
      obtain ⟨⟨as, st₁⟩, hl, hv⟩ := hv
      simp only [Prod.mk.injEq] at hv
      obtain ⟨rfl, rfl⟩ := hv
      exact visits_fits hl hi
    · cases hv
  | .app f clk a, st, st', h, hv, hi => by
    simp only [visit, Option.bind_eq_some_iff, Option.map_eq_some_iff] at hv
    obtain ⟨⟨f', st₁⟩, h1, ⟨clk', st₂⟩, h2, ⟨a', st₃⟩, h3, hv⟩ := hv
    simp only [Prod.mk.injEq] at hv
    obtain ⟨rfl, rfl⟩ := hv
    obtain ⟨e1, _⟩ := visit_step h1 hi
    obtain ⟨e2, _⟩ := visits_step h2 e1.inv
    obtain ⟨e3, _⟩ := visit_step h3 e2.inv
    simp only [lower]
    exact (((visit_fits h1 hi).step (e2.trans e3).toStep).append
      ((visits_fits h2 e1.inv).step e3.toStep)).append (visit_fits h3 e2.inv)
  | .block ss r, st, st', h, hv, hi => by
    simp only [visit, Option.bind_eq_some_iff, Option.map_eq_some_iff] at hv
    obtain ⟨⟨ss', st₁⟩, h1, ⟨r', st₂⟩, h2, hv⟩ := hv
    simp only [Prod.mk.injEq] at hv
    obtain ⟨rfl, rfl⟩ := hv
    replace h1 : visitS I G ss (st.push none) = some (ss', st₁) := h1
    obtain ⟨e1, _⟩ := visitS_step h1 (push_inv hi)
    obtain ⟨e2, _⟩ := visit_step h2 e1.inv
    obtain ⟨s, t, hs, hcl, hg, hn, _, hE⟩ := close_step (e1.trans e2.pstep)
    simp only [lower]
    have : st₂.close.2.items = st₂.items := by rw [hcl]
    rw [this]
    exact ((visitS_fits h1 (push_inv hi)).step e2.toStep).append (visit_fits h2 e1.inv)
  | .lam isFn ps ss r, st, st', h, hv, hi => by
    obtain ⟨clk, ps₁, ss', st₃, r', st₄, hk, h1, h2, hd⟩ := visit_lam hv
    have ea := addClock_step (c := clk) (push_inv' hi)
    have eb := visitPs_step (ps := ps₁) ea.inv
    obtain ⟨e1, _⟩ := visitS_step h1 (push_inv eb.inv)
    obtain ⟨e2, _⟩ := visit_step h2 e1.inv
    obtain ⟨_, _, hs', hcl', _, _, _, e3⟩ := close_step (e1.trans e2.pstep)
    obtain ⟨s, t, hs, hcl, hg, hn, hb, e4⟩ := close_step ((ea.trans eb).trans e3.pstep)
    have k1 := visitS_fits h1 (push_inv eb.inv)
    have k2 := visit_fits h2 e1.inv
    have e5 := (makeDef_step (s := I.self) (c := I.clk) (a := I.args) (G := G)
      (clk := ((st.push (some [])).addClock clk).1)
      (ps := (visitPs ps₁ ((st.push (some [])).addClock clk).2).1) (caps := (st₄.close).2.close.1)
      (ss := ss') (r := r') e4.inv).toStep
    rw [← hd] at e5
    have e6 : Step st₄ st' := by
      refine Step.trans ⟨?_, ?_⟩ e5
      · rw [hcl, hcl']; exact Nat.le_refl _
      · rw [hcl, hcl']; exact fun _ _ h => h
    obtain ⟨man, outs, i, _, _, _, _, _, _, m7, m8⟩ := makeDef_parts hd
    subst m7
    simp only [lower]
    refine ((k1.step (e2.toStep.trans e6)).append (k2.step e6)).append ?_
    intro x hx
    rw [List.mem_singleton] at hx
    subst hx
    exact ⟨_, m8, replaceIn_isSome⟩
theorem visits_fits {I : Ids} {G : List Nat} : ∀ {es : List (Exp V)} {st st' : St} {hs},
    visits I G es st = some (hs, st') → st.Inv → Fits st'.items (lowers hs).2
  | [], st, st', hs, hv, hi => by
    simp only [visits, Option.some.injEq, Prod.mk.injEq] at hv
    obtain ⟨rfl, rfl⟩ := hv
    exact fun _ h => nomatch h
  | e :: es, st, st', hs, hv, hi => by
    simp only [visits, Option.bind_eq_some_iff, Option.map_eq_some_iff] at hv
    obtain ⟨⟨h', st₁⟩, h1, ⟨hs', st₂⟩, h2, hv⟩ := hv
    simp only [Prod.mk.injEq] at hv
    obtain ⟨rfl, rfl⟩ := hv
    obtain ⟨e1, _⟩ := visit_step h1 hi
    obtain ⟨e2, _⟩ := visits_step h2 e1.inv
    simp only [lowers]
    exact ((visit_fits h1 hi).step e2.toStep).append (visits_fits h2 e1.inv)
theorem visitS_fits {I : Ids} {G : List Nat} : ∀ {ss : List (Pat × Exp V)} {st st' : St} {hs},
    visitS I G ss st = some (hs, st') → st.Inv → Fits st'.items (lowerS hs).2
  | [], st, st', hs, hv, hi => by
    simp only [visitS, Option.some.injEq, Prod.mk.injEq] at hv
    obtain ⟨rfl, rfl⟩ := hv
    exact fun _ h => nomatch h
  | (p, e) :: ss, st, st', hs, hv, hi => by
    simp only [visitS, Option.bind_eq_some_iff, Option.map_eq_some_iff] at hv
    obtain ⟨⟨h', st₁⟩, h1, ⟨hs', st₂⟩, h2, hv⟩ := hv
    simp only [Prod.mk.injEq] at hv
    obtain ⟨rfl, rfl⟩ := hv
    obtain ⟨e1, _⟩ := visit_step h1 hi
    have ep := visitP_step (p := p) e1.inv
    obtain ⟨e2, _⟩ := visitS_step h2 ep.inv
    simp only [lowerS]
    exact ((visit_fits h1 hi).step (ep.trans e2).toStep).append (visitS_fits h2 ep.inv)
end

theorem replaceAll_isSome {items : List (Nat × LUnit)} : ∀ {rs : List (Nat × Repl V)}, Fits items rs →
    (replaceAll items rs).isSome
  | [], _ => rfl
  | (L, R) :: rs, h => by
    obtain ⟨u, h1, h2⟩ := h _ (List.mem_cons_self ..)
    obtain ⟨w, hw⟩ := Option.isSome_iff_exists.mp h2
    simp only at h1 hw
    simp only [replaceAll, h1, hw, Option.bind_some, Option.isSome_map]
    exact replaceAll_isSome fun x hx => h x (List.mem_cons_of_mem _ hx)

theorem addInputs_isSome : ∀ {xs : List Nat} {st : St} {y : Nat}, st.Inv → st.scopes ≠ [] →
    ((resolve y (addInputs xs st).2.scopes).isSome ↔ y ∈ xs ∨ (resolve y st.scopes).isSome)
  | [], st, y, hi, hne => by simp [addInputs]
  | x :: xs, st, y, hi, hne => by
    have e := add_step (x := x) hi
    simp only [addInputs, List.mem_cons]
    rw [addInputs_isSome e.inv (e.grow.ne hne), add_isSome hne]
    simp only [or_assoc, or_comm, or_left_comm]

theorem visitUnit_isSome {I : Ids} {u : Unit V} {st : St} (hi : ItemsOk st) :
    (visitUnit I u st).isSome ↔ u.body.Scoped I.clk u.gens (· ∈ u.params) := by
  simp only [visitUnit, Option.isSome_map]
  have e := addInputs_step (xs := u.params) (base_inv hi)
  rw [visit_isSome e.inv]
  have : (fun x => (resolve x (addInputs u.params { st with scopes := [{}] }).2.scopes).isSome = true) =
      (· ∈ u.params) := by
    funext x
    rw [addInputs_isSome (base_inv hi) (by simp)]
    simp [resolve]
  rw [this]

theorem visitAll_isSome {I : Ids} : ∀ {P : Prog V} {st : St}, ItemsOk st →
    ((visitAll I P st).isSome ↔ P.Scoped I.clk)
  | [], st, hi => by simp [visitAll, Prog.Scoped]
  | (m, u) :: P, st, hi => by
    simp only [visitAll]
    have i1 := visitUnit_isSome (I := I) (u := u) hi
    cases h1 : visitUnit I u st with
    | none =>
      rw [h1] at i1
      simp only [Option.bind_none, Option.isSome_none, Bool.false_eq_true, false_iff] at i1 ⊢
      exact fun h => i1 (h _ (List.mem_cons_self ..))
    | some x =>
      obtain ⟨h, st₁⟩ := x
      rw [h1] at i1
      obtain ⟨_, i2, _⟩ := visitUnit_step h1 hi
      simp only [Option.bind_some, Option.isSome_map]
      rw [visitAll_isSome i2]
      constructor
      · intro hP e he
        rcases List.mem_cons.mp he with rfl | he
        · exact i1.mp rfl
        · exact hP e he
      · exact fun hP e he => hP e (List.mem_cons_of_mem _ he)

theorem visitAll_fits {I : Ids} : ∀ {P : Prog V} {st st' : St} {us}, visitAll I P st = some (us, st') →
    ItemsOk st → Fits st'.items (lowerAll us).2
  | [], st, st', us, hv, hi => by
    simp only [visitAll, Option.some.injEq, Prod.mk.injEq] at hv
    obtain ⟨rfl, rfl⟩ := hv
    exact fun _ h => nomatch h
  | (m, u) :: P, st, st', us, hv, hi => by
    simp only [visitAll, Option.bind_eq_some_iff, Option.map_eq_some_iff] at hv
    obtain ⟨⟨h, st₁⟩, h1, ⟨hs, st₂⟩, h2, hv⟩ := hv
    simp only [Prod.mk.injEq] at hv
    obtain ⟨rfl, rfl⟩ := hv
    obtain ⟨s1, i1, _⟩ := visitUnit_step h1 hi
    obtain ⟨s2, _, _⟩ := visitAll_ok h2 i1
    simp only [lowerAll]
    refine Fits.append ?_ (visitAll_fits h2 i1)
    simp only [visitUnit, Option.map_eq_some_iff] at h1
    obtain ⟨⟨b, st₃⟩, hb, h3⟩ := h1
    simp only [Prod.mk.injEq] at h3
    obtain ⟨rfl, rfl⟩ := h3
    exact (visit_fits hb (addInputs_step (base_inv hi)).inv).step s2

/-- Lambdas are accepted wherever variables and generic parameters are in scope, and
the compiler never fails to find the unit of a lambda or its inputs. -/
theorem C54_accepted_iff_scoped {I : Ids} {next : Nat} {P : Prog V} :
    (compile I next P).isSome ↔ P.Scoped I.clk := by
  rw [← visitAll_isSome (I := I) (st := { next, scopes := [], items := [] }) (fun _ h => nomatch h)]
  simp only [compile]
  cases h : visitAll I P { next, scopes := [], items := [] } with
  | none => simp
  | some x =>
    simp only [Option.bind_some, Option.isSome_map, Option.isSome_some, iff_true]
    exact replaceAll_isSome (visitAll_fits h (fun _ h => nomatch h))

end Spade.Lambda

import Verif.GenIf.Lemmas
/-!
# C53: `gen if` gives the branch its condition selects
-/
namespace Spade.GenIf
section
variable {V : Type}

/-! ## One unit -/

theorem evs_vars {f : Calls V} {ρ : Gens} {E : Vars V} : ∀ {xs : List Nat} {vs : List V},
    (∀ (i : Nat) x v, xs[i]? = some x → vs[i]? = some v → E.lookup x = some v) →
    xs.length = vs.length → evs f ρ E (xs.map .var) = some vs
  | [], [], _, _ => by simp only [List.map_nil, evs]
  | [], _ :: _, _, h => by simp at h
  | _ :: _, [], _, h => by simp at h
  | x :: xs, v :: vs, h, hl => by
    have h0 := h 0 x v rfl rfl
    have hr := evs_vars (f := f) (ρ := ρ) (xs := xs) (vs := vs)
      (fun i y w h1 h2 => h (i + 1) y w (by simpa using h1) (by simpa using h2)) (by simpa using hl)
    simp only [List.map_cons, evs, Exp.ev, h0, hr, Option.bind_some, Option.map_some]

theorem lookup_zip : ∀ {xs : List Nat} {vs : List V} {i : Nat} {x : Nat} {v : V}, xs.Nodup →
    xs[i]? = some x → vs[i]? = some v → (xs.zip vs).lookup x = some v
  | [], _, _, _, _, _, h, _ => by simp at h
  | _ :: _, [], _, _, _, _, _, h => by simp at h
  | y :: xs, w :: vs, i, x, v, hn, h1, h2 => by
    rw [List.nodup_cons] at hn
    cases i with
    | zero =>
      simp only [List.getElem?_cons_zero, Option.some.injEq] at h1 h2
      subst h1; subst h2
      simp
    | succ i =>
      have h1' : xs[i]? = some x := by simpa using h1
      have hne : x ≠ y := fun e => hn.1 (e ▸ List.mem_of_getElem? h1')
      rw [List.zip_cons_cons, List.lookup_cons, beq_eq_false_iff_ne.mpr hne]
      exact lookup_zip hn.2 h1' (by simpa using h2)

/-- The unit's own inputs, passed on, are its arguments. -/
theorem pass_on {f : Calls V} {ρ : Gens} {u : Unit V} {args : List V} (hn : u.params.Nodup)
    (hl : u.params.length = args.length) :
    evs f ρ (u.params.zip args) (u.params.map .var) = some args :=
  evs_vars (fun _ _ _ h1 h2 => lookup_zip hn h1 h2) hl

theorem newBody_stages {u : Unit V} {c a b r} {ρ : Gens} :
    ({ u with body := newBody u c a b r } : Unit V).deep ρ := by
  unfold Unit.deep newBody depthReg
  cases hd : u.depth with
  | none => simp
  | some d => simp [Exp.stages, regs]

theorem stms_depthReg {f : Calls V} {ρ : Gens} {E : Vars V} (u : Unit V) :
    stms f ρ E (depthReg u) = some E := by
  unfold depthReg
  split <;> simp only [stms]

/-- The new body evaluates the unit of the selected branch. -/
theorem newBody_ev {f : Calls V} {ρ : Gens} {u : Unit V} {c a b r} {args : List V}
    (hn : u.params.Nodup) (hl : u.params.length = args.length) :
    (newBody u c a b r).ev f ρ (u.params.zip args) =
      (c ρ).bind fun x => if x then f a ρ args else f b ρ args := by
  simp only [newBody, Exp.ev, stms, callExpanded, pass_on hn hl, Option.bind_some]
  cases c ρ with
  | none => rfl
  | some x =>
    simp only [Option.bind_some]
    cases x with
    | false =>
      simp only [Bool.false_eq_true, if_false]
      cases f b ρ args with
      | none => rfl
      | some v => simp [stms_depthReg]
    | true =>
      simp only [if_true]
      cases f a ρ args with
      | none => rfl
      | some v => simp [stms_depthReg]

/-- A unit whose result is a `gen if` gives what the unit of the selected branch
gives. -/
theorem run_gif {f : Calls V} {ρ : Gens} {u : Unit V} {ss c t e t' e'} {args : List V} {v : V}
    (hb : u.body = .block ss (.gif c t e)) (ht : absorb ss t = some t')
    (he : absorb ss e = some e') :
    u.run f ρ args = some v ↔ ∃ x, c ρ = some x ∧
      ({ u with body := wrap (if x then t' else e') } : Unit V).run f ρ args = some v := by
  simp only [run_iff, Unit.deep, hb, wrap_ev, wrap_stages]
  simp only [Exp.ev, Exp.stages]
  cases hc : c ρ with
  | none =>
    refine ⟨fun h => ?_, fun ⟨x, hx, _⟩ => (nomatch hx)⟩
    obtain ⟨_, _, h⟩ := h
    exfalso
    cases h' : stms f ρ (u.params.zip args) ss <;> rw [h'] at h <;> simp at h
  | some x =>
    simp only [Option.bind_some]
    have hx : ∀ (p : Bool → Prop), (∃ y, some x = some y ∧ p y) ↔ p x :=
      fun p => ⟨fun ⟨y, hy, hp⟩ => by injection hy with hy; exact hy ▸ hp, fun hp => ⟨x, rfl, hp⟩⟩
    rw [hx]
    cases x with
    | true => simp only [if_true, absorb_ev ht, absorb_stages ht]
    | false => simp only [Bool.false_eq_true, if_false, absorb_ev he, absorb_stages he]

/-! ## The units made for branches -/

/-- The names of the new units are fresh and distinct. -/
structure Fresh (is : Prog V) (lo hi : Nat) : Prop where
  le : lo ≤ hi
  range : ∀ x ∈ is, lo ≤ x.1 ∧ x.1 < hi
  nodup : (is.map (·.1)).Nodup

theorem Fresh.append {is js : Prog V} {a b c : Nat} (h : Fresh is a b) (h' : Fresh js b c) :
    Fresh (is ++ js) a c where
  le := Nat.le_trans h.le h'.le
  range x hx := by
    rcases List.mem_append.mp hx with hx | hx
    · have := h.range x hx; have := h'.le; omega
    · have := h'.range x hx; have := h.le; omega
  nodup := by
    rw [List.map_append, List.nodup_append]
    refine ⟨h.nodup, h'.nodup, fun n hn m hm e => ?_⟩
    obtain ⟨x, hx, rfl⟩ := List.mem_map.mp hn
    obtain ⟨y, hy, rfl⟩ := List.mem_map.mp hm
    have := h.range x hx
    have := h'.range y hy
    omega

theorem Fresh.one {is : Prog V} {a b : Nat} {u : Unit V} (h : Fresh is (a + 1) b) :
    Fresh (is ++ [(a, u)]) a b where
  le := by have := h.le; omega
  range x hx := by
    have := h.le
    rcases List.mem_append.mp hx with hx | hx
    · have := h.range x hx; omega
    · rw [List.mem_singleton.mp hx]; exact ⟨Nat.le_refl _, by omega⟩
  nodup := by
    rw [List.map_append, List.nodup_append]
    refine ⟨h.nodup, by simp, fun n hn m hm e => ?_⟩
    obtain ⟨x, hx, rfl⟩ := List.mem_map.mp hn
    have := h.range x hx
    simp only [List.map_cons, List.map_nil, List.mem_singleton] at hm
    omega

theorem expand_cases {fuel next : Nat} {u u' : Unit V} {is : Prog V} {next' : Nat}
    (h : expand (fuel + 1) next u = some (u', is, next')) :
    (u' = u ∧ is = [] ∧ next' = next ∧ ∃ ss r, u.body = .block ss r ∧ ¬ r.IsGif) ∨
    ∃ ss c t e t' e' ut is₁ n₁ ue is₂ n₂, u.body = .block ss (.gif c t e) ∧
      absorb ss t = some t' ∧ absorb ss e = some e' ∧
      expand fuel (next + 1) { u with body := wrap t' } = some (ut, is₁, n₁) ∧
      expand fuel (n₁ + 1) { u with body := wrap e' } = some (ue, is₂, n₂) ∧
      u' = { u with body := newBody u c next n₁ n₂ } ∧
      is = is₁ ++ [(next, ut)] ++ is₂ ++ [(n₁, ue)] ∧ next' = n₂ + 1 := by
  rw [expand] at h
  split at h
  · rename_i ss c t e hb
    simp only [Option.bind_eq_some_iff] at h
    obtain ⟨t', ht, ⟨ut, is₁, n₁⟩, h1, e', he, ⟨ue, is₂, n₂⟩, h2, h⟩ := h
    simp only [Option.some.injEq, Prod.mk.injEq] at h
    exact Or.inr ⟨ss, c, t, e, t', e', ut, is₁, n₁, ue, is₂, n₂, hb, ht, he, h1, h2,
      h.1.symm, h.2.1.symm, h.2.2.symm⟩
  · rename_i ss r hne hb
    simp only [Option.some.injEq, Prod.mk.injEq] at h
    refine Or.inl ⟨h.1.symm, h.2.1.symm, h.2.2.symm, ss, r, hb, fun hg => ?_⟩
    cases r <;> simp only [Exp.IsGif] at hg
    exact hne _ _ _ rfl
  · cases h

theorem expand_fresh : ∀ {fuel next : Nat} {u u' : Unit V} {is : Prog V} {next' : Nat},
    expand fuel next u = some (u', is, next') → Fresh is next next'
  | 0, _, _, _, _, _, h => by simp only [expand, reduceCtorEq] at h
  | fuel + 1, next, u, u', is, next', h => by
    rcases expand_cases h with ⟨_, rfl, rfl, _⟩ |
      ⟨ss, c, t, e, t', e', ut, is₁, n₁, ue, is₂, n₂, _, _, _, h1, h2, _, rfl, rfl⟩
    · exact ⟨Nat.le_refl _, (fun _ h => nomatch h), by simp⟩
    · have a := (expand_fresh h1).one (u := ut)
      have b := (expand_fresh h2).one (u := ue)
      have c := a.append b
      rw [← List.append_assoc] at c
      exact ⟨by have := c.le; omega, fun x hx => by have := c.range x hx; omega, c.nodup⟩

/-- What the new unit gives is what the old one gives, in a program which has the
units made for the branches. -/
theorem expand_run {Q : Prog V} : ∀ {fuel next : Nat} {u u' : Unit V} {is : Prog V} {next' : Nat},
    expand fuel next u = some (u', is, next') → u.params.Nodup →
    (∀ x ∈ is, Q.lookup x.1 = some x.2) → ∀ (k : Nat) (ρ : Gens) (args : List V) (v : V),
    (u.run (Q.calls k) ρ args = some v → u'.run (Q.calls (k + fuel)) ρ args = some v) ∧
    (u'.run (Q.calls k) ρ args = some v → u.run (Q.calls k) ρ args = some v)
  | 0, _, _, _, _, _, h, _, _, _, _, _, _ => by simp only [expand, reduceCtorEq] at h
  | fuel + 1, next, u, u', is, next', h, hn, hQ, k, ρ, args, v => by
    rcases expand_cases h with ⟨rfl, _, _, _⟩ |
      ⟨ss, c, t, e, t', e', ut, is₁, n₁, ue, is₂, n₂, hb, ht, he, h1, h2, rfl, rfl, _⟩
    · exact ⟨fun h => run_mono (calls_add k (fuel + 1)) (over_true _) h, id⟩
    · have q1 : Q.lookup next = some ut := hQ (next, ut) (by simp)
      have q2 : Q.lookup n₁ = some ue := hQ (n₁, ue) (by simp)
      have r1 := expand_run (Q := Q) h1 hn (fun x hx => hQ x (by simp [hx]))
      have r2 := expand_run (Q := Q) h2 hn (fun x hx => hQ x (by simp [hx]))
      constructor
      · intro hr
        obtain ⟨x, hx, hr'⟩ := (run_gif hb ht he).mp hr
        have hl := (run_iff.mp hr).1
        refine run_iff.mpr ⟨hl, newBody_stages, ?_⟩
        show (newBody u c next n₁ n₂).ev _ _ (u.params.zip args) = _
        rw [newBody_ev hn hl, hx]
        show (if x = true then _ else _) = _
        cases x with
        | true =>
          rw [if_pos rfl, ← Nat.add_assoc, Prog.calls, q1]
          exact (r1 k ρ args v).1 hr'
        | false =>
          rw [if_neg (by simp), ← Nat.add_assoc, Prog.calls, q2]
          exact (r2 k ρ args v).1 hr'
      · intro hr
        obtain ⟨hl, _, hev⟩ := run_iff.mp hr
        have hev : (newBody u c next n₁ n₂).ev (Q.calls k) ρ (u.params.zip args) = some v := hev
        rw [newBody_ev hn hl, Option.bind_eq_some_iff] at hev
        obtain ⟨x, hx, hev⟩ := hev
        refine (run_gif hb ht he).mpr ⟨x, hx, ?_⟩
        cases k with
        | zero => cases x <;> simp [Prog.calls] at hev
        | succ k =>
          refine run_mono (calls_succ k) (over_true _) ?_
          cases x with
          | true =>
            rw [if_pos rfl, Prog.calls, q1] at hev
            exact (r1 k ρ args v).2 hev
          | false =>
            rw [if_neg (by simp), Prog.calls, q2] at hev
            exact (r2 k ρ args v).2 hev

/-! ## Whole programs -/

theorem lookup_mem {Q : Prog V} : ∀ {x : Nat × Unit V}, (Q.map (·.1)).Nodup → x ∈ Q →
    Q.lookup x.1 = some x.2 := by
  induction Q with
  | nil => intro x _ h; cases h
  | cons y Q ih =>
    intro x hn hx
    rw [List.map_cons, List.nodup_cons] at hn
    obtain ⟨y, z⟩ := y
    rcases List.mem_cons.mp hx with rfl | hx
    · simp
    · have hne : x.1 ≠ y := fun e => hn.1 (e ▸ List.mem_map.mpr ⟨x, hx, rfl⟩)
      rw [List.lookup_cons, beq_eq_false_iff_ne.mpr hne]
      exact ih hn.2 hx

theorem mem_lookup {Q : Prog V} {n : Nat} {u : Unit V} (h : Q.lookup n = some u) :
    (n, u) ∈ Q := by
  induction Q with
  | nil => simp at h
  | cons y Q ih =>
    obtain ⟨y, z⟩ := y
    rw [List.lookup_cons] at h
    split at h
    · rename_i hb
      injection h with h
      rw [beq_iff_eq] at hb
      rw [hb, ← h]
      exact List.mem_cons_self ..
    · exact List.mem_cons_of_mem _ (ih h)

theorem expandAll_spec {fuel : Nat} : ∀ {P : Prog V} {next : Nat} {Q : Prog V} {next' : Nat}
    (_ : expandAll fuel next P = some (Q, next')) (_ : (P.map (·.1)).Nodup)
    (_ : ∀ x ∈ P, x.1 < next),
    next ≤ next' ∧ (Q.map (·.1)).Nodup ∧
    (∀ x ∈ Q, x.1 < next → ∃ w, (x.1, w) ∈ P ∧
      ∃ i is j, expand fuel i w = some (x.2, is, j) ∧ ∀ y ∈ is, y ∈ Q) ∧
    (∀ x ∈ P, ∃ w, (x.1, w) ∈ Q ∧
      ∃ i is j, expand fuel i x.2 = some (w, is, j) ∧ ∀ y ∈ is, y ∈ Q) ∧
    (∀ x ∈ Q, x.1 < next' ∧ (x.1 < next → x.1 ∈ P.map (·.1)))
  | [], next, Q, next', h, _, _ => by
    simp only [expandAll, Option.some.injEq, Prod.mk.injEq] at h
    obtain ⟨rfl, rfl⟩ := h
    exact ⟨Nat.le_refl _, by simp, (fun _ h => nomatch h), (fun _ h => nomatch h),
      (fun _ h => nomatch h)⟩
  | (n, u) :: P, next, Q, next', h, hn, hb => by
    simp only [expandAll, Option.bind_eq_some_iff, Option.map_eq_some_iff] at h
    obtain ⟨⟨u', is, n₁⟩, he, ⟨Q', n₂⟩, hall, h⟩ := h
    simp only [Prod.mk.injEq] at h
    obtain ⟨rfl, rfl⟩ := h
    replace hall : expandAll fuel n₁ P = some (Q', n₂) := hall
    have hf := expand_fresh he
    rw [List.map_cons, List.nodup_cons] at hn
    have hnb : n < next := hb (n, u) (List.mem_cons_self ..)
    obtain ⟨h1, h2, h3, h4, h5⟩ := expandAll_spec hall hn.2 (fun x hx => by
      have := hb x (List.mem_cons_of_mem _ hx); have := hf.le; omega)
    have hle := hf.le
    -- names of the rest are in `P`, or past `n₁`
    have h5' : ∀ x ∈ Q', x.1 < next → x.1 ∈ P.map (·.1) := fun x hx hlt =>
      (h5 x hx).2 (by omega)
    refine ⟨by omega, ?_, ?_, ?_, ?_⟩
    · rw [List.map_append, List.map_cons, List.nodup_append]
      refine ⟨hf.nodup, List.nodup_cons.mpr ⟨fun hmem => ?_, h2⟩, fun a ha b hb' e => ?_⟩
      · obtain ⟨x, hx, e⟩ := List.mem_map.mp hmem
        exact hn.1 (e ▸ h5' x hx (by omega))
      · obtain ⟨x, hx, rfl⟩ := List.mem_map.mp ha
        have hr := hf.range x hx
        rcases List.mem_cons.mp hb' with rfl | hb'
        · omega
        · obtain ⟨y, hy, rfl⟩ := List.mem_map.mp hb'
          have hc := (h5 y hy).2 (by omega)
          obtain ⟨z, hz, e'⟩ := List.mem_map.mp hc
          have := hb z (List.mem_cons_of_mem _ hz)
          omega
    · intro x hx hlt
      rcases List.mem_append.mp hx with hx | hx
      · have := hf.range x hx; omega
      · rcases List.mem_cons.mp hx with rfl | hx
        · exact ⟨u, List.mem_cons_self .., next, is, n₁, he, fun y hy =>
            List.mem_append_left _ hy⟩
        · obtain ⟨w, hw, i, js, j, hj, hs⟩ := h3 x hx (by omega)
          exact ⟨w, List.mem_cons_of_mem _ hw, i, js, j, hj, fun y hy =>
            List.mem_append_right _ (List.mem_cons_of_mem _ (hs y hy))⟩
    · intro x hx
      rcases List.mem_cons.mp hx with rfl | hx
      · exact ⟨u', by simp, next, is, n₁, he, fun y hy => List.mem_append_left _ hy⟩
      · obtain ⟨w, hw, i, js, j, hj, hs⟩ := h4 x hx
        exact ⟨w, List.mem_append_right _ (List.mem_cons_of_mem _ hw), i, js, j, hj, fun y hy =>
            List.mem_append_right _ (List.mem_cons_of_mem _ (hs y hy))⟩
    · intro x hx
      rcases List.mem_append.mp hx with hx | hx
      · have := hf.range x hx; exact ⟨by omega, fun h => by omega⟩
      · rcases List.mem_cons.mp hx with rfl | hx
        · exact ⟨by show n < _; omega, fun _ => by simp⟩
        · exact ⟨(h5 x hx).1, fun h => by
            rw [List.map_cons]; exact List.mem_cons_of_mem _ (h5' x hx h)⟩

/-- **C53 (expansion).** Turning the branches of `gen if`s into units of their own
does not change what any unit of the program gives, for any generic arguments and
arguments: the results are the same, and a unit has a result after the expansion just
if it has one before.  This includes the number of stages of pipelines. -/
theorem C53_expansion (P Q : Prog V) (fuel next next' : Nat) (hP : P.Ok next)
    (h : expandAll fuel next P = some (Q, next')) (u : Nat) (hu : u < next) (ρ : Gens)
    (args : List V) (v : V) :
    P.Gives u ρ args v ↔ Q.Gives u ρ args v := by
  obtain ⟨_, hQ, hQP, hPQ, _⟩ := expandAll_spec h hP.names hP.below
  constructor
  · rintro ⟨n, hn⟩
    refine ⟨n * (fuel + 1), ?_⟩
    clear hu
    induction n generalizing u ρ args v with
    | zero => simp [Prog.calls] at hn
    | succ n ih =>
      rw [Prog.calls, Option.bind_eq_some_iff] at hn
      obtain ⟨w, hw, hr⟩ := hn
      have hmem := mem_lookup hw
      obtain ⟨w', hw', i, is, j, he, his⟩ := hPQ (u, w) hmem
      have hr' : w.run (Q.calls (n * (fuel + 1))) ρ args = some v :=
        run_mono (fun x _ ρ a v hx => ih x ρ a v hx) (over_true _) hr
      have hr'' := (expand_run he (hP.params _ hmem) (fun x hx => lookup_mem hQ (his x hx))
        _ ρ args v).1 hr'
      rw [Nat.succ_mul, ← Nat.add_assoc, Prog.calls, lookup_mem hQ hw']
      exact hr''
  · rintro ⟨n, hn⟩
    refine ⟨n, ?_⟩
    induction n generalizing u ρ args v with
    | zero => simp [Prog.calls] at hn
    | succ n ih =>
      rw [Prog.calls, Option.bind_eq_some_iff] at hn
      obtain ⟨w', hw', hr⟩ := hn
      obtain ⟨w, hw, i, is, j, he, his⟩ := hQP (u, w') (mem_lookup hw') hu
      have hr' := (expand_run he (hP.params _ hw) (fun x hx => lookup_mem hQ (his x hx))
        _ ρ args v).2 hr
      rw [Prog.calls, lookup_mem hP.names hw]
      exact run_mono (p := (· < next)) (fun x hx ρ a v hc => ih x hx ρ a v hc)
        (hP.calls _ hw) hr'

/-! ## Lowering -/

theorem lower_run {f : Calls V} {ρ : Gens} {w : Unit V} {b : Exp V} {args : List V}
    (h : lower ρ true w.body = some b) :
    ({ w with body := b } : Unit V).run f ρ args = w.run f ρ args := by
  have hd : ({ w with body := b } : Unit V).deep ρ = w.deep ρ := by
    unfold Unit.deep
    cases hw : w.depth <;> simp only [lower_stages h]
  unfold Unit.run
  simp only [lower_ev _ h]
  by_cases hc : w.params.length = args.length ∧ w.deep ρ
  · rw [if_pos hc, if_pos ⟨hc.1, hd ▸ hc.2⟩]
  · rw [if_neg hc, if_neg (fun h => hc ⟨h.1, hd ▸ h.2⟩)]

/-- **C53 (lowering).** The body generated for given generic arguments contains no
`gen if` and has the value and stages of the source. -/
theorem C53_lowering (ρ : Gens) (w : Unit V) (b : Exp V) (h : lower ρ true w.body = some b) :
    b.NoGif ∧ ∀ (f : Calls V) args, ({ w with body := b } : Unit V).run f ρ args = w.run f ρ args :=
  ⟨lower_noGif h, fun _ _ => lower_run h⟩

mutual
theorem lower_placed {ρ : Gens} : ∀ {e : Exp V}, e.Placed ρ → ∃ b, lower ρ true e = some b
  | .var _, _ => ⟨_, by rw [lower]⟩
  | .prim _ _, h => ⟨_, lower_id (by simpa only [Exp.NoGif, Exp.Placed] using h)⟩
  | .call _ _ _, h => ⟨_, lower_id (by simpa only [Exp.NoGif, Exp.Placed] using h)⟩
  | .gif c t e, h => by
    simp only [Exp.Placed] at h
    obtain ⟨⟨b, hb⟩, ht, he⟩ := h
    obtain ⟨t', ht⟩ := lower_placed ht
    obtain ⟨e', he⟩ := lower_placed he
    exact ⟨if b then t' else e', by
      simp only [lower, ht, he, hb, Option.bind_some, if_true, Option.map_some]⟩
  | .block ss r, h => by
    simp only [Exp.Placed] at h
    obtain ⟨ss', hs⟩ := lowerS_placed h.1
    obtain ⟨r', hr⟩ := lower_placed h.2
    exact ⟨.block ss' r', by simp only [lower, hs, hr, Option.bind_some, Option.map_some]⟩
theorem lowerS_placed {ρ : Gens} : ∀ {ss : List (Stm V)}, placedS ρ ss →
    ∃ b, lowerS ρ true ss = some b
  | [], _ => ⟨_, by rw [lowerS]⟩
  | .bind x e :: ss, h => by
    simp only [placedS] at h
    obtain ⟨e', he⟩ := lower_placed h.1
    obtain ⟨ss', hs⟩ := lowerS_placed h.2
    exact ⟨.bind x e' :: ss', by simp only [lowerS, hs, he, Option.bind_some, Option.map_some]⟩
  | .reg k :: ss, h => by
    simp only [placedS] at h
    obtain ⟨ss', hs⟩ := lowerS_placed h
    exact ⟨.reg k :: ss', by simp only [lowerS, hs, Option.map_some]⟩
end

/-- **C53 (where it is allowed).** `gen if`s which are results or values of bindings,
nested in any way, are accepted if their conditions have values, and the body generated
means the same. -/
theorem C53_accepts (ρ : Gens) (w : Unit V) (h : w.body.Placed ρ) :
    ∃ b, lower ρ true w.body = some b ∧ b.NoGif ∧
      ∀ (f : Calls V) args, ({ w with body := b } : Unit V).run f ρ args = w.run f ρ args := by
  obtain ⟨b, hb⟩ := lower_placed h
  exact ⟨b, hb, C53_lowering ρ w b hb⟩

/-- What the hardware gives is what the program gives. -/
theorem hardware_calls {P : Prog V} : ∀ n, Below (fun _ => True) (P.hardware n) (P.calls n)
  | 0, _, _, _, _, _, h => by simp only [Prog.hardware, reduceCtorEq] at h
  | n + 1, u, _, ρ, a, v, h => by
    rw [Prog.hardware, Option.bind_eq_some_iff] at h
    obtain ⟨w, hw, h⟩ := h
    rw [Option.bind_eq_some_iff] at h
    obtain ⟨b, hb, h⟩ := h
    rw [lower_run hb] at h
    rw [Prog.calls, hw]
    exact run_mono (hardware_calls n) (over_true _) h

/-- A body after expansion: no `gen if` is left but in the binding of the result. -/
def Simple (e : Exp V) : Prop :=
  e.NoGif ∨ ∃ (u : Unit V) (c : Gens → Option Bool) (a b r : Nat), e = newBody u c a b r

theorem noGifE_vars : ∀ xs : List Nat, noGifE (V := V) (xs.map .var)
  | [] => by simp only [List.map_nil, noGifE]
  | x :: xs => by simp only [List.map_cons, noGifE, Exp.NoGif]; exact ⟨trivial, noGifE_vars xs⟩

theorem noGifS_depthReg (u : Unit V) : noGifS (depthReg u) := by
  unfold depthReg
  split <;> simp only [noGifS]

theorem lower_simple {f : Calls V} {ρ : Gens} {E : Vars V} {e : Exp V} {v : V} (hs : Simple e)
    (h : e.ev f ρ E = some v) : ∃ b, lower ρ true e = some b := by
  rcases hs with hs | ⟨u, c, a, b, r, rfl⟩
  · exact ⟨e, lower_id hs⟩
  · simp only [newBody, Exp.ev, stms, Option.bind_eq_some_iff] at h
    obtain ⟨_, ⟨_, ⟨x, hx, _⟩, _⟩, _⟩ := h
    have ha : ∀ n, lower ρ true (callExpanded u n) = some (callExpanded u n) := fun n =>
      lower_id (by simp only [callExpanded, Exp.NoGif]; exact noGifE_vars _)
    simp only [newBody, lower, lowerS, ha, lowerS_id (noGifS_depthReg u), Option.bind_some,
      if_true, hx, Option.map_some]
    exact ⟨_, rfl⟩

theorem expand_simple : ∀ {fuel next : Nat} {u u' : Unit V} {is : Prog V} {next' : Nat},
    expand fuel next u = some (u', is, next') → u.body.Tail →
    Simple u'.body ∧ ∀ x ∈ is, Simple x.2.body
  | 0, _, _, _, _, _, h, _ => by simp only [expand, reduceCtorEq] at h
  | fuel + 1, next, u, u', is, next', h, ht => by
    rcases expand_cases h with ⟨rfl, rfl, _, ss, r, hb, hg⟩ |
      ⟨ss, c, t, e, t', e', ut, is₁, n₁, ue, is₂, n₂, hb, h3, h4, h1, h2, rfl, rfl, _⟩
    · refine ⟨Or.inl ?_, (fun _ h => nomatch h)⟩
      rw [hb] at ht ⊢
      simp only [Exp.Tail] at ht
      simp only [Exp.NoGif]
      exact ⟨ht.1, ht.2.elim id (fun h => (hg h.1).elim)⟩
    · rw [hb] at ht
      simp only [Exp.Tail, Exp.NoGif, false_or] at ht
      obtain ⟨hs, _, ht1, ht2⟩ := ht
      have a := expand_simple h1 (wrap_tail (absorb_tail hs h3 ht1))
      have b := expand_simple h2 (wrap_tail (absorb_tail hs h4 ht2))
      refine ⟨Or.inr ⟨u, c, _, _, _, rfl⟩, fun x hx => ?_⟩
      simp only [List.append_assoc, List.mem_append, List.mem_singleton] at hx
      rcases hx with hx | rfl | hx | rfl
      · exact a.2 x hx
      · exact a.1
      · exact b.2 x hx
      · exact b.1

theorem expandAll_simple {fuel : Nat} : ∀ {P : Prog V} {next : Nat} {Q : Prog V} {next' : Nat},
    expandAll fuel next P = some (Q, next') → (∀ x ∈ P, x.2.body.Tail) →
    ∀ x ∈ Q, Simple x.2.body
  | [], next, Q, next', h, _ => by
    simp only [expandAll, Option.some.injEq, Prod.mk.injEq] at h
    obtain ⟨rfl, rfl⟩ := h
    exact (fun _ h => nomatch h)
  | (n, u) :: P, next, Q, next', h, ht => by
    simp only [expandAll, Option.bind_eq_some_iff, Option.map_eq_some_iff] at h
    obtain ⟨⟨u', is, n₁⟩, he, ⟨Q', n₂⟩, hall, h⟩ := h
    simp only [Prod.mk.injEq] at h
    obtain ⟨rfl, rfl⟩ := h
    have a := expand_simple he (ht _ (List.mem_cons_self ..))
    have b := expandAll_simple hall (fun x hx => ht x (List.mem_cons_of_mem _ hx))
    intro x hx
    rcases List.mem_append.mp hx with hx | hx
    · exact a.2 x hx
    · rcases List.mem_cons.mp hx with rfl | hx
      · exact a.1
      · exact b x hx

theorem calls_hardware {P : Prog V} (hs : ∀ x ∈ P, Simple x.2.body) :
    ∀ n, Below (fun _ => True) (P.calls n) (P.hardware n)
  | 0, _, _, _, _, _, h => by simp only [Prog.calls, reduceCtorEq] at h
  | n + 1, u, _, ρ, a, v, h => by
    rw [Prog.calls, Option.bind_eq_some_iff] at h
    obtain ⟨w, hw, h⟩ := h
    have h' := run_mono (calls_hardware hs n) (over_true _) h
    obtain ⟨b, hb⟩ := lower_simple (hs _ (mem_lookup hw)) (run_iff.mp h').2.2
    rw [Prog.hardware, hw, Option.bind_some, hb, Option.bind_some, lower_run hb]
    exact h'

/-- **C53.** The hardware generated for a unit gives, for all generic arguments and
arguments, exactly what the source means: wherever a unit's result is a `gen if`,
possibly nested to any depth and calling the unit itself with other generic arguments,
it is the result of the branch the condition selects, with the statements before the
`gen if` and with the registers on that branch. -/
theorem C53_gen_if (P Q : Prog V) (fuel next next' : Nat) (hP : P.Ok next)
    (ht : ∀ x ∈ P, x.2.body.Tail) (h : expandAll fuel next P = some (Q, next'))
    (u : Nat) (hu : u < next) (ρ : Gens) (args : List V) (v : V) :
    P.Gives u ρ args v ↔ ∃ n, Q.hardware n u ρ args = some v := by
  rw [C53_expansion P Q fuel next next' hP h u hu]
  exact ⟨fun ⟨n, hn⟩ => ⟨n, calls_hardware (expandAll_simple h ht) n u trivial _ _ _ hn⟩,
    fun ⟨n, hn⟩ => ⟨n, hardware_calls n u trivial _ _ _ hn⟩⟩

/-- **C53 (wherever accepted).** Also where `gen if` is used in other places than the
result of a unit: what the hardware gives is what the source means. -/
theorem C53_accepted (P Q : Prog V) (fuel next next' : Nat) (hP : P.Ok next)
    (h : expandAll fuel next P = some (Q, next')) (u : Nat) (hu : u < next) (ρ : Gens)
    (args : List V) (v : V) (n : Nat) (hn : Q.hardware n u ρ args = some v) :
    P.Gives u ρ args v :=
  (C53_expansion P Q fuel next next' hP h u hu ρ args v).mpr
    ⟨n, hardware_calls n u trivial _ _ _ hn⟩

/-! ## Expansion comes to an end -/

/-- How deep `gen if`s are nested in result position. -/
def Exp.height : Exp V → Nat
  | .gif _ t e => max t.height e.height + 1
  | .block _ r => r.height
  | _ => 0

theorem wrap_height (e : Exp V) : (wrap e).height = e.height := by
  cases e <;> simp only [wrap, Exp.height]

theorem absorb_some {ss : List (Stm V)} (hs : noGifS ss) : ∀ {t : Exp V}, t.Tail →
    ∃ t', absorb ss t = some t' ∧ t'.height = t.height ∧ t'.Tail
  | .gif c t e, h => by
    simp only [Exp.Tail] at h
    obtain ⟨t', h1, h2, h3⟩ := absorb_some hs h.1
    obtain ⟨e', h4, h5, h6⟩ := absorb_some hs h.2
    exact ⟨.gif c t' e', by simp only [absorb, h1, h4, Option.bind_some, Option.map_some],
      by simp only [Exp.height, h2, h5], by simp only [Exp.Tail]; exact ⟨h3, h6⟩⟩
  | .block ts r, h => by
    simp only [Exp.Tail] at h
    exact ⟨_, rfl, by simp only [Exp.height], by
      simp only [Exp.Tail]; exact ⟨noGifS_append hs h.1, h.2⟩⟩
  | .var _, h => by simp only [Exp.Tail] at h
  | .prim _ _, h => by simp only [Exp.Tail] at h
  | .call _ _ _, h => by simp only [Exp.Tail] at h

theorem expand_some : ∀ {fuel : Nat} {u : Unit V} (next : Nat), u.body.Tail → ¬ u.body.IsGif →
    u.body.height < fuel → ∃ r, expand fuel next u = some r
  | 0, _, _, _, _, h => by omega
  | fuel + 1, u, next, ht, hg, hh => by
    cases hb : u.body with
    | var x => rw [hb] at ht; simp only [Exp.Tail] at ht
    | prim f as => rw [hb] at ht; simp only [Exp.Tail] at ht
    | call n ts as => rw [hb] at ht; simp only [Exp.Tail] at ht
    | gif c t e => rw [hb] at hg; simp only [Exp.IsGif, not_true] at hg
    | block ss r =>
      cases hr : r with
      | gif c t e =>
        rw [hb, hr] at ht hh
        simp only [Exp.Tail, Exp.NoGif, false_or] at ht
        simp only [Exp.height] at hh
        obtain ⟨hs, _, ht1, ht2⟩ := ht
        obtain ⟨t', h1, h2, h3⟩ := absorb_some hs ht1
        obtain ⟨e', h4, h5, h6⟩ := absorb_some hs ht2
        obtain ⟨⟨ut, is, n₁⟩, hx⟩ := expand_some (fuel := fuel)
          (u := { u with body := wrap t' }) (next + 1) (wrap_tail h3) (wrap_isGif _)
          (by show (wrap t').height < _; rw [wrap_height, h2]; omega)
        obtain ⟨⟨ue, js, n₂⟩, hy⟩ := expand_some (fuel := fuel)
          (u := { u with body := wrap e' }) (n₁ + 1) (wrap_tail h6) (wrap_isGif _)
          (by show (wrap e').height < _; rw [wrap_height, h5]; omega)
        rw [expand, hb, hr]
        simp only [h1, h4, hx, hy, Option.bind_some]
        exact ⟨_, rfl⟩
      | var x => exact ⟨_, by rw [expand, hb, hr]⟩
      | prim f as => exact ⟨_, by rw [expand, hb, hr]⟩
      | call n ts as => exact ⟨_, by rw [expand, hb, hr]⟩
      | block ts q => exact ⟨_, by rw [expand, hb, hr]⟩

theorem expandAll_some {fuel : Nat} : ∀ {P : Prog V} (next : Nat), (∀ x ∈ P, x.2.Ok) →
    (∀ x ∈ P, x.2.body.height < fuel) → ∃ r, expandAll fuel next P = some r
  | [], next, _, _ => ⟨_, rfl⟩
  | (n, u) :: P, next, hok, hh => by
    have h0 := hok _ (List.mem_cons_self ..)
    obtain ⟨⟨u', is, n₁⟩, he⟩ := expand_some next h0.tail h0.block (hh _ (List.mem_cons_self ..))
    obtain ⟨⟨Q, n₂⟩, ha⟩ := expandAll_some n₁ (fun x hx => hok x (List.mem_cons_of_mem _ hx))
      (fun x hx => hh x (List.mem_cons_of_mem _ hx))
    simp only [expandAll, he, ha, Option.bind_some, Option.map_some]
    exact ⟨_, rfl⟩

theorem exists_bound (g : Nat × Unit V → Nat) : ∀ P : Prog V, ∃ m, ∀ x ∈ P, g x < m
  | [] => ⟨0, (fun _ h => nomatch h)⟩
  | y :: P => by
    obtain ⟨m, hm⟩ := exists_bound g P
    refine ⟨max m (g y + 1), fun x hx => ?_⟩
    rcases List.mem_cons.mp hx with rfl | hx
    · omega
    · have := hm x hx; omega

/-- **C53 (termination).** Programs which use `gen if` as the language allows are
expanded, however deep it is nested. -/
theorem C53_terminates (P : Prog V) (next : Nat) (hok : ∀ x ∈ P, x.2.Ok) :
    ∃ fuel r, expandAll fuel next P = some r := by
  obtain ⟨m, hm⟩ := exists_bound (fun x => x.2.body.height) P
  exact ⟨m, expandAll_some next hok hm⟩

/-- **C53 (rejection).** A `gen if` in an operand, or as an operand of an argument, is
rejected for all generic arguments. -/
theorem C53_rejects (ρ : Gens) (c : Gens → Option Bool) (t e : Exp V) :
    lower ρ false (.gif c t e) = none := by
  simp only [lower]
  cases lower ρ false t <;> cases lower ρ false e <;> simp

end
end Spade.GenIf

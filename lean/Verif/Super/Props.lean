import Verif.Super.Bounds

/-!
# Supertraits do not go in circles, and bounds include supertraits (C70)

The traits `ds` are processed one after the other. `Process [] ds T es` is a run, in which every choice
among the pending names is open; `T` are the traits known at its end and `es` the errors.
-/

namespace Spade.Super

/-- Any number of turns of the loop. -/
inductive Steps (T : List Trait) (self : Nat) : Search → Search → Prop
  | refl {s : Search} : Steps T self s s
  | step {s s' s'' : Search} : Step T self s s' → Steps T self s' s'' → Steps T self s s''

theorem Steps.keeps {T : List Trait} {self : Nat} {P : Search → Prop}
    (hP : ∀ s s', P s → Step T self s s' → P s') {s s' : Search} (h : Steps T self s s') :
    P s → P s' := by
  induction h with
  | refl => exact id
  | step hst _ ih => exact fun hp => ih (hP _ _ hp hst)

/-! ## Runs -/

theorem distinct_cons {T : List Trait} {d : Trait} {ds : List Trait}
    (h : Distinct (T ++ d :: ds)) : Distinct (d :: T) ∧ Distinct ((d :: T) ++ ds) ∧
    Distinct (T ++ ds) := by
  simp only [Distinct, List.map_append, List.map_cons, List.nodup_append, List.nodup_cons,
    List.cons_append, List.mem_append, List.mem_cons] at *
  obtain ⟨h1, ⟨h2, h3⟩, h4⟩ := h
  refine ⟨⟨fun h => h4 _ h _ (.inl rfl) rfl, h1⟩, ⟨?_, h1, h3, ?_⟩, h1, h3, ?_⟩
  · rintro (h | h)
    · exact h4 _ h _ (.inl rfl) rfl
    · exact h2 h
  · exact fun a ha b hb => h4 a ha b (.inr hb)
  · exact fun a ha b hb => h4 a ha b (.inr hb)

theorem mem_middle {T ds : List Trait} {d e : Trait} : e ∈ (d :: T) ++ ds ↔ e ∈ T ++ d :: ds := by
  simp only [List.cons_append, List.mem_cons, List.mem_append]
  exact or_left_comm

theorem wayUp_mono {T T' : List Trait} (h : ∀ d ∈ T, d ∈ T') {b : Nat} :
    ∀ {a : Nat} {ns : List Nat}, WayUp T b a ns → WayUp T' b a ns
  | _, [], hw => HasSuper.mono h hw
  | _, _ :: _, hw => ⟨hw.1.mono h, wayUp_mono h hw.2⟩

theorem process_traits {T ds T' : List Trait} {es : List (Nat × List Nat)}
    (h : Process T ds T' es) (he : es = []) : ∀ d ∈ T ++ ds, d ∈ T' := by
  induction h with
  | nil => simp
  | ok _ _ ih => exact fun e hm => ih he e (mem_middle.2 hm)
  | error _ _ _ => cases he

theorem process_noCircle {T ds T' : List Trait} {es : List (Nat × List Nat)}
    (h : Process T ds T' es) : Distinct (T ++ ds) → NoCircle T → NoCircle T' ∧ Distinct T' := by
  induction h with
  | nil => intro hd hT; exact ⟨hT, by simpa using hd⟩
  | ok hr _ ih =>
    intro hd hT
    obtain ⟨h1, h2, _⟩ := distinct_cons hd
    exact ih h2 (noCircle_cons hT (run_accept h1 hr))
  | error _ _ ih => intro hd hT; exact ih (distinct_cons hd).2.2 hT

theorem process_errors {T ds T' : List Trait} {es : List (Nat × List Nat)}
    (h : Process T ds T' es) : ∀ e ∈ es, WayUp (T ++ ds) e.1 e.1 e.2 := by
  induction h with
  | nil => simp
  | ok _ _ ih => exact fun e he => wayUp_mono (fun _ => mem_middle.1) (ih e he)
  | @error T T' d ds es ns hr _ ih =>
    intro e he
    rcases List.mem_cons.mp he with rfl | he
    · refine wayUp_mono (fun x hx => ?_) (run_circle hr)
      simp only [List.mem_cons, List.mem_append] at hx ⊢
      rcases hx with rfl | hx
      · exact .inr (.inl rfl)
      · exact .inl hx
    · refine wayUp_mono (fun x hx => ?_) (ih e he)
      simp only [List.mem_cons, List.mem_append] at hx ⊢
      exact hx.imp id .inr

/-! ## Theorems -/

/-- **C70.** The traits are accepted exactly if none is its own supertrait, directly or through others,
in whatever order they are written and the pending names are taken. -/
theorem C70_accepted_iff_no_circle {ds T : List Trait} {es : List (Nat × List Nat)}
    (hd : Distinct ds) (h : Process [] ds T es) : es = [] ↔ NoCircle ds := by
  constructor
  · intro he
    exact (process_noCircle h hd noCircle_nil).1.mono (process_traits h he)
  · intro hn
    cases es with
    | nil => rfl
    | cons e es => exact absurd (wayUp_below (process_errors h e List.mem_cons_self)) (hn e.1)

/-- **C70.** The notes of every error name a real circle: the reported trait is a supertrait of the first,
each is a supertrait of the next, and the last is one of the reported trait. -/
theorem C70_error_names_a_circle {ds T : List Trait} {es : List (Nat × List Nat)}
    (h : Process [] ds T es) {n : Nat} {ns : List Nat} (he : (n, ns) ∈ es) : WayUp ds n n ns :=
  process_errors h (n, ns) he

/-- **C70.** The check of a trait ends, whatever traits are known: the loop cannot take infinitely many
turns, there is a verdict, and every state it can come to without reporting has a next turn or a verdict,
for which following the recorded supertraits ends too. -/
theorem C70_check_ends (T : List Trait) (d : Trait) :
    Acc (fun s' s => Step T d.name s s') (.start d) ∧ (∃ v, Run T d.name (.start d) v) ∧
    ∀ s, Steps T d.name (.start d) s → (s.pending = [] ∨ d.name ∈ s.pending ∨ ∃ s', Step T d.name s s') ∧
      (d.name ∈ s.pending → ∃ k ns, notes s.edges d.name k d.name = some ns) := by
  refine ⟨step_acc T _ _, run_total, fun s hs => ⟨?_, fun hm => ?_⟩⟩
  · cases hp : s.pending with
    | nil => exact .inl rfl
    | cons n l =>
      have hmem : n ∈ s.pending := by rw [hp]; exact List.mem_cons_self
      by_cases hne : n = d.name
      · exact .inr (.inl (by rw [← hne]; exact List.mem_cons_self))
      · exact .inr (.inr ⟨_, .mk hmem hne⟩)
  · have hi : Inv T d s := hs.keeps (fun _ _ hi hst => hi.step hst) (Inv.start d)
    obtain ⟨p, hp⟩ := hi.edge _ hm
    exact hi.back _ p hp

/-- Processing always has a result. -/
theorem process_total : ∀ (ds T : List Trait), ∃ T' es, Process T ds T' es
  | [], T => ⟨T, [], .nil⟩
  | d :: ds, T => by
    obtain ⟨v, hv⟩ := run_total (T := T) (d := d)
    cases v with
    | accept =>
      obtain ⟨T', es, h⟩ := process_total ds (d :: T)
      exact ⟨T', es, .ok hv h⟩
    | circle ns =>
      obtain ⟨T', es, h⟩ := process_total ds T
      exact ⟨T', _, .error hv h⟩

theorem process_same {T ds T₁ T₂ : List Trait} {es₁ es₂ : List (Nat × List Nat)}
    (hd : Distinct (T ++ ds)) (h₁ : Process T ds T₁ es₁) (h₂ : Process T ds T₂ es₂) :
    T₁ = T₂ ∧ es₁.map (·.1) = es₂.map (·.1) := by
  induction h₁ generalizing T₂ es₂ with
  | nil => cases h₂; exact ⟨rfl, rfl⟩
  | ok hr _ ih =>
    obtain ⟨h1, h2, h3⟩ := distinct_cons hd
    cases h₂ with
    | ok _ h => exact ih h2 h
    | error hr' _ => exact absurd (wayUp_below (run_circle hr')) (run_accept h1 hr)
  | error hr _ ih =>
    obtain ⟨h1, h2, h3⟩ := distinct_cons hd
    cases h₂ with
    | ok hr' _ => exact absurd (wayUp_below (run_circle hr)) (run_accept h1 hr')
    | error _ h =>
      obtain ⟨ih1, ih2⟩ := ih h3 h
      exact ⟨ih1, by simp [ih2]⟩

/-- **C70.** The outcome does not depend on the order in which the hash set gives out names: two runs on
the same traits reject the same ones and know the same ones at the end. -/
theorem C70_order_irrelevant {ds T₁ T₂ : List Trait} {es₁ es₂ : List (Nat × List Nat)}
    (hd : Distinct ds) (h₁ : Process [] ds T₁ es₁) (h₂ : Process [] ds T₂ es₂) :
    T₁ = T₂ ∧ es₁.map (·.1) = es₂.map (·.1) := process_same (T := []) hd h₁ h₂

/-- **C70.** Collecting the supertraits of bounds ends when the traits named are declared, even if they
went in a circle. -/
theorem C70_bounds_end (T : List Trait) (bs : List Bound) (hT : Known T (superBounds T))
    (hb : Known T bs) : ∃ K, ∀ k, K ≤ k → ∃ r, allBounds T k bs = some r := by
  refine ⟨bs.length + cost T [] (bs ++ superBounds T) + 1, fun k hk => ?_⟩
  obtain ⟨r, hr⟩ := expand_ends hT (U := bs ++ superBounds T)
    (fun b hb => List.mem_append.2 (.inr hb)) k bs [] (fun b hb => List.mem_append.2 (.inl hb)) hb (by omega)
  exact ⟨r ++ bs, by simp [allBounds, hr]⟩

/-- **C70.** The traits required of a generic parameter are those of its bounds and their supertraits,
directly or through others. -/
theorem C70_required_traits (T : List Trait) (hd : Distinct T) (bs : List Bound) (k : Nat)
    (r : List Bound) (h : allBounds T k bs = some r) (n : Nat) :
    (∃ b ∈ r, b.name = n) ↔ ∃ b, Required T bs b ∧ b.name = n := by
  rw [← found_names hd]
  exact ⟨fun ⟨b, hb, e⟩ => ⟨b, (all_iff h b).1 hb, e⟩, fun ⟨b, hb, e⟩ => ⟨b, (all_iff h b).2 hb, e⟩⟩

/-- **C70** (what holds of it).  When no trait passes its own parameters on to a supertrait, what is
required of a generic parameter are exactly its bounds and their supertraits at their arguments, and the
compiler does not panic on them.  `G` has the types of the parameters that occur in the bounds.  Missing:
traits that pass their parameters on (`C70_counterexample_parameter_of_trait`). -/
theorem C70_required_partial (T : List Trait) (hd : Distinct T) (hp : NoParams T)
    (hT : Known T (superBounds T)) (bs : List Bound) (hb : Known T bs) (G : Nat → Option Nat)
    (hG : ∀ b ∈ bs, ∃ ts, ArgTypes G b.args ts) :
    ∃ K, ∀ k, K ≤ k → ∃ r, boundsOf T k G bs = some r ∧ ∀ n ts,
      (n, ts) ∈ r ↔ ∃ b, Required T bs b ∧ b.name = n ∧ ArgTypes G b.args ts := by
  obtain ⟨K, hK⟩ := C70_bounds_end T bs hT hb
  refine ⟨K, fun k hk => ?_⟩
  obtain ⟨r, hr⟩ := hK k hk
  obtain ⟨r', hr'⟩ := mapM_total (l := r) (f := fun b : Bound => do
    some (b.name, ← b.args.mapM (visitArg G))) (fun b hb => by
    obtain ⟨ts, hts⟩ := mapM_total (found_args hp (fun b hb => visit_total (hG b hb)) ((all_iff hr b).1 hb))
    exact ⟨(b.name, ts), by simp [hts]⟩)
  refine ⟨r', by simpa [boundsOf, hr, visitBounds] using hr', fun n ts => ?_⟩
  rw [mapM_mem hr']
  constructor
  · rintro ⟨b, hb, h⟩
    simp only [Option.bind_eq_bind, Option.bind_eq_some_iff, Option.some.injEq, Prod.mk.injEq] at h
    obtain ⟨ts', h, rfl, rfl⟩ := h
    exact ⟨b, (found_iff_required hd hp).1 ((all_iff hr b).1 hb), rfl, args_iff.1 h⟩
  · rintro ⟨b, hb, rfl, h⟩
    exact ⟨b, (all_iff hr b).2 ((found_iff_required hd hp).2 hb), by simp [args_iff.2 h]⟩

end Spade.Super

import Verif.Decl.Search
import Verif.Decl.Layout

/-!
# Types that contain themselves are rejected, and only those (C63)

The declarations `ds` are processed one after the other, starting from the built-in types `T`, which
have no right-hand side. `Process T ds T' es` is a run, in which every choice among the pending
names is open; `T'` are the types known at its end and `es` the errors.
-/

namespace Spade.Decl

/-- The built-in types: nothing is mentioned in them. -/
def BuiltIn (T : List TypeDecl) : Prop := ∀ d ∈ T, ∃ p, d.kind = .prim p

/-- Any number of turns of the loop. -/
inductive Steps (T : List TypeDecl) (self : Nat) : Search → Search → Prop
  | refl {s : Search} : Steps T self s s
  | step {s s' s'' : Search} : Step T self s s' → Steps T self s' s'' → Steps T self s s''

theorem Steps.keeps {T : List TypeDecl} {self : Nat} {P : Search → Prop}
    (hP : ∀ s s', P s → Step T self s s' → P s') {s s' : Search} (h : Steps T self s s') :
    P s → P s' := by
  induction h with
  | refl => exact id
  | step hst _ ih => exact fun hp => ih (hP _ _ hp hst)

/-! ## Runs -/

theorem distinct_cons {T : List TypeDecl} {d : TypeDecl} {ds : List TypeDecl}
    (h : Distinct (T ++ d :: ds)) : Distinct (d :: T) ∧ Distinct ((d :: T) ++ ds) ∧
    Distinct (T ++ ds) := by
  simp only [Distinct, List.map_append, List.map_cons, List.nodup_append, List.nodup_cons,
    List.cons_append, List.mem_append, List.mem_cons] at *
  obtain ⟨h1, ⟨h2, h3⟩, h4⟩ := h
  refine ⟨⟨fun h => h4 _ h _ (.inl rfl) rfl, h1⟩, ⟨?_, h1, h3, ?_⟩, h1, h3, ?_⟩
  · rintro (h | h)
    · exact h4 _ h _ (.inl rfl) rfl
    · exact h2 h
  · exact fun a ha b hb => h4 a ha b (.inr hb)
  · exact fun a ha b hb => h4 a ha b (.inr hb)

theorem mem_middle {T ds : List TypeDecl} {d e : TypeDecl} :
    e ∈ (d :: T) ++ ds → e ∈ T ++ d :: ds := by
  simp only [List.cons_append, List.mem_cons, List.mem_append]
  rintro (h | h | h)
  · exact .inr (.inl h)
  · exact .inl h
  · exact .inr (.inr h)

theorem mem_middle' {T ds : List TypeDecl} {d e : TypeDecl} :
    e ∈ T ++ d :: ds → e ∈ (d :: T) ++ ds := by
  simp only [List.cons_append, List.mem_cons, List.mem_append]
  rintro (h | h | h)
  · exact .inr (.inl h)
  · exact .inl h
  · exact .inr (.inr h)

theorem wayBack_mono {T T' : List TypeDecl} (h : ∀ d ∈ T, d ∈ T') {b : Nat} :
    ∀ {a : Nat} {ns : List Nat}, WayBack T b a ns → WayBack T' b a ns
  | _, [], hw => Uses.mono h hw
  | _, _ :: _, hw => ⟨hw.1.mono h, wayBack_mono h hw.2⟩

theorem process_types {T ds T' : List TypeDecl} {es : List (Nat × List Nat)}
    (h : Process T ds T' es) : (∀ d ∈ T', d ∈ T ++ ds) ∧
    (es = [] → ∀ d ∈ T ++ ds, d ∈ T') := by
  induction h with
  | nil => simp
  | ok _ _ ih => exact ⟨fun e he => mem_middle (ih.1 e he), fun hes e he => ih.2 hes e (mem_middle' he)⟩
  | error _ _ ih =>
    refine ⟨fun e he => ?_, fun h => by cases h⟩
    have := ih.1 e he
    simp only [List.mem_append, List.mem_cons] at this ⊢
    exact this.imp id .inr

theorem process_noCircle {T ds T' : List TypeDecl} {es : List (Nat × List Nat)}
    (h : Process T ds T' es) : Distinct (T ++ ds) → NoCircle T → NoCircle T' ∧ Distinct T' := by
  induction h with
  | nil => intro hd hT; exact ⟨hT, by simpa using hd⟩
  | ok hr _ ih =>
    intro hd hT
    obtain ⟨h1, h2, _⟩ := distinct_cons hd
    exact ih h2 (noCircle_cons hT (run_accept h1 hr))
  | error _ _ ih => intro hd hT; exact ih (distinct_cons hd).2.2 hT

theorem process_errors {T ds T' : List TypeDecl} {es : List (Nat × List Nat)}
    (h : Process T ds T' es) : ∀ e ∈ es, WayBack (T ++ ds) e.1 e.1 e.2 := by
  induction h with
  | nil => simp
  | ok _ _ ih => exact fun e he => wayBack_mono (fun _ => mem_middle) (ih e he)
  | @error T T' d ds es ns hr _ ih =>
    intro e he
    rcases List.mem_cons.mp he with rfl | he
    · refine wayBack_mono (fun x hx => ?_) (run_circle hr)
      simp only [List.mem_cons, List.mem_append] at hx ⊢
      rcases hx with rfl | hx
      · exact .inr (.inl rfl)
      · exact .inl hx
    · refine wayBack_mono (fun x hx => ?_) (ih e he)
      simp only [List.mem_cons, List.mem_append] at hx ⊢
      exact hx.imp id .inr

/-! ## Theorems -/

/-- **C63.** The declarations are accepted exactly if no type contains itself, directly or through
others, in whatever order they are written and the pending names are taken. -/
theorem C63_accepted_iff_no_circle {T ds T' : List TypeDecl} {es : List (Nat × List Nat)}
    (hT : BuiltIn T) (hd : Distinct (T ++ ds)) (h : Process T ds T' es) :
    es = [] ↔ NoCircle (T ++ ds) := by
  constructor
  · intro he
    exact (process_noCircle h hd (noCircle_prim hT)).1.mono ((process_types h).2 he)
  · intro hn
    cases es with
    | nil => rfl
    | cons e es =>
      exact absurd (wayBack_reaches (process_errors h e List.mem_cons_self)) (hn e.1)

/-- **C63.** The notes of every error name a real circle: the first is a declaration that mentions
the reported one, each next one mentions the one before it, and the reported one mentions the last. -/
theorem C63_error_names_a_circle {T ds T' : List TypeDecl} {es : List (Nat × List Nat)}
    (h : Process T ds T' es) {n : Nat} {ns : List Nat} (he : (n, ns) ∈ es) :
    WayBack (T ++ ds) n n ns := process_errors h (n, ns) he

/-- **C63.** The check ends: at whatever point declarations have been processed, the loop for the
next one cannot take infinitely many turns, and every state it can come to without reporting has a
next turn or a verdict, for which following the recorded mentions ends too. -/
theorem C63_check_ends {T ds T' : List TypeDecl} {es : List (Nat × List Nat)} (hT : BuiltIn T)
    {d : TypeDecl} (hd : Distinct (T ++ ds)) (h : Process T ds T' es) :
    Acc (fun s' s => Step T' d.name s s') (.start d) ∧ (∃ v, Run T' d.name (.start d) v) ∧
    ∀ s, Steps T' d.name (.start d) s → (s.pending = [] ∨ d.name ∈ s.pending ∨ ∃ s', Step T' d.name s s') ∧
      (d.name ∈ s.pending → ∃ k ns, notes s.edges d.name k d.name = some ns) := by
  have hn := (process_noCircle h hd (noCircle_prim hT)).1
  refine ⟨step_acc hn _ _, run_total hn, fun s hs => ⟨?_, fun hm => ?_⟩⟩
  · cases hp : s.pending with
    | nil => exact .inl rfl
    | cons n l =>
      have hmem : n ∈ s.pending := by rw [hp]; exact List.mem_cons_self
      by_cases hne : n = d.name
      · exact .inr (.inl (by rw [← hne]; exact List.mem_cons_self))
      · exact .inr (.inr ⟨_, .mk hmem hne⟩)
  · have hi : Inv T' d s := hs.keeps (fun _ _ hi hst => hi.step hst) (Inv.start d)
    exact notes_end hn hi (hi.edge _ hm)

/-- Processing always has a result. -/
theorem process_total : ∀ {ds T : List TypeDecl}, Distinct (T ++ ds) → NoCircle T →
    ∃ T' es, Process T ds T' es
  | [], T, _, _ => ⟨T, [], .nil⟩
  | d :: ds, T, hd, hT => by
    obtain ⟨h1, h2, h3⟩ := distinct_cons hd
    obtain ⟨v, hv⟩ := run_total (d := d) hT
    cases v with
    | accept =>
      obtain ⟨T', es, h⟩ := process_total h2 (noCircle_cons hT (run_accept h1 hv))
      exact ⟨T', es, .ok hv h⟩
    | circle ns =>
      obtain ⟨T', es, h⟩ := process_total h3 hT
      exact ⟨T', _, .error hv h⟩

/-- **C63.** The outcome does not depend on the order in which the hash set gives out names: two
runs on the same declarations reject the same declarations and know the same types at the end. (The
notes may differ when there are several circles.) -/
theorem C63_order_irrelevant {T ds T₁ T₂ : List TypeDecl} {es₁ es₂ : List (Nat × List Nat)}
    (hd : Distinct (T ++ ds)) (h₁ : Process T ds T₁ es₁) (h₂ : Process T ds T₂ es₂) :
    T₁ = T₂ ∧ es₁.map (·.1) = es₂.map (·.1) := by
  induction h₁ generalizing T₂ es₂ with
  | nil => cases h₂; exact ⟨rfl, rfl⟩
  | ok hr _ ih =>
    obtain ⟨h1, h2, h3⟩ := distinct_cons hd
    cases h₂ with
    | ok _ h => exact ih h2 h
    | error hr' _ => exact absurd (wayBack_reaches (run_circle hr')) (run_accept h1 hr)
  | error hr _ ih =>
    obtain ⟨h1, h2, h3⟩ := distinct_cons hd
    cases h₂ with
    | ok hr' _ => exact absurd (wayBack_reaches (run_circle hr)) (run_accept h1 hr')
    | error _ h =>
      obtain ⟨ih1, ih2⟩ := ih h3 h
      exact ⟨ih1, by simp [ih2]⟩

/-- **C63.** Computing the layout of a type ends for all types known after processing, with any
generic arguments: there is a depth of nested declarations that is never exceeded. -/
theorem C63_layout_ends {T ds T' : List TypeDecl} {es : List (Nat × List Nat)} (hT : BuiltIn T)
    (hd : Distinct (T ++ ds)) (h : Process T ds T' es) :
    ∃ K, ∀ k, K ≤ k → ∀ n params, layout T' k n params ≠ .deeper :=
  layout_ends (process_noCircle h hd (noCircle_prim hT)).1

/-- **C63.** What is rejected has no layout: were the rejected declarations kept, computing the
layout of a reported one would not give a result at any depth. -/
theorem C63_rejected_has_no_layout {T ds T' : List TypeDecl} {es : List (Nat × List Nat)}
    (hd : Distinct (T ++ ds)) (h : Process T ds T' es) {n : Nat} {ns : List Nat}
    (he : (n, ns) ∈ es) (k : Nat) (params : List Conc) (c : Conc) :
    layout (T ++ ds) k n params ≠ .ok c :=
  layout_circle hd (wayBack_reaches (C63_error_names_a_circle h he)) k n (.inl rfl) params c

end Spade.Decl

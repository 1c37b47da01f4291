import Verif.Decl.Graph

/-! # Layouts of declarations with and without circles (C63) -/

namespace Spade.Decl

open Spade.Check (TSpec TExp)

theorem Res.bind_deeper {α β : Type} {r : Res α} {f : α → Res β} (h : r.bind f = .deeper) :
    r = .deeper ∨ ∃ a, r = .ok a ∧ f a = .deeper := by
  cases r with
  | deeper => exact .inl rfl
  | panic => cases h
  | ok a => exact .inr ⟨a, rfl, h⟩

theorem Res.bind_ok {α β : Type} {r : Res α} {f : α → Res β} {b : β} (h : r.bind f = .ok b) :
    ∃ a, r = .ok a ∧ f a = .ok b := by
  cases r with
  | deeper => cases h
  | panic => cases h
  | ok a => exact ⟨a, rfl, h⟩

/-! ## Enough depth for the mentioned types is enough depth -/

section
variable {D : Nat → List Conc → Res Conc} {σ : String → Option Conc}

mutual
theorem specConc_deeper : ∀ (t : TSpec), (∀ n ∈ names t, ∀ ps, D n ps ≠ .deeper) →
    specConc D σ t ≠ .deeper
  | .declared n ps, h => by
    intro hc
    simp only [specConc] at hc
    rcases Res.bind_deeper hc with hc | ⟨a, _, hc⟩
    · exact argConcs_deeper ps (fun m hm => h m (by simp [names, hm])) hc
    · exact h n (by simp [names]) a hc
  | .generic g, h => by
    intro hc
    simp only [specConc] at hc
    split at hc <;> cases hc
  | .tuple ts, h => by
    intro hc
    simp only [specConc] at hc
    rcases Res.bind_deeper hc with hc | ⟨a, _, hc⟩
    · exact specConcs_deeper ts (fun m hm => h m (by simpa only [names] using hm)) hc
    · cases hc
  | .array t k, h => by
    intro hc
    simp only [specConc] at hc
    rcases Res.bind_deeper hc with hc | ⟨a, _, hc⟩
    · exact expConc_deeper k (fun m hm => h m (by simp [names, hm])) hc
    · split at hc
      · rcases Res.bind_deeper hc with hc | ⟨a, _, hc⟩
        · exact specConc_deeper t (fun m hm => h m (by simp [names, hm])) hc
        · cases hc
      · cases hc
  | .inverted t, h => by
    intro hc
    simp only [specConc] at hc
    rcases Res.bind_deeper hc with hc | ⟨a, _, hc⟩
    · exact specConc_deeper t (fun m hm => h m (by simpa only [names] using hm)) hc
    · cases hc
  | .copyView t, h => by
    intro hc
    simp only [specConc] at hc
    rcases Res.bind_deeper hc with hc | ⟨a, _, hc⟩
    · exact specConc_deeper t (fun m hm => h m (by simpa only [names] using hm)) hc
    · cases hc
  | .wildcard, h => by simp [specConc]
theorem specConcs_deeper : ∀ (ts : List TSpec), (∀ n ∈ namesAll ts, ∀ ps, D n ps ≠ .deeper) →
    specConcs D σ ts ≠ .deeper
  | [], h => by simp [specConcs]
  | t :: ts, h => by
    intro hc
    simp only [specConcs] at hc
    rcases Res.bind_deeper hc with hc | ⟨a, _, hc⟩
    · exact specConc_deeper t (fun m hm => h m (by simp [namesAll, hm])) hc
    · rcases Res.bind_deeper hc with hc | ⟨a, _, hc⟩
      · exact specConcs_deeper ts (fun m hm => h m (by simp [namesAll, hm])) hc
      · cases hc
theorem expConc_deeper : ∀ (e : TExp), (∀ n ∈ expNames e, ∀ ps, D n ps ≠ .deeper) →
    expConc D σ e ≠ .deeper
  | .bool _, h => by simp [expConc]
  | .int _, h => by simp [expConc]
  | .str _, h => by simp [expConc]
  | .spec t, h => by
    simp only [expConc]
    exact specConc_deeper t (fun m hm => h m (by simpa only [expNames] using hm))
  | .const _, h => by simp [expConc]
theorem argConcs_deeper : ∀ (es : List TExp), (∀ n ∈ argNames es, ∀ ps, D n ps ≠ .deeper) →
    argConcs D σ es ≠ .deeper
  | [], h => by simp [argConcs]
  | e :: es, h => by
    intro hc
    simp only [argConcs] at hc
    rcases Res.bind_deeper hc with hc | ⟨a, _, hc⟩
    · exact expConc_deeper e (fun m hm => h m (by simp [argNames, hm])) hc
    · rcases Res.bind_deeper hc with hc | ⟨a, _, hc⟩
      · exact argConcs_deeper es (fun m hm => h m (by simp [argNames, hm])) hc
      · cases hc
end

theorem memberConcs_deeper : ∀ (ms : List (String × TSpec)),
    (∀ m ∈ ms, ∀ n ∈ names m.2, ∀ ps, D n ps ≠ .deeper) → memberConcs D σ ms ≠ .deeper
  | [], h => by simp [memberConcs]
  | m :: ms, h => by
    intro hc
    simp only [memberConcs] at hc
    rcases Res.bind_deeper hc with hc | ⟨a, _, hc⟩
    · exact specConc_deeper m.2 (h m List.mem_cons_self) hc
    · rcases Res.bind_deeper hc with hc | ⟨a, _, hc⟩
      · exact memberConcs_deeper ms (fun m hm => h m (List.mem_cons_of_mem _ hm)) hc
      · cases hc

theorem optionConcs_deeper : ∀ (os : List (String × List (String × TSpec))),
    (∀ o ∈ os, ∀ m ∈ o.2, ∀ n ∈ names m.2, ∀ ps, D n ps ≠ .deeper) → optionConcs D σ os ≠ .deeper
  | [], h => by simp [optionConcs]
  | o :: os, h => by
    intro hc
    simp only [optionConcs] at hc
    rcases Res.bind_deeper hc with hc | ⟨a, _, hc⟩
    · exact memberConcs_deeper o.2 (h o List.mem_cons_self) hc
    · rcases Res.bind_deeper hc with hc | ⟨a, _, hc⟩
      · exact optionConcs_deeper os (fun m hm => h m (List.mem_cons_of_mem _ hm)) hc
      · cases hc

theorem kindConc_deeper (d : TypeDecl) (name : Nat) (params : List Conc)
    (h : ∀ n ∈ d.names, ∀ ps, D n ps ≠ .deeper) : kindConc D σ name params d.kind ≠ .deeper := by
  obtain ⟨nm, kind, ps⟩ := d
  cases kind with
  | prim p => simp [kindConc]
  | enum os =>
    intro hc
    simp only [kindConc] at hc
    rcases Res.bind_deeper hc with hc | ⟨a, _, hc⟩
    · refine optionConcs_deeper os (fun o ho m hm n hn => h n ?_) hc
      simp only [TypeDecl.names, List.mem_flatMap]
      exact ⟨o, ho, m, hm, hn⟩
    · cases hc
  | struct ms =>
    intro hc
    simp only [kindConc] at hc
    rcases Res.bind_deeper hc with hc | ⟨a, _, hc⟩
    · refine memberConcs_deeper ms (fun m hm n hn => h n ?_) hc
      simp only [TypeDecl.names, List.mem_flatMap]
      exact ⟨m, hm, hn⟩
    · cases hc
  | alias t =>
    simp only [kindConc]
    exact specConc_deeper t h

/-! ## A layout has the layouts of all mentioned types in it -/

mutual
theorem specConc_ok : ∀ (t : TSpec) {c : Conc}, specConc D σ t = .ok c →
    ∀ n ∈ names t, ∃ ps a, D n ps = .ok a
  | .declared m ps, c, hc, n, hn => by
    simp only [specConc] at hc
    obtain ⟨a, h1, h2⟩ := Res.bind_ok hc
    simp only [names, List.mem_cons] at hn
    rcases hn with rfl | hn
    · exact ⟨a, c, h2⟩
    · exact argConcs_ok ps h1 n hn
  | .generic g, c, hc, n, hn => by simp [names] at hn
  | .tuple ts, c, hc, n, hn => by
    simp only [specConc] at hc
    obtain ⟨a, h1, h2⟩ := Res.bind_ok hc
    exact specConcs_ok ts h1 n (by simpa only [names] using hn)
  | .array t k, c, hc, n, hn => by
    simp only [specConc] at hc
    obtain ⟨a, h1, h2⟩ := Res.bind_ok hc
    split at h2
    · obtain ⟨b, h2, _⟩ := Res.bind_ok h2
      simp only [names, List.mem_append] at hn
      rcases hn with hn | hn
      · exact specConc_ok t h2 n hn
      · exact expConc_ok k h1 n hn
    · cases h2
  | .inverted t, c, hc, n, hn => by
    simp only [specConc] at hc
    obtain ⟨a, h1, h2⟩ := Res.bind_ok hc
    exact specConc_ok t h1 n (by simpa only [names] using hn)
  | .copyView t, c, hc, n, hn => by
    simp only [specConc] at hc
    obtain ⟨a, h1, h2⟩ := Res.bind_ok hc
    exact specConc_ok t h1 n (by simpa only [names] using hn)
  | .wildcard, c, hc, n, hn => by simp [names] at hn
theorem specConcs_ok : ∀ (ts : List TSpec) {c : List Conc}, specConcs D σ ts = .ok c →
    ∀ n ∈ namesAll ts, ∃ ps a, D n ps = .ok a
  | [], c, hc, n, hn => by simp [namesAll] at hn
  | t :: ts, c, hc, n, hn => by
    simp only [specConcs] at hc
    obtain ⟨a, h1, h2⟩ := Res.bind_ok hc
    obtain ⟨b, h2, _⟩ := Res.bind_ok h2
    simp only [namesAll, List.mem_append] at hn
    rcases hn with hn | hn
    · exact specConc_ok t h1 n hn
    · exact specConcs_ok ts h2 n hn
theorem expConc_ok : ∀ (e : TExp) {c : Conc}, expConc D σ e = .ok c →
    ∀ n ∈ expNames e, ∃ ps a, D n ps = .ok a
  | .bool _, c, hc, n, hn => by simp [expNames] at hn
  | .int _, c, hc, n, hn => by simp [expNames] at hn
  | .str _, c, hc, n, hn => by simp [expNames] at hn
  | .spec t, c, hc, n, hn => by
    simp only [expConc] at hc
    exact specConc_ok t hc n (by simpa only [expNames] using hn)
  | .const _, c, hc, n, hn => by simp [expNames] at hn
theorem argConcs_ok : ∀ (es : List TExp) {c : List Conc}, argConcs D σ es = .ok c →
    ∀ n ∈ argNames es, ∃ ps a, D n ps = .ok a
  | [], c, hc, n, hn => by simp [argNames] at hn
  | e :: es, c, hc, n, hn => by
    simp only [argConcs] at hc
    obtain ⟨a, h1, h2⟩ := Res.bind_ok hc
    obtain ⟨b, h2, _⟩ := Res.bind_ok h2
    simp only [argNames, List.mem_append] at hn
    rcases hn with hn | hn
    · exact expConc_ok e h1 n hn
    · exact argConcs_ok es h2 n hn
end

theorem memberConcs_ok : ∀ (ms : List (String × TSpec)) {c}, memberConcs D σ ms = .ok c →
    ∀ m ∈ ms, ∀ n ∈ names m.2, ∃ ps a, D n ps = .ok a
  | [], c, hc, m, hm, n, hn => by simp at hm
  | m' :: ms, c, hc, m, hm, n, hn => by
    simp only [memberConcs] at hc
    obtain ⟨a, h1, h2⟩ := Res.bind_ok hc
    obtain ⟨b, h2, _⟩ := Res.bind_ok h2
    rcases List.mem_cons.mp hm with rfl | hm
    · exact specConc_ok _ h1 n hn
    · exact memberConcs_ok ms h2 m hm n hn

theorem optionConcs_ok : ∀ (os : List (String × List (String × TSpec))) {c},
    optionConcs D σ os = .ok c → ∀ o ∈ os, ∀ m ∈ o.2, ∀ n ∈ names m.2, ∃ ps a, D n ps = .ok a
  | [], c, hc, o, ho, m, hm, n, hn => by simp at ho
  | o' :: os, c, hc, o, ho, m, hm, n, hn => by
    simp only [optionConcs] at hc
    obtain ⟨a, h1, h2⟩ := Res.bind_ok hc
    obtain ⟨b, h2, _⟩ := Res.bind_ok h2
    rcases List.mem_cons.mp ho with rfl | ho
    · exact memberConcs_ok _ h1 m hm n hn
    · exact optionConcs_ok os h2 o ho m hm n hn

theorem kindConc_ok (d : TypeDecl) (name : Nat) (params : List Conc) {c : Conc}
    (h : kindConc D σ name params d.kind = .ok c) : ∀ n ∈ d.names, ∃ ps a, D n ps = .ok a := by
  obtain ⟨nm, kind, ps⟩ := d
  intro n hn
  cases kind with
  | prim p => simp [TypeDecl.names] at hn
  | enum os =>
    simp only [kindConc] at h
    obtain ⟨a, h1, h2⟩ := Res.bind_ok h
    simp only [TypeDecl.names, List.mem_flatMap] at hn
    obtain ⟨o, ho, m, hm, hn⟩ := hn
    exact optionConcs_ok os h1 o ho m hm n hn
  | struct ms =>
    simp only [kindConc] at h
    obtain ⟨a, h1, h2⟩ := Res.bind_ok h
    simp only [TypeDecl.names, List.mem_flatMap] at hn
    obtain ⟨m, hm, hn⟩ := hn
    exact memberConcs_ok ms h1 m hm n hn
  | alias t =>
    simp only [kindConc] at h
    exact specConc_ok t h n hn
end

/-! ## Declarations -/

/-- Without circles, some depth is enough for all declarations and arguments. -/
theorem layout_ends {T : List TypeDecl} (h : NoCircle T) :
    ∃ K, ∀ k, K ≤ k → ∀ n params, layout T k n params ≠ .deeper := by
  obtain ⟨r, hr⟩ := exists_rank h
  obtain ⟨b, hb⟩ := exists_bound r (T.map (·.name))
  have key : ∀ k n, r n < k → ∀ params, layout T k n params ≠ .deeper := by
    intro k
    induction k with
    | zero => intro n hn; omega
    | succ k ih =>
      intro n hn params
      rw [layout]
      cases hf : find T n with
      | none => simp
      | some d =>
        obtain ⟨hd, hdn⟩ := find_mem hf
        simp only
        split
        · apply kindConc_deeper
          intro m hm
          have := hr n m ⟨d, hd, hdn, decl_names.mp hm⟩
          exact ih m (by omega)
        · simp
  refine ⟨b + 1, fun k hk n params => ?_⟩
  by_cases hn : n ∈ T.map (·.name)
  · exact key k n (by have := hb n hn; omega) params
  · obtain ⟨k, rfl⟩ : ∃ j, k = j + 1 := ⟨k - 1, by omega⟩
    rw [layout]
    have : find T n = none := by
      cases hf : find T n with
      | none => rfl
      | some d =>
        obtain ⟨hd, hdn⟩ := find_mem hf
        exact absurd (List.mem_map.mpr ⟨d, hd, hdn⟩) hn
    simp [this]

/-- A declaration with a layout mentions only declarations with a layout. -/
theorem layout_uses {T : List TypeDecl} (hT : Distinct T) {k n m : Nat} {params : List Conc}
    {c : Conc} (h : layout T (k + 1) n params = .ok c) (hu : Uses T n m) :
    ∃ ps a, layout T k m ps = .ok a := by
  rw [layout] at h
  obtain ⟨d, hf, hm⟩ := (uses_find hT).mp hu
  rw [hf] at h
  simp only at h
  split at h
  · exact kindConc_ok d _ _ h m hm
  · cases h

/-- A declaration that leads into a circle has no layout. -/
theorem layout_circle {T : List TypeDecl} (hT : Distinct T) {a : Nat} (ha : Reaches T a a) :
    ∀ (k n : Nat), (n = a ∨ Reaches T n a) → ∀ params c, layout T k n params ≠ .ok c
  | 0, n, _, params, c => by simp [layout]
  | k + 1, n, hn, params, c => by
    intro h
    have hr : Reaches T n a := by
      rcases hn with rfl | hn
      · exact ha
      · exact hn
    cases hr with
    | one hu =>
      obtain ⟨ps, b, hb⟩ := layout_uses hT h hu
      exact layout_circle hT ha k a (.inl rfl) ps b hb
    | more hu hr =>
      obtain ⟨ps, b, hb⟩ := layout_uses hT h hu
      exact layout_circle hT ha k _ (.inr hr) ps b hb

end Spade.Decl

import Verif.Super.Search

/-! # The bounds of generic parameters (C70) -/

namespace Spade.Super

/-- All the traits named by bounds are declared. -/
def Known (T : List Trait) (bs : List Bound) : Prop := ∀ b ∈ bs, ∃ d ∈ T, d.name = b.name

/-! ## The loop ends -/

/-- The supertraits of a trait by its name. -/
def supersOf (T : List Trait) (n : Nat) : List Bound := ((find T n).map (·.supers)).getD []

/-- What the bounds not seen can still add to the queue. -/
def cost (T : List Trait) (seen : List Bound) : List Bound → Nat
  | [] => 0
  | u :: us => (if u ∈ seen then 0 else 1 + (supersOf T u.name).length) + cost T seen us

theorem cost_seen {T : List Trait} {seen : List Bound} {s : Bound} (hs : s ∉ seen) :
    ∀ {U : List Bound}, cost T (s :: seen) U ≤ cost T seen U ∧
    (s ∈ U → cost T (s :: seen) U + 1 + (supersOf T s.name).length ≤ cost T seen U)
  | [] => by simp [cost]
  | u :: U => by
    obtain ⟨h1, h2⟩ := cost_seen (T := T) hs (U := U)
    by_cases hu : u = s
    · subst hu
      simp only [cost, List.mem_cons, true_or, if_true, if_neg hs]
      exact ⟨by omega, fun _ => by omega⟩
    · have hne : s ≠ u := fun h => hu h.symm
      simp only [cost, List.mem_cons, hu, hne, false_or]
      by_cases hin : u ∈ seen
      · simp only [if_pos hin]
        exact ⟨by omega, fun h => by have := h2 h; omega⟩
      · simp only [if_neg hin]
        exact ⟨by omega, fun h => by have := h2 h; omega⟩

theorem find_known {T : List Trait} {n : Nat} (h : ∃ d ∈ T, d.name = n) : ∃ d, find T n = some d := by
  obtain ⟨d, hd, hn⟩ := h
  cases hf : find T n with
  | some e => exact ⟨e, rfl⟩
  | none =>
    simp only [find, List.find?_eq_none] at hf
    exact absurd (by simpa using hn) (hf d hd)

/-- The supertraits of the known traits. -/
def superBounds (T : List Trait) : List Bound := T.flatMap (·.supers)

theorem expand_ends {T : List Trait} (hT : Known T (superBounds T)) {U : List Bound}
    (hU : ∀ b ∈ superBounds T, b ∈ U) : ∀ (k : Nat) (queue seen : List Bound), (∀ b ∈ queue, b ∈ U) →
    Known T queue → queue.length + cost T seen U < k → ∃ r, expandBounds T k queue seen = some r
  | 0, _, _, _, _, h => by omega
  | k + 1, [], seen, _, _, _ => ⟨seen, rfl⟩
  | k + 1, s :: queue, seen, hq, hk, h => by
    simp only [List.length_cons] at h
    rw [expandBounds]
    by_cases hs : s ∈ seen
    · rw [if_pos hs]
      exact expand_ends hT hU k queue seen (fun b hb => hq b (List.mem_cons_of_mem _ hb))
        (fun b hb => hk b (List.mem_cons_of_mem _ hb)) (by omega)
    · rw [if_neg hs]
      obtain ⟨d, hd⟩ := find_known (hk s List.mem_cons_self)
      have hsup : ∀ b ∈ d.supers, b ∈ superBounds T := fun b hb =>
        List.mem_flatMap.2 ⟨d, (find_mem hd).1, hb⟩
      have hc := (cost_seen (T := T) hs (U := U)).2 (hq s List.mem_cons_self)
      have hl : (supersOf T s.name).length = d.supers.length := by simp [supersOf, hd]
      simp only [hd]
      refine expand_ends hT hU k _ _ (fun b hb => ?_) (fun b hb => ?_)
        (by rw [List.length_append]; omega)
      · rcases List.mem_append.1 hb with hb | hb
        · exact hq b (List.mem_cons_of_mem _ hb)
        · exact hU b (hsup b hb)
      · rcases List.mem_append.1 hb with hb | hb
        · exact hk b (List.mem_cons_of_mem _ hb)
        · exact hT b (hsup b hb)

/-! ## What it finds -/

/-- What the loop finds, without the parameters of traits replaced. -/
inductive Found (T : List Trait) (bs : List Bound) : Bound → Prop
  | given {b : Bound} : b ∈ bs → Found T bs b
  | super {b s : Bound} {d : Trait} : Found T bs b → find T b.name = some d → s ∈ d.supers → Found T bs s

theorem expand_sound {T : List Trait} {bs : List Bound} : ∀ {k : Nat} {queue seen r : List Bound},
    (∀ b ∈ queue, Found T bs b) → (∀ b ∈ seen, Found T bs b) →
    expandBounds T k queue seen = some r → ∀ b ∈ r, Found T bs b
  | 0, _, _, _, _, _, h => by simp [expandBounds] at h
  | k + 1, [], seen, r, _, hs, h => by
    simp only [expandBounds, Option.some.injEq] at h
    exact h ▸ hs
  | k + 1, s :: queue, seen, r, hq, hs, h => by
    rw [expandBounds] at h
    split at h
    · exact expand_sound (fun b hb => hq b (List.mem_cons_of_mem _ hb)) hs h
    · cases hd : find T s.name with
      | none => simp [hd] at h
      | some d =>
        simp only [hd] at h
        refine expand_sound (fun b hb => ?_) (fun b hb => ?_) h
        · rcases List.mem_append.1 hb with hb | hb
          · exact hq b (List.mem_cons_of_mem _ hb)
          · exact .super (hq s List.mem_cons_self) hd hb
        · rcases List.mem_cons.1 hb with rfl | hb
          · exact hq _ List.mem_cons_self
          · exact hs b hb

theorem expand_complete {T : List Trait} : ∀ {k : Nat} {queue seen r : List Bound},
    (∀ b ∈ seen, ∀ d, find T b.name = some d → ∀ s ∈ d.supers, s ∈ seen ∨ s ∈ queue) →
    expandBounds T k queue seen = some r →
    (∀ b, b ∈ queue ∨ b ∈ seen → b ∈ r) ∧
      ∀ b ∈ r, ∀ d, find T b.name = some d → ∀ s ∈ d.supers, s ∈ r
  | 0, _, _, _, _, h => by simp [expandBounds] at h
  | k + 1, [], seen, r, hs, h => by
    simp only [expandBounds, Option.some.injEq] at h
    subst h
    exact ⟨fun b hb => hb.resolve_left (by simp), fun b hb d hd s hsup =>
      (hs b hb d hd s hsup).resolve_right (by simp)⟩
  | k + 1, s :: queue, seen, r, hs, h => by
    rw [expandBounds] at h
    split at h
    · next hin =>
      obtain ⟨h1, h2⟩ := expand_complete (fun b hb d hd t ht => by
        rcases hs b hb d hd t ht with h | h
        · exact .inl h
        · rcases List.mem_cons.1 h with rfl | h
          · exact .inl hin
          · exact .inr h) h
      refine ⟨fun b hb => ?_, h2⟩
      rcases hb with hb | hb
      · rcases List.mem_cons.1 hb with rfl | hb
        · exact h1 _ (.inr hin)
        · exact h1 _ (.inl hb)
      · exact h1 _ (.inr hb)
    · cases hd : find T s.name with
      | none => simp [hd] at h
      | some d =>
        simp only [hd] at h
        obtain ⟨h1, h2⟩ := expand_complete (fun b hb e he t ht => by
          rcases List.mem_cons.1 hb with rfl | hb
          · rw [hd] at he
            cases he
            exact .inr (List.mem_append.2 (.inr ht))
          · rcases hs b hb e he t ht with h | h
            · exact .inl (List.mem_cons_of_mem _ h)
            · rcases List.mem_cons.1 h with rfl | h
              · exact .inl List.mem_cons_self
              · exact .inr (List.mem_append.2 (.inl h))) h
        refine ⟨fun b hb => ?_, h2⟩
        rcases hb with hb | hb
        · rcases List.mem_cons.1 hb with rfl | hb
          · exact h1 _ (.inr List.mem_cons_self)
          · exact h1 _ (.inl (List.mem_append.2 (.inl hb)))
        · exact h1 _ (.inr (List.mem_cons_of_mem _ hb))

theorem all_iff {T : List Trait} {k : Nat} {bs r : List Bound} (h : allBounds T k bs = some r) (b : Bound) :
    b ∈ r ↔ Found T bs b := by
  simp only [allBounds, Option.map_eq_some_iff] at h
  obtain ⟨r', h, rfl⟩ := h
  obtain ⟨h1, h2⟩ := expand_complete (by simp) h
  have hs := expand_sound (bs := bs) (fun b hb => .given hb) (by simp) h
  constructor
  · intro hb
    rcases List.mem_append.1 hb with hb | hb
    · exact hs b hb
    · exact .given hb
  · intro hb
    refine List.mem_append.2 (.inl ?_)
    induction hb with
    | given hb => exact h1 _ (.inl hb)
    | super _ hd hm ih => exact h2 _ ih _ hd _ hm

/-- Arguments without parameters stay. -/
theorem subst_closed {ps : List (Nat × Arg)} : ∀ {as : List Arg}, (∀ a ∈ as, ∃ t, a = .type t) →
    as.map (Arg.subst ps) = as
  | [], _ => rfl
  | a :: as, h => by
    obtain ⟨t, rfl⟩ := h _ List.mem_cons_self
    simp [Arg.subst, subst_closed fun a ha => h a (List.mem_cons_of_mem _ ha)]

theorem found_iff_required {T : List Trait} (hd : Distinct T) (hp : NoParams T) {bs : List Bound}
    {b : Bound} : Found T bs b ↔ Required T bs b := by
  constructor
  · intro h
    induction h with
    | given hb => exact .given hb
    | @super b s d _ hf hs ih =>
      obtain ⟨h1, h2⟩ := find_mem hf
      have := Required.super ih h1 h2 hs
      rwa [subst_closed (hp d h1 s hs)] at this
  · intro h
    induction h with
    | given hb => exact .given hb
    | @super b s d _ hd' hn hs ih =>
      rw [subst_closed (hp d hd' s hs)]
      exact .super ih (hn ▸ find_of_mem hd hd') hs

/-- Parameters or not, the names are right. -/
theorem found_names {T : List Trait} (hd : Distinct T) {bs : List Bound} (n : Nat) :
    (∃ b, Found T bs b ∧ b.name = n) ↔ ∃ b, Required T bs b ∧ b.name = n := by
  constructor
  · rintro ⟨b, h, rfl⟩
    induction h with
    | given hb => exact ⟨_, .given hb, rfl⟩
    | @super b s d _ hf hs ih =>
      obtain ⟨c, hc, hcn⟩ := ih
      obtain ⟨h1, h2⟩ := find_mem hf
      exact ⟨_, .super hc h1 (h2.trans hcn.symm) hs, rfl⟩
  · rintro ⟨b, h, rfl⟩
    induction h with
    | given hb => exact ⟨_, .given hb, rfl⟩
    | @super b s d _ hd' hn hs ih =>
      obtain ⟨c, hc, hcn⟩ := ih
      exact ⟨s, .super hc (hcn ▸ hn ▸ find_of_mem hd hd') hs, rfl⟩

/-! ## Types of arguments -/

theorem mapM_total {α β : Type} {f : α → Option β} : ∀ {l : List α}, (∀ a ∈ l, ∃ b, f a = some b) →
    ∃ r, l.mapM f = some r
  | [], _ => ⟨[], rfl⟩
  | a :: l, h => by
    obtain ⟨b, hb⟩ := h a List.mem_cons_self
    obtain ⟨r, hr⟩ := mapM_total fun a ha => h a (List.mem_cons_of_mem _ ha)
    exact ⟨b :: r, by simp [List.mapM_cons, hb, hr]⟩

theorem mapM_mem {α β : Type} {f : α → Option β} {b : β} : ∀ {l : List α} {r : List β},
    l.mapM f = some r → (b ∈ r ↔ ∃ a ∈ l, f a = some b)
  | [], r, h => by simp [List.mapM_nil] at h; subst h; simp
  | a :: l, r, h => by
    simp only [List.mapM_cons, Option.bind_eq_bind, Option.bind_eq_some_iff, Option.pure_def,
      Option.some.injEq] at h
    obtain ⟨b', hb', r', hr', rfl⟩ := h
    simp only [List.mem_cons, mapM_mem hr', exists_eq_or_imp, hb', Option.some.injEq]
    exact or_congr eq_comm Iff.rfl

theorem args_iff {G : Nat → Option Nat} : ∀ {as : List Arg} {ts : List Nat},
    as.mapM (visitArg G) = some ts ↔ ArgTypes G as ts
  | [], ts => by cases ts <;> simp [ArgTypes]
  | a :: as, ts => by
    have ih := fun ts => args_iff (G := G) (as := as) (ts := ts)
    have key : (a :: as).mapM (visitArg G) = some ts ↔
        ∃ t, visitArg G a = some t ∧ ∃ us, ArgTypes G as us ∧ t :: us = ts := by
      simp only [List.mapM_cons, Option.bind_eq_bind, Option.bind_eq_some_iff, Option.pure_def,
        Option.some.injEq, ih]
    rw [key]
    cases ts with
    | nil => cases a <;> simp [ArgTypes]
    | cons t ts =>
      cases a <;> simp only [ArgTypes, visitArg, List.cons.injEq, Option.some.injEq]
      · exact ⟨fun ⟨_, h1, _, h2, h3, h4⟩ => ⟨h3 ▸ h1, h4 ▸ h2⟩, fun h => ⟨_, h.1, _, h.2, rfl, rfl⟩⟩
      · exact ⟨fun ⟨_, h1, _, h2, h3, h4⟩ => ⟨h1.trans h3, h4 ▸ h2⟩, fun h => ⟨_, h.1, _, h.2, rfl, rfl⟩⟩

theorem visit_total {G : Nat → Option Nat} {as : List Arg} (h : ∃ ts, ArgTypes G as ts) :
    ∀ a ∈ as, ∃ t, visitArg G a = some t := by
  obtain ⟨ts, h⟩ := h
  intro a ha
  induction as generalizing ts with
  | nil => simp at ha
  | cons b as ih =>
    cases ts with
    | nil => cases b <;> simp [ArgTypes] at h
    | cons t ts =>
      rcases List.mem_cons.1 ha with rfl | ha'
      · cases a with
        | generic n => exact ⟨t, h.1⟩
        | type u => exact ⟨u, rfl⟩
      · cases b with
        | generic n => exact ih ts h.2 ha'
        | type u => exact ih ts h.2 ha'

/-- The given bounds and those found use only parameters with an entry. -/
theorem found_args {T : List Trait} (hp : NoParams T) {G : Nat → Option Nat} {bs : List Bound}
    (hG : ∀ b ∈ bs, ∀ a ∈ b.args, ∃ t, visitArg G a = some t) {b : Bound} (h : Found T bs b) :
    ∀ a ∈ b.args, ∃ t, visitArg G a = some t := by
  cases h with
  | given hb => exact hG b hb
  | super _ hf hs =>
    intro a ha
    obtain ⟨t, rfl⟩ := hp _ (find_mem hf).1 _ hs a ha
    exact ⟨t, rfl⟩

end Spade.Super

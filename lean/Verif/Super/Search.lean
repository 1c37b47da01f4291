import Verif.Super.Model

/-! # The search for circles of supertraits ends and is right (C70) -/

namespace Spade.Super

/-! ## Circles -/

theorem HasSuper.mono {T T' : List Trait} (h : ∀ d ∈ T, d ∈ T') {a b : Nat} (hu : HasSuper T a b) :
    HasSuper T' a b := by
  obtain ⟨d, hd, hu⟩ := hu
  exact ⟨d, h d hd, hu⟩

theorem Below.mono {T T' : List Trait} (h : ∀ d ∈ T, d ∈ T') {a b : Nat} (hr : Below T a b) :
    Below T' a b := by
  induction hr with
  | one hu => exact .one (hu.mono h)
  | more hu _ ih => exact .more (hu.mono h) ih

theorem NoCircle.mono {T T' : List Trait} (h : ∀ d ∈ T, d ∈ T') (hn : NoCircle T') : NoCircle T :=
  fun a hr => hn a (hr.mono h)

theorem Below.trans {T : List Trait} {a b c : Nat} (h : Below T a b) (h' : Below T b c) :
    Below T a c := by
  induction h with
  | one hu => exact .more hu h'
  | more hu _ ih => exact .more hu (ih h')

theorem hasSuper_cons {T : List Trait} {d : Trait} {a b : Nat} (h : HasSuper (d :: T) a b) :
    (a = d.name ∧ b ∈ d.supers.map (·.name)) ∨ HasSuper T a b := by
  obtain ⟨e, he, hn, s, hs, hb⟩ := h
  rcases List.mem_cons.mp he with rfl | he
  · exact .inl ⟨hn.symm, List.mem_map.2 ⟨s, hs, hb⟩⟩
  · exact .inr ⟨e, he, hn, s, hs, hb⟩

theorem below_cons {T : List Trait} {d : Trait} {a b : Nat} (h : Below (d :: T) a b) :
    Below T a b ∨ ((a = d.name ∨ Below (d :: T) a d.name) ∧ Below (d :: T) d.name b) := by
  induction h with
  | one hu =>
    rcases hasSuper_cons hu with ⟨rfl, hm⟩ | hu'
    · exact .inr ⟨.inl rfl, .one hu⟩
    · exact .inl (.one hu')
  | more hu hr ih =>
    rcases hasSuper_cons hu with ⟨rfl, hm⟩ | hu'
    · exact .inr ⟨.inl rfl, .more hu hr⟩
    · rcases ih with ih | ⟨ih1, ih2⟩
      · exact .inl (.more hu' ih)
      · refine .inr ⟨.inr ?_, ih2⟩
        rcases ih1 with rfl | ih1
        · exact .one hu
        · exact .more hu ih1

theorem noCircle_cons {T : List Trait} {d : Trait} (hT : NoCircle T)
    (hd : ¬ Below (d :: T) d.name d.name) : NoCircle (d :: T) := by
  intro a ha
  rcases below_cons ha with h | ⟨h1, h2⟩
  · exact hT a h
  · rcases h1 with rfl | h1
    · exact hd ha
    · exact hd (h2.trans h1)

theorem noCircle_nil : NoCircle [] := by
  intro a h
  cases h with
  | one hu => obtain ⟨d, hd, _⟩ := hu; simp at hd
  | more hu _ => obtain ⟨d, hd, _⟩ := hu; simp at hd

theorem wayUp_below {ds : List Trait} {b : Nat} : ∀ {a : Nat} {ns : List Nat},
    WayUp ds b a ns → Below ds b a
  | _, [], h => .one h
  | _, _ :: _, h => (wayUp_below h.2).trans (.one h.1)

theorem find_mem {T : List Trait} {n : Nat} {d : Trait} (h : find T n = some d) :
    d ∈ T ∧ d.name = n := by
  have h2 := List.find?_some h
  exact ⟨List.mem_of_find?_eq_some h, by simpa using h2⟩

theorem find_of_mem : ∀ {T : List Trait} {d : Trait}, Distinct T → d ∈ T → find T d.name = some d
  | e :: T, d, hT, hd => by
    obtain ⟨h1, h2⟩ := List.nodup_cons.mp hT
    rcases List.mem_cons.mp hd with rfl | hd
    · simp [find]
    · have hne : e.name ≠ d.name := fun h => h1 (List.mem_map.mpr ⟨d, hd, h.symm⟩)
      have := find_of_mem h2 hd
      simp only [find] at this
      simp only [find, List.find?_cons, beq_eq_false_iff_ne.mpr hne, this]

/-! ## Adding names -/

/-- One addition keeps a property of searches if putting in a name that was not seen does. -/
theorem keeps_add {P : Search → Prop} {p : Nat} : ∀ {ns : List Nat} {s : Search},
    (∀ s n, P s → n ∈ ns → s.edges n = none → P (s.put p n)) → P s → P (ns.foldl (Search.add p) s)
  | [], _, _, hs => hs
  | n :: ns, s, h, hs => by
    simp only [List.foldl_cons]
    refine keeps_add (fun s m hs hm => h s m hs (List.mem_cons_of_mem _ hm)) ?_
    simp only [Search.add]
    cases he : s.edges n with
    | none => simpa using h s n hs List.mem_cons_self he
    | some q => simpa using hs

theorem seen_add {p m : Nat} : ∀ {ns : List Nat} {s : Search},
    ((ns.foldl (Search.add p) s).edges m).isSome ↔ (s.edges m).isSome ∨ m ∈ ns
  | [], s => by simp
  | n :: ns, s => by
    simp only [List.foldl_cons]
    rw [seen_add, List.mem_cons, ← or_assoc]
    refine or_congr ?_ Iff.rfl
    simp only [Search.add]
    cases he : s.edges n with
    | none =>
      by_cases hm : m = n
      · simp [Search.put, hm]
      · simp [Search.put, hm]
    | some q =>
      by_cases hm : m = n
      · simp [hm, he]
      · simp [hm]

theorem edge_keep {p m q : Nat} : ∀ {ns : List Nat} {s : Search}, s.edges m = some q →
    (ns.foldl (Search.add p) s).edges m = some q
  | [], _, h => h
  | n :: ns, s, h => by
    simp only [List.foldl_cons]
    refine edge_keep ?_
    simp only [Search.add]
    cases he : s.edges n with
    | none =>
      have hm : m ≠ n := fun e => by rw [e, he] at h; cases h
      simpa [Search.put, hm] using h
    | some _ => simpa using h

theorem mem_pending_add {p m : Nat} {ns : List Nat} {s : Search} :
    m ∈ (ns.foldl (Search.add p) s).pending ↔ m ∈ s.pending ∨ (m ∈ ns ∧ s.edges m = none) := by
  induction ns generalizing s with
  | nil => simp
  | cons n ns ih =>
    simp only [List.foldl_cons]
    rw [ih]
    simp only [Search.add]
    cases he : s.edges n with
    | none =>
      by_cases hm : m = n
      · subst hm; simp [Search.put, he]
      · simp [Search.put, hm]
    | some q =>
      by_cases hm : m = n
      · subst hm; simp [he]
      · simp [hm]

theorem mem_pending_put {p m : Nat} : ∀ {ns : List Nat} {s : Search},
    m ∈ (ns.foldl (Search.put p) s).pending ↔ m ∈ s.pending ∨ m ∈ ns
  | [], s => by simp
  | n :: ns, s => by
    simp only [List.foldl_cons]
    rw [mem_pending_put]
    simp [Search.put, or_assoc, or_left_comm]

theorem edges_put {p m : Nat} : ∀ {ns : List Nat} {s : Search},
    (ns.foldl (Search.put p) s).edges m = if m ∈ ns then some p else s.edges m
  | [], s => by simp
  | n :: ns, s => by
    simp only [List.foldl_cons]
    rw [edges_put]
    by_cases h1 : m ∈ ns
    · simp [h1]
    · by_cases h2 : m = n
      · simp [h1, h2, Search.put]
      · simp [h1, h2, Search.put]

theorem start_edges {d : Trait} {m : Nat} :
    (Search.start d).edges m = if m ∈ d.supers.map (·.name) then some d.name else none := by
  simp [Search.start, edges_put]

theorem start_pending {d : Trait} {m : Nat} :
    m ∈ (Search.start d).pending ↔ m ∈ d.supers.map (·.name) := by
  simp [Search.start, mem_pending_put]

/-! ## The loop ends -/

/-- The names not seen. -/
def unseen (edges : Nat → Option Nat) (U : List Nat) : Nat := (U.filter fun n => (edges n).isNone).length

theorem unseen_put {edges : Nat → Option Nat} {n p : Nat} (hn : edges n = none) : ∀ {U : List Nat},
    unseen (fun m => if m = n then some p else edges m) U ≤ unseen edges U ∧
    (n ∈ U → unseen (fun m => if m = n then some p else edges m) U < unseen edges U)
  | [] => by simp [unseen]
  | u :: U => by
    obtain ⟨h1, h2⟩ := unseen_put (edges := edges) (p := p) hn (U := U)
    simp only [unseen] at h1 h2 ⊢
    by_cases hu : u = n
    · subst hu
      simp only [List.filter_cons, hn, if_true, Option.isNone_some, Option.isNone_none,
        List.length_cons, Bool.false_eq_true, if_false]
      exact ⟨by omega, fun _ => by omega⟩
    · have hne : n ≠ u := fun h => hu h.symm
      simp only [List.filter_cons, if_neg hu, List.mem_cons, hne, false_or]
      cases (edges u).isNone
      · simpa using ⟨h1, h2⟩
      · simpa using ⟨h1, h2⟩

theorem size_insert {l : List Nat} {n : Nat} : (l.insert n).length ≤ l.length + 1 := by
  by_cases hn : n ∈ l
  · rw [List.insert_of_mem hn]; omega
  · rw [List.insert_of_not_mem hn]; simp

/-- The supertraits of the known traits. -/
def superNames (T : List Trait) : List Nat := T.flatMap fun d => d.supers.map (·.name)

/-- However names are taken out, the loop cannot go on for ever. -/
theorem step_acc (T : List Trait) (self : Nat) (s : Search) : Acc (fun s' s => Step T self s s') s := by
  suffices ∀ k (s : Search), unseen s.edges (superNames T) + s.pending.length < k →
      Acc (fun s' s => Step T self s s') s from this _ s (Nat.lt_succ_self _)
  intro k
  induction k with
  | zero => intro s hs; omega
  | succ k ih =>
    intro s hs
    refine ⟨_, fun s' hst => ih s' ?_⟩
    cases hst with
    | @mk n hn hne =>
      have hlen : (s.pending.erase n).length + 1 = s.pending.length := by
        rw [List.length_erase_of_mem hn]
        have := List.length_pos_of_mem hn
        omega
      suffices h : unseen (Search.expand T ⟨s.pending.erase n, s.edges⟩ n).edges (superNames T) +
          (Search.expand T ⟨s.pending.erase n, s.edges⟩ n).pending.length < k from h
      simp only [Search.expand]
      cases hf : find T n with
      | none => simp only; omega
      | some d =>
        refine keeps_add (P := fun s => unseen s.edges (superNames T) + s.pending.length < k)
          (fun s m hs hm he => ?_) (by simp only; omega)
        have hU : m ∈ superNames T := List.mem_flatMap.2 ⟨d, (find_mem hf).1, hm⟩
        have h1 := (unseen_put (p := n) he).2 hU
        have h2 := size_insert (l := s.pending) (n := m)
        simp only [Search.put]
        omega

/-! ## What the search knows -/

theorem notes_put {edges : Nat → Option Nat} {self p n : Nat} (hn : edges n = none) :
    ∀ {k cur : Nat} {ns : List Nat}, notes edges self k cur = some ns →
    notes (fun m => if m = n then some p else edges m) self k cur = some ns
  | 0, _, _, h => by simp [notes] at h
  | k + 1, cur, ns, h => by
    simp only [notes, Option.bind_eq_bind, Option.bind_eq_some_iff] at h ⊢
    obtain ⟨q, hq, h⟩ := h
    have hne : cur ≠ n := fun e => by rw [e, hn] at hq; cases hq
    refine ⟨q, by simpa [hne] using hq, ?_⟩
    split at h
    · next e => simpa [e] using h
    · next e =>
      simp only [Option.map_eq_some_iff] at h
      obtain ⟨ns', h', rfl⟩ := h
      simp [e, notes_put hn h']

/-- What holds of the two collections during the search for the trait `d`. -/
structure Inv (T : List Trait) (d : Trait) (s : Search) : Prop where
  edge : ∀ n ∈ s.pending, ∃ p, s.edges n = some p
  real : ∀ n p, s.edges n = some p → HasSuper (d :: T) p n
  back : ∀ n p, s.edges n = some p → ∃ k ns, notes s.edges d.name k n = some ns
  first : ∀ n ∈ d.supers.map (·.name), ∃ p, s.edges n = some p
  closed : ∀ n p, s.edges n = some p → n ∈ s.pending ∨ (n ≠ d.name ∧
    ∀ e, find T n = some e → ∀ m ∈ e.supers.map (·.name), ∃ q, s.edges m = some q)

theorem Inv.start {T : List Trait} (d : Trait) : Inv T d (.start d) where
  edge n hn := ⟨d.name, by rw [start_edges, if_pos (start_pending.1 hn)]⟩
  real n p h := by
    rw [start_edges] at h
    split at h
    · next hn =>
      cases h
      obtain ⟨s, hs, rfl⟩ := List.mem_map.1 hn
      exact ⟨d, List.mem_cons_self, rfl, s, hs, rfl⟩
    · cases h
  back n p h := by
    refine ⟨1, [], ?_⟩
    have : p = d.name := by
      rw [start_edges] at h
      split at h
      · cases h; rfl
      · cases h
    simp [notes, h, this]
  first n hn := ⟨d.name, by rw [start_edges, if_pos hn]⟩
  closed n p h := by
    rw [start_edges] at h
    split at h
    · next hn => exact .inl (start_pending.2 hn)
    · cases h

theorem Inv.step {T : List Trait} {d : Trait} {s s' : Search} (h : Inv T d s)
    (hs : Step T d.name s s') : Inv T d s' := by
  cases hs with
  | @mk n hn hne =>
    have hmem : ∀ m, m ∈ s.pending.erase n → m ∈ s.pending := fun m => List.mem_of_mem_erase
    have hcase : ∀ m, m ∈ s.pending → m = n ∨ m ∈ s.pending.erase n := fun m hm => by
      by_cases e : m = n
      · exact .inl e
      · exact .inr ((List.mem_erase_of_ne e).2 hm)
    simp only [Search.expand]
    cases hf : find T n with
    | none =>
      refine ⟨fun m hm => h.edge m (hmem m hm), h.real, h.back, h.first, fun m p hp => ?_⟩
      rcases h.closed m p hp with hm | hm
      · rcases hcase m hm with rfl | hm
        · exact .inr ⟨hne, fun e he => by rw [hf] at he; cases he⟩
        · exact .inl hm
      · exact .inr hm
    | some e =>
      obtain ⟨he, hen⟩ := find_mem hf
      have hsome : ∀ m, (∃ q, s.edges m = some q) → ∃ q, ((e.supers.map (·.name)).foldl (Search.add n)
          ⟨s.pending.erase n, s.edges⟩).edges m = some q := fun m ⟨q, hq⟩ => ⟨q, edge_keep hq⟩
      have hnew : ∀ m ∈ e.supers.map (·.name), ∃ q, ((e.supers.map (·.name)).foldl (Search.add n)
          ⟨s.pending.erase n, s.edges⟩).edges m = some q := fun m hm =>
        Option.isSome_iff_exists.1 (seen_add.2 (.inr hm))
      have hrb := keeps_add (p := n) (ns := e.supers.map (·.name)) (s := ⟨s.pending.erase n, s.edges⟩)
        (P := fun s => (∃ q, s.edges n = some q) ∧ (∀ n p, s.edges n = some p → HasSuper (d :: T) p n) ∧
          ∀ n p, s.edges n = some p → ∃ k ns, notes s.edges d.name k n = some ns)
        (fun t m ⟨⟨q, hq⟩, hr, hb⟩ hm hnone => by
          have hnm : n ≠ m := fun e => by rw [e, hnone] at hq; cases hq
          refine ⟨⟨q, by simpa [Search.put, hnm] using hq⟩, fun a p hp => ?_, fun a p hp => ?_⟩
          · simp only [Search.put] at hp
            split at hp
            · next ea =>
              cases hp
              obtain ⟨b, hb, hb'⟩ := List.mem_map.1 hm
              exact ⟨e, List.mem_cons_of_mem _ he, hen, b, hb, by rw [ea]; exact hb'⟩
            · exact hr a p hp
          · simp only [Search.put] at hp ⊢
            split at hp
            · next ea =>
              cases hp
              obtain ⟨k, ns, hk⟩ := hb n q hq
              refine ⟨k + 1, n :: ns, ?_⟩
              rw [notes]
              simp [ea, hne, notes_put hnone hk]
            · obtain ⟨k, ns, hk⟩ := hb a p hp
              exact ⟨k, ns, notes_put hnone hk⟩)
        ⟨h.edge n hn, h.real, h.back⟩
      refine ⟨fun m hm => ?_, hrb.2.1, hrb.2.2, fun m hm => hsome m (h.first m hm), fun m p hp => ?_⟩
      · rcases mem_pending_add.1 hm with hm | hm
        · exact hsome m (h.edge m (hmem m hm))
        · exact hnew m hm.1
      · cases hm : s.edges m with
        | none =>
          have := seen_add.1 (Option.isSome_iff_exists.2 ⟨p, hp⟩)
          simp only [hm, Option.isSome_none, Bool.false_eq_true, false_or] at this
          exact .inl (mem_pending_add.2 (.inr ⟨this, hm⟩))
        | some q =>
          rcases h.closed m q hm with hin | ⟨h1, h2⟩
          · rcases hcase m hin with rfl | hin
            · refine .inr ⟨hne, fun e' he' => ?_⟩
              rw [hf] at he'
              cases he'
              exact hnew
            · exact .inl (mem_pending_add.2 (.inl hin))
          · exact .inr ⟨h1, fun e' he' x hx => hsome x (h2 e' he' x hx)⟩

/-! ## The verdict -/

theorem notes_way {T : List Trait} {d : Trait} {s : Search} (h : Inv T d s) :
    ∀ {k cur : Nat} {ns : List Nat}, notes s.edges d.name k cur = some ns →
    WayUp (d :: T) d.name cur ns
  | 0, _, _, hn => by simp [notes] at hn
  | k + 1, cur, ns, hn => by
    simp only [notes, Option.bind_eq_bind, Option.bind_eq_some_iff] at hn
    obtain ⟨p, hp, hn⟩ := hn
    have hu := h.real cur p hp
    split at hn
    next hpd =>
      cases hn
      rw [hpd] at hu
      exact hu
    next =>
      simp only [Option.map_eq_some_iff] at hn
      obtain ⟨ns', hn', rfl⟩ := hn
      exact ⟨hu, notes_way h hn'⟩

/-- Every check has a verdict. -/
theorem run_total {T : List Trait} {d : Trait} : ∃ v, Run T d.name (.start d) v := by
  suffices ∀ s, Acc (fun s' s => Step T d.name s s') s → Inv T d s → ∃ v, Run T d.name s v from
    this _ (step_acc T d.name _) (Inv.start d)
  intro s hs
  induction hs with
  | intro s _ ih =>
    intro hi
    cases hp : s.pending with
    | nil => exact ⟨_, .done hp⟩
    | cons n l =>
      have hn : n ∈ s.pending := by rw [hp]; exact List.mem_cons_self
      by_cases hne : n = d.name
      · subst hne
        obtain ⟨p, hp⟩ := hi.edge _ hn
        obtain ⟨k, ns, hk⟩ := hi.back _ p hp
        exact ⟨_, .found hn hk⟩
      · have hst : Step T d.name s _ := .mk hn hne
        obtain ⟨v, hv⟩ := ih _ hst (hi.step hst)
        exact ⟨v, .step hst hv⟩

/-- A circle that is reported is one. -/
theorem run_circle {T : List Trait} {d : Trait} {ns : List Nat}
    (h : Run T d.name (.start d) (.circle ns)) : WayUp (d :: T) d.name d.name ns := by
  suffices ∀ s v, Run T d.name s v → Inv T d s → ∀ ns, v = .circle ns →
      WayUp (d :: T) d.name d.name ns from this _ _ h (Inv.start d) ns rfl
  intro s v hr
  induction hr with
  | done _ => intro _ ns hv; cases hv
  | found hm hn =>
    intro hi ns hv
    cases hv
    exact notes_way hi hn
  | step hst _ ih => intro hi; exact ih (hi.step hst)

/-- A trait that is accepted is not its own supertrait. -/
theorem run_accept {T : List Trait} {d : Trait} (hd : Distinct (d :: T))
    (h : Run T d.name (.start d) .accept) : ¬ Below (d :: T) d.name d.name := by
  suffices ∀ s v, Run T d.name s v → Inv T d s → v = .accept → ¬ Below (d :: T) d.name d.name from
    this _ _ h (Inv.start d) rfl
  intro s v hr
  induction hr with
  | found _ _ => intro _ hv; cases hv
  | step hst _ ih => intro hi; exact ih (hi.step hst)
  | @done s hp =>
    intro hi _ hb
    have hT : Distinct T := (List.nodup_cons.mp hd).2
    have seen : ∀ a b, HasSuper (d :: T) a b → (a = d.name ∨ ∃ p, s.edges a = some p) →
        ∃ q, s.edges b = some q := by
      rintro a b hab (rfl | ⟨p, hp'⟩)
      · rcases hasSuper_cons hab with ⟨_, hm⟩ | ⟨e, he, hen, _⟩
        · exact hi.first b hm
        · exact absurd (List.mem_map.2 ⟨e, he, hen⟩) (List.nodup_cons.mp hd).1
      · obtain ⟨hne, hc⟩ := (hi.closed a p hp').resolve_left (by simp [hp])
        obtain ⟨e, he, rfl, t, ht, htb⟩ := (hasSuper_cons hab).resolve_left (fun h => hne h.1)
        exact hc e (find_of_mem hT he) b (List.mem_map.2 ⟨t, ht, htb⟩)
    have all : ∀ a b, Below (d :: T) a b → (a = d.name ∨ ∃ p, s.edges a = some p) →
        ∃ q, s.edges b = some q := by
      intro a b hab
      induction hab with
      | one h => exact seen _ _ h
      | more h _ ih => exact fun ha => ih (.inr (seen _ _ h ha))
    obtain ⟨q, hq⟩ := all _ _ hb (.inl rfl)
    exact ((hi.closed _ q hq).resolve_left (by simp [hp])).1 rfl

end Spade.Super

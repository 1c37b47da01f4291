import Verif.Decl.Graph

/-! # The search for circles ends and is right (C63) -/

namespace Spade.Decl

/-! ## Adding names -/

theorem mem_add {p m n : Nat} {s : Search} : m ∈ (s.add p n).pending ↔ m ∈ s.pending ∨ m = n := by
  simp only [Search.add, List.mem_insert_iff]
  exact Or.comm

theorem mem_addAll {p m : Nat} : ∀ {ns : List Nat} {s : Search},
    m ∈ (s.addAll p ns).pending ↔ m ∈ s.pending ∨ m ∈ ns
  | [], s => by simp [Search.addAll]
  | n :: ns, s => by
    have : s.addAll p (n :: ns) = (s.add p n).addAll p ns := rfl
    rw [this, mem_addAll, mem_add, List.mem_cons, or_assoc]

theorem edges_addAll {p m : Nat} : ∀ {ns : List Nat} {s : Search},
    (s.addAll p ns).edges m = if m ∈ ns then some p else s.edges m
  | [], s => by simp [Search.addAll]
  | n :: ns, s => by
    have : s.addAll p (n :: ns) = (s.add p n).addAll p ns := rfl
    rw [this, edges_addAll]
    by_cases h1 : m ∈ ns
    · simp [h1]
    · by_cases h2 : m = n
      · simp [h1, h2, Search.add]
      · simp [h1, h2, Search.add]

theorem nodup_insert {l : List Nat} {n : Nat} (h : l.Nodup) : (l.insert n).Nodup := by
  by_cases hn : n ∈ l
  · rwa [List.insert_of_mem hn]
  · rw [List.insert_of_not_mem hn]
    exact List.nodup_cons.mpr ⟨hn, h⟩

theorem nodup_addAll {p : Nat} : ∀ {ns : List Nat} {s : Search}, s.pending.Nodup →
    (s.addAll p ns).pending.Nodup
  | [], s, h => h
  | n :: ns, s, h => by
    have : s.addAll p (n :: ns) = (s.add p n).addAll p ns := rfl
    rw [this]
    exact nodup_addAll (nodup_insert h)

/-! ## The loop ends -/

/-- The sum of the weights of a list. -/
def total (w : Nat → Nat) (l : List Nat) : Nat := (l.map w).sum

theorem total_insert {w : Nat → Nat} {l : List Nat} {n : Nat} :
    total w (l.insert n) ≤ total w l + w n := by
  by_cases hn : n ∈ l
  · rw [List.insert_of_mem hn]; omega
  · rw [List.insert_of_not_mem hn]
    simp only [total, List.map_cons, List.sum_cons]
    omega

theorem total_addAll {w : Nat → Nat} {p : Nat} : ∀ {ns : List Nat} {s : Search},
    total w (s.addAll p ns).pending ≤ total w s.pending + total w ns
  | [], s => by simp [Search.addAll]
  | n :: ns, s => by
    have : s.addAll p (n :: ns) = (s.add p n).addAll p ns := rfl
    rw [this]
    have h1 := total_addAll (w := w) (p := p) (ns := ns) (s := s.add p n)
    have h2 := total_insert (w := w) (l := s.pending) (n := n)
    have h3 : (s.add p n).pending = s.pending.insert n := rfl
    rw [h3] at h1
    simp only [total, List.map_cons, List.sum_cons] at *
    omega

theorem total_erase {w : Nat → Nat} {n : Nat} : ∀ {l : List Nat}, n ∈ l →
    total w l = w n + total w (l.erase n)
  | m :: l, h => by
    by_cases hm : m = n
    · subst hm; simp [total]
    · have hn : n ∈ l := by
        rcases List.mem_cons.mp h with rfl | h
        · exact absurd rfl hm
        · exact h
      have := total_erase (w := w) hn
      rw [List.erase_cons_tail (by simpa using hm)]
      simp only [total, List.map_cons, List.sum_cons] at *
      omega

theorem total_le {w : Nat → Nat} {b : Nat} : ∀ {l : List Nat}, (∀ m ∈ l, w m ≤ b) →
    total w l ≤ l.length * b
  | [], _ => by simp [total]
  | n :: l, h => by
    have h1 := total_le (l := l) (fun m hm => h m (List.mem_cons_of_mem _ hm))
    have h2 := h n List.mem_cons_self
    simp only [total, List.map_cons, List.sum_cons, List.length_cons, Nat.add_mul, Nat.one_mul] at *
    omega

/-- Without circles, every name has a weight larger than that of all the names of its declaration
together. -/
theorem exists_weight {T : List TypeDecl} (h : NoCircle T) :
    ∃ w : Nat → Nat, ∀ n, 0 < w n ∧ ∀ d, find T n = some d → total w d.names < w n := by
  obtain ⟨r, hr⟩ := exists_rank h
  obtain ⟨b, hb⟩ : ∃ b, ∀ d ∈ T, d.names.length < b := by
    clear h hr
    induction T with
    | nil => exact ⟨0, by simp⟩
    | cons d T ih =>
      obtain ⟨b, hb⟩ := ih
      refine ⟨d.names.length + b + 1, fun e he => ?_⟩
      rcases List.mem_cons.mp he with rfl | he
      · omega
      · have := hb e he
        omega
  refine ⟨fun n => (b + 1) ^ r n, fun n => ⟨Nat.pow_pos (by omega), fun d hd => ?_⟩⟩
  obtain ⟨hm, hn⟩ := find_mem hd
  have hlen := hb d hm
  by_cases h0 : d.names = []
  · rw [h0]
    simp only [total, List.map_nil, List.sum_nil]
    exact Nat.pow_pos (by omega)
  · have hlt : ∀ m ∈ d.names, r m < r n := fun m hm' => hr n m ⟨d, hm, hn, decl_names.mp hm'⟩
    have hpos : 0 < r n := by
      obtain ⟨m, hm'⟩ := List.exists_mem_of_ne_nil _ h0
      have := hlt m hm'
      omega
    have hle := total_le (w := fun n => (b + 1) ^ r n) (b := (b + 1) ^ (r n - 1)) (l := d.names)
      (fun m hm' => Nat.pow_le_pow_right (by omega) (by have := hlt m hm'; omega))
    have he : (b + 1) ^ r n = (b + 1) ^ (r n - 1) * (b + 1) := by
      rw [← Nat.pow_succ]
      congr 1
      omega
    show total (fun n => (b + 1) ^ r n) d.names < (b + 1) ^ r n
    rw [he]
    have hp : 0 < (b + 1) ^ (r n - 1) := Nat.pow_pos (by omega)
    calc total (fun n => (b + 1) ^ r n) d.names
        ≤ d.names.length * (b + 1) ^ (r n - 1) := hle
      _ < (b + 1) * (b + 1) ^ (r n - 1) := Nat.mul_lt_mul_of_pos_right (by omega) hp
      _ = _ := Nat.mul_comm _ _

/-- However names are taken out, the loop cannot go on for ever. -/
theorem step_acc {T : List TypeDecl} (h : NoCircle T) (self : Nat) (s : Search) :
    Acc (fun s' s => Step T self s s') s := by
  obtain ⟨w, hw⟩ := exists_weight h
  suffices ∀ k (s : Search), total w s.pending < k → Acc (fun s' s => Step T self s s') s from
    this _ s (Nat.lt_succ_self _)
  intro k
  induction k with
  | zero => intro s hs; omega
  | succ k ih =>
    intro s hs
    refine ⟨_, fun s' hst => ?_⟩
    cases hst with
    | @mk n hn hne =>
      apply ih
      have he := total_erase (w := w) hn
      obtain ⟨hpos, hd⟩ := hw n
      simp only [Search.expand]
      cases hf : find T n with
      | none => simp only; omega
      | some d =>
        have h1 := hd d hf
        have h2 := total_addAll (w := w) (p := d.name) (ns := d.names)
          (s := ⟨s.pending.erase n, s.edges⟩)
        simp only at h2 ⊢
        omega

/-! ## What the search knows -/

/-- What holds of the two collections during the search for the declaration `d`. -/
structure Inv (T : List TypeDecl) (d : TypeDecl) (s : Search) : Prop where
  nodup : s.pending.Nodup
  edge : ∀ n ∈ s.pending, ∃ p, s.edges n = some p
  real : ∀ n p, s.edges n = some p → Uses (d :: T) p n ∧ (p = d.name ∨ ∃ q, s.edges p = some q)

theorem Inv.start {T : List TypeDecl} (d : TypeDecl) : Inv T d (.start d) where
  nodup := nodup_addAll List.nodup_nil
  edge n hn := by
    simp only [Search.start, mem_addAll, List.not_mem_nil, false_or] at hn
    exact ⟨d.name, by simp only [Search.start, edges_addAll, if_pos hn]⟩
  real n p h := by
    simp only [Search.start, edges_addAll] at h
    split at h
    next hn =>
      cases h
      exact ⟨uses_self (decl_names.mp hn), .inl rfl⟩
    next => cases h

theorem Inv.step {T : List TypeDecl} {d : TypeDecl} {s s' : Search} (h : Inv T d s)
    (hs : Step T d.name s s') : Inv T d s' := by
  cases hs with
  | @mk n hn hne =>
    simp only [Search.expand]
    have hmem : ∀ m, m ∈ s.pending.erase n → m ∈ s.pending := fun m => List.mem_of_mem_erase
    cases hf : find T n with
    | none =>
      exact ⟨h.nodup.erase n, fun m hm => h.edge m (hmem m hm), h.real⟩
    | some e =>
      obtain ⟨he, hen⟩ := find_mem hf
      refine ⟨nodup_addAll (h.nodup.erase n), fun m hm => ?_, fun m p hp => ?_⟩
      · rw [edges_addAll]
        rcases mem_addAll.mp hm with hm | hm
        · by_cases hin : m ∈ e.names
          · exact ⟨_, if_pos hin⟩
          · obtain ⟨p, hp⟩ := h.edge m (hmem m hm)
            exact ⟨p, by rw [if_neg hin]; exact hp⟩
        · exact ⟨_, if_pos hm⟩
      · have keep : ∀ a, (∃ q, s.edges a = some q) →
            ∃ q, (Search.addAll e.name ⟨s.pending.erase n, s.edges⟩ e.names).edges a = some q := by
          rintro a ⟨q, hq⟩
          rw [edges_addAll]
          by_cases hin : a ∈ e.names
          · exact ⟨_, if_pos hin⟩
          · exact ⟨q, by rw [if_neg hin]; exact hq⟩
        have hp' := hp
        rw [edges_addAll] at hp'
        split at hp'
        next hin =>
          cases hp'
          refine ⟨⟨e, List.mem_cons_of_mem _ he, rfl, decl_names.mp hin⟩, .inr (keep _ ?_)⟩
          rw [hen]
          exact h.edge n hn
        next hin =>
          obtain ⟨h1, h2⟩ := h.real m p hp'
          exact ⟨h1, h2.imp id (keep p)⟩

/-! ## The notes -/

/-- The notes that are printed name a true way. -/
theorem notes_way {T : List TypeDecl} {d : TypeDecl} {s : Search} (h : Inv T d s) :
    ∀ {k cur : Nat} {ns : List Nat}, notes s.edges d.name k cur = some ns →
    WayBack (d :: T) d.name cur ns
  | 0, _, _, hn => by simp [notes] at hn
  | k + 1, cur, ns, hn => by
    simp only [notes, Option.bind_eq_bind, Option.bind_eq_some_iff] at hn
    obtain ⟨p, hp, hn⟩ := hn
    have hu := (h.real cur p hp).1
    split at hn
    next hpd =>
      cases hn
      rw [hpd] at hu
      exact hu
    next =>
      simp only [Option.map_eq_some_iff] at hn
      obtain ⟨ns', hn', rfl⟩ := hn
      exact ⟨hu, notes_way h hn'⟩

/-- Following the edges back always comes to the declaration. -/
theorem notes_end {T : List TypeDecl} {d : TypeDecl} {s : Search} (hT : NoCircle T) (h : Inv T d s)
    {cur : Nat} (hc : ∃ p, s.edges cur = some p) : ∃ k ns, notes s.edges d.name k cur = some ns := by
  obtain ⟨r, hr⟩ := exists_rank hT
  obtain ⟨b, hb⟩ := exists_bound r (T.map (·.name))
  suffices ∀ k cur, b - r cur ≤ k → (∃ p, s.edges cur = some p) →
      ∃ ns, notes s.edges d.name (k + 1) cur = some ns from
    ⟨_, this (b - r cur) cur (Nat.le_refl _) hc⟩
  intro k
  induction k with
  | zero =>
    rintro cur hk ⟨p, hp⟩
    refine ⟨[], ?_⟩
    have hpd : p = d.name := by
      rcases uses_cons (h.real cur p hp).1 with ⟨hpd, _⟩ | hu
      · exact hpd
      · have h1 := hr _ _ hu
        obtain ⟨e, he, hen, _⟩ := hu
        have h2 := hb p (List.mem_map.mpr ⟨e, he, hen⟩)
        omega
    simp [notes, hp, hpd]
  | succ k ih =>
    rintro cur hk ⟨p, hp⟩
    by_cases hpd : p = d.name
    · exact ⟨[], by rw [notes]; simp [hp, hpd]⟩
    · obtain ⟨hu, hq⟩ := h.real cur p hp
      have hq := hq.resolve_left hpd
      have hu := (uses_cons hu).resolve_left (fun hh => hpd hh.1)
      have h1 := hr _ _ hu
      obtain ⟨e, he, hen, _⟩ := hu
      have h2 := hb p (List.mem_map.mpr ⟨e, he, hen⟩)
      obtain ⟨ns, hns⟩ := ih p (by omega) hq
      refine ⟨p :: ns, ?_⟩
      rw [notes]
      simp only [hp, Option.bind_eq_bind, Option.bind_some, if_neg hpd, hns, Option.map_some]

theorem wayBack_reaches {ds : List TypeDecl} {b : Nat} : ∀ {a : Nat} {ns : List Nat},
    WayBack ds b a ns → Reaches ds b a
  | _, [], h => .one h
  | _, _ :: _, h => (wayBack_reaches h.2).trans (.one h.1)

/-! ## The verdict -/

/-- Every check has a verdict. -/
theorem run_total {T : List TypeDecl} {d : TypeDecl} (hT : NoCircle T) :
    ∃ v, Run T d.name (.start d) v := by
  suffices ∀ s, Acc (fun s' s => Step T d.name s s') s → Inv T d s → ∃ v, Run T d.name s v from
    this _ (step_acc hT d.name _) (Inv.start d)
  intro s hs
  induction hs with
  | intro s _ ih =>
    intro hi
    cases hp : s.pending with
    | nil => exact ⟨_, .done hp⟩
    | cons n l =>
      have hn : n ∈ s.pending := by rw [hp]; exact List.mem_cons_self
      by_cases hne : n = d.name
      · subst hne
        obtain ⟨k, ns, hk⟩ := notes_end hT hi (hi.edge _ hn)
        exact ⟨_, .found hn hk⟩
      · have hst : Step T d.name s _ := .mk hn hne
        obtain ⟨v, hv⟩ := ih _ hst (hi.step hst)
        exact ⟨v, .step hst hv⟩

/-- A circle that is reported is one. -/
theorem run_circle {T : List TypeDecl} {d : TypeDecl} {ns : List Nat}
    (h : Run T d.name (.start d) (.circle ns)) : WayBack (d :: T) d.name d.name ns := by
  suffices ∀ s v, Run T d.name s v → Inv T d s → ∀ ns, v = .circle ns →
      WayBack (d :: T) d.name d.name ns from this _ _ h (Inv.start d) ns rfl
  intro s v hr
  induction hr with
  | done _ => intro _ ns hv; cases hv
  | found hm hn =>
    intro hi ns hv
    cases hv
    exact notes_way hi hn
  | step hst _ ih => intro hi; exact ih (hi.step hst)

/-- A declaration that is accepted does not contain itself. -/
theorem run_accept {T : List TypeDecl} {d : TypeDecl} (hd : Distinct (d :: T))
    (h : Run T d.name (.start d) .accept) : ¬ Reaches (d :: T) d.name d.name := by
  have hT : Distinct T := (List.nodup_cons.mp hd).2
  have hdn : find T d.name = none := by
    cases hf : find T d.name with
    | none => rfl
    | some e =>
      obtain ⟨he, hen⟩ := find_mem hf
      exact absurd (List.mem_map.mpr ⟨e, he, hen⟩) (List.nodup_cons.mp hd).1
  suffices ∀ s v, Run T d.name s v → v = .accept → ∀ seen : Nat → Prop, ¬ seen d.name →
      (∀ b, d.Mentions b → seen b ∨ b ∈ s.pending) →
      (∀ a b, seen a → Uses T a b → seen b ∨ b ∈ s.pending) → ¬ Reaches (d :: T) d.name d.name by
    refine this _ _ h rfl (fun _ => False) (fun h => h) (fun b hb => .inr ?_) (fun _ _ h => h.elim)
    simp only [Search.start, mem_addAll]
    exact .inr (decl_names.mpr hb)
  intro s v hr
  induction hr with
  | @done s hp =>
    intro _ seen hself hstart hclosed
    have key : ∀ a b, Reaches (d :: T) a b → (a = d.name ∨ seen a) → seen b := by
      intro a b hr
      have one : ∀ a b, Uses (d :: T) a b → (a = d.name ∨ seen a) → seen b := by
        intro a b hu ha
        rcases uses_cons hu with ⟨rfl, hm⟩ | hu
        · have := hstart b hm
          rw [hp] at this
          exact this.resolve_right (by simp)
        · rcases ha with rfl | ha
          · obtain ⟨e, hf, _⟩ := (uses_find hT).mp hu
            rw [hdn] at hf
            cases hf
          · have := hclosed a b ha hu
            rw [hp] at this
            exact this.resolve_right (by simp)
      induction hr with
      | one hu => exact one _ _ hu
      | more hu _ ih => intro ha; exact ih (.inr (one _ _ hu ha))
    exact fun hr => hself (key _ _ hr (.inl rfl))
  | found _ _ => intro hv; cases hv
  | @step s s' v hst _ ih =>
    intro hv seen hself hstart hclosed
    cases hst with
    | @mk n hn hne =>
      have move : ∀ b, seen b ∨ b ∈ s.pending → (seen b ∨ b = n) ∨
          b ∈ (Search.expand T ⟨s.pending.erase n, s.edges⟩ n).pending := by
        intro b hb
        by_cases hbn : b = n
        · exact .inl (.inr hbn)
        · rcases hb with hb | hb
          · exact .inl (.inl hb)
          · right
            have hb' : b ∈ s.pending.erase n := (List.mem_erase_of_ne hbn).mpr hb
            simp only [Search.expand]
            cases find T n with
            | none => exact hb'
            | some e => exact mem_addAll.mpr (.inl hb')
      refine ih hv (fun b => seen b ∨ b = n) ?_ (fun b hb => move b (hstart b hb)) ?_
      · rintro (h | h)
        · exact hself h
        · exact hne h.symm
      · rintro a b (ha | rfl) hu
        · exact move b (hclosed a b ha hu)
        · obtain ⟨e, hf, hm⟩ := (uses_find hT).mp hu
          right
          simp only [Search.expand, hf]
          exact mem_addAll.mpr (.inr hm)

end Spade.Decl

import Verif.Loc.Model
/-! C40: spans and the lookup of things by location. -/
namespace Spade.Loc

/-! ## Spans -/

/-- **C40, merging.**  The merged span contains both spans, and is contained in every span that
contains both. -/
theorem C40_merge (a b : Span) :
    (a.merge b).Contains a ∧ (a.merge b).Contains b ∧
    ∀ c : Span, c.Contains a → c.Contains b → c.Contains (a.merge b) := by
  simp only [Span.Contains, Span.merge]
  refine ⟨by omega, by omega, fun c => by omega⟩

/-- Joining two locations of one file gives the least location containing both. -/
theorem C40_between {α β γ : Type} (x : γ) (a : Located α) (b : Located β) (h : a.file = b.file) :
    ∃ r, betweenLocs x a b = some r ∧ r.inner = x ∧ r.file = a.file ∧ r.span.Contains a.span ∧
      r.span.Contains b.span ∧
      ∀ c : Span, c.Contains a.span → c.Contains b.span → c.Contains r.span := by
  refine ⟨⟨x, a.span.merge b.span, b.file⟩, by simp [betweenLocs, h], rfl, h.symm, ?_⟩
  exact C40_merge a.span b.span

/-- Shrinking by a string that fits takes exactly its length off the given end, and keeps the other
end. -/
theorem C40_shrink {α : Type} (a : Located α) (len : Nat) (hne : a.span.start < a.span.stop)
    (hlen : a.span.start + len ≤ a.span.stop) :
    (∃ l, shrinkLeft a len = some l ∧ l.file = a.file ∧ l.span.start = a.span.start + len ∧
      l.span.stop = a.span.stop) ∧
    (∃ r, shrinkRight a len = some r ∧ r.file = a.file ∧ r.span.start = a.span.start ∧
      r.span.stop + len = a.span.stop) := by
  constructor
  · refine ⟨⟨(), ⟨a.span.start + len, a.span.stop, hlen⟩, a.file⟩, ?_, rfl, rfl, rfl⟩
    simp [shrinkLeft, Span.new, hlen]; omega
  · refine ⟨⟨(), ⟨a.span.start, a.span.stop - len, by omega⟩, a.file⟩, ?_, rfl, rfl, ?_⟩
    · have h1 : len ≤ a.span.stop := by omega
      have h2 : a.span.start ≤ a.span.stop - len := by omega
      simp [shrinkRight, Span.new, h1, h2]; omega
    · show a.span.stop - len + len = a.span.stop; omega

/-- `ends_before` holds only for disjoint spans in their order in the file, and excludes
`contains_start`; a span that contains the start of another one shares a position with it. -/
theorem C40_before {α β : Type} (a : Located α) (b : Located β) :
    (endsBefore a b = true → a.file = b.file ∧ containsStart a b = false ∧ containsStart b a = false ∧
      ∀ p q, p ≤ a.span.stop → b.span.start ≤ q → p < q) ∧
    (containsStart a b = true → a.file = b.file ∧
      ∃ p, a.span.start ≤ p ∧ p < a.span.stop ∧ b.span.start ≤ p ∧ p ≤ b.span.stop) := by
  have ha := a.span.le
  have hb := b.span.le
  simp only [endsBefore, containsStart, Bool.and_eq_true, beq_iff_eq, decide_eq_true_eq,
    Bool.and_eq_false_iff, beq_eq_false_iff_ne, decide_eq_false_iff_not]
  constructor
  · rintro ⟨h1, h2⟩
    refine ⟨h1.symm, Or.inr (by omega), Or.inl (Or.inr (by omega)), fun p q => by omega⟩
  · rintro ⟨⟨h1, h2⟩, h3⟩
    exact ⟨h1.symm, b.span.start, by omega, by omega, by omega, by omega⟩

/-! ## The map -/

/-- The entries of a map are in strictly increasing order. -/
def Map.Sorted {α : Type} (m : Map α) : Prop := m.Pairwise (fun a b => a.1 < b.1)

theorem Map.mem_update {α : Type} {f : Option α → α} {k : Nat} {m : Map α} {e : Nat × α}
    (h : e ∈ Map.update f k m) : e ∈ m ∨ e.1 = k := by
  induction m with
  | nil => simp [Map.update] at h; simp [h]
  | cons x m ih =>
    obtain ⟨k', v⟩ := x
    simp only [Map.update] at h
    split at h
    · rcases List.mem_cons.mp h with rfl | h
      · exact Or.inr rfl
      · exact Or.inl h
    · split at h
      · rename_i _ hk
        rcases List.mem_cons.mp h with rfl | h
        · exact Or.inr hk.symm
        · exact Or.inl (List.mem_cons_of_mem _ h)
      · rcases List.mem_cons.mp h with rfl | h
        · exact Or.inl (by simp)
        · rcases ih h with h | h
          · exact Or.inl (List.mem_cons_of_mem _ h)
          · exact Or.inr h

theorem Map.update_sorted {α : Type} (f : Option α → α) (k : Nat) {m : Map α} (h : m.Sorted) :
    (Map.update f k m).Sorted := by
  unfold Map.Sorted at *
  induction m with
  | nil => simp [Map.update]
  | cons x m ih =>
    obtain ⟨k', v⟩ := x
    simp only [Map.update]
    rw [List.pairwise_cons] at h
    split
    · rename_i hk
      refine List.pairwise_cons.mpr ⟨?_, List.pairwise_cons.mpr h⟩
      intro e he
      rcases List.mem_cons.mp he with rfl | he
      · exact hk
      · have := h.1 e he
        simp only at this ⊢; omega
    · split
      · exact List.pairwise_cons.mpr ⟨h.1, h.2⟩
      · rename_i h1 h2
        refine List.pairwise_cons.mpr ⟨?_, ih h.2⟩
        intro e he
        rcases Map.mem_update he with he | he
        · exact h.1 e he
        · simp only [he]; omega

/-- What an update does to the flattened map: the things of `k` change, all others stay. -/
theorem Map.flat_update {α β : Type} (f : Option α → α) (k : Nat) (g : Nat → α → List β) {m : Map α}
    (h : m.Sorted) (new : List β)
    (hf : ∀ o, (g k (f o)).Perm ((o.map (g k)).getD [] ++ new)) :
    ((Map.update f k m).flatMap (fun e => g e.1 e.2)).Perm (m.flatMap (fun e => g e.1 e.2) ++ new) := by
  induction m with
  | nil => simpa [Map.update] using hf none
  | cons x m ih =>
    obtain ⟨k', v⟩ := x
    simp only [Map.update]
    split
    · rw [List.flatMap_cons]
      have := (hf none).append_right (((k', v) :: m).flatMap (fun e => g e.1 e.2))
      simp only [Option.map_none, Option.getD_none, List.nil_append] at this
      exact this.trans List.perm_append_comm
    · split
      · rename_i _ hk
        subst hk
        rw [List.flatMap_cons, List.flatMap_cons]
        have := (hf (some v)).append_right (m.flatMap (fun e => g e.1 e.2))
        simp only [Option.map_some, Option.getD_some] at this
        refine this.trans ?_
        rw [List.append_assoc, List.append_assoc]
        exact List.Perm.append_left _ List.perm_append_comm
      · rw [List.flatMap_cons, List.flatMap_cons, List.append_assoc]
        exact List.Perm.append_left _ (ih (List.pairwise_cons.mp h).2)

/-- All maps inside are sorted. -/
structure Good {α : Type} (m : LocMap α) : Prop where
  files : m.Sorted
  starts : ∀ e ∈ m, e.2.Sorted
  ends : ∀ e ∈ m, ∀ e' ∈ e.2, e'.2.Sorted

theorem Map.find_mem {α : Type} {k : Nat} {v : α} {m : Map α} (h : Map.find k m = some v) :
    (k, v) ∈ m := by
  induction m with
  | nil => simp [Map.find] at h
  | cons x m ih =>
    obtain ⟨k', v'⟩ := x
    simp only [Map.find] at h
    split at h
    · rename_i hk; cases h; simp [hk]
    · exact List.mem_cons_of_mem _ (ih h)

theorem Map.find_update {α : Type} (f : Option α → α) (k : Nat) {m : Map α} (h : m.Sorted) (k' : Nat) :
    Map.find k' (Map.update f k m) = if k' = k then some (f (Map.find k m)) else Map.find k' m := by
  induction m with
  | nil =>
    simp only [Map.update, Map.find]
    by_cases hk : k' = k
    · simp [hk]
    · simp [hk, Ne.symm hk]
  | cons x m ih =>
    obtain ⟨k0, v⟩ := x
    have hs := List.pairwise_cons.mp h
    have hnone : ∀ j, j ≤ k0 → Map.find j m = none := by
      intro j hj
      cases hf : Map.find j m with
      | none => rfl
      | some w =>
        have := hs.1 _ (Map.find_mem hf)
        simp only at this; omega
    simp only [Map.update]
    split
    · rename_i hlt
      simp only [Map.find]
      by_cases hk : k' = k
      · have e1 : k0 ≠ k := by omega
        simp [hk, e1, hnone k (by omega)]
      · simp [hk, Ne.symm hk]
    · split
      · rename_i _ hk0
        subst hk0
        simp only [Map.find]
        by_cases hk : k' = k
        · simp [hk]
        · simp [hk, Ne.symm hk]
      · rename_i h1 h2
        simp only [Map.find]
        rw [ih hs.2]
        by_cases hk : k' = k
        · have e1 : k0 ≠ k := by omega
          simp [hk, e1]
        · by_cases hk' : k0 = k'
          · simp [hk, hk']
          · simp [hk, hk']

theorem Map.mem_update_val {α : Type} {f : Option α → α} {k : Nat} {m : Map α} {e : Nat × α}
    (h : e ∈ Map.update f k m) (hs : m.Sorted) : e ∈ m ∨ e = (k, f (Map.find k m)) := by
  have hs' := Map.update_sorted f k hs
  by_cases hk : e.1 = k
  · right
    have hfind := Map.find_update f k hs k
    simp only [↓reduceIte] at hfind
    have h1 := Map.find_mem hfind
    -- keys are unique
    obtain ⟨a, b⟩ := e
    simp only at hk
    subst hk
    clear hs hfind
    generalize Map.update f a m = l at *
    generalize f (Map.find a m) = w at *
    induction l with
    | nil => simp at h
    | cons x l ih =>
      have hp := List.pairwise_cons.mp hs'
      rcases List.mem_cons.mp h with rfl | h2
      · rcases List.mem_cons.mp h1 with h3 | h3
        · exact h3.symm
        · have := hp.1 _ h3; simp at this
      · rcases List.mem_cons.mp h1 with h3 | h3
        · subst h3; have := hp.1 _ h2; simp at this
        · exact ih hp.2 h2 h3
  · exact Or.inl ((Map.mem_update h).resolve_right hk)

theorem insert_good {α : Type} {m : LocMap α} (h : Good m) (x : Located α) : Good (insert m x) := by
  unfold insert
  have hst : Map.Sorted ((Map.find x.file m).getD []) := by
    cases hf : Map.find x.file m with
    | none => simp [Map.Sorted]
    | some s => exact h.starts _ (Map.find_mem hf)
  have hen : ∀ e ∈ (Map.find x.file m).getD [], e.2.Sorted := by
    cases hf : Map.find x.file m with
    | none => simp
    | some s => exact h.ends _ (Map.find_mem hf)
  refine ⟨Map.update_sorted _ _ h.files, ?_, ?_⟩
  · intro e he
    rcases Map.mem_update_val he h.files with he | rfl
    · exact h.starts e he
    · exact Map.update_sorted _ _ hst
  · intro e he e' he'
    rcases Map.mem_update_val he h.files with he | rfl
    · exact h.ends e he e' he'
    · rcases Map.mem_update_val he' hst with he' | rfl
      · exact hen e' he'
      · apply Map.update_sorted
        cases hf : Map.find x.span.start ((Map.find x.file m).getD []) with
        | none => simp [Map.Sorted]
        | some s => exact hen _ (Map.find_mem hf)

/-- The map after a sequence of insertions. -/
def build {α : Type} (xs : List (Located α)) : LocMap α := xs.foldl insert []

theorem build_good {α : Type} (xs : List (Located α)) : Good (build xs) := by
  have : ∀ (xs : List (Located α)) (m : LocMap α), Good m → Good (xs.foldl insert m) := by
    intro xs
    induction xs with
    | nil => intro m h; exact h
    | cons x xs ih => intro m h; exact ih _ (insert_good h x)
  exact this xs [] ⟨by simp [Map.Sorted], by simp, by simp⟩

/-- What `around` reports about a thing. -/
def report {α : Type} (x : Located α) : α × Nat × Nat := (x.inner, x.span.start, x.span.stop)

theorem filter_flatMap' {α β : Type} (p : α → Bool) (g : α → List β) (l : List α) :
    (l.filter p).flatMap g = l.flatMap (fun a => if p a then g a else []) := by
  induction l with
  | nil => rfl
  | cons a l ih =>
    by_cases hp : p a = true
    · simp [List.filter_cons, hp, ih]
    · simp [List.filter_cons, hp, ih]

theorem around_insert {α : Type} {m : LocMap α} (h : Good m) (x : Located α) (file : Nat) (s : Span) :
    (around (insert m x) file s).Perm
      (around m file s ++ if x.Around file s then [report x] else []) := by
  unfold around insert
  rw [Map.find_update _ _ h.files]
  by_cases hfile : file = x.file
  · subst hfile
    simp only [↓reduceIte]
    have hst : Map.Sorted ((Map.find x.file m).getD []) := by
      cases hf : Map.find x.file m with
      | none => simp [Map.Sorted]
      | some s => exact h.starts _ (Map.find_mem hf)
    have hen : ∀ e ∈ (Map.find x.file m).getD [], e.2.Sorted := by
      cases hf : Map.find x.file m with
      | none => simp
      | some s => exact h.ends _ (Map.find_mem hf)
    have hold : (around m x.file s).Perm
        ((((Map.find x.file m).getD []).flatMap (fun e => if e.1 ≤ s.start then
            e.2.flatMap (fun e' => if s.stop ≤ e'.1 then
              e'.2.map (fun thing => (thing, e.1, e'.1)) else []) else []))) := by
      unfold around
      cases Map.find x.file m with
      | none => simp
      | some starts =>
        simp only [Option.getD_some]
        refine (List.reverse_perm _).trans ?_
        simp only [filter_flatMap', decide_eq_true_eq]
        exact List.Perm.refl _
    refine List.Perm.trans (List.reverse_perm _) (List.Perm.trans ?_ (hold.symm.append_right _))
    simp only [filter_flatMap', decide_eq_true_eq]
    generalize (Map.find x.file m).getD [] = starts at *
    -- the maps of the ends are sorted, which `flat_update` needs at the changed entry
    have hends : ∀ o, o = Map.find x.span.start starts → Map.Sorted (o.getD []) := by
      rintro o rfl
      cases hf : Map.find x.span.start starts with
      | none => simp [Map.Sorted]
      | some v => exact hen _ (Map.find_mem hf)
    clear hold
    have key : ∀ (starts : Map (Map (List α))), starts.Sorted → (∀ e ∈ starts, e.2.Sorted) →
        ((Map.update (fun ends => Map.update (fun things => things.getD [] ++ [x.inner]) x.span.stop
            (ends.getD [])) x.span.start starts).flatMap (fun e => if e.1 ≤ s.start then
              e.2.flatMap (fun e' => if s.stop ≤ e'.1 then
                e'.2.map (fun thing => (thing, e.1, e'.1)) else []) else [])).Perm
        (starts.flatMap (fun e => if e.1 ≤ s.start then
              e.2.flatMap (fun e' => if s.stop ≤ e'.1 then
                e'.2.map (fun thing => (thing, e.1, e'.1)) else []) else []) ++
          if x.Around x.file s then [report x] else []) := by
      intro starts
      -- the changed entry
      have hone : ∀ ends : Map (List α), ends.Sorted →
          ((Map.update (fun things => things.getD [] ++ [x.inner]) x.span.stop ends).flatMap
            (fun e' => if s.stop ≤ e'.1 then
              e'.2.map (fun thing => (thing, x.span.start, e'.1)) else [])).Perm
          (ends.flatMap (fun e' => if s.stop ≤ e'.1 then
              e'.2.map (fun thing => (thing, x.span.start, e'.1)) else []) ++
            if s.stop ≤ x.span.stop then [report x] else []) := by
        intro ends hs
        apply Map.flat_update (g := fun k things => if s.stop ≤ k then
          things.map (fun thing => (thing, x.span.start, k)) else []) _ _ hs
        intro o
        by_cases hc : s.stop ≤ x.span.stop
        · cases o with
          | none => simp [hc, report]
          | some v => simp [hc, report]
        · cases o with
          | none => simp [hc]
          | some v => simp [hc]
      induction starts with
      | nil =>
        intro _ _
        have := hone [] (by simp [Map.Sorted])
        simp only [Map.update, List.flatMap_cons, List.flatMap_nil, List.append_nil, Option.getD_none,
          List.nil_append, Located.Around, Span.Contains, true_and] at this ⊢
        by_cases hc : x.span.start ≤ s.start
        · simpa [hc] using this
        · simp [hc]
      | cons y starts ih =>
        intro hs he
        obtain ⟨k0, v⟩ := y
        have hp := List.pairwise_cons.mp hs
        simp only [Map.update]
        split
        · have := hone [] (by simp [Map.Sorted])
          simp only [Map.update, List.flatMap_cons, List.flatMap_nil, List.append_nil, Option.getD_none,
            List.nil_append, Located.Around, Span.Contains, true_and] at this ⊢
          refine List.Perm.trans ?_ List.perm_append_comm
          apply List.Perm.append_right
          by_cases hc : x.span.start ≤ s.start
          · simpa [hc] using this
          · simp [hc]
        · split
          · rename_i _ hk
            subst hk
            have := hone v (he (x.span.start, v) (by simp))
            simp only [List.flatMap_cons, Option.getD_some, Located.Around, Span.Contains, true_and]
            by_cases hc : x.span.start ≤ s.start
            · simp only [hc, ↓reduceIte, true_and]
              refine (this.append_right _).trans ?_
              rw [List.append_assoc, List.append_assoc]
              exact List.Perm.append_left _ List.perm_append_comm
            · simp [hc]
          · rw [List.flatMap_cons, List.flatMap_cons, List.append_assoc]
            exact List.Perm.append_left _ (ih hp.2 (fun e hm => he e (List.mem_cons_of_mem _ hm)))
    exact key starts hst hen
  · simp only [hfile, ↓reduceIte, Located.Around, Ne.symm hfile, false_and, List.append_nil]
    exact List.Perm.refl _

/-- **C40, lookup by location.**  After any insertions, asking for the things around a location
reports exactly those inserted things of the same file whose span contains it, each as often as it
was inserted, and with its own span. -/
theorem C40_around {α : Type} (xs : List (Located α)) (file : Nat) (s : Span) :
    (around (build xs) file s).Perm ((xs.filter (fun x => decide (x.Around file s))).map report) := by
  have : ∀ (ys : List (Located α)) (m : LocMap α), Good m →
      (around (ys.foldl insert m) file s).Perm
        (around m file s ++ (ys.filter (fun x => decide (x.Around file s))).map report) := by
    intro ys
    induction ys with
    | nil => intro m _; simp
    | cons y ys ih =>
      intro m hm
      rw [List.foldl_cons]
      refine (ih _ (insert_good hm y)).trans ?_
      refine ((around_insert hm y file s).append_right _).trans ?_
      rw [List.append_assoc]
      apply List.Perm.append_left
      by_cases hy : y.Around file s
      · simp [hy]
      · simp [hy]
  have h := this xs [] ⟨by simp [Map.Sorted], by simp, by simp⟩
  have h0 : around ([] : LocMap α) file s = [] := rfl
  rw [h0, List.nil_append] at h
  exact h

/-- **C40, position.**  In particular, whatever is reported around a location has a span that
contains it. -/
theorem C40_contains {α : Type} (xs : List (Located α)) (file : Nat) (s : Span) (a : α) (b e : Nat)
    (h : (a, b, e) ∈ around (build xs) file s) :
    b ≤ s.start ∧ s.stop ≤ e ∧ ∃ x ∈ xs, x.file = file ∧ report x = (a, b, e) := by
  have hm := (C40_around xs file s).mem_iff.mp h
  simp only [List.mem_map, List.mem_filter, decide_eq_true_eq] at hm
  obtain ⟨x, ⟨hx, hf, hc⟩, hr⟩ := hm
  have h1 : x.span.start = b := congrArg (·.2.1) hr
  have h2 : x.span.stop = e := congrArg (·.2.2) hr
  exact ⟨by rw [← h1]; exact hc.1, by rw [← h2]; exact hc.2, x, hx, hf, hr⟩

/-- The order of the report: later starts first, and for the same start, later ends first. -/
theorem C40_order {α : Type} (xs : List (Located α)) (file : Nat) (s : Span) :
    (around (build xs) file s).Pairwise (fun a b => b.2.1 < a.2.1 ∨ (b.2.1 = a.2.1 ∧ b.2.2 ≤ a.2.2)) := by
  have hg := build_good xs
  unfold around
  cases hf : Map.find file (build xs) with
  | none => simp
  | some starts =>
    have hst := hg.starts _ (Map.find_mem hf)
    have hen := hg.ends _ (Map.find_mem hf)
    simp only at hst hen ⊢
    rw [List.pairwise_reverse]
    clear hf
    induction starts with
    | nil => simp
    | cons y starts ih =>
      have hp := List.pairwise_cons.mp hst
      have ih := ih hp.2 (fun e he => hen e (List.mem_cons_of_mem _ he))
      simp only [List.filter_cons]
      split
      · rw [List.flatMap_cons, List.pairwise_append]
        refine ⟨?_, ih, ?_⟩
        · have hy := hen y (by simp)
          generalize y.2 = ends at hy
          induction ends with
          | nil => simp
          | cons z ends ih' =>
            have hpz := List.pairwise_cons.mp hy
            simp only [List.filter_cons]
            split
            · rw [List.flatMap_cons, List.pairwise_append]
              refine ⟨?_, ih' hpz.2, ?_⟩
              · rw [List.pairwise_map]
                exact List.pairwise_of_forall (fun _ _ => Or.inr ⟨rfl, Nat.le_refl _⟩)
              · intro a ha b hb
                simp only [List.mem_map, List.mem_flatMap, List.mem_filter, decide_eq_true_eq] at ha hb
                obtain ⟨_, _, rfl⟩ := ha
                obtain ⟨e', ⟨he', _⟩, _, _, rfl⟩ := hb
                have := hpz.1 e' he'
                exact Or.inr ⟨rfl, Nat.le_of_lt this⟩
            · exact ih' hpz.2
        · intro a ha b hb
          simp only [List.mem_map, List.mem_flatMap, List.mem_filter, decide_eq_true_eq] at ha hb
          obtain ⟨_, _, _, _, rfl⟩ := ha
          obtain ⟨e', ⟨he', _⟩, _, _, _, _, rfl⟩ := hb
          exact Or.inl (hp.1 e' he')
      · exact ih

/-- **C40, the innermost thing.**  If the spans around the location are nested and no two of them
start at the same place, then the first thing reported lies inside all others.  Spans with the same
start are what is missing, see `C40_counterexample_innermost`. -/
theorem C40_innermost_partial {α : Type} (xs : List (Located α)) (file : Nat) (s : Span)
    (hnest : ∀ x ∈ xs, ∀ y ∈ xs, x.Around file s → y.Around file s →
      x.span.Contains y.span ∨ y.span.Contains x.span)
    (hstart : ∀ x ∈ xs, ∀ y ∈ xs, x.Around file s → y.Around file s → x.span.start = y.span.start →
      x.span.stop = y.span.stop)
    (a : α) (b e : Nat) (h : (around (build xs) file s).head? = some (a, b, e)) :
    ∀ x ∈ xs, x.Around file s → x.span.start ≤ b ∧ e ≤ x.span.stop := by
  intro x hx hax
  obtain ⟨rest, hr⟩ : ∃ rest, around (build xs) file s = (a, b, e) :: rest := by
    cases hl : around (build xs) file s with
    | nil => simp [hl] at h
    | cons y ys => rw [hl] at h; simp at h; exact ⟨ys, by rw [h]⟩
  obtain ⟨_, _, y, hy, hyf, hyr⟩ := C40_contains xs file s a b e (by rw [hr]; simp)
  have hya : y.Around file s := by
    have := (C40_contains xs file s a b e (by rw [hr]; simp))
    have h1 : y.span.start = b := congrArg (·.2.1) hyr
    have h2 : y.span.stop = e := congrArg (·.2.2) hyr
    exact ⟨hyf, by rw [h1]; exact this.1, by rw [h2]; exact this.2.1⟩
  have h1 : y.span.start = b := congrArg (·.2.1) hyr
  have h2 : y.span.stop = e := congrArg (·.2.2) hyr
  have hxm : report x ∈ around (build xs) file s :=
    (C40_around xs file s).mem_iff.mpr (by
      simp only [List.mem_map, List.mem_filter, decide_eq_true_eq]
      exact ⟨x, ⟨hx, hax⟩, rfl⟩)
  have hord := C40_order xs file s
  rw [hr] at hord hxm
  have hle : x.span.start ≤ b := by
    rcases List.mem_cons.mp hxm with heq | hm
    · have : x.span.start = b := congrArg (·.2.1) heq
      omega
    · have := (List.pairwise_cons.mp hord).1 _ hm
      simp only [report] at this; omega
  rcases hnest x hx y hy hax hya with hc | hc
  · unfold Span.Contains at hc; omega
  · unfold Span.Contains at hc
    have := hstart x hx y hy hax hya (by omega)
    omega

/-- Four nested spans of file 1, and one of file 2. -/
def exampleSpans : List (Located Nat) :=
  [⟨0, ⟨0, 100, by decide⟩, 1⟩, ⟨1, ⟨30, 70, by decide⟩, 1⟩, ⟨2, ⟨40, 60, by decide⟩, 1⟩,
   ⟨3, ⟨45, 50, by decide⟩, 1⟩, ⟨4, ⟨0, 100, by decide⟩, 2⟩]

example : around (build exampleSpans) 1 ⟨50, 50, by decide⟩ =
    [(3, 45, 50), (2, 40, 60), (1, 30, 70), (0, 0, 100)] := by decide +kernel

/-- They meet the hypotheses of `C40_innermost_partial`. -/
example : ∀ x ∈ exampleSpans, x.Around 1 ⟨50, 50, by decide⟩ → x.span.start ≤ 45 ∧ 50 ≤ x.span.stop := by
  refine C40_innermost_partial exampleSpans 1 ⟨50, 50, by decide⟩ ?_ ?_ 3 45 50 (by decide +kernel)
  · simp only [exampleSpans, List.mem_cons, List.not_mem_nil, or_false]
    rintro x (rfl | rfl | rfl | rfl | rfl) y (rfl | rfl | rfl | rfl | rfl) <;> decide
  · simp only [exampleSpans, List.mem_cons, List.not_mem_nil, or_false]
    rintro x (rfl | rfl | rfl | rfl | rfl) y (rfl | rfl | rfl | rfl | rfl) <;> decide

/-- The first thing reported need not be the innermost one: for `a.b` with `a` at 0-1 and the access at
0-3, what is reported first around the position of `a` is the access, although `a` lies inside it.
The uses in the language server filter by the kind of the thing, or look at all of them
(spade-language-server/src/util.rs:113-127,155-184, spade-query/src/lib.rs:86-90). -/
theorem C40_counterexample_innermost :
    (around (build [⟨"a.b", ⟨0, 3, by decide⟩, 1⟩, ⟨"a", ⟨0, 1, by decide⟩, 1⟩]) 1
      ⟨0, 0, by decide⟩).head? = some ("a.b", 0, 3) := by decide +kernel

end Spade.Loc

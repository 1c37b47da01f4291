import Verif.Inline.Model
/-! Lemmas about new names and maps. -/
namespace Spade.Inline

open Spade.Mir

variable {Op Ty C Ini : Type}

/-- The tracker of its kind has already passed the name. -/
def Below (ids : Ids) : Name → Prop
  | .named i _ => i < ids.names
  | .expr i => i < ids.exprs

def Ids.le (a b : Ids) : Prop := a.names ≤ b.names ∧ a.exprs ≤ b.exprs

theorem Ids.le_refl (a : Ids) : a.le a := ⟨Nat.le_refl _, Nat.le_refl _⟩

theorem Ids.le.trans {a b c : Ids} (h : a.le b) (h' : b.le c) : a.le c :=
  ⟨Nat.le_trans h.1 h'.1, Nat.le_trans h.2 h'.2⟩

theorem Below.mono {a b : Ids} (h : a.le b) {n : Name} (hn : Below a n) : Below b n := by
  cases n with
  | named i s => exact Nat.lt_of_lt_of_le hn h.1
  | expr i => exact Nat.lt_of_lt_of_le hn h.2

theorem fresh_spec (ids : Ids) (k : Name) :
    ids.le (fresh ids k).2 ∧ ¬ Below ids (fresh ids k).1 ∧ Below (fresh ids k).2 (fresh ids k).1 := by
  cases k <;> simp [fresh, Ids.le, Below]

theorem freshAll_spec (ks : List Name) : ∀ ids : Ids,
    ids.le (freshAll ids ks).2 ∧ (freshAll ids ks).1.map (·.1) = ks ∧
    (∀ p ∈ (freshAll ids ks).1, ¬ Below ids p.2 ∧ Below (freshAll ids ks).2 p.2) ∧
    ((freshAll ids ks).1.map (·.2)).Nodup := by
  induction ks with
  | nil => intro ids; simp [freshAll, Ids.le_refl]
  | cons k ks ih =>
    intro ids
    obtain ⟨h1, h2, h3⟩ := fresh_spec ids k
    obtain ⟨i1, i2, i3, i4⟩ := ih (fresh ids k).2
    have e1 : (freshAll ids (k :: ks)).1 = (k, (fresh ids k).1) :: (freshAll (fresh ids k).2 ks).1 := rfl
    have e2 : (freshAll ids (k :: ks)).2 = (freshAll (fresh ids k).2 ks).2 := rfl
    rw [e1, e2]
    refine ⟨h1.trans i1, by simp [i2], ?_, ?_⟩
    · intro p hp
      rcases List.mem_cons.mp hp with rfl | hp
      · exact ⟨h2, h3.mono i1⟩
      · exact ⟨fun hb => (i3 p hp).1 (hb.mono h1), (i3 p hp).2⟩
    · rw [List.map_cons, List.nodup_cons]
      refine ⟨?_, i4⟩
      intro hm
      obtain ⟨p, hp, e⟩ := List.mem_map.mp hm
      exact (i3 p hp).1 (by rw [e]; exact h3)

theorem NMap.get_insert (m : NMap) (k v k' : Name) :
    (m.insert k v).get k' = if k' = k then some v else m.get k' := by
  induction m with
  | nil =>
    simp only [NMap.insert, NMap.get, List.lookup_cons, List.lookup_nil]
    by_cases h : k' = k
    · simp [h]
    · simp [h, beq_false_of_ne h]
  | cons e m ih =>
    obtain ⟨a, b⟩ := e
    simp only [NMap.get] at ih
    simp only [NMap.insert]
    split
    · rename_i hk
      subst hk
      simp only [NMap.get, List.lookup_cons]
      by_cases h : k' = a
      · simp [h]
      · simp [h, beq_false_of_ne h]
    · rename_i hk
      simp only [NMap.get, List.lookup_cons, ih]
      by_cases h : k' = a
      · subst h
        have : k' ≠ k := hk
        simp [this]
      · simp [beq_false_of_ne h]

/-- The last entry for a key counts. -/
theorem NMap.get_collect (l : List (Name × Name)) (k : Name) :
    (NMap.collect l).get k = l.reverse.lookup k := by
  have : ∀ (l : List (Name × Name)) (m : NMap), (l.foldl (fun m e => m.insert e.1 e.2) m).get k =
      (l.reverse.lookup k).or (m.get k) := by
    intro l
    induction l with
    | nil => intro m; simp
    | cons e l ih =>
      intro m
      rw [List.foldl_cons, ih, NMap.get_insert, List.reverse_cons, List.lookup_append]
      obtain ⟨a, b⟩ := e
      simp only [List.lookup_cons, List.lookup_nil]
      by_cases h : k = a
      · subst h; cases List.lookup k l.reverse <;> simp
      · simp only [h, ↓reduceIte, beq_false_of_ne h]
        cases List.lookup k l.reverse <;> simp
  have h := this l []
  simpa [NMap.collect, NMap.get] using h

theorem lookup_of_mem {l : List (Name × Name)} (hnd : (l.map (·.1)).Nodup) {k v : Name}
    (h : (k, v) ∈ l) : l.lookup k = some v := by
  induction l with
  | nil => simp at h
  | cons e l ih =>
    obtain ⟨a, b⟩ := e
    rw [List.map_cons, List.nodup_cons] at hnd
    rcases List.mem_cons.mp h with e | h'
    · cases e; simp [List.lookup_cons]
    · have : k ≠ a := by
        rintro rfl
        exact hnd.1 (List.mem_map.mpr ⟨_, h', rfl⟩)
      simp [List.lookup_cons, beq_false_of_ne this, ih hnd.2 h']

theorem lookup_mem {l : List (Name × Name)} {k v : Name} (h : l.lookup k = some v) : (k, v) ∈ l := by
  induction l with
  | nil => simp at h
  | cons e l ih =>
    obtain ⟨a, b⟩ := e
    simp only [List.lookup_cons] at h
    split at h
    · rename_i hk
      have : k = a := by simpa using hk
      cases h; simp [this]
    · exact List.mem_cons_of_mem _ (ih h)

theorem lookup_none {l : List (Name × Name)} {k : Name} (h : k ∉ l.map (·.1)) : l.lookup k = none := by
  cases hl : l.lookup k with
  | none => rfl
  | some v => exact absurd (List.mem_map.mpr ⟨_, lookup_mem hl, rfl⟩) h

theorem lookup_some_of_key {l : List (Name × Name)} {k : Name} (h : k ∈ l.map (·.1)) :
    ∃ v, l.lookup k = some v := by
  cases hl : l.lookup k with
  | some v => exact ⟨v, rfl⟩
  | none =>
    exfalso
    induction l with
    | nil => simp at h
    | cons e l ih =>
      obtain ⟨a, b⟩ := e
      simp only [List.lookup_cons] at hl
      split at hl
      · cases hl
      · rename_i hk
        simp only [List.map_cons, List.mem_cons] at h
        rcases h with rfl | h
        · simp at hk
        · exact ih h hl

theorem NMap.mem_keys_insert (m : NMap) (k v n : Name) : n ∈ (m.insert k v).keys ↔ n = k ∨ n ∈ m.keys := by
  induction m with
  | nil => simp [NMap.insert, NMap.keys]
  | cons e m ih =>
    obtain ⟨a, b⟩ := e
    simp only [NMap.keys] at ih
    simp only [NMap.insert]
    split
    · rename_i hk; subst hk; simp [NMap.keys]
    · simp only [NMap.keys, List.map_cons, List.mem_cons, ih]
      constructor
      · rintro (h | h | h) <;> simp [h]
      · rintro (h | h | h) <;> simp [h]

theorem NMap.mem_keys_collect (l : List (Name × Name)) (n : Name) :
    n ∈ (NMap.collect l).keys ↔ n ∈ l.map (·.1) := by
  have : ∀ (l : List (Name × Name)) (m : NMap), n ∈ (l.foldl (fun m e => m.insert e.1 e.2) m).keys ↔
      n ∈ l.map (·.1) ∨ n ∈ m.keys := by
    intro l
    induction l with
    | nil => intro m; simp
    | cons e l ih =>
      intro m
      rw [List.foldl_cons, ih, NMap.mem_keys_insert]
      simp only [List.map_cons, List.mem_cons]
      constructor
      · rintro (h | h | h) <;> simp [h]
      · rintro ((h | h) | h) <;> simp [h]
  have h := this l []
  simpa [NMap.collect, NMap.keys] using h

theorem definedNames_eq (ss : List (Stmt Op Ty C Ini)) : definedNames ss = ss.filterMap Stmt.defines := by
  unfold definedNames
  congr 1
  funext s
  cases s <;> rfl

/-- The map for the body of a callee: inputs become the names of the operands, every other key a new
name. -/
theorem newMap_input {drawn : List (Name × Name)} {ins : List (Name × Name)}
    (hnd : (ins.map (·.1)).Nodup) {k v : Name} (h : (k, v) ∈ ins) :
    (NMap.collect (drawn ++ ins)).get k = some v := by
  rw [NMap.get_collect, List.reverse_append, List.lookup_append]
  have : ins.reverse.lookup k = some v :=
    lookup_of_mem (by rw [List.map_reverse]; exact (List.reverse_perm _).nodup_iff.mpr hnd) (List.mem_reverse.mpr h)
  simp [this]

theorem newMap_other {drawn : List (Name × Name)} {ins : List (Name × Name)} {k : Name}
    (hk : k ∉ ins.map (·.1)) (hd : k ∈ drawn.map (·.1)) :
    ∃ v, (NMap.collect (drawn ++ ins)).get k = some v ∧ (k, v) ∈ drawn := by
  rw [NMap.get_collect, List.reverse_append, List.lookup_append]
  have h1 : ins.reverse.lookup k = none := lookup_none (by rw [List.map_reverse]; simpa using hk)
  obtain ⟨v, hv⟩ := lookup_some_of_key (l := drawn.reverse) (k := k)
    (by rw [List.map_reverse]; exact List.mem_reverse.mpr hd)
  exact ⟨v, by simp [h1, hv], List.mem_reverse.mp (lookup_mem hv)⟩

end Spade.Inline

import Verif.Ids.Model
/-! C36: interning strings is injective, and the strings stay readable. -/
namespace Spade.Ids

theorem read_length (m : Mem) (r : Ref) : (read m r).length = r.len := by simp [read]

theorem read_write_self (m : Mem) (a : Nat) (s : Str) : read (write m a s) ⟨a, s.length⟩ = s := by
  apply List.ext_getElem
  · simp [read]
  · intro i h1 h2
    simp only [read, List.getElem_map, List.getElem_range, write, Nat.le_add_right, ↓reduceIte,
      Nat.add_sub_cancel_left]
    rw [List.getElem?_eq_getElem h2]; rfl

theorem read_write_disjoint (m : Mem) (a : Nat) (s : Str) (r : Ref)
    (h : r.disjoint ⟨a, s.length⟩ = true) : read (write m a s) r = read m r := by
  simp only [Ref.disjoint, Bool.or_eq_true, decide_eq_true_eq, beq_iff_eq] at h
  unfold read
  apply List.map_congr_left
  intro i hi
  simp only [List.mem_range] at hi
  unfold write
  split
  · rw [List.getElem?_eq_none (by omega)]; rfl
  · rfl

/-- Threads inside the locked part. -/
def Pc.inside : Pc → Bool
  | .idle => false
  | .waiting _ => false
  | _ => true

structure IInv (x : Interner) : Prop where
  /-- only the holder of the lock is inside -/
  mutex : ∀ t, (x.pc t).inside = true → x.lock = some t
  /-- everything in the table is a block of the arena -/
  table : ∀ r ∈ x.table, r ∈ x.blocks
  /-- different blocks are disjoint, or equal -/
  apart : x.blocks.Pairwise (fun a b => b.disjoint a = true)
  /-- no two references of the table read the same -/
  inj : ∀ a ∈ x.table, ∀ b ∈ x.table, read x.mem a = read x.mem b → a = b
  returned : ∀ s r, (s, r) ∈ x.returned → r ∈ x.table ∧ read x.mem r = s
  missed : ∀ t s, x.pc t = .missed s → ∀ r ∈ x.table, read x.mem r ≠ s
  allocated : ∀ t s r, x.pc t = .allocated s r → r ∈ x.blocks ∧ read x.mem r = s ∧
    ∀ b ∈ x.table, read x.mem b ≠ s
  leaving : ∀ t s r, x.pc t = .leaving s r → r ∈ x.table ∧ read x.mem r = s

theorem setPc_self (x : Interner) (t : Nat) (p : Pc) : setPc x t p t = p := by simp [setPc]

theorem setPc_ne (x : Interner) {t j : Nat} (p : Pc) (h : j ≠ t) : setPc x t p j = x.pc j := by
  simp [setPc, h]

theorem setPc_cases (x : Interner) (t : Nat) (p q : Pc) (j : Nat) (h : setPc x t p j = q) :
    (j = t ∧ p = q) ∨ (j ≠ t ∧ x.pc j = q) := by
  by_cases hj : j = t
  · subst hj; rw [setPc_self] at h; exact Or.inl ⟨rfl, h⟩
  · rw [setPc_ne x p hj] at h; exact Or.inr ⟨hj, h⟩

theorem iact_inv {x x' : Interner} {a : IAct} (h : iact x a = some x') (hi : IInv x) : IInv x' := by
  cases a with
  | call t s =>
    simp only [iact] at h
    split at h
    · rename_i hidle
      simp only [Option.some.injEq] at h
      subst h
      refine ⟨?_, hi.table, hi.apart, hi.inj, hi.returned, ?_, ?_, ?_⟩
      · intro j hj
        by_cases hjt : j = t
        · subst hjt; simp [setPc_self, Pc.inside] at hj
        · simp only [setPc_ne x _ hjt] at hj; exact hi.mutex j hj
      · intro j s' hj
        rcases setPc_cases x t _ _ j hj with ⟨_, e⟩ | ⟨_, e⟩
        · cases e
        · exact hi.missed j s' e
      · intro j s' r hj
        rcases setPc_cases x t _ _ j hj with ⟨_, e⟩ | ⟨_, e⟩
        · cases e
        · exact hi.allocated j s' r e
      · intro j s' r hj
        rcases setPc_cases x t _ _ j hj with ⟨_, e⟩ | ⟨_, e⟩
        · cases e
        · exact hi.leaving j s' r e
    · cases h
  | step t addr =>
    simp only [iact, istep] at h
    cases hpc : x.pc t with
    | idle => simp [hpc] at h
    | waiting s =>
      simp only [hpc] at h
      cases hl : x.lock with
      | some _ => simp [hl] at h
      | none =>
        simp only [hl, Option.some.injEq] at h
        subst h
        have hout : ∀ j, (x.pc j).inside = false := by
          intro j
          cases hin : (x.pc j).inside with
          | false => rfl
          | true => have := hi.mutex j hin; rw [hl] at this; cases this
        refine ⟨?_, hi.table, hi.apart, hi.inj, hi.returned, ?_, ?_, ?_⟩
        · intro j hj
          by_cases hjt : j = t
          · subst hjt; rfl
          · simp only [setPc_ne x _ hjt] at hj; rw [hout j] at hj; cases hj
        · intro j s' hj
          rcases setPc_cases x t _ _ j hj with ⟨_, e⟩ | ⟨_, e⟩
          · cases e
          · exact hi.missed j s' e
        · intro j s' r hj
          rcases setPc_cases x t _ _ j hj with ⟨_, e⟩ | ⟨_, e⟩
          · cases e
          · exact hi.allocated j s' r e
        · intro j s' r hj
          rcases setPc_cases x t _ _ j hj with ⟨_, e⟩ | ⟨_, e⟩
          · cases e
          · exact hi.leaving j s' r e
    | locked s =>
      have hlock := hi.mutex t (by simp [hpc, Pc.inside])
      have halone : ∀ j, j ≠ t → (x.pc j).inside = false := by
        intro j hj
        cases hin : (x.pc j).inside with
        | false => rfl
        | true => have := hi.mutex j hin; rw [hlock] at this; cases this; exact absurd rfl hj
      simp only [hpc] at h
      cases hf : x.table.find? (fun r => read x.mem r == s) with
      | some prev =>
        simp only [hf, Option.some.injEq] at h
        subst h
        refine ⟨?_, hi.table, hi.apart, hi.inj, hi.returned, ?_, ?_, ?_⟩
        · intro j hj
          by_cases hjt : j = t
          · subst hjt; exact hlock
          · simp only [setPc_ne x _ hjt] at hj; rw [halone j hjt] at hj; cases hj
        · intro j s' hj
          rcases setPc_cases x t _ _ j hj with ⟨_, e⟩ | ⟨_, e⟩
          · cases e
          · exact hi.missed j s' e
        · intro j s' r hj
          rcases setPc_cases x t _ _ j hj with ⟨_, e⟩ | ⟨_, e⟩
          · cases e
          · exact hi.allocated j s' r e
        · intro j s' r hj
          rcases setPc_cases x t _ _ j hj with ⟨_, e⟩ | ⟨_, e⟩
          · cases e
            exact ⟨List.mem_of_find?_eq_some hf, by simpa using List.find?_some hf⟩
          · exact hi.leaving j s' r e
      | none =>
        simp only [hf, Option.some.injEq] at h
        subst h
        refine ⟨?_, hi.table, hi.apart, hi.inj, hi.returned, ?_, ?_, ?_⟩
        · intro j hj
          by_cases hjt : j = t
          · subst hjt; exact hlock
          · simp only [setPc_ne x _ hjt] at hj; rw [halone j hjt] at hj; cases hj
        · intro j s' hj
          rcases setPc_cases x t _ _ j hj with ⟨_, e⟩ | ⟨_, e⟩
          · cases e
            intro r hr
            have := List.find?_eq_none.mp hf r hr
            simpa using this
          · exact hi.missed j s' e
        · intro j s' r hj
          rcases setPc_cases x t _ _ j hj with ⟨_, e⟩ | ⟨_, e⟩
          · cases e
          · exact hi.allocated j s' r e
        · intro j s' r hj
          rcases setPc_cases x t _ _ j hj with ⟨_, e⟩ | ⟨_, e⟩
          · cases e
          · exact hi.leaving j s' r e
    | missed s =>
      have hlock := hi.mutex t (by simp [hpc, Pc.inside])
      have halone : ∀ j, j ≠ t → (x.pc j).inside = false := by
        intro j hj
        cases hin : (x.pc j).inside with
        | false => rfl
        | true => have := hi.mutex j hin; rw [hlock] at this; cases this; exact absurd rfl hj
      simp only [hpc] at h
      split at h
      · rename_i hall
        simp only [Option.some.injEq] at h
        subst h
        rw [List.all_eq_true] at hall
        -- blocks read the same as before
        have hsame : ∀ r ∈ x.blocks, read (write x.mem addr s) r = read x.mem r :=
          fun r hr => read_write_disjoint x.mem addr s r (hall r hr)
        refine ⟨?_, fun r hr => List.mem_cons_of_mem _ (hi.table r hr), ?_, ?_, ?_, ?_, ?_, ?_⟩
        · intro j hj
          by_cases hjt : j = t
          · subst hjt; exact hlock
          · simp only [setPc_ne x _ hjt] at hj; rw [halone j hjt] at hj; cases hj
        · exact List.pairwise_cons.mpr ⟨fun b hb => hall b hb, hi.apart⟩
        · intro a ha b hb he
          simp only [hsame a (hi.table a ha), hsame b (hi.table b hb)] at he
          exact hi.inj a ha b hb he
        · intro s' r hm
          obtain ⟨h1, h2⟩ := hi.returned s' r hm
          exact ⟨h1, by simp only [hsame r (hi.table r h1)]; exact h2⟩
        · intro j s' hj
          rcases setPc_cases x t _ _ j hj with ⟨_, e⟩ | ⟨hne, e⟩
          · cases e
          · have := halone j hne; rw [e] at this; simp [Pc.inside] at this
        · intro j s' r hj
          rcases setPc_cases x t _ _ j hj with ⟨_, e⟩ | ⟨hne, e⟩
          · cases e
            refine ⟨by simp, read_write_self x.mem addr s, ?_⟩
            intro b hb
            simp only [hsame b (hi.table b hb)]
            exact hi.missed t s hpc b hb
          · have := halone j hne; rw [e] at this; simp [Pc.inside] at this
        · intro j s' r hj
          rcases setPc_cases x t _ _ j hj with ⟨_, e⟩ | ⟨hne, e⟩
          · cases e
          · have := halone j hne; rw [e] at this; simp [Pc.inside] at this
      · cases h
    | allocated s r0 =>
      have hlock := hi.mutex t (by simp [hpc, Pc.inside])
      have halone : ∀ j, j ≠ t → (x.pc j).inside = false := by
        intro j hj
        cases hin : (x.pc j).inside with
        | false => rfl
        | true => have := hi.mutex j hin; rw [hlock] at this; cases this; exact absurd rfl hj
      simp only [hpc, Option.some.injEq] at h
      subst h
      obtain ⟨hb0, hr0, hnew⟩ := hi.allocated t s r0 hpc
      refine ⟨?_, ?_, hi.apart, ?_, ?_, ?_, ?_, ?_⟩
      · intro j hj
        by_cases hjt : j = t
        · subst hjt; exact hlock
        · simp only [setPc_ne x _ hjt] at hj; rw [halone j hjt] at hj; cases hj
      · intro r hr
        rcases List.mem_cons.mp hr with rfl | hr
        · exact hb0
        · exact hi.table r hr
      · intro a ha b hb he
        rcases List.mem_cons.mp ha with rfl | ha'
        · rcases List.mem_cons.mp hb with rfl | hb
          · rfl
          · exact absurd (he.symm.trans hr0) (hnew b hb)
        · rcases List.mem_cons.mp hb with rfl | hb
          · exact absurd (he.trans hr0) (hnew a ha')
          · exact hi.inj a ha' b hb he
      · intro s' r hm
        obtain ⟨h1, h2⟩ := hi.returned s' r hm
        exact ⟨List.mem_cons_of_mem _ h1, h2⟩
      · intro j s' hj
        rcases setPc_cases x t _ _ j hj with ⟨_, e⟩ | ⟨hne, e⟩
        · cases e
        · have := halone j hne; rw [e] at this; simp [Pc.inside] at this
      · intro j s' r hj
        rcases setPc_cases x t _ _ j hj with ⟨_, e⟩ | ⟨hne, e⟩
        · cases e
        · have := halone j hne; rw [e] at this; simp [Pc.inside] at this
      · intro j s' r hj
        rcases setPc_cases x t _ _ j hj with ⟨_, e⟩ | ⟨hne, e⟩
        · cases e; exact ⟨by simp, hr0⟩
        · have := halone j hne; rw [e] at this; simp [Pc.inside] at this
    | leaving s r0 =>
      have hlock := hi.mutex t (by simp [hpc, Pc.inside])
      have halone : ∀ j, j ≠ t → (x.pc j).inside = false := by
        intro j hj
        cases hin : (x.pc j).inside with
        | false => rfl
        | true => have := hi.mutex j hin; rw [hlock] at this; cases this; exact absurd rfl hj
      simp only [hpc, Option.some.injEq] at h
      subst h
      refine ⟨?_, hi.table, hi.apart, hi.inj, ?_, ?_, ?_, ?_⟩
      · intro j hj
        by_cases hjt : j = t
        · subst hjt; simp [setPc_self, Pc.inside] at hj
        · simp only [setPc_ne x _ hjt] at hj; rw [halone j hjt] at hj; cases hj
      · intro s' r hm
        rcases List.mem_cons.mp hm with e | hm
        · cases e; exact hi.leaving t s r0 hpc
        · exact hi.returned s' r hm
      · intro j s' hj
        rcases setPc_cases x t _ _ j hj with ⟨_, e⟩ | ⟨hne, e⟩
        · cases e
        · exact hi.missed j s' e
      · intro j s' r hj
        rcases setPc_cases x t _ _ j hj with ⟨_, e⟩ | ⟨hne, e⟩
        · cases e
        · exact hi.allocated j s' r e
      · intro j s' r hj
        rcases setPc_cases x t _ _ j hj with ⟨_, e⟩ | ⟨hne, e⟩
        · cases e
        · exact hi.leaving j s' r e

theorem runIActs_inv {as : List IAct} : ∀ {x x' : Interner}, runIActs x as = some x' → IInv x → IInv x' := by
  induction as with
  | nil => intro x x' h hi; simp only [runIActs, Option.some.injEq] at h; exact h ▸ hi
  | cons a as ih =>
    intro x x' h hi
    simp only [runIActs] at h
    cases ha : iact x a with
    | none => simp [ha] at h
    | some x1 => simp only [ha, Option.bind_some] at h; exact ih h (iact_inv ha hi)

theorem newInterner_inv (m : Mem) : IInv (newInterner m) := by
  refine ⟨?_, ?_, ?_, ?_, ?_, ?_, ?_, ?_⟩ <;> simp [newInterner, Pc.inside]

/-- **C36, interning.**  Whatever strings the threads intern, however they are interleaved and wherever
the arena allocates: two results are the same identifier exactly if the strings are the same. -/
theorem C36_intern_injective (m : Mem) (as : List IAct) (x : Interner)
    (h : runIActs (newInterner m) as = some x) (s s' : Str) (r r' : Ref)
    (hr : (s, r) ∈ x.returned) (hr' : (s', r') ∈ x.returned) : identEq r r' = true ↔ s = s' := by
  have hi := runIActs_inv h (newInterner_inv m)
  obtain ⟨h1, h2⟩ := hi.returned s r hr
  obtain ⟨h1', h2'⟩ := hi.returned s' r' hr'
  simp only [identEq, beq_iff_eq]
  constructor
  · rintro rfl; rw [← h2, ← h2']
  · rintro rfl; exact hi.inj r h1 r' h1' (h2.trans h2'.symm)

/-- **C36, text of identifiers.**  An identifier reads as the string that was interned, at any later
time. -/
theorem C36_intern_reads (m : Mem) (as as' : List IAct) (x x' : Interner)
    (h : runIActs (newInterner m) as = some x) (h' : runIActs x as' = some x') (s : Str) (r : Ref)
    (hr : (s, r) ∈ x.returned) : read x'.mem r = s := by
  have hret : ∀ (as : List IAct) (x x' : Interner), runIActs x as = some x' → (s, r) ∈ x.returned →
      (s, r) ∈ x'.returned := by
    intro as
    induction as with
    | nil => intro x x' h hm; simp only [runIActs, Option.some.injEq] at h; exact h ▸ hm
    | cons a as ih =>
      intro x x' h hm
      simp only [runIActs] at h
      cases ha : iact x a with
      | none => simp [ha] at h
      | some x1 =>
        simp only [ha, Option.bind_some] at h
        refine ih x1 x' h ?_
        cases a with
        | call t s =>
          simp only [iact] at ha
          split at ha
          · cases ha; exact hm
          · cases ha
        | step t addr =>
          simp only [iact, istep] at ha
          cases hpc : x.pc t with
          | idle => simp [hpc] at ha
          | waiting s =>
            simp only [hpc] at ha
            split at ha
            · cases ha; exact hm
            · cases ha
          | locked s =>
            simp only [hpc] at ha
            split at ha <;> (cases ha; exact hm)
          | missed s =>
            simp only [hpc] at ha
            split at ha
            · cases ha; exact hm
            · cases ha
          | allocated s r0 => simp only [hpc] at ha; cases ha; exact hm
          | leaving s r0 => simp only [hpc] at ha; cases ha; exact List.mem_cons_of_mem _ hm
  have hi := runIActs_inv h' (runIActs_inv h (newInterner_inv m))
  exact (hi.returned s r (hret as' x x' h' hr)).2

/-- Equal identifiers hash equally: the hash only looks at the address (name.rs:49-53). -/
theorem C36_hash (r r' : Ref) (h : identEq r r' = true) : r.addr = r'.addr := by
  simp only [identEq, beq_iff_eq] at h; rw [h]

/-- Two threads intern `ab`, a third the empty string; the second has to wait for the lock. -/
example : ((runIActs (newInterner fun _ => 0) [.call 0 [97, 98], .call 1 [97, 98], .step 0 0, .step 0 0,
      .step 0 16, .step 0 0, .step 0 0, .step 1 0, .step 1 0, .step 1 0, .call 2 [], .step 2 0, .step 2 0,
      .step 2 18, .step 2 0, .step 2 0]).map (·.returned)) =
    some [([], ⟨18, 0⟩), ([97, 98], ⟨16, 2⟩), ([97, 98], ⟨16, 2⟩)] := by decide +kernel

end Spade.Ids

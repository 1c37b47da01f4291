import Verif.Mir.Rename
/-!
# Predictable names are unique (C14)
-/
namespace Spade.Mir
variable {Op Ty C Ini : Type}

/-! ## Specification -/

/-- How many names in a list have a given text. -/
def occurrences (s : String) : List Name → Nat
  | [] => 0
  | .named _ t :: l => (if t = s then 1 else 0) + occurrences s l
  | .expr _ :: l => occurrences s l

/-- The predictable name: the text and how many earlier definitions have the same text. -/
def predicted (defs : List Name) : Name → Name
  | .named i s => .named (occurrences s (defs.takeWhile (· ≠ .named i s))) s
  | .expr i => .expr i

theorem occurrences_append (s : String) (l m : List Name) :
    occurrences s (l ++ m) = occurrences s l + occurrences s m := by
  induction l with
  | nil => simp [occurrences]
  | cons a l ih => cases a <;> simp [occurrences, ih]; omega

/-! ## The renaming -/

/-- `names` after a list of pushes. -/
def CountInv (P : List Name) (st : NameState) : Prop :=
  ∀ s, st.names.lookup s = if occurrences s P = 0 then none else some (occurrences s P - 1)

theorem bumpCount_spec : ∀ (m : List (String × Nat)) (s : String),
    (bumpCount m s).2 = ((m.lookup s).map (· + 1)).getD 0 ∧
    ∀ t, (bumpCount m s).1.lookup t = if t = s then some (bumpCount m s).2 else m.lookup t
  | [], s => by
    refine ⟨rfl, fun t => ?_⟩
    by_cases h : t = s
    · simp [bumpCount, List.lookup, h]
    · have : (t == s) = false := by simpa using h
      simp [bumpCount, List.lookup, this, h]
  | (u, k) :: m, s => by
    obtain ⟨h1, h2⟩ := bumpCount_spec m s
    simp only [bumpCount]
    by_cases h : u = s
    · subst h
      refine ⟨by simp [List.lookup], fun t => ?_⟩
      by_cases ht : t = u
      · simp [List.lookup, ht]
      · have : (t == u) = false := by simpa using ht
        simp [List.lookup, this, ht]
    · have hs : (s == u) = false := by simpa using Ne.symm h
      simp only [h, if_false]
      refine ⟨by simp [List.lookup, hs, h1], fun t => ?_⟩
      by_cases ht : t = u
      · subst ht; simp [List.lookup, h]
      · have : (t == u) = false := by simpa using ht
        simp [List.lookup, this, h2]

theorem foldl_push (P : List Name) : ∀ (Q : List Name) (st : NameState), (P ++ Q).Nodup →
    CountInv P st → (∀ x, st.nameMap.lookup x = if x ∈ P then some (predicted P x) else none) →
    ∀ x, (Q.foldl NameState.push st).nameMap.lookup x =
      if x ∈ P ++ Q then some (predicted (P ++ Q) x) else none := by
  intro Q
  induction Q generalizing P with
  | nil => intro st _ _ h x; simpa using h x
  | cons q Q ih =>
    intro st hn hc hm x
    have hc' : ∀ s, st.names.lookup s =
      if occurrences s P = 0 then none else some (occurrences s P - 1) := hc
    have hq : q ∉ P := by
      rw [List.nodup_append] at hn
      exact fun h => hn.2.2 q h q (by simp) rfl
    have e : P ++ q :: Q = (P ++ [q]) ++ Q := by simp
    rw [e] at hn ⊢
    have htw : ∀ R, (P ++ q :: R).takeWhile (· ≠ q) = P := by
      intro R
      rw [List.takeWhile_append_of_pos]
      · simp
      · intro a ha
        simp only [decide_eq_true_eq]
        rintro rfl; exact hq ha
    have hpre : ∀ y ∈ P, predicted (P ++ [q]) y = predicted P y := by
      intro y hy
      have : ∀ (l : List Name), y ∈ l → (l ++ [q]).takeWhile (· ≠ y) = l.takeWhile (· ≠ y) := by
        intro l
        induction l with
        | nil => intro h; cases h
        | cons a l ih =>
          intro h
          simp only [List.cons_append, List.takeWhile_cons]
          by_cases hay : a = y
          · simp [hay]
          · simp only [hay, ne_eq, not_false_eq_true, decide_true, if_true]
            rw [ih]
            rcases List.mem_cons.1 h with h | h
            · exact (hay h.symm).elim
            · exact h
      cases y with
      | named i s => simp only [predicted, this P hy]
      | expr i => rfl
    rw [List.foldl_cons]
    refine ih (P ++ [q]) (st.push q) hn ?_ ?_ x
    · intro s
      cases q with
      | expr i => simpa [NameState.push, occurrences_append, occurrences] using hc s
      | named i t =>
        obtain ⟨h1, h2⟩ := bumpCount_spec st.names t
        simp only [NameState.push, h2, h1, hc', occurrences_append, occurrences]
        by_cases hst : s = t
        · subst hst
          by_cases h0 : occurrences s P = 0
          · simp [h0]
          · simp [h0]; omega
        · simp [hst, Ne.symm hst]
    · intro y
      have hqval : (st.push q).nameMap = (q, predicted (P ++ [q]) q) :: st.nameMap := by
        cases q with
        | expr i => rfl
        | named i t =>
          obtain ⟨h1, h2⟩ := bumpCount_spec st.names t
          simp only [NameState.push, h1, hc', predicted, htw []]
          by_cases h0 : occurrences t P = 0
          · simp [h0]
          · simp [h0]; omega
      rw [hqval]
      by_cases hy : y = q
      · subst hy; simp [List.lookup]
      · have : (y == q) = false := by simpa using hy
        simp only [List.lookup, this, hm, List.mem_append, List.mem_singleton, hy, or_false]
        split
        · rename_i h; rw [hpre y h]
        · rfl

theorem collect_lookup {e : Entity Op Ty C Ini} (hn : (e.inputNames ++ e.defs).Nodup) (x : Name) :
    (collectNames e).get x =
      if x ∈ e.inputNames ++ e.defs then predicted (e.inputNames ++ e.defs) x else x := by
  have := foldl_push [] (e.inputNames ++ e.defs) .empty (by simpa using hn)
    (by intro s; rfl) (by intro x; rfl) x
  simp only [List.nil_append] at this
  rw [NameState.get, collectNames, this]
  split <;> rfl

theorem predicted_inj : ∀ {P : List Name} {x y : Name}, x ∈ P → y ∈ P →
    predicted P x = predicted P y → x = y := by
  have key : ∀ (P : List Name) (i j : Nat) (s : String), Name.named i s ∈ P → Name.named j s ∈ P →
      occurrences s (P.takeWhile (· ≠ .named i s)) = occurrences s (P.takeWhile (· ≠ .named j s)) →
      i = j := by
    intro P
    induction P with
    | nil => intro i j s h; cases h
    | cons a P ih =>
      intro i j s hi hj h
      simp only [List.takeWhile_cons] at h
      by_cases hai : a = .named i s <;> by_cases haj : a = .named j s
      · rw [hai] at haj; cases haj; rfl
      · subst hai
        simp only [ne_eq, not_true_eq_false, decide_false, haj, not_false_eq_true, decide_true,
          if_true, Bool.false_eq_true, if_false, occurrences] at h
        omega
      · subst haj
        simp only [ne_eq, not_true_eq_false, decide_false, hai, not_false_eq_true, decide_true,
          if_true, Bool.false_eq_true, if_false, occurrences] at h
        omega
      · simp only [hai, haj, ne_eq, not_false_eq_true, decide_true, if_true] at h
        rcases List.mem_cons.1 hi with hi | hi
        · exact (hai hi.symm).elim
        rcases List.mem_cons.1 hj with hj | hj
        · exact (haj hj.symm).elim
        refine ih i j s hi hj ?_
        cases a with
        | named k t => simp only [occurrences] at h; simpa using h
        | expr k => simpa [occurrences] using h
  intro P x y hx hy h
  cases x <;> cases y <;> simp only [predicted, Name.named.injEq, Name.expr.injEq, reduceCtorEq] at h
  · obtain ⟨h1, rfl⟩ := h
    rw [key P _ _ _ hx hy h1]
  · rw [h]

/-! ## The property for lowered units -/

/-- Names of inputs are distinct and everything else is defined once. -/
def Entity.WellNamed (e : Entity Op Ty C Ini) : Prop := e.inputNames.Nodup ∧ e.SingleDefs

theorem Entity.WellNamed.nodup {e : Entity Op Ty C Ini} (h : e.WellNamed) :
    (e.inputNames ++ e.defs).Nodup := by
  rw [List.nodup_append]
  exact ⟨h.1, h.2.1, fun x hx y hy hxy => h.2.2 x hx (hxy ▸ hy)⟩

/-- **C14.** Making names predictable replaces every name consistently, and the replacement is one to
one on the names in use: two signals never get the same name and every use still refers to the
definition it referred to before.  Each signal keeps its text, numbered by how many definitions
before it have the same text; so the first keeps its name. -/
theorem C14_renaming (e : Entity Op Ty C Ini) (hw : e.WellNamed) (hc : e.Closed) :
    ∃ f : Name → Name, makeNamesPredictable e = e.renameAll f ∧
      (∀ x y, (x ∈ e.names ∨ x = e.output ∨ x ∈ e.inputNames) →
        (y ∈ e.names ∨ y = e.output ∨ y ∈ e.inputNames) → f x = f y → x = y) ∧
      (∀ x, x ∈ e.inputNames ++ e.defs → f x = predicted (e.inputNames ++ e.defs) x) := by
  refine ⟨(collectNames e).get, rfl, ?_, ?_⟩
  · have hmem : ∀ x, (x ∈ e.names ∨ x = e.output ∨ x ∈ e.inputNames) → x ∈ e.inputNames ++ e.defs := by
      rintro x (h | h | h)
      · exact List.mem_append.2 (hc x (Or.inl h))
      · exact List.mem_append.2 (hc x (Or.inr h))
      · exact List.mem_append_left _ h
    intro x y hx hy h
    rw [collect_lookup hw.nodup, collect_lookup hw.nodup, if_pos (hmem x hx), if_pos (hmem y hy)] at h
    exact predicted_inj (hmem x hx) (hmem y hy) h
  · intro x hx
    rw [collect_lookup hw.nodup, if_pos hx]

theorem renameAll_sat {V : Type} (I : Interp Op Ty C Ini V) (f : Name → Name)
    (e : Entity Op Ty C Ini) (w : Name → V) :
    (e.renameAll f).Sat I w ↔ e.Sat I fun n => w (f n) := by
  simp only [Entity.Sat, Entity.renameAll, List.mem_map, forall_exists_index, and_imp,
    forall_apply_eq_imp_iff₂, Stmt.sat_rename]

/-- **C14.** So the unit means the same: its behaviours before and after are in correspondence, with
the same values on inputs and output. -/
theorem C14_behaviour {V : Type} [Inhabited V] (I : Interp Op Ty C Ini V) (e : Entity Op Ty C Ini)
    (hw : e.WellNamed) (hc : e.Closed) :
    (∀ w, (makeNamesPredictable e).Sat I w → ∃ v, e.Sat I v ∧
      v e.output = w (makeNamesPredictable e).output ∧
      e.inputNames.map v = (makeNamesPredictable e).inputNames.map w) ∧
    (∀ v, e.Sat I v → ∃ w, (makeNamesPredictable e).Sat I w ∧
      v e.output = w (makeNamesPredictable e).output ∧
      e.inputNames.map v = (makeNamesPredictable e).inputNames.map w) := by
  obtain ⟨f, hf, hinj, -⟩ := C14_renaming e hw hc
  have hin : ∀ g : Name → V, (e.renameAll f).inputNames.map g = e.inputNames.map fun n => g (f n) := by
    intro g; simp [Entity.renameAll, Entity.inputNames, List.map_map, Function.comp_def]
  rw [hf]
  constructor
  · intro w hw'
    exact ⟨fun n => w (f n), (renameAll_sat I f e w).1 hw', rfl, (hin w).symm⟩
  · intro v hv
    let U := fun x => x ∈ e.names ∨ x = e.output ∨ x ∈ e.inputNames
    classical
    let w : Name → V := fun y => if h : ∃ x, U x ∧ f x = y then v h.choose else default
    have hwf : ∀ x, U x → w (f x) = v x := by
      intro x hx
      have h : ∃ z, U z ∧ f z = f x := ⟨x, hx, rfl⟩
      simp only [w, h, dif_pos]
      rw [hinj _ _ h.choose_spec.1 hx h.choose_spec.2]
    refine ⟨w, (renameAll_sat I f e w).2 ?_, (hwf _ (Or.inr (Or.inl rfl))).symm, ?_⟩
    · intro s hs
      refine (Stmt.sat_congr I s fun n hn => ?_).1 (hv s hs)
      exact (hwf n (Or.inl (List.mem_flatMap.2 ⟨s, hs, hn⟩))).symm
    · rw [hin]
      exact List.map_congr_left fun x hx => (hwf x (Or.inr (Or.inr hx))).symm

/-- `g` only changes the numbers of named signals. -/
def KeepsText (g : Name → Name) : Prop :=
  (∀ i s, ∃ j, g (.named i s) = .named j s) ∧ ∀ i, g (.expr i) = .expr i

theorem occurrences_map {g : Name → Name} (hg : KeepsText g) (s : String) (l : List Name) :
    occurrences s (l.map g) = occurrences s l := by
  induction l with
  | nil => rfl
  | cons a l ih =>
    cases a with
    | named i t =>
      obtain ⟨j, hj⟩ := hg.1 i t
      simp [occurrences, hj, ih]
    | expr i => simp [occurrences, hg.2 i, ih]

theorem takeWhile_map {g : Name → Name} : ∀ {l : List Name} {x : Name},
    (∀ y ∈ l, g y = g x → y = x) → (l.map g).takeWhile (· ≠ g x) = (l.takeWhile (· ≠ x)).map g
  | [], x, _ => rfl
  | a :: l, x, h => by
    simp only [List.map_cons, List.takeWhile_cons]
    by_cases hax : a = x
    · simp [hax]
    · have : g a ≠ g x := fun he => hax (h a (by simp) he)
      simp only [this, hax, ne_eq, not_false_eq_true, decide_true, if_true, List.map_cons]
      rw [takeWhile_map fun y hy => h y (List.mem_cons_of_mem _ hy)]

/-- **C14.** The names really are predictable: they do not depend on the numbers the compiler gave to
signals.  Renumbering all signals in any one-to-one way first gives the same result. -/
theorem C14_predictable (e : Entity Op Ty C Ini) (hw : e.WellNamed) (hc : e.Closed)
    (g : Name → Name) (hg : KeepsText g) (hinj : ∀ x y, g x = g y → x = y) :
    makeNamesPredictable (e.renameAll g) = makeNamesPredictable e := by
  have hin : (e.renameAll g).inputNames = e.inputNames.map g := by
    simp [Entity.renameAll, Entity.inputNames, List.map_map, Function.comp_def]
  have hdefs : (e.renameAll g).defs = e.defs.map g := by
    simp only [Entity.renameAll, Entity.defs, List.filterMap_map, List.map_filterMap]
    congr 1; funext s; simp [Stmt.defines_rename]
  have hP : (e.renameAll g).inputNames ++ (e.renameAll g).defs = (e.inputNames ++ e.defs).map g := by
    rw [hin, hdefs, List.map_append]
  have hn : ((e.renameAll g).inputNames ++ (e.renameAll g).defs).Nodup := by
    rw [hP]
    exact nodup_map_on hw.nodup fun x _ y _ h => hinj x y h
  have hget : ∀ x, x ∈ e.inputNames ++ e.defs →
      (collectNames (e.renameAll g)).get (g x) = (collectNames e).get x := by
    intro x hx
    rw [collect_lookup hn, collect_lookup hw.nodup, hP, if_pos hx,
      if_pos (List.mem_map.2 ⟨x, hx, rfl⟩)]
    cases x with
    | named i s =>
      obtain ⟨j, hj⟩ := hg.1 i s
      have := takeWhile_map (g := g) (l := e.inputNames ++ e.defs) (x := .named i s)
        fun y _ h => hinj _ _ h
      rw [hj] at this ⊢
      simp only [predicted]
      rw [this, occurrences_map hg]
    | expr i => rw [hg.2]; rfl
  have hst : ∀ s ∈ e.stmts, (s.rename g).rename (collectNames (e.renameAll g)).get =
      s.rename (collectNames e).get := by
    intro s hs
    have hu : ∀ n ∈ s.names, (collectNames (e.renameAll g)).get (g n) = (collectNames e).get n :=
      fun n hn => hget n (List.mem_append.2 (hc n (Or.inl (List.mem_flatMap.2 ⟨s, hs, hn⟩))))
    cases s with
    | binding b =>
      rcases b with ⟨n, op, os, ty⟩
      simp only [Stmt.names, List.mem_cons, forall_eq_or_imp] at hu
      simp only [Stmt.rename, hu.1, List.map_map, Stmt.binding.injEq, Binding.mk.injEq, true_and,
        and_true]
      exact List.map_congr_left hu.2
    | register r =>
      rcases r with ⟨n, ty, clk, rst, ini, val⟩
      cases rst with
      | none => simp [Stmt.names] at hu; simp [Stmt.rename, hu]
      | some p => simp [Stmt.names] at hu; simp [Stmt.rename, hu]
    | constant n t c => simp [Stmt.names] at hu; simp [Stmt.rename, hu]
    | assert n => simp [Stmt.names] at hu; simp [Stmt.rename, hu]
    | set t x => simp [Stmt.names] at hu; simp [Stmt.rename, hu]
    | error => rfl
  unfold makeNamesPredictable
  generalize hq : (collectNames (e.renameAll g)).get = q at hget hst
  generalize (collectNames e).get = p at hget hst
  simp only [Entity.renameAll, List.map_map, Entity.mk.injEq, true_and]
  refine ⟨?_, hget _ (List.mem_append.2 (hc _ (Or.inr rfl))), ?_⟩
  · refine List.map_congr_left fun i hi => ?_
    simp only [Function.comp_apply]
    rw [hget]
    exact List.mem_append_left _ (List.mem_map.2 ⟨i, hi, rfl⟩)
  · exact List.map_congr_left hst

end Spade.Mir

import Verif.Linear.Lemmas
/-!
# The invariant of the check: every wire has one leaf that is not consumed, or one connection
-/
namespace Spade.Linear

/-- What a reference stands for; `χ` are the values of the expressions. -/
def valOf (σ : Sem) (χ : Nat → Val) : Ref → Val
  | .name n => σ.env n
  | .expr i => χ i

/-- The invariant.  `R r a` says that leaf `a` is reserved for the result of an expression `r` that is
being visited.  `o t` counts the wires that are in flight: taken from one place and not yet put in another. -/
structure Inv (Γ : Nat → LTy) (R : Ref → Nat → Prop) (o : Nat → Nat) (s : St) (σ : Sem)
    (α : Nat → Option Nat) (χ : Nat → Val) : Prop where
  newA : ∀ a, s.next ≤ a → s.used a = false ∧ α a = none
  tokA : ∀ a t, α a = some t → t < σ.next
  tokS : ∀ t ∈ σ.sinks, t < σ.next
  tokO : ∀ t, σ.next ≤ t → o t = 0
  mirror : ∀ r T, s.trees r = some T → Mirror α T (valOf σ χ r)
  bound : ∀ r T a, s.trees r = some T → a ∈ T.all → a < s.next
  shape : ∀ n, s.trees (.name n) ≠ none → Shape (Γ n) (σ.env n)
  plain : ∀ n, (Γ n).linear = false → (σ.env n).wires = []
  reach : ∀ a t, α a = some t → s.used a = false → ∃ r T, r ∈ s.keys ∧ s.trees r = some T ∧ a ∈ T.leaves
  count : ∀ t < σ.next, live α s.used s.next t + σ.sinks.count t + o t = 1
  res : ∀ r a, R r a → a < s.next ∧ α a = none ∧ s.used a = false ∧ s.trees r ≠ none ∧ ∃ i, r = .expr i
  disj : ∀ r r' T a, s.trees r = some T → a ∈ T.all → R r' a → r = r'

/-- The wires of a value are in flight. -/
def owe (o : Nat → Nat) (v : Val) : Nat → Nat := fun t => o t + v.wires.count t

theorem owe_nil {o : Nat → Nat} {v : Val} (h : v.wires = []) : owe o v = o := by
  funext t; simp [owe, h]

theorem owe_comm (o : Nat → Nat) (v w : Val) : owe (owe o v) w = owe (owe o w) v := by
  funext t; simp [owe]; omega

variable {Γ : Nat → LTy} {R : Ref → Nat → Prop} {o : Nat → Nat} {s s' : St} {σ : Sem}
  {α : Nat → Option Nat} {χ : Nat → Val}

theorem Inv.weaken {R' : Ref → Nat → Prop} (h : Inv Γ R o s σ α χ) (hR : ∀ r a, R' r a → R r a) :
    Inv Γ R' o s σ α χ :=
  { h with
    res := fun r a hr => h.res r a (hR r a hr)
    disj := fun r r' T a hT ha hr => h.disj r r' T a hT ha (hR r' a hr) }

/-- New wires. -/
theorem Inv.make (h : Inv Γ R o s σ α χ) (ty : LTy) :
    Inv Γ R (owe o (σ.make ty).1) s (σ.make ty).2 α χ := by
  have hw := fresh_wires ty σ.next
  have hcount : ∀ t, (σ.make ty).1.wires.count t = if σ.next ≤ t ∧ t < (fresh ty σ.next).2 then 1 else 0 := by
    intro t
    simp only [Sem.make, hw.2]
    split
    · apply Nat.le_antisymm
      · exact List.nodup_iff_count.1 (List.nodup_range' ..) t
      · exact List.count_pos_iff.2 (by simp [List.mem_range'_1]; omega)
    · apply List.count_eq_zero_of_not_mem
      simp [List.mem_range'_1]; omega
  refine { h with tokA := ?_, tokS := ?_, tokO := ?_, mirror := ?_, shape := h.shape, plain := h.plain, count := ?_ }
  · intro a t ht; have := h.tokA a t ht; simp only [Sem.make]; omega
  · intro t ht; have := h.tokS t ht; simp only [Sem.make]; omega
  · intro t ht
    simp only [Sem.make] at ht
    simp only [owe]
    rw [h.tokO t (by omega), hcount]
    simp; omega
  · intro r T hT
    have := h.mirror r T hT
    cases r <;> exact this
  · intro t ht
    simp only [owe, hcount]
    rcases Nat.lt_or_ge t σ.next with hlt | hge
    · have := h.count t hlt
      have hn : ¬ (σ.next ≤ t ∧ t < (fresh ty σ.next).2) := by omega
      simp only [hn, if_false, Sem.make]
      omega
    · have hn : σ.next ≤ t ∧ t < (fresh ty σ.next).2 := ⟨hge, ht⟩
      simp only [hn, and_self, if_true, Sem.make]
      have h1 : σ.sinks.count t = 0 := List.count_eq_zero_of_not_mem fun hm => by
        have := h.tokS t hm; omega
      have h2 : ∀ n, live α s.used n t = 0 := by
        intro n
        induction n with
        | zero => rfl
        | succ n ih =>
          have : α n ≠ some t := fun e => by have := h.tokA n t e; omega
          simp [live, ih, this]
      rw [h1, h2, h.tokO t hge]

theorem owe_wires_lt {v : Val} (h : Inv Γ R (owe o v) s σ α χ) : ∀ t ∈ v.wires, t < σ.next := by
  intro t ht
  rcases Nat.lt_or_ge t σ.next with h' | h'
  · exact h'
  · have := h.tokO t h'
    simp only [owe] at this
    have := List.count_pos_iff.2 ht
    omega

/-- Wires in flight are connected. -/
theorem Inv.sink {v : Val} (h : Inv Γ R (owe o v) s σ α χ) : Inv Γ R o s (σ.sink v) α χ := by
  have hlt := owe_wires_lt h
  refine { h with tokA := h.tokA, tokS := ?_, tokO := ?_, mirror := ?_, shape := h.shape, plain := h.plain, count := ?_ }
  · intro t ht
    simp only [Sem.sink, List.mem_append] at ht
    rcases ht with ht | ht
    · exact h.tokS t ht
    · exact hlt t ht
  · intro t ht
    have := h.tokO t ht
    simp only [owe] at this
    omega
  · intro r T hT
    have := h.mirror r T hT
    cases r <;> exact this
  · intro t ht
    have := h.count t ht
    simp only [owe, Sem.sink, List.count_append] at this ⊢
    omega

/-- Consuming an expression puts its wires in flight. -/
theorem Inv.consume {i : Nat} (h : Inv Γ R o s σ α χ) (hc : s.consume i = some s')
    (hR : ∀ a, ¬ R (.expr i) a) :
    Inv Γ R (owe o (χ i)) s' σ α χ ∧ s'.trees = s.trees ∧ s'.keys = s.keys := by
  simp only [St.consume] at hc
  obtain ⟨T, hT, hc⟩ := Option.bind_eq_some_iff.1 hc
  obtain ⟨u, hu, rfl⟩ := Option.map_eq_some_iff.1 hc
  have hm : Mirror α T (χ i) := h.mirror _ _ hT
  have hb : ∀ a ∈ T.leaves, a < s.next := fun a ha => h.bound _ _ a hT (leavesAll_sub_aux T a ha)
  obtain ⟨h1, h2⟩ := tryConsume_spec (α := α) hu hb
  have hw := mirror_wires α T _ hm
  rw [hw] at h1
  refine ⟨{ h with newA := ?_, tokO := ?_, mirror := h.mirror, bound := h.bound, shape := h.shape, reach := ?_, count := ?_, res := ?_, disj := h.disj }, rfl, rfl⟩
  · intro a ha
    refine ⟨?_, (h.newA a ha).2⟩
    apply Bool.eq_false_iff.2
    intro e
    rcases (h2 a).1 e with e | e
    · simp [(h.newA a ha).1] at e
    · exact absurd (hb a e) (Nat.not_lt.2 ha)
  · intro t ht
    simp only [owe]
    rw [h.tokO t ht, List.count_eq_zero_of_not_mem]
    intro hm
    rw [← hw] at hm
    obtain ⟨a, _, ha⟩ := List.mem_filterMap.1 hm
    have := h.tokA a t ha
    omega
  · intro a t ha hu'
    apply h.reach a t ha
    apply Bool.eq_false_iff.2
    intro e
    have := (h2 a).2 (.inl e)
    simp only at hu'
    simp [this] at hu'
  · intro t ht
    have := h.count t ht
    have := h1 t
    simp only [owe]
    omega
  · intro r a hr
    obtain ⟨g1, g2, g3, g4, g5⟩ := h.res r a hr
    refine ⟨g1, g2, Bool.eq_false_iff.2 fun e => ?_, g4, g5⟩
    rcases (h2 a).1 e with e | e
    · simp [g3] at e
    · have := h.disj _ _ T a hT (leavesAll_sub_aux T a e) hr
      subst this
      exact hR a hr

/-- A new tree for an expression, reserved until its value is known. -/
theorem Inv.push {i : Nat} (h : Inv Γ R o s σ α χ) (ty : LTy) (hi : s.trees (.expr i) = none) :
    Inv Γ (fun r a => R r a ∨ (r = .expr i ∧ s.next ≤ a ∧ a < (build ty s.next).2)) o
      (s.push (.expr i) ty) σ α (fun j => if j = i then .none else χ j) := by
  have hb := build_range ty s.next
  have hRi : ∀ a, ¬ R (.expr i) a := fun a hr => (h.res _ _ hr).2.2.2.1 hi
  have htr : ∀ r, (s.push (.expr i) ty).trees r = if r = .expr i then some (build ty s.next).1 else s.trees r :=
    fun _ => rfl
  have hnx : (s.push (.expr i) ty).next = (build ty s.next).2 := rfl
  have hus : (s.push (.expr i) ty).used = s.used := rfl
  refine { newA := ?_, tokA := h.tokA, tokS := h.tokS, tokO := h.tokO, mirror := ?_, bound := ?_, shape := ?_, plain := h.plain, reach := ?_, count := ?_, res := ?_, disj := ?_ }
  · intro a ha; exact h.newA a (by rw [hnx] at ha; omega)
  · intro r T hT
    rw [htr] at hT
    split at hT
    · next e =>
      simp at hT; subst hT; subst e
      apply mirror_dead
      · intro a ha; exact (h.newA a (hb.2 a ha).1).2
      · simp [valOf, Val.wires]
    · next e =>
      have := h.mirror r T hT
      cases r with
      | name n => exact this
      | expr j =>
        have : j ≠ i := fun e' => e (by rw [e'])
        simp only [valOf, this, if_false]
        assumption
  · intro r T a hT ha
    rw [htr] at hT
    rw [hnx]
    split at hT
    · simp at hT; subst hT; exact (hb.2 a ha).2
    · have := h.bound r T a hT ha; omega
  · intro n hn; exact h.shape n (by simpa [htr] using hn)
  · intro a t ha hu
    obtain ⟨r, T, hk, hT, hl⟩ := h.reach a t ha hu
    refine ⟨r, T, List.mem_cons_of_mem _ hk, ?_, hl⟩
    rw [htr, if_neg, hT]
    rintro rfl
    rw [hi] at hT
    simp at hT
  · intro t ht
    rw [hnx, hus, live_ext hb.1 fun a ha => (h.newA a ha).2]
    exact h.count t ht
  · intro r a hr
    rw [hnx, hus, htr]
    rcases hr with hr | ⟨rfl, h1, h2⟩
    · obtain ⟨g1, g2, g3, g4, g5⟩ := h.res r a hr
      refine ⟨by omega, g2, g3, ?_, g5⟩
      split
      · simp
      · exact g4
    · exact ⟨h2, (h.newA a h1).2, (h.newA a h1).1, by simp, i, rfl⟩
  · intro r r' T a hT ha hr
    rw [htr] at hT
    split at hT
    · next e =>
      simp at hT; subst hT
      rcases hr with hr | hr
      · have := (h.res r' a hr).1
        have := (hb.2 a ha).1
        omega
      · rw [e, hr.1]
    · rcases hr with hr | hr
      · exact h.disj r r' T a hT ha hr
      · have := h.bound r T a hT ha
        omega

/-- The value of an expression is known: its tree stands for the wires in flight. -/
theorem Inv.attach {i n : Nat} {v : Val} {ty : LTy}
    (h : Inv Γ (fun r a => R r a ∨ (r = .expr i ∧ n ≤ a ∧ a < (build ty n).2)) (owe o v) s σ α χ)
    (hn : (build ty n).2 ≤ s.next) (hk : .expr i ∈ s.keys)
    (hT : s.trees (.expr i) = some (build ty n).1) (hR : ∀ a, ¬ R (.expr i) a) (hv : Shape ty v) :
    ∃ α', Inv Γ R o s σ α' (fun j => if j = i then v else χ j) := by
  have hlt := owe_wires_lt h
  obtain ⟨α', h1, h2, h3, h4⟩ := Linear.attach s.next s.used ty n v α hv hn (fun a ha hb =>
    ⟨(h.res (.expr i) a (.inr ⟨rfl, ha, hb⟩)).2.1, (h.res (.expr i) a (.inr ⟨rfl, ha, hb⟩)).2.2.1⟩)
  refine ⟨α', { newA := ?_, tokA := ?_, tokS := h.tokS, tokO := ?_, mirror := ?_, bound := h.bound, shape := h.shape, plain := h.plain, reach := ?_, count := ?_, res := ?_, disj := fun r r' T a hT ha hr => h.disj r r' T a hT ha (.inl hr) }⟩
  · intro a ha
    refine ⟨(h.newA a ha).1, ?_⟩
    rw [h1 a (by omega)]
    exact (h.newA a ha).2
  · intro a t ha
    rcases h4 a t ha with e | e
    · exact h.tokA a t e
    · exact hlt t e.1
  · intro t ht
    have := h.tokO t ht
    simp only [owe] at this
    omega
  · intro r T hrT
    by_cases hri : r = .expr i
    · subst hri
      rw [hT] at hrT
      simp at hrT
      subst hrT
      simpa [valOf] using h2
    · have hm := h.mirror r T hrT
      have hm' : Mirror α' T (valOf σ χ r) := by
        apply mirror_congr T _ _ hm
        intro a ha
        apply h1
        intro hc
        exact hri (h.disj r (.expr i) T a hrT ha (.inr ⟨rfl, hc⟩))
      cases r with
      | name m => exact hm'
      | expr j =>
        have : j ≠ i := fun e' => hri (by rw [e'])
        simp only [valOf, this, if_false]
        exact hm'
  · intro a t ha hu
    rcases h4 a t ha with e | e
    · exact h.reach a t e hu
    · exact ⟨_, _, hk, hT, e.2⟩
  · intro t ht
    have := h.count t ht
    rw [h3]
    simp only [owe] at this
    omega
  · intro r a hr
    obtain ⟨g1, g2, g3, g4, g5⟩ := h.res r a (.inl hr)
    refine ⟨g1, ?_, g3, g4, g5⟩
    rw [h1 a, g2]
    intro hc
    have := h.disj (.expr i) r _ a hT
    have := this (build_full ty n a hc.1 hc.2) (.inl hr)
    subst this
    exact hR a hr

/-- An expression refers to (a part of) a tree that is there. -/
theorem Inv.insertExpr {i : Nat} {m : Tree} {w : Val} {R' : Ref → Nat → Prop} (h : Inv Γ R o s σ α χ)
    (hold : ∀ T, s.trees (.expr i) = some T → ∀ a ∈ T.leaves, α a = none)
    (hm : Mirror α m w) (hb : ∀ a ∈ m.all, a < s.next) (hR : ∀ r a, R' r a → R r a)
    (hd : ∀ r a, a ∈ m.all → ¬ R' r a) :
    Inv Γ R' o (s.insert (.expr i) m) σ α (fun j => if j = i then w else χ j) := by
  have htr : ∀ r, (s.insert (.expr i) m).trees r = if r = .expr i then some m else s.trees r := fun _ => rfl
  refine { newA := h.newA, tokA := h.tokA, tokS := h.tokS, tokO := h.tokO, mirror := ?_, bound := ?_, shape := ?_, plain := h.plain, reach := ?_, count := h.count, res := ?_, disj := ?_ }
  · intro r T hT
    rw [htr] at hT
    split at hT
    · next e => simp at hT; subst hT; subst e; simpa [valOf] using hm
    · next e =>
      have := h.mirror r T hT
      cases r with
      | name n => exact this
      | expr j =>
        have : j ≠ i := fun e' => e (by rw [e'])
        simp only [valOf, this, if_false]
        assumption
  · intro r T a hT ha
    rw [htr] at hT
    split at hT
    · simp at hT; subst hT; exact hb a ha
    · exact h.bound r T a hT ha
  · intro n hn; exact h.shape n (by simpa [htr] using hn)
  · intro a t ha hu
    obtain ⟨r, T, hk, hT, hl⟩ := h.reach a t ha hu
    refine ⟨r, T, List.mem_cons_of_mem _ hk, ?_, hl⟩
    rw [htr, if_neg, hT]
    rintro rfl
    rw [hold T hT a hl] at ha
    simp at ha
  · intro r a hr
    obtain ⟨g1, g2, g3, g4, g5⟩ := h.res r a (hR r a hr)
    refine ⟨g1, g2, g3, ?_, g5⟩
    rw [htr]
    split
    · simp
    · exact g4
  · intro r r' T a hT ha hr
    rw [htr] at hT
    split at hT
    · simp at hT; subst hT; exact absurd hr (hd r' a ha)
    · exact h.disj r r' T a hT ha (hR r' a hr)

/-- A name is bound to the value of the expression that stands for it. -/
theorem Inv.insertName {i n : Nat} {T : Tree} (h : Inv Γ R o s σ α χ)
    (hi : s.trees (.expr i) = some T) (hn : s.trees (.name n) = none) (hs : Shape (Γ n) (χ i))
    (hR : ∀ a, ¬ R (.expr i) a) :
    Inv Γ R o (s.insert (.name n) T) (σ.bind n (χ i)) α χ := by
  have htr : ∀ r, (s.insert (.name n) T).trees r = if r = .name n then some T else s.trees r := fun _ => rfl
  refine { newA := h.newA, tokA := h.tokA, tokS := h.tokS, tokO := h.tokO, mirror := ?_, bound := ?_, shape := ?_, plain := ?_, reach := ?_, count := h.count, res := ?_, disj := ?_ }
  · intro r U hU
    rw [htr] at hU
    split at hU
    · next e => simp at hU; subst hU; subst e; simpa [valOf, Sem.bind] using h.mirror _ _ hi
    · next e =>
      have := h.mirror r U hU
      cases r with
      | expr j => exact this
      | name m =>
        have : m ≠ n := fun e' => e (by rw [e'])
        simp only [valOf, Sem.bind, this, if_false]
        assumption
  · intro r U a hU ha
    rw [htr] at hU
    split at hU
    · simp at hU; subst hU; exact h.bound _ _ a hi ha
    · exact h.bound r U a hU ha
  · intro m hm
    rw [htr] at hm
    by_cases e : m = n
    · subst e; simpa [Sem.bind] using hs
    · simp only [Ref.name.injEq, e, if_false] at hm
      simpa [Sem.bind, e] using h.shape m hm
  · intro m hm
    by_cases e : m = n
    · subst e; simpa [Sem.bind] using shape_nonlinear _ _ hm hs
    · simpa [Sem.bind, e] using h.plain m hm
  · intro a t ha hu
    obtain ⟨r, U, hk, hU, hl⟩ := h.reach a t ha hu
    refine ⟨r, U, List.mem_cons_of_mem _ hk, ?_, hl⟩
    rw [htr, if_neg, hU]
    rintro rfl
    rw [hn] at hU
    simp at hU
  · intro r a hr
    obtain ⟨g1, g2, g3, g4, g5⟩ := h.res r a hr
    refine ⟨g1, g2, g3, ?_, g5⟩
    rw [htr]
    split
    · simp
    · exact g4
  · intro r r' U a hU ha hr
    rw [htr] at hU
    split at hU
    · simp at hU; subst hU
      have := h.disj _ _ _ a hi ha hr
      subst this
      exact absurd hr (hR a)
    · exact h.disj r r' U a hU ha hr

/-- A new name with a new tree for the wires in flight. -/
theorem Inv.pushName {n : Nat} {v : Val} (h : Inv Γ R (owe o v) s σ α χ) (hn : s.trees (.name n) = none)
    (hs : Shape (Γ n) v) : ∃ α', Inv Γ R o (s.push (.name n) (Γ n)) (σ.bind n v) α' χ := by
  have hb := build_range (Γ n) s.next
  have hlt := owe_wires_lt h
  obtain ⟨α', h1, h2, h3, h4⟩ := Linear.attach (build (Γ n) s.next).2 s.used (Γ n) s.next v α hs (Nat.le_refl _)
    (fun a ha _ => ⟨(h.newA a ha).2, (h.newA a ha).1⟩)
  have htr : ∀ r, (s.push (.name n) (Γ n)).trees r =
    if r = .name n then some (build (Γ n) s.next).1 else s.trees r := fun _ => rfl
  have hnx : (s.push (.name n) (Γ n)).next = (build (Γ n) s.next).2 := rfl
  have hus : (s.push (.name n) (Γ n)).used = s.used := rfl
  refine ⟨α', { newA := ?_, tokA := ?_, tokS := h.tokS, tokO := ?_, mirror := ?_, bound := ?_, shape := ?_, plain := ?_, reach := ?_, count := ?_, res := ?_, disj := ?_ }⟩
  · intro a ha
    rw [hnx] at ha
    rw [h1 a (by omega)]
    exact h.newA a (by omega)
  · intro a t ha
    rcases h4 a t ha with e | e
    · exact h.tokA a t e
    · exact hlt t e.1
  · intro t ht
    have := h.tokO t ht
    simp only [owe] at this
    omega
  · intro r T hT
    rw [htr] at hT
    split at hT
    · next e => simp at hT; subst hT; subst e; simpa [valOf, Sem.bind] using h2
    · next e =>
      have hm := mirror_congr (α' := α') T _ (fun a ha => h1 a (by
        have := h.bound r T a hT ha; omega)) (h.mirror r T hT)
      cases r with
      | expr j => exact hm
      | name m =>
        have : m ≠ n := fun e' => e (by rw [e'])
        simp only [valOf, Sem.bind, this, if_false]
        exact hm
  · intro r U a hU ha
    rw [htr] at hU
    rw [hnx]
    split at hU
    · simp at hU; subst hU; exact (hb.2 a ha).2
    · have := h.bound r U a hU ha; omega
  · intro m hm
    rw [htr] at hm
    by_cases e : m = n
    · subst e; simpa [Sem.bind] using hs
    · simp only [Ref.name.injEq, e, if_false] at hm
      simpa [Sem.bind, e] using h.shape m hm
  · intro m hm
    by_cases e : m = n
    · subst e; simpa [Sem.bind] using shape_nonlinear _ _ hm hs
    · simpa [Sem.bind, e] using h.plain m hm
  · intro a t ha hu
    rcases h4 a t ha with e | e
    · obtain ⟨r, U, hk, hU, hl⟩ := h.reach a t e hu
      refine ⟨r, U, List.mem_cons_of_mem _ hk, ?_, hl⟩
      rw [htr, if_neg, hU]
      rintro rfl
      rw [hn] at hU
      simp at hU
    · exact ⟨.name n, _, List.mem_cons_self .., by rw [htr, if_pos rfl], e.2⟩
  · intro t ht
    have := h.count t ht
    have h5 := h3 t
    rw [live_ext (α := α) hb.1 fun a ha => (h.newA a ha).2] at h5
    simp only [owe] at this
    rw [hus, hnx, h5]
    show _ + σ.sinks.count t + _ = 1
    omega
  · intro r a hr
    obtain ⟨g1, g2, g3, g4, g5⟩ := h.res r a hr
    rw [hnx, hus, htr]
    refine ⟨by omega, by rw [h1 a (by omega)]; exact g2, g3, ?_, g5⟩
    split
    · simp
    · exact g4
  · intro r r' U a hU ha hr
    rw [htr] at hU
    split at hU
    · simp at hU; subst hU
      have := (h.res r' a hr).1
      have := (hb.2 a ha).1
      omega
    · exact h.disj r r' U a hU ha hr

end Spade.Linear

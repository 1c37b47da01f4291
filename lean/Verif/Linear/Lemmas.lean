import Verif.Linear.Model
/-!
# Trees of leaves and the wires they stand for
-/
namespace Spade.Linear

mutual
/-- The value has the wires its type says. -/
def Shape : LTy → Val → Prop
  | .copy, v => v.wires = []
  | .wire, v => ∃ t, v = .wire t
  | .node ts, v => (∃ vs, v = .node vs ∧ ShapeAll ts vs) ∨ (anyLinear ts = false ∧ v.wires = [])
  | .view _, v => v.wires = []
/-- for all members -/
def ShapeAll : List LTy → List Val → Prop
  | [], vs => vs = []
  | t :: ts, vs => ∃ w ws, vs = w :: ws ∧ Shape t w ∧ ShapeAll ts ws
end

mutual
/-- Leaves that are consumed with the tree. -/
def Tree.leaves : Tree → List Nat
  | .free => []
  | .leaf a => [a]
  | .node ts => leavesAll ts
  | .view _ => []
def leavesAll : List Tree → List Nat
  | [] => []
  | t :: ts => t.leaves ++ leavesAll ts
end

mutual
/-- Leaves of a tree. -/
def Tree.all : Tree → List Nat
  | .free => []
  | .leaf a => [a]
  | .node ts => allAll ts
  | .view t => t.all
def allAll : List Tree → List Nat
  | [] => []
  | t :: ts => t.all ++ allAll ts
end

mutual
/-- The leaves of the tree stand for the wires of the value. `α a` is the wire leaf `a` stands for. -/
def Mirror (α : Nat → Option Nat) : Tree → Val → Prop
  | .free, v => v.wires = []
  | .leaf a, v => (∃ t, v = .wire t ∧ α a = some t) ∨ (v.wires = [] ∧ α a = none)
  | .node ts, v => (∃ vs, v = .node vs ∧ MirrorAll α ts vs) ∨ (v.wires = [] ∧ ∀ a ∈ allAll ts, α a = none)
  | .view t, v => v.wires = [] ∧ ∀ a ∈ t.all, α a = none
def MirrorAll (α : Nat → Option Nat) : List Tree → List Val → Prop
  | [], vs => vs = []
  | t :: ts, vs => ∃ w ws, vs = w :: ws ∧ Mirror α t w ∧ MirrorAll α ts ws
end

/-! ## Shapes -/

mutual
theorem shape_nonlinear : ∀ (ty : LTy) (v : Val), ty.linear = false → Shape ty v → v.wires = []
  | .copy, v, _, h => h
  | .wire, v, hl, _ => by simp [LTy.linear] at hl
  | .node ts, v, hl, h => by
    rcases h with ⟨vs, rfl, h⟩ | ⟨_, h⟩
    · exact shapeAll_nonlinear ts vs (by simpa [LTy.linear] using hl) h
    · exact h
  | .view _, v, _, h => h
theorem shapeAll_nonlinear : ∀ (ts : List LTy) (vs : List Val), anyLinear ts = false →
    ShapeAll ts vs → allWires vs = []
  | [], vs, _, h => by simp only [ShapeAll] at h; subst h; rfl
  | t :: ts, vs, hl, h => by
    obtain ⟨w, ws, rfl, hw, hws⟩ := h
    simp only [anyLinear, Bool.or_eq_false_iff] at hl
    simp [allWires, shape_nonlinear t w hl.1 hw, shapeAll_nonlinear ts ws hl.2 hws]
end

theorem nonlinear_shape {ty : LTy} {v : Val} (hl : ty.linear = false) (h : v.wires = []) : Shape ty v := by
  cases ty with
  | copy => exact h
  | wire => simp [LTy.linear] at hl
  | node ts => exact .inr ⟨by simpa [LTy.linear] using hl, h⟩
  | view t => exact h

theorem allWires_mem {vs : List Val} {v : Val} (h : v ∈ vs) {t : Nat} (ht : t ∈ v.wires) : t ∈ allWires vs := by
  induction vs with
  | nil => simp at h
  | cons w ws ih =>
    simp only [allWires, List.mem_append]
    rcases List.mem_cons.1 h with rfl | h
    · exact .inl ht
    · exact .inr (ih h)

theorem nth_wires_mem {v : Val} {i t : Nat} (ht : t ∈ (v.nth i).wires) : t ∈ v.wires := by
  cases v with
  | none => simp [Val.nth, Val.wires] at ht
  | wire _ => simp [Val.nth, Val.wires] at ht
  | node vs =>
    simp only [Val.nth] at ht
    cases h : vs[i]? with
    | none => simp [h, Val.wires] at ht
    | some w =>
      rw [h] at ht
      exact allWires_mem (List.mem_of_getElem? h) ht

theorem nth_wires_nil {v : Val} (h : v.wires = []) (i : Nat) : (v.nth i).wires = [] := by
  apply List.eq_nil_iff_forall_not_mem.2
  intro t ht
  have := nth_wires_mem ht
  rw [h] at this
  simp at this

theorem shapeAll_get {ts : List LTy} {vs : List Val} (h : ShapeAll ts vs) {i : Nat} {t : LTy}
    (hi : ts[i]? = some t) : ∃ w, vs[i]? = some w ∧ Shape t w := by
  induction ts generalizing vs i with
  | nil => simp at hi
  | cons u us ih =>
    obtain ⟨w, ws, rfl, hw, hws⟩ := h
    cases i with
    | zero => simp at hi; subst hi; exact ⟨w, by simp, hw⟩
    | succ i => simp at hi; obtain ⟨x, hx, hs⟩ := ih hws hi; exact ⟨x, by simpa using hx, hs⟩

theorem anyLinear_get {ts : List LTy} (h : anyLinear ts = false) {i : Nat} {t : LTy}
    (hi : ts[i]? = some t) : t.linear = false := by
  induction ts generalizing i with
  | nil => simp at hi
  | cons u us ih =>
    simp only [anyLinear, Bool.or_eq_false_iff] at h
    cases i with
    | zero => simp at hi; subst hi; exact h.1
    | succ i => simp at hi; exact ih h.2 hi

theorem shape_nth {ts : List LTy} {v : Val} (h : Shape (.node ts) v) {i : Nat} {t : LTy}
    (hi : ts[i]? = some t) : Shape t (v.nth i) := by
  rcases h with ⟨vs, rfl, h⟩ | ⟨hl, h⟩
  · obtain ⟨w, hw, hs⟩ := shapeAll_get h hi
    simpa [Val.nth, hw] using hs
  · exact nonlinear_shape (anyLinear_get hl hi) (nth_wires_nil h i)

mutual
theorem fresh_shape : ∀ (ty : LTy) (n : Nat), Shape ty (fresh ty n).1
  | .copy, n => rfl
  | .wire, n => ⟨n, rfl⟩
  | .node ts, n => .inl ⟨_, rfl, freshAll_shape ts n⟩
  | .view t, n => rfl
theorem freshAll_shape : ∀ (ts : List LTy) (n : Nat), ShapeAll ts (freshAll ts n).1
  | [], n => rfl
  | t :: ts, n => ⟨_, _, rfl, fresh_shape t n, freshAll_shape ts _⟩
end

mutual
/-- The new wires are the numbers from `n` on. -/
theorem fresh_wires : ∀ (ty : LTy) (n : Nat), n ≤ (fresh ty n).2 ∧
    (fresh ty n).1.wires = List.range' n ((fresh ty n).2 - n)
  | .copy, n => by simp [fresh, Val.wires]
  | .wire, n => by simp [fresh, Val.wires]
  | .node ts, n => by simpa [fresh, Val.wires] using freshAll_wires ts n
  | .view t, n => by simp [fresh, Val.wires]
theorem freshAll_wires : ∀ (ts : List LTy) (n : Nat), n ≤ (freshAll ts n).2 ∧
    allWires (freshAll ts n).1 = List.range' n ((freshAll ts n).2 - n)
  | [], n => by simp [freshAll, allWires]
  | t :: ts, n => by
    have h := fresh_wires t n
    have g := freshAll_wires ts (fresh t n).2
    refine ⟨by simp only [freshAll]; omega, ?_⟩
    simp only [freshAll, allWires, h.2, g.2]
    rw [show (freshAll ts (fresh t n).2).2 - n = ((fresh t n).2 - n) +
      ((freshAll ts (fresh t n).2).2 - (fresh t n).2) by omega, List.range'_append_1.symm]
    congr 2
    omega
end

/-! ## Trees built from types -/

theorem leavesAll_sub_aux : ∀ t : Tree, ∀ a ∈ t.leaves, a ∈ t.all := by
  intro t
  induction t using Tree.rec (motive_2 := fun ts => ∀ a ∈ leavesAll ts, a ∈ allAll ts) with
  | free => simp [Tree.leaves]
  | leaf a => simp [Tree.leaves, Tree.all]
  | node ts ih => simpa [Tree.leaves, Tree.all] using ih
  | view t ih => simp [Tree.leaves]
  | nil => rename_i a ha; simp [leavesAll] at ha
  | cons t ts h1 h2 =>
    rename_i a ha
    simp only [leavesAll, allAll, List.mem_append] at ha ⊢
    exact ha.imp (h1 a) (h2 a)

mutual
theorem build_range : ∀ (ty : LTy) (n : Nat), n ≤ (build ty n).2 ∧
    ∀ a ∈ (build ty n).1.all, n ≤ a ∧ a < (build ty n).2
  | .copy, n => by simp [build, Tree.all]
  | .wire, n => by simp [build, Tree.all]
  | .node ts, n => by simpa [build, Tree.all] using buildAll_range ts n
  | .view t, n => by simpa [build, Tree.all] using build_range t n
theorem buildAll_range : ∀ (ts : List LTy) (n : Nat), n ≤ (buildAll ts n).2 ∧
    ∀ a ∈ allAll (buildAll ts n).1, n ≤ a ∧ a < (buildAll ts n).2
  | [], n => by simp [buildAll, allAll]
  | t :: ts, n => by
    have h := build_range t n
    have g := buildAll_range ts (build t n).2
    refine ⟨by simp only [buildAll]; omega, fun a ha => ?_⟩
    simp only [buildAll, allAll, List.mem_append] at ha ⊢
    rcases ha with ha | ha
    · have := h.2 a ha; omega
    · have := g.2 a ha; omega
end

mutual
theorem build_full : ∀ (ty : LTy) (n a : Nat), n ≤ a → a < (build ty n).2 → a ∈ (build ty n).1.all
  | .copy, n, a, h1, h2 => by simp only [build] at h2; omega
  | .wire, n, a, h1, h2 => by simp only [build] at h2; simp [build, Tree.all]; omega
  | .node ts, n, a, h1, h2 => by simpa [build, Tree.all] using buildAll_full ts n a h1 h2
  | .view t, n, a, h1, h2 => by simpa [build, Tree.all] using build_full t n a h1 h2
theorem buildAll_full : ∀ (ts : List LTy) (n a : Nat), n ≤ a → a < (buildAll ts n).2 →
    a ∈ allAll (buildAll ts n).1
  | [], n, a, h1, h2 => by simp only [buildAll] at h2; omega
  | t :: ts, n, a, h1, h2 => by
    simp only [buildAll, allAll, List.mem_append] at h2 ⊢
    rcases Nat.lt_or_ge a (build t n).2 with h | h
    · exact .inl (build_full t n a h1 h)
    · exact .inr (buildAll_full ts _ a h h2)
end

/-! ## Live leaves -/

/-- How many leaves stand for a wire and are not consumed. -/
def live (α : Nat → Option Nat) (u : Nat → Bool) : Nat → Nat → Nat
  | 0, _ => 0
  | n + 1, t => live α u n t + if α n = some t ∧ u n = false then 1 else 0

theorem live_congr {α α' : Nat → Option Nat} {u u' : Nat → Bool} {n t : Nat}
    (h : ∀ a < n, α' a = α a ∧ u' a = u a) : live α' u' n t = live α u n t := by
  induction n with
  | zero => rfl
  | succ n ih =>
    simp only [live]
    rw [ih fun a ha => h a (by omega), (h n (by omega)).1, (h n (by omega)).2]

theorem live_ext {α : Nat → Option Nat} {u : Nat → Bool} {n m t : Nat} (hnm : n ≤ m)
    (h : ∀ a, n ≤ a → α a = none) : live α u m t = live α u n t := by
  induction m with
  | zero => simp at hnm; subst hnm; rfl
  | succ m ih =>
    rcases Nat.lt_or_ge m n with hlt | hge
    · have : n = m + 1 := by omega
      rw [this]
    · simp [live, h m hge, ih hge]

theorem live_flip {α : Nat → Option Nat} {u : Nat → Bool} {n a t : Nat} (ha : a < n) (hu : u a = false) :
    live α (fun b => if b = a then true else u b) n t + (if α a = some t then 1 else 0) = live α u n t := by
  induction n with
  | zero => omega
  | succ n ih =>
    rcases Nat.lt_or_ge a n with hlt | hge
    · have := ih hlt
      have hne : n ≠ a := by omega
      simp only [live, hne, if_false]
      omega
    · have : a = n := by omega
      subst this
      simp only [live]
      rw [live_congr (α' := α) (α := α) (u := u) (fun b hb => ⟨rfl, by
        have : b ≠ a := by omega
        simp [this]⟩)]
      simp [hu]

theorem live_set {α : Nat → Option Nat} {u : Nat → Bool} {n a w t : Nat} (ha : a < n) (hu : u a = false)
    (hα : α a = none) : live (fun b => if b = a then some w else α b) u n t =
      live α u n t + if w = t then 1 else 0 := by
  induction n with
  | zero => omega
  | succ n ih =>
    rcases Nat.lt_or_ge a n with hlt | hge
    · have := ih hlt
      have hne : n ≠ a := by omega
      simp only [live, hne, if_false]
      omega
    · have : a = n := by omega
      subst this
      simp only [live]
      rw [live_congr (α := α) (u' := u) (u := u) (fun b hb => ⟨by
        have : b ≠ a := by omega
        simp [this], rfl⟩)]
      simp [hu, hα]

/-! ## Consuming a tree -/

theorem tryConsume_spec_aux (α : Nat → Option Nat) (n : Nat) : ∀ T : Tree, ∀ u u', tryConsume T u = some u' →
    (∀ a ∈ T.leaves, a < n) →
    (∀ t, live α u' n t + (T.leaves.filterMap α).count t = live α u n t) ∧
    (∀ a, u' a = true ↔ u a = true ∨ a ∈ T.leaves) := by
  intro T
  induction T using Tree.rec (motive_2 := fun ts => ∀ u u', tryConsumeAll ts u = some u' →
    (∀ a ∈ leavesAll ts, a < n) →
    (∀ t, live α u' n t + ((leavesAll ts).filterMap α).count t = live α u n t) ∧
    (∀ a, u' a = true ↔ u a = true ∨ a ∈ leavesAll ts)) with
  | free => intro u u' h; simp [tryConsume] at h; subst h; simp [Tree.leaves]
  | view t ih => intro u u' h; simp [tryConsume] at h; subst h; simp [Tree.leaves]
  | leaf a =>
    intro u u' h hn
    simp only [tryConsume] at h
    split at h
    · simp at h
    · next hu =>
      simp at hu h
      subst h
      constructor
      · intro t
        rw [← live_flip (hn a (by simp [Tree.leaves])) hu]
        cases hα : α a with
        | none => simp [Tree.leaves, hα]
        | some w => simp [Tree.leaves, hα, List.count_singleton]
      · intro b
        simp only [Tree.leaves, List.mem_singleton]
        by_cases hb : b = a <;> simp [hb]
  | node ts ih => intro u u' h; simpa [Tree.leaves] using ih u u' h
  | nil => rename_i u u' h hn; simp [tryConsumeAll] at h; subst h; simp [leavesAll]
  | cons t ts h1 h2 =>
    rename_i u u' h hn
    simp only [tryConsumeAll] at h
    obtain ⟨u1, hu1, hu2⟩ := Option.bind_eq_some_iff.1 h
    have g1 := h1 u u1 hu1 (fun a ha => hn a (by simp [leavesAll, ha]))
    have g2 := h2 u1 u' hu2 (fun a ha => hn a (by simp [leavesAll, ha]))
    constructor
    · intro w
      have := g1.1 w
      have := g2.1 w
      simp only [leavesAll, List.filterMap_append, List.count_append]
      omega
    · intro a
      rw [g2.2 a, g1.2 a]
      simp [leavesAll, or_assoc]

theorem tryConsume_spec {α : Nat → Option Nat} {n : Nat} {T : Tree} {u u' : Nat → Bool}
    (h : tryConsume T u = some u') (hn : ∀ a ∈ T.leaves, a < n) :
    (∀ t, live α u' n t + (T.leaves.filterMap α).count t = live α u n t) ∧
    (∀ a, u' a = true ↔ u a = true ∨ a ∈ T.leaves) := tryConsume_spec_aux α n T u u' h hn

/-! ## Mirrors -/

theorem filterMap_none {α : Nat → Option Nat} {l : List Nat} (h : ∀ a ∈ l, α a = none) :
    l.filterMap α = [] := by
  induction l with
  | nil => rfl
  | cons a l ih => simp [List.filterMap, h a (by simp), ih fun b hb => h b (by simp [hb])]

theorem leavesAll_sub (ts : List Tree) : ∀ a ∈ leavesAll ts, a ∈ allAll ts := by
  have := leavesAll_sub_aux (.node ts)
  simpa [Tree.leaves, Tree.all] using this

mutual
theorem mirror_wires (α : Nat → Option Nat) : ∀ (T : Tree) (v : Val), Mirror α T v →
    T.leaves.filterMap α = v.wires
  | .free, v, h => by simp only [Mirror] at h; simp [Tree.leaves, h]
  | .leaf a, v, h => by
    rcases h with ⟨t, rfl, h⟩ | ⟨hv, h⟩
    · simp [Tree.leaves, h, Val.wires]
    · simp [Tree.leaves, h, hv]
  | .node ts, v, h => by
    rcases h with ⟨vs, rfl, h⟩ | ⟨hv, h⟩
    · simpa [Tree.leaves, Val.wires] using mirrorAll_wires α ts vs h
    · rw [hv]; exact filterMap_none fun a ha => h a (leavesAll_sub ts a ha)
  | .view t, v, h => by simp [Tree.leaves, h.1]
theorem mirrorAll_wires (α : Nat → Option Nat) : ∀ (ts : List Tree) (vs : List Val), MirrorAll α ts vs →
    (leavesAll ts).filterMap α = allWires vs
  | [], vs, h => by simp only [MirrorAll] at h; subst h; rfl
  | t :: ts, vs, h => by
    obtain ⟨w, ws, rfl, hw, hws⟩ := h
    simp [leavesAll, allWires, mirror_wires α t w hw, mirrorAll_wires α ts ws hws]
end

mutual
theorem mirror_congr {α α' : Nat → Option Nat} : ∀ (T : Tree) (v : Val), (∀ a ∈ T.all, α' a = α a) →
    Mirror α T v → Mirror α' T v
  | .free, v, _, h => h
  | .leaf a, v, he, h => by
    simp only [Mirror, he a (by simp [Tree.all])] at h ⊢; exact h
  | .node ts, v, he, h => by
    rcases h with ⟨vs, rfl, h⟩ | ⟨hv, h⟩
    · exact .inl ⟨vs, rfl, mirrorAll_congr ts vs (by simpa [Tree.all] using he) h⟩
    · exact .inr ⟨hv, fun a ha => by rw [he a (by simpa [Tree.all] using ha), h a ha]⟩
  | .view t, v, he, h => ⟨h.1, fun a ha => by rw [he a (by simpa [Tree.all] using ha), h.2 a ha]⟩
theorem mirrorAll_congr {α α' : Nat → Option Nat} : ∀ (ts : List Tree) (vs : List Val),
    (∀ a ∈ allAll ts, α' a = α a) → MirrorAll α ts vs → MirrorAll α' ts vs
  | [], vs, _, h => h
  | t :: ts, vs, he, h => by
    obtain ⟨w, ws, rfl, hw, hws⟩ := h
    exact ⟨w, ws, rfl, mirror_congr t w (fun a ha => he a (by simp [allAll, ha])) hw,
      mirrorAll_congr ts ws (fun a ha => he a (by simp [allAll, ha])) hws⟩
end

theorem mirror_dead {α : Nat → Option Nat} {T : Tree} {v : Val} (h : ∀ a ∈ T.all, α a = none)
    (hv : v.wires = []) : Mirror α T v := by
  cases T with
  | free => exact hv
  | leaf a => exact .inr ⟨hv, h a (by simp [Tree.all])⟩
  | node ts => exact .inr ⟨hv, by simpa [Tree.all] using h⟩
  | view t => exact ⟨hv, by simpa [Tree.all] using h⟩

theorem allAll_mem {ts : List Tree} {t : Tree} (h : t ∈ ts) {a : Nat} (ha : a ∈ t.all) : a ∈ allAll ts := by
  induction ts with
  | nil => simp at h
  | cons u us ih =>
    simp only [allAll, List.mem_append]
    rcases List.mem_cons.1 h with rfl | h
    · exact .inl ha
    · exact .inr (ih h)

theorem mirrorAll_get {α : Nat → Option Nat} {ts : List Tree} {vs : List Val} (h : MirrorAll α ts vs)
    {i : Nat} {m : Tree} (hi : ts[i]? = some m) : ∃ w, vs[i]? = some w ∧ Mirror α m w := by
  induction ts generalizing vs i with
  | nil => simp at hi
  | cons u us ih =>
    obtain ⟨w, ws, rfl, hw, hws⟩ := h
    cases i with
    | zero => simp at hi; subst hi; exact ⟨w, by simp, hw⟩
    | succ i => simp at hi; obtain ⟨x, hx, hs⟩ := ih hws hi; exact ⟨x, by simpa using hx, hs⟩

theorem peel_all (T : Tree) : T.peel.all = T.all := by
  induction T using Tree.rec (motive_2 := fun _ => True) with
  | view t ih => simpa [Tree.peel, Tree.all] using ih
  | _ => first | rfl | trivial

theorem member_all {T m : Tree} {i : Nat} (h : T.member i = some m) : ∀ a ∈ m.all, a ∈ T.all := by
  intro a ha
  simp only [Tree.member] at h
  split at h
  · next ts hp =>
    rw [← peel_all, hp]
    exact allAll_mem (List.mem_of_getElem? h) ha
  · simp at h

theorem mirror_member {α : Nat → Option Nat} {T m : Tree} {v : Val} {i : Nat} (h : Mirror α T v)
    (hm : T.member i = some m) : Mirror α m (v.nth i) := by
  have hall := member_all hm
  cases T with
  | free => simp [Tree.member, Tree.peel] at hm
  | leaf a => simp [Tree.member, Tree.peel] at hm
  | node ts =>
    simp only [Tree.member, Tree.peel] at hm
    rcases h with ⟨vs, rfl, h⟩ | ⟨hv, h⟩
    · obtain ⟨w, hw, hs⟩ := mirrorAll_get h hm
      simpa [Val.nth, hw] using hs
    · exact mirror_dead (fun a ha => h a (hall a ha)) (nth_wires_nil hv i)
  | view t =>
    exact mirror_dead (fun a ha => h.2 a (hall a ha)) (nth_wires_nil h.1 i)

/-! ## Letting a new tree stand for a value -/

mutual
theorem attach (N : Nat) (u : Nat → Bool) : ∀ (ty : LTy) (n : Nat) (v : Val) (α : Nat → Option Nat),
    Shape ty v → (build ty n).2 ≤ N → (∀ a, n ≤ a → a < (build ty n).2 → α a = none ∧ u a = false) →
    ∃ α', (∀ a, ¬ (n ≤ a ∧ a < (build ty n).2) → α' a = α a) ∧ Mirror α' (build ty n).1 v ∧
      (∀ t, live α' u N t = live α u N t + v.wires.count t) ∧
      (∀ a t, α' a = some t → α a = some t ∨ (t ∈ v.wires ∧ a ∈ (build ty n).1.leaves))
  | .copy, n, v, α, hs, _, _ => by
    simp only [Shape] at hs
    exact ⟨α, fun _ _ => rfl, hs, fun t => by simp [hs], fun a t h => .inl h⟩
  | .view ty, n, v, α, hs, _, hf => by
    simp only [Shape] at hs
    refine ⟨α, fun _ _ => rfl, ⟨hs, fun a ha => ?_⟩, fun t => by simp [hs], fun a t h => .inl h⟩
    have := (build_range ty n).2 a ha
    exact (hf a this.1 (by simpa [build] using this.2)).1
  | .wire, n, v, α, hs, hN, hf => by
    obtain ⟨w, rfl⟩ := hs
    simp only [build] at hN hf ⊢
    have hfn := hf n (by omega) (by omega)
    refine ⟨fun b => if b = n then some w else α b, fun a ha => ?_, .inl ⟨w, rfl, by simp⟩, fun t => ?_,
      fun a t h => ?_⟩
    · have : a ≠ n := by omega
      simp [this]
    · rw [live_set (by omega) hfn.2 hfn.1]
      simp [Val.wires, List.count_singleton]
    · by_cases ha : a = n
      · simp [ha] at h; exact .inr (by simp [Val.wires, Tree.leaves, h, ha])
      · simp [ha] at h; exact .inl h
  | .node ts, n, v, α, hs, hN, hf => by
    rcases hs with ⟨vs, rfl, hs⟩ | ⟨hl, hs⟩
    · simp only [build] at hN hf ⊢
      obtain ⟨α', h1, h2, h3, h4⟩ := attachAll N u ts n vs α hs hN hf
      exact ⟨α', h1, .inl ⟨vs, rfl, h2⟩, h3, by simpa [Val.wires, Tree.leaves] using h4⟩
    · refine ⟨α, fun _ _ => rfl, mirror_dead (fun a ha => ?_) hs, fun t => by simp [hs],
        fun a t h => .inl h⟩
      have := (build_range (.node ts) n).2 a ha
      exact (hf a this.1 this.2).1
theorem attachAll (N : Nat) (u : Nat → Bool) : ∀ (ts : List LTy) (n : Nat) (vs : List Val)
    (α : Nat → Option Nat), ShapeAll ts vs → (buildAll ts n).2 ≤ N →
    (∀ a, n ≤ a → a < (buildAll ts n).2 → α a = none ∧ u a = false) →
    ∃ α', (∀ a, ¬ (n ≤ a ∧ a < (buildAll ts n).2) → α' a = α a) ∧ MirrorAll α' (buildAll ts n).1 vs ∧
      (∀ t, live α' u N t = live α u N t + (allWires vs).count t) ∧
      (∀ a t, α' a = some t → α a = some t ∨ (t ∈ allWires vs ∧ a ∈ leavesAll (buildAll ts n).1))
  | [], n, vs, α, hs, _, _ => by
    simp only [ShapeAll] at hs
    subst hs
    exact ⟨α, fun _ _ => rfl, rfl, fun t => by simp [allWires], fun a t h => .inl h⟩
  | ty :: ts, n, vs, α, hs, hN, hf => by
    obtain ⟨w, ws, rfl, hw, hws⟩ := hs
    have r1 := build_range ty n
    have r2 := buildAll_range ts (build ty n).2
    simp only [buildAll] at hN hf ⊢
    obtain ⟨α1, a1, a2, a3, a4⟩ := attach N u ty n w α hw (by omega) (fun a h1 h2 => hf a h1 (by omega))
    obtain ⟨α2, b1, b2, b3, b4⟩ := attachAll N u ts (build ty n).2 ws α1 hws hN (fun a h1 h2 => by
      rw [a1 a (by omega)]
      exact hf a (by omega) h2)
    refine ⟨α2, fun a ha => ?_, ⟨w, ws, rfl, ?_, b2⟩, fun t => ?_, fun a t h => ?_⟩
    · rw [b1 a (by omega), a1 a (by omega)]
    · exact mirror_congr _ _ (fun a ha => b1 a (by have := r1.2 a ha; omega)) a2
    · rw [b3, a3]; simp [allWires]; omega
    · simp only [allWires, leavesAll, List.mem_append]
      rcases b4 a t h with h | h
      · rcases a4 a t h with h | h
        · exact .inl h
        · exact .inr ⟨.inl h.1, .inl h.2⟩
      · exact .inr ⟨.inr h.1, .inr h.2⟩
end

end Spade.Linear

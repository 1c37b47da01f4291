import Verif.Fifo.Inv
/-! # A long reset leads to the empty FIFO -/
namespace Spade.Fifo

/-- The pointers and Gray registers after some edges of each clock. -/
structure Clear1 {W D} (s : State W D) (kw kr : Nat) : Prop where
  w1 : 1 ≤ kw → s.w.ptr = 0
  w2 : 2 ≤ kw → s.w.gray = toGray 0
  r1 : 1 ≤ kr → s.r.ptr = 0
  r2 : 2 ≤ kr → s.r.gray = toGray 0

/-- The synchronisers after some edges of each clock. -/
structure Clear2 {W D} (s : State W D) (kw kr : Nat) : Prop where
  wp : s.w.ptr = 0
  wg : s.w.gray = toGray 0
  rp : s.r.ptr = 0
  rg : s.r.gray = toGray 0
  w1 : 1 ≤ kw → s.w.sync1 = toGray 0
  w2 : 2 ≤ kw → s.w.sync2 = toGray 0
  r1 : 1 ≤ kr → s.r.sync1 = toGray 0
  r2 : 2 ≤ kr → s.r.sync2 = toGray 0

/-- An edge of the write clock. -/
def Edge.w {D} (e : Edge D) : Nat := if e.isWrite then 1 else 0
/-- An edge of the read clock. -/
def Edge.r {D} (e : Edge D) : Nat := if e.isRead then 1 else 0

theorem Clear1.step {W D} {C} {s : State W D} {kw kr} (h : Clear1 s kw kr) (e : Edge D)
    (he : e.resetting = true) : Clear1 (s.step C e) (kw + e.w) (kr + e.r) := by
  cases e with
  | write v rst =>
    simp only [Edge.resetting] at he; subst he
    exact ⟨fun _ => rfl, fun hk => congrArg toGray (h.w1 (by simp [Edge.w, Edge.isWrite] at hk; omega)),
      h.r1, h.r2⟩
  | read ack rst l =>
    simp only [Edge.resetting] at he; subst he
    exact ⟨h.w1, h.w2, fun _ => rfl,
      fun hk => congrArg toGray (h.r1 (by simp [Edge.r, Edge.isRead] at hk; omega))⟩
  | both v wrst ack rrst l =>
    simp only [Edge.resetting, Bool.and_eq_true] at he
    obtain ⟨rfl, rfl⟩ := he
    exact ⟨fun _ => rfl, fun hk => congrArg toGray (h.w1 (by simp [Edge.w, Edge.isWrite] at hk; omega)),
      fun _ => rfl, fun hk => congrArg toGray (h.r1 (by simp [Edge.r, Edge.isRead] at hk; omega))⟩

theorem Clear2.step {W D} {C} {s : State W D} {kw kr} (h : Clear2 s kw kr) (e : Edge D)
    (he : e.resetting = true) : Clear2 (s.step C e) (kw + e.w) (kr + e.r) := by
  have hw := congrArg toGray h.wp
  have hr := congrArg toGray h.rp
  cases e with
  | write v rst =>
    simp only [Edge.resetting] at he; subst he
    exact ⟨rfl, hw, h.rp, h.rg, fun _ => h.rg,
      fun hk => h.w1 (by simp [Edge.w, Edge.isWrite] at hk; omega), h.r1, h.r2⟩
  | read ack rst l =>
    simp only [Edge.resetting] at he; subst he
    exact ⟨h.wp, h.wg, rfl, hr, h.w1, h.w2, fun _ => h.wg,
      fun hk => h.r1 (by simp [Edge.r, Edge.isRead] at hk; omega)⟩
  | both v wrst ack rrst l =>
    simp only [Edge.resetting, Bool.and_eq_true] at he
    obtain ⟨rfl, rfl⟩ := he
    refine ⟨rfl, hw, rfl, hr, fun _ => ?_,
      fun hk => h.w1 (by simp [Edge.w, Edge.isWrite] at hk; omega), fun _ => ?_,
      fun hk => h.r1 (by simp [Edge.r, Edge.isRead] at hk; omega)⟩
    · show mix l.bitsR s.r.gray (toGray s.r.ptr) = _
      rw [hr, h.rg, mix_same]
    · show mix l.bitsW s.w.gray (toGray s.w.ptr) = _
      rw [hw, h.wg, mix_same]

theorem countP_cons_w {D} (e : Edge D) (es : List (Edge D)) :
    (e :: es).countP Edge.isWrite = e.w + es.countP Edge.isWrite := by
  rw [List.countP_cons, Edge.w]; omega

theorem countP_cons_r {D} (e : Edge D) (es : List (Edge D)) :
    (e :: es).countP Edge.isRead = e.r + es.countP Edge.isRead := by
  rw [List.countP_cons, Edge.r]; omega

theorem Clear1.run {W D} {C} : ∀ (es : List (Edge D)) {s : State W D} {kw kr}, Clear1 s kw kr →
    (∀ e ∈ es, e.resetting = true) →
    Clear1 (s.run C es) (kw + es.countP Edge.isWrite) (kr + es.countP Edge.isRead)
  | [], _, _, _, h, _ => h
  | e :: es, s, kw, kr, h, he => by
    have := Clear1.run es (C := C) (h.step (C := C) e (he e (by simp))) fun e' he' =>
      he e' (by simp [he'])
    rw [countP_cons_w, countP_cons_r, ← Nat.add_assoc, ← Nat.add_assoc]
    exact this

theorem Clear2.run {W D} {C} : ∀ (es : List (Edge D)) {s : State W D} {kw kr}, Clear2 s kw kr →
    (∀ e ∈ es, e.resetting = true) →
    Clear2 (s.run C es) (kw + es.countP Edge.isWrite) (kr + es.countP Edge.isRead)
  | [], _, _, _, h, _ => h
  | e :: es, s, kw, kr, h, he => by
    have := Clear2.run es (C := C) (h.step (C := C) e (he e (by simp))) fun e' he' =>
      he e' (by simp [he'])
    rw [countP_cons_w, countP_cons_r, ← Nat.add_assoc, ← Nat.add_assoc]
    exact this

theorem State.run_append {W D} {C} : ∀ (a b : List (Edge D)) (s : State W D),
    s.run C (a ++ b) = (s.run C a).run C b
  | [], _, _ => rfl
  | e :: a, b, s => State.run_append a b (s.step C e)

theorem State.trace_append {W D} {C} : ∀ (a b : List (Edge D)) (s : State W D),
    s.trace C (a ++ b) = s.trace C a ++ (s.run C a).trace C b
  | [], _, _ => rfl
  | e :: a, b, s => by
    show _ :: (s.step C e).trace C (a ++ b) = _
    rw [State.trace_append a b]; rfl

/-- After a long reset the FIFO is empty, whatever it was before. -/
theorem inv_of_reset {W D} {C} (s : State W D) (pre : List (Edge D)) (h : LongReset pre) :
    Inv (s.run C pre) [] 0 0 0 0 0 0 0 := by
  obtain ⟨hall, a, b, rfl, h1, h2, h3, h4⟩ := h
  have c1 := Clear1.run (C := C) a (s := s) (kw := 0) (kr := 0)
    ⟨by omega, by omega, by omega, by omega⟩ fun e he => hall e (by simp [he])
  have c2 := Clear2.run (C := C) b (s := s.run C a) (kw := 0) (kr := 0)
    ⟨c1.w1 (by omega), c1.w2 (by omega), c1.r1 (by omega), c1.r2 (by omega), by omega, by omega,
      by omega, by omega⟩ fun e he => hall e (by simp [he])
  rw [State.run_append]
  exact ⟨⟨c2.wp, c2.wg, c2.w1 (by omega), c2.w2 (by omega)⟩,
    ⟨c2.rp, c2.rg, c2.r1 (by omega), c2.r2 (by omega)⟩,
    ⟨by simp, by simp, by simp, by simp, by simp, by simp, by simp, by simp, by simp,
      by simpa using Nat.two_pow_pos W⟩, by simp, by simp⟩

end Spade.Fifo

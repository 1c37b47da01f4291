import Verif.Fifo.Reset
/-! # The FIFO between clock domains is a queue -/
namespace Spade.Fifo

theorem trace_cons {W D} (C : Nat) (s : State W D) (e : Edge D) (es : List (Edge D)) :
    s.trace C (e :: es) = (s.ports C, e) :: (s.step C e).trace C es := rfl

theorem run_cons {W D} (C : Nat) (s : State W D) (e : Edge D) (es : List (Edge D)) :
    s.run C (e :: es) = (s.step C e).run C es := rfl

/-- What an edge takes is the next value. -/
theorem taken_now {W D} {C} {s : State W D} {A r wg w1 w2 rg r1 r2}
    (h : Inv s A r wg w1 w2 rg r1 r2) (ack : Bool) :
    A.take (r + s.r.takes ack) = A.take r ++ (if ack then (s.ports C).read.toList else []) := by
  have hp : (s.ports C).read = if s.r.empty then none else some s.r.out := rfl
  rw [hp]
  unfold RSide.takes
  cases ack with
  | false => simp
  | true =>
    cases he : s.r.empty with
    | true => simp
    | false =>
      rw [h.empty] at he
      simp only [decide_eq_false_iff_not] at he
      have := h.ord.h9
      have ho := h.out (by omega)
      simp [List.take_add_one, ho]

/-- A history from a state with the invariant. -/
theorem history {W D} : ∀ (evs : List (Edge D)) {s : State W D} {A r wg w1 w2 rg r1 r2},
    Inv s A r wg w1 w2 rg r1 r2 → (∀ e ∈ evs, e.running = true) →
    ∃ r' wg' w1' w2' rg' r1' r2',
      Inv (s.run (2 ^ W) evs) (A ++ accepted (s.trace (2 ^ W) evs)) r' wg' w1' w2' rg' r1' r2' ∧
      (A ++ accepted (s.trace (2 ^ W) evs)).take r' =
        A.take r ++ taken (s.trace (2 ^ W) evs)
  | [], s, A, r, wg, w1, w2, rg, r1, r2, h, _ => by
    refine ⟨r, wg, w1, w2, rg, r1, r2, ?_, ?_⟩
    · simpa [State.run, State.trace, accepted] using h
    · simp [State.trace, accepted, taken]
  | e :: es, s, A, r, wg, w1, w2, rg, r1, r2, h, hr => by
    obtain ⟨wg', w1', w2', rg', r1', r2', h', _⟩ := h.step e (hr e (by simp))
    obtain ⟨r'', wg'', w1'', w2'', rg'', r1'', r2'', hi, ht⟩ :=
      history es h' fun e' he' => hr e' (by simp [he'])
    have hacc : A ++ accepted (s.trace (2 ^ W) (e :: es)) =
        (A ++ s.adds e.input) ++ accepted ((s.step (2 ^ W) e).trace (2 ^ W) es) := by
      rw [trace_cons, accepted, List.append_assoc]; rfl
    refine ⟨r'', wg'', w1'', w2'', rg'', r1'', r2'', ?_, ?_⟩
    · rw [hacc]; exact hi
    · rw [hacc, ht, trace_cons, taken]
      have hle : r + s.r.takes e.ack ≤ A.length := by
        have := takes_le h e.ack; have := h.ord.h1; have := h.ord.h2; have := h.ord.h3
        omega
      rw [List.take_append_of_le_length hle, taken_now (C := 2 ^ W) h, List.append_assoc]

theorem num_arith1 {P a b : Nat} (ha : a < P) (hb : b < P) (hlt : a < b) :
    (8 * P - b % (8 * P) + ((a % (2 * P) + 0 % (2 * P)) % (2 * P) % (4 * P) + P % (4 * P)) %
      (4 * P) % (8 * P)) % (8 * P) % P = a + P - b := by
  rw [Nat.mod_eq_of_lt (show b < 8 * P by omega), Nat.mod_eq_of_lt (show a < 2 * P by omega),
    Nat.zero_mod, Nat.add_zero, Nat.mod_eq_of_lt (show a < 2 * P by omega),
    Nat.mod_eq_of_lt (show a < 4 * P by omega), Nat.mod_eq_of_lt (show P < 4 * P by omega),
    Nat.mod_eq_of_lt (show a + P < 4 * P by omega), Nat.mod_eq_of_lt (show a + P < 8 * P by omega),
    show 8 * P - b + (a + P) = (a + P - b) + 8 * P by omega, Nat.add_mod_right,
    Nat.mod_eq_of_lt (show a + P - b < 8 * P by omega),
    Nat.mod_eq_of_lt (show a + P - b < P by omega)]

theorem num_arith2 {P a b : Nat} (ha : a < P) (hb : b < P) (hge : b ≤ a) :
    (8 * P - b % (8 * P) + a % (4 * P) % (8 * P)) % (8 * P) % P = a - b := by
  rw [Nat.mod_eq_of_lt (show b < 8 * P by omega), Nat.mod_eq_of_lt (show a < 4 * P by omega),
    Nat.mod_eq_of_lt (show a < 8 * P by omega),
    show 8 * P - b + a = (a - b) + 8 * P by omega, Nat.add_mod_right,
    Nat.mod_eq_of_lt (show a - b < 8 * P by omega),
    Nat.mod_eq_of_lt (show a - b < P by omega)]

/-- The estimate of the number of elements. -/
theorem num_eq {W D} {s : RSide W D} {r rg w1 w2} (h : RReg s r rg w1 w2) (h1 : r ≤ w2)
    (h2 : w2 < r + 2 ^ W) : (s.num (2 ^ W)).toNat = w2 - r := by
  have hw : s.wptr = BitVec.ofNat W w2 := by rw [RSide.wptr, h.sync2, grayToBin_toGray]
  have hp : 0 < 2 ^ W := Nat.two_pow_pos W
  have hma := Nat.mod_lt w2 hp
  have hmb := Nat.mod_lt r hp
  have e1 : 2 ^ (W + 1) = 2 * 2 ^ W := by rw [Nat.pow_succ]; omega
  have e2 : 2 ^ (W + 2) = 4 * 2 ^ W := by rw [Nat.pow_succ, e1]; omega
  have e3 : 2 ^ (W + 3) = 8 * 2 ^ W := by rw [Nat.pow_succ, e2]; omega
  have key : w2 - r = (w2 % 2 ^ W + (if w2 % 2 ^ W < r % 2 ^ W then 2 ^ W else 0)) - r % 2 ^ W := by
    have hd := Nat.div_add_mod w2 (2 ^ W)
    have hd' := Nat.div_add_mod r (2 ^ W)
    have hq : r / 2 ^ W ≤ w2 / 2 ^ W := Nat.div_le_div_right h1
    have hq' : w2 / 2 ^ W ≤ r / 2 ^ W + 1 := by
      have : w2 / 2 ^ W ≤ (r + 2 ^ W) / 2 ^ W := Nat.div_le_div_right (by omega)
      rwa [Nat.add_div_right _ hp] at this
    rcases Nat.lt_or_ge (r / 2 ^ W) (w2 / 2 ^ W) with hlt | hge
    · have he : w2 / 2 ^ W = r / 2 ^ W + 1 := by omega
      rw [he, Nat.mul_add, Nat.mul_one] at hd
      split <;> omega
    · have he : w2 / 2 ^ W = r / 2 ^ W := by omega
      rw [he] at hd
      split <;> omega
  rw [key]
  unfold RSide.num
  rw [hw, h.ptr]
  have hz : (BitVec.ofNat W w2 < BitVec.ofNat W r) ↔ w2 % 2 ^ W < r % 2 ^ W := by
    rw [BitVec.lt_def, BitVec.toNat_ofNat, BitVec.toNat_ofNat]
  simp only [hz]
  split
  · next hc =>
    simp only [BitVec.toNat_setWidth, BitVec.toNat_sub, BitVec.toNat_add, BitVec.toNat_ofNat, e1,
      e2, e3, BitVec.ofNat_eq_ofNat]
    exact num_arith1 hma hmb hc
  · next hc =>
    simp only [BitVec.toNat_setWidth, BitVec.toNat_sub, BitVec.toNat_ofNat, e2, e3]
    exact num_arith2 hma hmb (by omega)

/-- **C55.** The FIFO is a queue.  From any state, after a long reset, whatever edges of the two
clocks come in whatever order, at the same time or not, and whatever bits are sampled while they
change: the values taken are the first of the values accepted, in the same order; `read` is `None`
or the next value; there are never `2 ^ W` values in the FIFO; and `num_elements` is never more than
the number of values in it. -/
theorem C55_fifo_is_a_queue {W D} (s : State W D) (pre evs : List (Edge D)) (hpre : LongReset pre)
    (hrun : ∀ e ∈ evs, e.running = true) :
    let s1 := s.run (2 ^ W) pre
    let now := (s1.run (2 ^ W) evs).ports (2 ^ W)
    ∃ inside, accepted (s1.trace (2 ^ W) evs) = taken (s1.trace (2 ^ W) evs) ++ inside ∧
      inside.length < 2 ^ W ∧ (now.read = none ∨ now.read = inside.head?) ∧
      now.num ≤ inside.length := by
  obtain ⟨r, wg, w1, w2, rg, r1, r2, hi, ht⟩ :=
    history evs (inv_of_reset (C := 2 ^ W) s pre hpre) hrun
  simp only [List.nil_append, List.take_nil] at hi ht
  have b := hi.ord.bounds
  have := hi.ord.h1; have := hi.ord.h2; have := hi.ord.h3; have := hi.ord.h5; have := hi.ord.h6
  have := hi.ord.h7; have := hi.ord.h10
  refine ⟨(accepted ((s.run (2 ^ W) pre).trace (2 ^ W) evs)).drop r, ?_, ?_, ?_, ?_⟩
  · rw [← ht, List.take_append_drop]
  · rw [List.length_drop]; omega
  · show (if _ then none else some _) = none ∨ (if _ then none else some _) = _
    rw [hi.empty]
    by_cases he : r = w2
    · simp [he]
    · right
      simp only [he, decide_false, Bool.false_eq_true, if_false]
      rw [List.head?_drop]
      exact (hi.out (by omega)).symm
  · show (RSide.num _ _).toNat ≤ _
    rw [num_eq hi.rreg b.2.2.1 b.2.2.2, List.length_drop]
    omega

/-! ## Values get through -/

theorem adds_trace {W D} (C : Nat) (s : State W D) (e : Edge D) (es : List (Edge D)) :
    accepted (s.trace C (e :: es)) = s.adds e.input ++ accepted ((s.step C e).trace C es) := rfl

/-- After two edges of the read clock, what was in the Gray register has been seen. -/
theorem seen_write {W D} (n : Nat) : ∀ (evs : List (Edge D)) {s : State W D}
    {A r wg w1 w2 rg r1 r2} (k : Nat), Inv s A r wg w1 w2 rg r1 r2 →
    (∀ e ∈ evs, e.running = true ∧ e.ack = false) → n ≤ wg → (1 ≤ k → n ≤ w1) → (2 ≤ k → n ≤ w2) →
    2 ≤ k + evs.countP Edge.isRead →
    ∃ A' wg' w1' w2' rg' r1' r2', Inv (s.run (2 ^ W) evs) A' r wg' w1' w2' rg' r1' r2' ∧ n ≤ w2'
  | [], s, A, r, wg, w1, w2, rg, r1, r2, k, h, _, _, _, h2, hk =>
    ⟨A, wg, w1, w2, rg, r1, r2, h, h2 (by simpa using hk)⟩
  | e :: es, s, A, r, wg, w1, w2, rg, r1, r2, k, h, hr, h0, h1, h2, hk => by
    have he := hr e (by simp)
    obtain ⟨wg', w1', w2', rg', r1', r2', h', hw, hrd⟩ := h.step e he.1
    have h0' : n ≤ wg' := by
      have := h.ord.h3
      split at hw <;> omega
    have ht : s.r.takes e.ack = 0 := by simp [RSide.takes, he.2]
    rw [ht, Nat.add_zero] at h'
    rw [countP_cons_r] at hk
    refine seen_write n es (k + e.r) h' (fun e' he' => hr e' (by simp [he'])) h0' ?_ ?_ (by omega)
    · intro hk'
      unfold Edge.r at hk'
      split at hrd
      · omega
      · next hc => rw [if_neg hc] at hk'; have := h1 (by omega); omega
    · intro hk'
      unfold Edge.r at hk'
      split at hrd
      · next hc => rw [if_pos hc] at hk'; have := h1 (by omega); omega
      · next hc => rw [if_neg hc] at hk'; have := h2 (by omega); omega

/-- **C55.** Values get through: if there is a value in the FIFO, then after one more edge of the
write clock and then two of the read clock it can be read, unless values are taken in the meantime. -/
theorem C55_fifo_delivers {W D} (s : State W D) (pre evs : List (Edge D)) (e : Edge D)
    (later : List (Edge D)) (hpre : LongReset pre) (hrun : ∀ e ∈ evs, e.running = true)
    (he : e.isWrite = true) (hlater : ∀ f ∈ e :: later, f.running = true ∧ f.ack = false)
    (htwo : 2 ≤ later.countP Edge.isRead) :
    let s1 := s.run (2 ^ W) pre
    taken (s1.trace (2 ^ W) evs) ≠ accepted (s1.trace (2 ^ W) evs) →
    ∃ v, ((s1.run (2 ^ W) (evs ++ e :: later)).ports (2 ^ W)).read = some v := by
  intro s1 hne
  have hs1 : Inv s1 [] 0 0 0 0 0 0 0 := inv_of_reset (C := 2 ^ W) s pre hpre
  clear_value s1
  obtain ⟨r, wg, w1, w2, rg, r1, r2, hi, ht⟩ := history evs hs1 hrun
  simp only [List.nil_append, List.take_nil] at hi ht
  have hlt : r < (accepted (s1.trace (2 ^ W) evs)).length := by
    rcases Nat.lt_or_ge r (accepted (s1.trace (2 ^ W) evs)).length with h | h
    · exact h
    · rw [List.take_of_length_le h] at ht
      exact absurd ht.symm hne
  have hee := hlater e (by simp)
  obtain ⟨wg', w1', w2', rg', r1', r2', h', hw, hrd⟩ := hi.step e hee.1
  rw [if_pos he] at hw
  have ht : ∀ s : State W D, s.r.takes e.ack = 0 := by intro s; simp [RSide.takes, hee.2]
  rw [ht, Nat.add_zero] at h'
  obtain ⟨A', wg'', w1'', w2'', rg'', r1'', r2'', h'', hn⟩ :=
    seen_write (accepted (s1.trace (2 ^ W) evs)).length later 0 h'
      (fun f hf => hlater f (by simp [hf])) (by omega) (by omega) (by omega) (by omega)
  rw [State.run_append, run_cons]
  refine ⟨((s1.run (2 ^ W) evs).step (2 ^ W) e |>.run (2 ^ W) later).r.out, ?_⟩
  show (if _ then none else some _) = _
  rw [h''.empty]
  simp; omega

/-- After two edges of the write clock, what was in the Gray register has been seen. -/
theorem seen_read {W D} (n : Nat) : ∀ (evs : List (Edge D)) {s : State W D}
    {A r wg w1 w2 rg r1 r2} (k : Nat), Inv s A r wg w1 w2 rg r1 r2 →
    (∀ e ∈ evs, e.running = true) → n ≤ rg → (1 ≤ k → n ≤ r1) → (2 ≤ k → n ≤ r2) →
    2 ≤ k + evs.countP Edge.isWrite →
    ∃ r' wg' w1' w2' rg' r1' r2', Inv (s.run (2 ^ W) evs) (A ++ accepted (s.trace (2 ^ W) evs))
      r' wg' w1' w2' rg' r1' r2' ∧ n ≤ r2'
  | [], s, A, r, wg, w1, w2, rg, r1, r2, k, h, _, _, _, h2, hk =>
    ⟨r, wg, w1, w2, rg, r1, r2, by simpa [State.run, State.trace, accepted] using h,
      h2 (by simpa using hk)⟩
  | e :: es, s, A, r, wg, w1, w2, rg, r1, r2, k, h, hr, h0, h1, h2, hk => by
    obtain ⟨wg', w1', w2', rg', r1', r2', h', hw, hrd⟩ := h.step e (hr e (by simp))
    have h0' : n ≤ rg' := by
      have := h.ord.h7
      split at hrd <;> omega
    rw [countP_cons_w] at hk
    rw [adds_trace, ← List.append_assoc]
    refine seen_read n es (k + e.w) h' (fun e' he' => hr e' (by simp [he'])) h0' ?_ ?_ (by omega)
    · intro hk'
      unfold Edge.w at hk'
      split at hw
      · omega
      · next hc => rw [if_neg hc] at hk'; have := h1 (by omega); omega
    · intro hk'
      unfold Edge.w at hk'
      split at hw
      · next hc => rw [if_pos hc] at hk'; have := h1 (by omega); omega
      · next hc => rw [if_neg hc] at hk'; have := h2 (by omega); omega

/-- **C55.** Space is freed: after one more edge of the read clock and then two of the write clock
`full` is only set if there were `2 ^ W - 1` values in the FIFO, not counting those taken since. -/
theorem C55_fifo_frees {W D} (s : State W D) (pre evs : List (Edge D)) (e : Edge D)
    (later : List (Edge D)) (hpre : LongReset pre) (hrun : ∀ f ∈ evs ++ e :: later, f.running = true)
    (he : e.isRead = true) (htwo : 2 ≤ later.countP Edge.isWrite) :
    let s1 := s.run (2 ^ W) pre
    (accepted (s1.trace (2 ^ W) (evs ++ e :: later))).length + 1 <
      (taken (s1.trace (2 ^ W) evs)).length + 2 ^ W →
    ((s1.run (2 ^ W) (evs ++ e :: later)).ports (2 ^ W)).full = false := by
  intro s1 hlt
  have hs1 : Inv s1 [] 0 0 0 0 0 0 0 := inv_of_reset (C := 2 ^ W) s pre hpre
  clear_value s1
  obtain ⟨r, wg, w1, w2, rg, r1, r2, hi, ht⟩ :=
    history evs hs1 fun f hf => hrun f (by simp [hf])
  simp only [List.nil_append, List.take_nil] at hi ht
  have hlen : r = (taken (s1.trace (2 ^ W) evs)).length := by
    rw [← ht, List.length_take]
    have := hi.ord.h1; have := hi.ord.h2; have := hi.ord.h3; have := hi.ord.h9
    omega
  obtain ⟨wg', w1', w2', rg', r1', r2', h', hw, hrd⟩ := hi.step e (hrun e (by simp))
  rw [if_pos he] at hrd
  obtain ⟨r'', wg'', w1'', w2'', rg'', r1'', r2'', h'', hn⟩ :=
    seen_read r later 0 h' (fun f hf => hrun f (by simp [hf])) (by omega) (by omega) (by omega)
      (by omega)
  have hacc : accepted (s1.trace (2 ^ W) (evs ++ e :: later)) =
      accepted (s1.trace (2 ^ W) evs) ++ (s1.run (2 ^ W) evs).adds e.input ++
        accepted (((s1.run (2 ^ W) evs).step (2 ^ W) e).trace (2 ^ W) later) := by
    rw [State.trace_append, List.append_assoc, ← adds_trace]
    generalize (s1.run (2 ^ W) evs).trace (2 ^ W) (e :: later) = t
    generalize s1.trace (2 ^ W) evs = u
    induction u with
    | nil => rfl
    | cons p u ih =>
      obtain ⟨p, f⟩ := p
      rw [List.cons_append, accepted, accepted, ih, List.append_assoc]
  rw [hacc] at hlt
  rw [State.run_append, run_cons]
  show WSide.full _ = false
  rw [h''.full]
  simp only [decide_eq_false_iff_not]
  omega

end Spade.Fifo

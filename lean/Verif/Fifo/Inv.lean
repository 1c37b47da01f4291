import Verif.Fifo.Gray
/-!
# The invariant

All pointers are counters modulo `2 ^ W`.  The proof is about the counters themselves.
-/
namespace Spade.Fifo

/-- The registers of the write domain: `w` values were written, `wg` is the count in the Gray
register, `r1` and `r2` are the counts of values taken that were seen. -/
structure WReg {W} (s : WSide W) (w wg r1 r2 : Nat) : Prop where
  ptr : s.ptr = BitVec.ofNat W w
  gray : s.gray = toGray (BitVec.ofNat W wg)
  sync1 : s.sync1 = toGray (BitVec.ofNat W r1)
  sync2 : s.sync2 = toGray (BitVec.ofNat W r2)

/-- The registers of the read domain. -/
structure RReg {W D} (s : RSide W D) (r rg w1 w2 : Nat) : Prop where
  ptr : s.ptr = BitVec.ofNat W r
  gray : s.gray = toGray (BitVec.ofNat W rg)
  sync1 : s.sync1 = toGray (BitVec.ofNat W w1)
  sync2 : s.sync2 = toGray (BitVec.ofNat W w2)

/-- The order of the counts. -/
structure Ordered (W w wg w1 w2 r rg r1 r2 : Nat) : Prop where
  h1 : w2 ≤ w1
  h2 : w1 ≤ wg
  h3 : wg ≤ w
  h4 : w ≤ wg + 1
  h5 : r2 ≤ r1
  h6 : r1 ≤ rg
  h7 : rg ≤ r
  h8 : r ≤ rg + 1
  h9 : r ≤ w2
  h10 : w < r2 + 2 ^ W

/-- The invariant: `A` are the values that were written and `r` is the number of those taken. -/
structure Inv {W D} (s : State W D) (A : List D) (r : Nat) (wg w1 w2 rg r1 r2 : Nat) : Prop where
  wreg : WReg s.w A.length wg r1 r2
  rreg : RReg s.r r rg w1 w2
  ord : Ordered W A.length wg w1 w2 r rg r1 r2
  mem : ∀ i, r ≤ i → i < A.length → A[i]? = some (s.mem (i % 2 ^ W))
  out : r < w2 → A[r]? = some s.r.out

theorem ofNat_inj {W a b : Nat} (h : a ≤ b) (hb : b < a + 2 ^ W)
    (e : BitVec.ofNat W a = BitVec.ofNat W b) : a = b := by
  have := congrArg BitVec.toNat e
  simp only [BitVec.toNat_ofNat] at this
  have h2 := Nat.sub_mod_eq_zero_of_mod_eq this.symm
  have h3 : (b - a) % 2 ^ W = b - a := Nat.mod_eq_of_lt (by omega)
  omega

theorem ofNat_succ (W a : Nat) : BitVec.ofNat W a + 1 = BitVec.ofNat W (a + 1) := by
  apply BitVec.eq_of_toNat_eq; simp

theorem WReg.full {W} {s : WSide W} {w wg r1 r2} (h : WReg s w wg r1 r2) (h1 : r2 ≤ w)
    (h2 : w < r2 + 2 ^ W) : s.full = decide (w + 1 = r2 + 2 ^ W) := by
  rw [WSide.full, h.ptr, h.sync2, grayToBin_toGray, ofNat_succ]
  rw [Bool.eq_iff_iff]
  simp only [beq_iff_eq, decide_eq_true_eq]
  constructor
  · intro e
    rcases Nat.lt_or_ge (w + 1) (r2 + 2 ^ W) with h' | h'
    · have := ofNat_inj (by omega) h' e.symm
      omega
    · omega
  · intro e
    rw [e]; apply BitVec.eq_of_toNat_eq; simp

theorem RReg.empty {W D} {s : RSide W D} {r rg w1 w2} (h : RReg s r rg w1 w2) (h1 : r ≤ w2)
    (h2 : w2 < r + 2 ^ W) : s.empty = decide (r = w2) := by
  rw [RSide.empty, RSide.wptr, h.ptr, h.sync2, grayToBin_toGray]
  rw [Bool.eq_iff_iff]
  simp only [beq_iff_eq, decide_eq_true_eq]
  constructor
  · intro e; exact ofNat_inj h1 h2 e.symm
  · rintro rfl; rfl

theorem Ordered.bounds {W w wg w1 w2 r rg r1 r2 : Nat} (h : Ordered W w wg w1 w2 r rg r1 r2) :
    r2 ≤ w ∧ w < r2 + 2 ^ W ∧ r ≤ w2 ∧ w2 < r + 2 ^ W := by
  have := h.h1; have := h.h2; have := h.h3; have := h.h4; have := h.h5; have := h.h6
  have := h.h7; have := h.h8; have := h.h9; have := h.h10
  omega

theorem Inv.full {W D} {s : State W D} {A r wg w1 w2 rg r1 r2} (h : Inv s A r wg w1 w2 rg r1 r2) :
    s.w.full = decide (A.length + 1 = r2 + 2 ^ W) :=
  have b := h.ord.bounds
  h.wreg.full b.1 b.2.1

theorem Inv.empty {W D} {s : State W D} {A r wg w1 w2 rg r1 r2} (h : Inv s A r wg w1 w2 rg r1 r2) :
    s.r.empty = decide (r = w2) :=
  have b := h.ord.bounds
  h.rreg.empty b.2.2.1 b.2.2.2

/-- The values that an edge adds. -/
def State.adds {W D} (s : State W D) (v : Option D) : List D := if s.w.full then [] else v.toList

theorem accepts_toList {W D} (s : State W D) (v : Option D) : (s.w.accepts v).toList = s.adds v := by
  unfold WSide.accepts State.adds
  cases v <;> cases s.w.full <;> rfl

theorem adds_cases {W D} (s : State W D) (v : Option D) :
    (s.w.accepts v = none ∧ s.adds v = []) ∨
    ∃ d, s.w.accepts v = some d ∧ s.adds v = [d] ∧ s.w.full = false := by
  unfold WSide.accepts State.adds
  cases v <;> cases s.w.full <;> simp

/-- The registers of the write domain after an edge. -/
theorem WReg.edge {W D} {s : State W D} {w wg r1 r2} (h : WReg s.w w wg r1 r2) (v : Option D)
    {seen k} (hs : seen = toGray (BitVec.ofNat W k)) :
    WReg (s.w.edge v false seen) (w + (s.adds v).length) w k r1 := by
  refine ⟨?_, ?_, hs, h.sync1⟩
  · show (if false = true then 0 else if (s.w.accepts v).isSome then s.w.ptr + 1 else s.w.ptr) = _
    rcases adds_cases s v with ⟨h1, h2⟩ | ⟨d, h1, h2, _⟩
    · simp [h1, h2, h.ptr]
    · simp only [h1, h2, Option.isSome_some, List.length_singleton, h.ptr]
      exact ofNat_succ W w
  · show toGray s.w.ptr = _
    rw [h.ptr]

/-- How many values an edge takes. -/
def RSide.takes {W D} (s : RSide W D) (ack : Bool) : Nat := if ack && !s.empty then 1 else 0

theorem next_eq {W D} {s : RSide W D} {r rg w1 w2} (h : RReg s r rg w1 w2) (ack : Bool) :
    s.next ack = BitVec.ofNat W (r + s.takes ack) := by
  unfold RSide.next RSide.takes
  cases ack <;> cases s.empty <;> simp [h.ptr] <;> exact ofNat_succ W r

theorem RReg.edge {W D} {s : RSide W D} {r rg w1 w2} (h : RReg s r rg w1 w2) (ack : Bool)
    {seen k} (hs : seen = toGray (BitVec.ofNat W k)) (data : D) :
    RReg (s.edge ack false seen data) (r + s.takes ack) r k w1 := by
  refine ⟨?_, ?_, hs, h.sync1⟩
  · show (if false = true then 0 else s.next ack) = _
    simp [next_eq h ack]
  · show toGray s.ptr = _
    rw [h.ptr]

theorem takes_le {W D} {s : State W D} {A r wg w1 w2 rg r1 r2} (h : Inv s A r wg w1 w2 rg r1 r2)
    (ack : Bool) : s.r.takes ack ≤ 1 ∧ r + s.r.takes ack ≤ w2 := by
  have := h.ord.h9
  unfold RSide.takes
  rw [h.empty]
  split
  · next hc => simp at hc; omega
  · omega

theorem adds_length {W D} {s : State W D} {A r wg w1 w2 rg r1 r2} (h : Inv s A r wg w1 w2 rg r1 r2)
    (v : Option D) : (s.adds v).length ≤ 1 ∧ A.length + (s.adds v).length < r2 + 2 ^ W := by
  have := h.ord.h10
  rcases adds_cases s v with ⟨_, h2⟩ | ⟨d, _, h2, h3⟩
  · simp [h2]; omega
  · rw [h.full] at h3
    simp at h3
    simp [h2]; omega

/-- The memory after an edge of the write clock. -/
theorem written_mem {W D} {s : State W D} {A r wg w1 w2 rg r1 r2}
    (h : Inv s A r wg w1 w2 rg r1 r2) (v : Option D) (i : Nat) (hr : r ≤ i)
    (hi : i < (A ++ s.adds v).length) :
    (A ++ s.adds v)[i]? = some (s.written (2 ^ W) v (i % 2 ^ W)) := by
  have hl := adds_length h v
  have := h.ord.bounds; have := h.ord.h5; have := h.ord.h6; have := h.ord.h7
  have hp : 0 < 2 ^ W := Nat.two_pow_pos W
  unfold State.written
  rcases adds_cases s v with ⟨h1, h2⟩ | ⟨d, h1, h2, h3⟩
  · rw [h1, h2, List.append_nil]
    exact h.mem i hr (by simpa [h2] using hi)
  · rw [h1, h2] at *
    simp only [h.wreg.ptr, BitVec.toNat_ofNat]
    simp only [List.length_append, List.length_singleton] at hi hl
    by_cases e : i = A.length
    · subst e
      simp [Nat.mod_lt _ hp]
    · have hne : ¬ (i % 2 ^ W = A.length % 2 ^ W ∧ i % 2 ^ W < 2 ^ W) := by
        rintro ⟨e', _⟩
        have h2' := Nat.sub_mod_eq_zero_of_mod_eq e'.symm
        have h3' : (A.length - i) % 2 ^ W = A.length - i := Nat.mod_eq_of_lt (by omega)
        omega
      rw [if_neg hne, List.getElem?_append_left (by omega)]
      exact h.mem i hr (by omega)

/-- The data that the memory gives for the next address, if there is a value. -/
theorem fetch_next {W D} {s : State W D} {A r wg w1 w2 rg r1 r2}
    (h : Inv s A r wg w1 w2 rg r1 r2) (ack : Bool) (junk : D) (hlt : r + s.r.takes ack < w1) :
    A[r + s.r.takes ack]? = some (s.fetch (2 ^ W) (s.r.next ack) junk) := by
  have := h.ord.h2; have := h.ord.h3
  unfold State.fetch
  rw [next_eq h.rreg ack, if_pos (BitVec.isLt _), BitVec.toNat_ofNat]
  exact h.mem _ (by omega) (by omega)

/-- The address of the next value to be read is not the one that is written. -/
theorem no_conflict {W D} {s : State W D} {A r wg w1 w2 rg r1 r2}
    (h : Inv s A r wg w1 w2 rg r1 r2) (ack : Bool) (hlt : r + s.r.takes ack < w1) :
    s.w.ptr ≠ s.r.next ack := by
  have := h.ord.h2; have := h.ord.h3; have := h.ord.bounds; have := h.ord.h5
  have := h.ord.h6; have := h.ord.h7
  rw [next_eq h.rreg ack, h.wreg.ptr]
  intro e
  have := ofNat_inj (W := W) (a := r + s.r.takes ack) (b := A.length) (by omega) (by omega) e.symm
  omega

/-- What is sampled of a Gray coded counter while it is increased is the old or the new value. -/
theorem mix_gray {W : Nat} (pick : Nat) {a b : Nat} (h1 : a ≤ b) (h2 : b ≤ a + 1) :
    ∃ k, a ≤ k ∧ k ≤ b ∧
      mix pick (toGray (BitVec.ofNat W a)) (toGray (BitVec.ofNat W b)) =
        toGray (BitVec.ofNat W k) := by
  by_cases e : a = b
  · subst e; exact ⟨a, by omega, by omega, mix_same _ _⟩
  · have : b = a + 1 := by omega
    subst this
    rw [← ofNat_succ]
    rcases mix_succ pick (BitVec.ofNat W a) with h | h
    · exact ⟨a, by omega, by omega, h⟩
    · exact ⟨a + 1, by omega, by omega, by rw [h, ofNat_succ]⟩

/-- **Every edge keeps the invariant.**  The counts of the other domain that have been seen are
given where they are needed to show that values get through. -/
theorem Inv.step {W D} {s : State W D} {A r wg w1 w2 rg r1 r2} (h : Inv s A r wg w1 w2 rg r1 r2)
    (e : Edge D) (he : e.running = true) :
    ∃ wg' w1' w2' rg' r1' r2',
      Inv (s.step (2 ^ W) e) (A ++ s.adds e.input) (r + s.r.takes e.ack) wg' w1' w2' rg' r1' r2' ∧
      (if e.isWrite then wg' = A.length ∧ r2' = r1 ∧ rg ≤ r1' else wg' = wg ∧ r2' = r2 ∧ r1' = r1) ∧
      (if e.isRead then rg' = r ∧ w2' = w1 ∧ wg ≤ w1' else rg' = rg ∧ w2' = w2 ∧ w1' = w1) := by
  have o := h.ord
  have h1 := o.h1; have h2 := o.h2; have h3 := o.h3; have h4 := o.h4; have h5 := o.h5
  have h6 := o.h6; have h7 := o.h7; have h8 := o.h8; have h9 := o.h9; have h10 := o.h10
  have ha := fun v => adds_length h v
  have ht := fun ack => takes_le h ack
  cases e with
  | write v rst =>
    simp only [Edge.running, Bool.not_eq_true'] at he
    subst he
    have := ha v
    have h0 : s.r.takes false = 0 := by simp [RSide.takes]
    refine ⟨A.length, w1, w2, rg, rg, r1, ⟨?_, ?_, ?_, ?_, ?_⟩, by simp [Edge.isWrite],
      by simp [Edge.isRead]⟩
    · simp only [Edge.input, List.length_append]
      exact h.wreg.edge v h.rreg.gray
    · simp only [Edge.ack, h0]; exact h.rreg
    · simp only [Edge.input, Edge.ack, List.length_append, h0]
      constructor <;> omega
    · intro i hr hi
      simp only [Edge.ack, h0] at hr
      exact written_mem h v i hr hi
    · simp only [Edge.ack, h0, Edge.input]
      intro hlt
      rw [Nat.add_zero] at *
      rw [List.getElem?_append_left (by omega)]
      exact h.out hlt
  | read ack rst l =>
    simp only [Edge.running, Bool.not_eq_true'] at he
    subst he
    have := ht ack
    have h0 : s.adds (none : Option D) = [] := by simp [State.adds]
    refine ⟨wg, wg, w1, r, r1, r2, ⟨?_, ?_, ?_, ?_, ?_⟩, by simp [Edge.isWrite],
      by simp [Edge.isRead]⟩
    · simp only [Edge.input, h0, List.append_nil]; exact h.wreg
    · exact h.rreg.edge ack h.wreg.gray _
    · simp only [Edge.input, Edge.ack, h0, List.append_nil]
      constructor <;> omega
    · intro i hr hi
      simp only [Edge.input, h0, List.append_nil, Edge.ack] at *
      exact h.mem i (by omega) hi
    · intro hlt
      simp only [Edge.input, h0, List.append_nil, Edge.ack] at *
      exact fetch_next h ack l.data hlt
  | both v wrst ack rrst l =>
    simp only [Edge.running, Bool.and_eq_true, Bool.not_eq_true'] at he
    obtain ⟨rfl, rfl⟩ := he
    have := ha v
    have := ht ack
    obtain ⟨k, hk1, hk2, hk⟩ := mix_gray (W := W) l.bitsW h3 h4
    obtain ⟨k', hk1', hk2', hk'⟩ := mix_gray (W := W) l.bitsR h7 h8
    rw [← h.wreg.gray, ← h.wreg.ptr] at hk
    rw [← h.rreg.gray, ← h.rreg.ptr] at hk'
    refine ⟨A.length, k, w1, r, k', r1, ⟨?_, ?_, ?_, ?_, ?_⟩, by simp [Edge.isWrite]; omega,
      by simp [Edge.isRead]; omega⟩
    · simp only [Edge.input, List.length_append]
      exact h.wreg.edge v hk'
    · exact h.rreg.edge ack hk _
    · simp only [Edge.input, Edge.ack, List.length_append]
      constructor <;> omega
    · intro i hr hi
      simp only [Edge.ack] at hr
      exact written_mem h v i (by omega) hi
    · intro hlt
      simp only [Edge.ack, Edge.input] at *
      show _ = some (if _ then _ else _)
      rw [if_neg (fun hc => no_conflict h ack hlt hc.2),
        List.getElem?_append_left (by omega)]
      exact fetch_next h ack l.data hlt

end Spade.Fifo

import Verif.Cdc.Hand
/-! # Pulses are transferred once each, in order -/
namespace Spade.Cdc

variable {T : Type} [DecidableEq T]

/-- The control registers in each phase of a transfer, with nothing more sent.  Phase 0 is the one
between transfers. -/
structure HPhase (s : Hand T) (p : Nat) (val : T) : Prop where
  lt : p < 13
  tx : s.tx = if p = 1 then .holdData else if 2 ≤ p ∧ p ≤ 7 then .waitAck else .waitData
  rx : s.rx = if 5 ≤ p ∧ p ≤ 10 then .waitInvalid else .waitValid
  a1 : s.a1 = decide (6 ≤ p ∧ p ≤ 11)
  a2 : s.a2 = decide (7 ≤ p ∧ p ≤ 12)
  v1 : s.v1 = decide (3 ≤ p ∧ p ≤ 8)
  v2 : s.v2 = decide (4 ≤ p ∧ p ≤ 9)
  held : p ≠ 0 → s.held = val

/-- It is for `from_clk` to rise. -/
def hTurn (p : Nat) : Bool := p = 1 ∨ (5 ≤ p ∧ p ≤ 7) ∨ 11 ≤ p

/-- The phase that follows. -/
def hNext (p : Nat) : Nat := if p = 0 ∨ p = 12 then 0 else p + 1

/-- The phases that can follow when certain clocks rise and nothing is sent. -/
def HFollows (src dst : Bool) (p q : Nat) : Prop :=
  if p = 0 then q = 0 else if (hTurn p && src) || (!hTurn p && dst) then
    q = hNext p ∨ (src && dst) = true ∧ (p = 1 ∨ p = 4 ∨ p = 7 ∨ p = 10) ∧ q = hNext (hNext p)
  else q = p

theorem hphases {p : Nat} (h : p < 13) : p = 0 ∨ p = 1 ∨ p = 2 ∨ p = 3 ∨ p = 4 ∨ p = 5 ∨ p = 6 ∨
    p = 7 ∨ p = 8 ∨ p = 9 ∨ p = 10 ∨ p = 11 ∨ p = 12 := by omega

/-- What the output is after an edge. -/
def hOut (dst : Bool) (p : Nat) (val : T) (out : Option T) : Option T :=
  if dst then (if p = 4 then some val else none) else out

theorem HPhase.quiet {s : Hand T} {p : Nat} {val : T} (h : HPhase s p val) (e : HEdge T)
    (hd : e.data = none) (he : e.running = true) :
    ∃ q, HFollows e.isSrc e.isDst p q ∧ HPhase (s.step e) q val ∧
      (s.step e).out = hOut e.isDst p val s.out := by
  obtain ⟨hlt, htx, hrx, ha1, ha2, hv1, hv2, hh⟩ := h
  obtain ⟨a1, a2, tx, held, v1, v2, rx, out⟩ := s
  simp only at htx hrx ha1 ha2 hv1 hv2 hh
  subst htx hrx ha1 ha2 hv1 hv2
  cases e with
  | src i rst =>
    simp only [HEdge.running, Bool.not_eq_true'] at he
    simp only [HEdge.data] at hd
    subst he hd
    refine ⟨if hTurn p then hNext p else p, ?_, ?_, ?_⟩
    · rcases hphases hlt with h | h | h | h | h | h | h | h | h | h | h | h | h <;> subst h <;>
        simp [HFollows, hTurn, hNext, HEdge.isSrc, HEdge.isDst]
    · rcases hphases hlt with h | h | h | h | h | h | h | h | h | h | h | h | h <;> subst h <;>
        constructor <;> simp [hTurn, hNext, Hand.step, Hand.src, HTx.next, HRx.ack,
          Hand.nextHeld] at hh ⊢ <;> first | done | exact hh
    · rcases hphases hlt with h | h | h | h | h | h | h | h | h | h | h | h | h <;> subst h <;>
        simp [Hand.step, Hand.src, hOut, HEdge.isDst]
  | dst rst =>
    simp only [HEdge.running, Bool.not_eq_true'] at he
    subst he
    refine ⟨if hTurn p then p else hNext p, ?_, ?_, ?_⟩
    · rcases hphases hlt with h | h | h | h | h | h | h | h | h | h | h | h | h <;> subst h <;>
        simp [HFollows, hTurn, hNext, HEdge.isSrc, HEdge.isDst]
    · rcases hphases hlt with h | h | h | h | h | h | h | h | h | h | h | h | h <;> subst h <;>
        constructor <;> simp [hTurn, hNext, Hand.step, Hand.dst, HRx.next, HTx.valid] at hh ⊢ <;>
        first | done | exact hh
    · rcases hphases hlt with h | h | h | h | h | h | h | h | h | h | h | h | h <;> subst h <;>
        simp [Hand.step, Hand.dst, HRx.next, hOut, HEdge.isDst] at hh ⊢ <;> first | done | exact hh
  | both i srst drst l =>
    simp only [HEdge.running, Bool.and_eq_true, Bool.not_eq_true'] at he
    simp only [HEdge.data] at hd
    obtain ⟨rfl, rfl⟩ := he
    subst hd
    obtain ⟨lv, la, ld⟩ := l
    refine ⟨if (p = 1 ∨ p = 7) ∧ lv = true ∨ (p = 4 ∨ p = 10) ∧ la = true then
      hNext (hNext p) else hNext p, ?_, ?_, ?_⟩
    · rcases hphases hlt with h | h | h | h | h | h | h | h | h | h | h | h | h <;> subst h <;>
        cases lv <;> cases la <;> simp [HFollows, hTurn, hNext, HEdge.isSrc, HEdge.isDst]
    · rcases hphases hlt with h | h | h | h | h | h | h | h | h | h | h | h | h <;> subst h <;>
        cases lv <;> cases la <;>
        constructor <;> simp [hNext, Hand.step, Hand.src, Hand.dst, HRx.next, HTx.next,
          HRx.ack, HTx.valid, Hand.nextHeld] at hh ⊢ <;> first | done | exact hh
    · rcases hphases hlt with h | h | h | h | h | h | h | h | h | h | h | h | h <;> subst h <;>
        cases lv <;> cases la <;>
        simp [Hand.step, Hand.src, Hand.dst, HRx.next, Hand.nextHeld, hOut, HEdge.isDst] at hh ⊢ <;>
        first | done | exact hh

/-- A value is sent between transfers. -/
theorem HPhase.send {s : Hand T} {val v : T} (h : HPhase s 0 val) (e : HEdge T)
    (hd : e.data = some v) (he : e.running = true) :
    HPhase (s.step e) 1 v ∧ (s.step e).out = hOut e.isDst 0 val s.out := by
  obtain ⟨hlt, htx, hrx, ha1, ha2, hv1, hv2, hh⟩ := h
  obtain ⟨a1, a2, tx, held, v1, v2, rx, out⟩ := s
  simp only at htx hrx ha1 ha2 hv1 hv2 hh
  simp at htx hrx ha1 ha2 hv1 hv2
  subst htx hrx ha1 ha2 hv1 hv2
  cases e with
  | src i rst =>
    simp only [HEdge.running, Bool.not_eq_true'] at he
    simp only [HEdge.data] at hd
    subst he hd
    exact ⟨by constructor <;> simp [Hand.step, Hand.src, HTx.next, HRx.ack, Hand.nextHeld], rfl⟩
  | dst rst => cases hd
  | both i srst drst l =>
    simp only [HEdge.running, Bool.and_eq_true, Bool.not_eq_true'] at he
    simp only [HEdge.data] at hd
    obtain ⟨rfl, rfl⟩ := he
    subst hd
    obtain ⟨lv, la, ld⟩ := l
    refine ⟨?_, rfl⟩
    cases lv <;> cases la <;>
    constructor <;> simp [Hand.step, Hand.src, Hand.dst, HRx.next, HTx.next, HRx.ack, HTx.valid,
      Hand.nextHeld]

/-- What is in transfer. -/
def HInv (s : Hand T) (p : Nat) (pend : List T) : Prop :=
  ∃ val, HPhase s p val ∧
    ((1 ≤ p ∧ p ≤ 4 ∧ pend = [val] ∧ s.out = none) ∨
     (5 ≤ p ∧ p ≤ 8 ∧ pend = [val] ∧ s.out = some val) ∨
     ((p = 0 ∨ 5 ≤ p) ∧ pend = [] ∧ s.out = none))

/-- What is received at an edge. -/
def Hand.gives (s : Hand T) (e : HEdge T) : List T := if e.isDst then s.out.toList else []

theorem HInv.quiet {s : Hand T} {p : Nat} {pend : List T} (h : HInv s p pend) (e : HEdge T)
    (hd : e.data = none) (he : e.running = true) :
    ∃ q pend', HFollows e.isSrc e.isDst p q ∧ HInv (s.step e) q pend' ∧
      pend = s.gives e ++ pend' := by
  obtain ⟨val, hp, hc⟩ := h
  obtain ⟨q, hf, hq, ho⟩ := hp.quiet e hd he
  have hlt := hp.lt
  unfold Hand.gives
  unfold hOut at ho
  have hsd : e.isSrc = true ∨ e.isDst = true := by cases e <;> simp [HEdge.isSrc, HEdge.isDst]
  cases hds : e.isDst with
  | true =>
    rw [hds] at hf ho
    simp only [if_true] at ho
    rcases hc with ⟨h1, h2, rfl, h3⟩ | ⟨h1, h2, rfl, h3⟩ | ⟨h1, rfl, h3⟩
    · by_cases h4 : p = 4
      · subst h4
        refine ⟨q, [val], hf, ⟨val, hq, .inr (.inl ⟨?_, ?_, rfl, by simpa using ho⟩)⟩, by simp [h3]⟩
        all_goals
          unfold HFollows at hf
          cases hs : e.isSrc <;> simp [hs, hTurn, hNext] at hf <;> omega
      · refine ⟨q, [val], hf, ⟨val, hq, .inl ⟨?_, ?_, rfl, by simpa [h4] using ho⟩⟩, by simp [h3]⟩
        all_goals
          unfold HFollows at hf
          have : p = 1 ∨ p = 2 ∨ p = 3 := by omega
          rcases this with h | h | h <;> subst h <;>
          cases hs : e.isSrc <;> simp [hs, hTurn, hNext] at hf <;> omega
    · refine ⟨q, [], hf, ⟨val, hq, .inr (.inr ⟨?_, rfl, ?_⟩)⟩, by simp [h3]⟩
      · unfold HFollows at hf
        have : p = 5 ∨ p = 6 ∨ p = 7 ∨ p = 8 := by omega
        rcases this with h | h | h | h <;> subst h <;>
        cases hs : e.isSrc <;> simp [hs, hTurn, hNext] at hf <;> omega
      · rw [ho, if_neg (by omega)]
    · refine ⟨q, [], hf, ⟨val, hq, .inr (.inr ⟨?_, rfl, ?_⟩)⟩, by simp [h3]⟩
      · unfold HFollows at hf
        have hl := hq.lt
        rcases hphases hlt with h | h | h | h | h | h | h | h | h | h | h | h | h <;> subst h <;>
        cases hs : e.isSrc <;> simp [hs, hTurn, hNext] at hf h1 ⊢ <;> omega
      · rw [ho, if_neg (by omega)]
  | false =>
    have hs : e.isSrc = true := by simpa [hds] using hsd
    rw [hds] at hf ho
    simp only [Bool.false_eq_true, if_false] at ho
    simp only [Bool.false_eq_true, if_false, List.nil_append]
    refine ⟨q, pend, hf, ⟨val, hq, ?_⟩, rfl⟩
    rw [ho]
    unfold HFollows at hf
    rw [hs] at hf
    rcases hc with ⟨h1, h2, h3, h4⟩ | ⟨h1, h2, h3, h4⟩ | ⟨h1, h3, h4⟩
    · left
      refine ⟨?_, ?_, h3, h4⟩
      all_goals
        have : p = 1 ∨ p = 2 ∨ p = 3 ∨ p = 4 := by omega
        rcases this with h | h | h | h <;> subst h <;> simp [hTurn, hNext] at hf <;> omega
    · right; left
      refine ⟨?_, ?_, h3, h4⟩
      all_goals
        have : p = 5 ∨ p = 6 ∨ p = 7 ∨ p = 8 := by omega
        rcases this with h | h | h | h <;> subst h <;> simp [hTurn, hNext] at hf <;> omega
    · right; right
      refine ⟨?_, h3, h4⟩
      rcases hphases hlt with h | h | h | h | h | h | h | h | h | h | h | h | h <;> subst h <;>
        simp [hTurn, hNext] at hf h1 ⊢ <;> omega

theorem HInv.send {s : Hand T} (h : HInv s 0 []) (e : HEdge T) {v : T}
    (hd : e.data = some v) (he : e.running = true) :
    HInv (s.step e) 1 [v] ∧ s.gives e = [] := by
  obtain ⟨val, hp, hc⟩ := h
  obtain ⟨hq, ho⟩ := hp.send e hd he
  have hn : s.out = none := by
    rcases hc with ⟨h1, _⟩ | ⟨h1, _⟩ | ⟨_, _, h⟩
    · omega
    · omega
    · exact h
  refine ⟨⟨v, hq, .inl ⟨by omega, by omega, rfl, ?_⟩⟩, ?_⟩
  · rw [ho, hOut, hn]; split <;> simp
  · unfold Hand.gives; rw [hn]; split <;> rfl

end Spade.Cdc

import Verif.Cdc.Wide
/-!
# The phases of a transfer

Between two values the sender and the receiver go through thirteen phases, in each of which one of
the two clocks has to rise for the next one.  Phase 13 is the one after a reset.
-/
namespace Spade.Cdc

/-- The sender in a phase. -/
def txOf {T} (p : Nat) (val : T) : Tx T :=
  if p = 0 then .setup val else if p ≤ 6 then .hold val else if p ≤ 12 then .waitRelease else .init

/-- The receiver in a phase. -/
def rxOf (p : Nat) : Rx := if 4 ≤ p ∧ p ≤ 9 then .sendAck else .waitReceive

/-- The control registers in a phase. -/
structure AtPhase {T} (s : Wide T) (p : Nat) (val : T) : Prop where
  lt : p < 14
  tx : s.tx = txOf p val
  rx : s.rx = rxOf p
  a1 : s.a1 = decide (5 ≤ p ∧ p ≤ 10)
  a2 : s.a2 = decide (6 ≤ p ∧ p ≤ 11)
  v1 : s.v1 = decide (2 ≤ p ∧ p ≤ 7)
  v2 : s.v2 = decide (3 ≤ p ∧ p ≤ 8)

/-- It is for the source clock to rise. -/
def srcTurn (p : Nat) : Bool := p = 0 ∨ (4 ≤ p ∧ p ≤ 6) ∨ 10 ≤ p

/-- The phase that follows. -/
def nextPhase (p : Nat) : Nat := if 12 ≤ p then 0 else p + 1

/-- The phases that can follow when certain clocks rise. -/
def Follows (src dst : Bool) (p q : Nat) : Prop :=
  if (srcTurn p && src) || (!srcTurn p && dst) then
    q = nextPhase p ∨ (src && dst) = true ∧ (p = 0 ∨ p = 3 ∨ p = 6 ∨ p = 9) ∧
      q = nextPhase (nextPhase p)
  else q = p

/-- Whether `q` is reached from `p` by reading a new input. -/
def reads (p q : Nat) : Bool := 10 ≤ p ∧ q = 0

/-- What `val` is after an edge: the sender reads the input when it goes to phase 0. -/
def newVal {T} (p q : Nat) (val : T) : Option T → T
  | some i => if reads p q then i else val
  | none => val

/-- What `out` is after an edge: it is set when the receiver goes to phase 4 (or, if the acknowledgement
is seen at the same time, to phase 5). -/
def newOut {T} (p q : Nat) (val out : T) : T := if p = 3 ∧ q ≠ 3 then val else out

theorem phases {p : Nat} (h : p < 14) : p = 0 ∨ p = 1 ∨ p = 2 ∨ p = 3 ∨ p = 4 ∨ p = 5 ∨ p = 6 ∨
    p = 7 ∨ p = 8 ∨ p = 9 ∨ p = 10 ∨ p = 11 ∨ p = 12 ∨ p = 13 := by omega

/-- **Every edge leads to the same phase or one that follows.** -/
theorem AtPhase.step {T} [DecidableEq T] {s : Wide T} {p : Nat} {val : T} (h : AtPhase s p val)
    (e : Edge T) (he : e.running = true) :
    ∃ q, Follows e.isSrc e.isDst p q ∧ AtPhase (s.step e) q (newVal p q val e.input) ∧
      (s.step e).out = newOut p q val s.out := by
  obtain ⟨hlt, htx, hrx, ha1, ha2, hv1, hv2⟩ := h
  obtain ⟨a1, a2, tx, undef, v1, v2, rx, out⟩ := s
  simp only at htx hrx ha1 ha2 hv1 hv2
  subst htx hrx ha1 ha2 hv1 hv2
  cases e with
  | src i rst =>
    simp only [Edge.running, Bool.not_eq_true'] at he
    subst he
    refine ⟨if srcTurn p then nextPhase p else p, ?_, ?_, ?_⟩
    · rcases phases hlt with h | h | h | h | h | h | h | h | h | h | h | h | h | h <;> subst h <;>
        simp [Follows, srcTurn, nextPhase, Edge.isSrc, Edge.isDst]
    · rcases phases hlt with h | h | h | h | h | h | h | h | h | h | h | h | h | h <;> subst h <;>
        constructor <;> simp [srcTurn, nextPhase, Wide.step, Wide.src, txOf, rxOf, Tx.next, Rx.ack,
          newVal, reads, Edge.input]
    · rcases phases hlt with h | h | h | h | h | h | h | h | h | h | h | h | h | h <;> subst h <;>
        simp [srcTurn, nextPhase, Wide.step, Wide.src, newOut]
  | dst i rst =>
    simp only [Edge.running, Bool.not_eq_true'] at he
    subst he
    refine ⟨if srcTurn p then p else nextPhase p, ?_, ?_, ?_⟩
    · rcases phases hlt with h | h | h | h | h | h | h | h | h | h | h | h | h | h <;> subst h <;>
        simp [Follows, srcTurn, nextPhase, Edge.isSrc, Edge.isDst]
    · rcases phases hlt with h | h | h | h | h | h | h | h | h | h | h | h | h | h <;> subst h <;>
        constructor <;> simp [srcTurn, nextPhase, Wide.step, Wide.dst, txOf, rxOf, Rx.next,
          Tx.valid, newVal, Edge.input]
    · rcases phases hlt with h | h | h | h | h | h | h | h | h | h | h | h | h | h <;> subst h <;>
        simp [srcTurn, nextPhase, Wide.step, Wide.dst, Wide.nextOut, txOf, rxOf, Tx.data, newOut]
  | both i srst init drst l =>
    simp only [Edge.running, Bool.and_eq_true, Bool.not_eq_true'] at he
    obtain ⟨rfl, rfl⟩ := he
    obtain ⟨lv, la, ld⟩ := l
    refine ⟨if (p = 0 ∨ p = 6) ∧ lv = true ∨ (p = 3 ∨ p = 9) ∧ la = true then
      nextPhase (nextPhase p) else nextPhase p, ?_, ?_, ?_⟩
    · rcases phases hlt with h | h | h | h | h | h | h | h | h | h | h | h | h | h <;> subst h <;>
        cases lv <;> cases la <;> simp [Follows, srcTurn, nextPhase, Edge.isSrc, Edge.isDst]
    · rcases phases hlt with h | h | h | h | h | h | h | h | h | h | h | h | h | h <;> subst h <;>
        cases lv <;> cases la <;>
        constructor <;> simp [nextPhase, Wide.step, Wide.src, Wide.dst, txOf, rxOf, Rx.next, Tx.next,
          Rx.ack, Tx.valid, newVal, reads, Edge.input]
    · rcases phases hlt with h | h | h | h | h | h | h | h | h | h | h | h | h | h <;> subst h <;>
        cases lv <;> cases la <;>
        simp [nextPhase, Wide.step, Wide.src, Wide.dst, Wide.nextOut, txOf, rxOf, Tx.data, Tx.next,
          newOut]

end Spade.Cdc

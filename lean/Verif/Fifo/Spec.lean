/-!
# What users rely on a FIFO between clock domains for

The ports of `std::mem::fifo` (spade-compiler/stdlib/mem.spade:91-106, 217-234), what happens to it, and
what has been written to and taken from it according to the signals on the ports.  Nothing here
refers to how the FIFO works.
-/
namespace Spade.Fifo

/-- The signals that a FIFO drives: `FifoWrite::full`, `FifoRead::read` and
`FifoRead::num_elements`. -/
structure Ports (D : Type) where
  full : Bool
  read : Option D
  num : Nat

/-- What physics decides: for each bit that is sampled by one clock while it changes with the other,
whether it is seen as the new one (bits of the numbers `bitsW`, for signals of the write domain, and
`bitsR`), and the data of a memory access that is not defined. -/
structure Luck (D : Type) where
  bitsW : Nat
  bitsR : Nat
  data : D

/-- Something that happens: a rising edge of the write clock with the values of `write` and
`write_rst`, a rising edge of the read clock with the values of `ack` and `read_rst`, or both at
the same time. -/
inductive Edge (D : Type) where
  | write (v : Option D) (rst : Bool)
  | read (ack rst : Bool) (l : Luck D)
  | both (v : Option D) (wrst : Bool) (ack rrst : Bool) (l : Luck D)

/-- The value of `write`, if the write clock rises. -/
def Edge.input {D} : Edge D → Option D
  | .write v _ | .both v _ _ _ _ => v
  | .read _ _ _ => none

/-- Whether the read clock rises while `ack` is set. -/
def Edge.ack {D} : Edge D → Bool
  | .write _ _ => false
  | .read a _ _ | .both _ _ a _ _ => a

/-- There is a rising edge of the write clock. -/
def Edge.isWrite {D} : Edge D → Bool
  | .read _ _ _ => false
  | _ => true

/-- There is a rising edge of the read clock. -/
def Edge.isRead {D} : Edge D → Bool
  | .write _ _ => false
  | _ => true

/-- No reset is active. -/
def Edge.running {D} : Edge D → Bool
  | .write _ r => !r
  | .read _ r _ => !r
  | .both _ r _ q _ => !r && !q

/-- Both resets are active, as far as their clocks rise. -/
def Edge.resetting {D} : Edge D → Bool
  | .write _ r => r
  | .read _ r _ => r
  | .both _ r _ q _ => r && q

/-- What can be seen of a FIFO: the signals just before each edge, and the edge. -/
abbrev Trace (D : Type) := List (Ports D × Edge D)

/-- "Writes a single element of data in to the write port unless `full` is true. If full is true, the
write is ignored." -/
def accepted {D} : Trace D → List D
  | [] => []
  | (p, e) :: t => (if p.full then [] else e.input.toList) ++ accepted t

/-- "If the fifo is not empty, `read` contains the next value. If ack is set, that element is
popped from the fifo this clock cycle." -/
def taken {D} : Trace D → List D
  | [] => []
  | (p, e) :: t => (if e.ack then p.read.toList else []) ++ taken t

/-- A reset that is long enough: two edges of each clock, and then two more of each, with both
resets active. -/
def LongReset {D} (pre : List (Edge D)) : Prop :=
  (∀ e ∈ pre, e.resetting = true) ∧ ∃ a b, pre = a ++ b ∧
    2 ≤ a.countP Edge.isWrite ∧ 2 ≤ a.countP Edge.isRead ∧
    2 ≤ b.countP Edge.isWrite ∧ 2 ≤ b.countP Edge.isRead

end Spade.Fifo

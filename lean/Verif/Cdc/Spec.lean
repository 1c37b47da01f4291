/-!
# What users rely on synchronisers of wide values for

What happens to an instance of `std::cdc::sync_wide` (spade-compiler/stdlib/cdc.spade:179-188) and to one
of `std::cdc::handshake` (93-109).  Nothing here refers to how they work.
-/
namespace Spade.Cdc

/-- What physics decides when both clocks rise at the same time: whether a signal of the other domain
that changes is seen as the new one, and what is read from a wide signal that changes. -/
structure Luck (T : Type) where
  valid : Bool
  ack : Bool
  data : T

/-- Something that happens to `sync_wide`: a rising edge of the source clock with the values of
`input` and `rst`, one of the destination clock with the values of `init` and `rst`, or both at the
same time. -/
inductive Edge (T : Type) where
  | src (input : T) (rst : Bool)
  | dst (init : T) (rst : Bool)
  | both (input : T) (srst : Bool) (init : T) (drst : Bool) (l : Luck T)

/-- There is a rising edge of the source clock. -/
def Edge.isSrc {T} : Edge T → Bool
  | .dst _ _ => false
  | _ => true

/-- There is a rising edge of the destination clock. -/
def Edge.isDst {T} : Edge T → Bool
  | .src _ _ => false
  | _ => true

/-- The value of `input`, if the source clock rises. -/
def Edge.input {T} : Edge T → Option T
  | .src v _ | .both v _ _ _ _ => some v
  | .dst _ _ => none

/-- No reset is active. -/
def Edge.running {T} : Edge T → Bool
  | .src _ r | .dst _ r => !r
  | .both _ r _ q _ => !r && !q

/-- The reset is active, and `init` is `x`. -/
def Edge.Resetting {T} (x : T) : Edge T → Prop
  | .src _ r => r = true
  | .dst i r => r = true ∧ i = x
  | .both _ r i q _ => r = true ∧ q = true ∧ i = x

/-- The values of the input, one for each edge of the source clock. -/
def inputs {T} (es : List (Edge T)) : List T := es.filterMap Edge.input

/-- A reset that is long enough: an edge of each clock, and then two more of each, with the reset
active and the initial value `x`. -/
def LongReset {T} (x : T) (pre : List (Edge T)) : Prop :=
  (∀ e ∈ pre, e.Resetting x) ∧ ∃ a b, pre = a ++ b ∧
    1 ≤ a.countP Edge.isSrc ∧ 1 ≤ a.countP Edge.isDst ∧
    2 ≤ b.countP Edge.isSrc ∧ 2 ≤ b.countP Edge.isDst

/-- Some time: four edges of the source clock, and later three of the destination clock. -/
def Round {T} (es : List (Edge T)) : Prop :=
  ∃ a b, es = a ++ b ∧ 4 ≤ a.countP Edge.isSrc ∧ 3 ≤ b.countP Edge.isDst

end Spade.Cdc

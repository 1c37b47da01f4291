import Verif.Cdc.Spec
/-!
# What users rely on `handshake` for

"A single-cycle pulse on data in `from_clk` results in a single-cycle output in `to_clk`", unless "the
data occurs too frequently, i.e. within a few clock cycles in the slowest domain"
(spade-compiler/stdlib/cdc.spade:97-104).
-/
namespace Spade.Cdc

/-- Something that happens to `handshake`: a rising edge of `from_clk` with the values of `data` and
`rst`, one of `to_clk` with the value of `rst`, or both at the same time. -/
inductive HEdge (T : Type) where
  | src (data : Option T) (rst : Bool)
  | dst (rst : Bool)
  | both (data : Option T) (srst drst : Bool) (l : Luck T)

/-- There is a rising edge of `from_clk`. -/
def HEdge.isSrc {T} : HEdge T → Bool
  | .dst _ => false
  | _ => true

/-- There is a rising edge of `to_clk`. -/
def HEdge.isDst {T} : HEdge T → Bool
  | .src _ _ => false
  | _ => true

/-- The value of `data` at an edge of `from_clk`. -/
def HEdge.data {T} : HEdge T → Option T
  | .src v _ | .both v _ _ _ => v
  | .dst _ => none

/-- The reset is not active. -/
def HEdge.running {T} : HEdge T → Bool
  | .src _ r | .dst r => !r
  | .both _ r q _ => !r && !q

/-- The reset is active. -/
def HEdge.resetting {T} : HEdge T → Bool
  | .src _ r | .dst r => r
  | .both _ r q _ => r && q

/-- What can be seen: the output just before each edge, and the edge. -/
abbrev HTrace (T : Type) := List (Option T × HEdge T)

/-- The values that were sent. -/
def sent {T} (es : List (HEdge T)) : List T := es.filterMap HEdge.data

/-- The values that were received: the output at the edges of `to_clk`. -/
def received {T} : HTrace T → List T
  | [] => []
  | (o, e) :: t => (if e.isDst then o.toList else []) ++ received t

/-- Nothing is sent. -/
def Quiet {T} (es : List (HEdge T)) : Prop := ∀ e ∈ es, e.data = none ∧ e.running = true

/-- Enough time until the next value: one edge of `from_clk`, then three of `to_clk`, three of
`from_clk`, three of `to_clk` and two of `from_clk`. -/
def Gap {T} (es : List (HEdge T)) : Prop :=
  ∃ a b c d e, es = a ++ b ++ c ++ d ++ e ∧ 1 ≤ a.countP HEdge.isSrc ∧ 3 ≤ b.countP HEdge.isDst ∧
    3 ≤ c.countP HEdge.isSrc ∧ 3 ≤ d.countP HEdge.isDst ∧ 2 ≤ e.countP HEdge.isSrc

/-- A history in which values are not sent too frequently: between two of them there is enough
time. -/
inductive Spaced {T} : List (HEdge T) → Prop
  | quiet {g} : Quiet g → Spaced g
  | last {g e v g'} : Quiet g → e.data = some v → e.running = true → Quiet g' → Spaced (g ++ e :: g')
  | more {g e v g' es} : Quiet g → e.data = some v → e.running = true → Quiet g' → Gap g' →
      Spaced es → Spaced (g ++ e :: (g' ++ es))

/-- A reset that is long enough. -/
def HLongReset {T} (pre : List (HEdge T)) : Prop :=
  (∀ e ∈ pre, e.resetting = true) ∧ ∃ a b, pre = a ++ b ∧
    1 ≤ a.countP HEdge.isSrc ∧ 1 ≤ a.countP HEdge.isDst ∧
    2 ≤ b.countP HEdge.isSrc ∧ 2 ≤ b.countP HEdge.isDst

end Spade.Cdc

import Verif.Cdc.Spec
/-!
# Model of `std::cdc::sync_wide`

spade-compiler/stdlib/cdc.spade:112-188.  A register that is clocked by one clock and samples a signal of
the other clock domain sees the value before the edge, if the other clock does not rise at the same
time; otherwise it sees the old or the new value of a `bool`, and any value of a wide signal that
changes.
-/
namespace Spade.Cdc

/-- `TxState` (cdc.spade:115-120). -/
inductive Tx (T : Type) where
  | init
  | setup (val : T)
  | hold (val : T)
  | waitRelease

/-- `RxState` (cdc.spade:149-152). -/
inductive Rx where
  | waitReceive
  | sendAck
deriving DecidableEq

/-- The registers: of the source clock, the two of the `sync2_bool` of `ack` (cdc.spade:13-17, 129),
`state` (131-136) and `UNDEF` (138); of the destination clock, the two of the `sync2_bool` of `valid`
(154), `state` (160-163) and `out` (165-168). -/
structure Wide (T : Type) where
  a1 : Bool
  a2 : Bool
  tx : Tx T
  undef : T
  v1 : Bool
  v2 : Bool
  rx : Rx
  out : T

/-- `valid` (cdc.spade:139-144). -/
def Tx.valid {T} : Tx T → Bool
  | .init => false
  | .setup _ => false
  | .hold _ => true
  | .waitRelease => false

/-- `data` (cdc.spade:139-144). -/
def Tx.data {T} (undef : T) : Tx T → T
  | .init => undef
  | .setup d => d
  | .hold d => d
  | .waitRelease => undef

/-- The next `state` of the sender (cdc.spade:131-136). -/
def Tx.next {T} (ack : Bool) (input : T) : Tx T → Tx T
  | .init => .setup input
  | .setup d => .hold d
  | .hold d => if ack then .waitRelease else .hold d
  | .waitRelease => if !ack then .setup input else .waitRelease

/-- `ack` (cdc.spade:170-173). -/
def Rx.ack : Rx → Bool
  | .waitReceive => false
  | .sendAck => true

/-- The next `state` of the receiver (cdc.spade:160-163). -/
def Rx.next (valid : Bool) : Rx → Rx
  | .waitReceive => if valid then .sendAck else .waitReceive
  | .sendAck => if !valid then .waitReceive else .sendAck

/-- The next `out` of the receiver (cdc.spade:165-168). -/
def Wide.nextOut {T} (s : Wide T) (data : T) : T :=
  match s.rx, s.v2 with
  | .waitReceive, true => data
  | _, _ => s.out

/-- The sender at an edge of the source clock; `seen` is the value of `ack` that is sampled. -/
def Wide.src {T} (s : Wide T) (input : T) (rst seen : Bool) : Wide T :=
  { s with a1 := seen, a2 := s.a1, tx := if rst then .init else s.tx.next s.a2 input }

/-- The receiver at an edge of the destination clock; `seen` and `data` are the values of `valid` and
`data` that are sampled. -/
def Wide.dst {T} (s : Wide T) (init : T) (rst seen : Bool) (data : T) : Wide T :=
  { s with v1 := seen, v2 := s.v1, rx := if rst then .waitReceive else s.rx.next s.v2,
           out := if rst then init else s.nextOut data }

/-- `sync_wide` (cdc.spade:182-188) at an edge. -/
def Wide.step {T} [DecidableEq T] (s : Wide T) : Edge T → Wide T
  | .src input rst => s.src input rst s.rx.ack
  | .dst init rst => s.dst init rst s.tx.valid (s.tx.data s.undef)
  | .both input srst init drst l =>
    let tx := (s.src input srst s.rx.ack).tx
    let rx := (s.dst init drst s.tx.valid (s.tx.data s.undef)).rx
    let data := if s.tx.data s.undef = tx.data s.undef then s.tx.data s.undef else l.data
    let s' := s.src input srst (if l.ack then rx.ack else s.rx.ack)
    let d := s.dst init drst (if l.valid then tx.valid else s.tx.valid) data
    { s' with v1 := d.v1, v2 := d.v2, rx := d.rx, out := d.out }

/-- A history. -/
def Wide.run {T} [DecidableEq T] : Wide T → List (Edge T) → Wide T
  | s, [] => s
  | s, e :: es => (s.step e).run es

end Spade.Cdc

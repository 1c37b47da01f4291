import Verif.Cdc.HandSpec
/-! # Model of `std::cdc::handshake` (spade-compiler/stdlib/cdc.spade:34-109) -/
namespace Spade.Cdc

/-- `TxState` (cdc.spade:42-46). -/
inductive HTx where
  | waitData
  | holdData
  | waitAck
deriving DecidableEq

/-- `RxState` (cdc.spade:73-76). -/
inductive HRx where
  | waitValid
  | waitInvalid
deriving DecidableEq

/-- The registers: of `from_clk`, those of the `sync2_bool` of `ack` (cdc.spade:50), `state` (52-58) and
`data_held` (60-63); of `to_clk`, those of the `sync2_bool` of `data_valid` (79), `state` and
`data_out` (81-86). -/
structure Hand (T : Type) where
  a1 : Bool
  a2 : Bool
  tx : HTx
  held : T
  v1 : Bool
  v2 : Bool
  rx : HRx
  out : Option T

/-- `data_valid` (cdc.spade:66-70). -/
def HTx.valid : HTx → Bool
  | .waitData => false
  | .holdData => false
  | .waitAck => true

/-- The next `state` of the transmitter (cdc.spade:52-58). -/
def HTx.next {T} (data : Option T) (ack : Bool) : HTx → HTx
  | .waitData => match data with
    | none => .waitData
    | some _ => .holdData
  | .holdData => .waitAck
  | .waitAck => if ack then .waitData else .waitAck

/-- The next `data_held` (cdc.spade:60-63). -/
def Hand.nextHeld {T} (s : Hand T) (data : Option T) : T :=
  match data, s.tx with
  | some d, .waitData => d
  | _, _ => s.held

/-- `ack` (cdc.spade:88-91). -/
def HRx.ack : HRx → Bool
  | .waitValid => false
  | .waitInvalid => true

/-- The next `state` and `data_out` of the receiver (cdc.spade:81-86). -/
def HRx.next {T} (valid : Bool) (data : T) : HRx → HRx × Option T
  | .waitValid => if valid then (.waitInvalid, some data) else (.waitValid, none)
  | .waitInvalid => if valid then (.waitInvalid, none) else (.waitValid, none)

/-- The transmitter at an edge of `from_clk`; `seen` is the value of `ack` that is sampled. -/
def Hand.src {T} (s : Hand T) (data : Option T) (rst seen : Bool) : Hand T :=
  { s with a1 := seen, a2 := s.a1, tx := if rst then .waitData else s.tx.next data s.a2,
           held := s.nextHeld data }

/-- The receiver at an edge of `to_clk`; `seen` and `data` are the values of `data_valid` and `data`
that are sampled. -/
def Hand.dst {T} (s : Hand T) (rst seen : Bool) (data : T) : Hand T :=
  { s with v1 := seen, v2 := s.v1, rx := if rst then .waitValid else (s.rx.next s.v2 data).1,
           out := if rst then none else (s.rx.next s.v2 data).2 }

/-- `handshake` (cdc.spade:105-109) at an edge. -/
def Hand.step {T} [DecidableEq T] (s : Hand T) : HEdge T → Hand T
  | .src data rst => s.src data rst s.rx.ack
  | .dst rst => s.dst rst s.tx.valid s.held
  | .both i srst drst l =>
    let t := s.src i srst s.rx.ack
    let rx := (s.dst drst s.tx.valid s.held).rx
    let data := if s.held = t.held then s.held else l.data
    let s' := s.src i srst (if l.ack then rx.ack else s.rx.ack)
    let d := s.dst drst (if l.valid then t.tx.valid else s.tx.valid) data
    { s' with v1 := d.v1, v2 := d.v2, rx := d.rx, out := d.out }

/-- A history. -/
def Hand.run {T} [DecidableEq T] : Hand T → List (HEdge T) → Hand T
  | s, [] => s
  | s, e :: es => (s.step e).run es

/-- What can be seen of a history. -/
def Hand.trace {T} [DecidableEq T] : Hand T → List (HEdge T) → HTrace T
  | _, [] => []
  | s, e :: es => (s.out, e) :: (s.step e).trace es

end Spade.Cdc

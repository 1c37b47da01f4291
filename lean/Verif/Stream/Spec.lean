import Verif.Match.Spec
/-!
# Streams of values (C67): specification

Signals over time, and what a user expects of windows and chunks of a stream of optional values and of
edge detectors.  Nothing here refers to entities.
-/
namespace Spade.Stream
open Spade.Match (Val)

/-- A stream of optional values with its clock and reset.  Time is a sequence of instants. -/
structure Stream where
  clk : Nat → Bool
  rst : Nat → Bool
  item : Nat → Option Val

/-- There is a rising edge of the clock between an instant and the next. -/
def rises (clk : Nat → Bool) (t : Nat) : Bool := !clk t && clk (t + 1)

/-- The instant before the last rising edge with reset, if there was one. -/
def Stream.lastReset (s : Stream) : Nat → Option Nat
  | 0 => none
  | t + 1 => if rises s.clk t && s.rst t then some t else s.lastReset t

/-- The values that were there at rising edges after the last reset, the latest first. -/
def Stream.taken (s : Stream) : Nat → List Val
  | 0 => []
  | t + 1 =>
    if rises s.clk t then if s.rst t then [] else (s.item t).toList ++ s.taken t
    else s.taken t

/-- The last `N` values of the stream, the latest first, with padding if there are not as many. -/
def Stream.window (s : Stream) (N : Nat) (padding : Val) (t : Nat) : Option (List Val) :=
  (s.item t).map (fun v => (v :: s.taken t ++ List.replicate N padding).take N)

/-- Every `N`th value of the stream comes with the ones before it since the previous chunk, the
oldest first. -/
def Stream.chunk (s : Stream) (N : Nat) (t : Nat) : Option (List Val) :=
  match s.item t with
  | none => none
  | some v =>
    if ((s.taken t).length + 1) % N = 0 then some (((v :: s.taken t).take N).reverse) else none

/-- The chunks that were there at rising edges after the last reset, the oldest first. -/
def Stream.chunksSeen (s : Stream) (N : Nat) : Nat → List (List Val)
  | 0 => []
  | t + 1 =>
    if rises s.clk t then if s.rst t then [] else s.chunksSeen N t ++ (s.chunk N t).toList
    else s.chunksSeen N t

/-- The value of a signal at the last rising edge. -/
def sampled (clk value : Nat → Bool) : Nat → Option Bool
  | 0 => none
  | t + 1 => if rises clk t then some (value t) else sampled clk value t

/-- An optional array as a value: `None` is the first variant, `Some` the second. -/
def optional : Option (List Val) → Val
  | none => .variant 0 []
  | some vs => .variant 1 [.tup vs]

/-- An optional value. -/
def item : Option Val → Val
  | none => .variant 0 []
  | some v => .variant 1 [v]

end Spade.Stream

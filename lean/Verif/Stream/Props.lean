import Verif.Stream.Accept
import Verif.Stream.Once
import Verif.Entity.Props
/-!
# Windows and chunks of streams, edge detectors (C67)

`Lib P num` says that `P` contains the functions of the standard library that it uses (C58), with the
numbers `num`.  `Feeds ins s T` says that the inputs are the stream, its clock and its reset.
-/
namespace Spade.Stream
open Spade.Verilog Spade.Codegen Spade.Lower Spade.Expr Spade.Std Spade.Entity
open Spade.Match (Val)

variable {P : Prog} {num : Key → Nat} {D : Ents}

/-- After a reset, `stream.padded_sliding_window::<N>(clk, rst, default)` has a value exactly when the
stream has one.  It is the array of the last `N` values, the latest first, and before there are as many
the rest are what `default` was at the reset.  What was there before the reset does not matter. -/
theorem C67_window (L : Lib P num) (u : Nat) (T : MTy) (N : Nat) (s : Stream) (ins : Inputs)
    (default : Nat → Val) (t r : Nat)
    (hsf : (P (num (.shiftFront T N))).isSome) (his : (P (num (.op (.isSome T)))).isSome) (hN : 0 < N)
    (hD : D u = some (window num T N)) (hf : Feeds ins s T)
    (hd : ∀ t, ins t 3 = some (default t)) (hdT : ∀ t, Is T (default t)) (h : s.lastReset t = some r) :
    Gives P D u ins t (window num T N).result (optional (s.window N (default r) t)) :=
  window_gives L hsf his hN hD hf hd hdT h

/-- When the stream has no value, the window has none either, even before a reset. -/
theorem C67_window_none (L : Lib P num) (u : Nat) (T : MTy) (N : Nat) (s : Stream) (ins : Inputs) (t : Nat)
    (his : (P (num (.op (.isSome T)))).isSome) (hD : D u = some (window num T N)) (hf : Feeds ins s T)
    (h : s.item t = none) : Gives P D u ins t (window num T N).result (optional none) :=
  window_none L his hD hf h

/-- After a reset, `stream.chunks::<N>(clk, rst)` has a value exactly at every `N`th value of the
stream: the last `N` values, the oldest first.  Each value of the stream is in one chunk.  This does
not depend on what the array, which is not reset, starts with.  There is no latency, although the
documentation says that there is one cycle. -/
theorem C67_chunks_partial (L : Lib P num) (u : Nat) (T : MTy) (N : Nat) (s : Stream) (ins : Inputs)
    (start : Expr) (ids : List (Nat × MTy)) (w0 : List Val) (t r : Nat)
    (heq : (P (num (.op (.eq (.uint (bitsFor N + 1)))))).isSome)
    (hcat : (P (num (.concat T (N - 1) 1))).isSome) (hand : (P (num (.op (.logic .and)))).isSome)
    (his : (P (num (.op (.isSome T)))).isSome) (hN : 0 < N)
    (hD : D u = some (chunks num T N start ids)) (hf : Feeds ins s T)
    (hs : Ev P (fun _ => none) start (.tup w0)) (hw0 : Is (.array T N) (.tup w0))
    (h : s.lastReset t = some r) :
    Gives P D u ins t (chunks num T N start ids).result (optional (s.chunk N t)) :=
  chunks_gives L heq hcat hand his hN hD hf hs hw0 h

/-- Each value of the stream is in one chunk: the chunks one after the other are the values of the
stream in order, but for the last ones, fewer than `N`, that wait for more. -/
theorem C67_chunks_once (s : Stream) (N t : Nat) (hN : 0 < N) :
    ∃ rest, rest.length < N ∧ (s.chunksSeen N t).flatten ++ rest = (s.taken t).reverse :=
  chunks_once s hN t

/-- `rising_edge(clk, value)` is true exactly when the value is true now and was false at the last
rising edge of the clock. -/
theorem C67_rising_edge (L : Lib P num) (u : Nat) (ins : Inputs) (clk value : Nat → Bool) (t : Nat) (old : Bool)
    (hand : (P (num (.op (.logic .and)))).isSome) (hnot : (P (num (.op .not))).isSome)
    (hD : D u = some (risingEdge num)) (hc : ∀ t, ins t 0 = some (.bool (clk t)))
    (hv : ∀ t, ins t 1 = some (.bool (value t))) (h : sampled clk value t = some old) :
    ∃ b, Gives P D u ins t (risingEdge num).result (.bool b) ∧
      (b = true ↔ value t = true ∧ old = false) :=
  ⟨_, rising_gives L hand hnot hD hc hv h, by simp⟩

/-- `falling_edge(clk, value)` is true exactly when the value is false now and was true at the last
rising edge of the clock. -/
theorem C67_falling_edge (L : Lib P num) (u : Nat) (ins : Inputs) (clk value : Nat → Bool) (t : Nat) (old : Bool)
    (hand : (P (num (.op (.logic .and)))).isSome) (hnot : (P (num (.op .not))).isSome)
    (hD : D u = some (fallingEdge num)) (hc : ∀ t, ins t 0 = some (.bool (clk t)))
    (hv : ∀ t, ins t 1 = some (.bool (value t))) (h : sampled clk value t = some old) :
    ∃ b, Gives P D u ins t (fallingEdge num).result (.bool b) ∧
      (b = true ↔ value t = false ∧ old = true) :=
  ⟨_, falling_gives L hand hnot hD hc hv h, by simp⟩

/-- The entities pass type inference, if the functions that they use are there and the vectors are not
too large. -/
theorem C67_accepted (L : Lib P num)
    (h : ∀ u E, D u = some E →
      (∃ T N, E = window num T N ∧ (P (num (.shiftFront T N))).isSome ∧
        (P (num (.op (.isSome T)))).isSome ∧ (option T).size ≤ 2 ^ 32 ∧ (MTy.array T N).size ≤ 2 ^ 32) ∨
      (∃ T N start ids, E = chunks num T N start ids ∧ (P (num (.op (.eq (.uint (bitsFor N + 1)))))).isSome ∧
        (P (num (.concat T (N - 1) 1))).isSome ∧ (P (num (.op (.logic .and)))).isSome ∧
        (P (num (.op (.isSome T)))).isSome ∧ 0 < N ∧ (option T).size ≤ 2 ^ 32 ∧
        (MTy.array T N).size ≤ 2 ^ 32 ∧ bitsFor N ≤ 2 ^ 32 ∧ Foldable start ∧ start.names.Nodup ∧
        start.ty = .array T N ∧ start.Ok P.sig E.types) ∨
      ((E = risingEdge num ∨ E = fallingEdge num) ∧ (P (num (.op (.logic .and)))).isSome ∧
        (P (num (.op .not))).isSome) ∨
      (∀ p ∈ E.params, E.types p.1 = p.2) ∧ (∀ s ∈ E.body, s.Ok P.sig D E.types) ∧
        E.result.Ok P.sig E.types) : D.Ok P := by
  intro u E hu
  rcases h u E hu with ⟨T, N, rfl, h1, h2, h3, h4⟩ | ⟨T, N, start, ids, rfl, h1, h2, h3, h4, h5, h6, h7, h8, h9,
    h10, h11, h12⟩ | ⟨h1 | h1, h2, h3⟩ | h
  · exact window_accepted L h1 h2 h3 h4
  · exact chunks_accepted L h1 h2 h3 h4 h5 h6 h7 h8 h9 h10 h11 h12
  · subst h1; exact rising_accepted L h2 h3
  · subst h1; exact falling_accepted L h2 h3
  · exact h

/-- The generated hardware of `padded_sliding_window` outputs the bits of the window. -/
theorem C67_window_hardware_partial (L : Lib P num) (hP : P.Ok) (hDok : D.Ok P) (nids enids : Nat → Nat)
    (u : Nat) (T : MTy) (N : Nat) (s : Stream) (ins : Inputs) (default : Nat → Val) (t r : Nat)
    (bits : Nat → List Bits) (out : Nat → Bits)
    (hsf : (P (num (.shiftFront T N))).isSome) (his : (P (num (.op (.isSome T)))).isSome) (hN : 0 < N)
    (hD : D u = some (window num T N)) (hf : Feeds ins s T)
    (hd : ∀ t, ins t 3 = some (default t)) (hdT : ∀ t, Is T (default t)) (h : s.lastReset t = some r)
    (hin : InputsEncode (window num T N).params ins bits)
    (hout : EProduces (lowerProg P nids) (lowerEnts D enids) u bits out) :
    Enc (option (.array T N)) (optional (s.window N (default r) t)) (out t) :=
  C47_entity_value_partial P D nids enids u _ ins bits out t _ hP hDok hD
    (C67_window L u T N s ins default t r hsf his hN hD hf hd hdT h) hin hout

/-- The generated hardware of `chunks` outputs the bits of the chunk. -/
theorem C67_chunks_hardware_partial (L : Lib P num) (hP : P.Ok) (hDok : D.Ok P) (nids enids : Nat → Nat)
    (u : Nat) (T : MTy) (N : Nat) (s : Stream) (ins : Inputs) (start : Expr) (ids : List (Nat × MTy)) (w0 : List Val) (t r : Nat)
    (bits : Nat → List Bits) (out : Nat → Bits)
    (heq : (P (num (.op (.eq (.uint (bitsFor N + 1)))))).isSome)
    (hcat : (P (num (.concat T (N - 1) 1))).isSome) (hand : (P (num (.op (.logic .and)))).isSome)
    (his : (P (num (.op (.isSome T)))).isSome) (hN : 0 < N)
    (hD : D u = some (chunks num T N start ids)) (hf : Feeds ins s T)
    (hs : Ev P (fun _ => none) start (.tup w0)) (hw0 : Is (.array T N) (.tup w0))
    (h : s.lastReset t = some r)
    (hin : InputsEncode (chunks num T N start ids).params ins bits)
    (hout : EProduces (lowerProg P nids) (lowerEnts D enids) u bits out) :
    Enc (option (.array T N)) (optional (s.chunk N t)) (out t) :=
  C47_entity_value_partial P D nids enids u _ ins bits out t _ hP hDok hD
    (C67_chunks_partial L u T N s ins start ids w0 t r heq hcat hand his hN hD hf hs hw0 h) hin hout

/-- The generated hardware of the edge detectors outputs a pulse exactly at the edges. -/
theorem C67_edge_hardware (L : Lib P num) (hP : P.Ok) (hDok : D.Ok P) (nids enids : Nat → Nat)
    (u v : Nat) (ins : Inputs) (clk value : Nat → Bool) (t : Nat) (old : Bool)
    (bits : Nat → List Bits) (rising falling : Nat → Bits)
    (hand : (P (num (.op (.logic .and)))).isSome) (hnot : (P (num (.op .not))).isSome)
    (hu : D u = some (risingEdge num)) (hv : D v = some (fallingEdge num))
    (hc : ∀ t, ins t 0 = some (.bool (clk t))) (hval : ∀ t, ins t 1 = some (.bool (value t)))
    (h : sampled clk value t = some old) (hin : InputsEncode [(0, .bool), (1, .bool)] ins bits)
    (hr : EProduces (lowerProg P nids) (lowerEnts D enids) u bits rising)
    (hf : EProduces (lowerProg P nids) (lowerEnts D enids) v bits falling) :
    Enc .bool (.bool (!old && value t)) (rising t) ∧ Enc .bool (.bool (old && !value t)) (falling t) := by
  rw [Bool.and_comm, Bool.and_comm old]
  exact ⟨C47_entity_value_partial P D nids enids u _ ins bits rising t _ hP hDok hu
      (rising_gives L hand hnot hu hc hval h) hin hr,
    C47_entity_value_partial P D nids enids v _ ins bits falling t _ hP hDok hv
      (falling_gives L hand hnot hv hc hval h) hin hf⟩

end Spade.Stream

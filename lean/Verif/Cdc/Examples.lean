import Verif.Cdc.WideProps
import Verif.Cdc.HandMain
/-! # Examples -/
namespace Spade.Cdc

/-! ## `sync_wide` -/

/-- Some state after power up. -/
def wide0 : Wide Nat := ⟨true, false, .hold 7, 1000, true, true, .sendAck, 8⟩

/-- A long reset. -/
def wreset : List (Edge Nat) :=
  [.src 1 true, .dst 5 true, .both 2 true 5 true ⟨true, false, 3⟩, .src 0 true, .dst 5 true]

theorem wreset_long : LongReset 5 wreset :=
  ⟨by simp [wreset, Edge.Resetting], wreset.take 2, wreset.drop 2, (List.take_append_drop ..).symm,
    by decide, by decide, by decide, by decide⟩

/-- The input counts, and the clocks rise in turn. -/
def wevs : List (Edge Nat) :=
  [.src 10 false, .src 11 false, .dst 0 false, .dst 0 false, .dst 0 false, .src 12 false,
   .both 13 false 0 false ⟨true, true, 99⟩, .src 14 false, .dst 0 false, .dst 0 false, .dst 0 false,
   .src 15 false, .src 16 false, .src 17 false, .src 18 false, .dst 0 false, .dst 0 false,
   .both 19 false 0 false ⟨true, true, 99⟩]

example : ∀ e ∈ wevs, e.running = true := by decide

/-- The output is 10 at first, and later 17: the values in between are skipped. -/
example : (((wide0.run wreset).run (wevs.take 4)).out, ((wide0.run wreset).run (wevs.take 5)).out,
    ((wide0.run wreset).run wevs).out) = (5, 10, 17) := by decide

/-- Four edges of one clock and three of the other. -/
def wround : List (Edge Nat) := List.replicate 4 (.src 42 false) ++ List.replicate 3 (.dst 0 false)

example : Round wround :=
  ⟨List.replicate 4 (.src 42 false), List.replicate 3 (.dst 0 false), rfl, by decide, by decide⟩

example : ∀ i ∈ inputs (wround ++ wround ++ wround), i = 42 := by decide

/-- Two rounds are not enough. -/
example : ((wide0.run wreset).run (wevs.take 2 ++ (wround ++ wround))).out = 10 ∧
    ((wide0.run wreset).run (wevs.take 2 ++ (wround ++ wround ++ wround))).out = 42 := by decide

/-! ## `handshake` -/

/-- Some state after power up. -/
def hand0 : Hand Nat := ⟨true, false, .waitAck, 7, true, true, .waitInvalid, some 8⟩

/-- A long reset. -/
def hreset : List (HEdge Nat) :=
  [.src none true, .dst true, .both (some 2) true true ⟨true, false, 3⟩, .src none true, .dst true]

theorem hreset_long : HLongReset hreset :=
  ⟨by decide, hreset.take 2, hreset.drop 2, (List.take_append_drop ..).symm,
    by decide, by decide, by decide, by decide⟩

/-- Just enough time. -/
def hgap : List (HEdge Nat) :=
  [.src none false] ++ List.replicate 3 (.dst false) ++ List.replicate 3 (.src none false) ++
    List.replicate 3 (.dst false) ++ List.replicate 2 (.src none false)

theorem hgap_gap : Gap hgap :=
  ⟨_, _, _, _, _, rfl, by decide, by decide, by decide, by decide, by decide⟩

theorem hgap_quiet : Quiet hgap := by
  intro e he
  revert e
  decide

/-- Three values. -/
def hevs : List (HEdge Nat) :=
  [] ++ .src (some 1) false :: (hgap ++ ([] ++ .both (some 2) false false ⟨true, true, 0⟩ :: (hgap ++
    ([] ++ .src (some 3) false :: []))))

theorem hevs_spaced : Spaced hevs :=
  .more (by intro e he; cases he) rfl rfl hgap_quiet hgap_gap
    (.more (by intro e he; cases he) rfl rfl hgap_quiet hgap_gap
      (.last (by intro e he; cases he) rfl rfl (by intro e he; cases he)))

example : sent hevs = [1, 2, 3] ∧ received ((hand0.run hreset).trace hevs) = [1, 2] := by decide

/-- **C57, values that are sent too frequently.** The transmitter accepts a new value as soon as it has
seen the acknowledgement, although the receiver may not have seen that the old value is gone.  A value
sent then is lost, although the transmitter has gone back to waiting for values: this is the documented
limitation, and `ack` does not tell the sender when to go on. -/
theorem C57_counterexample_too_frequent :
    let es : List (HEdge Nat) := [.src (some 1) false, .src none false, .dst false, .dst false,
      .dst false, .src none false, .src none false, .src none false, .src (some 2) false]
    HLongReset hreset ∧ (∀ e ∈ es, e.running = true) ∧ sent es = [1, 2] ∧
    received ((hand0.run hreset).trace (es ++ hgap ++ hgap)) = [1] := by
  refine ⟨hreset_long, by decide, by decide, by decide⟩

end Spade.Cdc

import Verif.Fifo.Props
/-! # Examples and what the FIFO does not do -/
namespace Spade.Fifo

/-- Nothing goes wrong. -/
def calm : Luck Nat := ⟨0, 0, 0⟩

/-- Some state after power up. -/
def powerUp : State 2 Nat :=
  { w := ⟨3, 1, 2, 0⟩, r := ⟨1, 2, 2, 3, 99⟩, mem := fun _ => 77 }

/-- Eight edges with both resets active. -/
def reset8 : List (Edge Nat) :=
  [.write none true, .read false true calm, .both (some 5) true true true ⟨1, 2, 3⟩,
   .write none true, .write none true, .read false true calm, .read false true calm]

theorem reset8_long : LongReset reset8 :=
  ⟨by decide, reset8.take 3, reset8.drop 3, (List.take_append_drop ..).symm, by decide, by decide,
    by decide, by decide⟩

/-- Three values are written, and edges of the clocks come in all ways. -/
def busy : List (Edge Nat) :=
  [.write (some 10) false, .both (some 20) false true false ⟨3, 0, 0⟩, .write (some 30) false,
   .read true false calm, .write (some 40) false, .read true false calm, .read true false calm,
   .write (some 50) false, .both (some 60) false true false ⟨1, 2, 0⟩, .write (some 70) false,
   .write (some 80) false, .read true false calm, .read false false calm]

example : ∀ e ∈ busy, e.running = true := by decide

/-- The values 10, 20, 30, 70 and 80 are accepted; some are refused because the FIFO is full. -/
example : accepted ((powerUp.run 4 reset8).trace 4 busy) = [10, 20, 30, 70, 80] := by decide

example : taken ((powerUp.run 4 reset8).trace 4 busy) = [10, 20, 30] := by decide

/-- The next value can be read. -/
example : (((powerUp.run 4 reset8).run 4 busy).ports 4).read = some 70 := by decide

example : (((powerUp.run 4 reset8).run 4 (busy ++ [.write none false, .read false false calm,
    .read false false calm])).ports 4).read = some 70 := by decide

/-- Nothing is read or written. -/
def idle : List (Edge Nat) := [.write none false, .read false false calm, .read false false calm]

example : taken ((powerUp.run 4 reset8).trace 4 busy) ≠ accepted ((powerUp.run 4 reset8).trace 4 busy) := by
  decide

/-- **C55, memory of another size.** `NumElements` is not checked to be `2 ^ AddrWidth` ("this is not
currently checked"): with fewer elements, values that are accepted are lost.  Here there are two, and
the third value is not the third one read. -/
theorem C55_counterexample_memory_size :
    let s1 := (powerUp.run 2 reset8)
    let evs : List (Edge Nat) := [.write (some 10) false, .write (some 20) false,
      .write (some 30) false] ++ idle ++ [.read true false calm, .read true false calm,
      .read true false calm]
    (∀ e ∈ evs, e.running = true) ∧ LongReset reset8 ∧
    accepted (s1.trace 2 evs) = [10, 20, 30] ∧ taken (s1.trace 2 evs) = [10, 20, 0] := by
  refine ⟨by decide, reset8_long, by decide, by decide⟩

/-- **C55, reset of one side.** The FIFO has a reset for each domain.  If only the write side is
reset, values that were taken before are read once more, although nothing has been written since: one
value is written and taken, the write side is reset for many cycles, and then three values are read. -/
theorem C55_counterexample_one_reset :
    let s1 := (powerUp.run 4 reset8)
    let before : List (Edge Nat) := .write (some 10) false :: idle ++ [.read true false calm]
    let rst : List (Edge Nat) := List.replicate 5 (.write none true)
    let after : List (Edge Nat) := idle ++ [.read true false calm, .read true false calm,
      .read true false calm, .read true false calm]
    LongReset reset8 ∧
    accepted (s1.trace 4 (before ++ rst ++ after)) = [10] ∧
    taken (s1.trace 4 (before ++ rst ++ after)) = [10, 77, 77, 77] := by
  refine ⟨reset8_long, by decide, by decide⟩

end Spade.Fifo

import Verif.Cxx.Values
import Verif.Cxx.Classes
import Verif.Sim.Props
/-!
# C71: values pass between a C++ test bench and the wires of a unit unchanged
-/
namespace Spade.Cxx

open Spade.Codegen
open Spade.Vcd (Str Ty)

/-- C71, partial: a value assigned to an input, as narrow or wide as it may be, is on the wires of the
port afterwards, bit by bit, and no other bit of the port is set.  Missing: tuples, structs and arrays
with an element of 64 bits or more, where the assignment panics
(`C71_counterexample_wide_element`), and undefined bits, which become 0
(`C71_counterexample_undefined`). -/
theorem C71_input_partial {n : Nat} {v : Value} {p : Port} (h : v.Ok) (hn : v.Narrow) (hw : v.width = n)
    (h0 : 0 < n) (h64 : n < 2 ^ 64) (hp : p.Fits n) :
    ∃ s p', v.asString = some s ∧ assign n v p = some p' ∧ p'.Fits n ∧ Carries p' s :=
  assign_ok h hn hw h0 h64 hp

/-- C71: the string that the test bench gets of an output has the wires of the port, the most
significant one first, whatever the width. -/
theorem C71_output {n : Nat} {p : Port} (h0 : 0 < n) (hp : p.Fits n) :
    outputString n p = some ((List.range n).reverse.map p.wire) := by
  obtain ⟨r, h1, h2, h3⟩ := output_ok h0 hp
  rw [h1]
  congr 1
  apply List.reverse_inj.1
  apply List.ext_getElem?
  intro i
  by_cases hi : i < n
  · rw [h3 i hi]
    simp [← List.map_reverse, hi]
  · rw [List.getElem?_eq_none (by simp [h2]; omega), List.getElem?_eq_none (by simp; omega)]

/-- C71, partial: a value that goes into a port and comes out of it is the same string of bits, with
0 for undefined bits. -/
theorem C71_round_trip_partial {n : Nat} {v : Value} {p : Port} (h : v.Ok) (hn : v.Narrow)
    (hw : v.width = n) (h0 : 0 < n) (h64 : n < 2 ^ 64) (hp : p.Fits n) :
    ∃ s p', v.asString = some s ∧ assign n v p = some p' ∧
      outputString n p' = some (s.map fun b => b.getD false) := by
  obtain ⟨s, p', h1, h2, h3, h4⟩ := assign_ok h hn hw h0 h64 hp
  refine ⟨s, p', h1, h2, ?_⟩
  rw [C71_output h0 h3]
  have hlen : s.length = n := by
    obtain ⟨s', h5, h6, _⟩ := asString_ok v h
    rw [h1] at h5
    cases h5
    omega
  congr 1
  apply List.reverse_inj.1
  apply List.ext_getElem?
  intro i
  rw [← List.map_reverse, List.reverse_reverse, ← List.map_reverse, List.getElem?_map, List.getElem?_map]
  by_cases hi : i < n
  · have hi' : i < s.reverse.length := by simp; omega
    rw [List.getElem?_range hi, Option.map_some, h4 i, List.getElem?_eq_getElem hi']
    cases s.reverse[i]'hi' <;> rfl
  · rw [List.getElem?_eq_none (by simp; omega), List.getElem?_eq_none (by simp; omega)]
    rfl

/-- C71, partial: the classes for the output are valid C++.  Missing: fields without wires
(`C71_counterexample_empty_field`), underscores in names (`C71_counterexample_underscore`) and fields
called `root` (`C71_counterexample_root`). -/
theorem C71_compiles_partial {t : Ty} (hp : Plain t) (h : t.size ≠ 0) (cls : Str) :
    Compiles (outputWrappers [] cls t) := compiles hp h cls

/-- C71, partial: what can be selected from the object for the output are exactly the fields of its type, and the
object selected by a path compares and shows the field at that path.  Missing: as for
`C71_compiles_partial`. -/
theorem C71_fields_partial {t : Ty} (hp : Plain t) (h : t.size ≠ 0) (cls : Str) (path : List Str) :
    (∀ u, At t path u → ∃ c, Select (outputWrappers [] cls t) cls path c) ∧
    ∀ c, Select (outputWrappers [] cls t) cls path c → c.path = path ∧ ∃ u, At t path u := by
  refine ⟨fun u hu => ⟨_, select_own hp h cls .here hu⟩, fun c hc => ?_⟩
  obtain ⟨v, h1, rfl⟩ := select_at hp h cls hc .here rfl
  exact ⟨by rw [own_path]; simp, v, h1⟩

/-- C71, partial, with C35: when the object selected by a path from the output is compared or shown, the bits
taken are those of the wires of the output that carry the field at that path.  Missing: as for
`C71_compiles_partial`. -/
theorem C71_field_wires_partial [BEq Ty] [LawfulBEq Ty] {u : Sim.Uut} {what : Ty → Str → Sim.Compiled Bool} {st : Sim.St Bool}
    {rs : List ((Sim.Port × List Str) × Sim.Ref)} (hrun : Sim.Run u what st rs) {t : Ty}
    (ht : u.output = some t) (hp : Plain (Sim.hw t)) {p : Port} (hf : p.Fits (Sim.hw t).size)
    (h0 : 0 < (Sim.hw t).size) {cls : Str} {path : List Str} {c : Cls}
    (hc : Select (outputWrappers [] cls (Sim.hw t)) cls path c)
    {r : Sim.Ref} (hr : ((.output, c.path), r) ∈ rs) {bits sub : List Bool} {ty ct : Ty}
    (hb : outputString (Sim.hw t).size p = some bits) (he : Sim.extract r bits st = .ok (sub, ty, ct)) :
    Sim.Part .fwd (Sim.hw t) path ((List.range (Sim.hw t).size).reverse.map p.wire) (Sim.hw r.ty) sub := by
  rw [C71_output h0 hf] at hb
  cases hb
  have hpath := ((C71_fields_partial hp (Nat.ne_of_gt h0) cls path).2 c hc).1
  rw [hpath] at hr
  exact (Sim.C35_read hrun hr (.output ht) (by simp [Sim.wires, Sim.Port.readDir, Ty.size]) he).1

end Spade.Cxx

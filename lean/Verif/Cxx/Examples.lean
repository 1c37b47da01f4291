import Verif.Cxx.Props
import Verif.Sim.Examples
/-! Where C71 fails, and that the hypotheses of its theorems can be met. -/
namespace Spade.Cxx

open Spade.Codegen
open Spade.Vcd (Str Ty)

/-- A tuple with an element of 65 bits cannot be assigned: its elements are converted by `as_u64`
(eval.rs:161). -/
theorem C71_counterexample_wide_element : (Port.words [0, 0, 0]).Fits 66 ∧
    (Value.concat [.bit true, .uint 65 (2 ^ 64)]).Ok ∧
    (Value.concat [.bit true, .uint 65 (2 ^ 64)]).width = 66 ∧
    assign 66 (.concat [.bit true, .uint 65 (2 ^ 64)]) (.words [0, 0, 0]) = none := by
  refine ⟨by simp [Port.Fits], by simp [Value.Ok, OkAll], by simp [Value.width, valueWidths], ?_⟩
  simp [assign, u32Chunks, Value.asU32Chunks, concatChunks, Value.width, Value.asU64, toU64]

/-- The bits of a variant without a payload are undefined, but the port gets zeros. -/
theorem C71_counterexample_undefined : assign 3 (.concat [.bit true, .undef 2]) (.scalar 8 7)
    = some (.scalar 8 4) ∧
    (Value.concat [.bit true, .undef 2]).asString = some [some true, none, none] := by
  constructor
  · simp [assign, Value.asU64, concatU64, Value.width, toU64]
  · simp [Value.asString, asStrings]

/-- `struct { a: uint<8>, b: uint<0> }`: the class of the struct has a member of a class that is never
declared (verilator_wrapper.rs:18-20,30). -/
theorem C71_counterexample_empty_field :
    ¬ Compiles (outputWrappers [] ['o'] (.struct [['a'], ['b']] [.uint 8, .uint 0])) := by
  intro h
  have := h.exist ⟨['o'], [], [(['a'], ['o', '_', 'a']), (['b'], ['o', '_', 'b'])]⟩
    (by simp [outputWrappers, fieldWrappers, Ty.size, Ty.toMir, Vcd.toMirs, MTy.size, sizes, fieldClass])
    (['b'], ['o', '_', 'b']) (by simp)
  simp [outputWrappers, fieldWrappers, Ty.size, Ty.toMir, Vcd.toMirs, MTy.size, sizes, fieldClass] at this

/-- `struct { a: struct { b: bool }, a_b: bool }`: two classes have the same name. -/
theorem C71_counterexample_underscore :
    ¬ Compiles (outputWrappers [] ['o']
      (.struct [['a'], ['a', '_', 'b']] [.struct [['b']] [.bool], .bool])) := by
  intro h
  have := h.classes
  simp [outputWrappers, fieldWrappers, Ty.size, Ty.toMir, Vcd.toMirs, MTy.size, sizes, fieldClass] at this

/-- `struct { root: bool }`: the class has the member `root` twice (verilator_wrapper.rs:61,84). -/
theorem C71_counterexample_root :
    ¬ Compiles (outputWrappers [] ['o'] (.struct [['r', 'o', 'o', 't']] [.bool])) := by
  intro h
  have := (h.members ⟨['o'], [], [(['r', 'o', 'o', 't'], "o_root".toList)]⟩
    (by simp [outputWrappers, fieldWrappers, Ty.size, Ty.toMir, Vcd.toMirs, MTy.size, sizes, fieldClass])).2
  simp at this

/-- `C71_input_partial`: a value of 72 bits and a port of three words. -/
example : ∃ s p', (Value.concat [.int 40 (-3), .uint 32 7]).asString = some s ∧
    assign 72 (.concat [.int 40 (-3), .uint 32 7]) (.words [1, 2, 3]) = some p' ∧ p'.Fits 72 ∧
    Carries p' s :=
  C71_input_partial (by simp [Value.Ok, OkAll]) (by simp [Value.Narrow, NarrowAll, Value.width])
    (by simp [Value.width, valueWidths]) (by decide) (by decide) (by simp [Port.Fits])

/-- The same value, and what is read from the port. -/
example : ∃ s p', (Value.concat [.int 40 (-3), .uint 32 7]).asString = some s ∧
    assign 72 (.concat [.int 40 (-3), .uint 32 7]) (.words [1, 2, 3]) = some p' ∧
    outputString 72 p' = some (s.map fun b => b.getD false) :=
  C71_round_trip_partial (by simp [Value.Ok, OkAll]) (by simp [Value.Narrow, NarrowAll, Value.width])
    (by simp [Value.width, valueWidths]) (by decide) (by decide) (by simp [Port.Fits])

/-- `C71_output`: 33 wires in an integer of 64 bits. -/
example : outputString 33 (.scalar 64 (2 ^ 32 + 1))
    = some ((List.range 33).reverse.map (Port.scalar 64 (2 ^ 32 + 1)).wire) :=
  C71_output (by decide) (by simp [Port.Fits, holder])

/-- `struct { a: bool, b: struct { c: bool, d: uint<2> } }`. -/
def exTy : Ty := .struct [['a'], ['b']] [.bool, .struct [['c'], ['d']] [.bool, .uint 2]]

theorem exTy_plain : Plain exTy := by
  intro path ns ts h
  cases h with
  | here =>
    exact ⟨by decide, rfl, by decide, by simp [Ty.size, Ty.toMir, Vcd.toMirs, MTy.size, sizes]⟩
  | field hm h =>
    simp only [List.zip_cons_cons, List.zip_nil_right, List.mem_cons, Prod.mk.injEq, List.not_mem_nil,
      or_false] at hm
    rcases hm with ⟨rfl, rfl⟩ | ⟨rfl, rfl⟩
    · cases h
    · cases h with
      | here =>
        exact ⟨by decide, rfl, by decide, by simp [Ty.size, Ty.toMir, MTy.size]⟩
      | field hm h =>
        simp only [List.zip_cons_cons, List.zip_nil_right, List.mem_cons, Prod.mk.injEq,
          List.not_mem_nil, or_false] at hm
        rcases hm with ⟨rfl, rfl⟩ | ⟨rfl, rfl⟩ <;> cases h

theorem exTy_size : exTy.size = 4 := by
  simp [exTy, Ty.size, Ty.toMir, Vcd.toMirs, MTy.size, sizes]

/-- `C71_compiles_partial` and `C71_fields_partial`. -/
example : Compiles (outputWrappers [] ['o'] exTy) ∧
    ∃ c, Select (outputWrappers [] ['o'] exTy) ['o'] [['b'], ['d']] c ∧ c.path = [['b'], ['d']] := by
  have h := exTy_size
  refine ⟨C71_compiles_partial exTy_plain (by omega) _, ?_⟩
  have hf := C71_fields_partial exTy_plain (by omega) ['o'] [['b'], ['d']]
  obtain ⟨c, hc⟩ := hf.1 (.uint 2) (.field (v := .struct [['c'], ['d']] [.bool, .uint 2]) (by simp)
    (.field (v := .uint 2) (by simp) .here))
  exact ⟨c, hc, (hf.2 c hc).1⟩

/-- A test bench that compares `o.b.d` of a unit with this output. -/
def exTop : Sim.Uut := ⟨[], some exTy⟩
def exO : Sim.Ref := ⟨some ⟨0, 4, true⟩, none, .output, exTy, [['o']]⟩
def exB : Sim.Ref := ⟨some ⟨1, 4, false⟩, none, .output, .struct [['c'], ['d']] [.bool, .uint 2], [['o'], ['b']]⟩
def exD : Sim.Ref := ⟨some ⟨2, 4, false⟩, none, .output, .uint 2, [['o'], ['b'], ['d']]⟩
def exRefs : List ((Sim.Port × List Str) × Sim.Ref) :=
  [((.output, [['b'], ['d']]), exD), ((.output, [['b']]), exB), ((.output, []), exO)]
def exSt : Sim.St Bool := ⟨true, exRefs.map fun r => (r.2.path, r.2), []⟩

theorem exRun : Sim.Run exTop Sim.oracle exSt exRefs :=
  .field (port := .output) (p := [['b']]) (r := exB) (f := ['d'])
    (.field (port := .output) (p := []) (r := exO) (f := ['b'])
      (.output .fresh (r := exO) rfl) (by simp) (c := exB) rfl)
    (by simp) (c := exD) rfl

/-- `C71_field_wires_partial`: the port has 0110, and `o.b.d` is the last two wires of it. -/
example : Sim.Part .fwd exTy [['b'], ['d']] [false, true, true, false] (.uint 2) [true, false] := by
  have h := exTy_size
  have hf := C71_fields_partial exTy_plain (by omega) ['o'] [['b'], ['d']]
  obtain ⟨c, hc⟩ := hf.1 (.uint 2) (.field (v := .struct [['c'], ['d']] [.bool, .uint 2]) (by simp)
    (.field (v := .uint 2) (by simp) .here))
  have hpath := (hf.2 c hc).1
  have := C71_field_wires_partial exRun (t := exTy) rfl (p := .scalar 8 6) exTy_plain
    (show Port.Fits exTy.size _ by rw [h]; simp [Port.Fits, holder]) (show 0 < exTy.size by omega) hc
    (r := exD) (by rw [hpath]; simp [exRefs]) (bits := [false, true, true, false])
    (sub := [true, false]) (ty := .uint 2) (ct := .uint 2)
    (show outputString exTy.size _ = _ by rw [h]; decide) rfl
  have hw : (List.range (Sim.hw exTy).size).reverse.map (Port.scalar 8 6).wire = [false, true, true, false] := by
    rw [show (Sim.hw exTy).size = 4 from h]; decide
  rw [hw] at this
  exact this

end Spade.Cxx

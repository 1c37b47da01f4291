import Verif.Vcd.Trace
/-! C34: instances and counterexamples. -/
namespace Spade.Vcd

open Spade.Codegen Spade.Verilog
open Spade.Match (Val)
open Spade.Lower (Enc EncAll)

/-- `struct { a: int<4>, b: Option<uint<2>> }`. -/
def exTy : Ty := .struct [['a'], ['b']] [.int 4, .enum [['N'], ['S']] [[], [.uint 2]]]

theorem exTy_named : exTy.Named := by simp [exTy, Ty.Named, AllNamed, AllsNamed]

theorem exTy_legible : exTy.Legible := by
  simp [exTy, Ty.Legible, AllLegible, AllsLegible, special]

theorem exTy_plain : exTy.Plain := by
  refine ⟨by simp, by simp [Ty.Plain], ⟨by decide, ?_⟩, trivial⟩
  simp [AllsPlain, AllPlain, Ty.Plain]

/-- `1101` is -3, `1 10` is `S(2)`. -/
def exLevels : List Level := [.v1, .v1, .v0, .v1, .v1, .v1, .v0]

/-- Instance of `C34_translate_partial` and `C34_plain`: the levels have the width of the type, and this is what
they carry and what is shown. -/
example : exLevels.length = exTy.size ∧
    Reads exTy (.struct [['a'], ['b']] [.num (-3), .variant 1 ['S'] [.num 2]]) exLevels ∧
    translateValue true exTy exLevels =
      some "{a:-3,b:S(2)}".toList := by
  refine ⟨by decide +kernel, ?_, by decide +kernel⟩
  have h1 : Reads (.int 4) (.num (-3)) [.v1, .v1, .v0, .v1] := .int (bs := [true, true, false, true]) rfl
  have h2 : Reads (.uint 2) (.num 2) [.v1, .v0] := .uint (bs := [true, false]) rfl
  have h3 : Reads (.enum [['N'], ['S']] [[], [.uint 2]]) (.variant 1 ['S'] [.num 2]) [.v1, .v1, .v0] := by
    have h := Reads.variant (names := [['N'], ['S']]) (opts := [[], [.uint 2]]) (i := 1) (ls := [[.v1, .v0]])
      (pad := []) rfl rfl (.cons h2 .nil) (by decide +kernel)
    have e : tagSize [[], [Ty.uint 2]].length = 1 := by decide +kernel
    rw [e] at h
    exact h
  exact .struct (.cons h1 (.cons h3 .nil))

/-- Undefined payload, undefined tag, high impedance. -/
example :
    translateValue true exTy [.v1, .v1, .v0, .v1, .v1, .x, .v0] = some "{a:-3,b:S(UNDEF)}".toList ∧
    translateValue true exTy [.z, .v1, .v0, .v1, .x, .x, .v0] = some "{a:HIGHIMP,b:UNDEF}".toList := by
  decide +kernel

/-- Instance of `C34_source_plain`. -/
example : ∃ bits, Enc exTy.toMir (.tup [.int (-3), .variant 1 [.int 2]]) bits ∧ lift bits = exLevels := by
  refine ⟨[ofInt 4 (-3), ofNat 1 1 ++ [ofInt 2 2].flatten ++ []].flatten, ?_, by decide⟩
  have h1 : Enc (.int 4) (.int (-3)) (ofInt 4 (-3)) := .int (.inr (by decide))
  have h2 : Enc (.uint 2) (.int 2) (ofInt 2 2) := .uint (by simp [InRange])
  have h3 : Enc (.enum [[], [.uint 2]]) (.variant 1 [.int 2]) (ofNat 1 1 ++ [ofInt 2 2].flatten ++ []) := by
    have h := Enc.enum (opts := [[], [.uint 2]]) (i := 1) (pad := []) rfl (.cons h2 .nil) (by decide +kernel)
    have e : tagSize [[], [MTy.uint 2]].length = 1 := by decide +kernel
    rw [e] at h
    exact h
  exact .struct (.cons h1 (.cons h3 .nil))

/-- Instance of `C34_text_determines`: levels that differ in the padding only are shown alike. -/
example : translateValue true exTy [.v0, .v0, .v0, .v1, .v0, .v0, .v0] =
    translateValue true exTy [.v0, .v0, .v0, .v1, .v0, .v1, .x] ∧
    translateValue true exTy [.v0, .v0, .v0, .v1, .v0, .v0, .v0] = some "{a:1,b:N()}".toList := by
  decide +kernel

/-- Instance of `C34_extension`: `101` for the seven bits of the type. -/
example : extend exTy.size [.v1, .v0, .v1] = [.v0, .v0, .v0, .v0, .v1, .v0, .v1] ∧
    translateValue true exTy [.v1, .v0, .v1] = some "{a:0,b:S(1)}".toList ∧
    extend exTy.size [.x, .v1] = [.x, .x, .x, .x, .x, .x, .v1] := by
  decide +kernel

/-- **C34**, counterexample: the array `[1, 2]` is shown as `[2,1]`, so what is shown is not the
value but its reverse, and is read as a different value by someone who knows the language. -/
theorem C34_counterexample_array :
    Reads (.array (.uint 2) 2) (.array [.num 1, .num 2]) [.v1, .v0, .v0, .v1] ∧
    text (.array [.num 1, .num 2]) = "[1,2]".toList ∧
    translateValue false (.array (.uint 2) 2) [.v1, .v0, .v0, .v1] = some "[2,1]".toList := by
  refine ⟨?_, by decide +kernel, by decide +kernel⟩
  have h1 : Reads (.uint 2) (.num 1) [.v0, .v1] := .uint (bs := [false, true]) rfl
  have h2 : Reads (.uint 2) (.num 2) [.v1, .v0] := .uint (bs := [true, false]) rfl
  exact .array (t := .uint 2) (n := 2) (ls := [[.v0, .v1], [.v1, .v0]]) (.cons h1 (.cons h2 .nil))

/-- **C34**, counterexample: a value of an enum with one variant without payload is not shown, and neither is
the empty tuple. -/
theorem C34_counterexample_zero_width :
    Reads (.tuple [.bool, .enum [['A']] [[]]]) (.tuple [.bool true, .variant 0 ['A'] []]) [.v1] ∧
    text (.tuple [.bool true, .variant 0 ['A'] []]) = "(true,A())".toList ∧
    translateValue false (.tuple [.bool, .enum [['A']] [[]]]) [.v1] = some "(true,)".toList := by
  refine ⟨?_, by decide +kernel, by decide +kernel⟩
  have h1 : Reads .bool (.bool true) [.v1] := .bool (b := true)
  have h2 : Reads (.enum [['A']] [[]]) (.variant 0 ['A'] []) [] := by
    have h := Reads.variant (names := [['A']]) (opts := [[]]) (i := 0) (ls := []) (pad := []) rfl rfl .nil
      (by decide +kernel)
    have e : tagSize [([] : List Ty)].length = 0 := by decide +kernel
    rw [e] at h
    exact h
  exact .tuple (ls := [[.v1], []]) (.cons h1 (.cons h2 .nil))

/-- **C34**, counterexample: for every type, a trace with more bits than the type panics in debug builds although the
code means to show nothing for it, as release builds do. -/
theorem C34_counterexample_too_long (t : Ty) (l : List Level) (h : t.size < l.length) :
    translateValue true t l = none ∧ translateValue false t l = some [] :=
  ⟨translate_long true t l h, translate_long false t l h⟩

end Spade.Vcd

import Verif.Vcd.Spec
import Verif.Lower.Spec
/-!
# Pictures of source values

How a value of the source language (`Match.Val`, with its bits given by `Lower.Enc`) appears in a
trace.  Nothing here refers to the translator.
-/
namespace Spade.Vcd

open Spade.Codegen Spade.Verilog
open Spade.Match (Val)

mutual
/-- `Depicts t v p`: the value `v` of type `t` is shown as `p`.  What an `inout` carries is not a value
of the language, and anything may be shown for it; erroneous types have no values. -/
inductive Depicts : Ty → Val → Shown → Prop
  | error {v} : Depicts .error v .nothing
  | int {n z} : Depicts (.int n) (.int z) (.num z)
  | uint {n z} : Depicts (.uint n) (.int z) (.num z)
  | bool {b} : Depicts .bool (.bool b) (.bool b)
  | memory {t n} : Depicts (.memory t n) .opq .memory
  | inout {t p} : Depicts (.inout t) .opq p
  | tuple {ts vs ps} : DepictsAll ts vs ps → Depicts (.tuple ts) (.tup vs) (.tuple ps)
  | struct {names ts vs ps} : DepictsAll ts vs ps →
      Depicts (.struct names ts) (.tup vs) (.struct names ps)
  | array {t n vs ps} : DepictsAll (List.replicate n t) vs ps →
      Depicts (.array t n) (.tup vs) (.array ps)
  | variant {names opts i name ts vs ps} : opts[i]? = some ts → names[i]? = some name →
      DepictsAll ts vs ps → Depicts (.enum names opts) (.variant i vs) (.variant i name ps)
  | backward {t} : Depicts (.backward t) .opq .nothing
  | copyView {t v p} : Depicts t v p → Depicts (.copyView t) (.view v) p
inductive DepictsAll : List Ty → List Val → List Shown → Prop
  | nil : DepictsAll [] [] []
  | cons {t v p ts vs ps} : Depicts t v p → DepictsAll ts vs ps →
      DepictsAll (t :: ts) (v :: vs) (p :: ps)
end

/-- A value with fewer bits than its type: VCD leaves out leading zeros, and leading bits that are equal
to the first one if that is `x` or `z` (IEEE 1364-2005, 18.2.1). -/
def extend (n : Nat) : List Level → List Level
  | [] => []
  | b :: l => List.replicate (n - (b :: l).length)
      (match b with | .v0 => Level.v0 | .v1 => .v0 | .x => .x | .z => .z) ++ b :: l

end Spade.Vcd

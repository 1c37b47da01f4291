import Verif.Vcd.Spec
/-!
# Specification of field access from test benches

Which wires of a port carry which field.  Nothing here refers to the simulation library.
-/
namespace Spade.Sim

open Spade.Codegen
open Spade.Vcd (Str Ty)

/-- A port has wires in both directions: those of its type proper, and those below `inv`. -/
inductive Dir where
  | fwd
  | back
  deriving DecidableEq

def Dir.flip : Dir → Dir
  | .fwd => .back
  | .back => .fwd

/-- Number of wires of a hardware type in a direction. -/
def wires : Dir → MTy → Nat
  | .fwd, t => t.size
  | .back, t => t.backSize

mutual
/-- `inv` is pushed down to where the language stops: a struct with `inv` in front is a struct of members with
`inv` in front, and `inv inv` is nothing (`resolve_recursive_inversions`, spade-types/src/lib.rs:110-156). -/
def resolve (invert : Bool) : Ty → Ty
  | .error => .error
  | .tuple ts => .tuple (resolves invert ts)
  | .struct ns ts => .struct ns (resolves invert ts)
  | .array t n => .array (resolve invert t) n
  | .backward t => resolve (!invert) t
  | .int n => if invert then .backward (.int n) else .int n
  | .uint n => if invert then .backward (.uint n) else .uint n
  | .bool => if invert then .backward .bool else .bool
  | .memory t n => if invert then .backward (.memory t n) else .memory t n
  | .inout t => if invert then .backward (.inout t) else .inout t
  | .enum ns o => if invert then .backward (.enum ns o) else .enum ns o
  | .copyView t => if invert then .backward (.copyView t) else .copyView t
def resolves (invert : Bool) : List Ty → List Ty
  | [] => []
  | t :: ts => resolve invert t :: resolves invert ts
end

/-- The type that the hardware has for a source type. -/
def hw (t : Ty) : Ty := resolve false t

/-- `Part d t path bits v sub`: in wires `bits` (the first is the most significant one) of hardware
type `t` in direction `d`, the field at `path` has hardware type `v` and wires `sub`.  The members
of a struct are next to each other, from the most significant wire on. -/
inductive Part {α : Type} (d : Dir) : Ty → List Str → List α → Ty → List α → Prop
  | here {t} {bits : List α} : bits.length = wires d t.toMir → Part d t [] bits t bits
  | field {ns ts f u path v} {i : Nat} {bss : List (List α)} {b sub : List α} : ns[i]? = some f → f ∉ ns.take i → ts[i]? = some u →
      bss.map List.length = ts.map (fun t => wires d t.toMir) → bss[i]? = some b →
      Part d u path b v sub → Part d (.struct ns ts) (f :: path) bss.flatten v sub

/-- The unit under test: name, type and Verilog names of its inputs, and its output. -/
structure Uut where
  inputs : List (Str × Ty × Str × Str)
  output : Option Ty

/-- Which port of the unit a path begins with. -/
inductive Port where
  | output
  | input (name : Str)
  deriving DecidableEq

/-- The type of a port. -/
inductive PortTy (u : Uut) : Port → Ty → Prop
  | output {t} : u.output = some t → PortTy u .output t
  | input {n t a b} : u.inputs.find? (fun e => e.1 == n) = some (n, t, a, b) → PortTy u (.input n) t

/-- What a test bench may write: the wires of inputs, and the wires against the direction of the output. -/
def Port.writeDir : Port → Dir
  | .input _ => .fwd
  | .output => .back

/-- What a test bench may read. -/
def Port.readDir : Port → Dir
  | .input _ => .back
  | .output => .fwd

/-- Paths that part: they agree up to some point and name different members from there. -/
def Parted (p q : List Str) : Prop := ∃ c f g p' q', f ≠ g ∧ p = c ++ f :: p' ∧ q = c ++ g :: q'

end Spade.Sim

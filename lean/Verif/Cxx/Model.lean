import Verif.Cxx.Spec
import Verif.Codegen.EvalProps
/-!
# Wrappers for Verilator

Models spade-mir/src/verilator_wrapper.rs and the conversions of spade-cxx/src/spade.rs.  The generated C++ is
modelled by what it does; the text of the file, the `#include`s and the constructors are left out.
The result `none` is a panic, or an access beyond the end of an array.
-/
namespace Spade.Cxx

open Spade.Codegen
open Spade.Vcd (Str Ty)

/-- `BigUint::to_u32_digits`: digits to the base `2 ^ 32`, least significant first, without leading
zeros. -/
def u32Digits (n : Nat) : List Nat :=
  if h : n = 0 then [] else n % 2 ^ 32 :: u32Digits (n / 2 ^ 32)
termination_by n
decreasing_by exact Nat.div_lt_self (by omega) (by omega)

/-- `SignalValue::as_u32_chunks` (spade-cxx/src/spade.rs:53-65).  The division of floating point
numbers is one of natural numbers here, which differs for widths from `2 ^ 53` on; the subtraction
panics when it is negative. -/
def u32Chunks (v : Value) : Option (List Nat) := do
  let digits := u32Digits (← v.asU32Chunks)
  let width ← toU64 v.width
  let expected := (width + 31) / 32
  if expected < digits.length then none
  else some (digits ++ List.replicate (expected - digits.length) 0)

/-- `ws[i] = w` of a C++ array. -/
def setWord (ws : List Nat) (i w : Nat) : Option (List Nat) :=
  if i < ws.length then some (ws.set i w) else none

/-- The assignments `port[i] = value_split[i]` (verilator_wrapper.rs:114-122) in their order. -/
def copyWords (split : List Nat) : List Nat → List Nat → Option (List Nat)
  | [], ws => some ws
  | i :: is, ws => do
    let w ← split[i]?
    let ws ← setWord ws i w
    copyWords split is ws

/-- The indices for which an assignment is generated (verilator_wrapper.rs:114-122). -/
def indices (size : Nat) : List Nat :=
  List.range (size / 32) ++ (if size % 32 ≠ 0 then [size / 32] else [])

/-- `operator=` of an input of `size` bits (verilator_wrapper.rs:108-124).  An assignment to a C++
integer keeps the low bits.  An input of size 0 has no class (line 102), and the value is one of the type of the
port. -/
def assign (size : Nat) (v : Value) (p : Port) : Option Port :=
  if size = 0 then none
  else if size ≤ 64 then
    match p with
    | .scalar bits _ => do some (.scalar bits ((← v.asU64) % 2 ^ bits))
    | .words _ => none
  else
    match p with
    | .words ws => do
      let split ← u32Chunks v
      some (.words (← copyWords split (indices size) ws))
    | .scalar _ _ => none

/-- `std::bitset<n> bits = x; ss << bits;`: the low `n` bits of `x`, the most significant one
first. -/
def bitset (n x : Nat) : List Bool := (List.range n).reverse.map fun i => x.testBit i

/-- `ss << bits` for the words `(0..n).rev()` (verilator_wrapper.rs:238-246). -/
def wordsDown (ws : List Nat) : Nat → Option (List Bool)
  | 0 => some []
  | i + 1 => do
    let w ← ws[i]?
    some (bitset 32 w ++ (← wordsDown ws i))

/-- `output_string_fn` for an output of `size` bits (verilator_wrapper.rs:209-249).  An output of size
0 has no string. -/
def outputString (size : Nat) (p : Port) : Option (List Bool) :=
  if size = 0 then none
  else if size ≤ 64 then
    match p with
    | .scalar _ v => some (bitset size v)
    | .words _ => none
  else
    match p with
    | .words ws => do
      let first ← if size % 32 ≠ 0 then (ws[size / 32]?).map (bitset (size % 32)) else some []
      some (first ++ (← wordsDown ws (size / 32)))
    | .scalar _ _ => none

/-- `format!("{class_name}_{name}")` (verilator_wrapper.rs:27). -/
def fieldClass (cls name : Str) : Str := cls ++ '_' :: name

mutual
/-- `Type::output_wrappers` (verilator_wrapper.rs:12-92): the classes in the order of their
definitions.  Only structs have members. -/
def outputWrappers (path : List Str) (cls : Str) : Ty → List Cls
  | .struct ns ts =>
    if (Ty.struct ns ts).size = 0 then []
    else fieldWrappers path cls ns ts ++
      [⟨cls, path, (ns.zip ts).map fun m => (m.1, fieldClass cls m.1)⟩]
  | t => if t.size = 0 then [] else [⟨cls, path, []⟩]
/-- The loop over the fields (verilator_wrapper.rs:22-36). -/
def fieldWrappers (path : List Str) (cls : Str) (ns : List Str) : List Ty → List Cls
  | [] => []
  | t :: ts =>
    match ns with
    | [] => []
    | n :: ns => outputWrappers (path ++ [n]) (fieldClass cls n) t ++ fieldWrappers path cls ns ts
end

end Spade.Cxx

import Verif.Vcd.Spec
/-!
# The translator of traces

Models vcd-translate/src/translation.rs.  `none` is a panic.  Sizes are natural numbers, so the panics
for more than `usize::MAX` bits are left out, as is the one for tags above `u64::MAX` (a tag
has at most as many bits as the number of variants, a `usize`).  The string that the
Rust functions append to is returned instead.
-/
namespace Spade.Vcd

open Spade.Codegen Spade.Verilog

/-- `MaybeValue` (lines 25-30). -/
inductive Maybe (α : Type) where
  | value (a : α)
  | undef
  | highz

/-- `MaybeValue::map` (lines 32-43). -/
def Maybe.map {α β : Type} (f : α → β) : Maybe α → Maybe β
  | .value a => .value (f a)
  | .undef => .undef
  | .highz => .highz

/-- `MaybeValue::write_to` (lines 58-66), with `to_str_radix(10)` of the num crate. -/
def Maybe.writeInt : Maybe Int → Str
  | .value z => dec z
  | .undef => ['U', 'N', 'D', 'E', 'F']
  | .highz => ['H', 'I', 'G', 'H', 'I', 'M', 'P']

/-- `MaybeValue::write_to` (lines 68-76). -/
def Maybe.writeNat : Maybe Nat → Str
  | .value n => decNat n
  | .undef => ['U', 'N', 'D', 'E', 'F']
  | .highz => ['H', 'I', 'G', 'H', 'I', 'M', 'P']

/-- Arithmetic of `u64`. -/
def wrap64 (n : Nat) : Nat := n % 2 ^ 64

/-- The loop of `translate_uint` (lines 82-106): the state is the result, the number of bits in the
intermediate result, and the intermediate result. -/
def uintLoop (flip : Bool) : List Level → Nat → Nat → Nat → Maybe Nat
  | [], result, count, inter => .value (result * 2 ^ count + inter)
  | v :: vs, result, count, inter =>
    let (result, count, inter) :=
      if count = 64 then (result * 2 ^ count + inter, 0, 0) else (result, count, inter)
    if v = .x then .undef
    else if v = .z then .highz
    else
      let inter :=
        if flip = false then
          if v = .v1 then wrap64 (wrap64 (inter * 2) + 1) else wrap64 (inter * 2)
        else if v = .v0 then wrap64 (wrap64 (inter * 2) + 1) else wrap64 (inter * 2)
      uintLoop flip vs result (count + 1) inter

/-- `translate_uint` (lines 78-107). -/
def translateUint (l : List Level) (flip : Bool) : Maybe Nat := uintLoop flip l 0 0 0

/-- `translate_signed_int` (lines 109-128); `value[0]` panics if there are no bits. -/
def translateSigned (l : List Level) : Option (Maybe Int) :=
  if l.contains .x then some .undef
  else if l.contains .z then some .highz
  else match l with
    | [] => none
    | sign :: rest =>
      let negative := decide (sign = .v1)
      let u := translateUint rest negative
      if negative then some (u.map fun n => -((n + 1 : Nat) : Int)) else some (u.map Int.ofNat)

/-- `translate_unsigned_int` (lines 130-138). -/
def translateUnsigned (l : List Level) : Maybe Nat :=
  if l.contains .x then .undef
  else if l.contains .z then .highz
  else translateUint l false

/-- `&value[a..b]`. -/
def slice (l : List Level) (a b : Nat) : Option (List Level) :=
  if a ≤ b ∧ b ≤ l.length then some ((l.drop a).take (b - a)) else none

/-- `extend_value` (lines 159-164). -/
def extendLevel : Level → Level
  | .v0 => .v0
  | .v1 => .v0
  | .x => .x
  | .z => .z

/-- The beginning of `inner_translate_value` (lines 140-166), before the `match`.  `debug` says whether
overflow of a subtraction panics; it wraps otherwise, and the result is not used in that case. -/
def withValue (debug : Bool) (size : Nat) (l : List Level) (rest : List Level → Option Str) : Option Str :=
  if debug ∧ size < l.length then none
  else if size < l.length then some []
  else if size = 0 then some []
  else match l with
    | [] => none
    | b :: _ => rest (List.replicate (size - l.length) (extendLevel b) ++ l)

/-- The loop over the elements of an array (lines 208-217), with `n` elements left. -/
def arrayLoop (f : List Level → Option Str) (width : Nat) (value : List Level) : Nat → Nat → Option Str
  | 0, _ => some []
  | n + 1, offset => do
    let piece ← slice value offset (offset + width)
    let s ← f piece
    let rest ← arrayLoop f width value n (offset + width)
    some (s ++ (if n = 0 then [] else [',']) ++ rest)

mutual
/-- `inner_translate_value` (lines 140-307). -/
def translate (debug : Bool) : Ty → List Level → Option Str
  | .error, l => withValue debug (Ty.error).size l fun _ => some []
  | .tuple ts, l => withValue debug (Ty.tuple ts).size l fun value => do
    let s ← tupleLoop debug value ts 0
    some ('(' :: s ++ [')'])
  | .struct names ts, l => withValue debug (Ty.struct names ts).size l fun value => do
    let s ← structLoop debug value names ts 0
    some ('{' :: s ++ ['}'])
  | .array t n, l => withValue debug (Ty.array t n).size l fun value => do
    let s ← arrayLoop (translate debug t) t.size value n 0
    some ('[' :: s ++ [']'])
  | .enum names opts, l => withValue debug (Ty.enum names opts).size l fun value => do
    let tagSize := (nextPow2 opts.length).log2
    let tag ← slice value 0 tagSize
    match translateUint tag false with
    | .value tag =>
      if opts.length ≤ tag then some ['?', 'T', 'A', 'G', '?']
      else do
        let name ← names[tag]?
        let s ← optionLoop debug value opts tag tagSize
        some (name ++ '(' :: s ++ [')'])
    | .undef => some ['U', 'N', 'D', 'E', 'F']
    | .highz => some ['H', 'I', 'G', 'H', 'I', 'M', 'P']
  | .bool, l => withValue debug (Ty.bool).size l fun value =>
    match value with
    | [] => none
    | .v0 :: _ => some ['f', 'a', 'l', 's', 'e']
    | .v1 :: _ => some ['t', 'r', 'u', 'e']
    | .x :: _ => some ['U', 'N', 'D', 'E', 'F']
    | .z :: _ => some ['H', 'I', 'G', 'H', 'I', 'M', 'P']
  | .int n, l => withValue debug (Ty.int n).size l fun value =>
    (translateSigned value).map Maybe.writeInt
  | .uint n, l => withValue debug (Ty.uint n).size l fun value =>
    some (translateUnsigned value).writeNat
  | .memory t n, l => withValue debug (Ty.memory t n).size l fun _ => some ['m', 'e', 'm', 'o', 'r', 'y']
  | .inout t, l => withValue debug (Ty.inout t).size l fun _ => translate debug t l
  | .backward t, l => withValue debug (Ty.backward t).size l fun _ => translate debug t l
  | .copyView t, l => withValue debug (Ty.copyView t).size l fun _ => translate debug t l
/-- The loops over the members of a tuple (lines 173-185) and of a variant (lines 238-247). -/
def tupleLoop (debug : Bool) (value : List Level) : List Ty → Nat → Option Str
  | [], _ => some []
  | t :: ts, offset => do
    let piece ← slice value offset (offset + t.size)
    let s ← translate debug t piece
    let rest ← tupleLoop debug value ts (offset + t.size)
    some (s ++ (if ts.isEmpty then [] else [',']) ++ rest)
/-- The loop over the members of a struct (lines 193-204). -/
def structLoop (debug : Bool) (value : List Level) : List Str → List Ty → Nat → Option Str
  | n :: ns, t :: ts, offset => do
    let piece ← slice value offset (offset + t.size)
    let s ← translate debug t piece
    let rest ← structLoop debug value ns ts (offset + t.size)
    some (n ++ ':' :: s ++ (if ts.isEmpty then [] else [',']) ++ rest)
  | _, _, _ => some []
/-- `options[variant_idx]` (line 234) and the loop over its members (lines 238-247). -/
def optionLoop (debug : Bool) (value : List Level) : List (List Ty) → Nat → Nat → Option Str
  | o :: _, 0, offset => tupleLoop debug value o offset
  | _ :: os, i + 1, offset => optionLoop debug value os i offset
  | [], _, _ => none
end

/-- `translate_value` (lines 309-314). -/
def translateValue (debug : Bool) (t : Ty) (l : List Level) : Option Str := translate debug t l

end Spade.Vcd

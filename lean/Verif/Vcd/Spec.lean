import Verif.Codegen.Spec
import Verif.Util
/-!
# What a trace shows

The four levels of a wire, the value that the wires of a type carry, and how that value is written.
Nothing here refers to the translator.
-/
namespace Spade.Vcd

open Spade.Codegen Spade.Verilog

/-- `vcd::Value`. -/
inductive Level where
  | v0
  | v1
  | x
  | z
  deriving DecidableEq

abbrev Str := List Char

/-- `ConcreteType` (spade-types/src/lib.rs:38-62), with the names of fields and variants in lists beside
the types.  `bool` also stands for `clock` and `tri`.  Type level values, which have no
hardware, are left out. -/
inductive Ty where
  | error
  | int (n : Nat)
  | uint (n : Nat)
  | bool
  | memory (t : Ty) (n : Nat)
  | inout (t : Ty)
  | tuple (ts : List Ty)
  | struct (names : List Str) (ts : List Ty)
  | array (t : Ty) (n : Nat)
  | enum (names : List Str) (opts : List (List Ty))
  | backward (t : Ty)
  | copyView (t : Ty)

mutual
/-- `to_mir_type` (spade-hir-lowering/src/lib.rs:231-317). -/
def Ty.toMir : Ty → MTy
  | .error => .uint 1
  | .int n => .int n
  | .uint n => .uint n
  | .bool => .bool
  | .memory t n => .memory t.toMir n
  | .inout t => .inout t.toMir
  | .tuple ts => .tuple (toMirs ts)
  | .struct _ ts => .struct (toMirs ts)
  | .array t n => .array t.toMir n
  | .enum _ o => .enum (toMirss o)
  | .backward t => .backward t.toMir
  | .copyView t => .copyView t.toMir
def toMirs : List Ty → List MTy
  | [] => []
  | t :: ts => t.toMir :: toMirs ts
def toMirss : List (List Ty) → List (List MTy)
  | [] => []
  | o :: os => toMirs o :: toMirss os
end

/-- Number of wires of a type. -/
def Ty.size (t : Ty) : Nat := t.toMir.size

/-- A value as far as it is defined. -/
inductive Shown where
  | num (z : Int)
  | bool (b : Bool)
  /-- some bit is undefined -/
  | undef
  /-- some bit is of high impedance -/
  | highz
  /-- no variant has this tag -/
  | badTag
  | memory
  | nothing
  | tuple (ps : List Shown)
  | struct (names : List Str) (ps : List Shown)
  | array (ps : List Shown)
  | variant (i : Nat) (name : Str) (ps : List Shown)

/-- Defined bits. -/
def lift (bs : Bits) : List Level := bs.map fun b => if b then .v1 else .v0

/-- Some bit is undefined, or none is and some is of high impedance. -/
inductive Bad : List Level → Shown → Prop
  | x {l} : .x ∈ l → Bad l .undef
  | z {l} : .x ∉ l → .z ∈ l → Bad l .highz

mutual
/-- `Reads t p l`: wires of type `t` at levels `l` carry the value `p`.  Tuples, structs and payloads
begin with their first member, arrays with their last element; variants begin with the tag and end
with padding at any levels. -/
inductive Reads : Ty → Shown → List Level → Prop
  | error {l} : Reads .error .nothing [l]
  | int {n bs} : bs.length = n → Reads (.int n) (.num (toInt bs)) (lift bs)
  | intBad {n l p} : l.length = n → Bad l p → Reads (.int n) p l
  | uint {n bs} : bs.length = n → Reads (.uint n) (.num (toNat bs)) (lift bs)
  | uintBad {n l p} : l.length = n → Bad l p → Reads (.uint n) p l
  | bool {b} : Reads .bool (.bool b) (lift [b])
  | boolBad {l p} : l.length = 1 → Bad l p → Reads .bool p l
  | memory {t n l} : l.length = (Ty.memory t n).size → Reads (.memory t n) .memory l
  | inout {t p l} : Reads t p l → Reads (.inout t) p l
  | tuple {ts ps ls} : ReadsAll ts ps ls → Reads (.tuple ts) (.tuple ps) ls.flatten
  | struct {names ts ps ls} : ReadsAll ts ps ls →
      Reads (.struct names ts) (.struct names ps) ls.flatten
  | array {t n ps ls} : ReadsAll (List.replicate n t) ps ls →
      Reads (.array t n) (.array ps) ls.reverse.flatten
  | variant {names opts i name ts ps ls pad} : opts[i]? = some ts → names[i]? = some name →
      ReadsAll ts ps ls →
      tagSize opts.length + ls.flatten.length + pad.length = (Ty.enum names opts).size →
      Reads (.enum names opts) (.variant i name ps)
        (lift (ofNat (tagSize opts.length) i) ++ ls.flatten ++ pad)
  /-- the tag is a number without variant -/
  | noVariant {names opts tag rest} : tag.length = tagSize opts.length → opts.length ≤ toNat tag →
      tag.length + rest.length = (Ty.enum names opts).size →
      Reads (.enum names opts) .badTag (lift tag ++ rest)
  /-- the first bit of the tag that is not defined is undefined -/
  | undefTag {names opts tag post rest} : tag.length + 1 + post.length = tagSize opts.length →
      tag.length + 1 + post.length + rest.length = (Ty.enum names opts).size →
      Reads (.enum names opts) .undef (lift tag ++ .x :: post ++ rest)
  /-- the first bit of the tag that is not defined is of high impedance -/
  | highzTag {names opts tag post rest} : tag.length + 1 + post.length = tagSize opts.length →
      tag.length + 1 + post.length + rest.length = (Ty.enum names opts).size →
      Reads (.enum names opts) .highz (lift tag ++ .z :: post ++ rest)
  | backward {t} : Reads (.backward t) .nothing []
  | copyView {t p l} : Reads t p l → Reads (.copyView t) p l
inductive ReadsAll : List Ty → List Shown → List (List Level) → Prop
  | nil : ReadsAll [] [] []
  | cons {t p l ts ps ls} : Reads t p l → ReadsAll ts ps ls → ReadsAll (t :: ts) (p :: ps) (l :: ls)
end

/-! ## How values are written -/

/-- The digit of a number below ten. -/
def digit (n : Nat) : Char := Char.ofNat (n + 48)

/-- Decimal digits of a number. -/
def decNat (n : Nat) : Str := if n < 10 then [digit n] else decNat (n / 10) ++ [digit (n % 10)]
termination_by n
decreasing_by omega

/-- Decimal notation. -/
def dec : Int → Str
  | .ofNat n => decNat n
  | .negSucc n => '-' :: decNat (n + 1)

mutual
/-- How a value is written. -/
def text : Shown → Str
  | .num z => dec z
  | .bool true => ['t', 'r', 'u', 'e']
  | .bool false => ['f', 'a', 'l', 's', 'e']
  | .undef => ['U', 'N', 'D', 'E', 'F']
  | .highz => ['H', 'I', 'G', 'H', 'I', 'M', 'P']
  | .badTag => ['?', 'T', 'A', 'G', '?']
  | .memory => ['m', 'e', 'm', 'o', 'r', 'y']
  | .nothing => []
  | .tuple ps => '(' :: texts ps ++ [')']
  | .struct names ps => '{' :: fieldTexts names ps ++ ['}']
  | .array ps => '[' :: texts ps ++ [']']
  | .variant _ name ps => name ++ '(' :: texts ps ++ [')']
/-- Values separated by commas. -/
def texts : List Shown → Str
  | [] => []
  | p :: ps => text p ++ (if ps.isEmpty then [] else [',']) ++ texts ps
/-- Named values separated by commas. -/
def fieldTexts : List Str → List Shown → Str
  | n :: ns, p :: ps => n ++ ':' :: text p ++ (if ps.isEmpty then [] else [',']) ++ fieldTexts ns ps
  | _, _ => []
end

/-! ## What the translator makes of a value

It writes nothing for what has no wires, and lists arrays in the order of the wires, that is from the
last element. -/

mutual
/-- The value that is written instead of a value. -/
def Ty.seen : Ty → Shown → Shown
  | .tuple ts, .tuple ps => if (Ty.tuple ts).size = 0 then .nothing else .tuple (seens ts ps)
  | .struct ns ts, .struct ms ps =>
    if (Ty.struct ns ts).size = 0 then .nothing else .struct ms (seens ts ps)
  | .array t n, .array ps => if (Ty.array t n).size = 0 then .nothing else .array (ps.map t.seen).reverse
  | .enum ns opts, .variant i name ps =>
    if (Ty.enum ns opts).size = 0 then .nothing else .variant i name (optSeens opts i ps)
  | .inout t, p => t.seen p
  | .copyView t, p => t.seen p
  | t, p => if t.size = 0 then .nothing else p
def seens : List Ty → List Shown → List Shown
  | t :: ts, p :: ps => t.seen p :: seens ts ps
  | _, _ => []
def optSeens : List (List Ty) → Nat → List Shown → List Shown
  | o :: _, 0, ps => seens o ps
  | _ :: os, i + 1, ps => optSeens os i ps
  | [], _, ps => ps
end

/-! ## Conditions on types -/

mutual
/-- Everything has a name: there are as many names as fields and as variants. -/
def Ty.Named : Ty → Prop
  | .memory t _ => t.Named
  | .inout t => t.Named
  | .tuple ts => AllNamed ts
  | .struct names ts => names.length = ts.length ∧ AllNamed ts
  | .array t _ => t.Named
  | .enum names opts => names.length = opts.length ∧ AllsNamed opts
  | .backward t => t.Named
  | .copyView t => t.Named
  | _ => True
def AllNamed : List Ty → Prop
  | [] => True
  | t :: ts => t.Named ∧ AllNamed ts
def AllsNamed : List (List Ty) → Prop
  | [] => True
  | o :: os => AllNamed o ∧ AllsNamed os
end

mutual
/-- No part of the type is without wires, and arrays have at most one element. -/
def Ty.Plain : Ty → Prop
  | .error => True
  | .int n => n ≠ 0
  | .uint n => n ≠ 0
  | .bool => True
  | .memory t n => (Ty.memory t n).size ≠ 0
  | .inout t => t.Plain
  | .tuple ts => ts ≠ [] ∧ AllPlain ts
  | .struct _ ts => ts ≠ [] ∧ AllPlain ts
  | .array t n => n = 1 ∧ t.Plain
  | .enum names opts => (Ty.enum names opts).size ≠ 0 ∧ AllsPlain opts
  | .backward _ => False
  | .copyView t => t.Plain
def AllPlain : List Ty → Prop
  | [] => True
  | t :: ts => t.Plain ∧ AllPlain ts
def AllsPlain : List (List Ty) → Prop
  | [] => True
  | o :: os => AllPlain o ∧ AllsPlain os
end

/-- The characters that separate and enclose values. -/
def special (c : Char) : Bool := c == ',' || c == '(' || c == ')' || c == ']' || c == '}'

mutual
/-- The names of variants are distinct and have none of the characters that separate values, and
everything has a name. -/
def Ty.Legible : Ty → Prop
  | .memory _ _ => True
  | .inout t => t.Legible
  | .tuple ts => AllLegible ts
  | .struct names ts => names.length = ts.length ∧ AllLegible ts
  | .array t _ => t.Legible
  | .enum names opts => names.Nodup ∧ (∀ n ∈ names, ∀ c ∈ n, special c = false) ∧ AllsLegible opts
  | .backward _ => True
  | .copyView t => t.Legible
  | _ => True
def AllLegible : List Ty → Prop
  | [] => True
  | t :: ts => t.Legible ∧ AllLegible ts
def AllsLegible : List (List Ty) → Prop
  | [] => True
  | o :: os => AllLegible o ∧ AllsLegible os
end

end Spade.Vcd

import Verif.Vcd.Spec
/-!
# What a C++ test bench sees of a unit

The ports of the class that Verilator makes of a unit, the wires they stand for, and what the classes
of a wrapper must be like for a C++ compiler and a user.  Nothing here refers to the generator of
wrappers.
-/
namespace Spade.Cxx

open Spade.Vcd (Str Ty)

/-- Number of bits of the C++ integer that Verilator uses for a port of `n ≤ 64` bits: `CData`,
`SData`, `IData` or `QData`. -/
def holder (n : Nat) : Nat :=
  if n ≤ 8 then 8 else if n ≤ 16 then 16 else if n ≤ 32 then 32 else 64

/-- A port: a C++ unsigned integer of `bits` bits, or an array of unsigned integers of 32 bits, the
first of which has the least significant wires. -/
inductive Port where
  | scalar (bits value : Nat)
  | words (ws : List Nat)
  deriving DecidableEq

/-- The port of a Verilog port of `n` wires. -/
def Port.Fits (n : Nat) : Port → Prop
  | .scalar k v => n ≤ 64 ∧ k = holder n ∧ v < 2 ^ k
  | .words ws => 64 < n ∧ 32 * (ws.length - 1) < n ∧ n ≤ 32 * ws.length ∧ ∀ w ∈ ws, w < 2 ^ 32

/-- Wire `i` of a port; wire 0 is the least significant one. -/
def Port.wire : Port → Nat → Bool
  | .scalar _ v, i => v.testBit i
  | .words ws, i => (ws[i / 32]?.getD 0).testBit (i % 32)

/-- The wires of a port are the bits `s`, most significant first, with 0 for an undefined bit.
Verilator asks that the bits of the port that stand for no wire are 0. -/
def Carries (p : Port) (s : List (Option Bool)) : Prop :=
  ∀ i, p.wire i = match s.reverse[i]? with
    | some (some b) => b
    | _ => false

/-- `At t path u`: the field at `path` of a value of type `t` has type `u`. -/
inductive At : Ty → List Str → Ty → Prop
  | here {t} : At t [] t
  | field {ns ts f v path u} : (f, v) ∈ ns.zip ts → At v path u → At (.struct ns ts) (f :: path) u

/-- A class of the wrapper: its name, the field of the output that it compares and shows, and its
data members, each with the class it points to. -/
structure Cls where
  name : Str
  path : List Str
  members : List (Str × Str)
  deriving DecidableEq

/-- What a C++ compiler asks of the classes: no class is defined twice, no member is declared twice
in a class, where each class also has the member `root`, and the class that a member points to exists. -/
structure Compiles (cs : List Cls) : Prop where
  classes : (cs.map Cls.name).Nodup
  members : ∀ c ∈ cs, (c.members.map Prod.fst).Nodup ∧ "root".toList ∉ c.members.map Prod.fst
  exist : ∀ c ∈ cs, ∀ m ∈ c.members, ∃ d ∈ cs, d.name = m.2

/-- `Select cs name path c`: from an object of class `name`, `->a->b` along `path` is an object of class
`c`. -/
inductive Select (cs : List Cls) : Str → List Str → Cls → Prop
  | here {c} : c ∈ cs → Select cs c.name [] c
  | member {c m f path d} : c ∈ cs → (f, m) ∈ c.members → Select cs m path d →
      Select cs c.name (f :: path) d

/-- The names of the fields of every struct in a type are distinct, none of them has an underscore
or is `root`, and every field has wires. -/
def Plain (t : Ty) : Prop := ∀ path ns ts, At t path (.struct ns ts) →
  ns.Nodup ∧ ns.length = ts.length ∧ (∀ n ∈ ns, '_' ∉ n ∧ n ≠ "root".toList) ∧ ∀ v ∈ ts, v.size ≠ 0

end Spade.Cxx

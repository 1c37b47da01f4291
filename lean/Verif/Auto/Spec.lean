import Verif.Decl.Model

/-!
# Types whose values can be stored or read (C66): specification

`Data` is documented as the trait of the types "whose bit representation can be interpreted as data",
so that a "value can be stored in a register and passed through a multiplexer", and `Copy` as that of
types that "can be read and must not be set", "all types except `inv T`"
(`/repo/spade-compiler/core/marker.spade:1-29`). Here this is said of the concrete types that become
hardware, without reference to traits.
-/

namespace Spade.Auto

open Spade.Decl (Conc)

/-- The two traits that the compiler implements. -/
inductive Auto where
  | copy | data
  deriving DecidableEq

/-- The primitive types that are fit for it: numbers and `bool` can be stored; `clock` and `tri` can
be read. Memories and `inout` wires can be neither. -/
def Auto.prims : Auto → List String
  | .data => ["int", "uint", "bool"]
  | .copy => ["int", "uint", "bool", "clock", "tri"]

/-- All parts of the type are fit to be stored (`data`) or read (`copy`). Numbers and other values at
the type level have no wires. A view `&T` can always be read; storing it stores the bits of `T`. -/
inductive Fit (a : Auto) : Conc → Prop
  | single {p : String} {ps : List Conc} : p ∈ a.prims → (∀ c ∈ ps, Fit a c) → Fit a (.single p ps)
  | enum {os : List (String × List (String × Conc))} :
      (∀ o ∈ os, ∀ m ∈ o.2, Fit a m.2) → Fit a (.enum os)
  | struct {n : Nat} {ms : List (String × Conc)} : (∀ m ∈ ms, Fit a m.2) → Fit a (.struct n ms)
  | tuple {ts : List Conc} : (∀ c ∈ ts, Fit a c) → Fit a (.tuple ts)
  | array {c : Conc} {n : Int} : Fit a c → Fit a (.array c n)
  | readView {c : Conc} : a = .copy → Fit a (.copyView c)
  | view {c : Conc} : Fit a c → Fit a (.copyView c)
  | bool {b : Bool} : Fit a (.bool b)
  | int {i : Int} : Fit a (.int i)
  | str {s : String} : Fit a (.str s)

end Spade.Auto

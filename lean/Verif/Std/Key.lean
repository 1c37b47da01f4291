import Verif.Expr.Props
/-!
# The functions of the standard library that are modelled

`num k` is the number that the function and generic arguments `k` have in a program.
-/
namespace Spade.Std
open Spade.Codegen Spade.Lower Spade.Expr

/-- A type that implements `Fn`, and the unit that is its `call`.  The unit gets the closure and a
tuple of the arguments. -/
structure Clo where
  ty : MTy
  call : Nat

/-- `&`, `|` and `^`, and `&&`, `||` and `^^`. -/
inductive Logic where
  | and | or | xor

/-- The operators of spade-compiler/core/ops.spade and the functions on numbers, bits and options of
spade-compiler/stdlib/{conv,num,ops,option}.spade, and their generic arguments.  `s` is true for `int`
and false for `uint`.  `eqs` and `eq` are the units that compare the members. -/
inductive Op where
  | neg (N : Nat)
  | add (s : Bool) (N : Nat)
  | sub (s : Bool) (N : Nat)
  | mul (s : Bool) (N : Nat)
  | shl (s : Bool) (N : Nat)
  | shr (s : Bool) (N : Nat)
  | not
  | nots (N : Nat)
  | bitNot (s : Bool) (N : Nat)
  | logic (l : Logic)
  | logics (l : Logic) (N : Nat)
  | bitLogic (l : Logic) (s : Bool) (N : Nat)
  | order (c : Cmp) (s : Bool) (N : Nat)
  | eq (T : MTy)
  | ne (T : MTy)
  | eqUnit
  | neUnit
  | eqTuple (ts : List (MTy × Nat))
  | neTuple (ts : List (MTy × Nat))
  | ofBits (s : Bool) (N : Nat)
  | ofBool
  | bits (s : Bool) (N : Nat)
  | recast (s : Bool) (N : Nat)
  | toInt (N : Nat)
  | leBytes (N : Nat)
  | lamByte
  | beBytes (N : Nat)
  | germanBytes (N : Nat)
  | abs (N : Nat)
  | numConcat (s : Bool) (N M : Nat)
  | max (s : Bool) (N : Nat)
  | min (s : Bool) (N : Nat)
  | trunc (s : Bool) (N M : Nat)
  | numInterleave (N : Nat)
  | msb (s : Bool) (N : Nat)
  | lsb (s : Bool) (N : Nat)
  | signBit (N : Nat)
  | absTrunc (N : Nat)
  | sorted (N : Nat)
  | isSome (T : MTy)
  | isNone (T : MTy)
  | unwrapOr (T : MTy)
  | optMap (T O : MTy) (f : Clo)
  | andThen (T O : MTy) (f : Clo)
  | eqOption (T : MTy) (eq : Nat)
  | neOption (T : MTy) (eq : Nat)

/-- The functions and their generic arguments. -/
inductive Key where
  | op (o : Op)
  | unfold (T : MTy) (N : Nat) (f : Clo)
  | all (T : MTy) (N : Nat) (f : Clo)
  | any (T : MTy) (N : Nat) (f : Clo)
  | chunks (T : MTy) (N K : Nat)
  | concat (T : MTy) (N M : Nat)
  | reversed (T : MTy) (N : Nat)
  | fold (T B : MTy) (N : Nat) (f : Clo)
  | interleave (T : MTy) (N : Nat)
  | lamPair (T : MTy)
  | map (T O : MTy) (N : Nat) (f : Clo)
  | pushBack (T : MTy) (N : Nat)
  | pushFront (T : MTy) (N : Nat)
  | slidingWindow (T : MTy) (N M : Nat)
  | splitAt (T : MTy) (N K : Nat)
  | zip (T O : MTy) (N : Nat)
  | len (T : MTy) (N : Nat)
  | first (T : MTy) (N : Nat)
  | last (T : MTy) (N : Nat)
  | reduce (T : MTy) (N : Nat) (f : Clo)
  | shiftBack (T : MTy) (N : Nat)
  | shiftFront (T : MTy) (N : Nat)
  | unzip (S T : MTy) (N : Nat)
  | flatten (T : MTy) (N M : Nat)
  | reduceAnd (N : Nat)
  | reduceOr (N : Nat)
  | reduceXor (N : Nat)

/-- Width of the numbers up to `n` (`uint::bits_for`). -/
def bitsFor (n : Nat) : Nat := if n = 0 then 0 else n.log2 + 1

/-- The element with the number `k`, a literal; it has the width of an index of the array
(spade-typeinference/src/expression.rs). -/
def lit (id : Nat) (n k : Nat) : Expr := .int id (.uint (bitsFor (n - 1))) k

/-- Types of variables and expressions. -/
def tys (l : List (Nat × MTy)) : Nat → MTy := fun n => (l.lookup n).getD .bool

/-- `let (l, r) = e.split_at::<K>();` where `e` is an array of `N` elements.  `id` is the first of
four ids. -/
def splitLet (num : Key → Nat) (id l r : Nat) (T : MTy) (N K : Nat) (e : Expr) : Stm :=
  .bind (.tuple id (.tuple [.array T K, .array T (N - K)]) [.bound l (.array T K), .bound r (.array T (N - K))])
    (.call (id + 1) (.tuple [.array T K, .array T (N - K)]) (.unit (num (.splitAt T N K))) [e])

/-- `a.concat(b)` where `a` has `N` and `b` has `M` elements; the type of the result is known to be an
array of `L` elements. -/
def cat (num : Key → Nat) (id : Nat) (T : MTy) (N M L : Nat) (a b : Expr) : Expr :=
  .call id (.array T L) (.unit (num (.concat T N M))) [a, b]

end Spade.Std

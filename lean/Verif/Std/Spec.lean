import Verif.Expr.Spec
import Verif.Expr.Accept
/-!
# What users rely on the functions of the standard library for

A unit of a program returns a value; what values are; what the documentation says arrays and numbers
become.  Nothing here refers to how the functions are written.
-/
namespace Spade.Std
open Spade.Codegen Spade.Lower Spade.Expr
open Spade.Match (Val HasTy)

/-- The unit `u` of the program returns `w` for the arguments `vs`. -/
def Returns (P : Prog) (u : Nat) (vs : List Val) (w : Val) : Prop :=
  ∃ f, P u = some f ∧ Ev P (callVars f.params vs) f.body w

/-- The unit `u` of the program returns `w` for the arguments `vs`, and nothing else. -/
def Computes (P : Prog) (u : Nat) (vs : List Val) (w : Val) : Prop := ∀ w', Returns P u vs w' ↔ w' = w

/-- A value of type `T`. -/
abbrev Is (T : MTy) (v : Val) : Prop := HasTy v (srcTy T)

/-- All are values of type `T`. -/
abbrev AllIs (T : MTy) (vs : List Val) : Prop := ∀ v ∈ vs, Is T v

/-- The unit `u` together with the closure `c` is the function `g` from `T` to `O`. -/
def IsFn (P : Prog) (u : Nat) (c : Val) (T O : MTy) (g : Val → Val) : Prop :=
  ∀ x, Is T x → Is O (g x) ∧ Returns P u [c, .tup [x]] (g x)

/-- The unit `u` together with the closure `c` is the function `g` of two arguments. -/
def IsFn2 (P : Prog) (u : Nat) (c : Val) (T U O : MTy) (g : Val → Val → Val) : Prop :=
  ∀ x y, Is T x → Is U y → Is O (g x y) ∧ Returns P u [c, .tup [x, y]] (g x y)

/-- The unit `u` together with the closure `c` is the predicate `p`. -/
def IsPred (P : Prog) (u : Nat) (c : Val) (T : MTy) (p : Val → Bool) : Prop :=
  ∀ x, Is T x → Returns P u [c, .tup [x]] (.bool (p x))

/-- The parts of length `k` of a list. -/
def parts (k : Nat) (xs : List Val) : List Val :=
  (List.range (xs.length / k)).map fun i => .tup ((xs.drop (i * k)).take k)

/-- The windows of length `m` of a list. -/
def windows (m : Nat) (xs : List Val) : List Val :=
  (List.range (xs.length - m + 1)).map fun i => .tup ((xs.drop i).take m)

/-- Elements of the two lists in turn. -/
def inTurn : List Val → List Val → List Val
  | x :: xs, y :: ys => x :: y :: inTurn xs ys
  | _, _ => []

/-- `x, g x, g (g x), …`. -/
def iterates (g : Val → Val) : Nat → Val → List Val
  | 0, _ => []
  | n + 1, x => x :: iterates g n (g x)

/-- Bit `i` of a number in two's complement. -/
def bitOf (z : Int) (i : Nat) : Bool := z / 2 ^ i % 2 = 1

/-- The `N` low bits of a number, the least significant first. -/
def bitList (N : Nat) (z : Int) : List Bool := (List.range N).map (bitOf z)

/-- The number with these bits, the least significant first. -/
def bitSum : List Bool → Int
  | [] => 0
  | b :: bs => (if b then 1 else 0) + 2 * bitSum bs

/-- The bytes of a number of `N` bits, the least significant first. -/
def byteList (N : Nat) (z : Int) : List Val :=
  (List.range (N / 8)).map fun i => .int (z / 2 ^ (8 * i) % 256)

/-- `z'` is the number of type `T` that `z` wraps around to. -/
def Wrapped (T : MTy) (z z' : Int) : Prop := InRange T z' ∧ (2 : Int) ^ T.size ∣ z' - z

/-- The unit `u` decides the relation `R` of values of type `T`: it is the `==` of the type, whatever that
means for it. -/
def Decides (P : Prog) (u : Nat) (T : MTy) (R : Val → Val → Prop) : Prop :=
  ∀ v w, Is T v → Is T w → ∃ b, Returns P u [v, w] (.bool b) ∧ (b = true ↔ R v w)

/-- Members are related pairwise, each by the relation of its type. -/
def AllRelated (R : Nat → Val → Val → Prop) : List (MTy × Nat) → List Val → List Val → Prop
  | t :: ts, v :: vs, w :: ws => R t.2 v w ∧ AllRelated R ts vs ws
  | _, _, _ => True

/-- Both are `None`, or both are `Some` and the values are related. -/
def OptRelated (R : Val → Val → Prop) (v w : Val) : Prop :=
  v = .variant 0 [] ∧ w = .variant 0 [] ∨ ∃ x y, v = .variant 1 [x] ∧ w = .variant 1 [y] ∧ R x y

/-- A program contains what it calls. -/
def Closed (P : Prog) : Prop := ∀ u f, P u = some f → ∀ c ∈ f.body.calls, (P c).isSome

end Spade.Std

/-!
# Specification for type inference (C18–C22)

What a user relies on, stated without reference to how inference is implemented:

* which type-level values a kind (`#any`, `#type`, `#number`, `#int`, `#uint`, `#bool`, `#str`)
  stands for;
* what the resolution of type variables must look like after a history of substitutions,
  checkpoints and restores (an abstract machine that keeps a plain function per checkpoint);
* the mathematical value of a type-level expression;
* which integers a bit vector of a given width can hold.
-/

namespace Spade.Infer.Spec

/-! ## Kinds -/

/-- A type-level value, as a user can write one where a generic argument is expected. Types are
identified by an arbitrary label. -/
inductive Val where
  | int (v : Int)
  | bool (b : Bool)
  | str (s : String)
  | type (label : String)
  deriving DecidableEq, Repr

/-- The kinds of type-level values. -/
inductive Kind where
  | any | type | number | int | uint | bool | str
  deriving DecidableEq, Repr

/-- The values a kind stands for. -/
def Kind.Holds : Kind → Val → Prop
  | .any, _ => True
  | .type, v => ∃ l, v = .type l
  | .number, v => ∃ i, v = .int i
  | .int, v => ∃ i, v = .int i
  | .uint, v => ∃ i, 0 ≤ i ∧ v = .int i
  | .bool, v => ∃ b, v = .bool b
  | .str, v => ∃ s, v = .str s

/-! ## Resolution of type variables -/

/-- An operation on the record of substitutions. -/
inductive Op where
  /-- From now on `src` stands for `dst`. -/
  | bind (src dst : Nat)
  /-- Ask what a variable stands for. -/
  | ask (v : Nat)
  /-- Take a checkpoint. -/
  | checkpoint
  /-- Go back to the last checkpoint. -/
  | restore
  deriving Repr

/-- The abstract state: what every variable stands for now, and at each open checkpoint
(innermost first). -/
structure AState where
  now : Nat → Nat
  saved : List (Nat → Nat)

/-- Initially every variable stands for itself. -/
def AState.init : AState := { now := id, saved := [] }

/-- One step of the abstract machine: the answer of an `ask`, and the new state. -/
def AState.step (s : AState) : Op → Option Nat × AState
  | .bind src dst =>
    (none, { s with now := fun v => if s.now v = src then s.now dst else s.now v })
  | .ask v => (some (s.now v), s)
  | .checkpoint => (none, { s with saved := s.now :: s.saved })
  | .restore =>
    match s.saved with
    | [] => (none, s)
    | r :: rest => (none, { now := r, saved := rest })

/-- Operations that make sense: only a variable that still stands for itself is bound, never to
something that already stands for it, and only open checkpoints are restored. -/
def AState.Allowed (s : AState) : Op → Prop
  | .bind src dst => s.now src = src ∧ s.now dst ≠ src
  | .ask _ => True
  | .checkpoint => True
  | .restore => s.saved ≠ []

/-- The answers the abstract machine gives along a history. -/
def AState.run : AState → List Op → List (Option Nat)
  | _, [] => []
  | s, op :: ops => (s.step op).1 :: AState.run (s.step op).2 ops

/-- Every operation of the history makes sense when it is performed. -/
def AState.AllAllowed : AState → List Op → Prop
  | _, [] => True
  | s, op :: ops => s.Allowed op ∧ AState.AllAllowed (s.step op).2 ops

/-- Within the history no checkpoint older than its `n` own ones is restored, and at its end all of
its own are restored. -/
def BalancedFrom : Nat → List Op → Prop
  | n, [] => n = 0
  | n, .checkpoint :: ops => BalancedFrom (n + 1) ops
  | 0, .restore :: _ => False
  | n + 1, .restore :: ops => BalancedFrom n ops
  | n, _ :: ops => BalancedFrom n ops

/-- Every checkpoint taken in the history is restored in it, and no other. -/
def Balanced (ops : List Op) : Prop := BalancedFrom 0 ops

/-! ## Type-level expressions -/

/-- The expressions a user can write where a type-level value is expected. -/
inductive TExpr where
  | name (n : String)
  | bool (b : Bool)
  | int (i : Int)
  | str (s : String)
  | add (a b : TExpr)
  | sub (a b : TExpr)
  | mul (a b : TExpr)
  | div (a b : TExpr)
  | mod (a b : TExpr)
  | eq (a b : TExpr)
  | neq (a b : TExpr)
  | lt (a b : TExpr)
  | gt (a b : TExpr)
  | le (a b : TExpr)
  | ge (a b : TExpr)
  | and (a b : TExpr)
  | or (a b : TExpr)
  | xor (a b : TExpr)
  | neg (a : TExpr)
  | not (a : TExpr)
  | paren (a : TExpr)
  | intBits (a : TExpr)
  | uintBits (a : TExpr)
  deriving DecidableEq, Repr

/-- `n` is the least width at which some bit vector, read as a two's complement number, is `v`. -/
def LeastInt (v : Int) (n : Nat) : Prop :=
  (∃ b : BitVec n, b.toInt = v) ∧ ∀ m, (∃ b : BitVec m, b.toInt = v) → n ≤ m

/-- `n` is the least width at which some bit vector, read as an unsigned number, is `v`. -/
def LeastUint (v : Int) (n : Nat) : Prop :=
  (∃ b : BitVec n, (b.toNat : Int) = v) ∧ ∀ m, (∃ b : BitVec m, (b.toNat : Int) = v) → n ≤ m

/-- Both integers, both booleans, or both strings: values that can be compared. -/
def SameSort : Val → Val → Prop
  | .int _, .int _ => True
  | .bool _, .bool _ => True
  | .str _, .str _ => True
  | _, _ => False

/-- `e` has the value `w` when the names have the values `ρ`. Division truncates towards zero and
has no value when the divisor is zero; `uint::bits_for` has no value on a negative number. -/
inductive Value (ρ : String → Option Val) : TExpr → Val → Prop
  | name {n v} : ρ n = some v → Value ρ (.name n) v
  | bool {b} : Value ρ (.bool b) (.bool b)
  | int {i} : Value ρ (.int i) (.int i)
  | str {s} : Value ρ (.str s) (.str s)
  | add {a b x y} : Value ρ a (.int x) → Value ρ b (.int y) → Value ρ (.add a b) (.int (x + y))
  | sub {a b x y} : Value ρ a (.int x) → Value ρ b (.int y) → Value ρ (.sub a b) (.int (x - y))
  | mul {a b x y} : Value ρ a (.int x) → Value ρ b (.int y) → Value ρ (.mul a b) (.int (x * y))
  | div {a b x y} : Value ρ a (.int x) → Value ρ b (.int y) → y ≠ 0 →
      Value ρ (.div a b) (.int (Int.tdiv x y))
  | mod {a b x y} : Value ρ a (.int x) → Value ρ b (.int y) → y ≠ 0 →
      Value ρ (.mod a b) (.int (Int.tmod x y))
  | eq {a b x y} : Value ρ a x → Value ρ b y → SameSort x y →
      Value ρ (.eq a b) (.bool (decide (x = y)))
  | neq {a b x y} : Value ρ a x → Value ρ b y → SameSort x y →
      Value ρ (.neq a b) (.bool (decide (x ≠ y)))
  | lt {a b x y} : Value ρ a (.int x) → Value ρ b (.int y) →
      Value ρ (.lt a b) (.bool (decide (x < y)))
  | gt {a b x y} : Value ρ a (.int x) → Value ρ b (.int y) →
      Value ρ (.gt a b) (.bool (decide (x > y)))
  | le {a b x y} : Value ρ a (.int x) → Value ρ b (.int y) →
      Value ρ (.le a b) (.bool (decide (x ≤ y)))
  | ge {a b x y} : Value ρ a (.int x) → Value ρ b (.int y) →
      Value ρ (.ge a b) (.bool (decide (x ≥ y)))
  | and {a b x y} : Value ρ a (.bool x) → Value ρ b (.bool y) →
      Value ρ (.and a b) (.bool (decide (x = true ∧ y = true)))
  | or {a b x y} : Value ρ a (.bool x) → Value ρ b (.bool y) →
      Value ρ (.or a b) (.bool (decide (x = true ∨ y = true)))
  | xor {a b x y} : Value ρ a (.bool x) → Value ρ b (.bool y) →
      Value ρ (.xor a b) (.bool (decide (x ≠ y)))
  | neg {a x} : Value ρ a (.int x) → Value ρ (.neg a) (.int (-x))
  | not {a x} : Value ρ a (.bool x) → Value ρ (.not a) (.bool (decide (x = false)))
  | paren {a v} : Value ρ a v → Value ρ (.paren a) v
  | intBits {a x n} : Value ρ a (.int x) → LeastInt x n → Value ρ (.intBits a) (.int n)
  | uintBits {a x n} : Value ρ a (.int x) → LeastUint x n → Value ρ (.uintBits a) (.int n)

end Spade.Infer.Spec

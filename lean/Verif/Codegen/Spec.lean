import Verif.Codegen.Model
/-!
# Specification side of the code generation theorems

How bits are read back as numbers; nothing here refers to the code generator.
-/
namespace Spade.Codegen
open Spade.Verilog

/-- The forward variable of a value has as many bits as its type. -/
def Fits (Γ : Nat → MTy) (ρ : Env) (n : Nat) : Prop := (ρ (fwd n)).length = (Γ n).size

/-- The backward variable of a value has as many bits as its type. -/
def FitsBack (Γ : Nat → MTy) (ρ : Env) (n : Nat) : Prop :=
  (ρ (back n)).length = (Γ n).backSize

/-- The number a bit pattern stands for: two's complement for `int`, binary otherwise. -/
def numVal : MTy → Bits → Int
  | .int _, b => toInt b
  | _, b => (toNat b : Int)

/-- The mathematical meaning of a comparison. -/
def Cmp.holds : Cmp → Int → Int → Bool
  | .lt, x, y => decide (x < y)
  | .le, x, y => decide (x ≤ y)
  | .gt, x, y => decide (y < x)
  | .ge, x, y => decide (y ≤ x)
  | .eq, x, y => decide (x = y)
  | .ne, x, y => decide (x ≠ y)

/-- `z` is a value of the number type. -/
def InRange : MTy → Int → Prop
  | .int n, z => n = 0 ∧ z = 0 ∨ 0 < n ∧ -(2 ^ (n - 1) : Int) ≤ z ∧ z < 2 ^ (n - 1)
  | .uint n, z => 0 ≤ z ∧ z < 2 ^ n
  | _, _ => False

/-- A number type. -/
def IsNum : MTy → Prop
  | .int _ => True
  | .uint _ => True
  | _ => False

end Spade.Codegen

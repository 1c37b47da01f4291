import Verif.Expr.Accept
/-!
# Which well-typed functions hardware is generated for

Specification of C69, without reference to the lowering.
-/
namespace Spade.Expr
open Spade.Codegen Spade.Lower

mutual
/-- No part of the pattern is `[]`. -/
def NoEmptyArray : LPat → Prop
  | .int .. | .bool .. | .bound .. => True
  | .boundInner _ _ p => NoEmptyArray p
  | .array _ _ ps => ps ≠ [] ∧ NoEmptyArrays ps
  | .tuple _ _ ps | .struct _ _ ps | .variant _ _ _ ps => NoEmptyArrays ps
/-- All of them. -/
def NoEmptyArrays : List LPat → Prop
  | [] => True
  | p :: ps => NoEmptyArray p ∧ NoEmptyArrays ps
end

/-- A literal power of two below `2 ^ 128`. -/
def LiteralPower (e : Expr) : Prop := ∃ id ty k, e = .int id ty (2 ^ k) ∧ k < 128

mutual
/-- Divisors are literal powers of two, patterns have no `[]`, a field that is read is one field of the
struct, and what is transmuted has as many bits of `inv` type as the result. -/
def Expr.Compiles : Expr → Prop
  | .var .. | .int .. | .bool .. => True
  | .bin _ _ op l r => l.Compiles ∧ r.Compiles ∧ (op = .div ∨ op = .mod → LiteralPower r)
  | .un _ _ _ e | .proj _ _ e _ | .cast _ _ e | .rep _ _ e _ | .range _ _ e _ _ => e.Compiles
  | .field _ _ e fields f => e.Compiles ∧
      ∃ k, fields[k]? = some f ∧ ∀ j : Nat, fields[j]? = some f → j = k
  | .tuple _ _ es | .array _ _ es => Exprs.Compile es
  | .call _ ty f es => Exprs.Compile es ∧
      (f = .intr .transmute → ∀ t, es.map Expr.ty = [t] → t.backSize = ty.backSize)
  | .elem _ _ a i => a.Compiles ∧ i.Compiles
  | .block _ ss e => Stms.Compile ss ∧ e.Compiles
  | .unitBlock _ ss => Stms.Compile ss
  | .ite _ _ c a b => c.Compiles ∧ a.Compiles ∧ b.Compiles
  | .match _ _ e arms => e.Compiles ∧ Arms.Compile arms
/-- All of them. -/
def Exprs.Compile : List Expr → Prop
  | [] => True
  | e :: es => e.Compiles ∧ Exprs.Compile es
/-- All of them. -/
def Stms.Compile : List Stm → Prop
  | [] => True
  | .bind p e :: ss => NoEmptyArray p ∧ e.Compiles ∧ Stms.Compile ss
  | .expr e :: ss | .assert e :: ss => e.Compiles ∧ Stms.Compile ss
  | .decl :: ss => Stms.Compile ss
/-- All of them. -/
def Arms.Compile : List Arm → Prop
  | [] => True
  | .plain p e :: as => NoEmptyArray p ∧ e.Compiles ∧ Arms.Compile as
  | .guarded p g e :: as => NoEmptyArray p ∧ g.Compiles ∧ e.Compiles ∧ Arms.Compile as
end

/-- The types the unit gives its signals: those of inputs and of the signals that statements drive. -/
def HUnit.declares (h : HUnit) (n : Nat) (t : MTy) : Prop :=
  (n, t) ∈ h.inputs ∨ ∃ i ∈ h.items, match i with
    | .stmt s => target s = (n, t)
    | .nop m ty | .inst m ty _ _ => (m, ty) = (n, t)
    | .assert _ => False

end Spade.Expr

import Verif.Elab.Model
/-!
# Functions of the source that hardware is generated for

Specification for C62 with C69: conditions on the source of a unit.
-/
namespace Spade.Elab
open Spade.Check

mutual
/-- No part of the pattern is `[]`. -/
def PatFilled : Pat → Prop
  | .int .. | .bool .. | .bound _ _ _ none => True
  | .bound _ _ _ (some p) => PatFilled p
  | .array _ ps => ps ≠ [] ∧ PatsFilled ps
  | .tuple _ ps | .type _ _ ps => PatsFilled ps
/-- All of them. -/
def PatsFilled : List Pat → Prop
  | [] => True
  | p :: ps => PatFilled p ∧ PatsFilled ps
end

/-- A literal power of two below `2 ^ 128`; a generic parameter is not a literal
(spade-hir-lowering/src/lib.rs:1453-1518). -/
def PowerLit (e : Exp) : Prop := ∃ id k kind, e = .int id (2 ^ k) kind ∧ k < 128

mutual
/-- Divisors are literal powers of two, patterns have no `[]`, and what is transmuted has as many bits of
`inv` type as the result. -/
def Translatable (X : Ctx) (Γ : Typing) : Exp → Prop
  | .var .. | .tlBool .. | .tlInt .. | .int .. | .bool .. => True
  | .tuple _ es | .array _ es => Translatables X Γ es
  | .proj _ e _ | .field _ e _ | .cast _ e _ | .rep _ e _ _ | .range _ e _ _ | .un _ _ e => Translatable X Γ e
  | .elem _ a i => Translatable X Γ a ∧ Translatable X Γ i
  | .block _ ss none => TranslatableStms X Γ ss
  | .block _ ss (some r) => TranslatableStms X Γ ss ∧ Translatable X Γ r
  | .ite _ c a b => Translatable X Γ c ∧ Translatable X Γ a ∧ Translatable X Γ b
  | .genIf _ _ _ a b => Translatable X Γ a ∧ Translatable X Γ b
  | .mtch _ c arms => Translatable X Γ c ∧ TranslatableArms X Γ arms
  | .bin _ op a b => Translatable X Γ a ∧ Translatable X Γ b ∧ (op = .div ∨ op = .mod → PowerLit b)
  | .call id f _ args => Translatables X Γ args ∧ (X.items f = some (.intr .transmute) →
      ∀ a t u, args = [a] → X.idTy Γ a.id = some t → X.idTy Γ id = some u → t.backSize = u.backSize)
/-- All of them. -/
def Translatables (X : Ctx) (Γ : Typing) : List Exp → Prop
  | [] => True
  | e :: es => Translatable X Γ e ∧ Translatables X Γ es
/-- All of them. -/
def TranslatableArms (X : Ctx) (Γ : Typing) : List Arm → Prop
  | [] => True
  | .mk p none e :: as => PatFilled p ∧ Translatable X Γ e ∧ TranslatableArms X Γ as
  | .mk p (some g) e :: as => PatFilled p ∧ Translatable X Γ g ∧ Translatable X Γ e ∧ TranslatableArms X Γ as
/-- All of them. -/
def TranslatableStms (X : Ctx) (Γ : Typing) : List Stmt → Prop
  | [] => True
  | .bind p _ e :: ss => PatFilled p ∧ Translatable X Γ e ∧ TranslatableStms X Γ ss
  | .expr e :: ss | .assert e :: ss => Translatable X Γ e ∧ TranslatableStms X Γ ss
  | .decl _ :: ss | .set _ _ :: ss | .reg .. :: ss => TranslatableStms X Γ ss
end

end Spade.Elab

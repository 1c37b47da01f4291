import Verif.Elab.Model
/-!
# What name resolution guarantees for the source of a unit

Specification for C62: conditions on the source of a unit, without reference to lowering except for the
numbers that its signals get.
-/
namespace Spade.Elab
open Spade.Check

/-- What gets a signal: an expression or pattern with an id, or a variable. -/
inductive Sig where
  | id (n : Nat)
  | name (x : Nat)
  deriving DecidableEq

/-- The number of the signal. -/
def Sig.signal : Sig → Nat
  | .id n => sigId n
  | .name x => sigName x

/-- The signal a pattern is matched against. -/
def patSig : Pat → Sig
  | .int id _ | .bool id _ | .tuple id _ | .array id _ | .type id _ _ => .id id
  | .bound _ x _ _ => .name x

mutual
/-- The signals of the parts of a pattern. -/
def subSigs : Pat → List Sig
  | .int .. | .bool .. | .bound _ _ _ none => []
  | .bound _ _ _ (some p) => patSig p :: subSigs p
  | .tuple _ ps | .array _ ps | .type _ _ ps => subSigss ps
/-- All of them. -/
def subSigss : List Pat → List Sig
  | [] => []
  | p :: ps => patSig p :: subSigs p ++ subSigss ps
end

mutual
/-- The variables a pattern introduces. -/
def boundBy : Pat → List Nat
  | .int .. | .bool .. => []
  | .bound _ x _ none => [x]
  | .bound _ x _ (some p) => x :: boundBy p
  | .tuple _ ps | .array _ ps | .type _ _ ps => boundBys ps
/-- All of them. -/
def boundBys : List Pat → List Nat
  | [] => []
  | p :: ps => boundBy p ++ boundBys ps
end

mutual
/-- Everything in an expression that gets a signal: its parts, except for variables that are used and
blocks with a result, and the patterns in it. -/
def sigs : Exp → List Sig
  | .var .. => []
  | .tlBool id _ | .tlInt id _ | .int id _ _ | .bool id _ => [.id id]
  | .tuple id es | .array id es | .call id _ _ es => sigss es ++ [.id id]
  | .proj id e _ | .field id e _ | .cast id e _ | .rep id e _ _ | .range id e _ _ | .un id _ e =>
    sigs e ++ [.id id]
  | .elem id a i => sigs a ++ sigs i ++ [.id id]
  | .block id ss none => stmSigs ss ++ [.id id]
  | .block _ ss (some r) => stmSigs ss ++ sigs r
  | .ite id c a b => sigs c ++ sigs a ++ sigs b ++ [.id id]
  | .genIf id _ _ a b => sigs a ++ sigs b ++ [.id id]
  | .mtch id c arms => sigs c ++ armSigs arms ++ [.id id]
  | .bin id _ a b => sigs a ++ sigs b ++ [.id id]
/-- All of them. -/
def sigss : List Exp → List Sig
  | [] => []
  | e :: es => sigs e ++ sigss es
/-- All of them. -/
def armSigs : List Arm → List Sig
  | [] => []
  | .mk p none e :: as => patSig p :: subSigs p ++ sigs e ++ armSigs as
  | .mk p (some g) e :: as => patSig p :: subSigs p ++ sigs g ++ sigs e ++ armSigs as
/-- All of them; registers and `set` do not occur in functions. -/
def stmSigs : List Stmt → List Sig
  | [] => []
  | .bind p _ e :: ss => sigs e ++ (patSig p :: subSigs p) ++ stmSigs ss
  | .expr e :: ss | .assert e :: ss => sigs e ++ stmSigs ss
  | .decl _ :: ss | .set _ _ :: ss | .reg .. :: ss => stmSigs ss
end

/-- The variables in scope after the statements of a block. -/
def scopeAfter (S : Nat → Prop) : List Stmt → Nat → Prop
  | [] => S
  | .bind p _ _ :: ss => scopeAfter (fun x => S x ∨ x ∈ boundBy p) ss
  | .expr _ :: ss | .assert _ :: ss | .decl _ :: ss | .set _ _ :: ss | .reg .. :: ss => scopeAfter S ss

mutual
/-- Every variable is used in its scope; `S` are the variables in scope. -/
def InScope (S : Nat → Prop) : Exp → Prop
  | .var _ x => S x
  | .tlBool .. | .tlInt .. | .int .. | .bool .. => True
  | .tuple _ es | .array _ es | .call _ _ _ es => InScopes S es
  | .proj _ e _ | .field _ e _ | .cast _ e _ | .rep _ e _ _ | .range _ e _ _ | .un _ _ e => InScope S e
  | .elem _ a i => InScope S a ∧ InScope S i
  | .block _ ss none => StmsInScope S ss
  | .block _ ss (some r) => StmsInScope S ss ∧ InScope (scopeAfter S ss) r
  | .ite _ c a b => InScope S c ∧ InScope S a ∧ InScope S b
  | .genIf _ _ _ a b => InScope S a ∧ InScope S b
  | .mtch _ c arms => InScope S c ∧ ArmsInScope S arms
  | .bin _ _ a b => InScope S a ∧ InScope S b
/-- All of them. -/
def InScopes (S : Nat → Prop) : List Exp → Prop
  | [] => True
  | e :: es => InScope S e ∧ InScopes S es
/-- The variables of a pattern are visible in its arm. -/
def ArmsInScope (S : Nat → Prop) : List Arm → Prop
  | [] => True
  | .mk p none e :: as => InScope (fun x => S x ∨ x ∈ boundBy p) e ∧ ArmsInScope S as
  | .mk p (some g) e :: as => InScope (fun x => S x ∨ x ∈ boundBy p) g ∧
      InScope (fun x => S x ∨ x ∈ boundBy p) e ∧ ArmsInScope S as
/-- A `let` adds the variables of its pattern. -/
def StmsInScope (S : Nat → Prop) : List Stmt → Prop
  | [] => True
  | .bind p _ e :: ss => InScope S e ∧ StmsInScope (fun x => S x ∨ x ∈ boundBy p) ss
  | .expr e :: ss | .assert e :: ss => InScope S e ∧ StmsInScope S ss
  | .decl _ :: ss | .set _ _ :: ss | .reg .. :: ss => StmsInScope S ss
end

mutual
/-- Every `match` has an arm. -/
def HasArms : Exp → Prop
  | .var .. | .tlBool .. | .tlInt .. | .int .. | .bool .. => True
  | .tuple _ es | .array _ es | .call _ _ _ es => HaveArms es
  | .proj _ e _ | .field _ e _ | .cast _ e _ | .rep _ e _ _ | .range _ e _ _ | .un _ _ e => HasArms e
  | .elem _ a i => HasArms a ∧ HasArms i
  | .block _ ss none => StmsHaveArms ss
  | .block _ ss (some r) => StmsHaveArms ss ∧ HasArms r
  | .ite _ c a b => HasArms c ∧ HasArms a ∧ HasArms b
  | .genIf _ _ _ a b => HasArms a ∧ HasArms b
  | .mtch _ c arms => arms ≠ [] ∧ HasArms c ∧ ArmsHaveArms arms
  | .bin _ _ a b => HasArms a ∧ HasArms b
/-- All of them. -/
def HaveArms : List Exp → Prop
  | [] => True
  | e :: es => HasArms e ∧ HaveArms es
/-- All of them. -/
def ArmsHaveArms : List Arm → Prop
  | [] => True
  | .mk _ none e :: as => HasArms e ∧ ArmsHaveArms as
  | .mk _ (some g) e :: as => HasArms g ∧ HasArms e ∧ ArmsHaveArms as
/-- All of them. -/
def StmsHaveArms : List Stmt → Prop
  | [] => True
  | .bind _ _ e :: ss | .expr e :: ss | .assert e :: ss => HasArms e ∧ StmsHaveArms ss
  | .decl _ :: ss | .set _ _ :: ss | .reg .. :: ss => StmsHaveArms ss
end

/-- Name resolution is done: ids and names are all different (C36) and their signals come before `next`,
variables are used in their scope (C24), and every `match` has an arm. -/
structure SourceResolved (u : Check.Unit) (next : Nat) : Prop where
  distinct : (u.inputs.map (fun i => Sig.name i.1) ++ sigs u.body).Nodup
  given : ∀ s ∈ u.inputs.map (fun i => Sig.name i.1) ++ sigs u.body, s.signal < next
  inScope : InScope (fun x => x ∈ u.inputs.map (·.1)) u.body
  armed : HasArms u.body

end Spade.Elab

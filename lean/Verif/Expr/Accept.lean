import Verif.Expr.Spec
/-!
# What name resolution guarantees

Names of expressions, patterns and parameters, scopes, and which units call which.  Nothing here
refers to the lowering.
-/
namespace Spade.Expr
open Spade.Codegen Spade.Lower

mutual
/-- The names below a pattern: every subpattern has one. -/
def subnames : LPat → List Nat
  | .int .. | .bool .. | .bound .. => []
  | .boundInner _ _ p => p.name :: subnames p
  | .tuple _ _ ps | .array _ _ ps | .struct _ _ ps | .variant _ _ _ ps => namesAll ps
/-- The names of subpatterns and the names below them. -/
def namesAll : List LPat → List Nat
  | [] => []
  | p :: ps => p.name :: subnames p ++ namesAll ps
end

/-- All names of a pattern. -/
def patNames (p : LPat) : List Nat := p.name :: subnames p

mutual
/-- The variables a pattern introduces. -/
def patVars : LPat → List Nat
  | .int .. | .bool .. => []
  | .bound n _ => [n]
  | .boundInner n _ p => n :: patVars p
  | .tuple _ _ ps | .array _ _ ps | .struct _ _ ps | .variant _ _ _ ps => patsVars ps
/-- All of them. -/
def patsVars : List LPat → List Nat
  | [] => []
  | p :: ps => patVars p ++ patsVars ps
end

mutual
/-- All names that belong to an expression: the ids of its parts and the names of patterns in it.
A block with a result has no name of its own. -/
def Expr.names : Expr → List Nat
  | .var _ _ => []
  | .int id _ _ | .bool id _ => [id]
  | .bin id _ _ l r => l.names ++ r.names ++ [id]
  | .un id _ _ e | .proj id _ e _ | .field id _ e _ _ | .cast id _ e | .rep id _ e _
  | .range id _ e _ _ => e.names ++ [id]
  | .tuple id _ es | .array id _ es | .call id _ _ es => Exprs.names es ++ [id]
  | .elem id _ a i => a.names ++ i.names ++ [id]
  | .block _ ss e => Stms.names ss ++ e.names
  | .unitBlock id ss => Stms.names ss ++ [id]
  | .ite id _ c a b => c.names ++ a.names ++ b.names ++ [id]
  | .match id _ e arms => e.names ++ Arms.names arms ++ [id]
/-- All of them. -/
def Exprs.names : List Expr → List Nat
  | [] => []
  | e :: es => e.names ++ Exprs.names es
/-- All of them. -/
def Stms.names : List Stm → List Nat
  | [] => []
  | .bind p e :: ss => e.names ++ patNames p ++ Stms.names ss
  | .expr e :: ss | .assert e :: ss => e.names ++ Stms.names ss
  | .decl :: ss => Stms.names ss
/-- All of them. -/
def Arms.names : List Arm → List Nat
  | [] => []
  | .plain p e :: as => patNames p ++ e.names ++ Arms.names as
  | .guarded p g e :: as => patNames p ++ g.names ++ e.names ++ Arms.names as
end

/-- The variables in scope after the statements of a block. -/
def scope (S : Nat → Prop) : List Stm → Nat → Prop
  | [] => S
  | .bind p _ :: ss => scope (fun n => S n ∨ n ∈ patVars p) ss
  | .expr _ :: ss | .assert _ :: ss | .decl :: ss => scope S ss

mutual
/-- Every variable is used in its scope; `S` are the variables in scope. -/
def Expr.Scoped (S : Nat → Prop) : Expr → Prop
  | .var n _ => S n
  | .int .. | .bool .. => True
  | .bin _ _ _ l r => l.Scoped S ∧ r.Scoped S
  | .un _ _ _ e | .proj _ _ e _ | .field _ _ e _ _ | .cast _ _ e | .rep _ _ e _
  | .range _ _ e _ _ => e.Scoped S
  | .tuple _ _ es | .array _ _ es | .call _ _ _ es => Exprs.Scoped S es
  | .elem _ _ a i => a.Scoped S ∧ i.Scoped S
  | .block _ ss e => Stms.Scoped S ss ∧ e.Scoped (scope S ss)
  | .unitBlock _ ss => Stms.Scoped S ss
  | .ite _ _ c a b => c.Scoped S ∧ a.Scoped S ∧ b.Scoped S
  | .match _ _ e arms => e.Scoped S ∧ Arms.Scoped S arms
/-- All of them. -/
def Exprs.Scoped (S : Nat → Prop) : List Expr → Prop
  | [] => True
  | e :: es => e.Scoped S ∧ Exprs.Scoped S es
/-- A `let` adds the variables of its pattern. -/
def Stms.Scoped (S : Nat → Prop) : List Stm → Prop
  | [] => True
  | .bind p e :: ss => e.Scoped S ∧ Stms.Scoped (fun n => S n ∨ n ∈ patVars p) ss
  | .expr e :: ss | .assert e :: ss => e.Scoped S ∧ Stms.Scoped S ss
  | .decl :: ss => Stms.Scoped S ss
/-- The variables of a pattern are visible in its arm. -/
def Arms.Scoped (S : Nat → Prop) : List Arm → Prop
  | [] => True
  | .plain p e :: as => e.Scoped (fun n => S n ∨ n ∈ patVars p) ∧ Arms.Scoped S as
  | .guarded p g e :: as => g.Scoped (fun n => S n ∨ n ∈ patVars p) ∧
      e.Scoped (fun n => S n ∨ n ∈ patVars p) ∧ Arms.Scoped S as
end

mutual
/-- Every `match` has an arm. -/
def Expr.Armed : Expr → Prop
  | .var .. | .int .. | .bool .. => True
  | .bin _ _ _ l r => l.Armed ∧ r.Armed
  | .un _ _ _ e | .proj _ _ e _ | .field _ _ e _ _ | .cast _ _ e | .rep _ _ e _
  | .range _ _ e _ _ => e.Armed
  | .tuple _ _ es | .array _ _ es | .call _ _ _ es => Exprs.Armed es
  | .elem _ _ a i => a.Armed ∧ i.Armed
  | .block _ ss e => Stms.Armed ss ∧ e.Armed
  | .unitBlock _ ss => Stms.Armed ss
  | .ite _ _ c a b => c.Armed ∧ a.Armed ∧ b.Armed
  | .match _ _ e arms => arms ≠ [] ∧ e.Armed ∧ Arms.Armed arms
/-- All of them. -/
def Exprs.Armed : List Expr → Prop
  | [] => True
  | e :: es => e.Armed ∧ Exprs.Armed es
/-- All of them. -/
def Stms.Armed : List Stm → Prop
  | [] => True
  | .bind _ e :: ss | .expr e :: ss | .assert e :: ss => e.Armed ∧ Stms.Armed ss
  | .decl :: ss => Stms.Armed ss
/-- All of them. -/
def Arms.Armed : List Arm → Prop
  | [] => True
  | .plain _ e :: as => e.Armed ∧ Arms.Armed as
  | .guarded _ g e :: as => g.Armed ∧ e.Armed ∧ Arms.Armed as
end

mutual
/-- The units an expression calls. -/
def Expr.calls : Expr → List Nat
  | .var .. | .int .. | .bool .. => []
  | .bin _ _ _ l r => l.calls ++ r.calls
  | .un _ _ _ e | .proj _ _ e _ | .field _ _ e _ _ | .cast _ _ e | .rep _ _ e _
  | .range _ _ e _ _ => e.calls
  | .tuple _ _ es | .array _ _ es => Exprs.calls es
  | .call _ _ f es => (match f with | .unit u => [u] | _ => []) ++ Exprs.calls es
  | .elem _ _ a i => a.calls ++ i.calls
  | .block _ ss e => Stms.calls ss ++ e.calls
  | .unitBlock _ ss => Stms.calls ss
  | .ite _ _ c a b => c.calls ++ a.calls ++ b.calls
  | .match _ _ e arms => e.calls ++ Arms.calls arms
/-- All of them. -/
def Exprs.calls : List Expr → List Nat
  | [] => []
  | e :: es => e.calls ++ Exprs.calls es
/-- All of them. -/
def Stms.calls : List Stm → List Nat
  | [] => []
  | .bind _ e :: ss | .expr e :: ss | .assert e :: ss => e.calls ++ Stms.calls ss
  | .decl :: ss => Stms.calls ss
/-- All of them. -/
def Arms.calls : List Arm → List Nat
  | [] => []
  | .plain _ e :: as => e.calls ++ Arms.calls as
  | .guarded _ g e :: as => g.calls ++ e.calls ++ Arms.calls as
end

/-- What the front end guarantees for a function: all names are different and have been given out
before `next` (C36), variables are used in their scope (C24), and no `match` is empty. -/
structure Fn.Resolved (f : Fn) (next : Nat) : Prop where
  distinct : (f.params.map (·.1) ++ f.body.names).Nodup
  given : ∀ n ∈ f.params.map (·.1) ++ f.body.names, n < next
  inScope : f.body.Scoped fun n => n ∈ f.params.map (·.1)
  armed : f.body.Armed

/-- No function calls itself, directly or through others. -/
def Prog.Acyclic (P : Prog) : Prop :=
  ∃ rank : Nat → Nat, ∀ u f, P u = some f → ∀ v ∈ f.body.calls, rank v < rank u

/-- A signal is declared with the type of the statement that drives it (`statement_declaration`,
spade-mir/src/codegen/mod.rs:54-190). -/
def Item.Typed (Γ : Nat → MTy) : Item → Prop
  | .stmt s => Γ (target s).1 = (target s).2
  | .nop n ty | .inst n ty _ _ => Γ n = ty
  | .assert _ => True

/-- The signals an item reads. -/
def Item.reads : Item → List Nat
  | .stmt (.const _ _ _) | .nop _ _ => []
  | .stmt (.bind _ _ _ ops) | .inst _ _ _ ops => ops
  | .assert n => [n]

/-- The signal an item drives. -/
def Item.defs : Item → List Nat
  | .stmt s => [(target s).1]
  | .nop n _ | .inst n _ _ _ => [n]
  | .assert _ => []

/-- The signals items drive. -/
def defsAll (is : List Item) : List Nat := is.flatMap Item.defs

/-- Every item reads signals in `S` and signals that earlier items drive. -/
def Seq (S : Nat → Prop) : List Item → Prop
  | [] => True
  | i :: is => (∀ n ∈ i.reads, S n) ∧ Seq (fun n => S n ∨ n ∈ i.defs) is

/-- The units an item instantiates. -/
def Item.insts : Item → List Nat
  | .inst _ _ u _ => [u]
  | .stmt _ | .nop _ _ | .assert _ => []

end Spade.Expr

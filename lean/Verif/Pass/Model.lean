import Verif.Pass.Spec
/-!
# Passes over typed units: model

Model of spade-hir-lowering/src/passes/pass.rs and of the passes flatten_regs.rs, disallow_zero_size.rs and
disallow_inout_bindings.rs.  Errors are `none`.  The type state is the function from ids to their
concrete types, which is `none` for types that are not fully known; concrete types are represented by MIR
types (`to_mir_type`), of which `inout` is the image of `inout<T>` only.
-/
namespace Spade.Pass
open Spade.Codegen (MTy)

/-- `Pass`: pass.rs:6-20.  Of the passes only `FlattenRegs` replaces statements, always by a number of plain
`reg;`, so that the model of `visit_statement` gives that number, or `none` to keep the statement.  The passes modelled
here do not change anything in themselves. -/
structure Pass where
  expr : Exp → Option Exp
  stm : Stm → Option (Option Nat)
  unit : Unit → Option _root_.Unit

mutual
/-- `Passable::apply` for expressions: pass.rs:28-218.  Statements are visited before anything inside of them is; as
nothing is inside of the statements that replace others, this happens here one statement after
the other (pass.rs:114-124 and 126-175). -/
def apply (P : Pass) : Exp → Option Exp
  | .leaf i => P.expr (.leaf i)
  | .one i k e => (apply P e).bind fun e' => P.expr (.one i k e')
  | .many i k es => (applys P es).bind fun es' => P.expr (.many i k es')
  | .index i a b => (apply P a).bind fun a' => (apply P b).bind fun b' => P.expr (.index i a' b')
  | .bin i op a b => (apply P a).bind fun a' => (apply P b).bind fun b' => P.expr (.bin i op a' b')
  | .un i op a => (apply P a).bind fun a' => P.expr (.un i op a')
  | .mtch i e arms => (apply P e).bind fun e' => (applyArms P arms).bind fun arms' =>
      P.expr (.mtch i e' arms')
  | .block i ss r => (applyStms P ss).bind fun ss' => (applyOpt P r).bind fun r' =>
      P.expr (.block i ss' r')
  | .ite i c a b => (apply P c).bind fun c' => (apply P a).bind fun a' => (apply P b).bind fun b' =>
      P.expr (.ite i c' a' b')
  | .genIf i a b => (apply P a).bind fun a' => (apply P b).bind fun b' => P.expr (.genIf i a' b')
/-- Where an expression may be missing. -/
def applyOpt (P : Pass) : Opt → Option Opt
  | .none => some .none
  | .some e => (apply P e).map .some
/-- `for i in inner { i.apply(pass)? }`. -/
def applys (P : Pass) : List Exp → Option (List Exp)
  | [] => some []
  | e :: es => (apply P e).bind fun e' => (applys P es).map (e' :: ·)
/-- The branches of a `match`: pass.rs:103-110. -/
def applyArms (P : Pass) : List Arm → Option (List Arm)
  | [] => some []
  | .mk p g e :: as => (applyOpt P g).bind fun g' => (apply P e).bind fun e' =>
      (applyArms P as).map (.mk p g' e' :: ·)
/-- The statements of a block: pass.rs:112-175. -/
def applyStms (P : Pass) : List Stm → Option (List Stm)
  | [] => some []
  | s :: ss => (P.stm s).bind fun
    | some n => (applyStms P ss).map (List.replicate n .stage ++ ·)
    | none => (applyStm P s).bind fun s' => (applyStms P ss).map (s' :: ·)
/-- Inside of a statement: pass.rs:127-174. -/
def applyStm (P : Pass) : Stm → Option Stm
  | .bind p e => (apply P e).map (.bind p)
  | .expr e => (apply P e).map .expr
  | .reg p c t r i v => (applyOpt P t).bind fun t' => (applyOpt P r).bind fun r' =>
      (applyOpt P i).bind fun i' => (apply P c).bind fun c' => (apply P v).map fun v' => .reg p c' t' r' i' v'
  | .stageIf c => (apply P c).map .stageIf
  | .assert e => (apply P e).map .assert
  | .set t v => (apply P t).bind fun t' => (apply P v).map fun v' => .set t' v'
  | .error => some .error
  | .decl => some .decl
  | .stage => some .stage
  | .stages c => some (.stages c)
  | .label x => some (.label x)
end

/-- `Passable::apply` for units: pass.rs:221-227. -/
def applyUnit (P : Pass) (u : Unit) : Option Unit :=
  (P.unit u).bind fun _ => (apply P u.body).map fun b => { u with body := b }

/-! ## `FlattenRegs` -/

/-- The count of `reg*N`: flatten_regs.rs:38-53.  `num` is the type with this id if it is an integer; the count
must be a `usize`. -/
def countOf (num : Nat → Option Int) (id : Nat) : Option Nat :=
  (num id).bind fun z => if 0 ≤ z ∧ z < 2 ^ 64 then some z.toNat else none

/-- `FlattenRegs`: flatten_regs.rs:19-74. -/
def flattenRegs (num : Nat → Option Int) : Pass where
  expr e := some e
  stm
    | .stages c => (countOf num c).map some
    | _ => some none
  unit _ := some ()

/-! ## `DisallowZeroSize` -/

/-- The check of an operand: disallow_zero_size.rs:45-56, 64, 87. -/
def full (ty : Nat → Option MTy) (e : Exp) : Bool :=
  match ty e.id with
  | none => false
  | some t => t.size != 0

/-- `visit_expression`: disallow_zero_size.rs:18-110. -/
def sizeOk (ty : Nat → Option MTy) : Exp → Bool
  | .leaf _ | .one _ _ _ | .many _ _ _ | .index _ _ _ | .block _ _ _ | .ite _ _ _ _ => true
  | .bin _ _ a b => full ty a && full ty b
  | .un _ op a =>
    match op with
    | .neg | .not | .bitNot => full ty a
    | .deref | .ref => true
  | .mtch _ _ arms =>
    match arms with
    | [] => true
    | .mk _ _ v :: _ => full ty v
  | .genIf _ _ _ => false

/-- `DisallowZeroSize`. -/
def zeroSize (ty : Nat → Option MTy) : Pass where
  expr e := if sizeOk ty e then some e else none
  stm _ := some none
  unit _ := some ()

/-! ## `InOutChecks` -/

/-- The type is `inout<T>` itself: disallow_inout_bindings.rs:25-28, 61-66, 104-107.  Types that are not known are let
through. -/
def inout (ty : Nat → Option MTy) (id : Nat) : Bool :=
  match ty id with
  | some (.inout _) => true
  | _ => false

/-- The check of one statement: disallow_inout_bindings.rs:91-128. -/
def stmOk (ty : Nat → Option MTy) : Stm → Bool
  | .bind p _ | .reg p _ _ _ _ _ => !inout ty p.id
  | _ => true

/-- `visit_expression`: disallow_inout_bindings.rs:82-134. -/
def inoutOk (ty : Nat → Option MTy) : Exp → Bool
  | .block _ ss _ => ss.all (stmOk ty)
  | _ => true

/-- `visit_unit`: disallow_inout_bindings.rs:16-80.  The zip of the parameters and the inputs is the list of
inputs. -/
def headOk (ty : Nat → Option MTy) (u : Unit) : Bool :=
  !inout ty u.body.id && u.inputs.all fun i => i.noMangle || !inout ty i.id

/-- `InOutChecks`. -/
def inoutChecks (ty : Nat → Option MTy) : Pass where
  expr e := if inoutOk ty e then some e else none
  stm _ := some none
  unit u := if headOk ty u then some () else none

end Spade.Pass

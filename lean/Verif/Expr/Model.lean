import Verif.Expr.Spec
/-!
# Lowering of expressions, statements and units

Models `Statement::lower`, `Expression::alias`, `variable`, `lower` and `handle_call`
(spade-hir-lowering/src/lib.rs:938-2560), the intrinsics they use (lib.rs:2640-3560) and
`generate_unit` (lib.rs:3660-3832) for functions.  Locations, diagnostics and the source map are
dropped.  `none` is an error or a panic.  `nid` is the next number the id tracker gives out; ids of
expressions and of pattern names have been given out before by the same tracker (C36).  Passes over
the statements are not part of this model (see C13 to C16).
-/
namespace Spade.Expr
open Spade.Codegen Spade.Lower

/-- `variable` (lib.rs:1110-1262) outside of pipelines: identifiers stand for themselves, a block
with a result for its result, and everything else has its own signal. -/
def Expr.variable : Expr → Nat
  | .var n _ => n
  | .block _ _ e => e.variable
  | .int id .. | .bool id _ | .bin id .. | .un id .. | .tuple id .. | .proj id .. | .field id ..
  | .cast id .. | .array id .. | .rep id .. | .elem id .. | .range id .. | .unitBlock id _
  | .ite id .. | .match id .. | .call id .. => id

/-- `val.to_u128()` of the divisor and `count_ones() == 1` (lib.rs:1453-1461,1484-1492). -/
def isPow2 (z : Int) : Bool :=
  decide (0 ≤ z) && decide (z < 2 ^ 128) && (binDigits z.toNat).count true == 1

/-- The check on divisors (lib.rs:1450-1518): only literal powers of two. -/
def divisorOk (op : SrcBin) (r : Expr) : Bool :=
  match op with
  | .div | .mod =>
    match r with
    | .int _ _ z => isPow2 z
    | _ => false
  | _ => true

/-- `unop_builder` (lib.rs:1524-1551). -/
def lowerUn : SrcUn → Op
  | .neg => .usub
  | .not => .not
  | .bitNot => .bitwiseNot
  | .deref => .alias
  | .ref => .constructCopyView

/-- The member a field access refers to (lib.rs:1587-1623): there must be exactly one. -/
def fieldIndex (fields : List String) (f : String) : Option Nat :=
  match (List.range fields.length).filter fun i => fields[i]? == some f with
  | [i] => some i
  | _ => none

/-- The operator of an intrinsic, given the types of its arguments and its result: the handlers
at lib.rs:2640-3560 and their checks.  `BlackBoxAlias` (lib.rs:2897) generates the same Verilog as
`Alias` (spade-mir/src/codegen/mod.rs:1022). -/
def lowerIntr (i : Intr) (ts : List MTy) (ty : MTy) : Option Op :=
  match i, ts with
  | .transmute, [t] =>
    if ty.size ≠ t.size ∨ ty.backSize ≠ t.backSize then none else some .alias
  | .cmp c, [t, _] => lowerCmp c t
  | .bitNot, [_] => some .bitwiseNot
  | .bitAnd, [_, _] => some .bitwiseAnd
  | .bitOr, [_, _] => some .bitwiseOr
  | .bitXor, [_, _] => some .bitwiseXor
  | .trunc, [t] => if ty.size > t.size then none else some .truncate
  | .sext, [t] => if ty.size < t.size then none else some .signExtend
  | .zext, [t] => if ty.size < t.size then none else some .zeroExtend
  | .concat, [t, u] => if ty.size ≠ t.size + u.size then none else some .concat
  | .reduceAnd, [_] => some .reduceAnd
  | .reduceOr, [_] => some .reduceOr
  | .reduceXor, [_] => some .reduceXor
  | .combDiv, [_, _] => dual .div .unsignedDiv ty
  | .combMod, [_, _] => dual .mod .unsignedMod ty
  | _, _ => none

/-- The operation a call turns into (`handle_call`, lib.rs:2283-2440), applied to its operands. -/
def lowerCall (id : Nat) (ty : MTy) (f : Callee) (ts : List MTy) (ops : List Nat) : Option Item :=
  match f with
  | .intr i => (lowerIntr i ts ty).map fun op => .stmt (.bind id ty op ops)
  | .variant i => some (.stmt (.bind id ty (.constructEnum i) ops))
  | .struct => some (.stmt (.bind id ty .constructTuple ops))
  | .unit u => some (.inst id ty u ops)

/-- The length of an array type (`assume_array`, lib.rs:1744). -/
def arrayLen : MTy → Option Nat
  | .array _ n => some n
  | _ => none

/-- The end of a range: the array's length when it is left out (lib.rs:1735-1748). -/
def rangeStop (t : MTy) : Option Nat → Option Nat
  | some n => some n
  | none => arrayLen t

mutual
/-- `lower` (lib.rs:1264-2194). -/
def lowerE : Expr → Nat → Option (List Item × Nat)
  | .var _ _, nid => some ([], nid)
  | .int id ty z, nid => some ([.stmt (.const id ty (.int z))], nid)
  | .bool id b, nid => some ([.stmt (.const id .bool (.bool b))], nid)
  | .bin id ty op l r, nid => do -- lib.rs:1398-1523
    let a ← lowerE l nid
    let b ← lowerE r a.2
    let o ← lowerBin op l.ty
    if divisorOk op r then
      some (a.1 ++ b.1 ++ [.stmt (.bind id ty o [l.variable, r.variable])], b.2)
    else none
  | .un id ty op e, nid => do -- lib.rs:1524-1551
    let a ← lowerE e nid
    some (a.1 ++ [.stmt (.bind id ty (lowerUn op) [e.variable])], a.2)
  | .tuple id ty es, nid => do -- lib.rs:1552-1571
    let a ← lowerEs es nid
    some (a.1 ++ [.stmt (.bind id ty .constructTuple (es.map Expr.variable))], a.2)
  | .proj id ty e k, nid => do -- lib.rs:1572-1586
    let a ← lowerE e nid
    some (a.1 ++ [.stmt (.bind id ty (.indexTuple k) [e.variable])], a.2)
  | .field id ty e fields f, nid => do -- lib.rs:1587-1639
    let a ← lowerE e nid
    let k ← fieldIndex fields f
    some (a.1 ++ [.stmt (.bind id ty (.indexTuple k) [e.variable])], a.2)
  | .cast id ty e, nid => do -- lib.rs:1640-1653
    let a ← lowerE e nid
    some (a.1 ++ [.stmt (.bind id ty .alias [e.variable])], a.2)
  | .array id ty es, nid => do -- lib.rs:1654-1672
    let a ← lowerEs es nid
    some (a.1 ++ [.stmt (.bind id ty .constructArray (es.map Expr.variable))], a.2)
  | .rep id ty e n, nid => do -- lib.rs:1673-1700
    let a ← lowerE e nid
    some (a.1 ++ [.stmt (.bind id ty .constructArray (List.replicate n e.variable))], a.2)
  | .elem id ty e i, nid => do -- lib.rs:1701-1716
    let a ← lowerE e nid
    let b ← lowerE i a.2
    some (a.1 ++ b.1 ++ [.stmt (.bind id ty .indexArray [e.variable, i.variable])], b.2)
  | .range id ty e start stop, nid => do -- lib.rs:1717-1761
    let a ← lowerE e nid
    let n ← rangeStop e.ty stop
    some (a.1 ++ [.stmt (.bind id ty (.rangeIndexArray (start.getD 0) n) [e.variable])], a.2)
  | .block _ ss e, nid => do -- lib.rs:1762-1783
    let a ← lowerStms ss nid
    let b ← lowerE e a.2
    some (a.1 ++ b.1, b.2)
  | .unitBlock id ss, nid => do -- lib.rs:1768-1778
    let a ← lowerStms ss nid
    some (a.1 ++ [.nop id (.tuple [])], a.2)
  | .ite id ty c x y, nid => do -- lib.rs:1784-1811
    let a ← lowerE c nid
    let b ← lowerE x a.2
    let d ← lowerE y b.2
    some (a.1 ++ b.1 ++ d.1 ++ [.stmt (.bind id ty .select [c.variable, x.variable, y.variable])],
      d.2)
  | .match id ty e arms, nid => do -- lib.rs:1888-1928; the check for missing arms is C01
    let a ← lowerE e nid
    let b ← lowerArms e.variable arms a.2
    some (a.1 ++ b.1 ++ [.stmt (.bind id ty .match b.2.1)], b.2.2)
  | .call id ty f args, nid => do -- lib.rs:1931-2080,2196-2440
    let a ← lowerEs args nid
    let i ← lowerCall id ty f (args.map Expr.ty) (args.map Expr.variable)
    some (a.1 ++ [i], a.2)
/-- Lowering of subexpressions in order. -/
def lowerEs : List Expr → Nat → Option (List Item × Nat)
  | [], nid => some ([], nid)
  | e :: es, nid => do
    let a ← lowerE e nid
    let b ← lowerEs es a.2
    some (a.1 ++ b.1, b.2)
/-- `Statement::lower` (lib.rs:938-1098) for the statements of a block.  The check that patterns of
`let` are irrefutable is C02. -/
def lowerStms : List Stm → Nat → Option (List Item × Nat)
  | [], nid => some ([], nid)
  | .bind p e :: ss, nid => do
    let a ← lowerE e nid
    let l ← lower p e.variable p.ty a.2
    let b ← lowerStms ss l.2
    some (a.1 ++ l.1.map .stmt ++ b.1, b.2)
  | .expr e :: ss, nid => do
    let a ← lowerE e nid
    let b ← lowerStms ss a.2
    some (a.1 ++ b.1, b.2)
  | .assert e :: ss, nid => do
    let a ← lowerE e nid
    let b ← lowerStms ss a.2
    some (a.1 ++ [.assert e.variable] ++ b.1, b.2)
  | .decl :: ss, nid => lowerStms ss nid
/-- The loop over the arms of a `match` (lib.rs:1891-1914): statements, the operands of the `Match`
operator, and the next id. -/
def lowerArms (operand : Nat) : List Arm → Nat → Option (List Item × List Nat × Nat)
  | [], nid => some ([], [], nid)
  | .plain p e :: as, nid => do
    let l ← lower p operand p.ty nid
    let c := condition p operand none l.2
    let b ← lowerE e c.2.2
    let r ← lowerArms operand as b.2
    some (l.1.map .stmt ++ c.1.map .stmt ++ b.1 ++ r.1, c.2.1 :: e.variable :: r.2.1, r.2.2)
  | .guarded p g e :: as, nid => do
    let l ← lower p operand p.ty nid
    let a ← lowerE g l.2
    let c := condition p operand (some g.variable) a.2
    let b ← lowerE e c.2.2
    let r ← lowerArms operand as b.2
    some (l.1.map .stmt ++ a.1 ++ c.1.map .stmt ++ b.1 ++ r.1, c.2.1 :: e.variable :: r.2.1, r.2.2)
end

/-- `generate_unit` (lib.rs:3660-3832) for a function. -/
def lowerFn (f : Fn) (nid : Nat) : Option HUnit := do
  let r ← lowerE f.body nid
  some { inputs := f.params, items := r.1, output := f.body.variable, types := f.types }

/-- Every unit of the program, each from some next id: units are lowered by several threads, which
take ids from a shared tracker. -/
def lowerProg (P : Prog) (nids : Nat → Nat) : Nat → Option HUnit := fun u =>
  (P u).bind fun f => lowerFn f (nids u)

end Spade.Expr

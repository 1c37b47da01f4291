import Verif.Codegen.Spec
/-!
# The compile time evaluator

Models spade-mir/src/eval.rs and the emission of constants (codegen/mod.rs:128-165).
Strings of `0`, `1` and `X` are lists of `Option Bool`, with `none` for `X`.  A result `none` is a
panic of the Rust code.
-/
namespace Spade.Codegen
open Spade.Verilog

/-- `Value` (eval.rs:13-30). -/
inductive Value where
  | bit (b : Bool)
  | int (size : Nat) (val : Int)
  | uint (size val : Nat)
  | concat (vs : List Value)
  | undef (size : Nat)

/-- `format!("{val:b}")` of a natural number: binary digits without leading zeros, `0` for 0. -/
def binDigits (n : Nat) : Bits :=
  if n < 2 then [decide (n = 1)] else binDigits (n / 2) ++ [decide (n % 2 = 1)]
termination_by n
decreasing_by omega

/-- Padding with zeros to `size` digits; `size - len` panics when negative (eval.rs:50-53,69-74). -/
def padZeros (size val : Nat) : Option Bits :=
  let s := binDigits val
  if size < s.length then none else some (List.replicate (size - s.length) false ++ s)

/-- `val & mask` with `mask = 2 ^ size - 1` on unbounded two's complement numbers
(eval.rs:60-65). -/
def maskBits (size : Nat) (val : Int) : Nat := (val % 2 ^ size).toNat

mutual
/-- `Value::as_string` (eval.rs:45-80). -/
def Value.asString : Value → Option (List (Option Bool))
  | .bit b => some [some b]
  | .int size val =>
    if 0 ≤ val then (padZeros size val.toNat).map (·.map some)
    else some ((binDigits (maskBits size val)).map some)
  | .uint size val => (padZeros size val).map (·.map some)
  | .concat vs => asStrings vs
  | .undef size => some (List.replicate size none)
/-- `inner.iter().map(as_string).join("")` (eval.rs:77). -/
def asStrings : List Value → Option (List (Option Bool))
  | [] => some []
  | v :: vs => do
    let a ← v.asString
    let b ← asStrings vs
    some (a ++ b)
end

mutual
/-- `Value::width` (eval.rs:82-90). -/
def Value.width : Value → Nat
  | .bit _ => 1
  | .int size _ => size
  | .uint size _ => size
  | .concat vs => valueWidths vs
  | .undef size => size
/-- Sum of the widths. -/
def valueWidths : List Value → Nat
  | [] => 0
  | v :: vs => v.width + valueWidths vs
end

/-- `to_u64().unwrap()`. -/
def toU64 (n : Nat) : Option Nat := if n < 2 ^ 64 then some n else none

mutual
/-- `Value::as_u64` (eval.rs:92-130), with overflow checks as in a debug build. -/
def Value.asU64 : Value → Option Nat
  | .bit b => some (if b then 1 else 0)
  | .int size val => if 0 ≤ val then toU64 val.toNat else toU64 (maskBits size val)
  | .uint _ val => toU64 val
  | .concat vs => concatU64 0 vs
  | .undef _ => some 0
/-- The loop of `as_u64` (eval.rs:122-126): shifting by 64 or more panics, bits shifted out are
lost, and an overflowing addition panics. -/
def concatU64 (current : Nat) : List Value → Option Nat
  | [] => some current
  | v :: vs => do
    let w ← toU64 v.width
    if w ≥ 64 then none
    else
      let x ← v.asU64
      let c ← toU64 (current * 2 ^ w % 2 ^ 64 + x)
      concatU64 c vs
end

/-- The loop of `as_u32_chunks` (eval.rs:157-163): the accumulator is unbounded, but the elements
are converted by `as_u64`. -/
def concatChunks (current : Nat) : List Value → Option Nat
  | [] => some current
  | v :: vs => do
    let w ← toU64 v.width
    let x ← v.asU64
    concatChunks (current * 2 ^ w + x) vs

/-- `Value::as_u32_chunks` (eval.rs:132-168). -/
def Value.asU32Chunks : Value → Option Nat
  | .bit b => some (if b then 1 else 0)
  | .int size val => if 0 ≤ val then some val.toNat else some (maskBits size val)
  | .uint _ val => some val
  | .concat vs => concatChunks 0 vs
  | .undef _ => some 0

/-- Constants (`ConstantValue`, spade-mir/src/lib.rs).  Strings, `'bz` and undefined constants are
not supported by the evaluator. -/
inductive Const where
  | int (z : Int)
  | bool (b : Bool)

/-- Statements the evaluator accepts (eval.rs:210-371). -/
inductive Stmt where
  | const (name : Nat) (ty : MTy) (c : Const)
  | bind (name : Nat) (ty : MTy) (op : Op) (ops : List Nat)

/-- The name a statement defines. -/
def Stmt.name : Stmt → Nat
  | .const n _ _ => n
  | .bind n _ _ _ => n

/-- `name_vals` of `eval_statements`. -/
abbrev VEnv := List (Nat × Value)
/-- `name_types` of `eval_statements`. -/
abbrev TEnv := List (Nat × MTy)

/-- Lookup in a map; the most recent insertion is first. -/
def look {α : Type} (m : List (Nat × α)) (n : Nat) : Option α := (m.find? (·.1 == n)).map (·.2)

/-- `assume_int` (eval.rs:32-37). -/
def Value.assumeInt : Value → Option Int
  | .int _ v => some v
  | _ => none
/-- `assume_uint` (eval.rs:38-43). -/
def Value.assumeUint : Value → Option Nat
  | .uint _ v => some v
  | _ => none

/-- All values of the operands (eval.rs:291-292,299-300,319-328). -/
def lookAll {α : Type} (m : List (Nat × α)) : List Nat → Option (List α)
  | [] => some []
  | n :: ns => do
    let v ← look m n
    let vs ← lookAll m ns
    some (v :: vs)

/-- The value of a binding (eval.rs:231-346).  Operators not listed are `todo!()`. -/
def evalOp (vals : VEnv) (types : TEnv) (ty : MTy) (op : Op) (ops : List Nat) : Option Value :=
  match op, ops with
  | .add, a :: b :: _ => do
    let x ← (← look vals a).assumeInt
    let y ← (← look vals b).assumeInt
    some (.int ty.size (x + y))
  | .unsignedAdd, a :: b :: _ => do
    let x ← (← look vals a).assumeUint
    let y ← (← look vals b).assumeUint
    some (.uint ty.size (x + y))
  | .sub, a :: b :: _ => do
    let x ← (← look vals a).assumeInt
    let y ← (← look vals b).assumeInt
    some (.int ty.size (x - y))
  | .unsignedSub, a :: b :: _ => do
    let x ← (← look vals a).assumeUint
    let y ← (← look vals b).assumeUint
    if x < y then none else some (.uint ty.size (x - y))
  | .usub, a :: _ => do
    let x ← (← look vals a).assumeInt
    some (.int ty.size (-x))
  | .constructArray, ops => do
    let vs ← lookAll vals ops.reverse
    some (.concat vs)
  | .constructTuple, ops => do
    let vs ← lookAll vals ops
    some (.concat vs)
  | .constructEnum variant, ops =>
    match ty with
    | .enum options => do
      let tag := tagSize options.length
      let head := if options.length ≤ 1 then [] else [Value.uint tag variant]
      let vs ← lookAll vals ops
      let ts ← lookAll types ops
      if ty.size < tag + sizes ts then none
      else
        let padding := ty.size - tag - sizes ts
        some (.concat (head ++ vs ++ if padding ≠ 0 then [.undef padding] else []))
    | _ => none
  | .alias, a :: _ => look vals a
  | _, _ => none

/-- The loop of `eval_statements` (eval.rs:217-368).  The type of a binding is inserted before the
binding is evaluated. -/
def evalStmts : List Stmt → VEnv → TEnv → Option Value → Option (VEnv × Option Value)
  | [], vals, _, last => some (vals, last)
  | .const n ty c :: rest, vals, types, _ =>
    let v := match c with
      | .int z => Value.int ty.size z
      | .bool b => .bit b
    evalStmts rest ((n, v) :: vals) ((n, ty) :: types) (some v)
  | .bind n ty op ops :: rest, vals, types, _ => do
    let v ← evalOp vals ((n, ty) :: types) ty op ops
    evalStmts rest ((n, v) :: vals) ((n, ty) :: types) (some v)

/-- `eval_statements` (eval.rs:208-371): the last value; panics on an empty list. -/
def evalStatements (ss : List Stmt) : Option Value := do
  let (_, last) ← evalStmts ss [] [] none
  last

/-! ## The hardware for the same statements -/

/-- The expression of a `localparam` (codegen/mod.rs:137-154). -/
def constExpr (ty : MTy) : Const → Option VExpr
  | .int z =>
    let size? := match ty with
      | .int n => some n
      | .uint n => some n
      | _ => none
    size?.map fun size =>
      let abs := if size ≥ 32 then VExpr.lit size z.natAbs else .dec z.natAbs
      if z < 0 then .un .neg abs else abs
  | .bool b => some (.dec (if b then 1 else 0))

/-- The bits a `localparam` of a type stands for (mod.rs:155-165). -/
def constBits (ty : MTy) (c : Const) (ρ : Env) (xs : Nat → Bool) : Option Bits :=
  match constExpr ty c with
  | none => none
  | some e => if ty.size = 0 then some [] else assigned ρ xs ty.size e

/-- Set the forward variable of a name. -/
def setVar (ρ : Env) (n : Nat) (b : Bits) : Env := fun x => if x = fwd n then b else ρ x

/-- The values of all forward variables, when statements are listed in an order in which names
are defined before use.  `Γ` gives the types of all names. -/
def hwRun (Γ : Nat → MTy) (xs : Nat → Nat → Bool) : List Stmt → Env → Option Env
  | [], ρ => some ρ
  | .const n ty c :: rest, ρ => do
    let b ← constBits ty c ρ (xs n)
    hwRun Γ xs rest (setVar ρ n b)
  | .bind n ty op ops :: rest, ρ => do
    let b ← runOp Γ ty op ops ρ (xs n)
    hwRun Γ xs rest (setVar ρ n b)

end Spade.Codegen

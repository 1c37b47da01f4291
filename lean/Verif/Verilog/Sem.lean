/-!
# A specification of the Verilog expressions the compiler emits

This file says what Verilog means; it does not model any code of the compiler.  It follows the
expression rules of IEEE 1800-2017, clauses 11.4–11.8: every expression has a self-determined
width and signedness, operands of arithmetic, bitwise and conditional operators are extended to
the width of their context before the operation, and comparison, shift-amount, concatenation and
select operands are self-determined.

Vectors are lists of bits, most significant bit first.  Undefined bits (`'bX`) are read from an
arbitrary stream `xs`: theorems that hold for every `xs` hold whatever the undefined bits are.
Expressions that Verilog does not allow (using an undeclared name, selecting from a scalar,
selecting out of range with constant bounds) have no value (`none`).  A variable of width 0 is
never declared by the compiler, so using it has no value; a variable of width 1 is a scalar.
-/
namespace Spade.Verilog

/-- A bit vector, most significant bit first. -/
abbrev Bits := List Bool

/-- Unsigned reading of a vector. -/
def toNat : Bits → Nat
  | [] => 0
  | b :: bs => (if b then 2 ^ bs.length else 0) + toNat bs

/-- The `w` low bits of a number. -/
def ofNat : Nat → Nat → Bits
  | 0, _ => []
  | w + 1, n => decide (n / 2 ^ w % 2 = 1) :: ofNat w n

/-- Two's complement reading of a vector. -/
def toInt : Bits → Int
  | [] => 0
  | b :: bs => (if b then -(2 ^ bs.length : Int) else 0) + toNat bs

/-- The `w` low bits of an integer in two's complement. -/
def ofInt (w : Nat) (z : Int) : Bits := ofNat w (z % (2 ^ w : Int)).toNat

/-- Extension (sign or zero) or truncation to `w` bits. -/
def resize (s : Bool) (w : Nat) (bs : Bits) : Bits :=
  if bs.length ≤ w then List.replicate (w - bs.length) (s && bs.headD false) ++ bs
  else bs.drop (bs.length - w)

/-- Integer value of a vector under a signedness. -/
def valOf (s : Bool) (bs : Bits) : Int := if s then toInt bs else (toNat bs : Int)

/-- Bits `hi` down to `lo` of a vector (bit 0 is the last element); `none` when out of range. -/
def slice (bs : Bits) (hi lo : Nat) : Option Bits :=
  if lo ≤ hi ∧ hi < bs.length then
    some ((bs.drop (bs.length - 1 - hi)).take (hi - lo + 1))
  else none

/-- Binary operators. -/
inductive BinOp where
  | add | sub | mul | div | mod
  | band | bor | bxor
  | eq | ne | gt | lt | ge | le
  | shl | shr | ashr
  | land | lor
  deriving DecidableEq

/-- Prefix operators. -/
inductive UnOp where
  | neg | bnot | lnot | rand | ror | rxor
  deriving DecidableEq

/-- The fragment of Verilog expressions used by the code generator. -/
inductive VExpr where
  /-- a declared net or variable -/
  | var (x : Nat)
  /-- `w'dn` or `w'bn` -/
  | lit (w n : Nat)
  /-- an unsized decimal literal: 32 bits, signed -/
  | dec (n : Nat)
  /-- `w'bX` -/
  | undef (w : Nat)
  /-- `x[i]` -/
  | bit (x : Nat) (i : VExpr)
  /-- `x[hi:lo]` -/
  | part (x hi lo : Nat)
  /-- `x[base +: w]` -/
  | plus (x : Nat) (base : VExpr) (w : Nat)
  /-- `x[base -: w]` -/
  | minus (x base w : Nat)
  /-- `{e, …}` -/
  | concat (es : List VExpr)
  /-- `{n{e}}` -/
  | repl (n : Nat) (e : VExpr)
  /-- `$signed(e)` -/
  | signed (e : VExpr)
  | un (op : UnOp) (e : VExpr)
  | bin (op : BinOp) (a b : VExpr)
  | cond (c a b : VExpr)

/-- Values of all declared variables. -/
abbrev Env := Nat → Bits

mutual
/-- Self-determined width (IEEE 1800-2017 table 11-21). -/
def VExpr.width (ρ : Env) : VExpr → Nat
  | .var x => (ρ x).length
  | .lit w _ => w
  | .dec _ => 32
  | .undef w => w
  | .bit _ _ => 1
  | .part _ hi lo => hi - lo + 1
  | .plus _ _ w => w
  | .minus _ _ w => w
  | .concat es => widths ρ es
  | .repl n e => n * e.width ρ
  | .signed e => e.width ρ
  | .un .neg e => e.width ρ
  | .un .bnot e => e.width ρ
  | .un _ _ => 1
  | .bin op a b => match op with
    | .add | .sub | .mul | .div | .mod | .band | .bor | .bxor => max (a.width ρ) (b.width ρ)
    | .shl | .shr | .ashr => a.width ρ
    | _ => 1
  | .cond _ a b => max (a.width ρ) (b.width ρ)
/-- Sum of widths. -/
def widths (ρ : Env) : List VExpr → Nat
  | [] => 0
  | e :: es => e.width ρ + widths ρ es
end

/-- Signedness (IEEE 1800-2017 11.8.1). -/
def VExpr.isSigned : VExpr → Bool
  | .dec _ => true
  | .signed _ => true
  | .un .neg e => e.isSigned
  | .un .bnot e => e.isSigned
  | .un _ _ => false
  | .bin op a b => match op with
    | .add | .sub | .mul | .div | .mod | .band | .bor | .bxor => a.isSigned && b.isSigned
    | .shl | .shr | .ashr => a.isSigned
    | _ => false
  | .cond _ a b => a.isSigned && b.isSigned
  | _ => false

/-- Truth value of a vector: some bit is set. -/
def truth (bs : Bits) : Bool := bs.any id

/-- One bit. -/
def ofBool (b : Bool) : Bits := [b]

/-- Arithmetic and bitwise operators on operands already extended to the common width `w`.
Division by zero gives undefined bits in Verilog; here it has no value. -/
def arith (op : BinOp) (s : Bool) (w : Nat) (a b : Bits) : Option Bits :=
  match op with
  | .add => some (ofInt w (valOf s a + valOf s b))
  | .sub => some (ofInt w (valOf s a - valOf s b))
  | .mul => some (ofInt w (valOf s a * valOf s b))
  | .div => if toNat b = 0 then none else some (ofInt w ((valOf s a).tdiv (valOf s b)))
  | .mod => if toNat b = 0 then none else some (ofInt w ((valOf s a).tmod (valOf s b)))
  | .band => some (List.zipWith (· && ·) a b)
  | .bor => some (List.zipWith (· || ·) a b)
  | .bxor => some (List.zipWith (· ^^ ·) a b)
  | _ => none

/-- Relational operators on operands extended to a common width. -/
def compare (op : BinOp) (s : Bool) (a b : Bits) : Option Bool :=
  match op with
  | .eq => some (decide (a = b))
  | .ne => some (decide (a ≠ b))
  | .gt => some (decide (valOf s a > valOf s b))
  | .lt => some (decide (valOf s a < valOf s b))
  | .ge => some (decide (valOf s a ≥ valOf s b))
  | .le => some (decide (valOf s a ≤ valOf s b))
  | _ => none

/-- Shifts of a `w`-bit operand; the amount is unsigned. -/
def shift (op : BinOp) (s : Bool) (w : Nat) (a : Bits) (n : Nat) : Option Bits :=
  match op with
  | .shl => some (ofNat w (toNat a * 2 ^ n))
  | .shr => some (ofNat w (toNat a / 2 ^ n))
  | .ashr => some (if s then ofInt w (toInt a / 2 ^ n) else ofNat w (toNat a / 2 ^ n))
  | _ => none

mutual
/-- Value of an expression in a context of width `w` and signedness `s`. -/
def VExpr.eval (ρ : Env) (xs : Nat → Bool) (w : Nat) (s : Bool) : VExpr → Option Bits
  | .var x => if (ρ x).length = 0 then none else some (resize s w (ρ x))
  | .lit w' n => some (resize s w (ofNat w' n))
  | .dec n => some (resize s w (ofNat 32 n))
  | .undef w' => some (resize s w ((List.range w').map xs))
  | .bit x i => do
    let i' ← i.eval ρ xs (i.width ρ) i.isSigned
    if (ρ x).length ≤ 1 then none
    else
      let b ← slice (ρ x) (toNat i') (toNat i')
      some (resize s w b)
  | .part x hi lo => do
    if (ρ x).length ≤ 1 then none
    else
      let b ← slice (ρ x) hi lo
      some (resize s w b)
  | .plus x base w' => do
    let i' ← base.eval ρ xs (base.width ρ) base.isSigned
    if (ρ x).length ≤ 1 then none
    else if w' = 0 then none
    else
      let b ← slice (ρ x) (toNat i' + w' - 1) (toNat i')
      some (resize s w b)
  | .minus x base w' => do
    if (ρ x).length ≤ 1 then none
    else if w' = 0 ∨ base + 1 < w' then none
    else
      let b ← slice (ρ x) base (base + 1 - w')
      some (resize s w b)
  | .concat es => do
    let bs ← evals ρ xs es
    if bs.isEmpty then none else some (resize s w bs)
  | .repl n e => do
    let b ← e.eval ρ xs (e.width ρ) e.isSigned
    if n = 0 then none else some (resize s w (List.replicate n b).flatten)
  | .signed e => do
    let b ← e.eval ρ xs (e.width ρ) e.isSigned
    some (resize s w b)
  | .un op e => match op with
    | .neg => do
      let b ← e.eval ρ xs w s
      some (ofInt w (- valOf s b))
    | .bnot => do
      let b ← e.eval ρ xs w s
      some (b.map (!·))
    | .lnot => do
      let b ← e.eval ρ xs (e.width ρ) e.isSigned
      some (resize s w (ofBool (!truth b)))
    | .rand => do
      let b ← e.eval ρ xs (e.width ρ) e.isSigned
      some (resize s w (ofBool (b.all id)))
    | .ror => do
      let b ← e.eval ρ xs (e.width ρ) e.isSigned
      some (resize s w (ofBool (b.any id)))
    | .rxor => do
      let b ← e.eval ρ xs (e.width ρ) e.isSigned
      some (resize s w (ofBool (b.foldl (· ^^ ·) false)))
  | .bin op a b => match op with
    | .add | .sub | .mul | .div | .mod | .band | .bor | .bxor => do
      let a' ← a.eval ρ xs w s
      let b' ← b.eval ρ xs w s
      arith op s w a' b'
    | .eq | .ne | .gt | .lt | .ge | .le => do
      let w' := max (a.width ρ) (b.width ρ)
      let s' := a.isSigned && b.isSigned
      let a' ← a.eval ρ xs w' s'
      let b' ← b.eval ρ xs w' s'
      let r ← compare op s' a' b'
      some (resize s w (ofBool r))
    | .shl | .shr | .ashr => do
      let a' ← a.eval ρ xs w s
      let b' ← b.eval ρ xs (b.width ρ) b.isSigned
      shift op s w a' (toNat b')
    | .land => do
      let a' ← a.eval ρ xs (a.width ρ) a.isSigned
      let b' ← b.eval ρ xs (b.width ρ) b.isSigned
      some (resize s w (ofBool (truth a' && truth b')))
    | .lor => do
      let a' ← a.eval ρ xs (a.width ρ) a.isSigned
      let b' ← b.eval ρ xs (b.width ρ) b.isSigned
      some (resize s w (ofBool (truth a' || truth b')))
  | .cond c a b => do
    let c' ← c.eval ρ xs (c.width ρ) c.isSigned
    let a' ← a.eval ρ xs w s
    let b' ← b.eval ρ xs w s
    some (if truth c' then a' else b')
/-- Self-determined values of the parts of a concatenation. -/
def evals (ρ : Env) (xs : Nat → Bool) : List VExpr → Option Bits
  | [] => some []
  | e :: es => do
    let b ← e.eval ρ xs (e.width ρ) e.isSigned
    let bs ← evals ρ xs es
    some (b ++ bs)
end

/-- Self-determined value. -/
def VExpr.value (ρ : Env) (xs : Nat → Bool) (e : VExpr) : Option Bits :=
  e.eval ρ xs (e.width ρ) e.isSigned

/-- The bits stored by `assign x = e;` when `x` is declared with width `lw`: the expression is
evaluated at the larger of both widths and then truncated (IEEE 1800-2017 10.7, 11.8.2). -/
def assigned (ρ : Env) (xs : Nat → Bool) (lw : Nat) (e : VExpr) : Option Bits := do
  let b ← e.eval ρ xs (max lw (e.width ρ)) e.isSigned
  some (b.drop (b.length - lw))

/-- One item of a `casez`: a pattern of `some b` (must equal) and `none` (`?`), and its result. -/
abbrev CaseItem := List (Option Bool) × VExpr

/-- Does a vector match a `casez` pattern of the same length? -/
def caseMatch : List (Option Bool) → Bits → Bool
  | [], [] => true
  | none :: ps, _ :: bs => caseMatch ps bs
  | some p :: ps, b :: bs => (p == b) && caseMatch ps bs
  | _, _ => false

/-- `casez (sel) p0: x = e0; … endcase`: the first matching item assigns `x`. -/
def caseValue (ρ : Env) (xs : Nat → Bool) (lw : Nat) (sel : VExpr) (items : List CaseItem) :
    Option Bits := do
  let b ← sel.value ρ xs
  match items.find? (fun it => caseMatch it.1 b) with
  | none => none
  | some it => assigned ρ xs lw it.2

end Spade.Verilog

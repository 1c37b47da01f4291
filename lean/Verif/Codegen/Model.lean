import Verif.Verilog.Sem
/-!
# MIR types and the expressions the code generator emits

Models spade-mir/src/types.rs, enum_util.rs and the expression part of codegen/mod.rs.
Strings of Verilog are modelled by the syntax trees of `Verif.Verilog.Sem`; a value name `n` owns
the Verilog variables `fwd n` and `back n`.  `none` is a panic of the Rust code (`assert!`,
`panic!`, out-of-range index, subtraction underflow of `BigUint`).
-/
namespace Spade.Codegen
open Spade.Verilog

/-- `Type` (spade-mir/src/types.rs:5-26).  Field names of structs are dropped. -/
inductive MTy where
  | int (n : Nat)
  | uint (n : Nat)
  | bool
  | tuple (ts : List MTy)
  | struct (ts : List MTy)
  | array (t : MTy) (n : Nat)
  | memory (t : MTy) (n : Nat)
  | enum (opts : List (List MTy))
  | backward (t : MTy)
  | copyView (t : MTy)
  | inout (t : MTy)

/-- Smallest power of two, starting at `p`, that is at least `n`. -/
def nextPow2From (n p : Nat) : Nat :=
  if h : 0 < p ∧ p < n then nextPow2From n (p * 2) else p
termination_by n - p

/-- `usize::next_power_of_two` of the Rust standard library; 1 for 0. -/
def nextPow2 (n : Nat) : Nat := nextPow2From n 1

/-- `enum_util::tag_size` (spade-mir/src/enum_util.rs:1-3): `next_power_of_two().ilog2()`. -/
def tagSize (n : Nat) : Nat := (nextPow2 n).log2

mutual
/-- `Type::size` (types.rs:42-66). -/
def MTy.size : MTy → Nat
  | .int n => n
  | .uint n => n
  | .bool => 1
  | .tuple ts => sizes ts
  | .struct ts => sizes ts
  | .array t n => t.size * n
  | .memory t n => t.size * n
  | .enum opts => tagSize opts.length + maxSize opts
  | .backward _ => 0
  | .copyView t => t.size
  | .inout t => t.size
/-- `iter().map(Type::size).sum()` (types.rs:47). -/
def sizes : List MTy → Nat
  | [] => 0
  | t :: ts => t.size + sizes ts
/-- `iter().map(..sum..).max().unwrap_or(0)` (types.rs:52-56). -/
def maxSize : List (List MTy) → Nat
  | [] => 0
  | o :: os => max (sizes o) (maxSize os)
end

mutual
/-- `Type::backward_size` (types.rs:68-99).  The warning for enums is not modelled; a memory with
a backward part is `unreachable!` in the code and given size 0 here. -/
def MTy.backSize : MTy → Nat
  | .backward t => t.size
  | .copyView _ => 0
  | .int _ => 0
  | .uint _ => 0
  | .bool => 0
  | .array t n => t.backSize * n
  | .enum _ => 0
  | .memory _ _ => 0
  | .tuple ts => backSizes ts
  | .struct ts => backSizes ts
  | .inout _ => 0
/-- `iter().map(Type::backward_size).sum()` (types.rs:92-97). -/
def backSizes : List MTy → Nat
  | [] => 0
  | t :: ts => t.backSize + backSizes ts
end

/-- `Type::strip_copy_view_layers` (types.rs:116-123). -/
def MTy.strip : MTy → MTy
  | .copyView t => t.strip
  | t => t

/-- Operators (spade-mir/src/lib.rs:184-330), the ones that produce expressions.  Instances,
registers, memories and port operators are modelled elsewhere. -/
inductive Op where
  | add | unsignedAdd | sub | unsignedSub | mul | unsignedMul
  | div | unsignedDiv | mod | unsignedMod
  | eq | notEq | gt | unsignedGt | lt | unsignedLt | ge | unsignedGe | le | unsignedLe
  | leftShift | rightShift | arithmeticRightShift
  | logicalAnd | logicalOr | logicalXor | logicalNot
  | bitwiseNot | bitwiseAnd | bitwiseOr | bitwiseXor
  | usub | not | reduceAnd | reduceOr | reduceXor
  | divPow2
  | truncate | concat | signExtend | zeroExtend
  | «match» | select
  | indexTuple (i : Nat)
  | constructArray | indexArray
  | rangeIndexArray (start stop : Nat)
  | rangeIndexBits (start stop : Nat)
  | constructTuple
  | constructEnum (variant : Nat)
  | isEnumVariant (variant : Nat)
  | enumMember (variant member : Nat)
  | constructCopyView
  | alias

/-- Verilog variable of the forward part, `var_name` (codegen/util.rs:26-32). -/
def fwd (n : Nat) : Nat := 2 * n
/-- Verilog variable of the backward part, `backward_var_name` (codegen/util.rs:34-47). -/
def back (n : Nat) : Nat := 2 * n + 1

/-- What is emitted for a binding: `assign x = e;`, a `casez` in an `always_comb`, or an `if` in
an `always_comb`. -/
inductive VCode where
  | assign (e : VExpr)
  | casez (sel : VExpr) (items : List CaseItem)
  | ifElse (c a b : VExpr)

/-- `TupleIndex` (codegen/util.rs:78-91). -/
inductive TupleIndex where
  | none
  | zeroWidth
  | single (i : Nat)
  | range (left right : Nat)

/-- `compute_tuple_index` (codegen/mod.rs:192-218).  `Nat` subtraction is exact here because the
member lies inside the tuple. -/
def computeTupleIndex (idx : Nat) (sizes : List Nat) : Option TupleIndex := do
  let width ← sizes[idx]?
  let start := (sizes.take idx).sum
  let stop := start + width
  let total := sizes.sum
  if width = 0 then some .zeroWidth
  else if total = 1 then some .none
  else if width = 1 then some (.single (total - start - 1))
  else some (.range (total - start - 1) (total - stop))

/-- `TupleIndex::verilog_code` applied to a variable (codegen/util.rs:93-102, mod.rs:457). -/
def TupleIndex.code (x : Nat) : TupleIndex → Option VExpr
  | .none => some (.var x)
  | .zeroWidth => Option.none
  | .single i => some (.bit x (.dec i))
  | .range l r => some (.part x l r)

/-- The element types a tuple index looks at (codegen/mod.rs:447-454). -/
def tupleTypes (t : MTy) : Option (List MTy) :=
  match t.strip with
  | .tuple ts => some ts
  | .struct ts => some ts
  | .array t n => some (List.replicate n t)
  | _ => none

/-- The `binop!` macro (codegen/mod.rs:230-246). -/
def binop (op : BinOp) : List Nat → Option VExpr
  | [a, b] => some (.bin op (.var (fwd a)) (.var (fwd b)))
  | _ => none

/-- The `signed_binop!` macro (codegen/mod.rs:248-267). -/
def signedBinop (op : BinOp) : List Nat → Option VExpr
  | [a, b] => some (.bin op (.signed (.var (fwd a))) (.signed (.var (fwd b))))
  | _ => none

/-- The `zst =>` part of the macros (codegen/mod.rs:239-243,260-264). -/
def onZero (Γ : Nat → MTy) (ops : List Nat) (z : Nat) (e : Option VExpr) : Option VExpr :=
  match ops with
  | a :: _ => if (Γ a).size = 0 then e.map fun _ => .lit 1 z else e
  | [] => e

/-- The `unop!` macro (codegen/mod.rs:269-277). -/
def unop (op : UnOp) : List Nat → Option VExpr
  | [a] => some (.un op (.var (fwd a)))
  | _ => none

/-- The loop building the `casez` items (codegen/mod.rs:413-426): item `i` out of `n` has `i`
zeros, a one, and `n - i - 1` question marks.  Operands are condition/result pairs. -/
def matchItems (n : Nat) (i : Nat) : List Nat → List CaseItem
  | _ :: r :: rest =>
    (List.replicate i (some false) ++ some true :: List.replicate (n - i - 1) none, .var (fwd r))
      :: matchItems n (i + 1) rest
  | _ => []

/-- The conditions of a match, in order (codegen/mod.rs:411-417). -/
def matchConds : List Nat → List Nat
  | c :: _ :: rest => c :: matchConds rest
  | _ => []

/-- `forward_expression_code` (codegen/mod.rs:220-754), for a binding of type `ty` whose operands
`ops` have the types `Γ`. -/
def fwdCode (Γ : Nat → MTy) (ty : MTy) (op : Op) (ops : List Nat) : Option VCode :=
  match op with
  | .add => (signedBinop .add ops).map .assign
  | .unsignedAdd => (binop .add ops).map .assign
  | .sub => (signedBinop .sub ops).map .assign
  | .unsignedSub => (binop .sub ops).map .assign
  | .mul => (signedBinop .mul ops).map .assign
  | .unsignedMul => (binop .mul ops).map .assign
  | .div => (signedBinop .div ops).map .assign
  | .unsignedDiv => (binop .div ops).map .assign
  | .mod => (signedBinop .mod ops).map .assign
  | .unsignedMod => (binop .mod ops).map .assign
  | .eq => (onZero Γ ops 1 (binop .eq ops)).map .assign
  | .notEq => (onZero Γ ops 0 (binop .ne ops)).map .assign
  | .gt => (onZero Γ ops 0 (signedBinop .gt ops)).map .assign
  | .unsignedGt => (onZero Γ ops 0 (binop .gt ops)).map .assign
  | .lt => (onZero Γ ops 0 (signedBinop .lt ops)).map .assign
  | .unsignedLt => (onZero Γ ops 0 (binop .lt ops)).map .assign
  | .ge => (onZero Γ ops 1 (signedBinop .ge ops)).map .assign
  | .unsignedGe => (onZero Γ ops 1 (binop .ge ops)).map .assign
  | .le => (onZero Γ ops 1 (signedBinop .le ops)).map .assign
  | .unsignedLe => (onZero Γ ops 1 (binop .le ops)).map .assign
  | .leftShift => (binop .shl ops).map .assign
  | .rightShift => (binop .shr ops).map .assign
  | .arithmeticRightShift => (signedBinop .ashr ops).map .assign
  | .logicalAnd => (binop .land ops).map .assign
  | .logicalOr => (binop .lor ops).map .assign
  | .logicalXor => (binop .bxor ops).map .assign
  | .logicalNot => (unop .lnot ops).map .assign
  | .bitwiseNot => (unop .bnot ops).map .assign
  | .bitwiseAnd => (binop .band ops).map .assign
  | .bitwiseOr => (binop .bor ops).map .assign
  | .bitwiseXor => (binop .bxor ops).map .assign
  | .usub => (unop .neg ops).map .assign
  | .not => (unop .lnot ops).map .assign
  | .reduceAnd => (unop .rand ops).map .assign
  | .reduceOr => (unop .ror ops).map .assign
  | .reduceXor => (unop .rxor ops).map .assign
  | .divPow2 => -- mod.rs:328-348
    match ops with
    | a :: b :: _ =>
      let dividend := VExpr.var (fwd a)
      let divisor := VExpr.var (fwd b)
      some (.ifElse (.bin .eq divisor (.dec 0)) dividend
        (.bin .ashr
          (.signed (.bin .add (.signed dividend)
            (.signed (.bin .shl (.dec 1) (.bin .sub divisor (.dec 1))))))
          (.signed divisor)))
    | _ => none
  | .truncate => -- mod.rs:349-355
    match ops with
    | a :: _ => if ty.size = 0 then none else some (.assign (.part (fwd a) (ty.size - 1) 0))
    | _ => none
  | .concat => -- mod.rs:356-364
    some (.assign (.concat ((ops.filter fun o => (Γ o).size != 0).map fun o => .var (fwd o))))
  | .signExtend => -- mod.rs:365-392
    match ops with
    | a :: _ =>
      let n := (Γ a).size
      if ty.size > n then
        let extra := ty.size - n
        if n = 0 then none
        else if extra = 1 then
          some (.assign (.concat [.bit (fwd a) (.dec (n - 1)), .var (fwd a)]))
        else
          some (.assign (.concat [.repl extra (.bit (fwd a) (.dec (n - 1))), .var (fwd a)]))
      else some (.assign (.var (fwd a)))
    | _ => none
  | .zeroExtend => -- mod.rs:393-402
    match ops with
    | a :: _ =>
      let n := (Γ a).size
      if ty.size > n then
        some (.assign (.concat [.lit (ty.size - n) 0, .var (fwd a)]))
      else some (.assign (.var (fwd a)))
    | _ => none
  | .match => -- mod.rs:403-438
    if ops.length % 2 ≠ 0 then none
    else
      let n := ops.length / 2
      some (.casez (.concat ((matchConds ops).map fun c => .var (fwd c)))
        (matchItems n 0 ops ++ [(List.replicate n none, .undef ty.size)]))
  | .select => -- mod.rs:439-445
    match ops with
    | [c, a, b] => some (.assign (.cond (.var (fwd c)) (.var (fwd a)) (.var (fwd b))))
    | _ => none
  | .indexTuple i => -- mod.rs:446-458
    match ops with
    | a :: _ => do
      let ts ← tupleTypes (Γ a)
      let idx ← computeTupleIndex i (ts.map MTy.size)
      let e ← idx.code (fwd a)
      some (.assign e)
    | _ => none
  | .constructArray => -- mod.rs:459-471
    some (.assign (.concat (ops.reverse.map fun o => .var (fwd o))))
  | .indexArray => -- mod.rs:472-490
    match ops with
    | a :: i :: _ => match Γ a with
      | .array _ length =>
        if length ≠ 1 then
          if ty.size = 1 then some (.assign (.bit (fwd a) (.var (fwd i))))
          else some (.assign (.plus (fwd a) (.bin .mul (.var (fwd i)) (.dec ty.size)) ty.size))
        else some (.assign (.var (fwd a)))
      | _ => none
    | _ => none
  | .rangeIndexArray start stop => -- mod.rs:491-511
    match ops with
    | a :: _ => match Γ a with
      | .array t length =>
        if stop < start then none
        else
          let num := stop - start
          if length = 1 then some (.assign (.var (fwd a)))
          else if t.size = 1 ∧ num = 1 then some (.assign (.bit (fwd a) (.dec start)))
          else if stop * t.size = 0 then none
          else some (.assign (.minus (fwd a) (stop * t.size - 1) (t.size * num)))
      | _ => none
    | _ => none
  | .rangeIndexBits start stop => -- mod.rs:515-524
    match ops with
    | a :: _ =>
      if stop < start then none
      else if stop - start = 1 then some (.assign (.bit (fwd a) (.dec start)))
      else some (.assign (.part (fwd a) stop start))
    | _ => none
  | .constructEnum variant => -- mod.rs:611-661
    match ty with
    | .enum options => do
      let members ← options[variant]?
      let tag := tagSize options.length
      let included := (members.zip ops).filterMap fun p =>
        if p.1.size ≠ 0 then some (VExpr.var (fwd p.2)) else none
      let memberSize := sizes members
      if ty.size < tag + memberSize then none
      else
        let padding := ty.size - tag - memberSize
        some (.assign (.concat ((if tag ≠ 0 then [.lit tag variant] else []) ++ included ++
          (if padding ≠ 0 then [.undef padding] else []))))
    | _ => none
  | .isEnumVariant variant => -- mod.rs:662-688
    match ops with
    | a :: _ =>
      let et := Γ a
      if et.size = 0 then some (.assign (.dec 1))
      else match et with
        | .enum options =>
          let tag := tagSize options.length
          let total := et.size
          if tag = 0 then some (.assign (.dec 1))
          else if total = 1 then some (.assign (.bin .eq (.var (fwd a)) (.lit 1 variant)))
          else if total - 1 = total - tag then
            some (.assign (.bin .eq (.bit (fwd a) (.dec (total - 1))) (.lit tag variant)))
          else
            some (.assign (.bin .eq (.part (fwd a) (total - 1) (total - tag)) (.lit tag variant)))
        | _ => none
    | _ => none
  | .enumMember variant member => -- mod.rs:689-714
    match ops with
    | a :: _ => match Γ a with
      | .enum options => do
        let members ← options[variant]?
        let mty ← members[member]?
        let tag := tagSize options.length
        let full := (Γ a).size
        let start := tag + sizes (members.take member)
        let stop := start + mty.size
        if full < start + 1 ∨ full < stop then none
        else
          let upper := full - start - 1
          let lower := full - stop
          if upper = lower ∧ tag = 0 then some (.assign (.var (fwd a)))
          else some (.assign (.part (fwd a) upper lower))
      | _ => none
    | _ => none
  | .constructTuple => -- mod.rs:728-736
    some (.assign (.concat ((ops.filter fun o => (Γ o).size != 0).map fun o => .var (fwd o))))
  | .constructCopyView => -- mod.rs:737-743
    match ops with
    | [a] => some (.assign (.var (fwd a)))
    | _ => none
  | .alias => -- statement_code, mod.rs:1022-1031
    match ops with
    | a :: _ => some (.assign (.var (fwd a)))
    | _ => none

/-! ## Source operators -/

/-- `BinaryOperator` (spade-hir/src/expression.rs).  Comparisons, equality and bitwise operators
are functions of `core::ops::intrinsics`, see `Cmp` below. -/
inductive SrcBin where
  | add | sub | mul | div | mod | shl | shr | ashr

/-- Result type of a binary operator: the constraints that
spade-typeinference/src/expression.rs:813-898 puts on operand and result types.  Operands of
`+`, `-`, `/`, `%` and shifts have the same type. -/
inductive BinTy : SrcBin → MTy → MTy → MTy → Prop
  | addInt {n} : BinTy .add (.int n) (.int n) (.int (n + 1))
  | addUint {n} : BinTy .add (.uint n) (.uint n) (.uint (n + 1))
  | subInt {n} : BinTy .sub (.int n) (.int n) (.int (n + 1))
  | subUint {n} : BinTy .sub (.uint n) (.uint n) (.uint (n + 1))
  | mulInt {n m} : BinTy .mul (.int n) (.int m) (.int (n + m))
  | mulUint {n m} : BinTy .mul (.uint n) (.uint m) (.uint (n + m))
  | divInt {n} : BinTy .div (.int n) (.int n) (.int n)
  | divUint {n} : BinTy .div (.uint n) (.uint n) (.uint n)
  | modInt {n} : BinTy .mod (.int n) (.int n) (.int n)
  | modUint {n} : BinTy .mod (.uint n) (.uint n) (.uint n)
  | shlInt {n} : BinTy .shl (.int n) (.int n) (.int n)
  | shlUint {n} : BinTy .shl (.uint n) (.uint n) (.uint n)
  | shrInt {n} : BinTy .shr (.int n) (.int n) (.int n)
  | shrUint {n} : BinTy .shr (.uint n) (.uint n) (.uint n)
  | ashrInt {n} : BinTy .ashr (.int n) (.int n) (.int n)
  | ashrUint {n} : BinTy .ashr (.uint n) (.uint n) (.uint n)

/-- `dual_binop_builder!` (spade-hir-lowering/src/lib.rs:1417-1443): signed or unsigned variant
by the type of the left operand. -/
def dual (sop uop : Op) : MTy → Option Op
  | .int _ => some sop
  | .uint _ => some uop
  | _ => none

/-- The operator chosen for a binary operator (lib.rs:1445-1518).  The check that divisors are
literal powers of two is not part of this function. -/
def lowerBin (op : SrcBin) (lhs : MTy) : Option Op :=
  match op with
  | .add => dual .add .unsignedAdd lhs
  | .sub => dual .sub .unsignedSub lhs
  | .mul => dual .mul .unsignedMul lhs
  | .shl => some .leftShift
  | .shr => some .rightShift
  | .ashr => some .arithmeticRightShift
  | .div => dual .div .unsignedDiv lhs
  | .mod => dual .mod .unsignedMod lhs

/-- The comparison intrinsics (lib.rs:2290-2299). -/
inductive Cmp where
  | lt | le | gt | ge | eq | ne

/-- `handle_comparison_op`, `handle_eqne` (lib.rs:2917-2965,3056-3173). -/
def lowerCmp (op : Cmp) (arg : MTy) : Option Op :=
  match op with
  | .lt => dual .lt .unsignedLt arg
  | .le => dual .le .unsignedLe arg
  | .gt => dual .gt .unsignedGt arg
  | .ge => dual .ge .unsignedGe arg
  | .eq => some .eq
  | .ne => some .notEq

/-- The value a binding's forward variable takes: nothing is emitted for types of size 0
(codegen/mod.rs:940-948); otherwise the emitted statement drives a variable of the declared width
(`statement_declaration`, mod.rs:60-83). -/
def runOp (Γ : Nat → MTy) (ty : MTy) (op : Op) (ops : List Nat) (ρ : Env) (xs : Nat → Bool) :
    Option Bits :=
  if ty.size = 0 then some []
  else match fwdCode Γ ty op ops with
    | none => none
    | some (.assign e) => assigned ρ xs ty.size e
    | some (.casez sel items) => caseValue ρ xs ty.size sel items
    | some (.ifElse c a b) => do
      let c' ← c.value ρ xs
      if truth c' then assigned ρ xs ty.size a else assigned ρ xs ty.size b

/-- `backward_expression_code` (codegen/mod.rs:756-921): the expression that the backward part of
the binding is assigned *to*.  `alias` is the target of the `Alias` case of `statement_code`
(mod.rs:1022-1031). -/
def backCode (Γ : Nat → MTy) (ty : MTy) (op : Op) (ops : List Nat) : Option VExpr :=
  match op with
  | .constructArray => -- mod.rs:821-833
    some (.concat (ops.reverse.map fun o => .var (back o)))
  | .indexArray => -- mod.rs:834-852
    match ops with
    | a :: i :: _ => match Γ a with
      | .array _ length =>
        if length ≠ 1 then
          if ty.backSize = 1 then some (.bit (back a) (.var (fwd i)))
          else some (.plus (back a) (.bin .mul (.var (fwd i)) (.dec ty.backSize)) ty.backSize)
        else some (.var (back a))
      | _ => none
    | _ => none
  | .rangeIndexArray start stop => -- mod.rs:853-873
    match ops with
    | a :: _ => match Γ a with
      | .array t length =>
        if stop < start then none
        else
          let elems := stop - start
          if length = 1 then some (.var (back a))
          else if t.size = 1 ∧ elems = 1 then some (.bit (back a) (.dec start))
          else some (.plus (back a) (.bin .mul (.dec start) (.dec t.size)) (t.size * elems))
      | _ => none
    | _ => none
  | .constructTuple => -- mod.rs:874-880
    some (.concat ((ops.filter fun o => (Γ o).backSize != 0).map fun o => .var (back o)))
  | .indexTuple i => -- mod.rs:881-900
    match ops with
    | a :: _ => do
      let ts ← tupleTypes (Γ a)
      let idx ← computeTupleIndex i (ts.map MTy.backSize)
      idx.code (back a)
    | _ => none
  | .alias =>
    match ops with
    | a :: _ => some (.var (back a))
    | _ => none
  | _ => none

/-- The statement `assign lhs = rhs;` constrains the values of the nets: the bits of `lhs` are
the bits of `rhs` (extended or truncated to the width of `lhs`). -/
def Drives (ρ : Env) (xs : Nat → Bool) (lhs rhs : VExpr) : Prop :=
  ∃ bits, lhs.value ρ xs = some bits ∧ assigned ρ xs bits.length rhs = some bits

/-- The backward statement emitted for the binding of `n`, as a constraint on the nets
(codegen/mod.rs:949-957,1103-1107).  Nothing is emitted when there is no backward part. -/
def BackHolds (Γ : Nat → MTy) (ρ : Env) (xs : Nat → Bool) (n : Nat) (op : Op) (ops : List Nat) :
    Prop :=
  (Γ n).backSize ≠ 0 →
    ∃ e, backCode Γ (Γ n) op ops = some e ∧ Drives ρ xs e (.var (back n))

end Spade.Codegen

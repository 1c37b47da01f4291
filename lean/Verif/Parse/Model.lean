import Verif.Parse.Spec

/-!
# The expression parser (C31): model

Model of `/repo/spade-parser/src/expression.rs:16-250`. Operands (`base_expression`, which also eats
index, field and method suffixes) are single tokens. A parse error is `.error`; recursion stops with
`none` when `fuel` is used up, which never happens with as much fuel as there are tokens.
-/

namespace Spade.Parse

open Spec (BinOp UnOp Tok Leaf Tree)

/-- Models `OpBindingPower` with its derived order, `expression.rs:16-33`. -/
inductive Power where
  | none | logicalOr | logicalAnd | logicalXor | equality | relationalCmp | bitwiseOr | bitwiseXor
  | bitwiseAnd | shift | addLike | mulLike | prefixUnary
  deriving DecidableEq, Repr

/-- Models the derived `Ord`: the position in the declaration. -/
def Power.idx : Power → Nat
  | .none => 0
  | .logicalOr => 1
  | .logicalAnd => 2
  | .logicalXor => 3
  | .equality => 4
  | .relationalCmp => 5
  | .bitwiseOr => 6
  | .bitwiseXor => 7
  | .bitwiseAnd => 8
  | .shift => 9
  | .addLike => 10
  | .mulLike => 11
  | .prefixUnary => 12

/-- Models `binop_binding_power`, `expression.rs:35-63`. -/
def binopPower : BinOp → Power
  | .add => .addLike
  | .sub => .addLike
  | .mul => .mulLike
  | .div => .mulLike
  | .mod => .mulLike
  | .eq => .equality
  | .neq => .equality
  | .lt => .relationalCmp
  | .gt => .relationalCmp
  | .le => .relationalCmp
  | .ge => .relationalCmp
  | .logicalAnd => .logicalAnd
  | .logicalOr => .logicalOr
  | .logicalXor => .logicalXor
  | .leftShift => .shift
  | .rightShift => .shift
  | .arithmeticRightShift => .shift
  | .bitwiseAnd => .bitwiseAnd
  | .bitwiseOr => .bitwiseOr
  | .bitwiseXor => .bitwiseXor
  | .wrappingAdd => .addLike
  | .wrappingSub => .addLike
  | .wrappingMul => .mulLike
  | .wrappingLeftShift => .shift
  | .wrappingRightShift => .shift

/-- Models `unop_binding_power`, `expression.rs:65-74`. -/
def unopPower : UnOp → Power
  | .sub => .prefixUnary
  | .not => .prefixUnary
  | .bitwiseNot => .prefixUnary
  | .wrappingSub => .prefixUnary
  | .dereference => .prefixUnary
  | .reference => .prefixUnary

/-- Models `binop_from_kind`, `expression.rs:77-109`. -/
def binopFromKind : Tok → Option BinOp
  | .plus => some .add
  | .minus => some .sub
  | .asterisk => some .mul
  | .slash => some .div
  | .percentage => some .mod
  | .equals => some .eq
  | .notEquals => some .neq
  | .lt => some .lt
  | .gt => some .gt
  | .le => some .le
  | .ge => some .ge
  | .rightShift => some .rightShift
  | .arithmeticRightShift => some .arithmeticRightShift
  | .leftShift => some .leftShift
  | .plusDot => some .wrappingAdd
  | .minusDot => some .wrappingSub
  | .asteriskDot => some .wrappingMul
  | .rightShiftDot => some .wrappingRightShift
  | .leftShiftDot => some .wrappingLeftShift
  | .doublePipe => some .logicalOr
  | .logicalAnd => some .logicalAnd
  | .logicalXor => some .logicalXor
  | .ampersand => some .bitwiseAnd
  | .pipe => some .bitwiseOr
  | .bitwiseXor => some .bitwiseXor
  | _ => none

/-- Models `unop_from_kind`, `expression.rs:111-121`. -/
def unopFromKind : Tok → Option UnOp
  | .minus => some .sub
  | .minusDot => some .wrappingSub
  | .not => some .not
  | .tilde => some .bitwiseNot
  | .ampersand => some .reference
  | .asterisk => some .dereference
  | _ => none

/-- A parse result: a tree and the remaining tokens, or an error. -/
inductive Res where
  | ok (e : Tree) (rest : List Tok)
  | error
  deriving DecidableEq, Repr

/-- Models `base_expression`, `expression.rs:252-352`, for operands that are single tokens. -/
def baseExpression : List Tok → Res
  | .operand n :: rest => .ok (.leaf (.operand n)) rest
  | .literal i :: rest => .ok (.leaf (.literal i)) rest
  | .literalSigned i s :: rest => .ok (.leaf (.literalSigned i s)) rest
  | .literalUnsigned i s :: rest => .ok (.leaf (.literalUnsigned i s)) rest
  | _ => .error

/-- Models `inline_negative_literal`, `expression.rs:169-212`. -/
def inlineNegativeLiteral (op : UnOp) (rhs : Tree) : Option Tree :=
  match op, rhs with
  | .sub, .leaf (.literal val) => some (.leaf (.literal (-val)))
  | .sub, .leaf (.literalSigned val size) => some (.leaf (.literalSigned (-val) size))
  | .sub, .leaf (.literalUnsigned _ _) => none
  | op, rhs => some (.un op rhs)

/-- What follows after a sub-parse: continue on success, otherwise pass the failure on. -/
def Res.andThen (r : Option Res) (k : Tree → List Tok → Option Res) : Option Res :=
  match r with
  | none => none
  | some .error => some .error
  | some (.ok e rest) => k e rest

mutual
/-- Models `expr_bp`, `expression.rs:216-250`: the part before the loop. The treatment of a prefix
operator and its operand (`inline_negative_literal`) is a parameter. -/
def exprBp (neg : UnOp → Tree → Option Tree) : Nat → Power → List Tok → Option Res
  | 0, _, _ => none
  | fuel + 1, minPower, toks =>
    match toks with
    | [] => some .error
    | t :: ts =>
      match unopFromKind t with
      | some op =>
        Res.andThen (exprBp neg fuel (unopPower op) ts) (fun rhs rest =>
          match neg op rhs with
          | none => some .error
          | some lhs => exprLoop neg fuel minPower lhs rest)
      | none =>
        match baseExpression (t :: ts) with
        | .error => some .error
        | .ok lhs rest => exprLoop neg fuel minPower lhs rest
/-- Models the `while` loop of `expr_bp`, `expression.rs:229-247`. -/
def exprLoop (neg : UnOp → Tree → Option Tree) : Nat → Power → Tree → List Tok → Option Res
  | 0, _, _, _ => none
  | fuel + 1, minPower, lhs, toks =>
    match toks with
    | [] => some (.ok lhs [])
    | t :: ts =>
      match binopFromKind t with
      | none => some (.ok lhs (t :: ts))
      | some op =>
        if (binopPower op).idx ≤ minPower.idx then some (.ok lhs (t :: ts))
        else
          Res.andThen (exprBp neg fuel (binopPower op) ts) (fun rhs rest =>
            exprLoop neg fuel minPower (.bin op lhs rhs) rest)
end

/-- Models `custom_infix_operator` (`expression`), `expression.rs:133-166`. -/
def expression (neg : UnOp → Tree → Option Tree) : Nat → List Tok → Option Res
  | 0, _ => none
  | fuel + 1, toks =>
    Res.andThen (exprBp neg fuel .none toks) (fun lhs rest =>
      match rest with
      | .infixFn f :: rest' =>
        Res.andThen (expression neg fuel rest') (fun rhs rest'' => some (.ok (.call f lhs rhs) rest''))
      | _ => some (.ok lhs rest))

/-- Parsing with enough fuel for the tokens at hand. -/
def parse (toks : List Tok) : Option Res := expression inlineNegativeLiteral (toks.length + 2) toks

end Spade.Parse

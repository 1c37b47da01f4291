/-!
# Specification of expression syntax (C31)

The tree of an expression is determined by a table of precedence levels. Prefix operators bind
tighter than binary operators, binary operators of one level associate to the left, and a named
infix operator (`` a `f` b ``) binds loosest and associates to the right.
-/

namespace Spade.Parse.Spec

/-- Binary operators. -/
inductive BinOp where
  | add | sub | mul | div | mod | eq | neq | lt | gt | le | ge | logicalAnd | logicalOr | logicalXor
  | leftShift | rightShift | arithmeticRightShift | bitwiseAnd | bitwiseOr | bitwiseXor
  | wrappingAdd | wrappingSub | wrappingMul | wrappingLeftShift | wrappingRightShift
  deriving DecidableEq, Repr

/-- Prefix operators. -/
inductive UnOp where
  | sub | not | bitwiseNot | wrappingSub | dereference | reference
  deriving DecidableEq, Repr

/-- Tokens, as far as operators are concerned. An operand (with everything attached to it: indices,
field accesses, method calls, parentheses) is one token here; `infixFn n` is a named infix
operator between backticks; `other` is any token that cannot continue an expression. -/
inductive Tok where
  | plus | minus | asterisk | slash | percentage | equals | notEquals | lt | gt | le | ge
  | rightShift | arithmeticRightShift | leftShift | plusDot | minusDot | asteriskDot
  | rightShiftDot | leftShiftDot | doublePipe | logicalAnd | logicalXor | ampersand | pipe
  | bitwiseXor | not | tilde
  | operand (n : Nat)
  | literal (i : Int)
  | literalSigned (i : Int) (size : Nat)
  | literalUnsigned (i : Int) (size : Nat)
  | infixFn (n : Nat)
  | other (n : Nat)
  deriving DecidableEq, Repr

/-- How binary operators are written. -/
def BinOp.tok : BinOp → Tok
  | .add => .plus
  | .sub => .minus
  | .mul => .asterisk
  | .div => .slash
  | .mod => .percentage
  | .eq => .equals
  | .neq => .notEquals
  | .lt => .lt
  | .gt => .gt
  | .le => .le
  | .ge => .ge
  | .logicalAnd => .logicalAnd
  | .logicalOr => .doublePipe
  | .logicalXor => .logicalXor
  | .leftShift => .leftShift
  | .rightShift => .rightShift
  | .arithmeticRightShift => .arithmeticRightShift
  | .bitwiseAnd => .ampersand
  | .bitwiseOr => .pipe
  | .bitwiseXor => .bitwiseXor
  | .wrappingAdd => .plusDot
  | .wrappingSub => .minusDot
  | .wrappingMul => .asteriskDot
  | .wrappingLeftShift => .leftShiftDot
  | .wrappingRightShift => .rightShiftDot

/-- How prefix operators are written. -/
def UnOp.tok : UnOp → Tok
  | .sub => .minus
  | .not => .not
  | .bitwiseNot => .tilde
  | .wrappingSub => .minusDot
  | .dereference => .asterisk
  | .reference => .ampersand

/-- The levels of precedence of binary operators, loosest first. -/
def levels : List (List BinOp) :=
  [[.logicalOr], [.logicalAnd], [.logicalXor], [.eq, .neq], [.lt, .gt, .le, .ge], [.bitwiseOr],
   [.bitwiseXor], [.bitwiseAnd],
   [.leftShift, .rightShift, .arithmeticRightShift, .wrappingLeftShift, .wrappingRightShift],
   [.add, .sub, .wrappingAdd, .wrappingSub], [.mul, .div, .mod, .wrappingMul]]

/-- The level of a binary operator, 1 for the loosest. -/
def BinOp.level (op : BinOp) : Nat := levels.findIdx (fun l => l.contains op) + 1

/-- Operands that are not made of operators. -/
inductive Leaf where
  | operand (n : Nat)
  | literal (i : Int)
  | literalSigned (i : Int) (size : Nat)
  | literalUnsigned (i : Int) (size : Nat)
  deriving DecidableEq, Repr

def Leaf.tok : Leaf → Tok
  | .operand n => .operand n
  | .literal i => .literal i
  | .literalSigned i s => .literalSigned i s
  | .literalUnsigned i s => .literalUnsigned i s

/-- Expression trees. -/
inductive Tree where
  | leaf (l : Leaf)
  | un (op : UnOp) (e : Tree)
  | bin (op : BinOp) (l r : Tree)
  | call (f : Nat) (l r : Tree)
  deriving DecidableEq, Repr

/-- The tokens of a tree, from left to right. -/
def Tree.toks : Tree → List Tok
  | .leaf l => [l.tok]
  | .un op e => op.tok :: e.toks
  | .bin op l r => l.toks ++ op.tok :: r.toks
  | .call f l r => l.toks ++ .infixFn f :: r.toks

/-- How tightly the outermost operator of a tree binds: 0 for a named infix operator, 1 to 11 for
binary operators, more for everything else. -/
def Tree.level : Tree → Nat
  | .leaf _ => 13
  | .un _ _ => 13
  | .bin op _ _ => op.level
  | .call _ _ _ => 0

/-- A tree that can be written down as it is without parentheses: the operand of a prefix operator
contains no other operators outside of it than prefix operators; the left operand of a binary
operator binds at least as tightly, the right one tighter; the left operand of a named infix
operator is not itself one. -/
def Tree.Ok : Tree → Prop
  | .leaf _ => True
  | .un _ e => e.Ok ∧ 12 < e.level
  | .bin op l r => l.Ok ∧ r.Ok ∧ op.level ≤ l.level ∧ op.level < r.level
  | .call _ l r => l.Ok ∧ r.Ok ∧ 0 < l.level

/-- A minus sign in front of an integer literal is part of the literal; it is an error in front of
an unsigned literal. Everything else is as written. -/
def Tree.negate : UnOp → Tree → Option Tree
  | .sub, .leaf (.literal i) => some (.leaf (.literal (-i)))
  | .sub, .leaf (.literalSigned i s) => some (.leaf (.literalSigned (-i) s))
  | .sub, .leaf (.literalUnsigned _ _) => none
  | op, e => some (.un op e)

/-- The tree with minus signs merged into literals. -/
def Tree.merged : Tree → Option Tree
  | .leaf l => some (.leaf l)
  | .un op e => e.merged.bind (Tree.negate op)
  | .bin op l r => l.merged.bind (fun l => r.merged.map (fun r => .bin op l r))
  | .call f l r => l.merged.bind (fun l => r.merged.map (fun r => .call f l r))

/-- The next token does not continue an expression. -/
def Ends : List Tok → Prop
  | [] => True
  | t :: _ => (∀ op : BinOp, t ≠ op.tok) ∧ ∀ f, t ≠ .infixFn f

end Spade.Parse.Spec

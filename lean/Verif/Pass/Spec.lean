import Verif.Codegen.Model
/-!
# Passes over typed units: syntax and what is promised

The tree of a unit after type inference, what is inside of what, in which stage of a pipeline a
statement is, and which names stand for which type.  Nothing here refers to the passes.
-/
namespace Spade.Pass
open Spade.Codegen (MTy)

/-! ## Syntax -/

/-- Expressions with one operand, apart from operators: `[e; N]`, `a[1..2]`, `a#0`, `a.f`, `a as T`, and
anonymous functions, whose operand is the body. -/
inductive One where
  | rep | range | proj | field | cast | lambda
  deriving DecidableEq, Repr

/-- Expressions with a list of operands; in a method call the target comes first. -/
inductive Many where
  | tuple | array | call (f : Nat) | assoc (name : Nat) | method (name : Nat)
  deriving DecidableEq, Repr

/-- `BinaryOperator` (spade-hir/src/expression.rs:19-29). -/
inductive BinOp where
  | add | sub | mul | div | mod | shl | shr | ashr
  deriving DecidableEq, Repr

/-- `UnaryOperator` (spade-hir/src/expression.rs:46-53). -/
inductive UnOp where
  | neg | not | bitNot | deref | ref
  deriving DecidableEq, Repr

/-- Patterns: names, patterns without names in them, and patterns made of others. -/
inductive Pat where
  | name (id x : Nat)
  | other (id : Nat)
  | node (id : Nat) (ps : List Pat)

/-- The id of a pattern. -/
def Pat.id : Pat → Nat
  | .name i _ | .other i | .node i _ => i

/-- `x` with the id `i` is a name in the pattern. -/
inductive Pat.Has : Pat → Nat → Nat → Prop
  | name {i x} : Pat.Has (.name i x) i x
  | node {id ps p i x} : p ∈ ps → Pat.Has p i x → Pat.Has (.node id ps) i x

mutual
/-- `hir::ExprKind` (spade-hir/src/expression.rs).  Names, literals, references to stages, `stage.valid`
and so on, which have nothing inside, are `leaf`. -/
inductive Exp where
  | leaf (id : Nat)
  | one (id : Nat) (k : One) (e : Exp)
  | many (id : Nat) (k : Many) (es : List Exp)
  | index (id : Nat) (a i : Exp)
  | bin (id : Nat) (op : BinOp) (a b : Exp)
  | un (id : Nat) (op : UnOp) (a : Exp)
  | mtch (id : Nat) (e : Exp) (arms : List Arm)
  | block (id : Nat) (ss : List Stm) (r : Opt)
  | ite (id : Nat) (c a b : Exp)
  | genIf (id : Nat) (a b : Exp)
/-- An expression that may be missing. -/
inductive Opt where
  | none
  | some (e : Exp)
/-- An arm of a `match`: its pattern, the condition after `if`, and its value. -/
inductive Arm where
  | mk (p : Pat) (guard : Opt) (e : Exp)
/-- `hir::Statement` (spade-hir/src/lib.rs:206-219).  `reg;` is `stage`, `reg[c];` is `stageIf`,
`reg*N;` is `stages` with the id of the type of `N`. The trigger and the value of a reset are given one by
one. -/
inductive Stm where
  | error
  | bind (p : Pat) (e : Exp)
  | expr (e : Exp)
  | reg (p : Pat) (clock : Exp) (trigger reset initial : Opt) (value : Exp)
  | decl
  | stage
  | stageIf (c : Exp)
  | stages (count : Nat)
  | label (x : Nat)
  | assert (e : Exp)
  | set (target value : Exp)
end

/-- The id of an expression. -/
def Exp.id : Exp → Nat
  | .leaf i | .one i _ _ | .many i _ _ | .index i _ _ | .bin i _ _ _ | .un i _ _ | .mtch i _ _
  | .block i _ _ | .ite i _ _ _ | .genIf i _ _ => i

/-- An input of a unit: its name, the id of its type, and whether it is marked `#[no_mangle]`. -/
structure Input where
  name : Nat
  id : Nat
  noMangle : Bool

/-- A unit. -/
structure Unit where
  inputs : List Input
  body : Exp

/-! ## What is inside of what -/

/-- `s.Has e`: `e` is one of the expressions of the statement. -/
inductive Stm.Has : Stm → Exp → Prop
  | bind {p e} : Stm.Has (.bind p e) e
  | expr {e} : Stm.Has (.expr e) e
  | clock {p c t r i v} : Stm.Has (.reg p c t r i v) c
  | trigger {p c e r i v} : Stm.Has (.reg p c (.some e) r i v) e
  | reset {p c t e i v} : Stm.Has (.reg p c t (.some e) i v) e
  | initial {p c t r e v} : Stm.Has (.reg p c t r (.some e) v) e
  | value {p c t r i v} : Stm.Has (.reg p c t r i v) v
  | stageIf {c} : Stm.Has (.stageIf c) c
  | assert {e} : Stm.Has (.assert e) e
  | target {t v} : Stm.Has (.set t v) t
  | setValue {t v} : Stm.Has (.set t v) v

/-- `e.Has x`: the expression `x` is `e` or somewhere inside of `e`. -/
inductive Exp.Has : Exp → Exp → Prop
  | self {e} : Exp.Has e e
  | one {id k e x} : Exp.Has e x → Exp.Has (.one id k e) x
  | many {id k es e x} : e ∈ es → Exp.Has e x → Exp.Has (.many id k es) x
  | indexed {id a i x} : Exp.Has a x → Exp.Has (.index id a i) x
  | index {id a i x} : Exp.Has i x → Exp.Has (.index id a i) x
  | left {id op a b x} : Exp.Has a x → Exp.Has (.bin id op a b) x
  | right {id op a b x} : Exp.Has b x → Exp.Has (.bin id op a b) x
  | un {id op a x} : Exp.Has a x → Exp.Has (.un id op a) x
  | scrutinee {id e arms x} : Exp.Has e x → Exp.Has (.mtch id e arms) x
  | guard {id e arms p g v x} : Arm.mk p (.some g) v ∈ arms → Exp.Has g x → Exp.Has (.mtch id e arms) x
  | arm {id e arms p g v x} : Arm.mk p g v ∈ arms → Exp.Has v x → Exp.Has (.mtch id e arms) x
  | stm {id ss r s e x} : s ∈ ss → s.Has e → Exp.Has e x → Exp.Has (.block id ss r) x
  | result {id ss r x} : Exp.Has r x → Exp.Has (.block id ss (.some r)) x
  | cond {id c a b x} : Exp.Has c x → Exp.Has (.ite id c a b) x
  | onTrue {id c a b x} : Exp.Has a x → Exp.Has (.ite id c a b) x
  | onFalse {id c a b x} : Exp.Has b x → Exp.Has (.ite id c a b) x
  | genTrue {id a b x} : Exp.Has a x → Exp.Has (.genIf id a b) x
  | genFalse {id a b x} : Exp.Has b x → Exp.Has (.genIf id a b) x

/-- The statement is in a block somewhere inside of the expression. -/
def Exp.HasStm (e : Exp) (s : Stm) : Prop := ∃ id ss r, e.Has (.block id ss r) ∧ s ∈ ss

/-! ## Empty operands -/

/-- The type of the id is known and has at least one bit. -/
def Full (ty : Nat → Option MTy) (id : Nat) : Prop := ∃ t, ty id = some t ∧ t.size ≠ 0

/-- What the hardware of this expression needs of its operands: arithmetic is not done on zero bits, and
a `match` chooses between values of at least one bit. -/
def Supported (ty : Nat → Option MTy) : Exp → Prop
  | .bin _ _ a b => Full ty a.id ∧ Full ty b.id
  | .un _ .neg a | .un _ .not a | .un _ .bitNot a => Full ty a.id
  | .mtch _ _ (.mk _ _ v :: _) => Full ty v.id
  | .genIf _ _ _ => False
  | _ => True

/-! ## Repeated registers -/

/-- The expression is a block with `reg*N` in it. -/
def CountsIn (e : Exp) (count : Nat) : Prop := e.HasStm (.stages count)

mutual
/-- `reg*N;` written out as `N` times `reg;`, everywhere; `n` says what the numbers are. -/
def Exp.unroll (n : Nat → Nat) : Exp → Exp
  | .leaf i => .leaf i
  | .one i k e => .one i k (e.unroll n)
  | .many i k es => .many i k (unrolls n es)
  | .index i a b => .index i (a.unroll n) (b.unroll n)
  | .bin i op a b => .bin i op (a.unroll n) (b.unroll n)
  | .un i op a => .un i op (a.unroll n)
  | .mtch i e arms => .mtch i (e.unroll n) (unrollArms n arms)
  | .block i ss r => .block i (unrollStms n ss) (r.unroll n)
  | .ite i c a b => .ite i (c.unroll n) (a.unroll n) (b.unroll n)
  | .genIf i a b => .genIf i (a.unroll n) (b.unroll n)
/-- The same for an expression that may be missing. -/
def Opt.unroll (n : Nat → Nat) : Opt → Opt
  | .none => .none
  | .some e => .some (e.unroll n)
/-- All of them. -/
def unrolls (n : Nat → Nat) : List Exp → List Exp
  | [] => []
  | e :: es => e.unroll n :: unrolls n es
/-- All of them. -/
def unrollArms (n : Nat → Nat) : List Arm → List Arm
  | [] => []
  | .mk p g e :: as => .mk p (g.unroll n) (e.unroll n) :: unrollArms n as
/-- All of them. -/
def unrollStms (n : Nat → Nat) : List Stm → List Stm
  | [] => []
  | .stages c :: ss => List.replicate (n c) .stage ++ unrollStms n ss
  | s :: ss => s.unroll n :: unrollStms n ss
/-- Inside of a statement. -/
def Stm.unroll (n : Nat → Nat) : Stm → Stm
  | .bind p e => .bind p (e.unroll n)
  | .expr e => .expr (e.unroll n)
  | .reg p c t r i v => .reg p (c.unroll n) (t.unroll n) (r.unroll n) (i.unroll n) (v.unroll n)
  | .stageIf c => .stageIf (c.unroll n)
  | .assert e => .assert (e.unroll n)
  | .set t v => .set (t.unroll n) (v.unroll n)
  | .error => .error
  | .decl => .decl
  | .stage => .stage
  | .stages c => .stages c
  | .label x => .label x
end

/-- The statements of a pipeline with the stage each of them is in, the first of them in stage `k`.  `reg;`
ends a stage, as does `reg[c];`, whose condition belongs to the stage it ends; `reg*N;` ends `N` stages. -/
def staged (n : Nat → Nat) : Nat → List Stm → List (Nat × Stm)
  | _, [] => []
  | k, .stage :: ss => staged n (k + 1) ss
  | k, .stages c :: ss => staged n (k + n c) ss
  | k, .stageIf c :: ss => (k, .stageIf c) :: staged n (k + 1) ss
  | k, s :: ss => (k, s) :: staged n k ss

/-- The number of the last stage. -/
def depth (n : Nat → Nat) : Nat → List Stm → Nat
  | k, [] => k
  | k, .stage :: ss => depth n (k + 1) ss
  | k, .stages c :: ss => depth n (k + n c) ss
  | k, .stageIf _ :: ss => depth n (k + 1) ss
  | k, _ :: ss => depth n k ss

/-! ## Bidirectional wires -/

/-- The id has a type `inout<T>`. -/
def IsInout (ty : Nat → Option MTy) (id : Nat) : Prop := ∃ t, ty id = some (.inout t)

/-- The pattern is bound by `let` or `reg` somewhere in the unit. -/
def Unit.Binds (u : Unit) (p : Pat) : Prop :=
  (∃ e, u.body.HasStm (.bind p e)) ∨ ∃ c t r i v, u.body.HasStm (.reg p c t r i v)

/-- The name `x` with the id `i` is introduced in the unit: by `let` or `reg` or by the pattern of an arm. -/
def Unit.Names (u : Unit) (i x : Nat) : Prop :=
  (∃ p, u.Binds p ∧ p.Has i x) ∨
    ∃ id e arms p g v, u.body.Has (.mtch id e arms) ∧ Arm.mk p g v ∈ arms ∧ p.Has i x

/-- What is promised about `inout`: such values are not returned, not given names to, and inputs of such
types are marked `#[no_mangle]`. -/
structure InoutOk (ty : Nat → Option MTy) (u : Unit) : Prop where
  result : ¬ IsInout ty u.body.id
  inputs : ∀ i ∈ u.inputs, IsInout ty i.id → i.noMangle = true
  names : ∀ i x, u.Names i x → ¬ IsInout ty i

end Spade.Pass

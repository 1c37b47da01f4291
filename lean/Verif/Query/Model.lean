import Verif.Loc.Props

/-!
# Names at the cursor (C77): model

Models the collection of names and expressions for the language server and the waveform viewers,
`QueryCache` (`/repo/spade-query/src/lib.rs:27-395`), and the name at the cursor in `get_position_details`
(`/repo/spade-language-server/src/util.rs:100-118`). The maps from locations are those of Verif/Loc/Model.lean (C40).

Names are numbers. Types, type parameters and type-level expressions are left out: the code does not look
at them in executables. The three forms of arguments (`ArgumentList`) are lists of expressions. Type
declarations and the paths and namespaces are left out.
-/

namespace Spade.Query

open Spade.Loc

/-- `Loc<()>`. -/
abbrev Place := Located Unit

mutual
/-- `Loc<Pattern>` (spade-hir/src/lib.rs). -/
inductive Pat where
  | leaf (at_ : Place)
  | bound (at_ : Place) (name : Located Nat) (inner : Pats)
  | tuple (at_ : Place) (inner : Pats)
  | array (at_ : Place) (inner : Pats)
  | type (at_ : Place) (base : Located Nat) (args : Pats)
/-- Lists of patterns. The pattern within a bound one is a list of at most one. -/
inductive Pats where
  | nil
  | cons (p : Pat) (ps : Pats)
end

mutual
/-- `Loc<Expression>` (spade-hir/src/expression.rs): an id, a place and an `ExprKind`. `leaf` is all kinds without
expressions in them. -/
inductive Expr where
  | leaf (id : Nat) (at_ : Place)
  | ident (id : Nat) (at_ : Place) (name : Nat)
  | tuple (id : Nat) (at_ : Place) (inner : Exprs)
  | array (id : Nat) (at_ : Place) (inner : Exprs)
  | shorthand (id : Nat) (at_ : Place) (inner : Expr)
  | index (id : Nat) (at_ : Place) (lhs rhs : Expr)
  | rangeIndex (id : Nat) (at_ : Place) (target : Expr)
  | tupleIndex (id : Nat) (at_ : Place) (target : Expr)
  | field (id : Nat) (at_ : Place) (target : Expr)
  | cast (id : Nat) (at_ : Place) (target : Expr)
  | method (id : Nat) (at_ : Place) (target : Expr) (args : Exprs)
  | call (id : Nat) (at_ : Place) (callee : Located Nat) (args : Exprs)
  | associated (id : Nat) (at_ : Place) (args : Exprs)
  | lambda (id : Nat) (at_ : Place) (arguments : Pats) (body : Expr)
  | binary (id : Nat) (at_ : Place) (lhs rhs : Expr)
  | unary (id : Nat) (at_ : Place) (operand : Expr)
  | match_ (id : Nat) (at_ : Place) (cond : Expr) (branches : Branches)
  | block (id : Nat) (at_ : Place) (stmts : Stmts) (result : Exprs)
  | if_ (id : Nat) (at_ : Place) (cond onTrue onFalse : Expr)
  | genIf (id : Nat) (at_ : Place) (onTrue onFalse : Expr)
  | incomplete (id : Nat) (at_ : Place) (base : Expr)
/-- Lists of expressions. An optional expression is a list of at most one. -/
inductive Exprs where
  | nil
  | cons (e : Expr) (es : Exprs)
/-- The branches of a match: a pattern, an optional condition, a value. -/
inductive Branches where
  | nil
  | cons (p : Pat) (guard : Exprs) (e : Expr) (bs : Branches)
/-- `Statement`. `quiet` is errors and stage markers. -/
inductive Stmt where
  | quiet
  | binding (p : Pat) (value : Expr)
  | register (p : Pat) (clock : Expr) (reset initial : Exprs) (value : Expr)
  | expression (e : Expr)
  | declaration (names : List (Located Nat))
  | label (name : Located Nat)
  | assert (e : Expr)
  | set (target value : Expr)
/-- Lists of statements with their places. -/
inductive Stmts where
  | nil
  | cons (at_ : Place) (s : Stmt) (ss : Stmts)
end

/-- The id of an expression. -/
def Expr.id : Expr → Nat
  | leaf i _ | ident i _ _ | tuple i _ _ | array i _ _ | shorthand i _ _ | index i _ _ _
  | rangeIndex i _ _ | tupleIndex i _ _ | field i _ _ | cast i _ _ | method i _ _ _ | call i _ _ _
  | associated i _ _ | lambda i _ _ _ | binary i _ _ _ | unary i _ _ | match_ i _ _ _ | block i _ _ _
  | if_ i _ _ _ _ | genIf i _ _ _ | incomplete i _ _ => i

/-- The place of an expression. -/
def Expr.place : Expr → Place
  | leaf _ a | ident _ a _ | tuple _ a _ | array _ a _ | shorthand _ a _ | index _ a _ _
  | rangeIndex _ a _ | tupleIndex _ a _ | field _ a _ | cast _ a _ | method _ a _ _ | call _ a _ _
  | associated _ a _ | lambda _ a _ _ | binary _ a _ _ | unary _ a _ | match_ _ a _ _ | block _ a _ _
  | if_ _ a _ _ _ | genIf _ a _ _ | incomplete _ a _ => a

/-- What the visitors insert: a name (`handle_nameid`, lib.rs:96-98) or an expression
(`visit_expression`, lib.rs:271-277). Patterns are only inserted among the things around a place, which
are left out. -/
inductive Event where
  | name (n : Located Nat)
  | expr (e : Expr)

mutual
/-- `visit_pattern` (lib.rs:279-318). -/
def visitPat : Pat → List Event
  | .leaf _ => []
  | .bound _ name inner => .name name :: visitPats inner
  | .tuple _ inner => visitPats inner
  | .array _ inner => visitPats inner
  | .type _ base args => .name base :: visitPats args
def visitPats : Pats → List Event
  | .nil => []
  | .cons p ps => visitPat p ++ visitPats ps
end

mutual
/-- `visit_expression` and `visit_expr_kind` (lib.rs:130-277). The arguments of lambdas are not
visited. -/
def visitExpr : Expr → List Event
  | .leaf i a => [.expr (.leaf i a)]
  | .ident i a n => [.expr (.ident i a n), .name ⟨n, a.span, a.file⟩]
  | .tuple i a es => .expr (.tuple i a es) :: visitExprs es
  | .array i a es => .expr (.array i a es) :: visitExprs es
  | .shorthand i a e => .expr (.shorthand i a e) :: visitExpr e
  | .index i a l r => .expr (.index i a l r) :: (visitExpr l ++ visitExpr r)
  | .rangeIndex i a e => .expr (.rangeIndex i a e) :: visitExpr e
  | .tupleIndex i a e => .expr (.tupleIndex i a e) :: visitExpr e
  | .field i a e => .expr (.field i a e) :: visitExpr e
  | .cast i a e => .expr (.cast i a e) :: visitExpr e
  | .method i a e args => .expr (.method i a e args) :: (visitExpr e ++ visitExprs args)
  | .call i a callee args => .expr (.call i a callee args) :: .name callee :: visitExprs args
  | .associated i a args => .expr (.associated i a args) :: visitExprs args
  | .lambda i a ps body => .expr (.lambda i a ps body) :: visitExpr body
  | .binary i a l r => .expr (.binary i a l r) :: (visitExpr l ++ visitExpr r)
  | .unary i a e => .expr (.unary i a e) :: visitExpr e
  | .match_ i a c bs => .expr (.match_ i a c bs) :: (visitExpr c ++ visitBranches bs)
  | .block i a ss r => .expr (.block i a ss r) :: (visitStmts ss ++ visitExprs r)
  | .if_ i a c t f => .expr (.if_ i a c t f) :: (visitExpr c ++ (visitExpr t ++ visitExpr f))
  | .genIf i a t f => .expr (.genIf i a t f) :: (visitExpr t ++ visitExpr f)
  | .incomplete i a e => .expr (.incomplete i a e) :: visitExpr e
/-- `visit_arg_list` (lib.rs:374-394) and the other lists. -/
def visitExprs : Exprs → List Event
  | .nil => []
  | .cons e es => visitExpr e ++ visitExprs es
/-- The branches (lib.rs:214-224). -/
def visitBranches : Branches → List Event
  | .nil => []
  | .cons p g e bs => visitPat p ++ (visitExprs g ++ (visitExpr e ++ visitBranches bs))
/-- `visit_statements` (lib.rs:320-372). -/
def visitStmt : Stmt → List Event
  | .quiet => []
  | .binding p v => visitPat p ++ visitExpr v
  | .register p c r i v =>
    visitPat p ++ (visitExpr c ++ (visitExprs r ++ (visitExprs i ++ visitExpr v)))
  | .expression e => visitExpr e
  | .declaration names => names.map .name
  | .label n => [.name n]
  | .assert e => visitExpr e
  | .set t v => visitExpr t ++ visitExpr v
def visitStmts : Stmts → List Event
  | .nil => []
  | .cons _ s ss => visitStmt s ++ visitStmts ss
end

/-- `from_artifacts` (lib.rs:50-72) for the bodies of the units, in any order. -/
def fromArtifacts (bodies : List Expr) : List Event := bodies.flatMap visitExpr

/-- The names, in the order of insertion. -/
def namesOf (es : List Event) : List (Located Nat) :=
  es.filterMap fun
    | .name n => some n
    | .expr _ => none

/-- The expressions by their ids, in the order of insertion. -/
def idsOf (es : List Event) : List (Nat × Expr) :=
  es.filterMap fun
    | .name _ => none
    | .expr e => some (e.id, e)

/-- `names_around` (lib.rs:78-80). -/
def namesAround (bodies : List Expr) (c : Place) : List (Nat × Nat × Nat) :=
  around (build (namesOf (fromArtifacts bodies))) c.file c.span

/-- The name at the cursor (util.rs:109-115). -/
def nameAt (bodies : List Expr) (c : Place) : Option (Nat × Nat × Nat) := (namesAround bodies c).getLast?

/-- `id_to_expression` (lib.rs:92-94): the last insertion counts. -/
def idToExpression (bodies : List Expr) (id : Nat) : Option Expr :=
  (idsOf (fromArtifacts bodies)).reverse.lookup id

end Spade.Query

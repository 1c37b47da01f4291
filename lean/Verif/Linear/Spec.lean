/-!
# Programs with inverted wires, and where their wires go

The part of the language the linearity check looks at, and a specification of it: every wire that a
program gets from a parameter, a declaration or a call is a token, values carry tokens, and the program
connects tokens to sinks.
-/
namespace Spade.Linear

/-- Types, as far as wires are concerned.  `copy` is every type without wires that is not a tuple, a
struct or a view: numbers, booleans, clocks, enums, memories, arrays of those. -/
inductive LTy where
  | copy
  /-- `inv T` and `inout<T>` -/
  | wire
  /-- tuples, structs and arrays of linear elements -/
  | node (ts : List LTy)
  /-- `&T` -/
  | view (t : LTy)

mutual
/-- The type contains a wire. -/
def LTy.linear : LTy → Bool
  | .copy => false
  | .wire => true
  | .node ts => anyLinear ts
  | .view _ => false
/-- One of the types contains a wire. -/
def anyLinear : List LTy → Bool
  | [] => false
  | t :: ts => t.linear || anyLinear ts
end

/-- Patterns. `variant` is a pattern for an enum, with the patterns for its arguments. -/
inductive Pat where
  /-- a name with its type; `pre` says that it was declared with `decl` -/
  | bind (id name : Nat) (ty : LTy) (pre : Bool)
  /-- `name @ pattern` -/
  | at_ (id name : Nat) (ty : LTy) (pre : Bool) (p : Pat)
  | tuple (ps : List Pat)
  | variant (ps : List Pat)
  | lit

mutual
/-- Expressions, each with its number and its type. -/
inductive Expr where
  | ident (id : Nat) (ty : LTy) (name : Nat)
  /-- tuple and array literals -/
  | tuple (id : Nat) (ty : LTy) (es : Exprs)
  /-- `e.i`, `e.field` -/
  | field (id : Nat) (ty : LTy) (e : Expr) (i : Nat)
  /-- `e[i]`; `none` if the index is not a literal -/
  | index (id : Nat) (ty : LTy) (e : Expr) (i : Option Nat)
  /-- `e[start..stop]` -/
  | range (id : Nat) (ty : LTy) (e : Expr) (start stop : Nat)
  /-- `&e`, `*e`, `e as T` -/
  | view (id : Nat) (ty : LTy) (e : Expr)
  | binop (id : Nat) (ty : LTy) (a b : Expr)
  /-- a call, `reads` if the unit called is `read_mut_wire`; literals are calls without arguments -/
  | call (id : Nat) (ty : LTy) (reads : Bool) (args : Exprs)
  | block (id : Nat) (ty : LTy) (ss : Stmts) (res : Expr)
  /-- a block without result -/
  | blockUnit (id : Nat) (ty : LTy) (ss : Stmts)
  | ite (id : Nat) (ty : LTy) (c a b : Expr)
  | mtch (id : Nat) (ty : LTy) (c : Expr) (arms : Arms)
inductive Exprs where
  | nil
  | cons (e : Expr) (es : Exprs)
inductive Stmts where
  | nil
  | let_ (p : Pat) (e : Expr) (ss : Stmts)
  | set (target value : Expr) (ss : Stmts)
  | expr (e : Expr) (ss : Stmts)
  | decl (name : Nat) (ty : LTy) (ss : Stmts)
  | assert (e : Expr) (ss : Stmts)
inductive Arms where
  | nil
  | arm (p : Pat) (e : Expr) (as : Arms)
  | guarded (p : Pat) (guard e : Expr) (as : Arms)
end

/-- The number of an expression. -/
def Expr.id : Expr → Nat
  | .ident i .. | .tuple i .. | .field i .. | .index i .. | .range i .. | .view i .. | .binop i ..
  | .call i .. | .block i .. | .blockUnit i .. | .ite i .. | .mtch i .. => i

/-- The type of an expression. -/
def Expr.ty : Expr → LTy
  | .ident _ t .. | .tuple _ t .. | .field _ t .. | .index _ t .. | .range _ t .. | .view _ t ..
  | .binop _ t .. | .call _ t .. | .block _ t .. | .blockUnit _ t .. | .ite _ t .. | .mtch _ t .. => t

/-! ## Where the wires go -/

/-- A value: the wires in it. -/
inductive Val where
  | none
  | wire (token : Nat)
  | node (vs : List Val)

mutual
/-- The wires in a value. -/
def Val.wires : Val → List Nat
  | .none => []
  | .wire t => [t]
  | .node vs => allWires vs
/-- The wires in values. -/
def allWires : List Val → List Nat
  | [] => []
  | v :: vs => v.wires ++ allWires vs
end

mutual
/-- A new value of a type, with the wires `n`, `n + 1`, …; the second component is the next number. -/
def fresh : LTy → Nat → Val × Nat
  | .copy, n => (.none, n)
  | .wire, n => (.wire n, n + 1)
  | .node ts, n => (.node (freshAll ts n).1, (freshAll ts n).2)
  | .view _, n => (.none, n)
/-- New values. -/
def freshAll : List LTy → Nat → List Val × Nat
  | [], n => ([], n)
  | t :: ts, n => ((fresh t n).1 :: (freshAll ts (fresh t n).2).1, (freshAll ts (fresh t n).2).2)
end

/-- Member of a value. -/
def Val.nth : Val → Nat → Val
  | .node vs, i => vs[i]?.getD .none
  | _, _ => .none

/-- Part of an array. -/
def Val.slice : Val → Nat → Nat → Val
  | .node vs, a, b => .node ((vs.drop a).take (b - a))
  | _, _, _ => .none

/-- The state of a run: the next wire, what the names stand for, and the wires that were connected to
something, once for each time. -/
structure Sem where
  next : Nat
  env : Nat → Val
  sinks : List Nat

/-- The wires of a value are connected. -/
def Sem.sink (s : Sem) (v : Val) : Sem := { s with sinks := s.sinks ++ v.wires }

/-- A name gets a value. -/
def Sem.bind (s : Sem) (n : Nat) (v : Val) : Sem :=
  { s with env := fun m => if m = n then v else s.env m }

/-- A value with new wires. -/
def Sem.make (s : Sem) (t : LTy) : Val × Sem := ((fresh t s.next).1, { s with next := (fresh t s.next).2 })

mutual
/-- A pattern takes a value apart.  If the name was declared before, the value is connected to it. -/
def bindPat : Pat → Val → Sem → Sem
  | .bind _ n _ pre, v, s => if pre then s.sink v else s.bind n v
  | .at_ _ n _ pre p, v, s => bindPat p v (if pre then s.sink v else s.bind n v)
  | .tuple ps, v, s => bindPats ps v 0 s
  | .variant ps, v, s => bindPats ps v 0 s
  | .lit, _, s => s
/-- Patterns for the members from `i` on. -/
def bindPats : List Pat → Val → Nat → Sem → Sem
  | [], _, _, s => s
  | p :: ps, v, i, s => bindPats ps v (i + 1) (bindPat p (v.nth i) s)
end

mutual
/-- Value of an expression.  Hardware has no control flow: all branches are there. -/
def evalE : Expr → Sem → Val × Sem
  | .ident _ _ n, s => (s.env n, s)
  | .tuple _ _ es, s => let r := evalEs es s; (.node r.1, r.2)
  | .field _ _ e i, s => let r := evalE e s; (r.1.nth i, r.2)
  | .index _ ty e i, s =>
    let r := evalE e s
    if e.ty.linear then (match i with | some i => (r.1.nth i, r.2) | none => r.2.make ty) else r.2.make ty
  | .range _ ty e a b, s =>
    let r := evalE e s
    if e.ty.linear then (r.1.slice a b, r.2) else r.2.make ty
  | .view _ ty e, s => (evalE e s).2.make ty
  | .binop _ ty a b, s =>
    let r := evalE a s
    let q := evalE b r.2
    ((q.2.sink r.1).sink q.1).make ty
  | .call _ ty reads args, s => (evalArgs reads args s).make ty
  | .block _ _ ss res, s => evalE res (evalSs ss s)
  | .blockUnit _ ty ss, s => (evalSs ss s).make ty
  | .ite _ ty c a b, s =>
    let r := evalE c s
    let p := evalE a r.2
    let q := evalE b p.2
    ((q.2.sink p.1).sink q.1).make ty
  | .mtch _ ty c arms, s =>
    let r := evalE c s
    (evalArms arms r.1 r.2).make ty
/-- Values of the members of a literal. -/
def evalEs : Exprs → Sem → List Val × Sem
  | .nil, s => ([], s)
  | .cons e es, s => let r := evalE e s; let q := evalEs es r.2; (r.1 :: q.1, q.2)
/-- Arguments of a call; they are connected to the unit unless it only reads them. -/
def evalArgs (reads : Bool) : Exprs → Sem → Sem
  | .nil, s => s
  | .cons e es, s => let r := evalE e s; evalArgs reads es (if reads then r.2 else r.2.sink r.1)
/-- Statements. -/
def evalSs : Stmts → Sem → Sem
  | .nil, s => s
  | .let_ p e ss, s => let r := evalE e s; evalSs ss (bindPat p r.1 r.2)
  | .set t v ss, s => let r := evalE t s; let q := evalE v r.2; evalSs ss ((q.2.sink r.1).sink q.1)
  | .expr e ss, s => evalSs ss (evalE e s).2
  | .decl n ty ss, s => let r := s.make ty; evalSs ss (r.2.bind n r.1)
  | .assert e ss, s => evalSs ss (evalE e s).2
/-- Arms; the result of the match is connected to the value of every arm. -/
def evalArms : Arms → Val → Sem → Sem
  | .nil, _, s => s
  | .arm p e as, v, s => let r := evalE e (bindPat p v s); evalArms as v (r.2.sink r.1)
  | .guarded p g e as, v, s => let r := evalE e (evalE g (bindPat p v s)).2; evalArms as v (r.2.sink r.1)
end

/-- New values for the inputs. -/
def evalInputs : List (Nat × LTy) → Sem → Sem
  | [], s => s
  | (n, t) :: is, s => let r := s.make t; evalInputs is (r.2.bind n r.1)

/-- A unit: inputs and body.  The result of the body is connected to the output. -/
def runUnit (inputs : List (Nat × LTy)) (body : Expr) : Sem :=
  let r := evalE body (evalInputs inputs ⟨0, fun _ => .none, []⟩)
  r.2.sink r.1

/-- Every wire of the unit is connected exactly once. -/
def EachWireOnce (inputs : List (Nat × LTy)) (body : Expr) : Prop :=
  ∀ t < (runUnit inputs body).next, (runUnit inputs body).sinks.count t = 1

end Spade.Linear

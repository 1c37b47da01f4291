import Verif.Query.Model

/-!
# Names at the cursor (C77): specification

Which parts a piece of the program has, and where it mentions names.
-/

namespace Spade.Query

open Spade.Loc

/-- A piece of a program. -/
inductive Node where
  | e (e : Expr)
  | p (p : Pat)
  | s (s : Stmt)

/-- An expression of a list. -/
inductive Exprs.Has : Exprs → Expr → Prop
  | head (e es) : Has (.cons e es) e
  | tail {es x} (e) : Has es x → Has (.cons e es) x

/-- A pattern of a list. -/
inductive Pats.Has : Pats → Pat → Prop
  | head (p ps) : Has (.cons p ps) p
  | tail {ps x} (p) : Has ps x → Has (.cons p ps) x

/-- A statement of a list. -/
inductive Stmts.Has : Stmts → Stmt → Prop
  | head (a s ss) : Has (.cons a s ss) s
  | tail {ss x} (a s) : Has ss x → Has (.cons a s ss) x

/-- A piece of a branch. -/
inductive Branches.Has : Branches → Node → Prop
  | pattern (p g e bs) : Has (.cons p g e bs) (.p p)
  | guard {g x} (p e bs) : g.Has x → Has (.cons p g e bs) (.e x)
  | value (p g e bs) : Has (.cons p g e bs) (.e e)
  | tail {bs x} (p g e) : Has bs x → Has (.cons p g e bs) x

/-- The second piece is directly in the first. The arguments of lambdas are not among them
(`C77_counterexample_lambda`). -/
inductive Part : Node → Node → Prop
  | bound {inner x} (a n) : Pats.Has inner x → Part (.p (.bound a n inner)) (.p x)
  | patTuple {inner x} (a) : Pats.Has inner x → Part (.p (.tuple a inner)) (.p x)
  | patArray {inner x} (a) : Pats.Has inner x → Part (.p (.array a inner)) (.p x)
  | patType {args x} (a n) : Pats.Has args x → Part (.p (.type a n args)) (.p x)
  | tuple {es x} (i a) : Exprs.Has es x → Part (.e (.tuple i a es)) (.e x)
  | array {es x} (i a) : Exprs.Has es x → Part (.e (.array i a es)) (.e x)
  | shorthand (i a e) : Part (.e (.shorthand i a e)) (.e e)
  | indexL (i a l r) : Part (.e (.index i a l r)) (.e l)
  | indexR (i a l r) : Part (.e (.index i a l r)) (.e r)
  | rangeIndex (i a e) : Part (.e (.rangeIndex i a e)) (.e e)
  | tupleIndex (i a e) : Part (.e (.tupleIndex i a e)) (.e e)
  | field (i a e) : Part (.e (.field i a e)) (.e e)
  | cast (i a e) : Part (.e (.cast i a e)) (.e e)
  | method (i a e args) : Part (.e (.method i a e args)) (.e e)
  | methodArg {args x} (i a e) : Exprs.Has args x → Part (.e (.method i a e args)) (.e x)
  | call {args x} (i a n) : Exprs.Has args x → Part (.e (.call i a n args)) (.e x)
  | associated {args x} (i a) : Exprs.Has args x → Part (.e (.associated i a args)) (.e x)
  | lambda (i a ps e) : Part (.e (.lambda i a ps e)) (.e e)
  | binaryL (i a l r) : Part (.e (.binary i a l r)) (.e l)
  | binaryR (i a l r) : Part (.e (.binary i a l r)) (.e r)
  | unary (i a e) : Part (.e (.unary i a e)) (.e e)
  | matched (i a c bs) : Part (.e (.match_ i a c bs)) (.e c)
  | branch {bs x} (i a c) : Branches.Has bs x → Part (.e (.match_ i a c bs)) x
  | stmt {ss x} (i a r) : Stmts.Has ss x → Part (.e (.block i a ss r)) (.s x)
  | result {r x} (i a ss) : Exprs.Has r x → Part (.e (.block i a ss r)) (.e x)
  | cond (i a c t f) : Part (.e (.if_ i a c t f)) (.e c)
  | onTrue (i a c t f) : Part (.e (.if_ i a c t f)) (.e t)
  | onFalse (i a c t f) : Part (.e (.if_ i a c t f)) (.e f)
  | genTrue (i a t f) : Part (.e (.genIf i a t f)) (.e t)
  | genFalse (i a t f) : Part (.e (.genIf i a t f)) (.e f)
  | incomplete (i a e) : Part (.e (.incomplete i a e)) (.e e)
  | bindingP (p v) : Part (.s (.binding p v)) (.p p)
  | bindingV (p v) : Part (.s (.binding p v)) (.e v)
  | registerP (p c r i v) : Part (.s (.register p c r i v)) (.p p)
  | registerC (p c r i v) : Part (.s (.register p c r i v)) (.e c)
  | registerR {r x} (p c i v) : Exprs.Has r x → Part (.s (.register p c r i v)) (.e x)
  | registerI {i x} (p c r v) : Exprs.Has i x → Part (.s (.register p c r i v)) (.e x)
  | registerV (p c r i v) : Part (.s (.register p c r i v)) (.e v)
  | expression (e) : Part (.s (.expression e)) (.e e)
  | assert (e) : Part (.s (.assert e)) (.e e)
  | setT (t v) : Part (.s (.set t v)) (.e t)
  | setV (t v) : Part (.s (.set t v)) (.e v)

/-- The second piece is in the first, at any depth. -/
inductive Within : Node → Node → Prop
  | refl (x) : Within x x
  | step {x y z} : Part x y → Within y z → Within x z

/-- The names that a piece mentions itself, with their places. -/
inductive Mentions : Node → Located Nat → Prop
  | ident (i a n) : Mentions (.e (.ident i a n)) ⟨n, a.span, a.file⟩
  | call (i a n args) : Mentions (.e (.call i a n args)) n
  | bound (a n inner) : Mentions (.p (.bound a n inner)) n
  | type (a n args) : Mentions (.p (.type a n args)) n
  | declaration {names n} : n ∈ names → Mentions (.s (.declaration names)) n
  | label (n) : Mentions (.s (.label n)) n

/-- A name that occurs in one of the bodies. -/
def Occurs (bodies : List Expr) (n : Located Nat) : Prop :=
  ∃ b ∈ bodies, ∃ x, Within (.e b) x ∧ Mentions x n

/-- An expression in one of the bodies. -/
def InBodies (bodies : List Expr) (e : Expr) : Prop := ∃ b ∈ bodies, Within (.e b) (.e e)

end Spade.Query

import Verif.Lower.Encode
/-!
# The source language of expressions and its meaning

Expressions after type inference, what they evaluate to, and what it means for a unit of hardware
to produce an output for given inputs.  Nothing here refers to the lowering.
-/
namespace Spade.Expr
open Spade.Verilog Spade.Codegen Spade.Lower
open Spade.Match (Val Matches)

/-! ## Syntax -/

/-- `UnaryOperator` (spade-hir/src/expression.rs). -/
inductive SrcUn where
  | neg | not | bitNot | deref | ref

/-- The functions the compiler generates code for itself, as far as they are modelled
(spade-hir-lowering/src/lib.rs:2283-2323).  `core::ports::port`, `core::undef::undef`, memories,
`inout` and `read_mut_wire` are not modelled; `div_pow2` is covered by
`C44_counterexample_div_pow2`. -/
inductive Intr where
  | transmute
  | cmp (c : Cmp)
  | bitNot | bitAnd | bitOr | bitXor
  | trunc | sext | zext | concat
  | reduceAnd | reduceOr | reduceXor
  | combDiv | combMod

/-- What a call refers to: an intrinsic, the constructor of an enum variant or of a struct
(`ExecutableItem`, lib.rs:2326-2361), or a unit. -/
inductive Callee where
  | intr (i : Intr)
  | variant (i : Nat)
  | struct
  | unit (u : Nat)

mutual
/-- `hir::Expression` (spade-hir/src/expression.rs) after type inference and monomorphisation.
Every node has its id and its MIR type.  Arguments of calls are in parameter order
(`match_args_with_params`, see C25).  `field` carries the names of the members of the struct.
Lambdas, method calls, associated calls and type-level `if` are replaced by other expressions
before lowering; pipeline references and stage conditions occur in pipelines only. -/
inductive Expr where
  | var (n : Nat) (ty : MTy)
  | int (id : Nat) (ty : MTy) (z : Int)
  | bool (id : Nat) (b : Bool)
  | bin (id : Nat) (ty : MTy) (op : SrcBin) (l r : Expr)
  | un (id : Nat) (ty : MTy) (op : SrcUn) (e : Expr)
  | tuple (id : Nat) (ty : MTy) (es : List Expr)
  | proj (id : Nat) (ty : MTy) (e : Expr) (k : Nat)
  | field (id : Nat) (ty : MTy) (e : Expr) (fields : List String) (f : String)
  | cast (id : Nat) (ty : MTy) (e : Expr)
  | array (id : Nat) (ty : MTy) (es : List Expr)
  | rep (id : Nat) (ty : MTy) (e : Expr) (n : Nat)
  | elem (id : Nat) (ty : MTy) (e i : Expr)
  | range (id : Nat) (ty : MTy) (e : Expr) (start stop : Option Nat)
  | block (id : Nat) (ss : List Stm) (res : Expr)
  | unitBlock (id : Nat) (ss : List Stm)
  | ite (id : Nat) (ty : MTy) (c a b : Expr)
  | «match» (id : Nat) (ty : MTy) (e : Expr) (arms : List Arm)
  | call (id : Nat) (ty : MTy) (f : Callee) (args : List Expr)
/-- `hir::Statement` without registers, `set`, pipeline markers and labels. -/
inductive Stm where
  | bind (p : LPat) (e : Expr)
  | expr (e : Expr)
  | assert (e : Expr)
  | decl
/-- An arm of a `match`, with or without guard. -/
inductive Arm where
  | plain (p : LPat) (e : Expr)
  | guarded (p : LPat) (g e : Expr)
end

/-- Type of an expression.  A block has the type of its result. -/
def Expr.ty : Expr → MTy
  | .bool _ _ => .bool
  | .block _ _ e => e.ty
  | .unitBlock _ _ => .tuple []
  | .var _ t | .int _ t _ | .bin _ t _ _ _ | .un _ t _ _ | .tuple _ t _ | .proj _ t _ _
  | .field _ t _ _ _ | .cast _ t _ | .array _ t _ | .rep _ t _ _ | .elem _ t _ _
  | .range _ t _ _ _ | .ite _ t _ _ _ | .match _ t _ _ | .call _ t _ _ => t

/-- Pattern of an arm. -/
def Arm.pat : Arm → LPat
  | .plain p _ | .guarded p _ _ => p

/-- A function: its parameters, its body and the types of the variables in it. -/
structure Fn where
  params : List (Nat × MTy)
  body : Expr
  types : Nat → MTy

/-- A program: the functions by name. -/
abbrev Prog := Nat → Option Fn

/-! ## Meaning of operators -/

/-- The value of the number type that differs from `z` by a multiple of `2 ^ n`. -/
def wrap : MTy → Int → Int
  | .uint n, z => z % 2 ^ n
  | .int n, z => Int.bmod z (2 ^ n)
  | _, z => z

/-- The number read as an unsigned one of the same width. -/
def unsigned (t : MTy) (z : Int) : Nat := (z % 2 ^ t.size).toNat

/-- The number read as a signed one of the same width. -/
def signed (t : MTy) (z : Int) : Int := Int.bmod z (2 ^ t.size)

/-- Binary operators on numbers.  `ty` is the type of the result.  Division rounds towards zero. -/
def binVal (op : SrcBin) (ty : MTy) (x y : Int) : Option Int :=
  match op with
  | .add => some (wrap ty (x + y))
  | .sub => some (wrap ty (x - y))
  | .mul => some (wrap ty (x * y))
  | .div => if y = 0 then none else some (wrap ty (x.tdiv y))
  | .mod => if y = 0 then none else some (wrap ty (x.tmod y))
  | .shl => some (wrap ty (x * 2 ^ unsigned ty y))
  | .shr => some (wrap ty (unsigned ty x / 2 ^ unsigned ty y))
  | .ashr => some (wrap ty (signed ty x / 2 ^ unsigned ty y))

/-- Unary operators. -/
inductive UnVal : SrcUn → MTy → Val → Val → Prop
  | neg {ty z} : UnVal .neg ty (.int z) (.int (wrap ty (-z)))
  | not {ty b} : UnVal .not ty (.bool b) (.bool !b)
  | bitNot {ty z} : UnVal .bitNot ty (.int z) (.int (wrap ty (-z - 1)))
  | deref {ty v} : UnVal .deref ty (.view v) v
  | ref {ty v} : UnVal .ref ty v (.view v)

/-- The array of these booleans. -/
def bools (bs : List Bool) : Val := .tup (bs.map .bool)

/-- Intrinsics: `IntrVal i ts ty vs w` means that `i`, applied to arguments `vs` of types `ts`,
gives `w` of type `ty`. -/
inductive IntrVal : Intr → List MTy → MTy → List Val → Val → Prop
  /-- The value with the same bits. -/
  | transmute {t ty v w b} : Enc t v b → Enc ty w b → IntrVal .transmute [t] ty [v] w
  | order {c ts ty x y} : c ≠ .eq → c ≠ .ne →
      IntrVal (.cmp c) ts ty [.int x, .int y] (.bool (c.holds x y))
  | eqSame {ts ty v} : IntrVal (.cmp .eq) ts ty [v, v] (.bool true)
  | eqDiff {ts ty v w} : v ≠ w → IntrVal (.cmp .eq) ts ty [v, w] (.bool false)
  | neSame {ts ty v} : IntrVal (.cmp .ne) ts ty [v, v] (.bool false)
  | neDiff {ts ty v w} : v ≠ w → IntrVal (.cmp .ne) ts ty [v, w] (.bool true)
  | bitNot {ts ty as} : IntrVal .bitNot ts ty [bools as] (bools (as.map (!·)))
  | bitAnd {ts ty as bs} : as.length = bs.length →
      IntrVal .bitAnd ts ty [bools as, bools bs] (bools (List.zipWith (· && ·) as bs))
  | bitOr {ts ty as bs} : as.length = bs.length →
      IntrVal .bitOr ts ty [bools as, bools bs] (bools (List.zipWith (· || ·) as bs))
  | bitXor {ts ty as bs} : as.length = bs.length →
      IntrVal .bitXor ts ty [bools as, bools bs] (bools (List.zipWith (· ^^ ·) as bs))
  | trunc {ts ty x} : IntrVal .trunc ts ty [.int x] (.int (wrap ty x))
  | sext {ts ty x} : IntrVal .sext ts ty [.int x] (.int x)
  | zext {ts ty x} : IntrVal .zext ts ty [.int x] (.int x)
  | concat {t u ty x y} :
      IntrVal .concat [t, u] ty [.int x, .int y] (.int (wrap ty (unsigned t x * 2 ^ u.size + unsigned u y)))
  | reduceAnd {ts ty as} : IntrVal .reduceAnd ts ty [bools as] (.bool (as.all id))
  | reduceOr {ts ty as} : IntrVal .reduceOr ts ty [bools as] (.bool (as.any id))
  | reduceXor {ts ty as} : IntrVal .reduceXor ts ty [bools as] (.bool (as.foldl (· ^^ ·) false))
  | combDiv {ts ty x y} : y ≠ 0 → IntrVal .combDiv ts ty [.int x, .int y] (.int (wrap ty (x.tdiv y)))
  | combMod {ts ty x y} : y ≠ 0 → IntrVal .combMod ts ty [.int x, .int y] (.int (wrap ty (x.tmod y)))

/-- `Member v k w`: component `k` of `v` is `w`.  A component of a view is a view of the
component (spade-typeinference/src/expression.rs:291-338, requirements.rs:109-204). -/
inductive Member : Val → Nat → Val → Prop
  | tup {vs k w} : vs[k]? = some w → Member (.tup vs) k w
  | view {v k w} : Member v k w → Member (.view v) k (.view w)

/-! ## Evaluation -/

/-- The values of the variables in scope. -/
abbrev Vars := Nat → Option Val

/-- Adds the variables of a pattern. -/
def Vars.extend (env : Vars) (bs : List (Nat × MTy × Val)) : Vars := fun n =>
  match bs.find? (fun b => b.1 == n) with
  | some b => some b.2.2
  | none => env n

/-- The variables of a function that is called. -/
def callVars : List (Nat × MTy) → List Val → Vars
  | (n, _) :: ps, v :: vs => fun m => if m = n then some v else callVars ps vs m
  | _, _ => fun _ => none

mutual
/-- `Ev P env e v`: in the program `P`, with variables `env`, the expression `e` evaluates to `v`.
There is no value for a division by zero, an array index out of range, or a `match` none of whose
arms applies. -/
inductive Ev (P : Prog) : Vars → Expr → Val → Prop
  | var {env n ty v} : env n = some v → Ev P env (.var n ty) v
  | int {env id ty z} : Ev P env (.int id ty z) (.int z)
  | bool {env id b} : Ev P env (.bool id b) (.bool b)
  | bin {env id ty op l r x y z} : Ev P env l (.int x) → Ev P env r (.int y) →
      binVal op ty x y = some z → Ev P env (.bin id ty op l r) (.int z)
  | un {env id ty op e v w} : Ev P env e v → UnVal op ty v w → Ev P env (.un id ty op e) w
  | tuple {env id ty es vs} : Evs P env es vs → Ev P env (.tuple id ty es) (.tup vs)
  | proj {env id ty e k v w} : Ev P env e v → Member v k w → Ev P env (.proj id ty e k) w
  | field {env id ty e fields f k v w} : Ev P env e v →
      (fields[k]? = some f ∧ ∀ j : Nat, fields[j]? = some f → j = k) → Member v k w →
      Ev P env (.field id ty e fields f) w
  | cast {env id ty e v} : Ev P env e v → Ev P env (.cast id ty e) v
  | array {env id ty es vs} : Evs P env es vs → Ev P env (.array id ty es) (.tup vs)
  | rep {env id ty e n v} : Ev P env e v → Ev P env (.rep id ty e n) (.tup (List.replicate n v))
  | elem {env id ty a i vs k v} : Ev P env a (.tup vs) → Ev P env i (.int (k : Nat)) →
      vs[k]? = some v → Ev P env (.elem id ty a i) v
  | range {env id ty a start stop vs} : Ev P env a (.tup vs) →
      Ev P env (.range id ty a start stop)
        (.tup ((vs.take (stop.getD vs.length)).drop (start.getD 0)))
  | block {env env' id ss e v} : EvStms P env ss env' → Ev P env' e v →
      Ev P env (.block id ss e) v
  | unitBlock {env env' id ss} : EvStms P env ss env' → Ev P env (.unitBlock id ss) (.tup [])
  | iteTrue {env id ty c a b v} : Ev P env c (.bool true) → Ev P env a v →
      Ev P env (.ite id ty c a b) v
  | iteFalse {env id ty c a b v} : Ev P env c (.bool false) → Ev P env b v →
      Ev P env (.ite id ty c a b) v
  | «match» {env id ty e arms v w} : Ev P env e v → EvArms P env arms v w →
      Ev P env (.match id ty e arms) w
  | variant {env id ty i args vs} : Evs P env args vs →
      Ev P env (.call id ty (.variant i) args) (.variant i vs)
  | struct {env id ty args vs} : Evs P env args vs → Ev P env (.call id ty .struct args) (.tup vs)
  | intr {env id ty i args vs w} : Evs P env args vs → IntrVal i (args.map Expr.ty) ty vs w →
      Ev P env (.call id ty (.intr i) args) w
  | unit {env id ty u f args vs w} : P u = some f → Evs P env args vs →
      Ev P (callVars f.params vs) f.body w → Ev P env (.call id ty (.unit u) args) w
/-- Pointwise evaluation. -/
inductive Evs (P : Prog) : Vars → List Expr → List Val → Prop
  | nil {env} : Evs P env [] []
  | cons {env e es v vs} : Ev P env e v → Evs P env es vs → Evs P env (e :: es) (v :: vs)
/-- The statements of a block, in order.  Expression statements and assertions have no effect on
values. -/
inductive EvStms (P : Prog) : Vars → List Stm → Vars → Prop
  | nil {env} : EvStms P env [] env
  | bind {env env' p e v ss} : Ev P env e v → Matches p.src v →
      EvStms P (env.extend (p.binds v)) ss env' → EvStms P env (.bind p e :: ss) env'
  | expr {env env' e ss} : EvStms P env ss env' → EvStms P env (.expr e :: ss) env'
  | assert {env env' e ss} : EvStms P env ss env' → EvStms P env (.assert e :: ss) env'
  | decl {env env' ss} : EvStms P env ss env' → EvStms P env (.decl :: ss) env'
/-- The arms of a `match` on `v`: the first one whose pattern matches and whose guard, if there is
one, is true gives the result. -/
inductive EvArms (P : Prog) : Vars → List Arm → Val → Val → Prop
  | plain {env p e arms v w} : Matches p.src v → Ev P (env.extend (p.binds v)) e w →
      EvArms P env (.plain p e :: arms) v w
  | guarded {env p g e arms v w} : Matches p.src v →
      Ev P (env.extend (p.binds v)) g (.bool true) → Ev P (env.extend (p.binds v)) e w →
      EvArms P env (.guarded p g e :: arms) v w
  | next {env a arms v w} : ¬ Matches a.pat.src v → EvArms P env arms v w →
      EvArms P env (a :: arms) v w
  | nextGuard {env p g e arms v w} : Matches p.src v →
      Ev P (env.extend (p.binds v)) g (.bool false) → EvArms P env arms v w →
      EvArms P env (.guarded p g e :: arms) v w
end

/-! ## What type inference guarantees -/

/-- The type below views, and how many views there are. -/
def unview : MTy → MTy
  | .copyView t => unview t
  | t => t

/-- The type of a component of a view has as many views as the type it is taken from. -/
def review : MTy → MTy → MTy
  | .copyView t, c => .copyView (review t c)
  | _, c => c

/-- Equal bits mean equal values: no padding and nothing opaque. -/
def Exact (t : MTy) : Prop := ∀ v b b', Enc t v b → Enc t v b' → b = b'

/-- What a value of type `t` is when its bits are read as a `ty` does not depend on bits that do not
belong to the value.  So it is if there are none, and if those of the one type are those of the
other, for example for arrays of arrays and arrays. -/
def Readable (t ty : MTy) : Prop := ∀ v w b b', Enc t v b → Enc t v b' → Enc ty w b → Enc ty w b'

/-- Argument and result types of intrinsics: the signatures in spade-compiler/core/ops.spade:472-500
and spade-compiler/stdlib/{num,ops}.spade, and the checks of the handlers (lib.rs:2640-3560).
Operands of width 0, for which the generated code is not legal Verilog (C43), are left out, and so
are `sext` and `trunc` of one bit (`C43_counterexample_sext`, `C43_counterexample_trunc`) and
equality of types with padding (`C45_counterexample_padding`) and `transmute` of types with padding to
others without. -/
inductive IntrTy : Intr → List MTy → MTy → Prop
  | transmute {t ty} : t.size = ty.size → Readable t ty → IntrTy .transmute [t] ty
  | order {c t} : c ≠ .eq → c ≠ .ne → IsNum t → IntrTy (.cmp c) [t, t] .bool
  | eq {t} : Exact t → IntrTy (.cmp .eq) [t, t] .bool
  | ne {t} : Exact t → IntrTy (.cmp .ne) [t, t] .bool
  | bitNot {n} : n ≠ 0 → IntrTy .bitNot [.array .bool n] (.array .bool n)
  | bitAnd {n} : n ≠ 0 → IntrTy .bitAnd [.array .bool n, .array .bool n] (.array .bool n)
  | bitOr {n} : n ≠ 0 → IntrTy .bitOr [.array .bool n, .array .bool n] (.array .bool n)
  | bitXor {n} : n ≠ 0 → IntrTy .bitXor [.array .bool n, .array .bool n] (.array .bool n)
  | trunc {t ty} : IsNum t → IsNum ty → ty.size ≤ t.size → (2 ≤ t.size ∨ ty.size = 0) →
      IntrTy .trunc [t] ty
  | sext {n m} : n ≤ m → (2 ≤ n ∨ n = m) → n ≤ 2 ^ 32 → IntrTy .sext [.int n] (.int m)
  | zext {n m} : n ≤ m → (1 ≤ n ∨ n = m) → IntrTy .zext [.uint n] (.uint m)
  | concat {t u ty} : IsNum t → IsNum u → IsNum ty → ty.size = t.size + u.size →
      IntrTy .concat [t, u] ty
  | reduceAnd {n} : n ≠ 0 → IntrTy .reduceAnd [.array .bool n] .bool
  | reduceOr {n} : n ≠ 0 → IntrTy .reduceOr [.array .bool n] .bool
  | reduceXor {n} : n ≠ 0 → IntrTy .reduceXor [.array .bool n] .bool
  | combDiv {t} : IsNum t → t.size ≠ 0 → IntrTy .combDiv [t, t] t
  | combMod {t} : IsNum t → t.size ≠ 0 → IntrTy .combMod [t, t] t

/-- Operand and result types of unary operators (spade-typeinference/src/expression.rs:909-945);
numbers of width 0 are left out. -/
inductive UnTy : SrcUn → MTy → MTy → Prop
  | neg {n} : UnTy .neg (.int (n + 1)) (.int (n + 1))
  | not : UnTy .not .bool .bool
  | bitNot {t} : IsNum t → t.size ≠ 0 → UnTy .bitNot t t
  | deref {t} : UnTy .deref (.copyView t) t
  | ref {t} : UnTy .ref t (.copyView t)

/-- A pattern that code can be generated for: see `LPat.Ok` and `LPat.Readable`. -/
def PatOk (p : LPat) : Prop := p.Ok ∧ p.Readable ∧ p.ty.size ≤ 2 ^ 32

mutual
/-- What type inference guarantees for an expression, with `Γ` the types of variables
(spade-typeinference/src/expression.rs).  `sig u` are the types of the parameters and of the result
of unit `u`.  Vectors that are indexed have at most 2 ^ 32 bits. -/
def Expr.Ok (sig : Nat → Option (List MTy × MTy)) (Γ : Nat → MTy) : Expr → Prop
  | .var n ty => Γ n = ty
  | .int _ ty z => InRange ty z
  | .bool _ _ => True
  | .bin _ ty op l r => BinTy op l.ty r.ty ty ∧ l.ty.size ≠ 0 ∧ r.ty.size ≠ 0 ∧ l.Ok sig Γ ∧
      r.Ok sig Γ
  | .un _ ty op e => UnTy op e.ty ty ∧ e.Ok sig Γ
  | .tuple _ ty es => ty = .tuple (es.map Expr.ty) ∧ Exprs.Ok sig Γ es
  | .proj _ ty e k => (∃ ts t, unview e.ty = .tuple ts ∧ ts[k]? = some t ∧ ty = review e.ty t) ∧
      e.ty.size ≤ 2 ^ 32 ∧ e.Ok sig Γ
  | .field _ ty e fields f => (∃ ts, unview e.ty = .struct ts ∧ ts.length = fields.length ∧
      ∀ (k : Nat) t, fields[k]? = some f → ts[k]? = some t → ty = review e.ty t) ∧
      e.ty.size ≤ 2 ^ 32 ∧ e.Ok sig Γ
  | .cast _ ty e => ty = e.ty ∧ e.Ok sig Γ
  | .array _ ty es => (∃ t, ty = .array t es.length ∧ ∀ e ∈ es, e.ty = t) ∧ Exprs.Ok sig Γ es
  | .rep _ ty e n => ty = .array e.ty n ∧ e.Ok sig Γ
  | .elem _ ty a i => (∃ n w, a.ty = .array ty n ∧ i.ty = .uint w ∧ (n = 1 ∨ w ≠ 0)) ∧
      a.ty.size ≤ 2 ^ 32 ∧ a.Ok sig Γ ∧ i.Ok sig Γ
  | .range _ ty a start stop => (∃ t n, a.ty = .array t n ∧ start.getD 0 ≤ stop.getD n ∧
      stop.getD n ≤ n ∧ ty = .array t (stop.getD n - start.getD 0)) ∧ a.ty.size ≤ 2 ^ 32 ∧
      a.Ok sig Γ
  | .block _ ss e => Stms.Ok sig Γ ss ∧ e.Ok sig Γ
  | .unitBlock _ ss => Stms.Ok sig Γ ss
  | .ite _ ty c a b => c.ty = .bool ∧ a.ty = ty ∧ b.ty = ty ∧ c.Ok sig Γ ∧ a.Ok sig Γ ∧ b.Ok sig Γ
  | .match _ ty e arms => e.Ok sig Γ ∧ e.ty.size ≤ 2 ^ 32 ∧ Arms.Ok sig Γ e.ty ty arms
  | .call _ ty (.variant i) args => (∃ opts, ty = .enum opts ∧ opts[i]? = some (args.map Expr.ty)) ∧
      Exprs.Ok sig Γ args
  | .call _ ty .struct args => ty = .struct (args.map Expr.ty) ∧ Exprs.Ok sig Γ args
  | .call _ ty (.intr i) args => IntrTy i (args.map Expr.ty) ty ∧ Exprs.Ok sig Γ args
  | .call _ ty (.unit u) args => sig u = some (args.map Expr.ty, ty) ∧ Exprs.Ok sig Γ args
/-- All of them. -/
def Exprs.Ok (sig : Nat → Option (List MTy × MTy)) (Γ : Nat → MTy) : List Expr → Prop
  | [] => True
  | e :: es => e.Ok sig Γ ∧ Exprs.Ok sig Γ es
/-- The statements of a block. -/
def Stms.Ok (sig : Nat → Option (List MTy × MTy)) (Γ : Nat → MTy) : List Stm → Prop
  | [] => True
  | .bind p e :: ss => p.ty = e.ty ∧ PatOk p ∧ e.Ok sig Γ ∧ Stms.Ok sig Γ ss
  | .expr e :: ss => e.Ok sig Γ ∧ Stms.Ok sig Γ ss
  | .assert e :: ss => e.ty = .bool ∧ e.Ok sig Γ ∧ Stms.Ok sig Γ ss
  | .decl :: ss => Stms.Ok sig Γ ss
/-- Arms of a `match` on a value of type `t` with results of type `ty`. -/
def Arms.Ok (sig : Nat → Option (List MTy × MTy)) (Γ : Nat → MTy) (t ty : MTy) : List Arm → Prop
  | [] => True
  | .plain p e :: as => p.ty = t ∧ PatOk p ∧ e.ty = ty ∧ e.Ok sig Γ ∧ Arms.Ok sig Γ t ty as
  | .guarded p g e :: as => p.ty = t ∧ PatOk p ∧ g.ty = .bool ∧ g.Ok sig Γ ∧ e.ty = ty ∧
      e.Ok sig Γ ∧ Arms.Ok sig Γ t ty as
end

/-- The signatures of a program. -/
def Prog.sig (P : Prog) : Nat → Option (List MTy × MTy) := fun u =>
  (P u).map fun f => (f.params.map (·.2), f.body.ty)

/-- Type inference accepts the program: the parameters have the declared types, distinct names, and
bodies are well typed. -/
def Prog.Ok (P : Prog) : Prop :=
  ∀ u f, P u = some f → (∀ p ∈ f.params, f.types p.1 = p.2) ∧ f.body.Ok P.sig f.types

/-! ## Hardware -/

/-- A statement of a unit: one that drives a signal from others, a signal of a unit without result
(`Operator::Nop`), an assertion, or an instance of another unit with its inputs. -/
inductive Item where
  | stmt (s : Stmt)
  | nop (n : Nat) (ty : MTy)
  | assert (n : Nat)
  | inst (n : Nat) (ty : MTy) (u : Nat) (ops : List Nat)

/-- `mir::Entity` (spade-mir/src/lib.rs): inputs, statements, the output and the types of the
signals. -/
structure HUnit where
  inputs : List (Nat × MTy)
  items : List Item
  output : Nat
  types : Nat → MTy

/-- The signal a statement drives and its type. -/
def target : Stmt → Nat × MTy
  | .const n ty _ => (n, ty)
  | .bind n ty _ _ => (n, ty)

/-- Verilog leaves all bits of the result undefined: a division by zero, or an array element that
does not exist (IEEE 1800-2017 11.4.3, 11.5.1). -/
def Undefined (Γ : Nat → MTy) (ρ : Env) : Stmt → Prop
  | .bind _ _ .div [_, b] | .bind _ _ .unsignedDiv [_, b] | .bind _ _ .mod [_, b]
  | .bind _ _ .unsignedMod [_, b] => toNat (ρ (fwd b)) = 0
  | .bind _ _ .indexArray [a, i] => ∃ t n, Γ a = .array t n ∧ n ≤ toNat (ρ (fwd i))
  | _ => False

mutual
/-- A statement holds of the values `ρ` of the signals of a unit: the generated Verilog drives the
signal the statement defines with the value it has, or leaves it undefined, in which case it has
any value; an instance drives its signal with an output that the instantiated unit produces for the
values of the operands. -/
inductive ItemHolds (H : Nat → Option HUnit) : (Nat → MTy) → Env → (Nat → Nat → Bool) → Item → Prop
  | stmt {Γ ρ xs s} : Holds Γ ρ xs s → ItemHolds H Γ ρ xs (.stmt s)
  | undefined {Γ ρ xs s} : Γ (target s).1 = (target s).2 → Undefined Γ ρ s →
      ItemHolds H Γ ρ xs (.stmt s)
  | nop {Γ ρ xs n ty} : Γ n = ty → ItemHolds H Γ ρ xs (.nop n ty)
  | assert {Γ ρ xs n} : ItemHolds H Γ ρ xs (.assert n)
  | inst {Γ ρ xs n ty u ops} : Γ n = ty → Produces H u (ops.map fun o => ρ (fwd o)) (ρ (fwd n)) →
      ItemHolds H Γ ρ xs (.inst n ty u ops)
/-- A unit produces `out` for the inputs `ins`: its signals have values of the declared widths for
which all statements hold (whatever value is chosen for unknown bits), the input signals have the
values `ins` and the output signal has the value `out`. -/
inductive Produces (H : Nat → Option HUnit) : Nat → List Bits → Bits → Prop
  | mk {u h ρ xs ins out} : H u = some h → (∀ n, Fits h.types ρ n) →
      ins = h.inputs.map (fun i => ρ (fwd i.1)) → (∀ i ∈ h.items, ItemHolds H h.types ρ xs i) →
      out = ρ (fwd h.output) → Produces H u ins out
end

end Spade.Expr

import Verif.Util
import Verif.Infer.UnifySpec
import Verif.Infer.Const

/-!
# Specification for type checking (C51)

When a unit is well typed, stated on ground types only, without type variables, constraints or
unification: every expression, pattern and name has a ground type, and each node's type is related to
those of its parts by the rule for its construct. `UnitOk` is the property; everything above it is
what it is made of.
-/

namespace Spade.Check

open Spade.Infer.Spec (Kind Base GT Val TExpr Value LeastUint)

/-! ## Ground types -/

/-- `bool`. -/
def tBool : GT := .node (.named 0) []
/-- `clock`. -/
def tClock : GT := .node (.named 3) []
/-- The type-level number `n`. -/
def tNat (n : Nat) : GT := .node (.int n) []
/-- `int<n>` (signed) or `uint<n>`. -/
def tNum (signed : Bool) (n : Nat) : GT := .node (.named (if signed then 1 else 2)) [tNat n]
/-- `[t; n]`. -/
def tArr (t : GT) (n : Nat) : GT := .node .array [t, tNat n]
/-- A tuple. -/
def tTup (ts : List GT) : GT := .node .tuple ts
/-- `inv t`. -/
def tInv (t : GT) : GT := .node .inverted [t]
/-- `&t`. -/
def tView (t : GT) : GT := .node .copyView [t]

/-- A type, as opposed to a number, boolean or string at the type level. -/
def IsType (t : GT) : Prop := Kind.type.Holds t.head.val

/-- The trait `Number<N>`. -/
def trNumber : Nat := 0
/-- The trait `Copy`. -/
def trCopy : Nat := 1

/-! ## Implementations of traits -/

/-- A type in the head of an `impl`: one of its generic parameters or a type constructor. -/
inductive ITy where
  | gen (i : Nat)
  | app (b : Base) (ps : List ITy)

mutual
/-- The type for given generic arguments. -/
def ITy.inst (σ : Nat → GT) : ITy → GT
  | .gen i => σ i
  | .app b ps => .node b (ITy.insts σ ps)
/-- The same for a list. -/
def ITy.insts (σ : Nat → GT) : List ITy → List GT
  | [] => []
  | p :: ps => p.inst σ :: ITy.insts σ ps
end

/-- A generic parameter of an `impl`: its kind and trait bounds. -/
structure IGen where
  kind : Kind
  bounds : List (Nat × List ITy)

/-- `impl<gens> trait<traitArgs> for base<args>`. -/
structure Impl where
  gens : List IGen
  trait : Nat
  traitArgs : List ITy
  base : Base
  args : List ITy

/-- A ground type implements a trait with the given arguments: it is an instance of some `impl`
whose generic arguments have the right kinds and satisfy their bounds. -/
inductive Implements (impls : List Impl) : GT → Nat → List GT → Prop
  | mk {i : Impl} {σ : Nat → GT} {t : GT} {tr : Nat} {as : List GT} : i ∈ impls →
      (∀ (g : Nat) (p : IGen), i.gens[g]? = some p → p.kind.Holds (σ g).head.val) →
      (∀ (g : Nat) (p : IGen), i.gens[g]? = some p → ∀ b ∈ p.bounds,
        Implements impls (σ g) b.1 (ITy.insts σ b.2)) →
      tr = i.trait → as = ITy.insts σ i.traitArgs → t = .node i.base (ITy.insts σ i.args) →
      Implements impls t tr as

/-! ## Types as written -/

mutual
/-- A type as written in the source: `hir::TypeSpec` (without aliases, which stand for what they
abbreviate, and trait `Self`). -/
inductive TSpec where
  | declared (name : Nat) (ps : List TExp)
  | generic (g : String)
  | tuple (ts : List TSpec)
  | array (t : TSpec) (n : TExp)
  | inverted (t : TSpec)
  | copyView (t : TSpec)
  | wildcard
/-- A generic argument as written: `hir::TypeExpression`. -/
inductive TExp where
  | bool (b : Bool)
  | int (i : Int)
  | str (s : String)
  | spec (t : TSpec)
  | const (e : TExpr)
end

/-- The generic parameters in scope and what they are. -/
abbrev Generics := String → Option GT

/-- The type-level values of the generic parameters. -/
def Generics.vals (θ : Generics) : String → Option Val := fun n => (θ n).map (fun t => t.head.val)

/-- A type-level expression has the given value. (`Careful` excludes `int::bits_for(0)` and
`uint::bits_for` of a negative number, where C20 shows the evaluator to be wrong.) -/
def ConstIs (θ : Generics) (e : TExpr) (t : GT) : Prop :=
  ∃ w, t = .node (match w with
      | .int i => .int i
      | .bool b => .bool b
      | .str s => .str s
      | .type _ => .tuple) [] ∧ (∀ l, w ≠ .type l) ∧
    (Infer.Careful θ.vals e → Value θ.vals e w)

mutual
/-- `t` is a type the specification stands for. `_` stands for any. -/
def TSpec.Is (θ : Generics) : TSpec → GT → Prop
  | .declared n ps, t => ∃ args, t = .node (.named n) args ∧ TExp.Are θ ps args
  | .generic g, t => θ g = some t
  | .tuple ts, t => ∃ args, t = tTup args ∧ TSpec.Are θ ts args
  | .array s n, t => ∃ u k, t = .node .array [u, k] ∧ s.Is θ u ∧ n.Is θ k
  | .inverted s, t => ∃ u, t = tInv u ∧ s.Is θ u
  | .copyView s, t => ∃ u, t = tView u ∧ s.Is θ u
  | .wildcard, _ => True
/-- The same for lists. -/
def TSpec.Are (θ : Generics) : List TSpec → List GT → Prop
  | [], ts => ts = []
  | s :: ss, ts => ∃ u us, ts = u :: us ∧ s.Is θ u ∧ TSpec.Are θ ss us
/-- The same for generic arguments. -/
def TExp.Is (θ : Generics) : TExp → GT → Prop
  | .bool b, t => t = .node (.bool b) []
  | .int i, t => t = .node (.int i) []
  | .str s, t => t = .node (.str s) []
  | .spec s, t => s.Is θ t
  | .const e, t => ConstIs θ e t
/-- The same for lists of generic arguments. -/
def TExp.Are (θ : Generics) : List TExp → List GT → Prop
  | [], ts => ts = []
  | s :: ss, ts => ∃ u us, ts = u :: us ∧ s.Is θ u ∧ TExp.Are θ ss us
end

/-! ## Declarations -/

/-- Comparison in a `where` clause. -/
inductive Cmp where
  | neq | lt | leq | gt | geq
  deriving DecidableEq, Repr

/-- What a comparison means. -/
def Cmp.Holds : Cmp → Int → Int → Prop
  | .neq, a, b => a ≠ b
  | .lt, a, b => a < b
  | .leq, a, b => a ≤ b
  | .gt, a, b => a > b
  | .geq, a, b => a ≥ b

/-- A condition on generic parameters: `where` clauses and the bounds written with a parameter. -/
inductive Where where
  /-- `target: Trait<args> + …` -/
  | bound (target : String) (bs : List (Nat × List TExp))
  /-- `target == e` -/
  | eq (target : String) (e : TExpr)
  /-- `target < e` and so on -/
  | cmp (k : Cmp) (target : String) (e : TExpr)

/-- Callees with typing rules of their own. -/
inductive Special where
  | concat | trunc | divMod | clockedMemory | readMemory
  deriving DecidableEq, Repr

/-- The head of something that can be called: a unit, or a constructor of a struct or enum. -/
structure Head where
  params : List (String × Kind)
  wheres : List Where
  inputs : List TSpec
  output : Option TSpec
  special : Option Special

/-- What a struct or enum variant looks like to a pattern. -/
structure Variant where
  params : List (String × Kind)
  wheres : List Where
  self : TSpec
  fields : List TSpec

/-- The declarations a unit can refer to. -/
structure Decls where
  impls : List Impl
  heads : Nat → Option Head
  variants : Nat → Option Variant
  structs : Nat → Option (List String × List (String × TSpec))

/-- `impl<#uint N> Number<N> for int<N>`, and the same for `uint`. -/
def numberImpl (signed : Bool) : Impl :=
  { gens := [⟨.uint, []⟩], trait := trNumber, traitArgs := [.gen 0],
    base := .named (if signed then 1 else 2), args := [.gen 0] }

/-- Only the integer types are numbers. -/
def Decls.NumbersOk (Δ : Decls) : Prop :=
  ∀ i ∈ Δ.impls, i.trait = trNumber → ∃ s, i = numberImpl s

/-! ## Programs -/

/-- Patterns; every pattern has an id. -/
inductive Pat where
  | int (id : Nat) (v : Int)
  | bool (id : Nat) (b : Bool)
  | bound (id : Nat) (name : Nat) (preDeclared : Bool) (inner : Option Pat)
  | tuple (id : Nat) (ps : List Pat)
  | array (id : Nat) (ps : List Pat)
  | type (id : Nat) (variant : Nat) (ps : List Pat)

/-- The id of a pattern. -/
def Pat.id : Pat → Nat
  | .int id _ | .bool id _ | .bound id _ _ _ | .tuple id _ | .array id _ | .type id _ _ => id

/-- The forms of integer literals: `5`, `5i`/`5i8`, `5u`/`5u8`. -/
inductive LitKind where
  | unsized
  | signed (size : Option Nat)
  | unsigned (size : Option Nat)

/-- Binary operators. -/
inductive BinOp where
  | add | sub | mul | div | mod | shl | shr | ashr
  deriving DecidableEq, Repr

/-- Unary operators. -/
inductive UnOp where
  | neg | bitNot | not | deref | ref
  deriving DecidableEq, Repr

mutual
/-- Expressions; every expression has an id. -/
inductive Exp where
  | var (id : Nat) (x : Nat)
  | tlBool (id : Nat) (g : String)
  | tlInt (id : Nat) (g : String)
  | int (id : Nat) (v : Int) (k : LitKind)
  | bool (id : Nat) (b : Bool)
  | tuple (id : Nat) (es : List Exp)
  | proj (id : Nat) (e : Exp) (i : Nat)
  | field (id : Nat) (e : Exp) (f : String)
  | cast (id : Nat) (e : Exp) (t : TExp)
  | array (id : Nat) (es : List Exp)
  | rep (id : Nat) (e : Exp) (nid : Nat) (n : TExpr)
  | elem (id : Nat) (a i : Exp)
  | range (id : Nat) (a : Exp) (lo hi : Option (Nat × TExpr))
  | block (id : Nat) (ss : List Stmt) (r : Option Exp)
  | ite (id : Nat) (c a b : Exp)
  | genIf (id : Nat) (cid : Nat) (c : TExpr) (a b : Exp)
  | mtch (id : Nat) (c : Exp) (arms : List Arm)
  | bin (id : Nat) (op : BinOp) (a b : Exp)
  | un (id : Nat) (op : UnOp) (a : Exp)
  | call (id : Nat) (callee : Nat) (turbofish : List (Option TExp)) (args : List Exp)
/-- Branches of a `match`. -/
inductive Arm where
  | mk (p : Pat) (guard : Option Exp) (e : Exp)
/-- Statements. -/
inductive Stmt where
  | bind (p : Pat) (ty : Option TSpec) (e : Exp)
  | expr (e : Exp)
  | assert (e : Exp)
  | decl (names : List Nat)
  | set (target value : Exp)
  | reg (p : Pat) (ty : Option TSpec) (clk : Exp) (reset : Option (Exp × Exp))
      (initial : Option Exp) (value : Exp)
end

/-- The id of an expression. -/
def Exp.id : Exp → Nat
  | .var id _ | .tlBool id _ | .tlInt id _ | .int id _ _ | .bool id _ | .tuple id _ | .proj id _ _
  | .field id _ _ | .cast id _ _ | .array id _ | .rep id _ _ _ | .elem id _ _ | .range id _ _ _
  | .block id _ _ | .ite id _ _ _ | .genIf id _ _ _ _ | .mtch id _ _ | .bin id _ _ _ | .un id _ _
  | .call id _ _ _ => id

/-- A unit: its generic parameters, its inputs (name and type), its result type and its body. -/
structure Unit where
  params : List (String × Kind)
  wheres : List Where
  inputs : List (Nat × TSpec)
  output : Option TSpec
  body : Exp

/-! ## Typing -/

/-- The types of a unit: of every id, of every name, and of its generic parameters; and for every call
the generic arguments of the callee. -/
structure Typing where
  id : Nat → Option GT
  name : Nat → Option GT
  gen : Generics
  call : Nat → Generics

/-- The integer `v` is a value of the type `t`: an `int` or `uint` that can represent it. At width 0
only `0` and, for `int`, `-1` can occur (C21 reports the latter). -/
def LitOk (t : GT) (v : Int) : Prop :=
  ∃ n : Nat, (t = tNum false n ∧ ∃ b : BitVec n, (b.toNat : Int) = v) ∨
    (t = tNum true n ∧ ((∃ b : BitVec n, b.toInt = v) ∨ (n = 0 ∧ v = -1)))

/-- The literal's own suffix is respected. -/
def LitKind.Ok : LitKind → GT → Prop
  | .unsized, _ => True
  | .signed none, t => ∃ n, t = tNum true n
  | .signed (some n), t => t = tNum true n
  | .unsigned none, t => ∃ n, t = tNum false n
  | .unsigned (some n), t => t = tNum false n

/-- Element `i` of a tuple; of a view of a tuple, a view of the element. -/
inductive ElemTy : GT → Nat → GT → Prop
  | tuple {ts i u} : ts[i]? = some u → ElemTy (tTup ts) i u
  | view {t i u} : ElemTy t i u → ElemTy (tView t) i (tView u)

/-- `t` is the struct `s<args>`, behind `inv` an odd (`flipped`) or even number of times. -/
inductive StructTy : GT → Bool → Nat → List GT → Prop
  | named {s args} : StructTy (.node (.named s) args) false s args
  | inv {t b s args} : StructTy t b s args → StructTy (tInv t) (!b) s args

/-- Field `f` of a struct; of an inverted struct, the inverse of the field's type; of a view of a
struct, a view of the field. -/
inductive FieldTy (Δ : Decls) : GT → String → GT → Prop
  | plain {t s args gs fs f spec u} : StructTy t false s args → Δ.structs s = some (gs, fs) →
      fs.lookup f = some spec → spec.Is (fun g => (gs.zip args).lookup g) u → FieldTy Δ t f u
  | flipped {t s args gs fs f spec u u'} : StructTy t true s args → Δ.structs s = some (gs, fs) →
      fs.lookup f = some spec → spec.Is (fun g => (gs.zip args).lookup g) u →
      (u' = tInv u ∨ u = tInv u') → FieldTy Δ t f u'
  | view {t f u} : FieldTy Δ t f u → FieldTy Δ (tView t) f (tView u)

/-- The types of a binary operator. -/
def BinOp.Ok (op : BinOp) (a b r : GT) : Prop :=
  match op with
  | .add | .sub => ∃ s n, a = tNum s n ∧ b = tNum s n ∧ r = tNum s (n + 1)
  | .mul => ∃ s n m, a = tNum s n ∧ b = tNum s m ∧ r = tNum s (n + m)
  | .div | .mod | .shl | .shr | .ashr => ∃ s n, a = tNum s n ∧ b = tNum s n ∧ r = tNum s n

/-- The types of a unary operator. -/
def UnOp.Ok (Δ : Decls) (op : UnOp) (a r : GT) : Prop :=
  match op with
  | .neg => ∃ n, a = tNum true n ∧ r = tNum true n
  | .bitNot => ∃ s n, a = tNum s n ∧ r = tNum s n
  | .not => a = tBool ∧ r = tBool
  | .deref => a = tView r ∧ Implements Δ.impls r trCopy []
  | .ref => r = tView a

/-- The generic arguments have the kinds of their parameters. -/
def KindsOk (ps : List (String × Kind)) (θ : Generics) : Prop :=
  ∀ p ∈ ps, ∃ t, θ p.1 = some t ∧ p.2.Holds t.head.val

/-- A condition holds. `free g` says whether parameter `g` was left for inference to determine. -/
def Where.Ok (Δ : Decls) (free : String → Prop) (θ : Generics) : Where → Prop
  | .bound target bs => free target → ∀ b ∈ bs, ∃ t args, θ target = some t ∧
      TExp.Are θ b.2 args ∧ Implements Δ.impls t b.1 args
  | .eq target e => ∃ t, θ target = some t ∧ ConstIs θ e t
  | .cmp k target e => ∃ x y, θ target = some (.node (.int x) []) ∧
      ConstIs θ e (.node (.int y) []) ∧ k.Holds x y

/-- Explicit generic arguments are respected. -/
def TurbofishOk (Γ : Generics) (ps : List (String × Kind)) (ts : List (Option TExp))
    (θ : Generics) : Prop :=
  ∀ p te, (p, some te) ∈ ps.zip ts → ∃ t, θ p.1 = some t ∧ te.Is Γ t

/-- The parameter was not given explicitly. -/
def FreeIn (ps : List (String × Kind)) (ts : List (Option TExp)) (g : String) : Prop :=
  ∀ p te, (p, some te) ∈ ps.zip ts → p.1 ≠ g

/-- The `i`th generic argument. -/
def argAt (ps : List (String × Kind)) (θ : Generics) (i : Nat) : Option GT :=
  (ps[i]?).bind (fun p => θ p.1)

/-- The width of an address into a memory of `n` elements. -/
def AddrWidth (n w : GT) : Prop :=
  ∃ (k : Int) (j : Nat), n = .node (.int k) [] ∧ w = tNat j ∧ (1 ≤ k → LeastUint (k - 1) j)

/-- The rules of special callees, on their generic arguments and the types of their arguments. -/
def Special.Ok (ps : List (String × Kind)) (θ : Generics) (args : List GT) : Special → Prop
  | .concat => ∃ s n m, argAt ps θ 0 = some (tNum s n) ∧ argAt ps θ 1 = some (tNum s m) ∧
      argAt ps θ 2 = some (tNum s (n + m))
  | .trunc => ∃ s n m, argAt ps θ 0 = some (tNum s n) ∧ argAt ps θ 1 = some (tNum s m)
  | .divMod => ∃ s n, argAt ps θ 0 = some (tNum s n)
  | .clockedMemory => ∃ n w, argAt ps θ 0 = some n ∧ argAt ps θ 2 = some w ∧ AddrWidth n w ∧
      ∃ a b k j, args[1]? = some (tArr (tTup [a, tNum false j, b]) k) ∧ w = tNat j
  | .readMemory => ∃ n w, argAt ps θ 2 = some n ∧ argAt ps θ 0 = some w ∧ AddrWidth n w

/-- A type specification that may be missing. -/
def OptIs (θ : Generics) (s : Option TSpec) (t : GT) : Prop := ∀ s', s = some s' → s'.Is θ t

/-- The result type: as written, or the unit type. -/
def OutIs (θ : Generics) (s : Option TSpec) (t : GT) : Prop :=
  match s with
  | some s => s.Is θ t
  | none => t = tTup []

/-- The generic arguments of a call, or of a constructor in a pattern, satisfy everything the callee
demands of them. -/
def GenericsOk (Δ : Decls) (Γ : Generics) (ps : List (String × Kind)) (ws : List Where)
    (ts : List (Option TExp)) (θ : Generics) : Prop :=
  KindsOk ps θ ∧ TurbofishOk Γ ps ts θ ∧ ∀ w ∈ ws, w.Ok Δ (FreeIn ps ts) θ

mutual
/-- The pattern is well typed. -/
def Pat.Ok (Δ : Decls) (Γ : Typing) : Pat → Prop
  | .int id v => ∃ t, Γ.id id = some t ∧ LitOk t v
  | .bool id _ => Γ.id id = some tBool
  | .bound id x _ none => ∃ t, Γ.id id = some t ∧ IsType t ∧ Γ.name x = some t
  | .bound id x _ (some p) => ∃ t, Γ.id id = some t ∧ IsType t ∧ Γ.name x = some t ∧
      Γ.id p.id = some t ∧ p.Ok Δ Γ
  | .tuple id ps => ∃ ts, Γ.id id = some (tTup ts) ∧ Pat.Oks Δ Γ ps ts
  | .array id ps => ∃ t, Γ.id id = some (tArr t ps.length) ∧ ps ≠ [] ∧
      Pat.Oks Δ Γ ps (List.replicate ps.length t)
  | .type id v ps => ∃ V θ t us, Δ.variants v = some V ∧ Γ.id id = some t ∧
      GenericsOk Δ Γ.gen V.params V.wheres [] θ ∧ V.self.Is θ t ∧
      TSpec.Are θ V.fields us ∧ Pat.Oks Δ Γ ps us
/-- The patterns are well typed and have the given types. -/
def Pat.Oks (Δ : Decls) (Γ : Typing) : List Pat → List GT → Prop
  | [], ts => ts = []
  | p :: ps, ts => ∃ u us, ts = u :: us ∧ Γ.id p.id = some u ∧ p.Ok Δ Γ ∧ Pat.Oks Δ Γ ps us
end

/-- The bounds of a range: what is written, which is also recorded under its id, or the end of the
array. -/
def BoundIs (Γ : Typing) (b : Option (Nat × TExpr)) (dflt v : Int) : Prop :=
  match b with
  | none => v = dflt
  | some (id, e) => Γ.id id = some (.node (.int v) []) ∧ ConstIs Γ.gen e (.node (.int v) [])

mutual
/-- The expression is well typed. -/
def Exp.Ok (Δ : Decls) (Γ : Typing) : Exp → Prop
  | .var id x => ∃ t, Γ.id id = some t ∧ IsType t ∧ Γ.name x = some t
  | .tlBool id _ => Γ.id id = some tBool
  | .tlInt id g => ∃ t v, Γ.id id = some t ∧ Γ.gen g = some (.node (.int v) []) ∧ LitOk t v
  | .int id v k => ∃ t, Γ.id id = some t ∧ LitOk t v ∧ k.Ok t
  | .bool id _ => Γ.id id = some tBool
  | .tuple id es => ∃ ts, Γ.id id = some (tTup ts) ∧ Exp.Oks Δ Γ es ts
  | .proj id e i => e.Ok Δ Γ ∧ ∃ t u, Γ.id e.id = some t ∧ Γ.id id = some u ∧ ElemTy t i u
  | .field id e f => e.Ok Δ Γ ∧ ∃ t u, Γ.id e.id = some t ∧ Γ.id id = some u ∧ IsType u ∧
      FieldTy Δ t f u
  | .cast id e s => e.Ok Δ Γ ∧ ∃ t, Γ.id e.id = some t ∧ Γ.id id = some t ∧ s.Is Γ.gen t
  | .array id es => ∃ t, Γ.id id = some (tArr t es.length) ∧ IsType t ∧
      Exp.Oks Δ Γ es (List.replicate es.length t)
  | .rep id e nid n => e.Ok Δ Γ ∧ ∃ t k, Γ.id e.id = some t ∧ Γ.id id = some (tArr t k) ∧
      Γ.id nid = some (tNat k) ∧ ConstIs Γ.gen n (tNat k)
  | .elem id a i => a.Ok Δ Γ ∧ i.Ok Δ Γ ∧ ∃ t n w, Γ.id a.id = some (tArr t n) ∧
      Γ.id id = some t ∧ Γ.id i.id = some (tNum false w) ∧ 1 ≤ n ∧ LeastUint ((n : Int) - 1) w
  | .range id a lo hi => a.Ok Δ Γ ∧ ∃ t n m s e, Γ.id a.id = some (tArr t n) ∧
      Γ.id id = some (tArr t m) ∧ BoundIs Γ lo 0 s ∧ BoundIs Γ hi n e ∧ s ≤ e ∧ e ≤ n ∧
      (m : Int) = e - s
  | .block id ss none => Stmt.Oks Δ Γ ss ∧ Γ.id id = some (tTup [])
  | .block id ss (some r) => Stmt.Oks Δ Γ ss ∧ r.Ok Δ Γ ∧ ∃ t, Γ.id r.id = some t ∧ Γ.id id = some t
  | .ite id c a b => c.Ok Δ Γ ∧ a.Ok Δ Γ ∧ b.Ok Δ Γ ∧ Γ.id c.id = some tBool ∧
      ∃ t, Γ.id a.id = some t ∧ Γ.id b.id = some t ∧ Γ.id id = some t
  | .genIf id _ c a b => a.Ok Δ Γ ∧ b.Ok Δ Γ ∧ (∃ v, ConstIs Γ.gen c (.node (.bool v) [])) ∧
      ∃ t, Γ.id a.id = some t ∧ Γ.id b.id = some t ∧ Γ.id id = some t
  | .mtch id c arms => c.Ok Δ Γ ∧ arms ≠ [] ∧ ∃ tc t, Γ.id c.id = some tc ∧ Γ.id id = some t ∧
      Arm.Oks Δ Γ tc t arms
  | .bin id op a b => a.Ok Δ Γ ∧ b.Ok Δ Γ ∧ ∃ ta tb t, Γ.id a.id = some ta ∧ Γ.id b.id = some tb ∧
      Γ.id id = some t ∧ op.Ok ta tb t
  | .un id op a => a.Ok Δ Γ ∧ ∃ ta t, Γ.id a.id = some ta ∧ Γ.id id = some t ∧ op.Ok Δ ta t
  | .call id f ts as => ∃ h us t, Δ.heads f = some h ∧ GenericsOk Δ Γ.gen h.params h.wheres ts (Γ.call id) ∧
      TSpec.Are (Γ.call id) h.inputs us ∧ Exp.Oks Δ Γ as us ∧ Γ.id id = some t ∧
      OutIs (Γ.call id) h.output t ∧ ∀ sp, h.special = some sp → sp.Ok h.params (Γ.call id) us
/-- The expressions are well typed and have the given types. -/
def Exp.Oks (Δ : Decls) (Γ : Typing) : List Exp → List GT → Prop
  | [], ts => ts = []
  | e :: es, ts => ∃ u us, ts = u :: us ∧ Γ.id e.id = some u ∧ e.Ok Δ Γ ∧ Exp.Oks Δ Γ es us
/-- The branches match on values of type `tc` and give values of type `t`. -/
def Arm.Oks (Δ : Decls) (Γ : Typing) (tc t : GT) : List Arm → Prop
  | [] => True
  | .mk p none e :: as => (p.Ok Δ Γ ∧ Γ.id p.id = some tc ∧ e.Ok Δ Γ ∧ Γ.id e.id = some t) ∧
      Arm.Oks Δ Γ tc t as
  | .mk p (some g) e :: as => (p.Ok Δ Γ ∧ Γ.id p.id = some tc ∧ (g.Ok Δ Γ ∧ Γ.id g.id = some tBool) ∧
      e.Ok Δ Γ ∧ Γ.id e.id = some t) ∧ Arm.Oks Δ Γ tc t as
/-- The statement is well typed. -/
def Stmt.Ok (Δ : Decls) (Γ : Typing) : Stmt → Prop
  | .bind p ty e => e.Ok Δ Γ ∧ p.Ok Δ Γ ∧ ∃ t, Γ.id p.id = some t ∧ Γ.id e.id = some t ∧
      OptIs Γ.gen ty t
  | .expr e => e.Ok Δ Γ
  | .assert e => e.Ok Δ Γ ∧ Γ.id e.id = some tBool
  | .decl xs => ∀ x ∈ xs, ∃ t, Γ.name x = some t ∧ IsType t
  | .set a b => a.Ok Δ Γ ∧ b.Ok Δ Γ ∧ ∃ t, Γ.id a.id = some (tInv t) ∧ Γ.id b.id = some t
  | .reg p ty clk none none v => p.Ok Δ Γ ∧ clk.Ok Δ Γ ∧ v.Ok Δ Γ ∧ Γ.id clk.id = some tClock ∧
      ∃ t, Γ.id p.id = some t ∧ Γ.id v.id = some t ∧ OptIs Γ.gen ty t
  | .reg p ty clk none (some i) v => p.Ok Δ Γ ∧ clk.Ok Δ Γ ∧ v.Ok Δ Γ ∧ i.Ok Δ Γ ∧
      Γ.id clk.id = some tClock ∧ ∃ t, Γ.id p.id = some t ∧ Γ.id v.id = some t ∧
      Γ.id i.id = some t ∧ OptIs Γ.gen ty t
  | .reg p ty clk (some (c, r)) none v => p.Ok Δ Γ ∧ clk.Ok Δ Γ ∧ v.Ok Δ Γ ∧ c.Ok Δ Γ ∧ r.Ok Δ Γ ∧
      Γ.id clk.id = some tClock ∧ Γ.id c.id = some tBool ∧ ∃ t, Γ.id p.id = some t ∧
      Γ.id v.id = some t ∧ Γ.id r.id = some t ∧ OptIs Γ.gen ty t
  | .reg p ty clk (some (c, r)) (some i) v => p.Ok Δ Γ ∧ clk.Ok Δ Γ ∧ v.Ok Δ Γ ∧ c.Ok Δ Γ ∧
      r.Ok Δ Γ ∧ i.Ok Δ Γ ∧ Γ.id clk.id = some tClock ∧ Γ.id c.id = some tBool ∧
      ∃ t, Γ.id p.id = some t ∧ Γ.id v.id = some t ∧ Γ.id r.id = some t ∧ Γ.id i.id = some t ∧
      OptIs Γ.gen ty t
/-- All statements are well typed. -/
def Stmt.Oks (Δ : Decls) (Γ : Typing) : List Stmt → Prop
  | [] => True
  | s :: ss => s.Ok Δ Γ ∧ Stmt.Oks Δ Γ ss
end

/-- The unit is well typed: its generic parameters satisfy its own conditions, its inputs and its
result have the types it declares, and its body is well typed. -/
def UnitOk (Δ : Decls) (Γ : Typing) (u : Unit) : Prop :=
  GenericsOk Δ Γ.gen u.params u.wheres [] Γ.gen ∧
  (∀ i ∈ u.inputs, ∃ t, Γ.name i.1 = some t ∧ i.2.Is Γ.gen t) ∧
  u.body.Ok Δ Γ ∧ ∃ t, Γ.id u.body.id = some t ∧ OutIs Γ.gen u.output t

end Spade.Check

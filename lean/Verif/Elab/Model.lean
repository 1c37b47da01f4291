import Verif.Check.Spec
import Verif.Expr.Accept

/-!
# From types to hardware types, and from units to typed expressions (C62): model

Type inference gives every expression of a unit a ground type. This models how lowering reads these
types: `inner_ungenerify_type` and `type_decl_to_concrete`
(`/repo/spade-typeinference/src/mir_type_lowering.rs:80-348`) followed by `to_mir_type`
(`/repo/spade-hir-lowering/src/lib.rs:227-317`), and what each node of a unit becomes
(`/repo/spade-hir-lowering/src/lib.rs:1255-2540`) up to the typed expressions of `Verif/Expr`.

Left out: inverted types, which functions of the modelled kind do not have (so
`resolve_recursive_inversions` changes nothing), aliases, and type-level `if`, which is replaced by
calls before (C53). Nothing (`none`) stands for an error or panic.
-/

namespace Spade.Elab

open Spade.Infer.Spec (Kind Base GT)
open Spade.Check
open Spade.Codegen (MTy)
open Spade.Lower (LPat)

/-! ## Types -/

/-- `PrimitiveType` (spade-types/src/lib.rs). -/
inductive Prim where
  | bool | clock | tri | int | uint | memory | inout

/-- `hir::TypeDeclKind` (spade-hir/src/lib.rs) without aliases; an enum has the types of the
arguments of its variants, a struct its fields. -/
inductive TDef where
  | prim (p : Prim)
  | struct (fs : List (String × TSpec))
  | enum (os : List (List TSpec))

/-- `hir::TypeDeclaration`: the generic parameters and the right-hand side. -/
structure TDecl where
  params : List String
  dfn : TDef

/-- A generic argument of a type: a type or a type-level value (`ConcreteType::{Integer, Bool,
String}`). -/
inductive Conc where
  | ty (t : MTy)
  | int (i : Int)
  | bool (b : Bool)
  | str (s : String)

/-- The argument is a type. -/
def Conc.mty : Conc → Option MTy
  | .ty t => some t
  | _ => none

/-- All arguments are types. -/
def concTys : List Conc → Option (List MTy)
  | [] => some []
  | c :: cs => do
    let t ← c.mty
    let ts ← concTys cs
    pure (t :: ts)

/-- `to_mir_type` of a primitive type (spade-hir-lowering/src/lib.rs:249-292). -/
def primTy : Prim → List Conc → Option MTy
  | .bool, _ | .clock, _ | .tri, _ => some .bool
  | .int, [.int i] => if 0 ≤ i then some (.int i.toNat) else none
  | .uint, [.int i] => if 0 ≤ i then some (.uint i.toNat) else none
  | .memory, [.ty t, .int i] => if 0 ≤ i then some (.memory t i.toNat) else none
  | .inout, [.ty t] => some (.inout t)
  | _, _ => none

/-- An array of the type and size given (spade-hir-lowering/src/lib.rs:245-248). -/
def arrayTy : Conc → Conc → Option Conc
  | .ty t, .int i => if 0 ≤ i then some (.ty (.array t i.toNat)) else none
  | _, _ => none

mutual
/-- `type_spec_to_concrete` (mir_type_lowering.rs:207-273) and `to_mir_type`. `D` is
`type_decl_to_concrete` and `σ` the substitution of generic parameters. -/
def specConc (D : Nat → List Conc → Option Conc) (σ : String → Option Conc) : TSpec → Option Conc
  | .declared n ps => (expConcs D σ ps).bind (D n)
  | .generic g => σ g
  | .tuple ts => do
    let cs ← specConcs D σ ts
    let ms ← concTys cs
    pure (.ty (.tuple ms))
  | .array t n => do
    let t ← specConc D σ t
    let n ← expConc D σ n
    arrayTy t n
  | .copyView t => do
    let t ← specConc D σ t
    let m ← t.mty
    pure (.ty (.copyView m))
  | .inverted _ | .wildcard => none
/-- Pointwise. -/
def specConcs (D : Nat → List Conc → Option Conc) (σ : String → Option Conc) :
    List TSpec → Option (List Conc)
  | [] => some []
  | t :: ts => do
    let c ← specConc D σ t
    let cs ← specConcs D σ ts
    pure (c :: cs)
/-- `type_expr_to_concrete` (mir_type_lowering.rs:188-205). -/
def expConc (D : Nat → List Conc → Option Conc) (σ : String → Option Conc) : TExp → Option Conc
  | .bool b => some (.bool b)
  | .int i => some (.int i)
  | .str s => some (.str s)
  | .spec t => specConc D σ t
  | .const _ => none
/-- Pointwise. -/
def expConcs (D : Nat → List Conc → Option Conc) (σ : String → Option Conc) :
    List TExp → Option (List Conc)
  | [] => some []
  | t :: ts => do
    let c ← expConc D σ t
    let cs ← expConcs D σ ts
    pure (c :: cs)
end

/-- All lists of types. -/
def specTyss (f : List TSpec → Option (List Conc)) : List (List TSpec) → Option (List (List MTy))
  | [] => some []
  | o :: os => do
    let cs ← f o
    let ts ← concTys cs
    let tss ← specTyss f os
    pure (ts :: tss)

/-- The right-hand side of a declaration with the parameters replaced. -/
def defConc (D : Nat → List Conc → Option Conc) (σ : String → Option Conc) (args : List Conc) :
    TDef → Option Conc
  | .prim p => (primTy p args).map .ty
  | .struct fs => do
    let cs ← specConcs D σ (fs.map (·.2))
    let ts ← concTys cs
    pure (.ty (.struct ts))
  | .enum os => do
    let tss ← specTyss (specConcs D σ) os
    pure (.ty (.enum tss))

/-- `type_decl_to_concrete` (mir_type_lowering.rs:81-186) and `to_mir_type`. The first argument
bounds how deep declarations refer to others; the code has no bound, and rejects declarations that
contain themselves. -/
def declConc (T : Nat → Option TDecl) : Nat → Nat → List Conc → Option Conc
  | 0, _, _ => none
  | k + 1, n, args =>
    match T n with
    | none => none
    | some d =>
      if args.length = d.params.length then
        defConc (declConc T k) (fun g => (d.params.zip args).lookup g) args d.dfn
      else none

mutual
/-- `inner_ungenerify_type` (mir_type_lowering.rs:276-348) and `to_mir_type`. -/
def groundConc (D : Nat → List Conc → Option Conc) : GT → Option Conc
  | .node (.named n) args => (groundConcs D args).bind (D n)
  | .node (.int i) _ => some (.int i)
  | .node (.bool b) _ => some (.bool b)
  | .node (.str s) _ => some (.str s)
  | .node .tuple args => do
    let cs ← groundConcs D args
    let ms ← concTys cs
    pure (.ty (.tuple ms))
  | .node .array args => do
    let cs ← groundConcs D args
    match cs with
    | [t, n] => arrayTy t n
    | _ => none
  | .node .copyView args => do
    let cs ← groundConcs D args
    match cs with
    | [.ty m] => some (.ty (.copyView m))
    | _ => none
  | .node .inverted _ => none
/-- Pointwise. -/
def groundConcs (D : Nat → List Conc → Option Conc) : List GT → Option (List Conc)
  | [] => some []
  | t :: ts => do
    let c ← groundConc D t
    let cs ← groundConcs D ts
    pure (c :: cs)
end

/-! ## What lowering refers to -/

/-- What a name that is called or used in a pattern refers to: `hir::ExecutableItem`
(spade-hir/src/lib.rs) and the functions that `handle_call` treats specially
(spade-hir-lowering/src/lib.rs:2283-2323). -/
inductive Item where
  | intr (i : Expr.Intr)
  | variant (n : Nat) (i : Nat)
  | struct (n : Nat)
  | unit

/-- The context of lowering: declarations of types, how deep they are, what names refer to, and the
names monomorphisation has given to units with generic arguments (`request_compilation`,
spade-hir-lowering/src/monomorphisation.rs:106-160; see C34). -/
structure Ctx where
  types : Nat → Option TDecl
  depth : Nat
  items : Nat → Option Item
  heads : Nat → Option Head
  inst : Nat → List GT → Option Nat

/-- The hardware type of a ground type. -/
def Ctx.mir (X : Ctx) (t : GT) : Option MTy :=
  (groundConc (declConc X.types X.depth) t).bind Conc.mty

/-- The hardware type of an id: `concrete_type_of(..).to_mir_type()`. -/
def Ctx.idTy (X : Ctx) (Γ : Typing) (id : Nat) : Option MTy := (Γ.id id).bind X.mir

/-- The hardware type of a name. -/
def Ctx.nameTy (X : Ctx) (Γ : Typing) (x : Nat) : Option MTy := (Γ.name x).bind X.mir

/-- The signal of an expression or pattern (`ValueName::Expr`). -/
def sigId (id : Nat) : Nat := 2 * id
/-- The signal of a variable (`ValueName::Named`). -/
def sigName (x : Nat) : Nat := 2 * x + 1

/-- `resolve_int` (spade-hir-lowering/src/const_generic.rs:13-24) and `to_biguint`. -/
def natAt (Γ : Typing) (id : Nat) : Option Nat :=
  match Γ.id id with
  | some (.node (.int i) _) => if 0 ≤ i then some i.toNat else none
  | _ => none

/-- A bound of a range, if there is one (lib.rs:1720-1735). -/
def boundAt (Γ : Typing) : Option (Nat × Infer.Spec.TExpr) → Option (Option Nat)
  | none => some none
  | some (id, _) => (natAt Γ id).map some

/-- The value of a type-level integer (lib.rs:1289-1322). -/
def intGen (Γ : Typing) (g : String) : Option Int :=
  match Γ.gen g with
  | some (.node (.int i) _) => some i
  | _ => none

/-- The value of a type-level boolean (lib.rs:1343-1376). -/
def boolGen (Γ : Typing) (g : String) : Option Bool :=
  match Γ.gen g with
  | some (.node (.bool b) _) => some b
  | _ => none

/-- Binary operators. -/
def binOp : BinOp → Codegen.SrcBin
  | .add => .add | .sub => .sub | .mul => .mul | .div => .div | .mod => .mod
  | .shl => .shl | .shr => .shr | .ashr => .ashr

/-- Unary operators. -/
def unOp : UnOp → Expr.SrcUn
  | .neg => .neg | .bitNot => .bitNot | .not => .not | .deref => .deref | .ref => .ref

/-- The struct a type is, below views (lib.rs:1600-1640). -/
def structOf : GT → Option Nat
  | .node (.named n) _ => some n
  | .node .copyView [t] => structOf t
  | _ => none

/-- The names of the fields of a struct. -/
def fieldNames (X : Ctx) (n : Nat) : Option (List String) :=
  match X.types n with
  | some ⟨_, .struct fs⟩ => some (fs.map (·.1))
  | _ => none

/-- The generic arguments of a call in the order of the parameters (lib.rs:2368-2387). -/
def callArgs (ps : List (String × Kind)) (θ : Generics) : Option (List GT) :=
  match ps with
  | [] => some []
  | p :: ps => do
    let t ← θ p.1
    let ts ← callArgs ps θ
    pure (t :: ts)

/-- What a call refers to (`handle_call`, lib.rs:2223-2540). -/
def callee (X : Ctx) (Γ : Typing) (id f : Nat) : Option Expr.Callee :=
  match X.items f, X.heads f with
  | some (.intr i), _ => some (.intr i)
  | some (.variant _ i), _ => some (.variant i)
  | some (.struct _), _ => some .struct
  | some .unit, some h => do
    let as ← callArgs h.params (Γ.call id)
    let u ← X.inst f as
    pure (.unit u)
  | _, _ => none

/-! ## Patterns, expressions and units -/

mutual
/-- A pattern with the types of its parts (lib.rs:845-1020). -/
def elabPat (X : Ctx) (Γ : Typing) : Pat → Option LPat
  | .int id v => do
    let t ← X.idTy Γ id
    pure (.int (sigId id) t v)
  | .bool id b => some (.bool (sigId id) b)
  | .bound id x _ none => do
    let t ← X.idTy Γ id
    pure (.bound (sigName x) t)
  | .bound id x _ (some p) => do
    let t ← X.idTy Γ id
    let q ← elabPat X Γ p
    pure (.boundInner (sigName x) t q)
  | .tuple id ps => do
    let t ← X.idTy Γ id
    let qs ← elabPats X Γ ps
    pure (.tuple (sigId id) t qs)
  | .array id ps => do
    let t ← X.idTy Γ id
    let qs ← elabPats X Γ ps
    pure (.array (sigId id) t qs)
  | .type id v ps => do
    let t ← X.idTy Γ id
    let qs ← elabPats X Γ ps
    match X.items v with
    | some (.variant _ i) => pure (.variant (sigId id) t i qs)
    | some (.struct _) => pure (.struct (sigId id) t qs)
    | _ => none
/-- Pointwise. -/
def elabPats (X : Ctx) (Γ : Typing) : List Pat → Option (List LPat)
  | [] => some []
  | p :: ps => do
    let q ← elabPat X Γ p
    let qs ← elabPats X Γ ps
    pure (q :: qs)
end

mutual
/-- An expression with the types of its parts (lib.rs:1264-2180). -/
def elabE (X : Ctx) (Γ : Typing) : Exp → Option Expr.Expr
  | .var id x => do
    let t ← X.idTy Γ id
    pure (.var (sigName x) t)
  | .tlBool id g => do
    let b ← boolGen Γ g
    pure (.bool (sigId id) b)
  | .tlInt id g => do
    let t ← X.idTy Γ id
    let z ← intGen Γ g
    pure (.int (sigId id) t z)
  | .int id v _ => do
    let t ← X.idTy Γ id
    pure (.int (sigId id) t v)
  | .bool id b => some (.bool (sigId id) b)
  | .tuple id es => do
    let t ← X.idTy Γ id
    let xs ← elabs X Γ es
    pure (.tuple (sigId id) t xs)
  | .proj id e k => do
    let t ← X.idTy Γ id
    let x ← elabE X Γ e
    pure (.proj (sigId id) t x k)
  | .field id e f => do
    let t ← X.idTy Γ id
    let x ← elabE X Γ e
    let s ← (Γ.id e.id).bind structOf
    let fs ← fieldNames X s
    pure (.field (sigId id) t x fs f)
  | .cast id e _ => do
    let t ← X.idTy Γ id
    let x ← elabE X Γ e
    pure (.cast (sigId id) t x)
  | .array id es => do
    let t ← X.idTy Γ id
    let xs ← elabs X Γ es
    pure (.array (sigId id) t xs)
  | .rep id e nid _ => do
    let t ← X.idTy Γ id
    let x ← elabE X Γ e
    let n ← natAt Γ nid
    pure (.rep (sigId id) t x n)
  | .elem id a i => do
    let t ← X.idTy Γ id
    let x ← elabE X Γ a
    let y ← elabE X Γ i
    pure (.elem (sigId id) t x y)
  | .range id a lo hi => do
    let t ← X.idTy Γ id
    let x ← elabE X Γ a
    let s ← boundAt Γ lo
    let e ← boundAt Γ hi
    pure (.range (sigId id) t x s e)
  | .block id ss none => do
    let ts ← elabStms X Γ ss
    pure (.unitBlock (sigId id) ts)
  | .block id ss (some r) => do
    let ts ← elabStms X Γ ss
    let x ← elabE X Γ r
    pure (.block (sigId id) ts x)
  | .ite id c a b => do
    let t ← X.idTy Γ id
    let x ← elabE X Γ c
    let y ← elabE X Γ a
    let z ← elabE X Γ b
    pure (.ite (sigId id) t x y z)
  | .genIf .. => none
  | .mtch id c arms => do
    let t ← X.idTy Γ id
    let x ← elabE X Γ c
    let as ← elabArms X Γ arms
    pure (.match (sigId id) t x as)
  | .bin id op a b => do
    let t ← X.idTy Γ id
    let x ← elabE X Γ a
    let y ← elabE X Γ b
    pure (.bin (sigId id) t (binOp op) x y)
  | .un id op a => do
    let t ← X.idTy Γ id
    let x ← elabE X Γ a
    pure (.un (sigId id) t (unOp op) x)
  | .call id f _ args => do
    let t ← X.idTy Γ id
    let xs ← elabs X Γ args
    let c ← callee X Γ id f
    pure (.call (sigId id) t c xs)
/-- Pointwise. -/
def elabs (X : Ctx) (Γ : Typing) : List Exp → Option (List Expr.Expr)
  | [] => some []
  | e :: es => do
    let x ← elabE X Γ e
    let xs ← elabs X Γ es
    pure (x :: xs)
/-- The arms of a `match`. -/
def elabArms (X : Ctx) (Γ : Typing) : List Arm → Option (List Expr.Arm)
  | [] => some []
  | .mk p none e :: as => do
    let q ← elabPat X Γ p
    let x ← elabE X Γ e
    let xs ← elabArms X Γ as
    pure (.plain q x :: xs)
  | .mk p (some g) e :: as => do
    let q ← elabPat X Γ p
    let y ← elabE X Γ g
    let x ← elabE X Γ e
    let xs ← elabArms X Γ as
    pure (.guarded q y x :: xs)
/-- The statements of a block; registers and `set` are not allowed in functions (C26). -/
def elabStms (X : Ctx) (Γ : Typing) : List Stmt → Option (List Expr.Stm)
  | [] => some []
  | .bind p _ e :: ss => do
    let q ← elabPat X Γ p
    let x ← elabE X Γ e
    let xs ← elabStms X Γ ss
    pure (.bind q x :: xs)
  | .expr e :: ss => do
    let x ← elabE X Γ e
    let xs ← elabStms X Γ ss
    pure (.expr x :: xs)
  | .assert e :: ss => do
    let x ← elabE X Γ e
    let xs ← elabStms X Γ ss
    pure (.assert x :: xs)
  | .decl _ :: ss => do
    let xs ← elabStms X Γ ss
    pure (.decl :: xs)
  | .set _ _ :: _ => none
  | .reg .. :: _ => none
end

/-- The inputs of a unit with their types (lib.rs:3700-3760). -/
def elabInputs (X : Ctx) (Γ : Typing) : List (Nat × TSpec) → Option (List (Nat × MTy))
  | [] => some []
  | i :: is => do
    let t ← X.nameTy Γ i.1
    let ts ← elabInputs X Γ is
    pure ((sigName i.1, t) :: ts)

/-- A unit (`generate_unit`, lib.rs:3660-3860); `T` are the types signals are declared with. -/
def elabUnit (X : Ctx) (Γ : Typing) (T : Nat → MTy) (u : Check.Unit) : Option Expr.Fn := do
  let ps ← elabInputs X Γ u.inputs
  let b ← elabE X Γ u.body
  pure ⟨ps, b, T⟩

/-- A monomorphised unit: the source unit, its generic arguments, the types inference found for
it (`monomorphize_item`, spade-hir-lowering/src/monomorphisation.rs:340-470) and the types signals are
declared with. -/
structure Inst where
  name : Nat
  args : List GT
  unit : Check.Unit
  types : Typing
  signals : Nat → MTy

/-- The function lowering sees. -/
def Inst.fn (X : Ctx) (i : Inst) : Option Expr.Fn := elabUnit X i.types i.signals i.unit

/-- The program. -/
def elabProg (X : Ctx) (insts : Nat → Option Inst) : Expr.Prog := fun u =>
  (insts u).bind fun i => i.fn X

end Spade.Elab

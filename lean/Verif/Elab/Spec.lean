import Verif.Elab.Model

/-!
# From types to hardware types (C62): specification

How the declarations a unit refers to are connected with those lowering sees, the signatures of the
functions the compiler generates code for itself, and the conditions on widths that type inference does
not check.
-/

namespace Spade.Elab

open Spade.Infer.Spec (Kind Base GT TExpr)
open Spade.Check
open Spade.Codegen (MTy IsNum)
open Spade.Lower (LPat)

/-! ## Declarations -/

/-- The type `n<ps>` a constructor gives (`/repo/spade-ast-lowering/src/global_symbols.rs:700-985`). -/
def selfSpec (n : Nat) (ps : List (String × Kind)) : TSpec :=
  .declared n (ps.map fun p => .spec (.generic p.1))

/-- The type parameter `T`. -/
def gT : TSpec := .generic "T"
/-- `bool`. -/
def sBool : TSpec := .declared 0 []
/-- `[bool; N]`. -/
def sBits : TSpec := .array sBool (.spec (.generic "N"))

/-- `M >= N`. -/
def wider : Where := .cmp .geq "M" (.name "N")

/-- The signatures of the functions the compiler generates code for itself
(`/repo/spade-compiler/core/conv.spade:11`, `core/ops.spade:473-501`, `stdlib/num.spade:37-88`,
`stdlib/ops.spade:117-175`). -/
def intrHead : Expr.Intr → Head
  | .transmute => ⟨[("T", .type), ("O", .type)], [], [gT], some (.generic "O"), none⟩
  | .cmp .eq | .cmp .ne => ⟨[("T", .type)], [], [gT, gT], some sBool, none⟩
  | .cmp _ => ⟨[("N", .uint), ("T", .type)], [.bound "T" [(trNumber, [.spec (.generic "N")])]], [gT, gT],
      some sBool, none⟩
  | .bitNot => ⟨[("N", .uint)], [], [sBits], some sBits, none⟩
  | .bitAnd | .bitOr | .bitXor => ⟨[("N", .uint)], [], [sBits, sBits], some sBits, none⟩
  | .trunc => ⟨[("N", .type), ("M", .type)], [], [.generic "N"], some (.generic "M"), some .trunc⟩
  | .sext => ⟨[("N", .uint), ("M", .uint)], [wider], [.declared 1 [.spec (.generic "N")]],
      some (.declared 1 [.spec (.generic "M")]), none⟩
  | .zext => ⟨[("N", .uint), ("M", .uint)], [wider], [.declared 2 [.spec (.generic "N")]],
      some (.declared 2 [.spec (.generic "M")]), none⟩
  | .concat => ⟨[("N", .type), ("M", .type), ("K", .type)], [], [.generic "N", .generic "M"],
      some (.generic "K"), some .concat⟩
  | .reduceAnd | .reduceOr | .reduceXor => ⟨[("N", .uint)], [], [sBits], some sBool, none⟩
  | .combDiv | .combMod => ⟨[("T", .type)], [], [gT, gT], some gT, some .divMod⟩

/-- What name `f` refers to is declared as such: constructors have the parameters and fields of their
type and give that type (`/repo/spade-ast-lowering/src/global_symbols.rs:591-985`). -/
def ItemOk (X : Ctx) (Δ : Decls) (f : Nat) : Item → Prop
  | .intr i => Δ.heads f = some (intrHead i)
  | .variant n i => ∃ ps ws os fs, X.types n = some ⟨ps.map (·.1), .enum os⟩ ∧ os[i]? = some fs ∧
      Δ.heads f = some ⟨ps, ws, fs, some (selfSpec n ps), none⟩ ∧
      Δ.variants f = some ⟨ps, ws, selfSpec n ps, fs⟩
  | .struct n => ∃ ps ws fs, X.types n = some ⟨ps.map (·.1), .struct fs⟩ ∧
      Δ.heads f = some ⟨ps, ws, fs.map (·.2), some (selfSpec n ps), none⟩ ∧
      Δ.variants f = some ⟨ps, ws, selfSpec n ps, fs.map (·.2)⟩
  | .unit => True

/-- Type inference and lowering see the same declarations. The types `bool`, `int`, `uint` and `clock`
are primitive (`/repo/spade-compiler/core/lib.spade`), and the fields of a struct have different names
(`/repo/spade-ast-lowering/src/lib.rs:655-665`). -/
structure Coherent (X : Ctx) (Δ : Decls) : Prop where
  bool : X.types 0 = some ⟨[], .prim .bool⟩
  int : ∃ g, X.types 1 = some ⟨[g], .prim .int⟩
  uint : ∃ g, X.types 2 = some ⟨[g], .prim .uint⟩
  clock : X.types 3 = some ⟨[], .prim .clock⟩
  structs : ∀ n gs fs, Δ.structs n = some (gs, fs) →
    X.types n = some ⟨gs, .struct fs⟩ ∧ (fs.map (·.1)).Nodup
  items : ∀ f i, X.items f = some i → ItemOk X Δ f i
  depth : X.depth ≠ 0
  heads : X.heads = Δ.heads

/-! ## Signatures -/

/-- The names in a type-level expression. -/
def exprNames : TExpr → List String
  | .name n => [n]
  | .bool _ | .int _ | .str _ => []
  | .add a b | .sub a b | .mul a b | .div a b | .mod a b | .eq a b | .neq a b | .lt a b | .gt a b
  | .le a b | .ge a b | .and a b | .or a b | .xor a b => exprNames a ++ exprNames b
  | .neg a | .not a | .paren a | .intBits a | .uintBits a => exprNames a

mutual
/-- The type as written refers to the parameters `ps` only, has no `_`
(`/repo/spade-ast-lowering/src/lib.rs:559-592`), and what it computes at the
generic arguments `θ` stays where the evaluator is right (see `ConstIs`). -/
def TFixed (θ : Generics) (ps : List String) : TSpec → Prop
  | .declared _ es => EFixeds θ ps es
  | .generic g => g ∈ ps
  | .tuple ts => TFixeds θ ps ts
  | .array t n => TFixed θ ps t ∧ EFixed θ ps n
  | .inverted t | .copyView t => TFixed θ ps t
  | .wildcard => False
/-- All of them. -/
def TFixeds (θ : Generics) (ps : List String) : List TSpec → Prop
  | [] => True
  | t :: ts => TFixed θ ps t ∧ TFixeds θ ps ts
/-- The same for generic arguments. -/
def EFixed (θ : Generics) (ps : List String) : TExp → Prop
  | .bool _ | .int _ | .str _ => True
  | .spec t => TFixed θ ps t
  | .const e => (∀ n ∈ exprNames e, n ∈ ps) ∧ Infer.Careful θ.vals e
/-- All of them. -/
def EFixeds (θ : Generics) (ps : List String) : List TExp → Prop
  | [] => True
  | t :: ts => EFixed θ ps t ∧ EFixeds θ ps ts
end

/-- The result type, if there is one, is fixed. -/
def OutFixed (θ : Generics) (ps : List String) : Option TSpec → Prop
  | none => True
  | some s => TFixed θ ps s

/-! ## Widths -/

/-- Conditions on widths in calls of functions the compiler generates code for itself, which type
inference does not check (see `Expr.IntrTy` for why they are needed). For `lt`, `le`, `gt` and `ge`:
that the operands are numbers is not checked if the type is given explicitly. -/
def IntrSide : Expr.Intr → List MTy → MTy → Prop
  | .transmute, ts, ty => ∀ t ∈ ts, t.size = ty.size ∧ Expr.Readable t ty
  | .cmp .eq, ts, _ | .cmp .ne, ts, _ => ∀ t ∈ ts, Expr.Exact t
  | .cmp _, ts, _ => ∀ t ∈ ts, IsNum t
  | .bitNot, ts, _ | .bitAnd, ts, _ | .bitOr, ts, _ | .bitXor, ts, _ | .reduceAnd, ts, _
  | .reduceOr, ts, _ | .reduceXor, ts, _ | .combDiv, ts, _ | .combMod, ts, _ => ∀ t ∈ ts, t.size ≠ 0
  | .trunc, ts, ty => ∀ t ∈ ts, ty.size ≤ t.size ∧ (2 ≤ t.size ∨ ty.size = 0)
  | .sext, ts, ty => ∀ t ∈ ts, (2 ≤ t.size ∨ t.size = ty.size) ∧ t.size ≤ 2 ^ 32
  | .zext, ts, ty => ∀ t ∈ ts, 1 ≤ t.size ∨ t.size = ty.size
  | .concat, _, _ => True

mutual
/-- No literal `-1` of width 0 is in the pattern. -/
def ZeroLits : LPat → Prop
  | .int _ ty z => ty.size = 0 → z = 0
  | .bool _ _ | .bound _ _ => True
  | .boundInner _ _ p => ZeroLits p
  | .tuple _ _ ps | .array _ _ ps | .struct _ _ ps | .variant _ _ _ ps => ZeroLitss ps
/-- The same for a list. -/
def ZeroLitss : List LPat → Prop
  | [] => True
  | p :: ps => ZeroLits p ∧ ZeroLitss ps
end

/-- A pattern whose parts can be read. -/
def PatSized (p : LPat) : Prop := p.Readable ∧ p.ty.size ≤ 2 ^ 32 ∧ ZeroLits p

mutual
/-- The conditions on widths that C45 needs and type inference does not check: operands are not empty,
vectors that are indexed have at most 2 ^ 32 bits, and no literal `-1` has width 0. -/
def Sized : Expr.Expr → Prop
  | .var _ _ | .bool _ _ => True
  | .int _ ty z => ty.size = 0 → z = 0
  | .bin _ _ _ l r => l.ty.size ≠ 0 ∧ r.ty.size ≠ 0 ∧ Sized l ∧ Sized r
  | .un _ _ .neg e | .un _ _ .bitNot e => e.ty.size ≠ 0 ∧ Sized e
  | .un _ _ _ e => Sized e
  | .tuple _ _ es | .array _ _ es => Sizeds es
  | .proj _ _ e _ | .field _ _ e _ _ => e.ty.size ≤ 2 ^ 32 ∧ Sized e
  | .cast _ _ e | .rep _ _ e _ => Sized e
  | .elem _ _ a i => a.ty.size ≤ 2 ^ 32 ∧ Sized a ∧ Sized i
  | .range _ _ a _ _ => a.ty.size ≤ 2 ^ 32 ∧ Sized a
  | .block _ ss e => SizedStms ss ∧ Sized e
  | .unitBlock _ ss => SizedStms ss
  | .ite _ _ c a b => Sized c ∧ Sized a ∧ Sized b
  | .match _ _ e arms => e.ty.size ≤ 2 ^ 32 ∧ Sized e ∧ SizedArms arms
  | .call _ ty (.intr i) args => IntrSide i (args.map Expr.Expr.ty) ty ∧ Sizeds args
  | .call _ _ _ args => Sizeds args
/-- All of them. -/
def Sizeds : List Expr.Expr → Prop
  | [] => True
  | e :: es => Sized e ∧ Sizeds es
/-- All of them. -/
def SizedStms : List Expr.Stm → Prop
  | [] => True
  | .bind p e :: ss => PatSized p ∧ Sized e ∧ SizedStms ss
  | .expr e :: ss | .assert e :: ss => Sized e ∧ SizedStms ss
  | .decl :: ss => SizedStms ss
/-- All of them. -/
def SizedArms : List Expr.Arm → Prop
  | [] => True
  | .plain p e :: as => PatSized p ∧ Sized e ∧ SizedArms as
  | .guarded p g e :: as => PatSized p ∧ Sized g ∧ Sized e ∧ SizedArms as
end

/-! ## Instances -/

/-- The signals of variables are declared with the types of the variables. -/
def Declared (X : Ctx) (Γ : Typing) (T : Nat → MTy) : Prop :=
  ∀ x m, X.nameTy Γ x = some m → T (sigName x) = m

/-- An instance of a unit is what its name and generic arguments say: it has the unit's head, it is
well typed at its generic arguments, the types in its head are fixed by them, and the signals of
variables are declared with the types of the variables. -/
structure InstOk (X : Ctx) (Δ : Decls) (i : Inst) : Prop where
  item : X.items i.name = some .unit
  head : ∃ ws sp, Δ.heads i.name =
    some ⟨i.unit.params, ws, i.unit.inputs.map (·.2), i.unit.output, sp⟩
  typed : UnitOk Δ i.types i.unit
  args : callArgs i.unit.params i.types.gen = some i.args
  inputs : TFixeds i.types.gen (i.unit.params.map (·.1)) (i.unit.inputs.map (·.2))
  output : OutFixed i.types.gen (i.unit.params.map (·.1)) i.unit.output
  declared : Declared X i.types i.signals

/-- All instances are what they should be, their types are hardware types, and every instance that a
call refers to exists. -/
structure Compiled (X : Ctx) (Δ : Decls) (insts : Nat → Option Inst) : Prop where
  ok : ∀ u i, insts u = some i → InstOk X Δ i
  elaborated : ∀ u i, insts u = some i → ∃ f, i.fn X = some f ∧ Sized f.body
  requested : ∀ f as u, X.inst f as = some u → ∃ i, insts u = some i ∧ i.name = f ∧ i.args = as

end Spade.Elab

/-!
# Specification side of pattern matching

Types, values, source patterns and what it means for a value to match a pattern.  Nothing
here refers to the algorithm of the compiler.
-/
namespace Spade.Match

/-- Concrete types as seen by the match checker.  Models `ConcreteType`
(spade-types/src/lib.rs, used in spade-hir-lowering/src/pattern.rs:58-146).
Names of structs, fields and variants are dropped.  `sealed` stands for the primitive types
`tri`, `clock`, `memory` and `inout`, which the checker treats alike (pattern.rs:132-138).
Type-level integers, bools and strings are not types of runtime values and are left out. -/
inductive Ty where
  | error
  | tuple (ts : List Ty)
  | struct (ts : List Ty)
  | array (t : Ty) (n : Nat)
  | enum (opts : List (List Ty))
  | int (bits : Nat)
  | uint (bits : Nat)
  | bool
  | sealed
  | backward (t : Ty)
  | copyView (t : Ty)

/-- Runtime values. `opq` is a value of a type that cannot be inspected. -/
inductive Val where
  | opq
  | tup (vs : List Val)
  | variant (i : Nat) (vs : List Val)
  | int (z : Int)
  | bool (b : Bool)
  | view (v : Val)

/-- Smallest value of `int<n>`; `int<0>` has the single value 0. -/
def intMin (n : Nat) : Int := if n = 0 then 0 else -(2 ^ (n - 1) : Int)
/-- Largest value of `int<n>`. -/
def intMax (n : Nat) : Int := if n = 0 then 0 else (2 ^ (n - 1) : Int) - 1
/-- Largest value of `uint<n>`. -/
def uintMax (n : Nat) : Int := (2 ^ n : Int) - 1

mutual
/-- `HasTy v t`: `v` is a value of type `t`. -/
inductive HasTy : Val → Ty → Prop
  | error : HasTy .opq .error
  | sealed : HasTy .opq .sealed
  | backward {t} : HasTy .opq (.backward t)
  | tuple {vs ts} : HasTys vs ts → HasTy (.tup vs) (.tuple ts)
  | struct {vs ts} : HasTys vs ts → HasTy (.tup vs) (.struct ts)
  | array {vs t n} : HasTys vs (List.replicate n t) → HasTy (.tup vs) (.array t n)
  | enum {i vs opts ts} : opts[i]? = some ts → HasTys vs ts → HasTy (.variant i vs) (.enum opts)
  | int {z n} : intMin n ≤ z → z ≤ intMax n → HasTy (.int z) (.int n)
  | uint {z n} : 0 ≤ z → z ≤ uintMax n → HasTy (.int z) (.uint n)
  | bool {b} : HasTy (.bool b) .bool
  | copyView {v t} : HasTy v t → HasTy (.view v) (.copyView t)
/-- Pointwise typing of value lists. -/
inductive HasTys : List Val → List Ty → Prop
  | nil : HasTys [] []
  | cons {v t vs ts} : HasTy v t → HasTys vs ts → HasTys (v :: vs) (t :: ts)
end

/-- Source patterns.  Models `hir::PatternKind` (spade-hir/src/lib.rs) together with the
concrete type the type checker assigned to each pattern node (`concrete_type_of_infallible`).
`bound` covers names and `_`; `boundInner` is `name @ pattern`.  Arguments of `struct` and
`variant` patterns are in parameter order, as `visit_pattern` leaves them
(spade-ast-lowering/src/lib.rs:1836). -/
inductive Pat where
  | int (ty : Ty) (z : Int)
  | bool (ty : Ty) (b : Bool)
  | bound (ty : Ty)
  | boundInner (ty : Ty) (p : Pat)
  | tuple (ty : Ty) (ps : List Pat)
  | array (ty : Ty) (ps : List Pat)
  | struct (ty : Ty) (ps : List Pat)
  | variant (ty : Ty) (i : Nat) (ps : List Pat)

mutual
/-- What it means for a value to match a pattern. -/
def Matches : Pat → Val → Prop
  | .int _ z, .int z' => z' = z
  | .bool _ b, .bool b' => b' = b
  | .bound _, _ => True
  | .boundInner _ p, v => Matches p v
  | .tuple _ ps, .tup vs => MatchesAll ps vs
  | .array _ ps, .tup vs => MatchesAll ps vs
  | .struct _ ps, .tup vs => MatchesAll ps vs
  | .variant _ i ps, .variant j vs => j = i ∧ MatchesAll ps vs
  | _, _ => False
/-- Pointwise matching. -/
def MatchesAll : List Pat → List Val → Prop
  | [], [] => True
  | p :: ps, v :: vs => Matches p v ∧ MatchesAll ps vs
  | _, _ => False
end

mutual
/-- Patterns that type check at a type (what type inference guarantees before the checker
runs).  Integer patterns need no range condition for the theorems below. -/
inductive PatTy : Pat → Ty → Prop
  | int {z n} : PatTy (.int (.int n) z) (.int n)
  | uint {z n} : PatTy (.int (.uint n) z) (.uint n)
  | bool {b} : PatTy (.bool .bool b) .bool
  | bound {t} : PatTy (.bound t) t
  | boundInner {t p} : PatTy p t → PatTy (.boundInner t p) t
  | tuple {ps ts} : PatTys ps ts → PatTy (.tuple (.tuple ts) ps) (.tuple ts)
  | array {ps t n} : PatTys ps (List.replicate n t) → PatTy (.array (.array t n) ps) (.array t n)
  | struct {ps ts} : PatTys ps ts → PatTy (.struct (.struct ts) ps) (.struct ts)
  | variant {i ps opts ts} : opts[i]? = some ts → PatTys ps ts →
      PatTy (.variant (.enum opts) i ps) (.enum opts)
/-- Pointwise pattern typing. -/
inductive PatTys : List Pat → List Ty → Prop
  | nil : PatTys [] []
  | cons {p t ps ts} : PatTy p t → PatTys ps ts → PatTys (p :: ps) (t :: ts)
end

mutual
/-- The type has no component that the checker regards as impossible to match on
(`tri`, `clock`, `memory`, `inout`). -/
def NoOpaque : Ty → Prop
  | .sealed => False
  | .tuple ts => NoOpaques ts
  | .struct ts => NoOpaques ts
  | .array t n => n = 0 ∨ NoOpaque t
  | .enum os => NoOpaquess os
  | .copyView t => NoOpaque t
  | _ => True
/-- Pointwise. -/
def NoOpaques : List Ty → Prop
  | [] => True
  | t :: ts => NoOpaque t ∧ NoOpaques ts
/-- Pointwise. -/
def NoOpaquess : List (List Ty) → Prop
  | [] => True
  | t :: ts => NoOpaques t ∧ NoOpaquess ts
end

/-- A copy view (possibly nested) of an enum. -/
def viewOfEnum : Ty → Prop
  | .copyView t => viewOfEnum t
  | .enum _ => True
  | _ => False

mutual
/-- The type contains no copy view of an enum. -/
def NoEnumView : Ty → Prop
  | .tuple ts => NoEnumViews ts
  | .struct ts => NoEnumViews ts
  | .array t _ => NoEnumView t
  | .enum os => NoEnumViewss os
  | .copyView t => ¬ viewOfEnum t ∧ NoEnumView t
  | _ => True
/-- Pointwise. -/
def NoEnumViews : List Ty → Prop
  | [] => True
  | t :: ts => NoEnumView t ∧ NoEnumViews ts
/-- Pointwise. -/
def NoEnumViewss : List (List Ty) → Prop
  | [] => True
  | t :: ts => NoEnumViews t ∧ NoEnumViewss ts
end

mutual
/-- The pattern contains no integer literal. -/
def NoIntLit : Pat → Prop
  | .int _ _ => False
  | .bool _ _ => True
  | .bound _ => True
  | .boundInner _ p => NoIntLit p
  | .tuple _ ps => NoIntLits ps
  | .array _ ps => NoIntLits ps
  | .struct _ ps => NoIntLits ps
  | .variant _ _ ps => NoIntLits ps
/-- Pointwise. -/
def NoIntLits : List Pat → Prop
  | [] => True
  | p :: ps => NoIntLit p ∧ NoIntLits ps
end

mutual
/-- `Matches` with the over-approximation of integer literals made by the checker: the literal
`z` is taken to accept `z` and `z + 1`. -/
def MatchesLoose : Pat → Val → Prop
  | .int _ z, .int z' => z' = z ∨ z' = z + 1
  | .bool _ b, .bool b' => b' = b
  | .bound _, _ => True
  | .boundInner _ p, v => MatchesLoose p v
  | .tuple _ ps, .tup vs => MatchesLooseAll ps vs
  | .array _ ps, .tup vs => MatchesLooseAll ps vs
  | .struct _ ps, .tup vs => MatchesLooseAll ps vs
  | .variant _ i ps, .variant j vs => j = i ∧ MatchesLooseAll ps vs
  | _, _ => False
/-- Pointwise. -/
def MatchesLooseAll : List Pat → List Val → Prop
  | [], [] => True
  | p :: ps, v :: vs => MatchesLoose p v ∧ MatchesLooseAll ps vs
  | _, _ => False
end

mutual
/-- The pattern contains an integer or bool literal. -/
def HasLit : Pat → Prop
  | .int _ _ => True
  | .bool _ _ => True
  | .bound _ => False
  | .boundInner _ p => HasLit p
  | .tuple _ ps => HasLits ps
  | .array _ ps => HasLits ps
  | .struct _ ps => HasLits ps
  | .variant _ _ ps => HasLits ps
/-- Some pattern of the list contains a literal. -/
def HasLits : List Pat → Prop
  | [] => False
  | p :: ps => HasLit p ∨ HasLits ps
end

/-- An arm of a `match`: its pattern, and whether it has an `if` guard. -/
abbrev Arm := Pat × Bool

/-- Every value of the scrutinee type is matched by some arm without a guard. -/
def Exhaustive (ty : Ty) (arms : List Arm) : Prop :=
  ∀ v, HasTy v ty → ∃ arm ∈ arms, arm.2 = false ∧ Matches arm.1 v

/-- Every value of the type is matched by the pattern. -/
def Irrefutable (p : Pat) (ty : Ty) : Prop := ∀ v, HasTy v ty → Matches p v

mutual
/-- The pattern does not test for a variant of an enum that has other variants. -/
def NoMultiVariant : Pat → Prop
  | .variant ty _ ps => (∃ ts, ty = .enum [ts]) ∧ NoMultiVariants ps
  | .int _ _ => True
  | .bool _ _ => True
  | .bound _ => True
  | .boundInner _ p => NoMultiVariant p
  | .tuple _ ps => NoMultiVariants ps
  | .array _ ps => NoMultiVariants ps
  | .struct _ ps => NoMultiVariants ps
/-- Pointwise. -/
def NoMultiVariants : List Pat → Prop
  | [] => True
  | p :: ps => NoMultiVariant p ∧ NoMultiVariants ps
end

end Spade.Match

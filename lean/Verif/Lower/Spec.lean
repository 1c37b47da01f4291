import Verif.Match.Spec
import Verif.Codegen.Eval
/-!
# Specification of pattern matching on bit vectors

Which bits stand for which value, what it means for an arm of a `match` to be selected, and which
part of the scrutinee a pattern variable names.  Nothing here refers to the lowering.
-/
namespace Spade.Lower
open Spade.Verilog Spade.Codegen
open Spade.Match (Val Matches MatchesAll)

/-- Source patterns after type inference, `hir::Pattern` (spade-hir/src/lib.rs): every node has
the name of the signal that holds the value it is matched against (`value_name`,
spade-hir-lowering/src/lib.rs:845-865) and its MIR type.  Arguments of `struct` and `variant`
patterns are in declaration order (spade-ast-lowering/src/lib.rs:1836,1852-1865). -/
inductive LPat where
  | int (name : Nat) (ty : MTy) (z : Int)
  | bool (name : Nat) (b : Bool)
  | bound (name : Nat) (ty : MTy)
  | boundInner (name : Nat) (ty : MTy) (p : LPat)
  | tuple (name : Nat) (ty : MTy) (ps : List LPat)
  | array (name : Nat) (ty : MTy) (ps : List LPat)
  | struct (name : Nat) (ty : MTy) (ps : List LPat)
  | variant (name : Nat) (ty : MTy) (i : Nat) (ps : List LPat)

/-- Signal holding the value the pattern is matched against. -/
def LPat.name : LPat → Nat
  | .int n .. | .bool n _ | .bound n _ | .boundInner n .. | .tuple n .. | .array n ..
  | .struct n .. | .variant n .. => n

/-- Type of the pattern. -/
def LPat.ty : LPat → MTy
  | .bool _ _ => .bool
  | .int _ t _ | .bound _ t | .boundInner _ t _ | .tuple _ t _ | .array _ t _
  | .struct _ t _ | .variant _ t _ _ => t

mutual
/-- The source type of the values of a MIR type. -/
def srcTy : MTy → Match.Ty
  | .int n => .int n
  | .uint n => .uint n
  | .bool => .bool
  | .tuple ts => .tuple (srcTys ts)
  | .struct ts => .struct (srcTys ts)
  | .array t n => .array (srcTy t) n
  | .memory _ _ => .sealed
  | .enum opts => .enum (srcTyss opts)
  | .backward t => .backward (srcTy t)
  | .copyView t => .copyView (srcTy t)
  | .inout _ => .sealed
/-- Pointwise. -/
def srcTys : List MTy → List Match.Ty
  | [] => []
  | t :: ts => srcTy t :: srcTys ts
/-- Pointwise. -/
def srcTyss : List (List MTy) → List (List Match.Ty)
  | [] => []
  | o :: os => srcTys o :: srcTyss os
end

mutual
/-- The pattern as the user wrote it: names of signals are dropped. -/
def LPat.src : LPat → Match.Pat
  | .int _ t z => .int (srcTy t) z
  | .bool _ b => .bool .bool b
  | .bound _ t => .bound (srcTy t)
  | .boundInner _ t p => .boundInner (srcTy t) p.src
  | .tuple _ t ps => .tuple (srcTy t) (srcs ps)
  | .array _ t ps => .array (srcTy t) (srcs ps)
  | .struct _ t ps => .struct (srcTy t) (srcs ps)
  | .variant _ t i ps => .variant (srcTy t) i (srcs ps)
/-- Pointwise. -/
def srcs : List LPat → List Match.Pat
  | [] => []
  | p :: ps => p.src :: srcs ps
end

mutual
/-- `Enc t v bits`: the vector `bits` stands for the value `v` of type `t`.  Members of tuples and
structs and payloads of enums are laid out from the most significant bit on, elements of arrays
from the least significant bit on; an enum starts with its tag and ends with padding, whose bits
are arbitrary. -/
inductive Enc : MTy → Val → Bits → Prop
  | int {n z} : InRange (.int n) z → Enc (.int n) (.int z) (ofInt n z)
  | uint {n z} : InRange (.uint n) z → Enc (.uint n) (.int z) (ofInt n z)
  | bool {b} : Enc .bool (.bool b) [b]
  | tuple {ts vs bss} : EncAll ts vs bss → Enc (.tuple ts) (.tup vs) bss.flatten
  | struct {ts vs bss} : EncAll ts vs bss → Enc (.struct ts) (.tup vs) bss.flatten
  | array {t n vs bss} : EncAll (List.replicate n t) vs bss →
      Enc (.array t n) (.tup vs) bss.reverse.flatten
  | enum {opts i ts vs bss pad} : opts[i]? = some ts → EncAll ts vs bss →
      sizes ts + pad.length = maxSize opts →
      Enc (.enum opts) (.variant i vs) (ofNat (tagSize opts.length) i ++ bss.flatten ++ pad)
  | memory {t n bits} : bits.length = (MTy.memory t n).size → Enc (.memory t n) .opq bits
  | inout {t bits} : bits.length = (MTy.inout t).size → Enc (.inout t) .opq bits
  | backward {t} : Enc (.backward t) .opq []
  | copyView {t v bits} : Enc t v bits → Enc (.copyView t) (.view v) bits
/-- Pointwise encoding. -/
inductive EncAll : List MTy → List Val → List Bits → Prop
  | nil : EncAll [] [] []
  | cons {t v b ts vs bs} : Enc t v b → EncAll ts vs bs → EncAll (t :: ts) (v :: vs) (b :: bs)
end

mutual
/-- What type inference guarantees for a pattern: the types of subpatterns are the types of the
components, and integer literals are values of their type (`FitsIntLiteral`,
spade-typeinference/src/lib.rs:2164-2172). -/
def LPat.Ok : LPat → Prop
  | .int _ t z => InRange t z
  | .bool _ _ => True
  | .bound _ _ => True
  | .boundInner _ t p => p.ty = t ∧ p.Ok
  | .tuple _ t ps => t = .tuple (ps.map LPat.ty) ∧ Oks ps
  | .array _ t ps => (∃ e, t = .array e ps.length ∧ ps.map LPat.ty = List.replicate ps.length e) ∧
      Oks ps
  | .struct _ t ps => t = .struct (ps.map LPat.ty) ∧ Oks ps
  | .variant _ t i ps => (∃ opts, t = .enum opts ∧ opts[i]? = some (ps.map LPat.ty)) ∧ Oks ps
/-- Pointwise. -/
def Oks : List LPat → Prop
  | [] => True
  | p :: ps => p.Ok ∧ Oks ps
end

mutual
/-- No pattern takes a one-bit payload out of an enum that has a single variant and more than one
bit: the member access generated for those is wrong (`C06_counterexample_single_variant`). -/
def LPat.Readable : LPat → Prop
  | .int .. | .bool .. | .bound .. => True
  | .boundInner _ _ p => p.Readable
  | .tuple _ _ ps | .array _ _ ps | .struct _ _ ps => Readables ps
  | .variant _ t _ ps =>
      (∀ opts, t = .enum opts → opts.length ≠ 1 ∨ t.size = 1 ∨ ∀ p ∈ ps, p.ty.size ≠ 1) ∧
      Readables ps
/-- Pointwise. -/
def Readables : List LPat → Prop
  | [] => True
  | p :: ps => p.Readable ∧ Readables ps
end

mutual
/-- The variables of a pattern and the part of the value each of them names. -/
def LPat.binds : LPat → Val → List (Nat × MTy × Val)
  | .bound n t, v => [(n, t, v)]
  | .boundInner n t p, v => (n, t, v) :: p.binds v
  | .tuple _ _ ps, .tup vs => bindsAll ps vs
  | .array _ _ ps, .tup vs => bindsAll ps vs
  | .struct _ _ ps, .tup vs => bindsAll ps vs
  | .variant _ _ _ ps, .variant _ vs => bindsAll ps vs
  | _, _ => []
/-- Variables of all subpatterns. -/
def bindsAll : List LPat → List Val → List (Nat × MTy × Val)
  | p :: ps, v :: vs => p.binds v ++ bindsAll ps vs
  | _, _ => []
end

/-- An arm `pat if guard => res`.  The guard and the result are given by the statements their
lowering produces and the name of the signal that holds their value. -/
structure Branch where
  pat : LPat
  guard : Option (List Stmt × Nat)
  res : List Stmt × Nat

/-- The arm is chosen unless an earlier one is: its pattern matches the value, and its guard, if
there is one, holds. -/
def Branch.Selects (ρ : Env) (v : Val) (b : Branch) : Prop :=
  Matches b.pat.src v ∧ ∀ g, b.guard = some g → ρ (fwd g.2) = [true]

/-- A statement holds of the values of the signals: the generated Verilog drives the signal the
statement defines with the value it has, and the signal has the declared type. -/
def Holds (Γ : Nat → MTy) (ρ : Env) (xs : Nat → Nat → Bool) : Stmt → Prop
  | .const n ty c => Γ n = ty ∧ constBits ty c ρ (xs n) = some (ρ (fwd n))
  | .bind n ty op ops => Γ n = ty ∧ runOp Γ ty op ops ρ (xs n) = some (ρ (fwd n))

end Spade.Lower

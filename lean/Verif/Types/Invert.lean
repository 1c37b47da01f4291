import Verif.Codegen.Props
/-!
# Directions of types

Models `ConcreteType::resolve_recursive_inversions` (spade-types/src/lib.rs:110-156) and
`to_mir_type` (spade-hir-lowering/src/lib.rs:231-317), and proves C38.
-/
namespace Spade.Types
open Spade.Codegen

/-- `ConcreteType` (spade-types/src/lib.rs:38-62).  Names of structs, fields and variants are
dropped; `Error` and type level values, which have no hardware, are left out.  `bool` also stands
for `clock` and `tri`, which lower to the same MIR type. -/
inductive CTy where
  | int (n : Nat)
  | uint (n : Nat)
  | bool
  | memory (t : CTy) (n : Nat)
  | inout (t : CTy)
  | tuple (ts : List CTy)
  | struct (ts : List CTy)
  | array (t : CTy) (n : Nat)
  | enum (opts : List (List CTy))
  | backward (t : CTy)
  | copyView (t : CTy)

mutual
/-- `resolve_recursive_inversions` (spade-types/src/lib.rs:110-156). -/
def CTy.resolve (invert : Bool) : CTy → CTy
  | .tuple ts => .tuple (resolves invert ts)
  | .struct ts => .struct (resolves invert ts)
  | .array t n => .array (t.resolve invert) n
  | .backward t => t.resolve (!invert)
  | .int n => if invert then .backward (.int n) else .int n
  | .uint n => if invert then .backward (.uint n) else .uint n
  | .bool => if invert then .backward .bool else .bool
  | .memory t n => if invert then .backward (.memory t n) else .memory t n
  | .inout t => if invert then .backward (.inout t) else .inout t
  | .enum o => if invert then .backward (.enum o) else .enum o
  | .copyView t => if invert then .backward (.copyView t) else .copyView t
/-- The `map` over members (lib.rs:113-118,124-128). -/
def resolves (invert : Bool) : List CTy → List CTy
  | [] => []
  | t :: ts => t.resolve invert :: resolves invert ts
end

mutual
/-- `to_mir_type` (spade-hir-lowering/src/lib.rs:231-317). -/
def CTy.toMir : CTy → MTy
  | .int n => .int n
  | .uint n => .uint n
  | .bool => .bool
  | .memory t n => .memory t.toMir n
  | .inout t => .inout t.toMir
  | .tuple ts => .tuple (toMirs ts)
  | .struct ts => .struct (toMirs ts)
  | .array t n => .array t.toMir n
  | .enum o => .enum (toMirss o)
  | .backward t => .backward t.toMir
  | .copyView t => .copyView t.toMir
/-- The `map` over members. -/
def toMirs : List CTy → List MTy
  | [] => []
  | t :: ts => t.toMir :: toMirs ts
/-- The `map` over variants. -/
def toMirss : List (List CTy) → List (List MTy)
  | [] => []
  | o :: os => toMirs o :: toMirss os
end

/-- The MIR type of a source type: `ungenerify_type` followed by `to_mir_type`
(spade-typeinference/src/mir_type_lowering.rs:352-360). -/
def mirType (t : CTy) : MTy := (t.resolve false).toMir

/-! ## Specification -/

mutual
/-- Total number of bits of a type without `inv`. -/
def CTy.width : CTy → Nat
  | .int n => n
  | .uint n => n
  | .bool => 1
  | .memory t n => t.width * n
  | .inout t => t.width
  | .tuple ts => widths ts
  | .struct ts => widths ts
  | .array t n => t.width * n
  | .enum o => tagSize o.length + maxWidth o
  | .backward t => t.width
  | .copyView t => t.width
/-- Sum of the widths of the members. -/
def widths : List CTy → Nat
  | [] => 0
  | t :: ts => t.width + widths ts
/-- Largest payload. -/
def maxWidth : List (List CTy) → Nat
  | [] => 0
  | o :: os => max (widths o) (maxWidth os)
end

mutual
/-- The primitive parts of a type, each with its direction (`true`: backward) and width.  `inv`
flips the direction of everything below it. -/
def CTy.parts (d : Bool) : CTy → List (Bool × Nat)
  | .tuple ts => partss d ts
  | .struct ts => partss d ts
  | .array t n => (List.replicate n (t.parts d)).flatten
  | .backward t => t.parts (!d)
  | .int n => [(d, n)]
  | .uint n => [(d, n)]
  | .bool => [(d, 1)]
  | .memory t n => [(d, (CTy.memory t n).width)]
  | .inout t => [(d, (CTy.inout t).width)]
  | .enum o => [(d, (CTy.enum o).width)]
  | .copyView t => [(d, (CTy.copyView t).width)]
/-- The parts of all members. -/
def partss (d : Bool) : List CTy → List (Bool × Nat)
  | [] => []
  | t :: ts => t.parts d ++ partss d ts
end

mutual
/-- No `inv` anywhere. -/
def CTy.Plain : CTy → Prop
  | .memory t _ => t.Plain
  | .inout t => t.Plain
  | .tuple ts => Plains ts
  | .struct ts => Plains ts
  | .array t _ => t.Plain
  | .enum o => Plainss o
  | .backward _ => False
  | .copyView t => t.Plain
  | _ => True
/-- No `inv` in a list of types. -/
def Plains : List CTy → Prop
  | [] => True
  | t :: ts => t.Plain ∧ Plains ts
/-- No `inv` in the variants. -/
def Plainss : List (List CTy) → Prop
  | [] => True
  | o :: os => Plains o ∧ Plainss os
end

mutual
/-- `inv` occurs only outside of enums, memories, `inout` and copy views. -/
def CTy.OuterInv : CTy → Prop
  | .memory t _ => t.Plain
  | .inout t => t.Plain
  | .tuple ts => OuterInvs ts
  | .struct ts => OuterInvs ts
  | .array t _ => t.OuterInv
  | .enum o => Plainss o
  | .backward t => t.OuterInv
  | .copyView t => t.Plain
  | _ => True
/-- The same for all members. -/
def OuterInvs : List CTy → Prop
  | [] => True
  | t :: ts => t.OuterInv ∧ OuterInvs ts
end

/-- Number of bits going in direction `d`. -/
def bitsIn (d : Bool) (ps : List (Bool × Nat)) : Nat :=
  ((ps.filter fun p => p.1 == d).map (·.2)).sum

/-! ## Proofs -/

theorem toMirss_length : ∀ o : List (List CTy), (toMirss o).length = o.length
  | [] => rfl
  | _ :: os => by simp [toMirss, toMirss_length os]

mutual
theorem plain_size : ∀ t : CTy, t.Plain → t.toMir.size = t.width
  | .int _, _ => by simp [CTy.toMir, CTy.width, MTy.size]
  | .uint _, _ => by simp [CTy.toMir, CTy.width, MTy.size]
  | .bool, _ => by simp [CTy.toMir, CTy.width, MTy.size]
  | .memory t _, h => by
    simp only [CTy.toMir, CTy.width, MTy.size, plain_size t (by simpa [CTy.Plain] using h)]
  | .inout t, h => by
    simp only [CTy.toMir, CTy.width, MTy.size, plain_size t (by simpa [CTy.Plain] using h)]
  | .tuple ts, h => by
    simp only [CTy.toMir, CTy.width, MTy.size, plain_sizes ts (by simpa [CTy.Plain] using h)]
  | .struct ts, h => by
    simp only [CTy.toMir, CTy.width, MTy.size, plain_sizes ts (by simpa [CTy.Plain] using h)]
  | .array t _, h => by
    simp only [CTy.toMir, CTy.width, MTy.size, plain_size t (by simpa [CTy.Plain] using h)]
  | .enum o, h => by
    simp only [CTy.toMir, CTy.width, MTy.size, toMirss_length,
      plain_max o (by simpa [CTy.Plain] using h)]
  | .backward _, h => by simp [CTy.Plain] at h
  | .copyView t, h => by
    simp only [CTy.toMir, CTy.width, MTy.size, plain_size t (by simpa [CTy.Plain] using h)]
theorem plain_sizes : ∀ ts : List CTy, Plains ts → sizes (toMirs ts) = widths ts
  | [], _ => by simp [toMirs, sizes, widths]
  | t :: ts, h => by
    simp only [Plains] at h
    simp only [toMirs, sizes, widths, plain_size t h.1, plain_sizes ts h.2]
theorem plain_max : ∀ o : List (List CTy), Plainss o → maxSize (toMirss o) = maxWidth o
  | [], _ => by simp [toMirss, maxSize, maxWidth]
  | o :: os, h => by
    simp only [Plainss] at h
    simp only [toMirss, maxSize, maxWidth, plain_sizes o h.1, plain_max os h.2]
end

theorem bitsIn_append (d : Bool) (a b : List (Bool × Nat)) :
    bitsIn d (a ++ b) = bitsIn d a + bitsIn d b := by simp [bitsIn]

theorem bitsIn_replicate (d : Bool) (a : List (Bool × Nat)) (n : Nat) :
    bitsIn d (List.replicate n a).flatten = bitsIn d a * n := by
  induction n with
  | zero => simp [bitsIn]
  | succ n ih =>
    rw [List.replicate_succ, List.flatten_cons, bitsIn_append, ih, Nat.mul_succ]; omega

theorem bitsIn_one (d e : Bool) (n : Nat) : bitsIn d [(e, n)] = if e = d then n else 0 := by
  cases d <;> cases e <;> simp [bitsIn]

mutual
theorem resolve_sizes (inv : Bool) : ∀ t : CTy, t.OuterInv →
    (t.resolve inv).toMir.size = bitsIn false (t.parts inv) ∧
    (t.resolve inv).toMir.backSize = bitsIn true (t.parts inv)
  | .int _, _ => by
    cases inv <;> simp [CTy.resolve, CTy.toMir, MTy.size, MTy.backSize, CTy.parts, bitsIn_one]
  | .uint _, _ => by
    cases inv <;> simp [CTy.resolve, CTy.toMir, MTy.size, MTy.backSize, CTy.parts, bitsIn_one]
  | .bool, _ => by
    cases inv <;> simp [CTy.resolve, CTy.toMir, MTy.size, MTy.backSize, CTy.parts, bitsIn_one]
  | .memory t n, h => by
    have hp := plain_size (.memory t n) (by simpa [CTy.OuterInv, CTy.Plain] using h)
    cases inv <;>
      simp [CTy.resolve, MTy.size, MTy.backSize, CTy.parts, bitsIn_one, ← hp, CTy.toMir]
  | .inout t, h => by
    have hp := plain_size (.inout t) (by simpa [CTy.OuterInv, CTy.Plain] using h)
    cases inv <;>
      simp [CTy.resolve, MTy.size, MTy.backSize, CTy.parts, bitsIn_one, ← hp, CTy.toMir]
  | .enum o, h => by
    have hp := plain_size (.enum o) (by simpa [CTy.OuterInv, CTy.Plain] using h)
    cases inv <;>
      simp [CTy.resolve, MTy.size, MTy.backSize, CTy.parts, bitsIn_one, ← hp, CTy.toMir]
  | .copyView t, h => by
    have hp := plain_size (.copyView t) (by simpa [CTy.OuterInv, CTy.Plain] using h)
    cases inv <;>
      simp [CTy.resolve, MTy.size, MTy.backSize, CTy.parts, bitsIn_one, ← hp, CTy.toMir]
  | .tuple ts, h => by
    have := resolves_sizes inv ts (by simpa [CTy.OuterInv] using h)
    simp only [CTy.resolve, CTy.toMir, MTy.size, MTy.backSize, CTy.parts, this, and_self]
  | .struct ts, h => by
    have := resolves_sizes inv ts (by simpa [CTy.OuterInv] using h)
    simp only [CTy.resolve, CTy.toMir, MTy.size, MTy.backSize, CTy.parts, this, and_self]
  | .array t n, h => by
    have := resolve_sizes inv t (by simpa [CTy.OuterInv] using h)
    simp only [CTy.resolve, CTy.toMir, MTy.size, MTy.backSize, CTy.parts, this, bitsIn_replicate,
      and_self]
  | .backward t, h => by
    have := resolve_sizes (!inv) t (by simpa [CTy.OuterInv] using h)
    simp only [CTy.resolve, CTy.parts, this, and_self]
theorem resolves_sizes (inv : Bool) : ∀ ts : List CTy, OuterInvs ts →
    sizes (toMirs (resolves inv ts)) = bitsIn false (partss inv ts) ∧
    backSizes (toMirs (resolves inv ts)) = bitsIn true (partss inv ts)
  | [], _ => by simp [resolves, toMirs, sizes, backSizes, partss, bitsIn]
  | t :: ts, h => by
    simp only [OuterInvs] at h
    have h1 := resolve_sizes inv t h.1
    have h2 := resolves_sizes inv ts h.2
    simp only [resolves, toMirs, sizes, backSizes, partss, bitsIn_append, h1, h2, and_self]
end

mutual
theorem parts_flip (d : Bool) : ∀ t : CTy, t.parts (!d) = (t.parts d).map fun p => (!p.1, p.2)
  | .int _ => by simp [CTy.parts]
  | .uint _ => by simp [CTy.parts]
  | .bool => by simp [CTy.parts]
  | .memory _ _ => by simp [CTy.parts]
  | .inout _ => by simp [CTy.parts]
  | .enum _ => by simp [CTy.parts]
  | .copyView _ => by simp [CTy.parts]
  | .tuple ts => by simp only [CTy.parts]; exact partss_flip d ts
  | .struct ts => by simp only [CTy.parts]; exact partss_flip d ts
  | .array t n => by
    simp only [CTy.parts, parts_flip d t, List.map_flatten, List.map_replicate]
  | .backward t => by simp only [CTy.parts]; exact parts_flip (!d) t
theorem partss_flip (d : Bool) : ∀ ts : List CTy,
    partss (!d) ts = (partss d ts).map fun p => (!p.1, p.2)
  | [] => rfl
  | t :: ts => by simp only [partss, parts_flip d t, partss_flip d ts, List.map_append]
end

theorem bitsIn_flip (d : Bool) (ps : List (Bool × Nat)) :
    bitsIn d (ps.map fun p => (!p.1, p.2)) = bitsIn (!d) ps := by
  induction ps with
  | nil => rfl
  | cons p ps ih =>
    rcases p with ⟨b, n⟩
    have e1 : ((!b, n) :: ps.map fun p => (!p.1, p.2)) =
        [(!b, n)] ++ ps.map fun p => (!p.1, p.2) := rfl
    have e2 : (b, n) :: ps = [(b, n)] ++ ps := rfl
    rw [List.map_cons, e1, e2, bitsIn_append, bitsIn_append, ih, bitsIn_one, bitsIn_one]
    cases b <;> cases d <;> simp

/-- C38, partial: the forward width of the generated type is the total width of the forward parts
and the backward width is the total width of the backward parts, so each part is counted in
exactly one direction.  Missing: `inv` inside enums, memories, `inout` and copy views
(`C38_counterexample_copy_view`). -/
theorem C38_partition_partial (t : CTy) (h : t.OuterInv) :
    (mirType t).size = bitsIn false (t.parts false) ∧
    (mirType t).backSize = bitsIn true (t.parts false) := resolve_sizes false t h

/-- C38, inversion, partial (same restriction): `inv` swaps the two directions. -/
theorem C38_inversion_partial (t : CTy) (h : t.OuterInv) :
    (mirType (.backward t)).size = (mirType t).backSize ∧
    (mirType (.backward t)).backSize = (mirType t).size := by
  obtain ⟨h1, h2⟩ := C38_partition_partial t h
  obtain ⟨h3, h4⟩ := C38_partition_partial (.backward t) (by simpa [CTy.OuterInv] using h)
  rw [h1, h2, h3, h4]
  simp only [CTy.parts]
  rw [parts_flip, bitsIn_flip, bitsIn_flip]
  exact ⟨rfl, rfl⟩

/-- `inv inv T` is laid out exactly as `T`, without any restriction. -/
theorem C38_double_inversion (t : CTy) : mirType (.backward (.backward t)) = mirType t := by
  simp [mirType, CTy.resolve]

/-- C38 fails below a copy view: `inv inv int<8>` has 8 forward bits, but `&inv inv int<8>` has
none, because inversions below a copy view are not resolved (spade-types/src/lib.rs:135-144). -/
theorem C38_counterexample_copy_view :
    (mirType (.copyView (.backward (.backward (.int 8))))).size = 0 ∧
    (mirType (.backward (.backward (.int 8)))).size = 8 := by
  simp [mirType, CTy.resolve, CTy.toMir, MTy.size]

/-- The hypothesis of C38 is met by a port with parts in both directions. -/
example : (CTy.struct [.int 8, .backward (.tuple [.bool, .backward (.uint 3)]),
    .array (.backward .bool) 4]).OuterInv ∧
    bitsIn false ((CTy.struct [.int 8, .backward (.tuple [.bool, .backward (.uint 3)]),
      .array (.backward .bool) 4]).parts false) = 11 ∧
    bitsIn true ((CTy.struct [.int 8, .backward (.tuple [.bool, .backward (.uint 3)]),
      .array (.backward .bool) 4]).parts false) = 5 := by
  refine ⟨by simp [CTy.OuterInv, OuterInvs], ?_, ?_⟩ <;>
    simp [CTy.parts, partss, bitsIn, List.replicate]

end Spade.Types

import Verif.Auto.Spec

/-!
# `Data` and `Copy` (C66): model

Models `/repo/spade-ast-lowering/src/auto_traits.rs`, the bounds on the parameters of enums
(`/repo/spade-ast-lowering/src/global_symbols.rs:532-547, 619-636, 683-692`), the implementations in
`/repo/spade-compiler/core/marker.spade` and the conversion of type variables to concrete types
(`/repo/spade-typeinference/src/mir_type_lowering.rs:276-350`). Which types implement a trait, given
the implementations, is `Check.Implements`, which C51 and C52 are about.

Left out: locations (a witness is only whether there is one) and trait `Self`, which cannot occur
in declarations. `resolve_recursive_inversions` is left out of the conversion: it removes pairs of
`inv` and never adds one.
-/

namespace Spade.Auto

open Spade.Check (TSpec TExp Impl IGen ITy trCopy)
open Spade.Decl (Conc Res Kind TypeDecl find)
open Spade.Infer.Spec (Base GT)

/-! ## Witnesses -/

/-- The primitive types with a witness (auto_traits.rs:141-152, 190-200): the five, or three, that
are listed as having none are the ones without. -/
def primBad : Auto → String → Bool
  | .copy, p => !["int", "uint", "bool", "clock", "tri"].contains p
  | .data, p => !["int", "uint", "bool"].contains p


mutual
/-- `get_copy_witness` and `get_data_witness` for types (auto_traits.rs:57-95, 97-134), given the
result for declared types: true if there is a witness. -/
def specBad (W : Nat → Res Bool) : TSpec → Res Bool
  | .declared n ps => (W n).bind (fun b => if b then .ok true else expsBad W ps)
  | .generic _ => .ok false
  | .tuple ts => specsBad W ts
  | .array t _ => specBad W t
  | .inverted _ => .ok true
  | .copyView _ => .ok false
  | .wildcard => .panic
/-- `find_map` over the members of a tuple. -/
def specsBad (W : Nat → Res Bool) : List TSpec → Res Bool
  | [] => .ok false
  | t :: ts => (specBad W t).bind (fun b => if b then .ok true else specsBad W ts)
/-- The same for generic arguments (auto_traits.rs:23-54). -/
def expBad (W : Nat → Res Bool) : TExp → Res Bool
  | .spec t => specBad W t
  | .bool _ | .int _ | .str _ | .const _ => .ok false
/-- `find_map` over generic arguments. -/
def expsBad (W : Nat → Res Bool) : List TExp → Res Bool
  | [] => .ok false
  | e :: es => (expBad W e).bind (fun b => if b then .ok true else expsBad W es)
end

/-- `find_map` over the members of a struct (auto_traits.rs:153-171, 201-219). -/
def membersBad (W : Nat → Res Bool) : List (String × TSpec) → Res Bool
  | [] => .ok false
  | m :: ms => (specBad W m.2).bind (fun b => if b then .ok true else membersBad W ms)

/-- The right-hand side of a declaration (auto_traits.rs:136-182, 184-230). -/
def kindBad (a : Auto) (W : Nat → Res Bool) : Kind → Res Bool
  | .enum _ => .ok false
  | .prim p => .ok (primBad a p)
  | .struct ms => membersBad W ms
  | .alias t => specBad W t

/-- A declaration by its name, with at most `k` nested calls. -/
def declBad (a : Auto) (T : List TypeDecl) : Nat → Nat → Res Bool
  | 0, _ => .deeper
  | k + 1, n =>
    match find T n with
    | none => .panic
    | some d => kindBad a (declBad a T k) d.kind

/-- `enforce_enum_data` reports nothing (auto_traits.rs:232-253). -/
def EnumsAccepted (T : List TypeDecl) (k : Nat) : Prop :=
  ∀ d ∈ T, ∀ os, d.kind = .enum os → ∀ o ∈ os, ∀ m ∈ o.2,
    specBad (declBad .data T k) m.2 = .ok false

/-! ## Implementations -/

/-- The trait `Data`. -/
def trData : Nat := 2

/-- The number of a trait. -/
def Auto.trait : Auto → Nat
  | .copy => trCopy
  | .data => trData

/-- The generic parameters of the implementation: those of the declaration, and types get the trait
as a further bound (auto_traits.rs:296-304). -/
def autoGens (a : Auto) (gens : List IGen) : List IGen :=
  gens.map (fun g => if g.kind = .type then { g with bounds := g.bounds ++ [(a.trait, [])] } else g)

/-- The implementation for a declaration (auto_traits.rs:313-333). -/
def autoImpl (a : Auto) (n : Nat) (gens : List IGen) : Impl where
  gens := autoGens a gens
  trait := a.trait
  traitArgs := []
  base := .named n
  args := (List.range gens.length).map .gen

/-- `impl_auto_trait` (auto_traits.rs:255-338): `S` are the generic parameters of declarations with
their bounds. -/
def autoImpls (a : Auto) (T : List TypeDecl) (k : Nat) (S : Nat → List IGen) : List Impl :=
  T.filterMap (fun d =>
    match declBad a T k d.name with
    | .ok false => some (autoImpl a d.name (S d.name))
    | _ => none)

/-- `impl<T0: Data, …> Data for (T0, …) {}` (marker.spade:9-17, 31-39). -/
def tupleImpl (a : Auto) (n : Nat) : Impl where
  gens := List.replicate n ⟨.type, [(a.trait, [])]⟩
  trait := a.trait
  traitArgs := []
  base := .tuple
  args := (List.range n).map .gen

/-- `impl<T: Data, #uint N> Data for [T; N] {}` (marker.spade:19, 41). -/
def arrayImpl (a : Auto) : Impl where
  gens := [⟨.type, [(a.trait, [])]⟩, ⟨.uint, []⟩]
  trait := a.trait
  traitArgs := []
  base := .array
  args := [.gen 0, .gen 1]

/-- The implementations in marker.spade. -/
def coreImpls (a : Auto) : List Impl := arrayImpl a :: (List.range 9).map (tupleImpl a)

/-- All implementations: of the two traits, and of others. -/
def implsOf (T : List TypeDecl) (k : Nat) (S : Nat → List IGen) (others : List Impl) : List Impl :=
  coreImpls .copy ++ coreImpls .data ++ autoImpls .copy T k S ++ autoImpls .data T k S ++ others

/-! ## From types to concrete types -/

/-- One step of `inner_ungenerify_type` (mir_type_lowering.rs:276-350) with the converted arguments. -/
def headConc (D : Nat → List Conc → Res Conc) (b : Base) (cs : List Conc) : Res Conc :=
  match b, cs with
  | .named n, cs => D n cs
  | .int i, [] => .ok (.int i)
  | .bool v, [] => .ok (.bool v)
  | .str s, [] => .ok (.str s)
  | .array, [c, .int i] => .ok (.array c i)
  | .tuple, cs => .ok (.tuple cs)
  | .inverted, [c] => .ok (.backward c)
  | .copyView, [c] => .ok (.copyView c)
  | _, _ => .panic

mutual
/-- `inner_ungenerify_type` on a type without variables. -/
def groundConc (D : Nat → List Conc → Res Conc) : GT → Res Conc
  | .node b args => (groundConcs D args).bind (headConc D b)
/-- The same for a list. -/
def groundConcs (D : Nat → List Conc → Res Conc) : List GT → Res (List Conc)
  | [] => .ok []
  | t :: ts => (groundConc D t).bind (fun c => (groundConcs D ts).bind (fun cs => .ok (c :: cs)))
end

end Spade.Auto

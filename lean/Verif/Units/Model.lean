import Verif.Units.Spec
import Verif.Mono.Model
import Verif.Mir.Rename
/-!
# Names of modules

Models how a unit gets the name of its module: `visit_unit` (spade-ast-lowering/src/lib.rs:1292-1382),
`expand_type_level_if` (spade-ast-lowering/src/type_level_if.rs:103-113), `request_compilation`
(spade-hir-lowering/src/monomorphisation.rs:106-157, in Mono), instances
(spade-hir-lowering/src/lib.rs:2366-2416) and `as_mir` (spade-hir-lowering/src/lib.rs:203-224).  Units
without a body, which have no module, are left out.
-/
namespace Spade.Units

open Spade.Mono Spade.Mono.Spec
open Spade.Mir (digits)

variable {P : Type}

/-- `PathSegment` (spade-common/src/name.rs:99-104). -/
inductive Seg where
  | named (s : Str)
  | impl (n : Nat)
  | ifT
  | ifF
  deriving DecidableEq

/-- `Display` of `PathSegment` (name.rs:138-147). -/
def Seg.text : Seg → Str
  | .named s => s
  | .impl n => 'i' :: 'm' :: 'p' :: 'l' :: '#' :: digits n
  | .ifT => ['i', 'f', '#', 't', 'r', 'u', 'e']
  | .ifF => ['i', 'f', '#', 'f', 'a', 'l', 's', 'e']

/-- A unit with a body, as far as its name depends on it. -/
structure Decl where
  id : Nat
  path : List Seg
  name : Str
  /-- `<..>` of the unit itself, with the number of parameters -/
  own : Option Nat
  /-- `<..>` of the `impl` block around it -/
  scope : Option Nat
  /-- parameters for `impl Trait` in the types of inputs (spade-ast-lowering/src/lib.rs:928-942) -/
  hidden : Nat
  noMangle : Bool
  /-- made of a branch of a `gen if` -/
  branch : Bool
  deriving DecidableEq

/-- `get_type_params().len()` (spade-hir/src/lib.rs:915-922). -/
def Decl.params (d : Decl) : Nat := d.own.getD 0 + d.hidden + d.scope.getD 0

/-- `hir::UnitName` (spade-hir/src/lib.rs:731-738). -/
inductive UnitName where
  | withID (id : Nat) (path : List Seg)
  | fullPath (id : Nat) (path : List Seg)
  | unmangled (name : Str) (id : Nat) (path : List Seg)
  deriving DecidableEq

/-- The name in `visit_unit` (spade-ast-lowering/src/lib.rs:1333-1373) and in `expand_type_level_if`
(type_level_if.rs:113); `none` is an error. -/
def unitName (d : Decl) : Option UnitName :=
  if d.branch then some (.withID d.id d.path)
  else if d.noMangle then
    match d.own, d.scope with
    | some _, _ => none
    | none, some _ => none
    | none, none => some (.unmangled d.name d.id d.path)
  else if d.params = 0 then some (.fullPath d.id d.path)
  else some (.withID d.id d.path)

/-- `new_unit_name` (monomorphisation.rs:130-136). -/
def renamed (new : Nat) : UnitName → UnitName
  | .withID _ p => .withID new p
  | .fullPath _ p => .fullPath new p
  | .unmangled s _ p => .unmangled s new p

/-- `to_strings().join("::")`, without the first segment. -/
def joinRest : List Seg → Str
  | [] => []
  | s :: r => ':' :: ':' :: (s.text ++ joinRest r)

/-- `to_strings().join("::")`. -/
def join : List Seg → Str
  | [] => []
  | s :: r => s.text ++ joinRest r

/-- `as_mir` and `as_verilog` (spade-hir-lowering/src/lib.rs:203-214, spade-mir/src/unit_name.rs:137-142). -/
def UnitName.text : UnitName → Str
  | .withID id p => join p ++ '[' :: (digits id ++ [']'])
  | .fullPath _ p => join p
  | .unmangled s _ _ => s

/-- The name in an instance (spade-hir-lowering/src/lib.rs:2369-2401); `answer` is what
`request_compilation` returns. -/
def instanceName (d : Decl) (u : UnitName) (answer : Nat) : UnitName :=
  if d.params ≠ 0 then .withID answer d.path else u

/-- The item of a name (monomorphisation.rs:331). -/
def find (ds : List Decl) (id : Nat) : Option Decl := ds.find? fun d => d.id = id

/-- The name of the module made of an item (monomorphisation.rs:130-142). -/
def moduleName (ds : List Decl) (i : Item P) : Option Str := do
  let d ← find ds i.key.source
  let u ← unitName d
  some (renamed i.name u).text

/-- The modules that a run of `compile_items` gives. -/
def modules (ds : List Decl) (s : State P) : List (Key P × Str) :=
  s.results.filterMap fun i => (moduleName ds i).map fun m => (i.key, m)

/-- The instances that are generated during a run: those of units with parameters after
`request_compilation`, and those of units without. -/
inductive Instance (ds : List Decl) (s : State P) : Key P → Str → Prop
  | generic {d u k n} : d ∈ ds → d.params ≠ 0 → unitName d = some u → k.source = d.id → (k, n) ∈ s.log →
      Instance ds s k (instanceName d u n).text
  | plain {d u n} : d ∈ ds → d.params = 0 → unitName d = some u →
      Instance ds s ⟨d.id, []⟩ (instanceName d u n).text

/-- The units of a program as the input of `compile_items`: the units without parameters are requested
first (monomorphisation.rs:235-246), and compiling requests units with parameters
(spade-hir-lowering/src/lib.rs:2369). -/
structure Program (pg : Prog P) (ds : List Decl) : Prop where
  ids : (ds.map Decl.id).Nodup
  old : ∀ d ∈ ds, d.id < pg.firstId
  roots : ∀ r, r ∈ pg.roots ↔ ∃ d ∈ ds, d.id = r ∧ d.params = 0
  uses : ∀ k, ∀ k' ∈ pg.uses k, ∃ d ∈ ds, d.id = k'.source ∧ d.params ≠ 0
  /-- the check in `visit_unit` passed -/
  accepted : ∀ d ∈ ds, (unitName d).isSome

/-- Characters that identifiers do not have. -/
def Clean (s : Str) : Prop := s ≠ [] ∧ ':' ∉ s ∧ '[' ∉ s ∧ '#' ∉ s

/-- What the rest of the compiler ensures of names: identifiers are clean, and no two units are at the
same path, up to branches of `gen if`. -/
structure Named (ds : List Decl) : Prop where
  name : ∀ d ∈ ds, Clean d.name
  path : ∀ d ∈ ds, d.path ≠ [] ∧ ∀ s, Seg.named s ∈ d.path → Clean s
  distinct : ∀ d ∈ ds, ∀ e ∈ ds, d.branch = false → e.branch = false → d.path = e.path → d = e

/-- A unit with `#[no_mangle]` has no `impl Trait` in its inputs, and its name is not the one of another unit with
`#[no_mangle]`, nor that of a unit outside of all modules. -/
def NoClash (ds : List Decl) : Prop :=
  ∀ d ∈ ds, d.noMangle = true → d.branch = false → d.hidden = 0 ∧
    ∀ e ∈ ds, e.branch = false → e ≠ d →
      (e.noMangle = true → e.name ≠ d.name) ∧ e.path ≠ [.named d.name]

end Spade.Units

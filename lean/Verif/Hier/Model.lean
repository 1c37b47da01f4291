import Verif.Hier.Spec

/-!
# Signals of a waveform (C74): model

Models the map from Verilog identifiers to values that code generation makes
(`/repo/spade-mir/src/codegen/mod.rs:45-52, 54-190, 1318-1430`, `/repo/spade-mir/src/renaming.rs:12-51`),
the map of instances (`/repo/spade-mir/src/unit_name.rs:39-106`, `codegen/mod.rs:1004-1008`,
`/repo/spade-compiler/src/lib.rs:806-831`) and `source_of_hierarchical_value` and
`type_of_hierarchical_value` (`/repo/spade-compiler/src/compiler_state.rs:334-446`).

A `ValueName` carries the name it had in the source, which renaming leaves alone
(renaming.rs:74-90). Here it is the name before renaming, which stands for its source also where lowering
gave it another one (copies in pipelines, spade-hir-lowering/src/lib.rs:332-335), so the maps are made from the unit before
renaming and the renaming. Hash maps are lists of insertions, of which the last one counts.
Identifiers are without backslashes and spaces, which `VerilogNameMap::insert` takes away
(renaming.rs:29-38). Error messages are left out.
-/

namespace Spade.Hier

open Spade.Mir
open Spec (Dir)

variable {Op Ty C Ini : Type}

/-- `VerilogNameSource` (renaming.rs:45-51): a direction and a name. -/
abbrev Source := Dir × Name

/-- What is inserted for an input (mod.rs:1330-1379), in order: the name of the input for both
directions, then the ports. -/
def inputEntries (X : NameCtx Op Ty) (i : Input Ty) : List (List Char × Source) :=
  (if X.fwd i.ty ≠ 0 then [(i.name.toList, (.forward, i.valName))] else []) ++
  (if X.bwd i.ty ≠ 0 then [(i.name.toList, (.backward, i.valName))] else []) ++
  (if X.fwd i.ty ≠ 0 then [(mangleInput i.noMangle i.name, (.forward, i.valName))] else []) ++
  (if X.bwd i.ty ≠ 0 then [(mangleOutput i.noMangle i.name, (.backward, i.valName))] else [])

/-- `add_to_name_map` (mod.rs:45-52) for a value that is renamed with `f`. -/
def addToNameMap (X : NameCtx Op Ty) (f : Name → Name) (n : Name) (t : Ty) : List (List Char × Source) :=
  (if X.fwd t ≠ 0 then [(fwdName (f n), (.forward, n))] else []) ++
  (if X.bwd t ≠ 0 then [(bwdName (f n), (.backward, n))] else [])

/-- What is inserted for a statement (`statement_declaration`, mod.rs:54-190). Registers with a
backward part panic. -/
def stmtEntries (X : NameCtx Op Ty) (f : Name → Name) : Stmt Op Ty C Ini → List (List Char × Source)
  | .binding b => addToNameMap X f b.name b.ty
  | .register r => if X.fwd r.ty ≠ 0 then [(fwdName (f r.name), (.forward, r.name))] else []
  | .constant n t _ => addToNameMap X f n t
  | _ => []

/-- The insertions into the `VerilogNameMap` of a unit (`entity_code`, mod.rs:1313-1477). -/
def nameEntries (X : NameCtx Op Ty) (e : Entity Op Ty C Ini) : List (List Char × Source) :=
  e.inputs.flatMap (inputEntries X) ++
  (if X.fwd e.outputTy ≠ 0 then [("output__".toList, (.forward, e.output))] else []) ++
  e.stmts.flatMap (stmtEntries X (collectNames e).get)

/-- A map after insertions: the last one counts. -/
def get {α β : Type} [BEq α] (m : List (α × β)) (k : α) : Option β := m.reverse.lookup k

/-- `lookup_name` (renaming.rs:40-42). -/
def lookupName (X : NameCtx Op Ty) (e : Entity Op Ty C Ini) (v : List Char) : Option Source :=
  get (nameEntries X e) v

/-- The insertions into the map of instances of one unit: `use_name` (unit_name.rs:79-106) for the
instances in the order of the statements (mod.rs:1004-1008). -/
def instanceEntries (X : NameCtx Op Ty) (target : Op → Nat) :
    List (String × Nat) → List (Stmt Op Ty C Ini) → List (List Char × Nat)
  | _, [] => []
  | m, .binding ⟨_, .other op, _, _⟩ :: ss =>
    match X.inst op with
    | some s =>
      (s.toList ++ '_' :: digits (useName m s).2, target op) ::
        instanceEntries X target (useName m s).1 ss
    | none => instanceEntries X target m ss
  | m, _ :: ss => instanceEntries X target m ss

/-- The map of instances of a program (lib.rs:806-831). Units without instances have no entry. -/
def instanceMap (X : NameCtx Op Ty) (target : Op → Nat) (prog : List (Nat × Entity Op Ty C Ini)) :
    List (Nat × List (List Char × Nat)) :=
  prog.filterMap fun (u, e) =>
    if (instanceEntries X target [] e.stmts).isEmpty then none
    else some (u, instanceEntries X target [] e.stmts)

/-- The loop over the path (compiler_state.rs:345-396). -/
def walk (im : List (Nat × List (List Char × Nat))) : Nat → List (List Char) → Option Nat
  | u, [] => some u
  | u, x :: path => (get im u).bind fun here => (get here x).bind fun w => walk im w path

/-- `source_of_hierarchical_value` (compiler_state.rs:334-413): the unit and the source. An empty path
panics. -/
def sourceOf (X : NameCtx Op Ty) (target : Op → Nat) (prog : List (Nat × Entity Op Ty C Ini))
    (top : Nat) (hierarchy : List (List Char)) : Option (Nat × Source) :=
  hierarchy.getLast?.bind fun v =>
  (walk (instanceMap X target prog) top hierarchy.dropLast).bind fun u =>
  (get prog u).bind fun e =>
  (lookupName X e v).map fun s => (u, s)

/-- `type_of_hierarchical_value` (compiler_state.rs:415-446), with the types that the values of the
units have in their type states. -/
def typeOf {T : Type} (X : NameCtx Op Ty) (target : Op → Nat) (prog : List (Nat × Entity Op Ty C Ini))
    (types : Nat → Name → Option T) (top : Nat) (hierarchy : List (List Char)) : Option T :=
  (sourceOf X target prog top hierarchy).bind fun
    | (u, (.forward, n)) => types u n
    | (_, (.backward, _)) => none

end Spade.Hier

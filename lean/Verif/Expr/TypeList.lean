import Verif.Expr.Spec
/-!
# The types code generation looks signals up in

Models `MirTypeList` (spade-mir/src/type_list.rs:6-72), which code generation builds for every unit
(spade-mir/src/codegen/mod.rs:1324).
-/
namespace Spade.Expr
open Spade.Codegen Spade.Lower

/-- `HashMap::insert`: the new entry hides an older one. -/
def insertTy (m : Nat → Option MTy) (n : Nat) (t : MTy) : Nat → Option MTy := fun k =>
  if k = n then some t else m k

/-- The entry of a statement (`add_statements`, type_list.rs:34-54).  Instances and `Nop` are bindings,
assertions have no entry; registers and `set` do not occur in functions. -/
def addItem (m : Nat → Option MTy) : Item → (Nat → Option MTy)
  | .stmt (.const n t _) => insertTy m n t
  | .stmt (.bind n t _ _) => insertTy m n t
  | .nop n t => insertTy m n t
  | .inst n t _ _ => insertTy m n t
  | .assert _ => m

/-- `from_entity` (type_list.rs:17-32): inputs, then statements in order. -/
def typeList (h : HUnit) : Nat → Option MTy :=
  h.items.foldl addItem (h.inputs.foldl (fun m p => insertTy m p.1 p.2) fun _ => none)

end Spade.Expr

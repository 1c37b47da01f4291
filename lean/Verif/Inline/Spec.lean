import Verif.Mir.Entity
import Verif.Util
/-!
# Designs with instances

What a unit means when some of the units it instantiates are known.  An instance of a known unit
means: the unit has signals of its own, which satisfy its statements, whose inputs carry the values
of the operands and whose output carries the value of the result.
-/
namespace Spade.Inline

open Spade.Mir

variable {Op Ty C Ini V : Type}

/-- A unit with its `inline` flag (spade-mir/src/lib.rs:531-543). -/
structure Source (Op Ty C Ini : Type) where
  inline : Bool
  entity : Entity Op Ty C Ini

/-- The units of a design by name, and the unit that an operator instantiates, if any. -/
structure Design (Op Ty C Ini : Type) where
  unit : String → Option (Source Op Ty C Ini)
  callee : Op → Option String

/-- The unit to be inlined that a statement instantiates, with the result, its type and the
operands. -/
def Design.inlined (D : Design Op Ty C Ini) : Stmt Op Ty C Ini →
    Option (Name × Entity Op Ty C Ini × Ty × List Name)
  | .binding ⟨r, .other op, os, ty⟩ =>
    match (D.callee op).bind D.unit with
    | some u => if u.inline then some (r, u.entity, ty, os) else none
    | none => none
  | _ => none

/-- A valuation of the signals of a unit is possible in the design. -/
inductive Possible (D : Design Op Ty C Ini) (I : Interp Op Ty C Ini V) :
    (Name → V) → List (Stmt Op Ty C Ini) → Prop where
  | nil {v} : Possible D I v []
  /-- everything but instances of units to be inlined means what it always means -/
  | plain {v s ss} : D.inlined s = none → s.Sat I v → Possible D I v ss → Possible D I v (s :: ss)
  | instance {v s ss r e ty os} (w : Name → V) : D.inlined s = some (r, e, ty, os) →
      Possible D I w e.stmts → e.inputNames.map w = os.map v → w e.output = v r →
      Possible D I v ss → Possible D I v (s :: ss)

end Spade.Inline

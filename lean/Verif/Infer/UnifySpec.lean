import Verif.Infer.Spec

/-!
# Specification for unification (C23)

A ground type is a finite tree. What is known about type variables is a set of assignments of ground
types to variables; unifying two variables must keep exactly the assignments that give both the same
type.
-/

namespace Spade.Infer.Spec

/-- The heads of types: named types (numbered), type-level values, and the built-in constructors. -/
inductive Base where
  | named (n : Nat)
  | int (i : Int)
  | bool (b : Bool)
  | str (s : String)
  | tuple
  | array
  | inverted
  | copyView
  deriving DecidableEq, Repr

/-- Ground types. -/
inductive GT where
  | node (b : Base) (args : List GT)

/-- The head of a ground type. -/
def GT.head : GT → Base
  | .node b _ => b

/-- The type-level value a head stands for, as kinds see it. -/
def Base.val : Base → Val
  | .int i => .int i
  | .bool b => .bool b
  | .str s => .str s
  | .named _ => .type "named"
  | .tuple => .type "tuple"
  | .array => .type "array"
  | .inverted => .type "inverted"
  | .copyView => .type "copyView"

/-- Types with variables. -/
inductive Ty where
  | var (r : Nat)
  | app (b : Base) (args : List Ty)

mutual
/-- Substitution. -/
def Ty.subst (σ : Nat → Ty) : Ty → Ty
  | .var r => σ r
  | .app b args => .app b (Ty.substs σ args)
/-- Substitution in a list. -/
def Ty.substs (σ : Nat → Ty) : List Ty → List Ty
  | [] => []
  | t :: ts => Ty.subst σ t :: Ty.substs σ ts
end

end Spade.Infer.Spec

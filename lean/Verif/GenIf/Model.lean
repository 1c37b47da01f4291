import Verif.GenIf.Spec
/-!
# Expanding and lowering `gen if`

Model of spade-ast-lowering/src/type_level_if.rs and of the pass
spade-hir-lowering/src/passes/lower_type_level_if.rs.  Errors are `none`.
-/
namespace Spade.GenIf
section
variable {V : Type}

/-- `absorb_statements`: type_level_if.rs:46-77. -/
def absorb (outer : List (Stm V)) : Exp V → Option (Exp V)
  | .gif c t e => (absorb outer t).bind fun t' => (absorb outer e).map fun e' => .gif c t' e'
  | .block ss r => some (.block (outer ++ ss) r)
  | _ => none

/-- The body of the unit made for a branch: type_level_if.rs:90-104. -/
def wrap : Exp V → Exp V
  | .gif c t e => .block [] (.gif c t e)
  | e => e

/-- `call_expanded`: type_level_if.rs:124-178.  The call passes the unit's own
inputs and type parameters. -/
def callExpanded (u : Unit V) (name : Nat) : Exp V :=
  .call name some (u.params.map .var)

/-- The `reg*depth` after the binding of the result: type_level_if.rs:224-244. -/
def depthReg (u : Unit V) : List (Stm V) :=
  match u.depth with
  | none => []
  | some d => [.reg d]

/-- The body the unit gets in the end: type_level_if.rs:195-260. -/
def newBody (u : Unit V) (c : Gens → Option Bool) (onTrue onFalse result : Nat) : Exp V :=
  .block (.bind result (.gif c (callExpanded u onTrue) (callExpanded u onFalse)) :: depthReg u)
    (.var result)

/-- `expand_type_level_if`: type_level_if.rs:79-267.  Gives the new unit, the units
made for branches, and the next unused name; `fuel` bounds the depth of recursion.
A body that is not a block has been reported before and is `none`.  The last call
of the function on the new unit, whose result is a variable, changes nothing and is
left out; so is the attribute which asks for the new units to be inlined. -/
def expand : Nat → Nat → Unit V → Option (Unit V × Prog V × Nat)
  | 0, _, _ => none
  | fuel + 1, next, u =>
    match u.body with
    | .block ss (.gif c t e) =>
      (absorb ss t).bind fun t' =>
      (expand fuel (next + 1) { u with body := wrap t' }).bind fun (ut, is, next₁) =>
      (absorb ss e).bind fun e' =>
      (expand fuel (next₁ + 1) { u with body := wrap e' }).bind fun (ue, js, next₂) =>
      some ({ u with body := newBody u c next next₁ next₂ },
        is ++ [(next, ut)] ++ js ++ [(next₁, ue)], next₂ + 1)
    | .block _ _ => some (u, [], next)
    | _ => none

/-- Every unit of the program goes through `expand_type_level_if` when it is visited:
spade-ast-lowering/src/lib.rs:1437-1446. -/
def expandAll (fuel : Nat) : Nat → Prog V → Option (Prog V × Nat)
  | next, [] => some ([], next)
  | next, (n, u) :: P =>
    (expand fuel next u).bind fun (u', is, next₁) =>
    (expandAll fuel next₁ P).map fun (Q, next₂) => (is ++ (n, u') :: Q, next₂)

mutual
/-- `LowerTypeLevelIf`: lower_type_level_if.rs:19-95, applied to the body for the
generic arguments `ρ`.  Children come first (passes/pass.rs:22-26).  `ok` says that
the position has been marked by `mark_allowed_tlifs`. -/
def lower (ρ : Gens) (ok : Bool) : Exp V → Option (Exp V)
  | .var x => some (.var x)
  | .prim f args => (lowerE ρ args).map (.prim f)
  | .call u targs args => (lowerE ρ args).map (.call u targs)
  | .gif c t e =>
    (lower ρ ok t).bind fun t' => (lower ρ ok e).bind fun e' =>
      if ok then (c ρ).map fun b => if b then t' else e' else none
  | .block ss r => (lowerS ρ ok ss).bind fun ss' => (lower ρ ok r).map fun r' => .block ss' r'
/-- `lower` on operands, which are not marked. -/
def lowerE (ρ : Gens) : List (Exp V) → Option (List (Exp V))
  | [] => some []
  | a :: as => (lower ρ false a).bind fun a' => (lowerE ρ as).map fun as' => a' :: as'
/-- `lower` on statements. -/
def lowerS (ρ : Gens) (ok : Bool) : List (Stm V) → Option (List (Stm V))
  | [] => some []
  | .bind x e :: ss => (lower ρ ok e).bind fun e' => (lowerS ρ ok ss).map fun ss' => .bind x e' :: ss'
  | .reg k :: ss => (lowerS ρ ok ss).map fun ss' => .reg k :: ss'
end

/-- What calls give in the generated hardware: for each list of generic arguments a
unit is instantiated with (monomorphisation.rs:475-540) its body is lowered first. -/
noncomputable def Prog.hardware (P : Prog V) : Nat → Calls V
  | 0, _, _, _ => none
  | n + 1, u, ρ, args => (P.lookup u).bind fun w => (lower ρ true w.body).bind fun b =>
    ({ w with body := b } : Unit V).run (P.hardware n) ρ args

end
end Spade.GenIf

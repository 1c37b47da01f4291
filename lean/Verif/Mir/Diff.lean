import Verif.Mir.VerilogNames
/-!
# Comparing lowered units (C37)

Models spade-mir/src/diff.rs.  Hash maps are association lists with the newest entry first; the
reverse maps are never read and are left out.
-/
namespace Spade.Mir
variable {Op Ty C Ini : Type}

/-- `VarMap` (diff.rs:16-21). -/
structure VarMap where
  exprs : List (Nat × Nat)
  names : List (Nat × Nat)

/-- `VarMap::new` (diff.rs:30-37). -/
def VarMap.empty : VarMap := ⟨[], []⟩

/-- `try_update_name` (diff.rs:49-66). -/
def VarMap.tryUpdate (m : VarMap) : Name → Name → Option VarMap
  | .named i s, .named j t => if s = t then some { m with names := (i, j) :: m.names } else none
  | .expr i, .expr j => some { m with exprs := (i, j) :: m.exprs }
  | _, _ => none

/-- `compare_vals` (diff.rs:68-95). -/
def VarMap.compareVals (m : VarMap) : Name → Name → Bool
  | .named i s, .named j t => s = t && m.names.lookup i = some j
  | .expr i, .expr j => m.exprs.lookup i = some j
  | _, _ => false

/-- Operands, compared pairwise (diff.rs:120-126). -/
def VarMap.compareAll (m : VarMap) : List Name → List Name → Bool
  | a :: as, b :: bs => m.compareVals a b && m.compareAll as bs
  | _, _ => true

variable [DecidableEq Op] [DecidableEq Ty] [DecidableEq C] [DecidableEq Ini]

/-- `compare_statements` (diff.rs:99-201). -/
def compareStmts (m : VarMap) : Stmt Op Ty C Ini → Stmt Op Ty C Ini → Bool
  | .binding a, .binding b =>
    a.ty = b.ty && a.operator = b.operator && a.operands.length = b.operands.length &&
      m.compareAll a.operands b.operands
  | .register a, .register b =>
    a.ty = b.ty && m.compareVals a.value b.value && m.compareVals a.clock b.clock &&
      (match a.reset, b.reset with
        | some (t, v), some (t', v') => m.compareVals t t' && m.compareVals v v'
        | none, none => true
        | _, _ => false) &&
      a.initial = b.initial
  | .constant _ t c, .constant _ t' c' => t = t' && c = c'
  | .assert a, .assert b => m.compareVals a b
  | .set a b, .set a' b' => m.compareVals a a' && m.compareVals b b'
  | _, _ => false

/-- The loop over the inputs (diff.rs:240-258); `zip` stops at the end of the shorter list. -/
def compareInputs : VarMap → List (Input Ty) → List (Input Ty) → Option VarMap
  | m, a :: as, b :: bs =>
    if a.noMangle = b.noMangle && a.name = b.name then do
      let m' ← m.tryUpdate a.valName b.valName
      if a.ty = b.ty then compareInputs m' as bs else none
    else none
  | m, _, _ => some m

/-- `populate_var_map` (diff.rs:203-229). -/
def populate : VarMap → List (Stmt Op Ty C Ini) → List (Stmt Op Ty C Ini) → Option VarMap
  | m, .binding a :: as, .binding b :: bs => do let m' ← m.tryUpdate a.name b.name; populate m' as bs
  | m, .register a :: as, .register b :: bs => do let m' ← m.tryUpdate a.name b.name; populate m' as bs
  | m, .constant a _ _ :: as, .constant b _ _ :: bs => do let m' ← m.tryUpdate a b; populate m' as bs
  | m, .assert _ :: as, .assert _ :: bs => populate m as bs
  | m, .set _ _ :: as, .set _ _ :: bs => populate m as bs
  | m, [], _ => some m
  | m, _, [] => some m
  | _, _ :: _, _ :: _ => none

/-- The loop over the statements (diff.rs:264-266). -/
def compareAllStmts (m : VarMap) : List (Stmt Op Ty C Ini) → List (Stmt Op Ty C Ini) → Bool
  | a :: as, b :: bs => compareStmts m a b && compareAllStmts m as bs
  | _, _ => true

/-- `compare_entity` (diff.rs:231-272). -/
def compareEntity (a b : Entity Op Ty C Ini) : Bool :=
  if a.name = b.name && a.outputTy = b.outputTy then
    match compareInputs .empty a.inputs b.inputs with
    | none => false
    | some m => match populate m a.stmts b.stmts with
      | none => false
      | some m =>
        compareAllStmts m a.stmts b.stmts && a.stmts.length = b.stmts.length &&
          m.compareVals a.output b.output
  else false

end Spade.Mir

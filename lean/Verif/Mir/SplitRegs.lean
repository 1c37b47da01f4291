import Verif.Mir.Clocked
/-!
# Splitting compound registers (C15)

Models spade-mir/src/passes/split_compound_regs.rs.  The identifier tracker is a counter that is passed
along; fresh names are expressions.
-/
namespace Spade.Mir
open Spade.Codegen

variable {C Ini : Type}

/-- A statement with the operators and types of the code generator. -/
abbrev HStmt (C Ini : Type) := Stmt Op MTy C Ini

/-- Replaces a register, given a counter, the name of the register and the name of its input. -/
abbrev Splitter (C Ini : Type) := Nat → Name → Name → List (HStmt C Ini) × Nat

/-- The register itself (split_compound_regs.rs:104-106,118). -/
def keepReg (clock : Name) (reset : Option (Name × Name)) (ty : MTy) : Splitter C Ini :=
  fun k name value => ([.register ⟨name, ty, clock, reset, none, value⟩], k)

/-- The loop over the members in `generate_split_code` (split_compound_regs.rs:47-83): names of the new
registers, statements, counter. -/
def splitMembers (value : Name) : Nat → List (MTy × Splitter C Ini) → Nat →
    List Name × List (HStmt C Ini) × Nat
  | _, [], k => ([], [], k)
  | i, (t, f) :: ms, k =>
    let split := Name.expr k
    let reg := Name.expr (k + 1)
    let s := f (k + 2) reg split
    let r := splitMembers value (i + 1) ms s.2
    (reg :: r.1, Stmt.binding ⟨split, .other (.indexTuple i), [value], t⟩ :: s.1 ++ r.2.1, r.2.2)

/-- `generate_split_code` (split_compound_regs.rs:39-101). -/
def splitCompound (ty : MTy) (ms : List (MTy × Splitter C Ini)) : Splitter C Ini :=
  fun k name value =>
    let r := splitMembers value 0 ms k
    (r.2.1 ++ [.binding ⟨name, .other .constructTuple, r.1, ty⟩], r.2.2)

mutual
/-- `split_compound_reg` for a register without initial value (split_compound_regs.rs:103-141).  A length
that does not fit in `usize` is one of at least 2^64. -/
def splitReg (clock : Name) (reset : Option (Name × Name)) : MTy → Splitter C Ini
  | .tuple ts => splitCompound (.tuple ts) (splitAll clock reset ts)
  | .struct ts => splitCompound (.struct ts) (splitAll clock reset ts)
  | .array t n =>
    if n < 2 ^ 64 then splitCompound (.array t n) (List.replicate n (t, splitReg clock reset t))
    else keepReg clock reset (.array t n)
  | ty => keepReg clock reset ty
/-- The members of a type with what splits them. -/
def splitAll (clock : Name) (reset : Option (Name × Name)) : List MTy → List (MTy × Splitter C Ini)
  | [] => []
  | t :: ts => (t, splitReg clock reset t) :: splitAll clock reset ts
end

/-- `split_compound_reg` (split_compound_regs.rs:103-106). -/
def splitRegister (r : Register MTy Ini) (k : Nat) : List (HStmt C Ini) × Nat :=
  match r.initial with
  | some _ => ([.register r], k)
  | none => splitReg r.clock r.reset r.ty k r.name r.value

/-- `transform_statements` (split_compound_regs.rs:19-36). -/
def splitStmts : List (HStmt C Ini) → Nat → List (HStmt C Ini) × Nat
  | [], k => ([], k)
  | .register r :: ss, k =>
    let a := splitRegister r k
    let b := splitStmts ss a.2
    (a.1 ++ b.1, b.2)
  | s :: ss, k =>
    let b := splitStmts ss k
    (s :: b.1, b.2)

/-- The pass applied to a unit (spade-hir-lowering/src/lib.rs:3819-3820). -/
def splitUnit (e : Entity Op MTy C Ini) (k : Nat) : Entity Op MTy C Ini :=
  { e with stmts := (splitStmts e.stmts k).1 }

end Spade.Mir

import Verif.Entity.Spec
import Verif.Expr.Model
/-!
# Lowering of entities with registers and memories

Models `Statement::lower` for registers and instances and the check of initial values
(spade-hir-lowering/src/lib.rs:94-186,938-1098) and `generate_unit` (lib.rs:3660-3832) for entities.
Conventions are those of `Verif.Expr.Model`.  Attributes and tracing are dropped.
-/
namespace Spade.Entity
open Spade.Codegen Spade.Lower Spade.Expr

mutual
/-- `runtime_requirement_witness` (lib.rs:94-185) is `None`: the check that a value is known at
compile time. -/
def comptime : Expr → Bool
  | .int .. | .bool .. => true
  | .tuple _ _ es | .array _ _ es => comptimes es
  | .rep _ _ e _ | .proj _ _ e _ | .field _ _ e _ _ | .cast _ _ e => comptime e
  | .elem _ _ a i => comptime a && comptime i
  | .call _ _ (.variant _) es | .call _ _ .struct es => comptimes es
  | .bin _ _ op l r => comptime l && comptime r && match op with
    | .add | .sub => true
    | _ => false
  | .un _ _ op e => comptime e && match op with
    | .neg => true
    | _ => false
  | _ => false
/-- All of them. -/
def comptimes : List Expr → Bool
  | [] => true
  | e :: es => comptime e && comptimes es
end

/-- The statements the evaluator works on (`eval_statements`, spade-mir/src/eval.rs:208-371);
it panics on instances and assertions. -/
def stmtsOf : List Item → Option (List Stmt)
  | [] => some []
  | .stmt s :: is => (stmtsOf is).map (s :: ·)
  | _ :: _ => none

/-- Lowering of the clock, the reset and the initial value of a register (lib.rs:1007-1017). -/
def lowerOpt : Option Expr → Nat → Option (List Item × Nat)
  | none, nid => some ([], nid)
  | some e, nid => lowerE e nid

/-- The initial value is checked and lowered a second time (lib.rs:1035-1052). -/
def lowerInitial : Option Expr → Nat → Option (Option (List Stmt) × Nat)
  | none, nid => some (none, nid)
  | some e, nid =>
    if comptime e then do
      let a ← lowerE e nid
      let ss ← stmtsOf a.1
      some (some ss, a.2)
    else none

/-- The initial values in a list, each lowered on its own (lib.rs:2599-2606). -/
def lowerInits : List Expr → Nat → Option (List (List Stmt) × Nat)
  | [], nid => some ([], nid)
  | e :: es, nid => do
    let a ← lowerE e nid
    let ss ← stmtsOf a.1
    let b ← lowerInits es a.2
    some (ss :: b.1, b.2)

/-- The initial values of a memory (lib.rs:2582-2627): they are checked, and then lowered a second
time, one by one.  Anything but an array literal is an error. -/
def lowerMemInit : Option Expr → Nat → Option (Option (List (List Stmt)) × Nat)
  | none, nid => some (none, nid)
  | some e, nid =>
    if comptime e then
      match e with
      | .array _ _ es => (lowerInits es nid).map fun r => (some r.1, r.2)
      | .rep _ _ e n => do
        let a ← lowerE e nid
        let ss ← stmtsOf a.1
        some (some (List.replicate n ss), a.2)
      | _ => none
    else none

/-- `Statement::lower` (lib.rs:938-1098) for the statements of an entity.  The pattern of a register
is lowered without the initial alias, since the register itself has the name of the pattern
(lib.rs:1066-1078). -/
def lowerEStm : EStm → Nat → Option (List EItem × Nat)
  | .stm s, nid => do
    let a ← lowerStms [s] nid
    some (a.1.map .item, a.2)
  | .reg r, nid => do
    let c ← lowerE r.clock nid
    let tr ← lowerOpt (r.reset.map (·.1)) c.2
    let rv ← lowerOpt (r.reset.map (·.2)) tr.2
    let i ← lowerOpt r.initial rv.2
    let v ← lowerE r.value i.2
    let ss ← lowerInitial r.initial v.2
    let l ← lowerPat r.p r.p.name ss.2
    some ((c.1 ++ tr.1 ++ rv.1 ++ i.1 ++ v.1).map .item ++
      [.reg r.p.name r.p.ty r.clock.variable
        (r.reset.map fun x => (x.1.variable, x.2.variable)) ss.1 r.value.variable] ++
      l.1.map (fun s => .item (.stmt s)), l.2)
  | .inst id ty p u args, nid => do -- lib.rs:1931-2080 and 944-962
    let a ← lowerEs args nid
    let l ← lower p id p.ty a.2
    some (a.1.map .item ++ [.inst id ty u (args.map Expr.variable)] ++
      l.1.map (fun s => .item (.stmt s)), l.2)
  | .mem m, nid => do -- handle_clocked_memory, lib.rs:2572-2649, and 944-962
    let c ← lowerE m.clock nid
    let w ← lowerE m.writes c.2
    let i ← lowerOpt m.initial w.2
    let ss ← lowerMemInit m.initial i.2
    some ((c.1 ++ w.1 ++ i.1).map .item ++
      [.mem m.id m.elem m.len m.clock.variable m.writes.variable ss.1,
       .item (.stmt (.bind m.name m.ty .alias [m.id]))], ss.2)
  | .read id ty p m addr, nid => do -- handle_read_memory, lib.rs:2652-2683, and 944-962
    let a ← lowerE addr nid
    let l ← lower p id p.ty a.2
    some (a.1.map .item ++ [.read id ty m addr.variable] ++
      l.1.map (fun s => .item (.stmt s)), l.2)

/-- The statements in order. -/
def lowerEStms : List EStm → Nat → Option (List EItem × Nat)
  | [], nid => some ([], nid)
  | s :: ss, nid => do
    let a ← lowerEStm s nid
    let b ← lowerEStms ss a.2
    some (a.1 ++ b.1, b.2)

/-- `generate_unit` (lib.rs:3660-3832) for an entity. -/
def lowerEnt (E : Ent) (nid : Nat) : Option HEnt := do
  let a ← lowerEStms E.body nid
  let b ← lowerE E.result a.2
  some { inputs := E.params, items := a.1 ++ b.1.map .item, output := E.result.variable,
         types := E.types }

/-- All entities, each from some next id. -/
def lowerEnts (D : Ents) (nids : Nat → Nat) : Nat → Option HEnt := fun u =>
  (D u).bind fun E => lowerEnt E (nids u)

end Spade.Entity

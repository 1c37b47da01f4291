import Verif.Entity.Spec
/-!
# What name resolution guarantees for entities, and combinational loops

Nothing here refers to the lowering.
-/
namespace Spade.Entity
open Spade.Codegen Spade.Lower Spade.Expr

/-- All names that belong to a statement. -/
def EStm.names : EStm → List Nat
  | .stm s => Stms.names [s]
  | .reg r => r.clock.names ++ (match r.reset with | some (c, e) => c.names ++ e.names | none => []) ++
      (match r.initial with | some e => e.names | none => []) ++ r.value.names ++ patNames r.p
  | .inst id _ p _ args => Exprs.names args ++ [id] ++ patNames p
  | .mem m => m.clock.names ++ m.writes.names ++ (match m.initial with | some e => e.names | none => []) ++
      [m.id] ++ [m.name]
  | .read id _ p _ addr => addr.names ++ [id] ++ patNames p

/-- All names that belong to an entity, except for its parameters. -/
def Ent.names (E : Ent) : List Nat := E.body.flatMap EStm.names ++ E.result.names

/-- The variables a statement introduces.  They are visible in the whole entity: a register may be
used before its definition, and so may variables that are declared with `decl`. -/
def EStm.vars : EStm → List Nat
  | .stm (.bind p _) => patVars p
  | .reg r => patVars r.p
  | .inst _ _ p _ _ | .read _ _ p _ _ => patVars p
  | .mem m => [m.name]
  | _ => []

/-- Every variable in an expression of the statement is in `S`. -/
def EStm.Scoped (S : Nat → Prop) : EStm → Prop
  | .stm s => Stms.Scoped S [s]
  | .reg r => r.clock.Scoped S ∧ (∀ c e, r.reset = some (c, e) → c.Scoped S ∧ e.Scoped S) ∧
      (∀ e, r.initial = some e → e.Scoped S) ∧ r.value.Scoped S
  | .inst _ _ _ _ args => Exprs.Scoped S args
  | .mem m => m.clock.Scoped S ∧ m.writes.Scoped S ∧ ∀ e, m.initial = some e → e.Scoped S
  | .read _ _ _ m addr => S m ∧ addr.Scoped S

/-- Every `match` has an arm. -/
def EStm.Armed : EStm → Prop
  | .stm s => Stms.Armed [s]
  | .reg r => r.clock.Armed ∧ (∀ c e, r.reset = some (c, e) → c.Armed ∧ e.Armed) ∧
      (∀ e, r.initial = some e → e.Armed) ∧ r.value.Armed
  | .inst _ _ _ _ args => Exprs.Armed args
  | .mem m => m.clock.Armed ∧ m.writes.Armed ∧ ∀ e, m.initial = some e → e.Armed
  | .read _ _ _ _ addr => addr.Armed

/-- Parameters and variables of an entity. -/
def Ent.InScope (E : Ent) (n : Nat) : Prop :=
  n ∈ E.params.map (·.1) ∨ n ∈ E.body.flatMap EStm.vars

/-- What the front end guarantees for an entity: all names are different and have been given out
before `next` (C36), variables exist (C24), and no `match` is empty. -/
structure Ent.Resolved (E : Ent) (next : Nat) : Prop where
  distinct : (E.params.map (·.1) ++ E.names).Nodup
  given : ∀ n ∈ E.params.map (·.1) ++ E.names, n < next
  inScope : (∀ s ∈ E.body, s.Scoped E.InScope) ∧ E.result.Scoped E.InScope
  armed : (∀ s ∈ E.body, s.Armed) ∧ E.result.Armed

/-- The functions a statement calls. -/
def EStm.calls : EStm → List Nat
  | .stm s => Stms.calls [s]
  | .reg r => r.clock.calls ++ (match r.reset with | some (c, e) => c.calls ++ e.calls | none => []) ++
      (match r.initial with | some e => e.calls | none => []) ++ r.value.calls
  | .inst _ _ _ _ args => Exprs.calls args
  | .mem m => m.clock.calls ++ m.writes.calls ++ (match m.initial with | some e => e.calls | none => [])
  | .read _ _ _ _ addr => addr.calls

/-- The entities a statement instantiates. -/
def EStm.insts : EStm → List Nat
  | .inst _ _ _ u _ => [u]
  | _ => []

/-- No entity instantiates itself, directly or through others, and all instances exist. -/
def Ents.Acyclic (D : Ents) : Prop :=
  ∃ rank : Nat → Nat, ∀ u E, D u = some E → ∀ s ∈ E.body, ∀ v ∈ s.insts,
    (∃ E', D v = some E') ∧ rank v < rank u

/-- A signal is declared with the type of the statement that drives it. -/
def EItem.Typed (Γ : Nat → MTy) : EItem → Prop
  | .item i => i.Typed Γ
  | .reg n ty .. | .inst n ty _ _ | .read n ty _ _ => Γ n = ty
  | .mem n t len .. => Γ n = .memory t len

/-- The signals a statement reads. -/
def EItem.reads : EItem → List Nat
  | .item i => i.reads
  | .reg _ _ clock reset _ value =>
    clock :: value :: (match reset with | some (c, r) => [c, r] | none => [])
  | .inst _ _ _ ops => ops
  | .mem _ _ _ clock writes _ => [clock, writes]
  | .read _ _ m addr => [m, addr]

/-- The signals whose value at an instant matters for the value of the statement's signal at the same
instant: for a register or memory only the clock, since the others are read at the instant before. -/
def EItem.now : EItem → List Nat
  | .item i => i.reads
  | .reg _ _ clock _ _ _ => [clock]
  | .inst _ _ _ ops => ops
  | .mem _ _ _ clock _ _ => [clock]
  | .read _ _ m addr => [m, addr]

/-- The signal a statement drives. -/
def EItem.defs : EItem → List Nat
  | .item i => i.defs
  | .reg n .. | .inst n .. | .mem n .. | .read n .. => [n]

/-- The signals statements drive. -/
def eDefs (is : List EItem) : List Nat := is.flatMap EItem.defs

/-- There is no combinational loop: signals can be numbered such that each one has a higher number
than those it depends on at the same instant.  An instance counts as depending on all its inputs. -/
def LoopFree (h : HEnt) : Prop :=
  ∃ rank : Nat → Nat, ∀ i ∈ h.items, ∀ n ∈ i.now, ∀ m ∈ i.defs, rank n < rank m

/-- The variables of a register or memory. -/
def EStm.regVars : EStm → List Nat
  | .reg r => patVars r.p
  | .mem m => [m.name]
  | _ => []

/-- Statements only use variables in `S` and of earlier statements. -/
def InOrder (S : Nat → Prop) : List EStm → Prop
  | [] => True
  | s :: ss => s.Scoped S ∧ InOrder (fun n => S n ∨ n ∈ s.vars) ss

/-- The usual shape of an entity: clocks are parameters, and variables are defined before they are
used, except for those of registers and memories. -/
structure Ent.Ordered (E : Ent) : Prop where
  clocks : ∀ r, .reg r ∈ E.body → ∃ n ty, r.clock = .var n ty ∧ n ∈ E.params.map (·.1)
  memClocks : ∀ m, .mem m ∈ E.body → ∃ n ty, m.clock = .var n ty ∧ n ∈ E.params.map (·.1)
  order : InOrder (fun n => n ∈ E.params.map (·.1) ∨ n ∈ E.body.flatMap EStm.regVars) E.body

end Spade.Entity

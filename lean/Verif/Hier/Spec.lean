import Verif.Mir.Rename

/-!
# Signals of a waveform (C74): specification

A waveform viewer shows the signals of the generated Verilog: a path of instances and the name of a
signal in the module of the last one. This file says, in terms of the generated Verilog (which
identifiers a module declares and what it instantiates is part of the model of C14,
Verif/Mir/Rename.lean), what such a path stands for in the program.
-/

namespace Spade.Hier.Spec

open Spade.Mir

variable {Op Ty C Ini : Type}

/-- The two directions of a value. -/
inductive Dir where
  | forward
  | backward
  deriving DecidableEq

/-- The kinds of signals of a module; inputs and statements are given by their number. -/
inductive Signal where
  /-- the port for the forward part of an input -/
  | inPort (k : Nat)
  /-- the wire inside the module that the port is put on -/
  | inWire (k : Nat)
  /-- the port for the backward part of an input -/
  | outPort (k : Nat)
  /-- the wire for the backward part of an input -/
  | backWire (k : Nat)
  /-- the result of a statement -/
  | result (k : Nat)
  /-- the backward part of the result of a statement -/
  | resultBack (k : Nat)
  /-- the port `output__` -/
  | output
  /-- the port `input__` -/
  | input

/-- The type of what a statement defines. -/
def ty? : Stmt Op Ty C Ini → Option Ty
  | .binding b => some b.ty
  | .register r => some r.ty
  | .constant _ t _ => some t
  | _ => none

/-- In the module of the unit `e`, which is generated from `e'` (where the values of `e` have been
renamed), the signal called `v` carries this direction of the value `n` of `e`. -/
inductive Carries (X : NameCtx Op Ty) (e e' : Entity Op Ty C Ini) :
    Signal → List Char → Dir → Name → Prop where
  | inPort {k : Nat} {i : Input Ty} : e.inputs[k]? = some i → X.fwd i.ty ≠ 0 →
      Carries X e e' (.inPort k) (mangleInput i.noMangle i.name) .forward i.valName
  | inWire {k : Nat} {i i' : Input Ty} : e.inputs[k]? = some i → e'.inputs[k]? = some i' →
      X.fwd i.ty ≠ 0 → i.noMangle = false →
      Carries X e e' (.inWire k) (fwdName i'.valName) .forward i.valName
  | outPort {k : Nat} {i : Input Ty} : e.inputs[k]? = some i → X.bwd i.ty ≠ 0 →
      Carries X e e' (.outPort k) (mangleOutput i.noMangle i.name) .backward i.valName
  | backWire {k : Nat} {i i' : Input Ty} : e.inputs[k]? = some i → e'.inputs[k]? = some i' →
      X.bwd i.ty ≠ 0 →
      Carries X e e' (.backWire k) (bwdName i'.valName) .backward i.valName
  | result {k : Nat} {s s' : Stmt Op Ty C Ini} {n n' : Name} {t : Ty} :
      e.stmts[k]? = some s → e'.stmts[k]? = some s' → s.defines = some n → s'.defines = some n' →
      ty? s = some t → X.fwd t ≠ 0 →
      Carries X e e' (.result k) (fwdName n') .forward n
  | resultBack {k : Nat} {b b' : Binding Op Ty} :
      e.stmts[k]? = some (.binding b) → e'.stmts[k]? = some (.binding b') → X.bwd b.ty ≠ 0 →
      Carries X e e' (.resultBack k) (bwdName b'.name) .backward b.name
  | output : X.fwd e.outputTy ≠ 0 → Carries X e e' .output "output__".toList .forward e.output
  | input : X.bwd e.outputTy ≠ 0 → Carries X e e' .input "input__".toList .backward e.output

/-- What the statements of a unit instantiate, in order. -/
def instantiated (X : NameCtx Op Ty) (ss : List (Stmt Op Ty C Ini)) : List Op :=
  ss.filterMap fun s => match s with
    | .binding b => match b.operator with
      | .other op => if (X.inst op).isSome then some op else none
      | .alias => none
    | _ => none

/-- The module of `e` has an instance called `x`, of the unit `t`. `target` says which unit an
operator instantiates. -/
def HasInstance (X : NameCtx Op Ty) (target : Op → Nat) (e : Entity Op Ty C Ini) (x : List Char)
    (t : Nat) : Prop :=
  ∃ (k : Nat) (op : Op), (instantiated X e.stmts)[k]? = some op ∧
    (instanceNames [] (requested X e.stmts))[k]? = some x ∧ target op = t

/-- The units of a program with their numbers, as they are generated. -/
abbrev Program (Op Ty C Ini : Type) := List (Nat × Entity Op Ty C Ini)

/-- Following the instances of a path from unit `u` leads to unit `t`. -/
inductive Leads (X : NameCtx Op Ty) (target : Op → Nat) (prog : Program Op Ty C Ini) :
    Nat → List (List Char) → Nat → Prop where
  | here {u : Nat} : Leads X target prog u [] u
  | step {u w t : Nat} {e : Entity Op Ty C Ini} {x : List Char} {path : List (List Char)} :
      (u, e) ∈ prog → HasInstance X target e x w → Leads X target prog w path t →
      Leads X target prog u (x :: path) t

end Spade.Hier.Spec

/-!
# What `gen if` means (C53)

A small language of units with `gen if`, and its meaning: the branch that the
condition selects for the given generic arguments, evaluated where the `gen if`
stands.  Operators, type level expressions and values are left abstract.
-/
namespace Spade.GenIf

/-- Values of the generic parameters of a unit. -/
abbrev Gens := List Int

mutual
/-- Expressions.  spade-hir/src/expression.rs (`ExprKind`): variables, calls, `gen
if` and blocks; everything else that computes a value from the values of its
operands is `prim`.  A block without a result has the result `prim _ []`. -/
inductive Exp (V : Type) where
  | var (x : Nat)
  | prim (f : List V → Option V) (args : List (Exp V))
  | call (u : Nat) (targs : Gens → Option Gens) (args : List (Exp V))
  | gif (c : Gens → Option Bool) (t e : Exp V)
  | block (ss : List (Stm V)) (r : Exp V)
/-- Statements: bindings, and `reg*k;` in pipelines. -/
inductive Stm (V : Type) where
  | bind (x : Nat) (e : Exp V)
  | reg (k : Gens → Nat)
end

/-- A unit.  `depth` is the depth of a pipeline. -/
structure Unit (V : Type) where
  params : List Nat
  depth : Option (Gens → Nat)
  body : Exp V

/-- A program: units with their names. -/
abbrev Prog (V : Type) := List (Nat × Unit V)

/-- What calls give. -/
abbrev Calls (V : Type) := Nat → Gens → List V → Option V

/-- Values of variables. -/
abbrev Vars (V : Type) := List (Nat × V)

section
variable {V : Type}

mutual
/-- The value of an expression. -/
def Exp.ev (f : Calls V) (ρ : Gens) (E : Vars V) : Exp V → Option V
  | .var x => E.lookup x
  | .prim g args => (evs f ρ E args).bind g
  | .call u targs args => (targs ρ).bind fun ρ' => (evs f ρ E args).bind fun vs => f u ρ' vs
  | .gif c t e => (c ρ).bind fun b => if b then t.ev f ρ E else e.ev f ρ E
  | .block ss r => (stms f ρ E ss).bind fun E' => r.ev f ρ E'
/-- The values of several expressions. -/
def evs (f : Calls V) (ρ : Gens) (E : Vars V) : List (Exp V) → Option (List V)
  | [] => some []
  | a :: as => (a.ev f ρ E).bind fun v => (evs f ρ E as).map fun vs => v :: vs
/-- The variables after some statements. -/
def stms (f : Calls V) (ρ : Gens) (E : Vars V) : List (Stm V) → Option (Vars V)
  | [] => some E
  | .bind x e :: ss => (e.ev f ρ E).bind fun v => stms f ρ ((x, v) :: E) ss
  | .reg _ :: ss => stms f ρ E ss
end

/-- The number of pipeline registers in a list of statements. -/
def regs (ρ : Gens) : List (Stm V) → Nat
  | [] => 0
  | .bind _ _ :: ss => regs ρ ss
  | .reg k :: ss => k ρ + regs ρ ss

/-- The number of pipeline registers on the way to the result. -/
def Exp.stages (ρ : Gens) : Exp V → Option Nat
  | .gif c t e => (c ρ).bind fun b => if b then t.stages ρ else e.stages ρ
  | .block ss r => (r.stages ρ).map fun n => regs ρ ss + n
  | _ => some 0

/-- A pipeline has as many stages as it declares. -/
def Unit.deep (u : Unit V) (ρ : Gens) : Prop :=
  match u.depth with
  | none => True
  | some d => u.body.stages ρ = some (d ρ)

open Classical in
/-- The result of a unit: undefined if the number of arguments is wrong, or a
pipeline does not have the stages it declares. -/
noncomputable def Unit.run (u : Unit V) (f : Calls V) (ρ : Gens) (args : List V) : Option V :=
  if u.params.length = args.length ∧ u.deep ρ then u.body.ev f ρ (u.params.zip args) else none

/-- The result of a call, if calls are nested at most `n` deep. -/
noncomputable def Prog.calls (P : Prog V) : Nat → Calls V
  | 0, _, _, _ => none
  | n + 1, u, ρ, args => (P.lookup u).bind fun w => w.run (P.calls n) ρ args

/-- The unit `u` gives `v` for generic arguments `ρ` and arguments `args`. -/
def Prog.Gives (P : Prog V) (u : Nat) (ρ : Gens) (args : List V) (v : V) : Prop :=
  ∃ n, P.calls n u ρ args = some v

mutual
/-- All units called in an expression satisfy `p`. -/
def Exp.Over (p : Nat → Prop) : Exp V → Prop
  | .var _ => True
  | .prim _ args => oversE p args
  | .call u _ args => p u ∧ oversE p args
  | .gif _ t e => t.Over p ∧ e.Over p
  | .block ss r => oversS p ss ∧ r.Over p
/-- `Exp.Over` of a list of expressions. -/
def oversE (p : Nat → Prop) : List (Exp V) → Prop
  | [] => True
  | a :: as => a.Over p ∧ oversE p as
/-- `Exp.Over` of a list of statements. -/
def oversS (p : Nat → Prop) : List (Stm V) → Prop
  | [] => True
  | .bind _ e :: ss => e.Over p ∧ oversS p ss
  | .reg _ :: ss => oversS p ss
end

mutual
/-- There is no `gen if` in the expression. -/
def Exp.NoGif : Exp V → Prop
  | .var _ => True
  | .prim _ args => noGifE args
  | .call _ _ args => noGifE args
  | .gif _ _ _ => False
  | .block ss r => noGifS ss ∧ r.NoGif
/-- `Exp.NoGif` of a list of expressions. -/
def noGifE : List (Exp V) → Prop
  | [] => True
  | a :: as => a.NoGif ∧ noGifE as
/-- `Exp.NoGif` of a list of statements. -/
def noGifS : List (Stm V) → Prop
  | [] => True
  | .bind _ e :: ss => e.NoGif ∧ noGifS ss
  | .reg _ :: ss => noGifS ss
end

mutual
/-- `gen if` is only used as the result of a unit, as the value of a binding, or as
the result of a block or a branch in such a place, and for the generic arguments `ρ`
all its conditions have a value. -/
def Exp.Placed (ρ : Gens) : Exp V → Prop
  | .var _ => True
  | .prim _ args => noGifE args
  | .call _ _ args => noGifE args
  | .gif c t e => (∃ b, c ρ = some b) ∧ t.Placed ρ ∧ e.Placed ρ
  | .block ss r => placedS ρ ss ∧ r.Placed ρ
/-- `Exp.Placed` of a list of statements. -/
def placedS (ρ : Gens) : List (Stm V) → Prop
  | [] => True
  | .bind _ e :: ss => e.Placed ρ ∧ placedS ρ ss
  | .reg _ :: ss => placedS ρ ss
end

/-- The expression is a `gen if`. -/
def Exp.IsGif : Exp V → Prop
  | .gif _ _ _ => True
  | _ => False

/-- `gen if` is used the way the language allows: as the result of a block which is
the body of a unit or a branch of such a `gen if`.  The branches are blocks or
further `gen if`s (`else gen if`). -/
def Exp.Tail : Exp V → Prop
  | .gif _ t e => t.Tail ∧ e.Tail
  | .block ss r => noGifS ss ∧ (r.NoGif ∨ (r.IsGif ∧ r.Tail))
  | _ => False

/-- The body of a unit is a block in which `gen if` is used the way the language
allows, and the inputs have distinct names. -/
structure Unit.Ok (u : Unit V) : Prop where
  block : ¬ u.body.IsGif
  tail : u.body.Tail
  params : u.params.Nodup

/-- The units of a program have distinct names, all below `next`, and so do the
units they call. -/
structure Prog.Ok (P : Prog V) (next : Nat) : Prop where
  names : (P.map (·.1)).Nodup
  below : ∀ x ∈ P, x.1 < next
  calls : ∀ x ∈ P, x.2.body.Over (· < next)
  params : ∀ x ∈ P, x.2.params.Nodup

end

end Spade.GenIf

import Verif.Infer.UnifySpec
import Verif.Infer.Kinds

/-!
# Unification (C23): model

Model of `unify_inner` and `check_type_for_recursion`,
`/repo/spade-typeinference/src/lib.rs:2988-3332, 3425-3482`.

Simplifications:
* The stack of replacements is represented by the function it computes, which C19 shows it does;
  `St.bind` is the abstract machine's `bind`.
* The error type, which unifies with everything, is left out, as are generic arguments appearing as
  named types (`TypeSymbol::GenericArg` and `GenericMeta` in the `Named`/`Named` case).
* Traits have no parameters, and a trait is implemented for all instances of a type constructor or
  for none (`impls`); the trial unifications of `ensure_impls` then have no effect.
* Source locations and traces are left out. On an error the state is dropped.
-/

namespace Spade.Infer

open Spec (Kind Base GT Ty)

/-- Models `TypeVar`, `spade-typeinference/src/equation.rs:40-60`. -/
inductive TV where
  | known (b : Base) (params : List Nat)
  | unknown (kind : Kind) (traits : List Nat)
  deriving DecidableEq, Repr

/-- Models the part of `TypeState` that unification uses: the arena of type variables
(`SharedTypeState::type_vars`) and the replacements. -/
structure St where
  vars : List TV
  res : Nat → Nat

/-- Models `add_type_var` and the `new_generic_*` functions, `lib.rs:540-640`. -/
def St.add (S : St) (tv : TV) : St := { S with vars := S.vars ++ [tv] }

/-- The id `add` returns. -/
def St.fresh (S : St) : Nat := S.vars.length

/-- Models `replacements.insert(from, to)`, see C19. -/
def St.bind (S : St) (src dst : Nat) : St :=
  { S with res := fun v => if S.res v = src then S.res dst else S.res v }

/-- Models `TypeVarID::resolve`, `equation.rs:26-38`. -/
def St.get (S : St) (id : Nat) : Option TV := S.vars[S.res id]?

/-- Models the loop over the parameters in `check_type_for_recursion`, `lib.rs:3433-3437`, with the
recursive call as a parameter. `some true` is `Ok`, `some false` an error, `none` no answer. -/
def checkParams (go : Nat → Option Bool) (seen : List Nat) : List Nat → Option Bool
  | [] => some true
  | p :: ps =>
    if p ∈ seen then some false
    else
      match go p with
      | some true => checkParams go seen ps
      | r => r

/-- Models `check_type_for_recursion`, `lib.rs:3425-3482`, for variables whose traits have no
parameters. The recursion stops at depth `fuel` with no answer. -/
def checkRec (S : St) : Nat → List Nat → Nat → Option Bool
  | 0, _, _ => none
  | fuel + 1, seen, ty =>
    match S.get ty with
    | none => none
    | some (.unknown _ _) => some true
    | some (.known _ ps) => checkParams (checkRec S fuel (ty :: seen)) (ty :: seen) ps

/-- Models the variants of `UnificationError` that occur here. -/
inductive UErr where
  | normal
  | metaMismatch
  | unsatisfiedTraits
  | recursiveType
  deriving DecidableEq, Repr

/-- The outcome of unification: the new state and the resulting variable, an error, or no answer
(a panic, or recursion that is too deep). -/
inductive Out where
  | ok (S : St) (r : Nat)
  | err (e : UErr)
  | stuck

/-- The same outcome, with another resulting variable. -/
def Out.withResult (r : Nat) : Out → Out
  | .ok S _ => .ok S r
  | .err e => .err e
  | .stuck => .stuck

/-- Models the final loop of `unify_inner`, `lib.rs:3320-3335`, for one replaced type. -/
def replaceOne (S : St) (replaced new : Nat) : Option (Option St) :=
  let src := S.res replaced
  let dst := S.res new
  let S' := S.bind src dst
  match checkRec S' (S'.vars.length + 1) [] dst with
  | none => none
  | some false => some none
  | some true => some (some S')

/-- Models the final loop of `unify_inner`, `lib.rs:3320-3338`. -/
def replaceAll (S : St) (v1 v2 : Nat) (new : Nat) : List Nat → Out
  | [] => .ok S new
  | r :: rs =>
    if v1 ≠ v2 then
      match replaceOne S r new with
      | none => .stuck
      | some none => .err .recursiveType
      | some (some S') => replaceAll S' v1 v2 new rs
    else replaceAll S v1 v2 new rs

/-- Models `unify_params`, `lib.rs:3037-3064`, with the recursive call as a parameter; the result is
the new state. -/
def unifyParams (u : St → Nat → Nat → Out) : St → List Nat → List Nat → Out
  | S, [], [] => .ok S 0
  | S, p :: ps, q :: qs =>
    match u S p q with
    | .ok S' _ => unifyParams u S' ps qs
    | .err e => .err e
    | .stuck => .stuck
  | _, _, _ => .err .normal

/-- Models the union of two trait lists without parameters, `lib.rs:3158-3190`. -/
def mergeTraits (t1 t2 : List Nat) : List Nat := t1 ++ t2.filter (fun t => !(t1.contains t))

/-- Models the unknown/unknown case of `unify_inner`, `lib.rs:3145-3203`: the merged variable. -/
def mergeUnknown (k1 k2 : Kind) (t1 t2 : List Nat) : Option TV :=
  match unifyMeta k1 k2 with
  | some .type => some (.unknown .type (mergeTraits t1 t2))
  | some k => some (.unknown k [])
  | none => none

/-- Models the known/unknown case of `unify_inner`, `lib.rs:3204-3318`, up to the replacement. -/
def fillUnknown (impls : Base → Nat → Bool) (b : Base) (k : Kind) (ts : List Nat) : Option UErr :=
  if ts.all (impls b) then
    if kindAccepts b.val k then none else some .metaMismatch
  else some .unsatisfiedTraits

/-- Models `unify_inner`, `lib.rs:2988-3338`. `impls b t` tells whether trait `t` is implemented for
types with head `b`. Parameter lists of different lengths are an error even before the first
parameter is unified (`lib.rs:3041-3052`). -/
def unifyInner (impls : Base → Nat → Bool) : Nat → St → Nat → Nat → Out
  | 0, _, _, _ => .stuck
  | fuel + 1, S, e1, e2 =>
    let v1 := S.res e1
    let v2 := S.res e2
    let params := fun p1 p2 =>
      if p1.length ≠ p2.length then .err .normal
      else
        Out.withResult v1 (unifyParams (unifyInner impls fuel) S p1 p2)
    match S.get v1, S.get v2 with
    | some (.known b1 p1), some (.known b2 p2) =>
      match b1, b2 with
      | .int i, .int j => if i = j then .ok S v1 else .err .normal
      | .str i, .str j => if i = j then .ok S v1 else .err .normal
      | .bool i, .bool j => if i = j then .ok S v1 else .err .normal
      | .named i, .named j => if i ≠ j then .err .normal else params p1 p2
      | .array, .array => params p1 p2
      | .tuple, .tuple => params p1 p2
      | .inverted, .inverted => params p1 p2
      | .copyView, .copyView => params p1 p2
      | _, _ => .err .normal
    | some (.unknown k1 t1), some (.unknown k2 t2) =>
      match mergeUnknown k1 k2 t1 t2 with
      | none => .err .metaMismatch
      | some tv => replaceAll (S.add tv) v1 v2 S.fresh [v1, v2]
    | some (.known b ps), some (.unknown k ts) =>
      match fillUnknown impls b k ts with
      | some e => .err e
      | none => replaceAll (S.add (.known b ps)) v1 v2 S.fresh [v1, v2]
    | some (.unknown k ts), some (.known b ps) =>
      match fillUnknown impls b k ts with
      | some e => .err e
      | none => replaceAll (S.add (.known b ps)) v1 v2 S.fresh [v2, v1]
    | _, _ => .stuck

/-! ## What a state says -/

/-- An assignment satisfies the content of a root variable: a known type fixes the head and refers
to the parameters, an unknown one restricts the head to its kind and traits. -/
def RootOk (impls : Base → Nat → Bool) (S : St) (V : Nat → GT) (r : Nat) : Prop :=
  match S.vars[r]? with
  | none => True
  | some (.known b ps) => V r = .node b (ps.map V)
  | some (.unknown k ts) => k.Holds (V r).head.val ∧ ∀ t ∈ ts, impls (V r).head t = true

/-- An assignment of ground types to all variables satisfies everything the state says. -/
def Sol (impls : Base → Nat → Bool) (S : St) (V : Nat → GT) : Prop :=
  ∀ id < S.vars.length, V id = V (S.res id) ∧ (S.res id = id → RootOk impls S V id)

mutual
/-- `id` resolves to the type `t`, following replacements and parameters. -/
inductive Denotes (S : St) : Nat → Ty → Prop
  | var {id k ts} : S.vars[S.res id]? = some (.unknown k ts) → Denotes S id (.var (S.res id))
  | app {id b ps args} : S.vars[S.res id]? = some (.known b ps) → DenotesAll S ps args →
      Denotes S id (.app b args)
/-- The same for a list of parameters, one by one. -/
inductive DenotesAll (S : St) : List Nat → List Ty → Prop
  | nil : DenotesAll S [] []
  | cons {p ps t ts} : Denotes S p t → DenotesAll S ps ts → DenotesAll S (p :: ps) (t :: ts)
end

/-- States that inference can be in: variables stand for existing variables, parameters exist,
type-level values have no parameters, only variables of kind `#type` have traits. -/
structure WF (S : St) : Prop where
  lt : ∀ id, id < S.vars.length → S.res id < S.vars.length
  root : ∀ id, S.res (S.res id) = S.res id
  out : ∀ id, S.vars.length ≤ id → S.res id = id
  params : ∀ (r : Nat) b ps, S.vars[r]? = some (.known b ps) → ∀ p ∈ ps, p < S.vars.length
  lit : ∀ (r : Nat) b ps, S.vars[r]? = some (.known b ps) → (∀ l, b.val ≠ .type l) → ps = []
  traits : ∀ (r : Nat) k ts, S.vars[r]? = some (.unknown k ts) → k ≠ .type → ts = []

end Spade.Infer

import Verif.Check.Spec
import Verif.Infer.UnifyOuter

/-!
# The state of type inference and unification (C51): model

Model of `TypeState`, `unify_inner`, `unify`, `ensure_impls` and `make_copy_with_mapping`,
`/repo/spade-typeinference/src/lib.rs:2985-3650` and `/repo/spade-typeinference/src/equation.rs:223-272`.
Unlike the model for C23, traits have parameters and implementations are searched for.

Simplifications:
* The stack of replacements is represented by the function it computes (C19). Trying an
  implementation and going back is represented by running it on a copy of the state.
* The error type, generic arguments appearing as named types, source locations and traces are left
  out; an error ends inference (`Out.err`), while the code goes on to look for more errors.
* Recursion is bounded by fuel; running out of it, a panic, or a step that the model leaves out is
  `Out.stuck`.
* A variable that occurs in its own trait bounds is left out: `busy` is not part of the code, it
  lists the unknown variables whose bounds are being worked on, and no step looks at these.
* `lost` is not part of the code. It records that unification returned a variable that is not
  connected to the two it unified and that this result is used (see `useUnify`), that the parameters
  of a known type were replaced by others not connected to them (`checkSame`), or that one of two
  bounds by the same trait was dropped (`mergeTraits`).
-/

namespace Spade.Check

open Spade.Infer.Spec (Kind Base GT Val)
open Spade.Infer (CE VState)

/-- Models `TraitList`, `spade-typeinference/src/traits.rs`: names of traits with their parameters. -/
abbrev Traits := List (Nat × List Nat)

/-- Models `TypeVar`, `spade-typeinference/src/equation.rs:40-60`. -/
inductive TV where
  | known (b : Base) (params : List Nat)
  | unknown (kind : Kind) (traits : Traits)
  deriving DecidableEq, Repr

/-- Models `ConstantInt`, `spade-typeinference/src/requirements.rs:23-27`. -/
inductive CLit where
  | lit (v : Int)
  | generic (v : Nat)

/-- Models `Requirement`, `spade-typeinference/src/requirements.rs:29-110`, without those about
methods and pipelines. -/
inductive Req where
  | field (target : Nat) (f : String) (e : Nat)
  | fits (v : CLit) (target : Nat)
  | endAfterStart (s e : Nat)
  | inArray (i n : Nat)
  | nonZero (n : Nat)
  | whereCmp (k : Cmp) (l r : Nat)
  | sharedBase (ts : List Nat)

/-- Models `TypeState`, `spade-typeinference/src/lib.rs:120-230`: the arena of type variables, the
replacements, constraints and requirements, the equations for ids and names, and the generic lists
of calls. -/
structure St where
  vars : List TV
  res : Nat → Nat
  cons : List (Nat × CE)
  reqs : List Req
  ids : Nat → Option Nat
  names : Nat → Option Nat
  calls : Nat → Option (List (String × Nat))
  busy : List Nat
  lost : Bool

/-- The outcome of a step. -/
inductive Out (α : Type) where
  | ok (a : α) (S : St)
  | err
  | stuck

/-- Steps of inference. -/
def M (α : Type) := St → Out α

instance : Monad M where
  pure a := fun S => .ok a S
  bind m f := fun S =>
    match m S with
    | .ok a S' => f a S'
    | .err => .err
    | .stuck => .stuck

/-- An error is reported. -/
def M.err {α : Type} : M α := fun _ => .err
/-- No answer. -/
def M.stuck {α : Type} : M α := fun _ => .stuck

/-- Models `TypeVarID::resolve`, `equation.rs:26-38`. -/
def St.get (S : St) (id : Nat) : Option TV := S.vars[S.res id]?

/-- The parameters a new variable may have: existing variables, none for type-level values, and
traits only for types. Type variable ids are handed out by the arena, so the code has no other. -/
def TV.fits (n : Nat) : TV → Bool
  | .known b ps => ps.all (· < n) && (ps.isEmpty || (match b with
      | .int _ | .bool _ | .str _ => false
      | _ => true))
  | .unknown k ts => ts.all (fun t => t.2.all (· < n)) && (ts.isEmpty || k == .type)

/-- Models `add_type_var`, `lib.rs:233-238`, and the `new_generic_*` functions built on it,
`lib.rs:507-690`. -/
def addVar (tv : TV) : M Nat := fun S =>
  if tv.fits S.vars.length then .ok S.vars.length { S with vars := S.vars ++ [tv] } else .stuck

/-- Models `get_type` of a type variable, `lib.rs:3824-3857`: its replacement. -/
def find (id : Nat) : M Nat := fun S => .ok (S.res id) S

/-- Models `TypeVarID::resolve`. -/
def getVar (id : Nat) : M TV := fun S =>
  if S.res id ∈ S.busy then .stuck
  else
    match S.get id with
    | some tv => .ok tv S
    | none => .stuck

/-- Marks variables as being worked on. -/
def withBusy {α : Type} (vs : List Nat) (m : M α) : M α := fun S =>
  match m { S with busy := vs ++ S.busy } with
  | .ok a S' => .ok a { S' with busy := S.busy }
  | .err => .err
  | .stuck => .stuck

/-- Models the loop over parameters in `check_type_for_recursion`, `lib.rs:3433-3437`. -/
def checkParams (go : Nat → Option Bool) (seen : List Nat) : List Nat → Option Bool
  | [] => some true
  | p :: ps =>
    if p ∈ seen then some false
    else
      match go p with
      | some true => checkParams go seen ps
      | r => r

/-- Models `check_type_for_recursion`, `lib.rs:3425-3482`. -/
def checkRec (S : St) : Nat → List Nat → Nat → Option Bool
  | 0, _, _ => none
  | fuel + 1, seen, ty =>
    match S.get ty with
    | none => none
    | some (.unknown _ ts) =>
      checkParams (checkRec S fuel (ty :: seen)) (ty :: seen) (ts.flatMap (·.2))
    | some (.known _ ps) => checkParams (checkRec S fuel (ty :: seen)) (ty :: seen) ps

/-- The state after `replacements.insert(src, dst)`, see C19. -/
def St.bind (S : St) (src dst : Nat) : St :=
  { S with res := fun v => if S.res v = src then S.res dst else S.res v }

/-- Models one round of the final loop of `unify_inner`, `lib.rs:3320-3335`. -/
def replaceVar (v new : Nat) : M PUnit := fun S =>
  if S.res v ≠ S.res new ∧ S.res v < S.vars.length then
    let S' := S.bind (S.res v) new
    match checkRec S' (S'.vars.length + 1) [] (S'.res new) with
    | none => .stuck
    | some false => .err
    | some true => .ok () S'
  else .stuck

/-- The variable stands for itself. -/
def isRoot (v : Nat) : M PUnit := fun S => if S.res v = v then .ok () S else .stuck

/-- Models the final loop of `unify_inner`, `lib.rs:3320-3338`, for two unknown variables. -/
def replaceBoth (a b new : Nat) : M PUnit :=
  if a ≠ b then do
    isRoot a
    replaceVar a new
    isRoot b
    replaceVar b new
  else pure ()

/-- Pairwise. -/
def allSame (f : Nat → Nat → Bool) : List Nat → List Nat → Bool
  | [], [] => true
  | p :: ps, q :: qs => f p q && allSame f ps qs
  | _, _ => false

/-- Whether two variables stand for the same type as far as is known, without looking at `X`. -/
def sameVar (S : St) (X : List Nat) : Nat → Nat → Nat → Bool
  | 0, _, _ => false
  | n + 1, p, q =>
    decide (S.res p = S.res q) ||
      (decide (S.res p ∉ X) && decide (S.res q ∉ X) && (match S.get p, S.get q with
        | some (.known b ps), some (.known c qs) => decide (b = c) && allSame (sameVar S X n) ps qs
        | _, _ => false))

/-- Not part of the code: whether the known variable `a` and the variable `new` that is about to
replace it stand for the same type. If not, a part of what is known is lost. -/
def St.sameAs (S : St) (a b new : Nat) : Bool :=
  decide (S.res new ∉ S.res a :: b :: S.busy) && (match S.get a, S.get new with
    | some (.known c ps), some (.known d qs) =>
      decide (c = d) && allSame (sameVar S (S.res a :: b :: S.busy) (S.vars.length + 1)) ps qs
    | _, _ => false)

/-- Records in `lost` that something is lost when `new` replaces `a`. -/
def checkSame (a b new : Nat) : M PUnit := fun S =>
  .ok () { S with lost := S.lost || !S.sameAs a b new }

/-- Models the final loop of `unify_inner`, `lib.rs:3320-3338`, for a known variable `a` and an
unknown one `b`. -/
def replaceKnown (a b new : Nat) : M PUnit := do
  checkSame a b new
  replaceVar a new
  isRoot b
  replaceVar b new

/-- Models `unify_params`, `lib.rs:3037-3064`, and other loops that unify variables pairwise. -/
def unifyAll (u : Nat → Nat → M Nat) : List Nat → List Nat → M PUnit
  | [], [] => pure ()
  | a :: as, b :: bs => do
    let _ ← u a b
    unifyAll u as bs
  | _, _ => .err

/-- Unification whose result is used. When both variables are already the same unknown one,
`unify_inner` returns a new variable without replacing them by it (`lib.rs:3322`), so the result is
not connected to them; `lost` records that this happened. -/
def useUnify (u : Nat → Nat → M Nat) (a b : Nat) : M Nat := fun S =>
  let same := decide (S.res a = S.res b) && (match S.get a with
    | some (.unknown _ _) => true
    | _ => false)
  u a b { S with lost := S.lost || same }

/-- The results of unifying two lists pairwise, as in `lib.rs:3176-3183, 3228-3236`. -/
def useAll (w : Nat → Nat → M Nat) : List Nat → List Nat → M (List Nat)
  | [], [] => pure []
  | a :: as, b :: bs => do
    let r ← w a b
    let rs ← useAll w as bs
    pure (r :: rs)
  | _, _ => .stuck

/-- Unification of the parameters of bounds. When a variable is unified with itself, the merged
bounds belong to a new variable that does not replace it, so nothing is lost by them. -/
def useIf (same : Bool) (u : Nat → Nat → M Nat) : Nat → Nat → M Nat := if same then u else useUnify u

/-- Without repetitions. -/
def dedup : List Nat → List Nat
  | [] => []
  | n :: ns => if n ∈ ns then dedup ns else n :: dedup ns

/-- Whether a name occurs twice. -/
def repeats : List Nat → Bool
  | [] => false
  | n :: ns => decide (n ∈ ns) || repeats ns

/-- Models the merging of the bounds by one trait, `lib.rs:3170-3195`. -/
def mergeOne (w : Nat → Nat → M Nat) (t1 t2 : Traits) (n : Nat) : M (List Nat) :=
  match t1.lookup n, t2.lookup n with
  | some p, some q => useAll w p q
  | some p, none => pure p
  | none, some q => pure q
  | none, none => .stuck

/-- Models the merging of trait lists, `lib.rs:3160-3197`, name by name. (The code goes through the
names in the order of a `BTreeSet`.) -/
def mergeNames (w : Nat → Nat → M Nat) (t1 t2 : Traits) : List Nat → M Traits
  | [] => pure []
  | n :: ns => do
    let ps ← mergeOne w t1 t2 n
    let rest ← mergeNames w t1 t2 ns
    pure ((n, ps) :: rest)

/-- Records that a bound is dropped. -/
def setLost (b : Bool) : M PUnit := fun S => .ok () { S with lost := S.lost || b }

/-- Models the merging of trait lists, `lib.rs:3160-3197`. Of two bounds by the same trait in one
list only the first is looked at (`get_trait`); `lost` records that there were two. -/
def mergeTraits (w : Nat → Nat → M Nat) (t1 t2 : Traits) : M Traits := do
  setLost (repeats (t1.map (·.1)) || repeats (t2.map (·.1)))
  mergeNames w t1 t2 (dedup ((t1 ++ t2).map (·.1)))

/-! ## Implementations -/

mutual
/-- Models `make_copy_with_mapping`, `equation.rs:227-271`, for a known type and for a parameter that
has been copied already. -/
def copyTy (m : List Nat) : ITy → M Nat
  | .gen i =>
    match m[i]? with
    | some v => pure v
    | none => .stuck
  | .app b ps => do
    let vs ← copyTys m ps
    addVar (.known b vs)
/-- The same for a list. -/
def copyTys (m : List Nat) : List ITy → M (List Nat)
  | [] => pure []
  | p :: ps => do
    let v ← copyTy m p
    let vs ← copyTys m ps
    pure (v :: vs)
end

/-- The bounds of a copied generic parameter, `equation.rs:243-264`. -/
def copyBounds (m : List Nat) : List (Nat × List ITy) → M Traits
  | [] => pure []
  | (t, ps) :: bs => do
    let vs ← copyTys m ps
    let rest ← copyBounds m bs
    pure ((t, vs) :: rest)

/-- Models `make_copy_with_mapping`, `equation.rs:227-271`, for the generic parameters of an
implementation. The code copies them when it first meets them; here all are copied first, each after
those its bounds mention. -/
def copyGens : List Nat → List IGen → M (List Nat)
  | m, [] => pure m
  | m, g :: gs => do
    let ts ← copyBounds m g.bounds
    let v ← addVar (.unknown g.kind ts)
    copyGens (m ++ [v]) gs

/-- Models `checkpoint`, a trial and `restore`, as in `lib.rs:3560-3590`. -/
def tryM (m : M PUnit) : M Bool := fun S =>
  match m S with
  | .ok _ _ => .ok true S
  | .err => .ok false S
  | .stuck => .stuck

/-- Models one trial unification in `ensure_impls`, `lib.rs:3565-3569, 3577-3581`: every parameter is
copied on its own. -/
def trialAll (u : Nat → Nat → M Nat) (gens : List IGen) : List ITy → List Nat → M PUnit
  | [], [] => pure ()
  | p :: ps, v :: vs => do
    let m ← copyGens [] gens
    let c ← copyTy m p
    let _ ← u c v
    trialAll u gens ps vs
  | _, _ => .err

/-- Models the filter over implementations in `ensure_impls`, `lib.rs:3551-3590`. For tuples the code
finds implementations of another arity, and leaves its checkpoint open (see C19); here they are
skipped. -/
def findImpls (u : Nat → Nat → M Nat) (b : Base) (params : List Nat) (t : Nat) (targs : List Nat) :
    List Impl → M (List Impl)
  | [] => pure []
  | i :: is => do
    let ok ← (if i.base = b ∧ i.trait = t ∧ i.traitArgs.length = targs.length ∧
        i.args.length = params.length then
      tryM (do
        trialAll u i.gens i.traitArgs targs
        trialAll u i.gens i.args params)
      else pure false)
    let rest ← findImpls u b params t targs is
    pure (if ok then i :: rest else rest)

/-- Models `ensure_impls`, `lib.rs:3484-3645`: exactly one implementation for every trait. -/
def ensureImpls (impls : List Impl) (u : Nat → Nat → M Nat) (b : Base) (params : List Nat) :
    Traits → M (List (Impl × List Nat))
  | [] => pure []
  | (t, targs) :: ts => do
    let found ← findImpls u b params t targs impls
    match found with
    | [i] => do
      let rest ← ensureImpls impls u b params ts
      pure ((i, targs) :: rest)
    | _ => .err

/-- Models the use of the implementations found, `lib.rs:3219-3237`. -/
def applyImpls (u : Nat → Nat → M Nat) : List Nat → List (Impl × List Nat) → M (List Nat)
  | params, [] => pure params
  | params, (i, targs) :: is => do
    let m ← copyGens [] i.gens
    let cs ← copyTys m i.traitArgs
    unifyAll u targs cs
    let ds ← copyTys m i.args
    let params' ← useAll (useUnify u) ds params
    applyImpls u params' is

/-! ## Unification -/

/-- Models the known/unknown case of `unify_inner`, `lib.rs:3204-3318`: the new known variable. -/
def fillUnknown (impls : List Impl) (u : Nat → Nat → M Nat) (b : Base) (ps : List Nat) (k : Kind)
    (ts : Traits) : M Nat := do
  let is ← ensureImpls impls u b ps ts
  let ps' ← applyImpls u ps is
  if Infer.kindAccepts b.val k then addVar (.known b ps') else .err

/-- Whether a head is a type-level value. -/
def isValue : Base → Bool
  | .int _ | .bool _ | .str _ => true
  | _ => false

/-- Models the known/known case of `unify_inner`, `lib.rs:3066-3147`. -/
def unifyKnown (u : Nat → Nat → M Nat) (v1 : Nat) (b1 : Base) (p1 : List Nat) (b2 : Base)
    (p2 : List Nat) : M Nat :=
  if b1 = b2 then
    if isValue b1 then pure v1
    else if p1.length ≠ p2.length then .err
    else do
      unifyAll u p1 p2
      pure v1
  else .err

/-- Models the unknown/unknown case of `unify_inner`, `lib.rs:3148-3203`: the merged variable. -/
def mergeUnknown (w : Nat → Nat → M Nat) (k1 k2 : Kind) (t1 t2 : Traits) : M Nat :=
  match Infer.unifyMeta k1 k2 with
  | none => .err
  | some k =>
    if k = .type then do
      let ts ← mergeTraits w t1 t2
      addVar (.unknown k ts)
    else addVar (.unknown k [])

/-- What the constraints see of a type variable, `constraints.rs:186-204`. -/
def St.seen (S : St) (id : Nat) : VState :=
  match S.get id with
  | some (.known b _) => .ofVal b.val
  | _ => .unknown

/-- Models the inner `for` loop of `unify`, `lib.rs:3369-3417`. -/
def learnAll (ui : Nat → Nat → M Nat) : List (Nat × Val) → M PUnit
  | [] => pure ()
  | (v, w) :: rest => do
    let n ← addVar (.known (Infer.baseOf w) [])
    let _ ← ui n v
    learnAll ui rest

/-- Models the `loop` of `unify`, `lib.rs:3355-3419`. -/
def solveLoop (ui : Nat → Nat → M Nat) : Nat → M PUnit
  | 0 => .stuck
  | n + 1 => fun S =>
    match Infer.updateConstraints S.seen S.cons with
    | none => .stuck
    | some (rest, []) => .ok () { S with cons := rest }
    | some (rest, new) => (do
        learnAll ui new
        solveLoop ui n) { S with cons := rest }

/-- Models `unify`, `lib.rs:3344-3423`, on top of `unify_inner`. -/
def unifyWith (ui : Nat → Nat → M Nat) (n : Nat) (a b : Nat) : M Nat := do
  let r ← ui a b
  solveLoop ui n
  pure r

/-- Models `unify_inner`, `lib.rs:2985-3338`. -/
def unifyInner (impls : List Impl) : Nat → Nat → Nat → M Nat
  | 0, _, _ => .stuck
  | fuel + 1, e1, e2 => do
    let v1 ← find e1
    let v2 ← find e2
    let t1 ← getVar v1
    let t2 ← getVar v2
    match t1, t2 with
    | .known b1 p1, .known b2 p2 => unifyKnown (unifyInner impls fuel) v1 b1 p1 b2 p2
    | .unknown k1 t1, .unknown k2 t2 => do
      let new ← withBusy [v1, v2]
        (mergeUnknown (useIf (v1 = v2) (unifyWith (unifyInner impls fuel) fuel)) k1 k2 t1 t2)
      replaceBoth v1 v2 new
      pure new
    | .known b ps, .unknown k ts => do
      let new ← withBusy [v2]
        (fillUnknown impls (unifyWith (unifyInner impls fuel) fuel) b ps k ts)
      replaceKnown v1 v2 new
      pure new
    | .unknown k ts, .known b ps => do
      let new ← withBusy [v1]
        (fillUnknown impls (unifyWith (unifyInner impls fuel) fuel) b ps k ts)
      replaceKnown v2 v1 new
      pure new

/-- Models `unify`, `lib.rs:3344-3423`. -/
def unify (impls : List Impl) (fuel : Nat) (a b : Nat) : M Nat :=
  unifyWith (unifyInner impls fuel) fuel a b

end Spade.Check

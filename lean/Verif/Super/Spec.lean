/-!
# Supertraits (C70): specification

A trait may have supertraits: `trait A<T>: B<T> + C`. Who requires `X: A<bool>` also requires
`X: B<bool>` and `X: C`. This file says what goes in a circle and what is required, without reference
to how the compiler finds out.
-/

namespace Spade.Super

/-- A generic argument: a generic parameter by its name, or a type without parameters. -/
inductive Arg where
  | generic (n : Nat)
  | type (t : Nat)
  deriving DecidableEq

/-- A trait with its generic arguments: `hir::TraitSpec` (spade-hir/src/lib.rs:484-490). -/
structure Bound where
  name : Nat
  args : List Arg
  deriving DecidableEq

/-- The part of `hir::TraitDef` (spade-hir/src/lib.rs:1113-1120) that is used here. -/
structure Trait where
  name : Nat
  params : List Nat
  supers : List Bound

/-- Among the traits `ds`, the one called `a` has the supertrait `b`. -/
def HasSuper (ds : List Trait) (a b : Nat) : Prop := ∃ d ∈ ds, d.name = a ∧ ∃ s ∈ d.supers, s.name = b

/-- The same, directly or through others. -/
inductive Below (ds : List Trait) : Nat → Nat → Prop
  | one {a b : Nat} : HasSuper ds a b → Below ds a b
  | more {a b c : Nat} : HasSuper ds a b → Below ds b c → Below ds a c

/-- No trait is its own supertrait. -/
def NoCircle (ds : List Trait) : Prop := ∀ a, ¬ Below ds a a

/-- `ns` are the traits on a way from the trait `b` up to the supertrait `a`, last first: `a` is a
supertrait of the first of `ns`, each of them is one of the next, and the last is one of `b`. -/
def WayUp (ds : List Trait) (b : Nat) : Nat → List Nat → Prop
  | a, [] => HasSuper ds b a
  | a, n :: ns => HasSuper ds n a ∧ WayUp ds b n ns

/-- Every trait has its own name. -/
def Distinct (ds : List Trait) : Prop := (ds.map (·.name)).Nodup

/-- An argument with the parameters of a trait replaced. -/
def Arg.subst (ps : List (Nat × Arg)) : Arg → Arg
  | .generic n => (ps.lookup n).getD (.generic n)
  | .type t => .type t

/-- What requiring the traits `bs` of a type requires of it: these traits, and the supertraits of every
required trait, at its arguments. -/
inductive Required (ds : List Trait) (bs : List Bound) : Bound → Prop
  | given {b : Bound} : b ∈ bs → Required ds bs b
  | super {b s : Bound} {d : Trait} : Required ds bs b → d ∈ ds → d.name = b.name → s ∈ d.supers →
      Required ds bs ⟨s.name, s.args.map (Arg.subst (d.params.zip b.args))⟩

/-- No trait passes a parameter of its own on to a supertrait. -/
def NoParams (ds : List Trait) : Prop := ∀ d ∈ ds, ∀ s ∈ d.supers, ∀ a ∈ s.args, ∃ t, a = .type t

/-- The types of arguments in a unit: `G` has the types of its generic parameters. -/
def ArgTypes (G : Nat → Option Nat) : List Arg → List Nat → Prop
  | [], [] => True
  | .generic n :: as, t :: ts => G n = some t ∧ ArgTypes G as ts
  | .type u :: as, t :: ts => u = t ∧ ArgTypes G as ts
  | _, _ => False

end Spade.Super

/-
Specification for C32: which monomorphic items a compilation run has to compile.

An item is a source unit together with concrete type parameters.  The units without type parameters
are requested directly (`roots`), and compiling an item requests the generic units it instantiates
(`uses`).  Nothing in this file refers to queues, locks or threads.
-/

namespace Spade.Mono.Spec

/-- A monomorphic item: a source unit (identified by its number) and its type parameters.  `P` is
the type of concrete types. -/
structure Key (P : Type) where
  source : Nat
  params : List P
deriving DecidableEq, Repr

/-- A program: its units without type parameters, the generic instantiations occurring in each
monomorphic item in the order in which lowering meets them, and the first name number that is not
used by the program itself. -/
structure Prog (P : Type) where
  roots : List Nat
  uses : Key P → List (Key P)
  firstId : Nat

/-- `k` is requested directly or transitively by the program. -/
inductive Requested {P : Type} (pg : Prog P) : Key P → Prop where
  | root {s : Nat} : s ∈ pg.roots → Requested pg ⟨s, []⟩
  | use {k k' : Key P} : Requested pg k → k' ∈ pg.uses k → Requested pg k'

end Spade.Mono.Spec

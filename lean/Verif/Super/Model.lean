import Verif.Super.Spec

/-!
# Supertraits (C70): model

Models the last part of `create_trait_from_unit_heads_inner`
(`/repo/spade-ast-lowering/src/impls.rs:515-577`) and what becomes of the bounds of a generic
parameter in `create_generic_list` (`/repo/spade-typeinference/src/lib.rs:1927-1951`, with
`visit_trait_bounds`, 2700-2763).

The set of pending names is a list without duplicates. The code takes *some* name out of a hash set:
the model leaves open which one.

Left out: locations, the heads of the methods, associated types and the other checks on traits, which
can only reject more.
-/

namespace Spade.Super

/-! ## The check for circles -/

/-- The two collections of the search (impls.rs:515-525): the names still to look at, and for each name
seen the trait it is a supertrait of. -/
structure Search where
  pending : List Nat
  edges : Nat → Option Nat

/-- `pending_names.insert(..); visited_edges.insert(.., prev)` (impls.rs:558-562). -/
def Search.put (prev : Nat) (s : Search) (n : Nat) : Search :=
  ⟨s.pending.insert n, fun m => if m = n then some prev else s.edges m⟩

/-- The search before the loop (impls.rs:515-525): both collections are collected from the
supertraits. -/
def Search.start (d : Trait) : Search :=
  (d.supers.map (·.name)).foldl (Search.put d.name) ⟨[], fun _ => none⟩

/-- The loop over the supertraits of a known trait (impls.rs:556-564): only names that were not seen
before are put in. -/
def Search.add (prev : Nat) (s : Search) (n : Nat) : Search :=
  if (s.edges n).isSome then s else s.put prev n

/-- `ctx.item_list.get_trait(name)` (spade-hir/src/lib.rs:1275-1277). -/
def find (T : List Trait) (n : Nat) : Option Trait := T.find? (fun d => d.name == n)

/-- What the loop does with a name that is not the trait itself (impls.rs:552-564): a trait that is not
known yet is passed over. -/
def Search.expand (T : List Trait) (s : Search) (n : Nat) : Search :=
  match find T n with
  | none => s
  | some d => (d.supers.map (·.name)).foldl (Search.add n) s

/-- One turn of the loop that does not report an error: some name is taken out (impls.rs:527). -/
inductive Step (T : List Trait) (self : Nat) : Search → Search → Prop
  | mk {s : Search} {n : Nat} : n ∈ s.pending → n ≠ self →
      Step T self s (Search.expand T ⟨s.pending.erase n, s.edges⟩ n)

/-- The notes of the error (impls.rs:534-548), from `visited_edges[cur]` on: `none` when an edge is
missing (`unwrap` panics) or the steps do not suffice. -/
def notes (edges : Nat → Option Nat) (self : Nat) : Nat → Nat → Option (List Nat)
  | 0, _ => none
  | k + 1, cur => do
    let prev ← edges cur
    if prev = self then some [] else (notes edges self k prev).map (prev :: ·)

/-- What the check says about a trait. -/
inductive Verdict where
  | accept
  /-- The error, with the traits named in its notes (without the last note, which names the trait
  itself). -/
  | circle (via : List Nat)

/-- A run of the loop (impls.rs:527-565). -/
inductive Run (T : List Trait) (self : Nat) : Search → Verdict → Prop
  | done {s : Search} : s.pending = [] → Run T self s .accept
  | found {s : Search} {k : Nat} {ns : List Nat} : self ∈ s.pending →
      notes s.edges self k self = some ns → Run T self s (.circle ns)
  | step {s s' : Search} {v : Verdict} : Step T self s s' → Run T self s' v → Run T self s v

/-- Processing traits one after the other (global_symbols.rs:355-366, impls.rs:515-577). An accepted
trait is added to the list; a rejected one is not. The result is the list of traits and the errors:
trait and notes. (`gather_symbols` stops at the first error of a module file and goes on with the next
file; here it always goes on. What is accepted without errors is the same.) -/
inductive Process : List Trait → List Trait → List Trait → List (Nat × List Nat) → Prop
  | nil {T : List Trait} : Process T [] T []
  | ok {T T' : List Trait} {d : Trait} {ds : List Trait} {es : List (Nat × List Nat)} :
      Run T d.name (.start d) .accept → Process (d :: T) ds T' es → Process T (d :: ds) T' es
  | error {T T' : List Trait} {d : Trait} {ds : List Trait} {es : List (Nat × List Nat)}
      {ns : List Nat} : Run T d.name (.start d) (.circle ns) → Process T ds T' es →
      Process T (d :: ds) T' ((d.name, ns) :: es)

/-! ## Bounds -/

/-- The loop over `spec_queue` (typeinference lib.rs:1930-1941), with at most the given number of turns:
`none` when they do not suffice or a trait is not known (`unwrap` panics). -/
def expandBounds (T : List Trait) : Nat → List Bound → List Bound → Option (List Bound)
  | 0, _, _ => none
  | _ + 1, [], seen => some seen
  | k + 1, s :: queue, seen =>
    if s ∈ seen then expandBounds T k queue seen
    else match find T s.name with
      | none => none
      | some d => expandBounds T k (queue ++ d.supers) (s :: seen)

/-- `all_transitive_traits` (typeinference lib.rs:1930-1944). -/
def allBounds (T : List Trait) (k : Nat) (bs : List Bound) : Option (List Bound) :=
  (expandBounds T k bs []).map (· ++ bs)

/-- A generic argument of a bound (typeinference lib.rs:430-441): `G` maps the generic parameters of the
unit to types; `none` when there is no entry (`panic!`). -/
def visitArg (G : Nat → Option Nat) : Arg → Option Nat
  | .generic n => G n
  | .type t => some t

/-- `visit_trait_bounds` (typeinference lib.rs:2707-2712): the bounds with types. -/
def visitBounds (G : Nat → Option Nat) (bs : List Bound) : Option (List (Nat × List Nat)) :=
  bs.mapM fun b => do some (b.name, ← b.args.mapM (visitArg G))

/-- The bounds of a generic parameter (typeinference lib.rs:1929-1950). -/
def boundsOf (T : List Trait) (k : Nat) (G : Nat → Option Nat) (bs : List Bound) :
    Option (List (Nat × List Nat)) := do
  visitBounds G (← allBounds T k bs)

end Spade.Super

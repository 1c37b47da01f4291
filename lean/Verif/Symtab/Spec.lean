/-!
# What names should mean

Vocabulary shared by the model and the properties, and the specification of name lookup: a history
of scope and declaration events for C24, and a walk through the module tree for C41.  Nothing here
refers to the symbol table of the compiler.
-/
namespace Spade.Symtab

/-- `PathSegment` (spade-common/src/name.rs:98-104). -/
inductive Seg where
  | named (s : String)
  | impl (n : Nat)
  | ifT
  | ifF
  deriving DecidableEq, Repr

/-- `Path` (spade-common/src/name.rs:149-150). -/
abbrev Path := List Seg

/-- `Visibility` (spade-common/src/name.rs:10-22). -/
inductive Vis where
  | implicit
  | pub
  | atLib
  | atSelf
  | atSuper
  | atSuperSuper
  deriving DecidableEq, Repr

/-- `Thing` (spade-hir/src/symbol_table.rs:329-351), as far as lookups look at it: an alias has a
target path and the namespace the path is relative to, all others are alike. -/
inductive Thing where
  | alias (target ns : Path)
  | item
  deriving DecidableEq, Repr

/-- What is known about an item when it is added: whether it is a type, the `Thing` stored for it,
and its visibility. -/
structure Entry where
  isType : Bool
  thing : Option Thing
  vis : Option Vis
  deriving DecidableEq, Repr

/-- The words with a meaning of their own at the start of a path. -/
def Keyword (s : Seg) : Prop := s = .named "lib" ∨ s = .named "self" ∨ s = .named "super"

instance (s : Seg) : Decidable (Keyword s) := by unfold Keyword; infer_instance

/-! ## Histories of scopes and declarations -/

/-- What the passes of the compiler do to the symbol table. -/
inductive Ev where
  | openScope
  | closeScope
  /-- A new item or variable, entered `offset` scopes outside the current one. -/
  | declare (offset : Nat) (name : Path) (e : Entry)
  /-- A type that exists already is given a name in the current scope. -/
  | reAdd (name : Seg) (id : Nat)
  | pushNs (s : Seg)
  | popNs
  | setBase (p : Path)

/-- The number of open scopes. -/
def depthOf (evs : List Ev) : Nat :=
  evs.foldl (fun d e => match e with
    | .openScope => d + 1
    | .closeScope => d - 1
    | _ => d) 1

/-- The current namespace. -/
def nsOf (evs : List Ev) : Path :=
  evs.foldl (fun p e => match e with
    | .pushNs s => p ++ [s]
    | .popNs => p.dropLast
    | _ => p) []

/-- The namespace of the library that is being compiled. -/
def baseOf (evs : List Ev) : Path :=
  evs.foldl (fun p e => match e with
    | .setBase b => b
    | _ => p) []

/-- The number of items there are so far: the root module and the declarations. -/
def itemsOf (evs : List Ev) : Nat :=
  evs.foldl (fun n e => match e with
    | .declare .. => n + 1
    | _ => n) 1

/-- Event `k` gives the name `q` to item `id`, in the scope at nesting level `level`.  Level 0 is
the outermost scope; items are numbered in order of declaration. -/
def Declares (evs : List Ev) (k : Nat) (q : Path) (level id : Nat) : Prop :=
  (∃ offset name e, evs[k]? = some (.declare offset name e) ∧ q = nsOf (evs.take k) ++ name ∧
    level + offset + 1 = depthOf (evs.take k) ∧ id = itemsOf (evs.take k)) ∨
  (∃ s, evs[k]? = some (.reAdd s id) ∧ q = nsOf (evs.take k) ++ [s] ∧
    level + 1 = depthOf (evs.take k))

/-- The scope at `level` that was open just before event `k` has not been closed since. -/
def StillOpen (evs : List Ev) (k level : Nat) : Prop :=
  ∀ j, k ≤ j → j ≤ evs.length → level < depthOf (evs.take j)

/-- A declaration that is in force at the end of the history. -/
def InForce (evs : List Ev) (k : Nat) (q : Path) (level id : Nat) : Prop :=
  Declares evs k q level id ∧ StillOpen evs k level

/-- The latest declaration of `q` in force in the scope at `level`. -/
def Latest (evs : List Ev) (q : Path) (level id : Nat) : Prop :=
  ∃ k, InForce evs k q level id ∧ ∀ k' id', InForce evs k' q level id' → k' ≤ k

/-- The innermost declaration of `q` in force: no scope further in declares `q`, and it is the
latest in its scope. -/
def Innermost (evs : List Ev) (q : Path) (id : Nat) : Prop :=
  ∃ level, Latest evs q level id ∧ ∀ k' level' id', InForce evs k' q level' id' → level' ≤ level

/-- What the plain name `s` means at the end of the history: the innermost declaration of that name
in the current namespace, and if there is none, the library or item of that name at the root. -/
def Means (evs : List Ev) (s : Seg) (id : Nat) : Prop :=
  Innermost evs (nsOf evs ++ [s]) id ∨
  ((¬ ∃ k level id', InForce evs k (nsOf evs ++ [s]) level id') ∧ Latest evs [s] 0 id)

/-- Item `id` was declared with description `e`. -/
def Described (evs : List Ev) (id : Nat) (e : Entry) : Prop :=
  ∃ k offset name, evs[k]? = some (.declare offset name e) ∧ id = itemsOf (evs.take k)

/-! ## Walks through the module tree -/

/-- The module tree and the local scopes, as seen from one place in the program.  Scope 0 is the
innermost one, scope `last` the global one. -/
structure World where
  entry : Nat → Path → Option Nat
  last : Nat
  isType : Nat → Prop
  alias : Nat → Option (Path × Path)
  vis : Nat → Option Vis
  base : Path
  here : Path

/-- `q` is declared in scope `off` and in none further in. -/
def World.Nearest (w : World) (q : Path) (off : Nat) : Prop :=
  off ≤ w.last ∧ w.entry off q ≠ none ∧ ∀ o, o < off → w.entry o q = none

/-- Where a path written in namespace `ns` begins: scope, position in the tree and segments that
remain to be walked. -/
inductive Begins (w : World) (ns : Path) : Path → Nat → Path → Path → Prop where
  /-- `lib::rest` begins at the root of the library. -/
  | lib (rest : Path) : Begins w ns (.named "lib" :: rest) w.last w.base rest
  /-- `self::rest` begins in the current namespace. -/
  | self (rest : Path) (h : rest = [] → ∀ o, o ≤ w.last → w.entry o (ns ++ [.named "self"]) = none) :
      Begins w ns (.named "self" :: rest) w.last ns rest
  /-- `self` alone may be a variable. -/
  | selfVariable (off : Nat) (h : w.Nearest (ns ++ [.named "self"]) off) :
      Begins w ns [.named "self"] off ns [.named "self"]
  /-- `super::…::super::rest` begins as many levels further out. -/
  | super (outer dropped rest : Path) (hns : ns = outer ++ dropped) (hk : dropped ≠ [])
      (hrest : rest.head? ≠ some (.named "super")) :
      Begins w ns (List.replicate dropped.length (.named "super") ++ rest) w.last outer rest
  /-- Other paths begin in the current namespace if their first segment is known there, … -/
  | relative (s : Seg) (rest : Path) (off : Nat) (hs : ¬ Keyword s) (h : w.Nearest (ns ++ [s]) off) :
      Begins w ns (s :: rest) off ns (s :: rest)
  /-- … and at the root of the tree otherwise. -/
  | absolute (s : Seg) (rest : Path) (hs : ¬ Keyword s)
      (h : ∀ o, o ≤ w.last → w.entry o (ns ++ [s]) = none) :
      Begins w ns (s :: rest) w.last [] (s :: rest)
  | empty : Begins w ns [] 0 w.here []

mutual
/-- `Denotes w V above ns path off q`: written in namespace `ns`, `path` denotes the item at `q` in
scope `off`.  Every item on the way must satisfy `V`, and `above` are the aliases that are being
followed, none of which may be met again. -/
inductive Denotes (w : World) (V : Path → Nat → Path → Prop) :
    List Nat → Path → Path → Nat → Path → Prop where
  | mk {above ns path off q segs off' q'} (hb : Begins w ns path off q segs)
      (hw : Walks w V above ns off q segs off' q') : Denotes w V above ns path off' q'
/-- From `q` in scope `off`, walking along the segments leads to `q'` in scope `off'`. -/
inductive Walks (w : World) (V : Path → Nat → Path → Prop) :
    List Nat → Path → Nat → Path → Path → Nat → Path → Prop where
  | nil {above ns off q} : Walks w V above ns off q [] off q
  | cons {above ns off q s segs off' q' off'' q''}
      (hs : Stands w V above above ns off (q ++ [s]) segs off' q')
      (hw : Walks w V above ns off' q' segs off'' q'') :
      Walks w V above ns off q (s :: segs) off'' q''
/-- The item at `q` in scope `off`, followed by the segments `segs`, stands for the item at `q'` in
scope `off'`: itself, or what it is an alias of. -/
inductive Stands (w : World) (V : Path → Nat → Path → Prop) :
    List Nat → List Nat → Path → Nat → Path → Path → Nat → Path → Prop where
  /-- Items that are not aliases stand for themselves, and so do types at the end of a path. -/
  | itself {above loc ns off q segs id} (he : w.entry off q = some id) (ha : id ∉ above)
      (hv : V ns id q) (h : w.alias id = none ∨ (w.isType id ∧ segs = [])) :
      Stands w V above loc ns off q segs off q
  /-- An alias with the next segment as a member of its own, while its target has no such member,
  stands for itself. -/
  | member {above loc ns off q s segs id target targetNs off' q'}
      (he : w.entry off q = some id) (ha : id ∉ above) (hv : V ns id q)
      (hal : w.alias id = some (target, targetNs))
      (hd : Denotes w V (id :: loc) targetNs target off' q')
      (h : w.entry off' (q' ++ [s]) = none) (h' : w.entry off (q ++ [s]) ≠ none) :
      Stands w V above loc ns off q (s :: segs) off q
  /-- Any other alias stands for whatever its target stands for. -/
  | follow {above loc ns off q segs id target targetNs off' q' off'' q''}
      (he : w.entry off q = some id) (ha : id ∉ above) (hv : V ns id q)
      (ht : ¬ (w.isType id ∧ segs = []))
      (hal : w.alias id = some (target, targetNs))
      (hd : Denotes w V (id :: loc) targetNs target off' q')
      (h : ∀ s, segs.head? = some s → w.entry off (q ++ [s]) = none)
      (hs : Stands w V above (id :: loc) ns off' q' segs off'' q'') :
      Stands w V above loc ns off q segs off'' q''
end

/-- Which namespaces a visibility marker on the item at `q` admits: everyone, the module the item is
in, the module around that one, or the library at `base`. -/
def Admits (base q ns : Path) : Vis → Prop
  | .pub => True
  | .implicit | .atSelf => ∃ m s, q = m ++ [s] ∧ m <+: ns
  | .atSuper => ∃ m a s, q = m ++ [a, s] ∧ m <+: ns
  | .atSuperSuper => ∃ m a b s, q = m ++ [a, b, s] ∧ m <+: ns
  | .atLib => base <+: q ∧ base <+: ns

/-- The item `id`, found at `q`, may be used in namespace `ns`.  Items without a marker, such as
local variables, may always be used where they are found. -/
def World.Allowed (w : World) (ns : Path) (id : Nat) (q : Path) : Prop :=
  ∀ v, w.vis id = some v → Admits w.base q ns v

end Spade.Symtab

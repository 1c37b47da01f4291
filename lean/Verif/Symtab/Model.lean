import Verif.Symtab.Spec
/-!
# The symbol table

Models spade-hir/src/symbol_table.rs and spade-common/src/name.rs.  Source locations, deprecation
notes, lookup barriers of lambda scopes and the text of error messages are left out.  A `NameID` is
its number; the path stored with it is only used for printing (name.rs:265-300).  A `HashMap` is an
association list in which the newest entry comes first.
-/
namespace Spade.Symtab

/-- `PathPrefix` (name.rs:90-96). -/
inductive Prefix where
  | fromLib
  | fromSelf
  | fromSuper (levels : Nat)
  | none
  deriving DecidableEq, Repr

/-- Number of leading `super` segments (name.rs:225-229). -/
def countSuper : Path → Nat
  | .named "super" :: p => countSuper p + 1
  | _ => 0

/-- `extract_prefix` (name.rs:216-237). -/
def extractPrefix (p : Path) : Prefix × Path :=
  match p with
  | [] => (.none, [])
  | .named "lib" :: rest => (.fromLib, rest)
  | .named "self" :: rest => (.fromSelf, rest)
  | .named "super" :: rest => (.fromSuper (countSuper rest + 1), rest.drop (countSuper rest))
  | p => (.none, p)

/-- `LookupError` (symbol_table.rs:20-57), as far as the functions below return it; `panic` stands
for a panic of the compiler. -/
inductive Err where
  | noSuchSymbol
  | tooManySuper
  | notVisible
  | ambiguous
  | panic
  deriving DecidableEq, Repr

deriving instance DecidableEq for Except

/-- Association list lookup (`HashMap::get`). -/
def get {α β : Type} [DecidableEq α] (m : List (α × β)) (k : α) : Option β :=
  match m with
  | [] => Option.none
  | (k', v) :: m => if k' = k then some v else get m k

/-- `Scope` (symbol_table.rs:498-503). -/
abbrev Scope := List (Path × Nat)

/-- `SymbolTable` (symbol_table.rs:534-554).  `scopes` has the innermost scope first, that is in the
order of `symbols.iter().rev()`. -/
structure Table where
  scopes : List Scope
  nextId : Nat
  types : List (Nat × Unit)
  things : List (Nat × Thing)
  vis : List (Nat × Vis)
  ns : Path
  base : Path

/-- Insert into scope number `k`, counted from the innermost one. -/
def insertAt (k : Nat) (q : Path) (id : Nat) : List Scope → List Scope
  | [] => []
  | s :: ss => match k with
    | 0 => ((q, id) :: s) :: ss
    | k + 1 => s :: insertAt k q id ss

/-- `add_thing_at_offset`, `add_thing`, `add_type`, `add_local_variable_at_offset` and
`add_undecleared_at_offset` (symbol_table.rs:649-682,685-699,724-733,744-795,850-881,912-926): the name is
made absolute, gets a fresh id, and is entered into the scope at `offset`.  `none` is the panic for
too large offsets. -/
def add (t : Table) (offset : Nat) (name : Path) (e : Entry) : Option (Table × Nat) :=
  if offset < t.scopes.length then
    some ({ t with
      scopes := insertAt offset (t.ns ++ name) t.nextId t.scopes
      nextId := t.nextId + 1
      types := if e.isType then (t.nextId, ()) :: t.types else t.types
      things := match e.thing with
        | some th => (t.nextId, th) :: t.things
        | Option.none => t.things
      vis := match e.vis with
        | some v => (t.nextId, v) :: t.vis
        | Option.none => t.vis }, t.nextId)
  else Option.none

/-- `SymbolTable::new` (symbol_table.rs:557-583): the root module is entered with the empty path. -/
def newTable : Table :=
  { scopes := [[([], 0)]], nextId := 1, types := [], things := [(0, .item)], vis := [], ns := [],
    base := [] }

/-- `re_add_type` (symbol_table.rs:735-742). -/
def reAdd (t : Table) (s : Seg) (id : Nat) : Option Table :=
  if (get t.types id).isSome ∧ 0 < t.scopes.length then
    some { t with scopes := insertAt 0 (t.ns ++ [s]) id t.scopes }
  else Option.none

/-- `new_scope` (symbol_table.rs:586-592). -/
def newScope (t : Table) : Table := { t with scopes := [] :: t.scopes }

/-- `close_scope` (symbol_table.rs:603-606). -/
def closeScope (t : Table) : Table := { t with scopes := t.scopes.tail }

/-- `push_namespace` (symbol_table.rs:628-630). -/
def pushNs (t : Table) (s : Seg) : Table := { t with ns := t.ns ++ [s] }

/-- `pop_namespace` (symbol_table.rs:633-638), which panics at the root. -/
def popNs (t : Table) : Option Table :=
  if t.ns = [] then Option.none else some { t with ns := t.ns.dropLast }

/-- `set_base_namespace` (symbol_table.rs:644-646). -/
def setBase (t : Table) (p : Path) : Table := { t with base := p }

/-- One operation on the table.  Closing the outermost scope counts as a failure here: the code
fails at the next operation instead, when `current_scope` underflows (symbol_table.rs:608-610). -/
def apply (t : Table) : Ev → Option Table
  | .openScope => some (newScope t)
  | .closeScope => if 1 < t.scopes.length then some (closeScope t) else Option.none
  | .declare offset name e => (add t offset name e).map (·.1)
  | .reAdd s id => reAdd t s id
  | .pushNs s => some (pushNs t s)
  | .popNs => popNs t
  | .setBase p => some (setBase t p)

/-- A sequence of operations on a table. -/
def runFrom (t : Table) : List Ev → Option Table
  | [] => some t
  | e :: evs => (apply t e).bind (runFrom · evs)

/-- A sequence of operations on a new table. -/
def run (evs : List Ev) : Option Table := runFrom newTable evs

/-- The scope, counted from the innermost one, of the first entry for `q`
(symbol_table.rs:1333-1343,1357-1366). -/
def findScope (q : Path) : List Scope → Option Nat
  | [] => Option.none
  | s :: ss => if (get s q).isSome then some 0 else (findScope q ss).map (· + 1)

/-- `Path::prelude` (name.rs:248-250), which panics on the empty path. -/
def prelude (p : Path) : Option Path := if p = [] then Option.none else some p.dropLast

/-- `vis_path` (symbol_table.rs:1406-1413). -/
def visPath (base working : Path) : Vis → Option Path
  | .pub => some []
  | .implicit => prelude working
  | .atLib => some base
  | .atSelf => prelude working
  | .atSuper => (prelude working).bind prelude
  | .atSuperSuper => ((prelude working).bind prelude).bind prelude

/-- `is_visible` (symbol_table.rs:1415-1424). -/
def covers : Path → Path → Bool
  | [], _ => true
  | _ :: _, [] => false
  | l :: ls, r :: rs => l == r && covers ls rs

/-- Result of the path resolution; `fuel` means that it did not end within the given number of
steps. -/
inductive Res where
  | ok (offset : Nat) (path : Path)
  | err (e : Err)
  | fuel
  deriving DecidableEq, Repr

/-- The first part of `canonicalize_in_namespace` (symbol_table.rs:1302-1371): scope, start and
remaining segments.  The parameter `offset` of the code is left out: it is always 0
(symbol_table.rs:1237,1480). -/
def start (t : Table) (path ns : Path) : Except Err (Nat × Path × Path) :=
  match extractPrefix path with
  | (.fromLib, rest) => .ok (t.scopes.length - 1, t.base, rest)
  | (.fromSuper levels, rest) =>
    if levels ≤ ns.length then .ok (t.scopes.length - 1, ns.take (ns.length - levels), rest)
    else .error .tooManySuper
  | (.fromSelf, rest) =>
    match rest, findScope (ns ++ path.take 1) t.scopes with
    | [], some o => .ok (o, ns, path)
    | rest, _ => .ok (t.scopes.length - 1, ns, rest)
  | (.none, _) =>
    match path with
    | [] => .ok (0, t.ns, [])
    | head :: _ =>
      match findScope (ns ++ [head]) t.scopes with
      | some o => .ok (o, ns, path)
      | Option.none => .ok (t.scopes.length - 1, [], path)

/-- The visibility check for one item (symbol_table.rs:1398-1461). -/
def checkVis (t : Table) (check : Bool) (id : Nat) (working ns : Path) : Except Err Unit :=
  if check then
    match get t.vis id with
    | Option.none => .ok ()
    | some v =>
      match visPath t.base working v with
      | Option.none => .error .panic
      | some p => if covers p ns then .ok () else .error .notVisible
  else .ok ()

mutual
/-- `canonicalize_in_namespace` (symbol_table.rs:1291-1544). -/
def canon : Nat → Table → Bool → List Nat → Path → Path → Res
  | 0, _, _, _, _, _ => .fuel
  | fuel + 1, t, check, forbidden, path, ns =>
    match start t path ns with
    | .error e => .err e
    | .ok (off, working, segs) => walk fuel t check forbidden ns off working segs
/-- The loop over the segments (symbol_table.rs:1377-1539). -/
def walk : Nat → Table → Bool → List Nat → Path → Nat → Path → Path → Res
  | 0, _, _, _, _, _, _, _ => .fuel
  | _ + 1, _, _, _, _, off, working, [] => .ok off working
  | fuel + 1, t, check, forbidden, ns, off, working, s :: segs =>
    match step fuel t check forbidden forbidden ns off (working ++ [s]) segs with
    | .ok off' working' => walk fuel t check forbidden ns off' working' segs
    | r => r
/-- The inner loop, which follows aliases (symbol_table.rs:1381-1538). -/
def step : Nat → Table → Bool → List Nat → List Nat → Path → Nat → Path → Path → Res
  | 0, _, _, _, _, _, _, _, _ => .fuel
  | fuel + 1, t, check, forbidden, localForbidden, ns, off, working, segs =>
    match t.scopes[off]? with
    | Option.none => .err .panic
    | some scope =>
    match get scope working with
    | Option.none => .err .noSuchSymbol
    | some id =>
    if id ∈ forbidden then .err .noSuchSymbol else
    match checkVis t check id working ns with
    | .error e => .err e
    | .ok _ =>
    if (get t.types id).isSome && segs.isEmpty then .ok off working else
    match get t.things id with
    | some (.alias target targetNs) =>
      match canon fuel t check (id :: localForbidden) target targetNs with
      | .ok aliasOff aliasPath =>
        match segs with
        | [] => step fuel t check forbidden (id :: localForbidden) ns aliasOff aliasPath segs
        | peeked :: _ =>
          match t.scopes[aliasOff]? with
          | Option.none => .err .panic
          | some aliasScope =>
          match (get aliasScope (aliasPath ++ [peeked])).isSome,
              (get scope (working ++ [peeked])).isSome with
          | false, true => .ok off working
          | true, true => .err .ambiguous
          | _, _ => step fuel t check forbidden (id :: localForbidden) ns aliasOff aliasPath segs
      | r => r
    | _ => .ok off working
end

/-- `lookup_id_in_namespace` (symbol_table.rs:1227-1283): the id of the item, or the error; `none`
if path resolution does not end within `fuel` steps. -/
def lookup (fuel : Nat) (t : Table) (check : Bool) (path ns : Path) : Option (Except Err Nat) :=
  match canon fuel t check [] path ns with
  | .fuel => Option.none
  | .err e => some (.error e)
  | .ok off q =>
    match t.scopes[off]?.bind (get · q) with
    | some id => some (.ok id)
    | Option.none => some (.error .panic)

/-- `lookup_id` (symbol_table.rs:1221-1223). -/
def lookupId (fuel : Nat) (t : Table) (check : Bool) (path : Path) : Option (Except Err Nat) :=
  lookup fuel t check path t.ns

end Spade.Symtab

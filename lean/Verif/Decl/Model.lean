import Verif.Decl.Spec

/-!
# The check for types that contain themselves, and the layout of types (C63): model

Models the last part of `re_visit_type_declaration`
(`/repo/spade-ast-lowering/src/global_symbols.rs:712-715, 786-791, 888-893, 972-977, 990-1071`),
`add_type_spec_name_ids_to_graph` (same file, 1076-1111), and the conversion of declarations to
concrete types (`/repo/spade-typeinference/src/mir_type_lowering.rs:84-273`).

The set of pending names is a list without duplicates. The code takes *some* name out of a hash
set: the model leaves open which one, so that a theorem about all runs covers every order of the
hash set.

Left out: locations, the other checks on declarations, which can only reject more, and trait `Self`.
The test that the symbol of a pending name is a declared type always succeeds, because only names of
`TypeSpec::Declared` are put in the set.
-/

namespace Spade.Decl

open Spade.Check (TSpec TExp)

/-! ## The names in a type -/

mutual
/-- `add_type_spec_name_ids_to_graph` (global_symbols.rs:1076-1111): the names it adds, in order. -/
def names : TSpec → List Nat
  | .declared n ps => n :: argNames ps
  | .generic _ => []
  | .tuple ts => namesAll ts
  | .array t k => names t ++ expNames k
  | .inverted t => names t
  | .copyView t => names t
  | .wildcard => []
/-- The names in the members of a tuple. -/
def namesAll : List TSpec → List Nat
  | [] => []
  | t :: ts => names t ++ namesAll ts
/-- The names in a generic argument: only types have some. -/
def expNames : TExp → List Nat
  | .spec t => names t
  | .bool _ | .int _ | .str _ | .const _ => []
/-- The names in generic arguments. -/
def argNames : List TExp → List Nat
  | [] => []
  | e :: es => expNames e ++ argNames es
end

/-- The names added for a declaration (global_symbols.rs:786-791, 888-893, 972-977 for the
declaration being checked, 1027-1055 for one that is already known). -/
def TypeDecl.names (d : TypeDecl) : List Nat :=
  match d.kind with
  | .prim _ => []
  | .enum os => os.flatMap (fun o => o.2.flatMap (fun m => Decl.names m.2))
  | .struct ms => ms.flatMap (fun m => Decl.names m.2)
  | .alias t => Decl.names t

/-! ## The search -/

/-- The two collections of the search (global_symbols.rs:714-715): the names still to look at, and
for each name seen a declaration that mentions it. -/
structure Search where
  pending : List Nat
  edges : Nat → Option Nat

/-- `names.insert(name); edges.insert(name, prev)` (global_symbols.rs:1084-1085): an earlier edge is
overwritten. -/
def Search.add (prev : Nat) (s : Search) (n : Nat) : Search :=
  ⟨s.pending.insert n, fun m => if m = n then some prev else s.edges m⟩

/-- All the names of a declaration. -/
def Search.addAll (prev : Nat) (s : Search) (ns : List Nat) : Search := ns.foldl (Search.add prev) s

/-- The search before the loop (global_symbols.rs:712-988). -/
def Search.start (d : TypeDecl) : Search := (Search.mk [] (fun _ => none)).addAll d.name d.names

/-- `ctx.item_list.types.get(name)`. -/
def find (T : List TypeDecl) (n : Nat) : Option TypeDecl := T.find? (fun d => d.name == n)

/-- What the loop does with a name that is not the declaration itself
(global_symbols.rs:1020-1056): a type that is not known yet is passed over. -/
def Search.expand (T : List TypeDecl) (s : Search) (n : Nat) : Search :=
  match find T n with
  | none => s
  | some d => s.addAll d.name d.names

/-- One turn of the loop that does not report an error: some name is taken out. -/
inductive Step (T : List TypeDecl) (self : Nat) : Search → Search → Prop
  | mk {s : Search} {n : Nat} : n ∈ s.pending → n ≠ self →
      Step T self s (Search.expand T ⟨s.pending.erase n, s.edges⟩ n)

/-- The notes of the error message (global_symbols.rs:997-1005), from `edges[cur]` on: `none` when
an edge is missing (`unwrap` panics) or the steps do not suffice. -/
def notes (edges : Nat → Option Nat) (self : Nat) : Nat → Nat → Option (List Nat)
  | 0, _ => none
  | k + 1, cur => do
    let prev ← edges cur
    if prev = self then some [] else (notes edges self k prev).map (prev :: ·)

/-- What the check says about a declaration. -/
inductive Verdict where
  | accept
  /-- The error, with the declarations named in its notes (without the last note, which names the
  declaration itself). -/
  | circle (via : List Nat)

/-- A run of the loop (global_symbols.rs:990-1057). -/
inductive Run (T : List TypeDecl) (self : Nat) : Search → Verdict → Prop
  | done {s : Search} : s.pending = [] → Run T self s .accept
  | found {s : Search} {k : Nat} {ns : List Nat} : self ∈ s.pending →
      notes s.edges self k self = some ns → Run T self s (.circle ns)
  | step {s s' : Search} {v : Verdict} : Step T self s s' → Run T self s' v → Run T self s v

/-- Processing declarations one after the other (global_symbols.rs:317-322, 990-1071). An accepted
declaration is added to the list of types; a rejected one is not. The result is the list of types
and the errors: declaration and notes. (`gather_symbols` stops at the first error of a module file
and goes on with the next file; here it always goes on. What is accepted without errors is the
same.) -/
inductive Process : List TypeDecl → List TypeDecl → List TypeDecl → List (Nat × List Nat) → Prop
  | nil {T : List TypeDecl} : Process T [] T []
  | ok {T T' : List TypeDecl} {d : TypeDecl} {ds : List TypeDecl} {es : List (Nat × List Nat)} :
      Run T d.name (.start d) .accept → Process (d :: T) ds T' es → Process T (d :: ds) T' es
  | error {T T' : List TypeDecl} {d : TypeDecl} {ds : List TypeDecl} {es : List (Nat × List Nat)}
      {ns : List Nat} : Run T d.name (.start d) (.circle ns) → Process T ds T' es →
      Process T (d :: ds) T' ((d.name, ns) :: es)

/-! ## Layout -/

/-- `ConcreteType` (spade-types/src/lib.rs:38-62), without `Error` and the translators of fields. -/
inductive Conc where
  | enum (options : List (String × List (String × Conc)))
  | struct (name : Nat) (members : List (String × Conc))
  | single (p : String) (ps : List Conc)
  | tuple (ts : List Conc)
  | array (t : Conc) (size : Int)
  | backward (t : Conc)
  | copyView (t : Conc)
  | bool (b : Bool)
  | int (i : Int)
  | str (s : String)

/-- The outcome of a recursive function with a bound on the depth of its calls: the bound did not
suffice, it panicked, or it returned. -/
inductive Res (α : Type) where
  | deeper
  | panic
  | ok (a : α)

/-- Sequencing. -/
def Res.bind {α β : Type} (r : Res α) (f : α → Res β) : Res β :=
  match r with
  | .deeper => .deeper
  | .panic => .panic
  | .ok a => f a

mutual
/-- `type_spec_to_concrete` (mir_type_lowering.rs:206-273), given the layouts of declared types. -/
def specConc (D : Nat → List Conc → Res Conc) (σ : String → Option Conc) : TSpec → Res Conc
  | .declared n ps => (argConcs D σ ps).bind (D n)
  | .generic g =>
    match σ g with
    | some c => .ok c
    | none => .panic
  | .tuple ts => (specConcs D σ ts).bind (fun cs => .ok (.tuple cs))
  | .array t k => (expConc D σ k).bind (fun size =>
      match size with
      | .int i => (specConc D σ t).bind (fun c => .ok (.array c i))
      | _ => .panic)
  | .inverted t => (specConc D σ t).bind (fun c => .ok (.backward c))
  | .copyView t => (specConc D σ t).bind (fun c => .ok (.copyView c))
  | .wildcard => .panic
/-- The members of a tuple. -/
def specConcs (D : Nat → List Conc → Res Conc) (σ : String → Option Conc) :
    List TSpec → Res (List Conc)
  | [] => .ok []
  | t :: ts => (specConc D σ t).bind (fun c => (specConcs D σ ts).bind (fun cs => .ok (c :: cs)))
/-- `type_expr_to_concrete` (mir_type_lowering.rs:187-204); a const generic is `unreachable!`. -/
def expConc (D : Nat → List Conc → Res Conc) (σ : String → Option Conc) : TExp → Res Conc
  | .bool b => .ok (.bool b)
  | .int i => .ok (.int i)
  | .str s => .ok (.str s)
  | .spec t => specConc D σ t
  | .const _ => .panic
/-- Generic arguments. -/
def argConcs (D : Nat → List Conc → Res Conc) (σ : String → Option Conc) :
    List TExp → Res (List Conc)
  | [] => .ok []
  | e :: es => (expConc D σ e).bind (fun c => (argConcs D σ es).bind (fun cs => .ok (c :: cs)))
end

/-- The named members of a struct or variant (mir_type_lowering.rs:115-127, 138-152). -/
def memberConcs (D : Nat → List Conc → Res Conc) (σ : String → Option Conc) :
    List (String × TSpec) → Res (List (String × Conc))
  | [] => .ok []
  | m :: ms => (specConc D σ m.2).bind (fun c =>
      (memberConcs D σ ms).bind (fun cs => .ok ((m.1, c) :: cs)))

/-- The variants of an enum (mir_type_lowering.rs:108-131). -/
def optionConcs (D : Nat → List Conc → Res Conc) (σ : String → Option Conc) :
    List (String × List (String × TSpec)) → Res (List (String × List (String × Conc)))
  | [] => .ok []
  | o :: os => (memberConcs D σ o.2).bind (fun c =>
      (optionConcs D σ os).bind (fun cs => .ok ((o.1, c) :: cs)))

/-- The right-hand side of a declaration (mir_type_lowering.rs:106-184). -/
def kindConc (D : Nat → List Conc → Res Conc) (σ : String → Option Conc) (name : Nat)
    (params : List Conc) : Kind → Res Conc
  | .prim p => .ok (.single p params)
  | .enum os => (optionConcs D σ os).bind (fun cs => .ok (.enum cs))
  | .struct ms => (memberConcs D σ ms).bind (fun cs => .ok (.struct name cs))
  | .alias t => specConc D σ t

/-- `type_decl_to_concrete` for the declaration with the given name (mir_type_lowering.rs:84-185,
219-223), with at most `k` nested calls. -/
def layout (T : List TypeDecl) : Nat → Nat → List Conc → Res Conc
  | 0, _, _ => .deeper
  | k + 1, n, params =>
    match find T n with
    | none => .panic
    | some d =>
      if params.length = d.params.length then
        kindConc (layout T k) (fun g => (d.params.zip params).lookup g) n params d.kind
      else .panic

end Spade.Decl

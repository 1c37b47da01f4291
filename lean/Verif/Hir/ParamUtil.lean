/-!
# Matching arguments with parameters

Models spade-hir/src/param_util.rs.  Identifiers are numbers; equality of `Loc<Identifier>` ignores
the location (spade-common/src/location_info.rs:318-326).  Hash sets are lists without order: the
order in which `for name in unbound.clone()` visits a set is an argument `ord` of the model.
-/
namespace Spade.Hir

/-- Identifiers. -/
abbrev Ident := Nat

/-- One entry of `ParameterListWrapper` (param_util.rs:146-148): name, type, default. -/
structure Param (Ty T : Type) where
  name : Ident
  ty : Ty
  default : Option T

/-- `ArgumentKind` (param_util.rs:130-135). -/
inductive ArgKind where
  | positional | named | shortNamed | default
  deriving DecidableEq

/-- `Argument` (param_util.rs:139-144). -/
structure Arg (Ty T : Type) where
  target : Ident
  value : T
  ty : Ty
  kind : ArgKind

/-- `NamedArgument` (spade-hir/src/expression.rs): `Full` or `Short`. -/
structure NamedArg (T : Type) where
  short : Bool
  name : Ident
  value : T

/-- `ArgumentError` (param_util.rs:15-41), without locations; `panic` is a failing `unwrap`. -/
inductive ArgError where
  | tooFew (got expected : Nat) (missing : List Ident)
  | tooMany (got expected : Nat)
  | noSuch (name : Ident)
  | missing (names : List Ident)
  | duplicate (name : Ident)
  | panic
  deriving DecidableEq

variable {Ty T : Type}

/-- `try_get_arg_type` (param_util.rs:151-159). -/
def tryGetArgType (params : List (Param Ty T)) (name : Ident) : Option Ty :=
  params.findSome? fun p => if p.name = name then some p.ty else none

/-- `arg_index` (param_util.rs:161-166). -/
def argIndex (params : List (Param Ty T)) (name : Ident) : Option Nat :=
  params.findIdx? fun p => decide (p.name = name)

/-- `arg_default` (param_util.rs:168-176). -/
def argDefault (params : List (Param Ty T)) (name : Ident) : Option (Option T) :=
  params.findSome? fun p => if p.name = name then some p.default else none

/-- The positional branch (param_util.rs:216-272): `zip_longest`, stopping at the first error.
`all`, `given` are the complete lists, `i` is the position, `m` is 1 for methods. -/
def matchPositional (all : List (Param Ty T)) (given m : Nat) :
    Nat → List T → List (Param Ty T) → Except ArgError (List (Arg Ty T))
  | _, [], [] => .ok []
  | i, a :: as, p :: ps => do
    let rest ← matchPositional all given m (i + 1) as ps
    .ok (⟨p.name, a, p.ty, .positional⟩ :: rest)
  | _, _ :: _, [] => .error (.tooMany (given - m) (all.length - m))
  | i, [], p :: ps =>
    match p.default with
    | some d => do
      let rest ← matchPositional all given m (i + 1) [] ps
      .ok (⟨p.name, d, p.ty, .default⟩ :: rest)
    | none => .error (.tooFew (i - m) (all.length - m) ((all.drop given).map (·.name)))

/-- The closure mapped over the named arguments (param_util.rs:283-324), with the sets `bound` and
`unbound` as state. -/
def bindNamed (params : List (Param Ty T)) :
    List (NamedArg T) → List Ident → List Ident →
      Except ArgError (List (Nat × Arg Ty T) × List Ident)
  | [], _, unbound => .ok ([], unbound)
  | a :: as, bound, unbound =>
    if a.name ∈ bound then .error (.duplicate a.name)
    else match tryGetArgType params a.name with
      | none => .error (.noSuch a.name)
      | some t => match argIndex params a.name with
        | none => .error .panic
        | some i => do
          let (rest, u) ← bindNamed params as (a.name :: bound) (unbound.filter (· ≠ a.name))
          .ok ((i, ⟨a.name, a.value, t, if a.short then .shortNamed else .named⟩) :: rest, u)

/-- The loop adding defaults (param_util.rs:326-345) over the names of a copy of `unbound`. -/
def addDefaults (params : List (Param Ty T)) :
    List Ident → List (Nat × Arg Ty T) → List Ident →
      Except ArgError (List (Nat × Arg Ty T) × List Ident)
  | [], result, unbound => .ok (result, unbound)
  | n :: ns, result, unbound =>
    match argDefault params n with
    | none => .error .panic
    | some none => addDefaults params ns result unbound
    | some (some d) =>
      match argIndex params n, tryGetArgType params n with
      | some i, some t =>
        addDefaults params ns (result ++ [(i, ⟨n, d, t, .default⟩)]) (unbound.filter (· ≠ n))
      | _, _ => .error .panic

/-- The named branch (param_util.rs:273-359).  `sort_by_key` is a stable sort. -/
def matchNamed (ord : List Ident → List Ident) (params : List (Param Ty T))
    (args : List (NamedArg T)) : Except ArgError (List (Arg Ty T)) := do
  let (result, unbound) ← bindNamed params args [] (params.map (·.name)).eraseDups
  let (result, unbound) ← addDefaults params (ord unbound) result unbound
  let sorted := result.mergeSort fun a b => decide (a.1 ≤ b.1)
  if unbound ≠ [] then .error (.missing unbound)
  else .ok (sorted.map (·.2))

/-- `ArgumentList` (spade-hir/src/expression.rs). -/
inductive ArgList (T : Type) where
  | positional (args : List T)
  | named (args : List (NamedArg T))

/-- `match_args_with_params` (param_util.rs:210-359). -/
def matchArgs (ord : List Ident → List Ident) (params : List (Param Ty T)) (args : ArgList T)
    (isMethod : Bool) : Except ArgError (List (Arg Ty T)) :=
  match args with
  | .positional as => matchPositional params as.length (if isMethod then 1 else 0) 0 as params
  | .named as => matchNamed ord params as

end Spade.Hir

import Verif.Hier.Model

/-!
# Descriptions of signals (C75): model

Models the list of statements that lowering makes, which records what each statement was made for
(`/repo/spade-hir-lowering/src/statement_list.rs:20-98`, `name_map.rs:1-117`), and the lookup of the
description of a Verilog identifier, `demangle_string` (`/repo/spade-compiler/src/compiler_state.rs:204-241`),
which the C++ interface offers as `demangle_name` (`/repo/spade-cxx/src/spade.rs:21-25`).

Files and descriptions are bytes. Hash maps are lists of insertions, of which the last one counts.
Identifiers are without backslashes and spaces, which only variables with number 0 have.
-/

namespace Spade.Hier

open Spade.Mir

variable {Op Ty C Ini : Type}

/-- Text as bytes. -/
abbrev Text := List UInt8

/-- `NameSource` (name_map.rs:7-11): a name, as it is printed, or the place of an expression. -/
inductive NameSource where
  | name (shown : Text)
  | expr (file start stop : Nat)
  deriving DecidableEq

/-- `NamedValue` (name_map.rs:44-53). -/
inductive NamedValue where
  | primary (s : NameSource)
  | secondary (s : NameSource) (description : Text)
  deriving DecidableEq

/-- What is added to a list of statements: `push_anonymous`, `push_primary`, `push_secondary`. -/
inductive Push (Op Ty C Ini : Type) where
  | anonymous (s : Stmt Op Ty C Ini)
  | primary (s : Stmt Op Ty C Ini) (source : NameSource)
  | secondary (s : Stmt Op Ty C Ini) (source : NameSource) (description : Text)

/-- `StatementList` (statement_list.rs:13-18). -/
structure StatementList (Op Ty C Ini : Type) where
  stmts : List (Stmt Op Ty C Ini)
  names : List (Name × NamedValue)

/-- Statements are recorded under the name they define (statement_list.rs:37-46, 59-70). -/
def record (s : Stmt Op Ty C Ini) (v : NamedValue) (names : List (Name × NamedValue)) :
    List (Name × NamedValue) :=
  match s with
  | .binding b => names ++ [(b.name, v)]
  | .register r => names ++ [(r.name, v)]
  | .constant n _ _ => names ++ [(n, v)]
  | .assert _ => names
  | .set _ _ => names
  | .error => names

/-- `push_anonymous`, `push_primary` and `push_secondary` (statement_list.rs:27-72). -/
def push (l : StatementList Op Ty C Ini) : Push Op Ty C Ini → StatementList Op Ty C Ini
  | .anonymous s => ⟨l.stmts ++ [s], l.names⟩
  | .primary s source => ⟨l.stmts ++ [s], record s (.primary source) l.names⟩
  | .secondary s source description => ⟨l.stmts ++ [s], record s (.secondary source description) l.names⟩

/-- `append` (statement_list.rs:84-87) and `merge` (name_map.rs:103-116). -/
def append (l r : StatementList Op Ty C Ini) : StatementList Op Ty C Ini :=
  ⟨l.stmts ++ r.stmts, l.names ++ r.names⟩

/-- `append_secondary` (statement_list.rs:74-82). -/
def appendSecondary (l : StatementList Op Ty C Ini) (other : List (Stmt Op Ty C Ini))
    (source : NameSource) (description : Text) : StatementList Op Ty C Ini :=
  other.foldl (fun l s => push l (.secondary s source description)) l

/-- The statements of a unit: pushes, and lists that are appended, in any nesting. -/
inductive Build (Op Ty C Ini : Type) where
  | empty
  | push (b : Build Op Ty C Ini) (p : Push Op Ty C Ini)
  | append (b c : Build Op Ty C Ini)
  | secondary (b : Build Op Ty C Ini) (other : List (Stmt Op Ty C Ini)) (source : NameSource)
    (description : Text)

/-- The list that is made. -/
def Build.run : Build Op Ty C Ini → StatementList Op Ty C Ini
  | .empty => ⟨[], []⟩
  | .push b p => Hier.push b.run p
  | .append b c => Hier.append b.run c.run
  | .secondary b other source description => appendSecondary b.run other source description

/-- `demangle_name_source` (compiler_state.rs:231-241). A file that does not exist panics. -/
def demangleNameSource (code : List Text) : NameSource → Option Text
  | .name shown => some shown
  | .expr file start stop =>
    code[file]?.map fun text => [40, 105, 100, 41, 32] ++ (text.take stop).drop start

/-- The map of identifiers (compiler_state.rs:206-221), for the entries of the name map in any order. -/
def stringMap (inner : List (Name × NamedValue)) : List (List Char × NamedValue) :=
  inner.flatMap fun (k, v) => [(fwdName k, v), (bwdName k, v)]

/-- `demangle_string` (compiler_state.rs:204-229). -/
def demangleString (code : List Text) (inner : List (Name × NamedValue)) (mangled : List Char) :
    Option Text :=
  (get (stringMap inner) mangled).bind fun
    | .primary source => demangleNameSource code source
    | .secondary source description =>
      (demangleNameSource code source).map fun s => s ++ [32, 40] ++ description ++ [41]

end Spade.Hier

import Verif.Lex.Props

/-!
# File arguments (C76): model

Models `namespaced_file` (`/repo/spade-compiler/src/namespaced_file.rs:17-90`), which reads the arguments
of the compiler, and the parser of paths (`/repo/spade-parser/src/lib.rs:191-244`), on the tokens that the
lexer of Verif/Lex/Model.lean gives. The whole of a path is lexed before it is parsed; this is the same,
since `expect_eof` asks for all of its tokens and an error of the lexer is an error. Locations, the
recording of paths for completion and the text of errors are left out.
-/

namespace Spade.Files

open Spade.Lex

/-- `continue_path` (lib.rs:221-244): a `::` at the end is dropped. -/
def continuePath : List (List Char) → List Tok → List (List Char) × List Tok
  | leading, .fixed [':', ':'] :: .ident x :: ts => continuePath (leading ++ [x]) ts
  | leading, .fixed [':', ':'] :: ts => (leading, ts)
  | leading, ts => (leading, ts)

/-- `path` (lib.rs:209-219). -/
def path : List Tok → Option (List (List Char) × List Tok)
  | .ident x :: ts => some (continuePath [x] ts)
  | _ => none

/-- One of the namespaces (namespaced_file.rs:31-53, 55-77). The steps for the lexer suffice
(`tokens_enough`). -/
def namespaceOf (C : Classes) (part : List Char) : Option (List (List Char)) :=
  if part = [] then some []
  else (tokens C (2 * part.length + 3) part).bind fun ts => (path ts).bind fun
    | (p, []) => some p
    | _ => none

/-- `arg.split(',')`. -/
def splitCommas : List Char → List (List Char)
  | [] => [[]]
  | c :: cs =>
    if c = ',' then [] :: splitCommas cs
    else match splitCommas cs with
      | [] => [[c]]
      | p :: ps => (c :: p) :: ps

/-- `NamespacedFile` (namespaced_file.rs:6-15). -/
structure NamespacedFile where
  base : List (List Char)
  namespace_ : List (List Char)
  file : List Char
  deriving DecidableEq

/-- `namespaced_file` (namespaced_file.rs:17-90). Nothing: an error. -/
def namespacedFile (C : Classes) (arg : List Char) : Option NamespacedFile :=
  match splitCommas arg with
  | [_] => some ⟨[], [], arg⟩
  | [a, b, f] =>
    (namespaceOf C a).bind fun root => (namespaceOf C b).bind fun ns => some ⟨root, ns, f⟩
  | _ => none

end Spade.Files

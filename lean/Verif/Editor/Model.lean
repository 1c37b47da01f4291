import Verif.Editor.Spec

/-!
# Positions in an editor (C73): model

Models `loc_to_location` and `pos_uri_to_loc` (`/repo/spade-language-server/src/util.rs:23-60, 64-93`)
and the functions of `spade_codespan_reporting::files` they call. That library is not part of the
repository; it is modelled as released (codespan-reporting 0.12, `files.rs`): `line_starts`,
`SimpleFile::line_index`, `line_start`, `line_range`, `column_index` and `location`.

Files are lists of characters, their bytes are those of UTF-8. Numbers are not bounded (the code
has 32 bits for offsets and positions). URLs of files are taken to be their paths.
-/

namespace Spade.Editor

open Spec (Pos)
open Spade.Loc (Span)

/-- `str::len`. -/
def len : List Char → Nat
  | [] => 0
  | c :: s => c.utf8Size + len s

/-- `str::is_char_boundary`. -/
def boundary : List Char → Nat → Bool
  | _, 0 => true
  | [], _ + 1 => false
  | c :: s, i + 1 => if i + 1 < c.utf8Size then false else boundary s (i + 1 - c.utf8Size)

/-- The bytes behind the line feeds of a text that starts at byte `k`: `match_indices('\n')`, each
plus one (codespan-reporting, `line_starts`). -/
def newlines : Nat → List Char → List Nat
  | _, [] => []
  | k, c :: s => if c = '\n' then (k + 1) :: newlines (k + 1) s else newlines (k + c.utf8Size) s

/-- `line_starts` (codespan-reporting). -/
def lineStarts (s : List Char) : List Nat := 0 :: newlines 0 s

/-- What `slice::binary_search` returns. -/
inductive Found where
  | ok (i : Nat)
  | err (i : Nat)

/-- `slice::binary_search` on a list in increasing order without repetitions. Simplified: it looks at
the elements one after the other. -/
def search : List Nat → Nat → Found
  | [], _ => .err 0
  | a :: l, x =>
    if x = a then .ok 0
    else if x < a then .err 0
    else match search l x with
      | .ok i => .ok (i + 1)
      | .err i => .err (i + 1)

/-- `SimpleFile::line_index` (codespan-reporting). -/
def lineIndex (starts : List Nat) (x : Nat) : Nat :=
  match search starts x with
  | .ok i => i
  | .err i => i - 1

/-- `SimpleFile::line_start` (codespan-reporting): one more than the last line is the end. -/
def lineStart (starts : List Nat) (n l : Nat) : Option Nat :=
  if l < starts.length then starts[l]? else if l = starts.length then some n else none

/-- `column_index` (codespan-reporting): the number of characters from the start `a` of a line to
byte `x`, at most to the end `b` of the line. -/
def columnIndex (s : List Char) (a b x : Nat) : Nat :=
  ((List.range' a (min x (min b (len s)) - a)).filter (fun k => boundary s (k + 1))).length

/-- `Files::location` (codespan-reporting): line and column, from one. -/
def location (s : List Char) (x : Nat) : Option (Nat × Nat) :=
  let starts := lineStarts s
  let l := lineIndex starts x
  (lineStart starts (len s) l).bind fun a =>
  (lineStart starts (len s) (l + 1)).map fun b => (l + 1, columnIndex s a b x + 1)

/-- A file of a `CodeBundle` (spade-diagnostics/src/lib.rs:335-347). -/
structure File where
  name : List Char
  source : List Char

/-- A range in a file as an editor takes it (`lsp_types::Location`). -/
structure Location where
  path : List Char
  start : Pos
  stop : Pos
  deriving DecidableEq

/-- A location of the compiler: file and span (spade-common/src/location_info.rs:118-122). -/
structure Place where
  file : Nat
  span : Span

/-- The position for a line and a column counted from one (util.rs:56-57). -/
def toPos (l : Nat × Nat) : Pos := ⟨l.1 - 1, l.2 - 1⟩

/-- `loc_to_location` (util.rs:23-60). `Url::from_file_path` fails for paths that are not absolute. -/
def locToLocation (code : List File) (loc : Place) : Option Location :=
  code[loc.file]?.bind fun f =>
  (location f.source loc.span.start).bind fun s =>
  (location f.source loc.span.stop).bind fun e =>
  if f.name.head? = some '/' then some ⟨f.name, toPos s, toPos e⟩ else none

/-- The first file of that name, with its number (util.rs:70-74). -/
def findFile : List File → List Char → Nat → Option (Nat × File)
  | [], _, _ => none
  | f :: fs, path, i => if f.name = path then some (i, f) else findFile fs path (i + 1)

/-- `pos_uri_to_loc` (util.rs:64-93): `line_starts(content).skip(line).next()` plus the character. -/
def posUriToLoc (code : List File) (path : List Char) (p : Pos) : Option Place :=
  (findFile code path 0).bind fun (i, f) =>
  ((lineStarts f.source).drop p.line).head?.map fun s =>
    ⟨i, ⟨s + p.character, s + p.character, Nat.le_refl _⟩⟩

end Spade.Editor

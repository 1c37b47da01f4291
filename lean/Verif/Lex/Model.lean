import Verif.Lex.Spec

/-!
# The lexer and the parsing of literals (C64, C65): model

Models `TokenKind` and its rules (`/repo/spade-ast/src/token.rs:7-280`) with the meaning the `logos`
library gives them: the longest match counts, and of two equally long ones the more specific
(keywords before identifiers, documentation before comments); `next_token_helper`
(`/repo/spade-parser/src/lib.rs:3146-3215`), which skips comments; and `int_literal`,
`ascii_char_literal`, `ascii_string_literal`, `map_escape_char` and `inline_negative_literal`
(`/repo/spade-parser/src/lib.rs:437-556, 870-915`, `/repo/spade-parser/src/expression.rs:170-213`).

Files are lists of characters. The Unicode classes of identifiers are a parameter. Where nothing
matches, `logos` reports an error and goes on at a later place: here one character later, which is
right for characters that start no token. (For an unfinished string it may be later; the theorems on
comments exclude quotes.) Locations and the recording of comments are left out.
-/

namespace Spade.Lex

open Spec (Radix Kind)

/-- The character classes of identifiers, and `\w`. -/
structure Classes where
  start : Char → Bool
  cont : Char → Bool
  word : Char → Bool

/-- A token (token.rs:44-275). `fixed` are the `#[token]` rules; identifiers are without `r#`. -/
inductive Tok where
  | ident (s : List Char)
  | int (r : Radix) (n : Nat) (k : Kind)
  | fixed (s : List Char)
  | label (s : List Char)
  | labelRef (s : List Char)
  | asciiChar (s : List Char)
  | asciiString (s : List Char)
  | utf8Char
  | string (s : List Char)
  | outsideDoc (s : List Char)
  | insideDoc (s : List Char)
  | comment
  deriving DecidableEq

/-! ## Numbers -/

/-- The digits of a number in a radix, as `BigUint::parse_bytes`: nothing for the empty string and
for other characters. (It also takes a leading `+` and underscores, which do not get here.) -/
def parseDigits (radix : Nat) : Nat → List Char → Option Nat
  | n, [] => some n
  | n, c :: cs =>
    match Spec.digit c with
    | some d => if d < radix then parseDigits radix (n * radix + d) cs else none
    | none => none

/-- `BigUint::parse_bytes`. -/
def parseBytes (radix : Nat) (cs : List Char) : Option Nat :=
  if cs = [] then none else parseDigits radix 0 cs

/-- The text before the first `c` and the text between it and the second: `split(c)[0]` and
`split(c)[1]`. -/
def splitAt2 (c : Char) (s : List Char) : List Char × List Char :=
  (s.takeWhile (· != c), ((s.dropWhile (· != c)).drop 1).takeWhile (· != c))

/-- `parse_int` (token.rs:14-34). `none`: the `unwrap` panics. -/
def parseInt (radix : Nat) (slice : List Char) : Option (Nat × Kind) :=
  let lower := (slice.map Char.toLower).filter (· != '_')
  let (cleaned, kind) :=
    if 'u' ∈ lower then
      let s := splitAt2 'u' lower
      (s.1, Kind.unsigned (parseBytes 10 s.2))
    else if 'i' ∈ lower then
      let s := splitAt2 'i' lower
      (s.1, Kind.signed (parseBytes 10 s.2))
    else (lower, Kind.unsized)
  (parseBytes radix cleaned).map (fun n => (n, kind))

/-- The characters of the class `[0-9]`, `[0-9A-Fa-f]`, `[0-7]` or `[0-1]`. -/
def isRadixDigit (r : Radix) (c : Char) : Bool :=
  match r with
  | .dec => '0' ≤ c && c ≤ '9'
  | .hex => ('0' ≤ c && c ≤ '9') || ('A' ≤ c && c ≤ 'F') || ('a' ≤ c && c ≤ 'f')
  | .oct => '0' ≤ c && c ≤ '7'
  | .bin => '0' ≤ c && c ≤ '1'

/-- The class of digits in the suffix (token.rs:53, 57, 61, 65): `[0-7]` after octal numbers. -/
def isSuffixDigit (r : Radix) (c : Char) : Bool :=
  match r with
  | .oct => '0' ≤ c && c ≤ '7'
  | _ => '0' ≤ c && c ≤ '9'

/-- The length of the longest match of `([uUiI][0-9]*)?`. -/
def suffixLen (r : Radix) (s : List Char) : Nat :=
  match s with
  | [] => 0
  | c :: cs =>
    if c = 'u' ∨ c = 'U' ∨ c = 'i' ∨ c = 'I' then 1 + (cs.takeWhile (isSuffixDigit r)).length else 0

/-- The length of the longest match of `[0-9][0-9_]*([uUiI][0-9]*)?` and the like, without the
introduction. -/
def bodyLen (r : Radix) (s : List Char) : Option Nat :=
  match s with
  | [] => none
  | c :: cs =>
    if isRadixDigit r c then
      let n := (cs.takeWhile (fun c => isRadixDigit r c || c == '_')).length
      some (1 + n + suffixLen r (cs.drop n))
    else none

/-- The four rules for numbers (token.rs:53-68). -/
def matchInt (r : Radix) (s : List Char) : Option (Nat × Tok) :=
  let k := r.intro.length
  if s.take k = r.intro then
    match bodyLen r (s.drop k) with
    | none => none
    | some n =>
      match parseInt r.base ((s.drop k).take n) with
      | none => none
      | some (v, kind) => some (k + n, .int r v kind)
  else none

/-! ## The other rules -/

/-- The `#[token]` rules (token.rs:70-249, 270-273). -/
def fixedTokens : List (List Char) := [
  "true", "false", "LOW", "HIGH", "HIGHIMP", "reg", "let", "decl", "inst", "reset", "initial", "if",
  "else", "match", "set", "pipeline", "stage", "entity", "trait", "impl", "for", "macro", "fn",
  "enum", "struct", "wire", "mod", "type", "use", "as", "assert", "mut", "inv", "pub", "where",
  "gen", "extern", "unsafe", "+", "-", "*", "/", "%", "==", "!=", "<", ">", "<=", ">=", ">>>", ">>",
  "<<", "+.", "-.", "*.", ">>.", "<<.", "||", "&&", "^^", "&", "|", "?", "!", "^", "~", "`", "=",
  "(", ")", "{", "}", "[", "]", "=>", "->", "@", ",", ".", "..", ";", ";", ":", "::", "#", "$",
  "/*", "*/"].map String.toList

/-- A `#[token]` rule. -/
def matchFixed (f s : List Char) : Option (Nat × Tok) :=
  if s.take f.length = f then some (f.length, .fixed f) else none

/-- The longest match of `[\p{XID_Start}_]\p{XID_Continue}*`. -/
def nameLen (C : Classes) (s : List Char) : Option Nat :=
  match s with
  | [] => none
  | c :: cs => if C.start c || c == '_' then some (1 + (cs.takeWhile C.cont).length) else none

/-- Identifiers with and without `r#` (token.rs:36-42, 47-51). When `r#` is not followed by a name,
`r` alone is one. -/
def matchIdent (C : Classes) (s : List Char) : Option (Nat × Tok) :=
  match s with
  | 'r' :: '#' :: cs =>
    match nameLen C cs with
    | some n => some (2 + n, .ident (cs.take n))
    | none => (nameLen C s).map (fun n => (n, .ident (s.take n)))
  | _ => (nameLen C s).map (fun n => (n, .ident (s.take n)))

/-- Labels and references to them (token.rs:251-255). -/
def matchLabel (C : Classes) (q : Char) (mk : List Char → Tok) (s : List Char) : Option (Nat × Tok) :=
  match s with
  | [] => none
  | c :: cs => if c = q then (nameLen C cs).map (fun n => (1 + n, mk (cs.take n))) else none

/-- The length of `(\\.|[^\\q])*q`. -/
def quotedLen (q : Char) : List Char → Option Nat
  | [] => none
  | c :: cs =>
    if c = q then some 1
    else if c = '\\' then
      match cs with
      | [] => none
      | d :: ds => if d = '\n' then none else (quotedLen q ds).map (2 + ·)
    else (quotedLen q cs).map (1 + ·)

/-- `b'…'` and `b"…"` (token.rs:257-260): the content is without delimiters. -/
def matchQuoted (q : Char) (mk : List Char → Tok) (s : List Char) : Option (Nat × Tok) :=
  match s with
  | 'b' :: c :: cs =>
    if c = q then (quotedLen q cs).map (fun n => (2 + n, mk (cs.take (n - 1)))) else none
  | _ => none

/-- `'\w'` (token.rs:263). -/
def matchUtf8 (C : Classes) (s : List Char) : Option (Nat × Tok) :=
  match s with
  | '\'' :: c :: '\'' :: _ => if C.word c then some (3, .utf8Char) else none
  | _ => none

/-- `"[^"]*"` (token.rs:265). -/
def matchString (s : List Char) : Option (Nat × Tok) :=
  match s with
  | '"' :: cs =>
    let n := (cs.takeWhile (· != '"')).length
    if n < cs.length then some (2 + n, .string (cs.take n)) else none
  | _ => none

/-- `///[^\n]*`, `//![^\n]*` and `//[^\n]*` (token.rs:268-271, 277). -/
def matchLine (p : List Char) (mk : List Char → Tok) (s : List Char) : Option (Nat × Tok) :=
  if s.take p.length = p then
    let t := (s.drop p.length).takeWhile (· != '\n')
    some (p.length + t.length, mk t)
  else none

/-- All matches, the more specific rules first. -/
def matches_ (C : Classes) (s : List Char) : List (Option (Nat × Tok)) :=
  fixedTokens.map (fun f => matchFixed f s) ++ [
    matchInt .dec s, matchInt .hex s, matchInt .oct s, matchInt .bin s,
    matchIdent C s, matchLabel C '\'' .label s, matchLabel C '@' .labelRef s,
    matchQuoted '\'' .asciiChar s, matchQuoted '"' .asciiString s, matchUtf8 C s, matchString s,
    matchLine ['/', '/', '/'] .outsideDoc s, matchLine ['/', '/', '!'] .insideDoc s,
    matchLine ['/', '/'] (fun _ => .comment) s]

/-- The longer of two matches, the first if they are equally long. -/
def longer (a b : Option (Nat × Tok)) : Option (Nat × Tok) :=
  match a, b with
  | none, r => r
  | some a, none => some a
  | some a, some b => if a.1 < b.1 then some b else some a

/-- The longest match, the first of equally long ones. -/
def longest : List (Option (Nat × Tok)) → Option (Nat × Tok)
  | [] => none
  | m :: ms => longer m (longest ms)

/-- White space (token.rs:274). -/
def isSpace (c : Char) : Bool := c == ' ' || c == '\t' || c == '\n' || c == '\r'

/-- What the lexer or the parser's token function comes to, and the text that is left. -/
inductive Next where
  | eof
  | error (rest : List Char)
  | tok (t : Tok) (rest : List Char)
  deriving DecidableEq

/-- `self.lex.next()` with the loop that drops line comments (lib.rs:3151-3167). -/
def lexNext (C : Classes) : Nat → List Char → Option Next
  | 0, _ => none
  | _ + 1, [] => some .eof
  | k + 1, c :: cs =>
    if isSpace c then lexNext C k cs
    else
      match longest (matches_ C (c :: cs)) with
      | none => some (.error cs)
      | some (n, .comment) => lexNext C k ((c :: cs).drop n)
      | some (n, t) => some (.tok t ((c :: cs).drop n))

/-- The start of a block comment. -/
def blockStart : Tok := .fixed ['/', '*']
/-- The end of a block comment. -/
def blockEnd : Tok := .fixed ['*', '/']

mutual
/-- `next_token_helper` (lib.rs:3150-3215). Nothing: the steps do not suffice. -/
def nextToken (C : Classes) : Nat → List Char → Option Next
  | 0, _ => none
  | k + 1, s =>
    match lexNext C (s.length + 1) s with
    | some (.tok t rest) => if t = blockStart then inComment C k rest else some (.tok t rest)
    | r => r
/-- The loop in a block comment (lib.rs:3189-3211). -/
def inComment (C : Classes) : Nat → List Char → Option Next
  | 0, _ => none
  | k + 1, s =>
    match nextToken C k s with
    | none => none
    | some .eof => some (.error [])
    | some (.error rest) => inComment C k rest
    | some (.tok t rest) => if t = blockEnd then nextToken C k rest else inComment C k rest
end

/-- All tokens up to the end of the file: nothing if there is an error. -/
def tokens (C : Classes) : Nat → List Char → Option (List Tok)
  | 0, _ => none
  | k + 1, s =>
    match nextToken C k s with
    | some .eof => some []
    | some (.tok t rest) => (tokens C k rest).map (t :: ·)
    | _ => none

/-! ## Literals in the parser -/

/-- `IntLiteral` (spade-ast/src/lib.rs:546-550). -/
inductive IntLiteral where
  | unsized (v : Int)
  | signed (v : Int) (size : Option Nat)
  | unsigned (v : Nat) (size : Option Nat)
  deriving DecidableEq

/-- `as_signed` (spade-ast/src/lib.rs:559-565). -/
def IntLiteral.val : IntLiteral → Int
  | .unsized v => v
  | .signed v _ => v
  | .unsigned v _ => v

/-- `int_literal` (lib.rs:870-915) on the sign, if there is one, and the number after it. It is used
for patterns, generic arguments, tuple indices and, where no sign can come, expressions. -/
def intLiteral (minus : Bool) (n : Nat) (k : Kind) : IntLiteral :=
  let v : Int := if minus then -(n : Int) else n
  match k with
  | .signed size => .signed v size
  | .unsized => .unsized v
  | .unsigned size => .unsigned n size

/-- `inline_negative_literal` (expression.rs:170-213) for `-` before a literal in an expression.
Nothing: an error is reported. -/
def negLiteral : IntLiteral → Option IntLiteral
  | .unsized v => some (.unsized (-v))
  | .signed v size => some (.signed (-v) size)
  | .unsigned _ _ => none

/-- `map_escape_char` (lib.rs:437-449). -/
def escape (q c : Char) : Option Char :=
  if c = '0' then some '\x00'
  else if c = 't' then some '\t'
  else if c = 'n' then some '\n'
  else if c = 'r' then some '\r'
  else if c = q then some q
  else none

/-- `ascii_char_literal` (lib.rs:509-556): the byte, or an error. -/
def asciiChar (val : List Char) : Option Nat :=
  if val.all (fun c => c.toNat < 128) then
    match val with
    | ['\\', c] => (escape '\'' c).map Char.toNat
    | [c] => some c.toNat
    | _ => none
  else none

/-- `ascii_string_literal` (lib.rs:451-507): the bytes, or an error. -/
def asciiString (escaped : Bool) : List Char → Option (List Nat)
  | [] => some []
  | c :: cs =>
    if c.toNat < 128 then
      if escaped then (escape '"' c).bind (fun e => (asciiString false cs).map (e.toNat :: ·))
      else if c = '\\' then asciiString true cs
      else (asciiString false cs).map (c.toNat :: ·)
    else none

end Spade.Lex

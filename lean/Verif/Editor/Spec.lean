import Verif.Loc.Spec

/-!
# Positions in an editor (C73): specification

What the language server protocol means by a position: "Position in a text document expressed as
zero-based line and zero-based character offset", where lines end with a line feed, a carriage
return or both, and characters are counted in UTF-16 code units. The compiler speaks of bytes of the
file, which is UTF-8.
-/

namespace Spade.Editor.Spec

/-- A position as editors count. -/
structure Pos where
  line : Nat
  character : Nat
  deriving DecidableEq

/-- The UTF-16 code units of a character. -/
def units (c : Char) : Nat := if c.toNat < 0x10000 then 1 else 2

/-- The bytes of a text in UTF-8. -/
def size (s : List Char) : Nat := (s.map Char.utf8Size).sum

/-- The position reached by going over `s` from position `p`. A carriage return in front of a line
feed ends the line together with it. -/
def after : List Char → Pos → Pos
  | [], p => p
  | c :: s, p =>
    if c = '\n' then after s ⟨p.line + 1, 0⟩
    else if c = '\r' then
      if s.head? = some '\n' then after s p else after s ⟨p.line + 1, 0⟩
    else after s ⟨p.line, p.character + units c⟩

/-- For an editor, the place in a text behind `pre` is at this position. -/
def position (pre : List Char) : Pos := after pre ⟨0, 0⟩

/-- The last line of a text, as far as line feeds go. -/
def line (pre : List Char) : List Char := (pre.reverse.takeWhile (· ≠ '\n')).reverse

/-- Carriage returns are only used together with line feeds. -/
def Ends (pre : List Char) : Prop := ∀ a b, pre = a ++ '\r' :: b → b.head? = some '\n'

/-- One position is in front of another. -/
def Pos.Before (p q : Pos) : Prop := p.line < q.line ∨ p.line = q.line ∧ p.character < q.character

end Spade.Editor.Spec

import Verif.Lex.Props

/-!
# File arguments (C76): specification
-/

namespace Spade.Files

open Spade.Lex

/-- A name that is not a keyword. -/
def Word (C : Classes) (x : List Char) : Prop :=
  ∃ c cs, x = c :: cs ∧ (C.start c = true ∨ c = '_') ∧ (∀ d ∈ cs, C.cont d = true) ∧ x ∉ fixedTokens

/-- A path as it is written: `a::b::c`. -/
def written : List (List Char) → List Char
  | [] => []
  | [x] => x
  | x :: y :: p => x ++ ':' :: ':' :: written (y :: p)

/-- The tokens of a path. -/
def pathTokens : List (List Char) → List Tok
  | [] => []
  | [x] => [.ident x]
  | x :: y :: p => .ident x :: .fixed [':', ':'] :: pathTokens (y :: p)

/-- `part` stands for the namespace `p`: both are empty, or `part` consists of the tokens of the path,
possibly with `::` at the end. -/
def Names (C : Classes) (part : List Char) (p : List (List Char)) : Prop :=
  (part = [] ∧ p = []) ∨
  (p ≠ [] ∧ (Tokens C part (pathTokens p) ∨ Tokens C part (pathTokens p ++ [.fixed [':', ':']])))

end Spade.Files

import Verif.Files.Props
import Verif.Lex.Examples

/-!
# File arguments (C76): examples
-/

namespace Spade.Files

open Spade.Lex

theorem word_of {x : List Char} (h : (match x with
    | [] => false
    | c :: cs => (ascii.start c || c == '_') && cs.all ascii.cont && !(fixedTokens.contains x)) = true) :
    Word ascii x := by
  cases x with
  | nil => cases h
  | cons c cs =>
    simp only [Bool.and_eq_true, Bool.or_eq_true, beq_iff_eq, Bool.not_eq_true',
      List.contains_eq_mem, decide_eq_false_iff_not] at h
    exact ⟨c, cs, rfl, h.1.1, fun d hd => List.all_eq_true.1 h.1.2 d hd, h.2⟩

def exRoot : List (List Char) := ["a".toList, "b".toList]
def exNs : List (List Char) := ["a".toList, "b".toList, "_c2".toList]

theorem exRoot_words : ∀ x ∈ exRoot, Word ascii x := by
  intro x hx
  apply word_of
  revert x
  decide +kernel

theorem exNs_words : ∀ x ∈ exNs, Word ascii x := by
  intro x hx
  apply word_of
  revert x
  decide +kernel

/-- `a::b,a::b::_c2,test.spade`. -/
theorem ex_namespaces : namespacedFile ascii "a::b,a::b::_c2,test.spade".toList =
    some ⟨exRoot, exNs, "test.spade".toList⟩ := by
  have := C76_namespaces ascii_usual exRoot_words exNs_words (file := "test.spade".toList) (by decide)
  rw [show written exRoot ++ ',' :: (written exNs ++ ',' :: "test.spade".toList) =
    "a::b,a::b::_c2,test.spade".toList by decide +kernel] at this
  exact this

/-- `,,main.spade`: the namespaces may be empty. -/
example : namespacedFile ascii ",,main.spade".toList = some ⟨[], [], "main.spade".toList⟩ :=
  C76_namespaces ascii_usual (root := []) (ns := []) (by simp) (by simp) (file := "main.spade".toList)
    (by decide)

example : namespacedFile ascii "main.spade".toList = some ⟨[], [], "main.spade".toList⟩ :=
  C76_plain ascii (by decide)

/-- Keywords, spaces within names, other characters, and arguments of two or four parts are refused. -/
theorem ex_refused : namespacedFile ascii "a,a::pipeline,f".toList = none ∧
    namespacedFile ascii "a b,a,f".toList = none ∧ namespacedFile ascii "::a,a,f".toList = none ∧
    namespacedFile ascii "a,f".toList = none ∧ namespacedFile ascii "a,a,a,f".toList = none := by
  decide +kernel

theorem ex_accepted : Names ascii "a::b".toList exRoot := by
  refine .inr ⟨by decide, .inl ?_⟩
  exact tokens_written ascii_usual exRoot_words

/-- Full statement: the texts accepted for namespaces are paths, names with `::` between them. The text
`a::` is accepted and read as `a`: a name that is missing after the last `::`, as in
`a::,a::,test.spade`, is not reported and the file is put in another namespace than the one being
written. -/
theorem C76_counterexample_separator :
    namespacedFile ascii "a::,a::b::,test.spade".toList =
      some ⟨["a".toList], exRoot, "test.spade".toList⟩ := by
  decide +kernel

/-- Full statement: any file can be given. A file with two commas in its name is taken for another one
with namespaces, and one with one comma is refused. -/
theorem C76_counterexample_comma :
    namespacedFile ascii "x,y,z.spade".toList = some ⟨["x".toList], ["y".toList], "z.spade".toList⟩ ∧
    namespacedFile ascii "x,y.spade".toList = none := by
  decide +kernel

end Spade.Files

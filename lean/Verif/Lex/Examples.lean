import Verif.Lex.Props

/-! # Examples and counterexamples (C64, C65) -/

namespace Spade.Lex

open Spec (Radix Kind Written IsDigit Spelling Spellings Body Calm Gap Ends)

/-- The classes of ASCII. -/
def ascii : Classes where
  start := Char.isAlpha
  cont c := c.isAlphanum || c == '_'
  word c := c.isAlphanum || c == '_'

theorem ascii_usual : ascii.Usual := ⟨fun _ _ => rfl, fun _ _ => rfl⟩

instance (radix : Nat) (c : Char) : Decidable (IsDigit radix c) :=
  decidable_of_iff ((Spec.digit c).any (fun d => decide (d < radix)) = true) (by
    simp [IsDigit, Option.any_eq_true])

/-! ## Numbers -/

/-- `0xff_ffu16`. -/
def exNumber : Written := ⟨.hex, 'f', "f_ff".toList, some ('u', "16".toList)⟩

theorem exNumber_ok : exNumber.Ok where
  first := by decide
  more := by
    have : ∀ c ∈ exNumber.more, (decide (IsDigit exNumber.radix.base c) || c == '_') = true := by decide
    intro c hc
    simpa using this c hc
  letter := by
    intro l ds h
    cases h
    decide
  width := by
    intro l ds h
    cases h
    decide

example : exNumber.text = "0xff_ffu16".toList ∧ exNumber.value = 65535 ∧
    exNumber.kind = .unsigned (some 16) := by decide +kernel

/-- `0xff_ffu16 + 1` begins with the number 65535 of the type `uint<16>`. -/
theorem exNumber_lexed :
    Gives ascii (exNumber.text ++ " + 1".toList) (.tok (.int .hex 65535 (.unsigned (some 16))) " + 1".toList) := by
  have := C64_integer_literal_partial ascii_usual exNumber_ok (by intro h; cases h)
    (rest := " + 1".toList) (by intro c h; cases h; decide)
  exact this

/-- `0o7u8`. -/
def exOctal : Written := ⟨.oct, '7', [], some ('u', ['8'])⟩

/-- **C64, violated.** `0o7u8` should be the number 7 of the type `uint<8>`. It becomes two numbers,
`0o7u` of no width and `8`. -/
theorem C64_counterexample_octal_suffix :
    exOctal.text = "0o7u8".toList ∧ exOctal.value = 7 ∧ exOctal.kind = .unsigned (some 8) ∧
    tokens ascii 10 exOctal.text = some [.int .oct 7 (.unsigned none), .int .dec 8 .unsized] := by
  decide +kernel

theorem exOctal_ok : exOctal.Ok where
  first := by decide
  more := by intro c h; cases h
  letter := by
    intro l ds h
    cases h
    decide
  width := by
    intro l ds h
    cases h
    decide

/-- `-5` as a pattern is minus five. -/
example : (intLiteral true 5 .unsized).val = -5 := C64_sign_partial true 5 .unsized (.inr (by simp))

/-! ## Characters and strings -/

/-- `b'\n'` is the byte 10. -/
example : Gives ascii "b'\\n' ".toList (.tok (.asciiChar ['\\', 'n']) [' ']) ∧
    asciiChar ['\\', 'n'] = some 10 :=
  C64_char_literal_partial ascii_usual .newline

/-- `b"a\"\t"` are the bytes 97, 34 and 9. -/
example : Gives ascii "b\"a\\\"\\t\";".toList (.tok (.asciiString "a\\\"\\t".toList) [';']) ∧
    asciiString false "a\\\"\\t".toList = some [97, 34, 9] :=
  C64_string_literal_partial ascii_usual (cs := ['a', '"', '\t'])
    (.cons (.plain (by decide) (by decide) (by decide)) (.cons .quote (.cons .tab .nil)))

/-- `b'\\'` is a token, and an error in the parser. -/
example : tokens ascii 10 "b'\\\\'".toList = some [.asciiChar ['\\', '\\']] ∧
    asciiChar ['\\', '\\'] = none := by decide +kernel

/-! ## Comments -/

theorem body_plain : ∀ (s : List Char), s.all (fun c => c != '/' && c != '*') = true → Body s
  | [], _ => .nil
  | c :: cs, h => by
    simp only [List.all_cons, Bool.and_eq_true, bne_iff_ne] at h
    exact .char h.1.1 h.1.2 (body_plain cs h.2)

theorem calm_of {s : List Char} (h : (!s.contains '"' && !s.contains '\'' &&
    (List.zip s (s.drop 1)).all (fun p => p.1 != '/' || p.2 != '/')) = true) : Calm s := by
  simp only [Bool.and_eq_true, Bool.not_eq_true', List.contains_eq_mem, decide_eq_false_iff_not] at h
  refine ⟨h.1.1, h.1.2, ?_⟩
  rintro a b rfl
  have key : ∀ a : List Char, (List.zip (a ++ '/' :: '/' :: b) ((a ++ '/' :: '/' :: b).drop 1)).all
      (fun p => p.1 != '/' || p.2 != '/') = false := by
    intro a
    induction a with
    | nil => simp
    | cons c cs ih =>
      cases cs with
      | nil => simp
      | cons d ds =>
        simp only [List.cons_append, List.drop_succ_cons, List.drop_zero, List.zip_cons_cons,
          List.all_cons] at ih ⊢
        rw [ih, Bool.and_false]
  rw [key] at h
  cases h.2

/-- ` a *. /* b / c */ [d `. -/
def exBody : List Char := " a *. /* b / c */ [d ".toList

theorem exBody_body : Body exBody := by
  have hc : Body "c ".toList := body_plain _ (by decide)
  have h1 : Body " b / c ".toList :=
    .char (by decide) (by decide) (.char (by decide) (by decide) (.char (by decide) (by decide)
      (.slash (by decide) (.char (by decide) (by decide) hc))))
  have h2 : Body " [d ".toList := body_plain _ (by decide)
  exact .char (by decide) (by decide) (.char (by decide) (by decide) (.char (by decide) (by decide)
    (.star (by decide) (.char (by decide) (by decide) (.char (by decide) (by decide)
      (.nested h1 h2))))))

/-- A comment in a comment, and a line comment, before `x`. -/
theorem exGap : Gap Calm ("/* a *. /* b / c */ [d */ // \"e\n".toList) :=
  .block exBody_body (calm_of (by decide)) (.space (by decide)
    (.line (t := " \"e".toList) (by decide) (by decide) (by decide) .nil))

/-- They are skipped. -/
theorem exGap_skipped : Gives ascii ("/* a *. /* b / c */ [d */ // \"e\nx".toList) (.tok (.ident ['x']) []) :=
  (C65_gap_partial ascii_usual exGap (rest := ['x']) _).mpr ⟨1, by decide +kernel⟩

/-- The file with the comments between `1` and `x` has the same tokens as the one without. -/
example (ts : List Tok) : Tokens ascii ("1/* a *. /* b / c */ [d */ // \"e\nx".toList) ts ↔
    Tokens ascii "1x".toList ts :=
  C65_same_tokens_partial ascii_usual exGap (t := .int .dec 1 .unsized) (rest := ['x'])
    ⟨1, by decide +kernel⟩ ⟨1, by decide +kernel⟩ ts

/-- **C65, violated.** The text of the block comment `/* // */` ends at the end of the file: what
comes after it on the line is lost, and the parser reports that the comment is not closed. -/
theorem C65_counterexample_line_comment_inside :
    Body " // ".toList ∧ Gives ascii "/* // */ x".toList (.error []) ∧
    Gives ascii " x".toList (.tok (.ident ['x']) []) := by
  refine ⟨?_, ⟨10, by decide +kernel⟩, ⟨10, by decide +kernel⟩⟩
  exact .char (by decide) (by decide) (.slash (by decide)
    (.slash (by decide) (.char (by decide) (by decide) .nil)))

/-- **C65, violated.** Quotation marks in two block comments make the code between them disappear:
in `/* 1" */ a /* 2" */ b` there is no `a`, and no error. -/
theorem C65_counterexample_quotes_inside :
    Body " 1\" ".toList ∧ Body " 2\" ".toList ∧
    tokens ascii 20 "/* 1\" */ a /* 2\" */ b".toList = some [.ident ['b']] ∧
    tokens ascii 20 " a  b".toList = some [.ident ['a'], .ident ['b']] := by
  refine ⟨body_plain _ (by decide), body_plain _ (by decide), ?_⟩
  decide +kernel

/-- Unterminated comments are errors. -/
example : Gives ascii "/* a /* b */ c".toList (.error []) := ⟨20, by decide +kernel⟩

end Spade.Lex

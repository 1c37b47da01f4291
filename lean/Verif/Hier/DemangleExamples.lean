import Verif.Hier.DemangleProps

/-!
# Descriptions of signals (C75): examples and counterexamples
-/

namespace Spade.Hier

open Spade.Mir
open Spec (Dir Signal Carries)

/-- The file `let x = a + b;`. -/
def exFile : Text := "let x = a + b;".toUTF8.toList

/-- The statements for `let x = a + b;`: the sum, an alias for `x`, and a helper. -/
def exBuild : Build (Option String) (Nat × Nat) Nat Nat :=
  .append
    (.push .empty (.primary (.binding ⟨.expr 3, .other none, [.named 4 "a", .named 5 "b"], (8, 0)⟩)
      (.expr 0 8 13)))
    (.secondary
      (.push (.push .empty (.primary (.binding ⟨.named 7 "x", .alias, [.expr 3], (8, 0)⟩)
          (.name "x".toUTF8.toList)))
        (.anonymous (.assert (.named 7 "x"))))
      [.constant (.expr 6) (1, 0) 1] (.expr 0 8 13) "condition".toUTF8.toList)

/-- The unit with these statements. -/
def exUnit : Entity (Option String) (Nat × Nat) Nat Nat :=
  { name := "f", inputs := [⟨"a", .named 4 "a", (8, 0), false⟩, ⟨"b", .named 5 "b", (8, 0), false⟩],
    output := .named 7 "x", outputTy := (8, 0),
    stmts := exBuild.run.stmts }

/-- The insertions: the inputs, then the statements. -/
def exHistory : List (Name × NamedValue) :=
  [(.named 4 "a", .primary (.name "a".toUTF8.toList)), (.named 5 "b", .primary (.name "b".toUTF8.toList))] ++
    exBuild.run.names

theorem exWell : exUnit.WellNamed := ⟨by decide, by decide, by decide⟩

/-- The map, in the order of insertion: any list of insertions with distinct names is such a map. -/
theorem mapOf_self {h : List (Name × NamedValue)} (hn : (h.map (·.1)).Nodup) : MapOf h h :=
  ⟨hn, fun _ _ => ⟨fun hm => get_unique hm fun _ hw => fst_unique hn hw hm, mem_of_get⟩⟩

/-- The map in another order. -/
theorem exMap : MapOf exHistory exHistory.reverse := by
  have hn : (exHistory.map (·.1)).Nodup := by decide
  refine ⟨by decide, fun n v => ?_⟩
  rw [List.mem_reverse]
  exact (mapOf_self hn).same n v

theorem exNumbers : ∀ s v, (Name.named 0 s, v) ∉ exHistory := by
  intro s v h
  have : (Name.named 0 s) ∈ exHistory.map (·.1) := List.mem_map.2 ⟨_, h, rfl⟩
  rw [show exHistory.map (·.1) = [.named 4 "a", .named 5 "b", .expr 3, .named 7 "x", .expr 6] by decide] at this
  simp at this

/-- What the sum was recorded as. -/
theorem exRecorded : get exBuild.run.names (.expr 3) = some (.primary (.expr 0 8 13)) :=
  (C75_recorded (by decide)).2 ⟨_, .left .primary, rfl⟩

/-- The signal of the sum is `_e_3` and is described as `(id) a + b`. -/
theorem exDescribed : ∃ r, demangleString [exFile] exHistory.reverse "_e_3".toList = some r ∧
    Describes [exFile] (.primary (.expr 0 8 13)) r := by
  rw [show "_e_3".toList = fwdName (.expr 3) by decide]
  refine C75_expression_partial (X := exCtx) (e := exUnit) (d := .forward) (i := 3) exWell exMap exNumbers
    (g := .result 0) (.inl rfl) ?_ (by decide)
    ⟨exFile, rfl, by decide, by decide +kernel⟩
  exact .result (k := 0) (s := .binding ⟨.expr 3, .other none, [.named 4 "a", .named 5 "b"], (8, 0)⟩)
    (s' := .binding ⟨.expr 3, .other none, [.named 0 "a", .named 0 "b"], (8, 0)⟩) (t := (8, 0))
    (by decide) (by decide) rfl rfl rfl (by decide)

theorem exText : demangleString [exFile] exHistory.reverse "_e_3".toList =
    some "(id) a + b".toUTF8.toList := by decide +kernel

/-- A helper is described with what it is for. -/
theorem exHelper : demangleString [exFile] exHistory.reverse "_e_6".toList =
    some "(id) a + b (condition)".toUTF8.toList := by decide +kernel

/-- **C75 fails** for variables: the variable `x` is the signal `x`, its description is recorded, but
`x` is unknown, since the map has the numbers from before renaming (`x_n7`, which is no signal). -/
theorem C75_counterexample_variable : ∃ (e : Entity (Option String) (Nat × Nat) Nat Nat)
    (h : List (Name × NamedValue)) (n : Name) (x : List Char), Fine exCtx e ∧
      Carries exCtx e (makeNamesPredictable e) (.result 1) x .forward n ∧
      get h n = some (.primary (.name "x".toUTF8.toList)) ∧
      (∀ inner code, MapOf h inner → demangleString code inner x = none) ∧
      "x_n7".toList ∉ declared exCtx (makeNamesPredictable e) ∧
      demangleString [] h "x_n7".toList = some "x".toUTF8.toList := by
  refine ⟨exUnit, exHistory, .named 7 "x", "x".toList, ?_, ?_, by decide +kernel, ?_, by decide, by decide +kernel⟩
  · refine ⟨exWell, ⟨?_, by decide, by decide, by decide⟩, ?_, by decide, ?_⟩
    · intro i hi
      simp [exUnit] at hi
      rcases hi with rfl | rfl
      · exact ⟨4, rfl⟩
      · exact ⟨5, rfl⟩
    · unfold NoClash; decide
    · intro n t c h
      have : exUnit.stmts = [.binding ⟨.expr 3, .other none, [.named 4 "a", .named 5 "b"], (8, 0)⟩,
        .binding ⟨.named 7 "x", .alias, [.expr 3], (8, 0)⟩, .assert (.named 7 "x"),
        .constant (.expr 6) (1, 0) 1] := rfl
      rw [this] at h
      simp at h
      rw [h.2.1]; rfl
  · exact .result (k := 1) (s := .binding ⟨.named 7 "x", .alias, [.expr 3], (8, 0)⟩)
      (s' := .binding ⟨.named 0 "x", .alias, [.expr 3], (8, 0)⟩) (n' := .named 0 "x") (t := (8, 0))
      (by decide) (by decide) rfl rfl rfl (by decide)
  · intro inner code hm
    exact C75_variables hm exNumbers (by decide)

end Spade.Hier

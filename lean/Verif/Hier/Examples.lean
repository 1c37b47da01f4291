import Verif.Hier.Props

/-!
# Signals of a waveform (C74): examples and counterexamples
-/

namespace Spade.Hier

open Spade.Mir
open Spec (Dir Signal Carries HasInstance Leads)

/-- Operators that may instantiate a unit, by the name of the instance; a type has a width in each
direction. -/
def exCtx : NameCtx (Option String) (Nat × Nat) := ⟨(·.1), (·.2), id⟩

/-- Which unit is instantiated: `sub` is unit 2. -/
def exTarget : Option String → Nat
  | some "sub" => 2
  | _ => 0

/-- The top unit: an input `a`, and two instances of `sub`. -/
def exTop : Entity (Option String) (Nat × Nat) Nat Nat :=
  { name := "top", inputs := [⟨"a", .named 4 "a", (8, 0), false⟩], output := .named 6 "x",
    outputTy := (8, 0),
    stmts := [.binding ⟨.named 5 "x", .other (some "sub"), [.named 4 "a"], (8, 0)⟩,
              .binding ⟨.named 6 "x", .other (some "sub"), [.named 5 "x"], (8, 0)⟩] }

/-- The unit that it instantiates: an input, a port that it drives, a constant and a register. -/
def exSub : Entity (Option String) (Nat × Nat) Nat Nat :=
  { name := "sub", inputs := [⟨"v", .named 1 "v", (8, 0), false⟩, ⟨"p", .named 2 "p", (0, 4), true⟩],
    output := .expr 3, outputTy := (8, 0),
    stmts := [.constant (.expr 1) (8, 0) 7,
              .binding ⟨.named 7 "y", .other none, [.named 1 "v", .expr 1], (8, 3)⟩,
              .binding ⟨.expr 3, .other none, [.named 7 "y"], (8, 0)⟩] }

theorem exTop_fine : Fine exCtx exTop := by
  refine ⟨⟨by decide, by decide, by decide⟩, ⟨?_, by decide, by decide, by decide⟩, ?_, by decide, ?_⟩
  · intro i hi
    simp [exTop] at hi
    subst hi
    exact ⟨4, rfl⟩
  · unfold NoClash; decide
  · intro n t c h
    simp [exTop] at h

theorem exSub_fine : Fine exCtx exSub := by
  refine ⟨⟨by decide, by decide, by decide⟩, ⟨?_, by decide, by decide, by decide⟩, ?_, by decide, ?_⟩
  · intro i hi
    simp [exSub] at hi
    rcases hi with rfl | rfl
    · exact ⟨1, rfl⟩
    · exact ⟨2, rfl⟩
  · unfold NoClash; decide
  · intro n t c h
    simp [exSub] at h
    rw [h.2.1]; rfl

def exProg : List (Nat × Entity (Option String) (Nat × Nat) Nat Nat) := [(1, exTop), (2, exSub)]

theorem exProg_fine : ∀ u e, (u, e) ∈ exProg → Fine exCtx e := by
  intro u e h
  simp [exProg] at h
  rcases h with ⟨_, rfl⟩ | ⟨_, rfl⟩
  · exact exTop_fine
  · exact exSub_fine

theorem exLeads : Leads exCtx exTarget exProg 1 ["sub_1".toList] 2 :=
  .step (e := exTop) (by simp [exProg]) ⟨1, some "sub", by decide, by decide, by decide⟩ .here

/-- The backward part of `y` in the second instance of `sub`: the hypotheses of the theorems are met. -/
theorem exBack : sourceOf exCtx exTarget exProg 1 ["sub_1".toList, "y_mut".toList] =
    some (2, (.backward, .named 7 "y")) :=
  C74_source_partial (e := exSub) (by decide) exProg_fine exLeads (by simp [exProg])
    (.resultBack (k := 1) (b := ⟨.named 7 "y", .other none, [.named 1 "v", .expr 1], (8, 3)⟩)
      (b' := ⟨.named 0 "y", .other none, [.named 0 "v", .expr 1], (8, 3)⟩)
      (by decide) (by decide) (by decide)) trivial
    (by unfold OneWay; decide)

/-- The port of the input `v`, and its type. -/
theorem exPort : typeOf exCtx exTarget exProg (fun u n => some (u, n)) 1 ["sub_1".toList, "v_i".toList] =
    some (2, .named 1 "v") := by
  rw [show "v_i".toList = mangleInput false "v" by decide]
  exact (C74_type_partial (e := exSub) (fun u n => some (u, n)) (by decide) exProg_fine exLeads
    (by simp [exProg])
    (.inPort (k := 0) (i := ⟨"v", .named 1 "v", (8, 0), false⟩) (by decide) (by decide)) trivial
    (by unfold OneWay; decide)).trans (if_pos rfl)

/-- The wire of the input `v`, as its module has it. -/
theorem exWire : lookupName exCtx exSub "v".toList = some (.forward, .named 1 "v") :=
  C74_signal_partial exSub_fine
    (.inWire (k := 0) (i := ⟨"v", .named 1 "v", (8, 0), false⟩) (i' := ⟨"v", .named 0 "v", (8, 0), false⟩)
      (by decide) (by decide) (by decide) rfl)
    (by intro i hi; simp [exSub] at hi; subst hi; decide) (by unfold OneWay; decide)

/-- There is no third instance of `sub`. -/
theorem exNoInstance : ¬ Leads exCtx exTarget exProg 1 ["sub_2".toList] 2 := by
  rw [← C74_path (by decide)]
  decide

/-- **C74 fails** for an input whose type has parts in both directions: the wire `x` carries its
forward part, but is found as its backward part. -/
theorem C74_counterexample_two_ways : ∃ (e : Entity (Option String) (Nat × Nat) Nat Nat) (v : List Char)
    (n : Name), Fine exCtx e ∧ Carries exCtx e (makeNamesPredictable e) (.inWire 0) v .forward n ∧
      lookupName exCtx e v = some (.backward, n) ∧
      ∀ types : Nat → Name → Option Nat, typeOf exCtx exTarget [(1, e)] types 1 [v] = none := by
  refine ⟨{ name := "t", inputs := [⟨"x", .named 1 "x", (8, 4), false⟩], output := .expr 1,
            outputTy := (8, 0), stmts := [.binding ⟨.expr 1, .other none, [.named 1 "x"], (8, 0)⟩] },
    "x".toList, .named 1 "x", ?_, ?_, by decide, ?_⟩
  · refine ⟨⟨by decide, by decide, by decide⟩, ⟨?_, by decide, by decide, by decide⟩, ?_, by decide, ?_⟩
    · intro i hi
      simp at hi
      subst hi
      exact ⟨1, rfl⟩
    · unfold NoClash; decide
    · intro n t c h
      simp at h
  · exact .inWire (i := ⟨"x", .named 1 "x", (8, 4), false⟩) (i' := ⟨"x", .named 0 "x", (8, 4), false⟩)
      (by decide) (by decide) (by decide) rfl
  · intro types
    rfl

/-- **C74 fails** for the wires of the backward part of inputs and for `input__`: they are signals of
the module, but unknown. -/
theorem C74_counterexample_backward_wire : ∃ (e : Entity (Option String) (Nat × Nat) Nat Nat)
    (v : List Char) (n m : Name), Fine exCtx e ∧
      Carries exCtx e (makeNamesPredictable e) (.backWire 0) v .backward n ∧
      lookupName exCtx e v = none ∧
      Carries exCtx e (makeNamesPredictable e) .input "input__".toList .backward m ∧
      lookupName exCtx e "input__".toList = none := by
  refine ⟨{ name := "t", inputs := [⟨"x", .named 1 "x", (0, 4), false⟩], output := .expr 1,
            outputTy := (8, 2), stmts := [.binding ⟨.expr 1, .other none, [.named 1 "x"], (8, 2)⟩] },
    "x_mut".toList, .named 1 "x", .expr 1, ?_, ?_, by decide, .input (by decide), by decide⟩
  · refine ⟨⟨by decide, by decide, by decide⟩, ⟨?_, by decide, by decide, by decide⟩, ?_, by decide, ?_⟩
    · intro i hi
      simp at hi
      subst hi
      exact ⟨1, rfl⟩
    · unfold NoClash; decide
    · intro n t c h
      simp at h
  · exact .backWire (i := ⟨"x", .named 1 "x", (0, 4), false⟩) (i' := ⟨"x", .named 0 "x", (0, 4), false⟩)
      (by decide) (by decide) (by decide)

/-- **C74 fails** for the wire of an input called `new`: the wire is `new_n0`, but is known as `new`. -/
theorem C74_counterexample_new : ∃ (e : Entity (Option String) (Nat × Nat) Nat Nat)
    (v : List Char) (n : Name), Fine exCtx e ∧
      Carries exCtx e (makeNamesPredictable e) (.inWire 0) v .forward n ∧
      lookupName exCtx e v = none := by
  refine ⟨{ name := "t", inputs := [⟨"new", .named 1 "new", (8, 0), false⟩], output := .expr 1,
            outputTy := (8, 0), stmts := [.binding ⟨.expr 1, .other none, [.named 1 "new"], (8, 0)⟩] },
    _, .named 1 "new", ?_, .inWire (i := ⟨"new", .named 1 "new", (8, 0), false⟩)
      (i' := ⟨"new", .named 0 "new", (8, 0), false⟩) (by decide) (by decide) (by decide) rfl, by decide⟩
  · refine ⟨⟨by decide, by decide, by decide⟩, ⟨?_, by decide, by decide, by decide⟩, ?_, by decide, ?_⟩
    · intro i hi
      simp at hi
      subst hi
      exact ⟨1, rfl⟩
    · unfold NoClash; decide
    · intro n t c h
      simp at h

end Spade.Hier

import Verif.Match.Main
/-!
# C01–C04: exhaustiveness checking
-/
namespace Spade.Match

/-- Evaluate the checker on closed arguments. -/
macro "match_eval" : tactic => `(tactic| simp (config := { decide := true }) [checkMatch, checkIrrefutable, diagnoseGuards, Pat.ty,
  triviallyIrrefutable, allTriviallyIrrefutable, fromHir, fromHirs, isUseful,
  DPat.wildcard, DPat.ctor, DPat.ty, DPat.fields, Ctor.split, splitWildcard, splitIntRange, splitAlone, sortDedup,
  insertSorted, splitEdges, Ctor.asRange, DPat.specialize, Ctor.fields, singleFields,
  specializeRows, popHead, Ctor.isCoveredBy, applyCtor, applyCtorW, applyCtor1, extendW,
  missingCtors, coveredByAny, groupMissing])

/-! ### From source patterns to rows -/

mutual
theorem fromHir_wt : ∀ {p t}, PatTy p t → ∃ d, fromHir p = some d ∧ DWT d t
  | _, _, .int => ⟨_, rfl, .int⟩
  | _, _, .uint => ⟨_, rfl, .uint⟩
  | _, _, .bool => ⟨_, rfl, .bool⟩
  | _, _, .bound => ⟨_, rfl, .wild⟩
  | _, _, .boundInner h => by
    obtain ⟨d, e, h⟩ := fromHir_wt h
    exact ⟨d, by simp [fromHir, e], h⟩
  | _, _, .tuple h => by
    obtain ⟨d, e, h⟩ := fromHirs_wt h
    exact ⟨_, by simp [fromHir, e], .tuple h⟩
  | _, _, .array h => by
    obtain ⟨d, e, h⟩ := fromHirs_wt h
    exact ⟨_, by simp [fromHir, e], .array h⟩
  | _, _, .struct h => by
    obtain ⟨d, e, h⟩ := fromHirs_wt h
    exact ⟨_, by simp [fromHir, e], .struct h⟩
  | _, _, .variant hi h => by
    obtain ⟨d, e, h⟩ := fromHirs_wt h
    exact ⟨_, by simp [fromHir, e], .variant hi h⟩
theorem fromHirs_wt : ∀ {ps ts}, PatTys ps ts → ∃ ds, fromHirs ps = some ds ∧ DWTs ds ts
  | _, _, .nil => ⟨_, rfl, .nil⟩
  | _, _, .cons h hs => by
    obtain ⟨d, e, h⟩ := fromHir_wt h
    obtain ⟨ds, es, hs⟩ := fromHirs_wt hs
    exact ⟨_, by simp [fromHirs, e, es], .cons h hs⟩
end

mutual
theorem matches_excl : ∀ {p t}, PatTy p t → ∀ {d v}, HasTy v t → fromHir p = some d →
    Matches p v → DM Excl d v
  | _, _, .int, _, _, .int _ _, e, hm => by
    simp [fromHir] at e; subst e; simp [Matches] at hm; subst hm; simp [DM, Excl]; omega
  | _, _, .uint, _, _, .uint _ _, e, hm => by
    simp [fromHir] at e; subst e; simp [Matches] at hm; subst hm; simp [DM, Excl]; omega
  | _, _, .bool, _, _, .bool, e, hm => by
    simp [fromHir] at e; subst e; simp [Matches] at hm; subst hm; simp [DM]
  | _, _, .bound, _, _, _, e, hm => by
    simp [fromHir] at e; subst e; simp [DM]
  | _, _, .boundInner h, _, _, hv, e, hm => by
    simp [fromHir] at e; exact matches_excl h hv e (by simpa [Matches] using hm)
  | _, _, .tuple h, _, _, .tuple hv, e, hm => by
    simp [fromHir, Option.bind_eq_some_iff] at e; obtain ⟨ds, e, rfl⟩ := e
    simpa [DM, valArgs] using matchess_excl h hv e (by simpa [Matches] using hm)
  | _, _, .struct h, _, _, .struct hv, e, hm => by
    simp [fromHir, Option.bind_eq_some_iff] at e; obtain ⟨ds, e, rfl⟩ := e
    simpa [DM, valArgs] using matchess_excl h hv e (by simpa [Matches] using hm)
  | _, _, .array h, _, _, .array hv, e, hm => by
    simp [fromHir, Option.bind_eq_some_iff] at e; obtain ⟨ds, e, rfl⟩ := e
    simpa [DM, valArgs] using matchess_excl h hv e (by simpa [Matches] using hm)
  | _, _, .variant hi h, _, _, .enum hj hv, e, hm => by
    simp [fromHir, Option.bind_eq_some_iff] at e; obtain ⟨ds, e, rfl⟩ := e
    simp [Matches] at hm
    obtain ⟨rfl, hm⟩ := hm
    rw [hi] at hj; cases hj
    simpa [DM, valArgs] using matchess_excl h hv e hm
theorem matchess_excl : ∀ {ps ts}, PatTys ps ts → ∀ {ds vs}, HasTys vs ts →
    fromHirs ps = some ds → MatchesAll ps vs → DMs Excl ds vs
  | _, _, .nil, _, _, .nil, e, _ => by simp [fromHirs] at e; subst e; simp [DMs]
  | _, _, .cons h hs, _, _, .cons hv hvs, e, hm => by
    simp [fromHirs, Option.bind_eq_some_iff] at e; obtain ⟨d, e1, ds, e2, rfl⟩ := e
    simp [MatchesAll] at hm
    exact ⟨matches_excl h hv e1 hm.1, matchess_excl hs hvs e2 hm.2⟩
end

mutual
theorem incl_loose : ∀ {p t}, PatTy p t → ∀ {d v}, HasTy v t → fromHir p = some d →
    DM Incl d v → MatchesLoose p v
  | _, _, .int, _, _, .int _ _, e, hm => by
    simp [fromHir] at e; subst e; simp [DM, Incl] at hm; simp [MatchesLoose]; omega
  | _, _, .uint, _, _, .uint _ _, e, hm => by
    simp [fromHir] at e; subst e; simp [DM, Incl] at hm; simp [MatchesLoose]; omega
  | _, _, .bool, _, _, .bool, e, hm => by
    simp [fromHir] at e; subst e; simpa [DM, MatchesLoose] using hm
  | _, _, .bound, _, _, _, e, hm => by simp [MatchesLoose]
  | _, _, .boundInner h, _, _, hv, e, hm => by
    simp [fromHir] at e; simpa [MatchesLoose] using incl_loose h hv e hm
  | _, _, .tuple h, _, _, .tuple hv, e, hm => by
    simp [fromHir, Option.bind_eq_some_iff] at e; obtain ⟨ds, e, rfl⟩ := e
    simpa [MatchesLoose] using incls_loose h hv e (by simpa [DM, valArgs] using hm)
  | _, _, .struct h, _, _, .struct hv, e, hm => by
    simp [fromHir, Option.bind_eq_some_iff] at e; obtain ⟨ds, e, rfl⟩ := e
    simpa [MatchesLoose] using incls_loose h hv e (by simpa [DM, valArgs] using hm)
  | _, _, .array h, _, _, .array hv, e, hm => by
    simp [fromHir, Option.bind_eq_some_iff] at e; obtain ⟨ds, e, rfl⟩ := e
    simpa [MatchesLoose] using incls_loose h hv e (by simpa [DM, valArgs] using hm)
  | _, _, .variant hi h, _, _, .enum hj hv, e, hm => by
    simp [fromHir, Option.bind_eq_some_iff] at e; obtain ⟨ds, e, rfl⟩ := e
    simp [DM, valArgs] at hm
    obtain ⟨rfl, hm⟩ := hm
    rw [hi] at hj; cases hj
    simpa [MatchesLoose] using incls_loose h hv e hm
theorem incls_loose : ∀ {ps ts}, PatTys ps ts → ∀ {ds vs}, HasTys vs ts →
    fromHirs ps = some ds → DMs Incl ds vs → MatchesLooseAll ps vs
  | _, _, .nil, _, _, .nil, _, _ => by simp [MatchesLooseAll]
  | _, _, .cons h hs, _, _, .cons hv hvs, e, hm => by
    simp [fromHirs, Option.bind_eq_some_iff] at e; obtain ⟨d, e1, ds, e2, rfl⟩ := e
    simp [DMs] at hm
    exact ⟨incl_loose h hv e1 hm.1, incls_loose hs hvs e2 hm.2⟩
end

mutual
theorem loose_exact : ∀ (p : Pat) (v : Val), NoIntLit p → MatchesLoose p v → Matches p v
  | .int _ _, _, h, _ => by simp [NoIntLit] at h
  | .bool _ _, v, _, h => by cases v <;> simp_all [MatchesLoose, Matches]
  | .bound _, _, _, _ => by simp [Matches]
  | .boundInner _ p, v, hn, h => by
    simpa [Matches] using loose_exact p v (by simpa [NoIntLit] using hn)
      (by simpa [MatchesLoose] using h)
  | .tuple _ ps, v, hn, h => by
    cases v <;> simp [MatchesLoose] at h
    simpa [Matches] using looses_exact ps _ (by simpa [NoIntLit] using hn) h
  | .array _ ps, v, hn, h => by
    cases v <;> simp [MatchesLoose] at h
    simpa [Matches] using looses_exact ps _ (by simpa [NoIntLit] using hn) h
  | .struct _ ps, v, hn, h => by
    cases v <;> simp [MatchesLoose] at h
    simpa [Matches] using looses_exact ps _ (by simpa [NoIntLit] using hn) h
  | .variant _ _ ps, v, hn, h => by
    cases v <;> simp [MatchesLoose] at h
    simpa [Matches, h.1] using looses_exact ps _ (by simpa [NoIntLit] using hn) h.2
theorem looses_exact : ∀ (ps : List Pat) (vs : List Val), NoIntLits ps → MatchesLooseAll ps vs →
    MatchesAll ps vs
  | [], [], _, _ => by simp [MatchesAll]
  | [], _ :: _, _, h => by simp [MatchesLooseAll] at h
  | _ :: _, [], _, h => by simp [MatchesLooseAll] at h
  | p :: ps, v :: vs, hn, h => by
    simp [MatchesLooseAll] at h; simp [NoIntLits] at hn
    exact ⟨loose_exact p v hn.1 h.1, looses_exact ps vs hn.2 h.2⟩
end

/-- What the exhaustiveness check computes, for well-typed arms. -/
theorem checkMatch_spec {ty : Ty} {arms : List Arm} (hev : NoEnumView ty)
    (ht : ∀ a ∈ arms, PatTy a.1 ty) :
    ∃ ws, checkMatch ty arms = some ws ∧
      (ws = [] → NoOpaque ty → ∀ v, HasTy v ty →
        ∃ a ∈ arms, a.2 = false ∧ MatchesLoose a.1 v) ∧
      (∀ w ∈ ws, ∃ d v, w = [d] ∧ HasTy v ty ∧ DM Incl d v ∧
        ∀ a ∈ arms, a.2 = false → ¬ Matches a.1 v) := by
  obtain ⟨stacks, hs1, hs2, hs3⟩ := mapM_some (l := arms.filter fun a => !a.2)
    (f := fun a => (do return [← fromHir a.1] : Option PatStack)) (by
      intro a ha
      simp at ha
      obtain ⟨d, e, _⟩ := fromHir_wt (ht a ha.1)
      exact ⟨[d], by simp [e]⟩)
  have hst : ∀ r ∈ stacks, ∃ a ∈ arms, a.2 = false ∧ ∃ d, r = [d] ∧ fromHir a.1 = some d ∧
      DWT d ty := by
    intro r hr
    obtain ⟨a, ha, e⟩ := hs2 r hr
    simp at ha
    obtain ⟨d, e', hd⟩ := fromHir_wt (ht a ha.1)
    simp [e'] at e
    exact ⟨a, ha.1, ha.2, d, e.symm, e', hd⟩
  obtain ⟨ws, hu, hsp⟩ := isUseful_spec _ [ty] stacks (Nat.le_refl _)
    (by simpa [NoEnumViews] using hev) (by
      intro r hr
      obtain ⟨a, _, _, d, rfl, _, hd⟩ := hst r hr
      exact .cons hd .nil)
  refine ⟨ws, ?_, ?_, ?_⟩
  · simp only [checkMatch]
    rw [hs1]
    simpa using hu
  · intro h0 hno v hv
    obtain ⟨r, hr, hm⟩ := hsp.sound h0 (by simpa [NoOpaques] using hno) [v] (.cons hv .nil)
    obtain ⟨a, ha, hg, d, rfl, e, _⟩ := hst r hr
    simp [DMs] at hm
    exact ⟨a, ha, hg, incl_loose (ht a ha) hv e hm⟩
  · intro w hw
    have hl := hsp.len w hw
    obtain ⟨vs, hvs, hm, hun⟩ := hsp.witness w hw
    obtain ⟨d, rfl⟩ := List.length_eq_one_iff.1 hl
    cases hvs with
    | @cons v _ _ _ hv hn =>
    cases hn
    simp [DMs] at hm
    refine ⟨d, v, rfl, hv, hm, ?_⟩
    intro a ha hg hma
    obtain ⟨d', e, _⟩ := fromHir_wt (ht a ha)
    obtain ⟨r, hr, e'⟩ := hs3 a (by simp [ha, hg])
    simp [e] at e'; subst e'
    exact hun [d'] hr (by simpa [DMs] using matches_excl (ht a ha) hv e hma)

/-! ### C01 -/

/-- C01, proved part: an accepted match has, for every value of the scrutinee type, an unguarded
arm whose pattern matches it, provided the arms contain no integer literal and the type has no
`clock`/`tri`/`memory`/`inout` component.  Missing: both provisos; the theorems
`C01_counterexample_*` show the full statement is false without them. -/
theorem C01_accepted_exhaustive_partial {ty : Ty} {arms : List Arm}
    (ht : ∀ a ∈ arms, PatTy a.1 ty) (hev : NoEnumView ty) (hno : NoOpaque ty)
    (hlit : ∀ a ∈ arms, NoIntLit a.1) (hacc : checkMatch ty arms = some []) :
    Exhaustive ty arms := by
  obtain ⟨ws, h1, h2, _⟩ := checkMatch_spec hev ht
  rw [h1] at hacc; cases hacc
  intro v hv
  obtain ⟨a, ha, hg, hm⟩ := h2 rfl hno v hv
  exact ⟨a, ha, hg, loose_exact _ _ (hlit a ha) hm⟩

/-- C01 with integer literals: an accepted match covers every value as long as each literal `z`
is allowed to match `z` and `z + 1`. -/
theorem C01_accepted_loosely_exhaustive_partial {ty : Ty} {arms : List Arm}
    (ht : ∀ a ∈ arms, PatTy a.1 ty) (hev : NoEnumView ty) (hno : NoOpaque ty)
    (hacc : checkMatch ty arms = some []) :
    ∀ v, HasTy v ty → ∃ a ∈ arms, a.2 = false ∧ MatchesLoose a.1 v := by
  obtain ⟨ws, h1, h2, _⟩ := checkMatch_spec hev ht
  rw [h1] at hacc; cases hacc
  exact h2 rfl hno

/-- The arms `(true, Some(_))`, `(_, None)`, `(false, _)` over `(bool, Option)`. -/
def exTy : Ty := .tuple [.bool, .enum [[], [.uint 8]]]
/-- See `exTy`. -/
def exArms : List Arm :=
  [(.tuple exTy [.bool .bool true, .variant (.enum [[], [.uint 8]]) 1 [.bound (.uint 8)]], false),
   (.tuple exTy [.bound .bool, .variant (.enum [[], [.uint 8]]) 0 []], false),
   (.tuple exTy [.bool .bool false, .bound (.enum [[], [.uint 8]])], false)]

theorem exArms_typed : ∀ a ∈ exArms, PatTy a.1 exTy := by
  intro a ha
  simp [exArms] at ha
  rcases ha with rfl | rfl | rfl
  · exact .tuple (.cons .bool (.cons (.variant (ts := [.uint 8]) rfl (.cons .bound .nil)) .nil))
  · exact .tuple (.cons .bound (.cons (.variant (ts := []) rfl .nil) .nil))
  · exact .tuple (.cons .bool (.cons .bound .nil))

/-- The hypotheses of `C01_accepted_exhaustive_partial` hold of a three-armed match. -/
example : (∀ a ∈ exArms, PatTy a.1 exTy) ∧ NoEnumView exTy ∧ NoOpaque exTy ∧
    (∀ a ∈ exArms, NoIntLit a.1) := by
  refine ⟨exArms_typed, ?_, ?_, ?_⟩
  · simp [exTy, NoEnumView, NoEnumViews, NoEnumViewss]
  · simp [exTy, NoOpaque, NoOpaques, NoOpaquess]
  · intro a ha; simp [exArms] at ha
    rcases ha with rfl | rfl | rfl <;> simp [NoIntLit, NoIntLits]

/-- `match (x: uint<1>) { 0 => … }` is accepted although 1 is not matched. -/
theorem C01_counterexample_literal :
    checkMatch (.uint 1) [(.int (.uint 1) 0, false)] = some [] ∧
    PatTy (.int (.uint 1) 0) (.uint 1) ∧
    ¬ Exhaustive (.uint 1) [(.int (.uint 1) 0, false)] := by
  refine ⟨?_, .uint, ?_⟩
  · match_eval
  · intro h
    obtain ⟨a, ha, _, hm⟩ := h (.int 1) (.uint (by omega) (by simp [uintMax]))
    simp at ha; subst ha; simp [Matches] at hm

/-- `match (x: uint<2>) { 0 => …, 2 => … }` is accepted although 1 and 3 are not matched. -/
theorem C01_counterexample_literal_pair :
    checkMatch (.uint 2) [(.int (.uint 2) 0, false), (.int (.uint 2) 2, false)] = some [] ∧
    ¬ Exhaustive (.uint 2) [(.int (.uint 2) 0, false), (.int (.uint 2) 2, false)] := by
  refine ⟨?_, ?_⟩
  · match_eval
  · intro h
    obtain ⟨a, ha, _, hm⟩ := h (.int 3) (.uint (by omega) (by simp [uintMax]))
    simp at ha; rcases ha with rfl | rfl <;> simp [Matches] at hm

/-- A match on `(clock, bool)` with the single arm `(_, true)` is accepted. -/
theorem C01_counterexample_clock :
    checkMatch (.tuple [.sealed, .bool])
      [(.tuple (.tuple [.sealed, .bool]) [.bound .sealed, .bool .bool true], false)] = some [] ∧
    ¬ Exhaustive (.tuple [.sealed, .bool])
      [(.tuple (.tuple [.sealed, .bool]) [.bound .sealed, .bool .bool true], false)] := by
  refine ⟨?_, ?_⟩
  · match_eval
  · intro h
    obtain ⟨a, ha, _, hm⟩ := h (.tup [.opq, .bool false])
      (.tuple (.cons .sealed (.cons .bool .nil)))
    simp at ha; subst ha; simp [Matches, MatchesAll] at hm

/-! ### C02 -/

/-- C02: an exhaustive match is never rejected, and what the checker reports otherwise is right:
if the arms are well typed, either the match is accepted or there is a value of the scrutinee
type that no unguarded arm matches.  Missing from the full claim: types that contain a copy view
of an enum (see `C03_counterexample_copyView`). -/
theorem C02_exhaustive_accepted_partial {ty : Ty} {arms : List Arm}
    (ht : ∀ a ∈ arms, PatTy a.1 ty) (hev : NoEnumView ty) (hex : Exhaustive ty arms) :
    checkMatch ty arms = some [] := by
  obtain ⟨ws, h1, _, h3⟩ := checkMatch_spec hev ht
  cases ws with
  | nil => exact h1
  | cons w ws =>
    obtain ⟨d, v, _, hv, _, hun⟩ := h3 w (by simp)
    obtain ⟨a, ha, hg, hm⟩ := hex v hv
    exact absurd hm (hun a ha hg)

/-- C02, the rejection side: every reported witness describes (with integer ranges read as the
diagnostic prints them, both ends included) at least one value of the type that no unguarded arm
matches. -/
theorem C02_witness_real_partial {ty : Ty} {arms : List Arm} {ws : List Witness}
    (ht : ∀ a ∈ arms, PatTy a.1 ty) (hev : NoEnumView ty) (hrej : checkMatch ty arms = some ws)
    (w : Witness) (hw : w ∈ ws) :
    ∃ d v, w = [d] ∧ HasTy v ty ∧ DM Incl d v ∧
      ∀ a ∈ arms, a.2 = false → ¬ Matches a.1 v := by
  obtain ⟨ws', h1, _, h3⟩ := checkMatch_spec hev ht
  rw [h1] at hrej; cases hrej
  exact h3 w hw

theorem exArms_exhaustive : Exhaustive exTy exArms := by
  intro v hv
  cases hv with
  | tuple h =>
  cases h with
  | cons h1 h =>
  cases h with
  | cons h2 h =>
  cases h
  cases h1 with
  | @bool b =>
  cases h2 with
  | @enum i vs _ ts hi hvs =>
  cases b with
  | false => exact ⟨_, by simp [exArms]; right; right; rfl, rfl, by simp [Matches, MatchesAll]⟩
  | true =>
    match i, hi with
    | 0, hi =>
      simp at hi; subst hi; cases hvs
      exact ⟨_, by simp [exArms]; right; left; rfl, rfl, by simp [Matches, MatchesAll]⟩
    | 1, hi =>
      simp at hi; subst hi
      cases hvs with
      | cons _ hvs =>
      cases hvs
      exact ⟨_, by simp [exArms]; left; rfl, rfl, by simp [Matches, MatchesAll]⟩

/-- The hypotheses of C02 are met, and its conclusion is what the model computes. -/
example : checkMatch exTy exArms = some [] :=
  C02_exhaustive_accepted_partial exArms_typed
    (by simp [exTy, NoEnumView, NoEnumViews, NoEnumViewss]) exArms_exhaustive

/-! ### C03 -/

/-- C03: on well-typed arms the checker terminates without panicking.  (Termination is part of
`isUseful` being a total function; `some` says no panic is reached.)  Missing: types with a copy
view of an enum, and the extra diagnostic pass for guarded arms, which can panic. -/
theorem C03_checker_total_partial {ty : Ty} {arms : List Arm}
    (ht : ∀ a ∈ arms, PatTy a.1 ty) (hev : NoEnumView ty) :
    ∃ ws, checkMatch ty arms = some ws := by
  obtain ⟨ws, h1, _⟩ := checkMatch_spec hev ht
  exact ⟨ws, h1⟩

example : ∃ ws, checkMatch exTy exArms = some ws :=
  C03_checker_total_partial exArms_typed (by simp [exTy, NoEnumView, NoEnumViews, NoEnumViewss])

/-- Matching on a copy view of an enum makes the checker panic, even with one `_` arm. -/
theorem C03_counterexample_copyView :
    checkMatch (.copyView (.enum [[], []])) [(.bound (.copyView (.enum [[], []])), false)] = none ∧
    PatTy (.bound (.copyView (.enum [[], []]))) (.copyView (.enum [[], []])) := by
  refine ⟨?_, .bound⟩
  match_eval

/-- The scrutinee type of `C03_counterexample_guard`. -/
def guardTy : Ty := .tuple [.int 8, .bool]
/-- `(x, true) => …, (y, z) if c => …`. -/
def guardArms : List Arm :=
  [(.tuple guardTy [.bound (.int 8), .bool .bool true], false),
   (.tuple guardTy [.bound (.int 8), .bound .bool], true)]

/-- `match (x: (int<8>, bool)) { (x, true) => …, (y, z) if c => … }` is not exhaustive; the
check finds that, and the pass that wants to explain it panics. -/
theorem C03_counterexample_guard :
    (∃ w ws, checkMatch guardTy guardArms = some (w :: ws)) ∧
    diagnoseGuards guardTy guardArms = none := by
  constructor
  · rw [guardTy, guardArms]; match_eval
  · rw [guardTy, guardArms]; match_eval

/-! ### C04 -/

theorem patTy_ty : ∀ {p t}, PatTy p t → p.ty = t
  | _, _, h => by cases h <;> rfl

mutual
theorem trivially_iff : ∀ p : Pat, triviallyIrrefutable p = false ↔ HasLit p
  | .int _ _ => by simp [triviallyIrrefutable, HasLit]
  | .bool _ _ => by simp [triviallyIrrefutable, HasLit]
  | .bound _ => by simp [triviallyIrrefutable, HasLit]
  | .boundInner _ p => by simpa [triviallyIrrefutable, HasLit] using trivially_iff p
  | .tuple _ ps => by simpa [triviallyIrrefutable, HasLit] using triviallys_iff ps
  | .array _ ps => by simpa [triviallyIrrefutable, HasLit] using triviallys_iff ps
  | .struct _ ps => by simpa [triviallyIrrefutable, HasLit] using triviallys_iff ps
  | .variant _ _ ps => by simpa [triviallyIrrefutable, HasLit] using triviallys_iff ps
theorem triviallys_iff : ∀ ps : List Pat, allTriviallyIrrefutable ps = false ↔ HasLits ps
  | [] => by simp [allTriviallyIrrefutable, HasLits]
  | p :: ps => by
    have h1 := trivially_iff p
    have h2 := triviallys_iff ps
    simp only [allTriviallyIrrefutable, HasLits]
    cases h : triviallyIrrefutable p <;> simp_all
end

mutual
theorem trivially_matches : ∀ {p t}, PatTy p t → ¬ HasLit p → NoMultiVariant p →
    ∀ {v}, HasTy v t → Matches p v
  | _, _, .int, h, _, _, _ => by simp [HasLit] at h
  | _, _, .uint, h, _, _, _ => by simp [HasLit] at h
  | _, _, .bool, h, _, _, _ => by simp [HasLit] at h
  | _, _, .bound, _, _, _, _ => by simp [Matches]
  | _, _, .boundInner h, hl, hm, _, hv => by
    simpa [Matches] using trivially_matches h (by simpa [HasLit] using hl)
      (by simpa [NoMultiVariant] using hm) hv
  | _, _, .tuple h, hl, hm, _, .tuple hv => by
    simpa [Matches] using triviallys_matches h (by simpa [HasLit] using hl)
      (by simpa [NoMultiVariant] using hm) hv
  | _, _, .struct h, hl, hm, _, .struct hv => by
    simpa [Matches] using triviallys_matches h (by simpa [HasLit] using hl)
      (by simpa [NoMultiVariant] using hm) hv
  | _, _, .array h, hl, hm, _, .array hv => by
    simpa [Matches] using triviallys_matches h (by simpa [HasLit] using hl)
      (by simpa [NoMultiVariant] using hm) hv
  | _, _, .variant hi h, hl, hm, _, .enum hj hv => by
    simp only [NoMultiVariant] at hm
    obtain ⟨⟨ts, e⟩, hm⟩ := hm
    cases e
    obtain ⟨hi', _⟩ := List.getElem?_eq_some_iff.1 hi
    obtain ⟨hj', _⟩ := List.getElem?_eq_some_iff.1 hj
    simp only [List.length_singleton, Nat.lt_one_iff] at hi' hj'
    subst hi' hj'
    rw [hi] at hj; cases hj
    simpa [Matches] using triviallys_matches h (by simpa [HasLit] using hl) hm hv
theorem triviallys_matches : ∀ {ps ts}, PatTys ps ts → ¬ HasLits ps → NoMultiVariants ps →
    ∀ {vs}, HasTys vs ts → MatchesAll ps vs
  | _, _, .nil, _, _, _, .nil => by simp [MatchesAll]
  | _, _, .cons h hs, hl, hm, _, .cons hv hvs => by
    simp only [HasLits, not_or] at hl; simp only [NoMultiVariants] at hm
    exact ⟨trivially_matches h hl.1 hm.1 hv, triviallys_matches hs hl.2 hm.2 hvs⟩
end

theorem checkIrrefutable_eq {p : Pat} {t : Ty} (ht : PatTy p t) (hl : HasLit p) :
    checkIrrefutable p = (checkMatch t [(p, false)]).map (·.isEmpty) := by
  obtain ⟨d, e, _⟩ := fromHir_wt ht
  have : triviallyIrrefutable p = false := (trivially_iff p).2 hl
  simp [checkIrrefutable, checkMatch, this, e, patTy_ty ht, Option.map_eq_bind]
  rfl

/-- C04, proved part: a pattern accepted in a `let`, `reg` or parameter position matches every
value of its type, provided it has no integer literal, the type has no clock-like component, and
it is not a literal-free pattern that tests for one of several enum variants.  Missing: these
provisos, without which the claim is false (`C04_counterexample_*`). -/
theorem C04_accepted_irrefutable_partial {p : Pat} {t : Ty} (ht : PatTy p t) (hev : NoEnumView t)
    (hno : NoOpaque t) (hlit : NoIntLit p) (hvar : HasLit p ∨ NoMultiVariant p)
    (hacc : checkIrrefutable p = some true) : Irrefutable p t := by
  by_cases hl : HasLit p
  · rw [checkIrrefutable_eq ht hl] at hacc
    simp at hacc
    obtain ⟨v, hv⟩ : ∃ ws, ws = ([] : List Witness) ∧ checkMatch t [(p, false)] = some ws :=
      ⟨[], rfl, by simpa using hacc⟩
    have := C01_accepted_exhaustive_partial (arms := [(p, false)])
      (by simpa using ht) hev hno (by simpa using hlit) (by rw [hv.2, hv.1])
    intro v hv
    obtain ⟨a, ha, _, hm⟩ := this v hv
    simp at ha; subst ha; exact hm
  · exact fun v hv => trivially_matches ht hl (hvar.resolve_left hl) hv

/-- C04, converse: a pattern that matches every value of its type is accepted. -/
theorem C04_irrefutable_accepted_partial {p : Pat} {t : Ty} (ht : PatTy p t) (hev : NoEnumView t)
    (hir : Irrefutable p t) : checkIrrefutable p = some true := by
  by_cases hl : HasLit p
  · rw [checkIrrefutable_eq ht hl]
    rw [C02_exhaustive_accepted_partial (arms := [(p, false)]) (by simpa using ht) hev]
    · rfl
    · intro v hv; exact ⟨_, by simp; rfl, rfl, hir v hv⟩
  · have : triviallyIrrefutable p = true := by
      cases h : triviallyIrrefutable p with
      | true => rfl
      | false => exact absurd ((trivially_iff p).1 h) hl
    simp [checkIrrefutable, this]

/-- The pattern `(a, [b, c])` of type `(int<8>, [bool; 2])`. -/
def exIrr : Pat := .tuple (.tuple [.int 8, .array .bool 2])
  [.bound (.int 8), .array (.array .bool 2) [.bound .bool, .bound .bool]]

/-- The hypotheses of `C04_accepted_irrefutable_partial` are met by `(a, [b, c])`. -/
example : PatTy exIrr (.tuple [.int 8, .array .bool 2]) ∧ NoIntLit exIrr ∧ NoMultiVariant exIrr ∧
    checkIrrefutable exIrr = some true := by
  refine ⟨.tuple (.cons .bound (.cons (.array (.cons .bound (.cons .bound .nil))) .nil)), ?_, ?_, ?_⟩
  · simp [exIrr, NoIntLit, NoIntLits]
  · simp [exIrr, NoMultiVariant, NoMultiVariants]
  · rw [exIrr]; match_eval

/-- `let Some(x) = opt;` is accepted although `None` does not match. -/
theorem C04_counterexample_variant :
    checkIrrefutable (.variant (.enum [[], [.int 8]]) 1 [.bound (.int 8)]) = some true ∧
    PatTy (.variant (.enum [[], [.int 8]]) 1 [.bound (.int 8)]) (.enum [[], [.int 8]]) ∧
    ¬ Irrefutable (.variant (.enum [[], [.int 8]]) 1 [.bound (.int 8)]) (.enum [[], [.int 8]]) := by
  refine ⟨by match_eval, .variant (ts := [.int 8]) rfl (.cons .bound .nil), ?_⟩
  intro h
  have := h (.variant 0 []) (.enum (ts := []) rfl .nil)
  simp [Matches] at this

/-- `let 0 = x;` at `uint<1>` is accepted although 1 does not match. -/
theorem C04_counterexample_literal :
    checkIrrefutable (.int (.uint 1) 0) = some true ∧
    PatTy (.int (.uint 1) 0) (.uint 1) ∧ ¬ Irrefutable (.int (.uint 1) 0) (.uint 1) := by
  refine ⟨by match_eval, .uint, ?_⟩
  intro h
  have := h (.int 1) (.uint (by omega) (by simp [uintMax]))
  simp [Matches] at this

/-- `let true = b;` is rejected. -/
example : checkIrrefutable (.bool .bool true) = some false := by match_eval

end Spade.Match

import Verif.Auto.Complete

/-!
# C66: `Data` is what can be stored, `Copy` is what can be read

`T` are the declarations, `S n` the generic parameters of a declaration with their bounds. `groundConc`
turns a type into the concrete type that becomes hardware. `others` are the implementations of other
traits: that nothing but the compiler and marker.spade implements `Data` and `Copy` is an assumption.
-/

namespace Spade.Auto

open Spade.Check (TSpec TExp Impl IGen ITy trCopy Implements)
open Spade.Decl
open Spade.Infer.Spec (Base GT)

/-- The setting of the theorems: no implementation of the two traits by hand, parameters of
declarations are types, numbers, booleans or strings, and the check of the enums reported nothing. -/
structure Program (T : List TypeDecl) (k : Nat) (S : Nat → List IGen) (others : List Impl) : Prop where
  others : ∀ i ∈ others, i.trait ≠ trCopy ∧ i.trait ≠ trData
  kinds : ∀ d ∈ T, ∀ g ∈ S d.name, g.kind ≠ .any
  enums : EnumsAccepted T k

/-- C66, for `Copy`: a type that implements `Copy` has no `inv`, memory or `inout` in it, except
behind a view. -/
theorem C66_copy_can_be_read {T : List TypeDecl} {k : Nat} {S : Nat → List IGen} {others : List Impl}
    (hP : Program T k S others) {t : GT} (h : Implements (implsOf T k S others) t trCopy []) {j : Nat}
    {c : Conc} (hc : groundConc (layout T j) t = .ok c) : Fit .copy c :=
  implements_fit hP.others hP.kinds hP.enums h .copy (.inl rfl) rfl j hc

/-- C66, for `Data`: a type that implements `Data` has no `inv`, clock, `tri`, memory or `inout` in
it. Missing: declarations with views, for which it is false (`C66_counterexample_view_of_clock`). -/
theorem C66_data_can_be_stored_partial {T : List TypeDecl} {k : Nat} {S : Nat → List IGen}
    {others : List Impl} (hP : Program T k S others) (hv : ∀ d ∈ T, kindNoView d.kind = true) {t : GT}
    (h : Implements (implsOf T k S others) t trData []) {j : Nat} {c : Conc}
    (hc : groundConc (layout T j) t = .ok c) : Fit .data c :=
  implements_fit hP.others hP.kinds hP.enums h .data (.inr hv) rfl j hc

/-- C66, for enums: every value of an enum can be stored, if the types it is applied to can be (which
is a bound on the parameters of all enums). Missing: declarations with views. -/
theorem C66_enum_can_be_stored_partial {T : List TypeDecl} {k : Nat} {S : Nat → List IGen}
    {others : List Impl} (hP : Program T k S others) (hv : ∀ d ∈ T, kindNoView d.kind = true) {n : Nat}
    {d : TypeDecl} (hd : find T n = some d) {os : List (String × List (String × TSpec))}
    (hos : d.kind = .enum os) {ps : List Conc} (hps : ∀ p ∈ ps, Fit .data p) {j : Nat} {c : Conc}
    (hc : layout T j n ps = .ok c) : Fit .data c :=
  layout_fit hP.enums (.inr hv) j n 1 hc (by simp [declBad, hd, hos, kindBad]) hps

/-- C66, the converse: a type that can be stored implements `Data`, and one that can be read
implements `Copy`. Missing: tuples of more than eight members (`C66_counterexample_nine_members`),
views (`C66_counterexample_view`) and parameters that are not used
(`C66_counterexample_unused_parameter`), for which it is false. -/
theorem C66_implemented_partial {T : List TypeDecl} {k : Nat} {S : Nat → List IGen}
    {others : List Impl} {a : Auto} (hp : NoPhantom a T) {t : GT}
    (ht : Formed (implsOf T k S others) S t) (hty : ∃ l, t.head.val = .type l) {c : Conc}
    (hc : groundConc (layout T k) t = .ok c) (hf : Fit a c) :
    Implements (implsOf T k S others) t a.trait [] :=
  fit_implements hp ht hty hc hf

/-- C66, both directions. -/
theorem C66_exact_partial {T : List TypeDecl} {k : Nat} {S : Nat → List IGen}
    {others : List Impl} (hP : Program T k S others) {a : Auto} (hp : NoPhantom a T)
    (hv : a = .copy ∨ ∀ d ∈ T, kindNoView d.kind = true) {t : GT}
    (ht : Formed (implsOf T k S others) S t) (hty : ∃ l, t.head.val = .type l) {c : Conc}
    (hc : groundConc (layout T k) t = .ok c) :
    Implements (implsOf T k S others) t a.trait [] ↔ Fit a c :=
  ⟨fun h => implements_fit hP.others hP.kinds hP.enums h a hv rfl k hc,
    fun hf => fit_implements hp ht hty hc hf⟩

/-! ## Where it is false -/

/-- What has an implementation by its head. -/
theorem implements_head {T : List TypeDecl} {k : Nat} {S : Nat → List IGen} {others : List Impl}
    (ho : ∀ i ∈ others, i.trait ≠ trCopy ∧ i.trait ≠ trData) {a : Auto} {b : Base} {args : List GT}
    (h : Implements (implsOf T k S others) (.node b args) a.trait []) :
    b = .array ∨ (b = .tuple ∧ args.length < 9) ∨ ∃ n, b = .named n := by
  generalize ht : GT.node b args = t at h
  generalize htr : a.trait = tr at h
  cases h with
  | mk hi _ _ h1 _ h2 =>
    rw [← htr] at h1
    rcases implsOf_trait ho hi h1 with rfl | ⟨n, hn, rfl⟩ | ⟨d, _, _, rfl⟩
    · rw [h2] at ht
      cases ht
      exact .inl rfl
    · rw [h2, show (tupleImpl a n).args = (List.range n).map .gen from rfl, insts_range] at ht
      cases ht
      exact .inr (.inl ⟨rfl, by simpa using hn⟩)
    · rw [h2] at ht
      cases ht
      exact .inr (.inr ⟨_, rfl⟩)

/-- The arguments of a declared type that implements the trait implement it. -/
theorem implements_args {T : List TypeDecl} {k : Nat} {S : Nat → List IGen} {others : List Impl}
    (ho : ∀ i ∈ others, i.trait ≠ trCopy ∧ i.trait ≠ trData) {a : Auto} {n : Nat} {t : GT}
    {bs : List (Nat × List ITy)} (hS : S n = [⟨.type, bs⟩])
    (h : Implements (implsOf T k S others) (.node (.named n) [t]) a.trait []) :
    Implements (implsOf T k S others) t a.trait [] := by
  generalize ht : GT.node (.named n) [t] = t' at h
  generalize htr : a.trait = tr at h
  cases h with
  | @mk i σ _ _ _ hi hk hb h1 _ h2 =>
    rw [← htr] at h1
    rcases implsOf_trait ho hi h1 with rfl | ⟨n, hn, rfl⟩ | ⟨d, _, _, rfl⟩
    · rw [h2] at ht; cases ht
    · rw [h2] at ht; cases ht
    · rw [h2] at ht
      injection ht with h3 h4
      injection h3 with h3
      have hS' : S d.name = [⟨.type, bs⟩] := by
        rw [← h3]; exact hS
      have hargs : (autoImpl a d.name (S d.name)).args = [.gen 0] := by
        rw [autoImpl, hS']; rfl
      rw [hargs] at h4
      simp only [ITy.insts, ITy.inst] at h4
      injection h4 with h4 _
      rw [h4, ← htr]
      refine hb 0 ⟨.type, bs ++ [(a.trait, [])]⟩ ?_ (a.trait, []) (by simp)
      simp [autoImpl, hS', autoGens]

/-- `int<N>`, `bool`, `clock`, `struct View { c: &clock }` and `struct Unused<T> { b: bool }`. -/
def sample : List TypeDecl :=
  [⟨0, .prim "int", ["N"]⟩, ⟨1, .prim "bool", []⟩, ⟨2, .prim "clock", []⟩,
   ⟨3, .struct [("c", .copyView (.declared 2 []))], []⟩,
   ⟨4, .struct [("b", .declared 1 [])], ["T"]⟩]

/-- The parameters of these declarations. -/
def sampleGens : Nat → List IGen
  | 0 => [⟨.uint, []⟩]
  | 4 => [⟨.type, []⟩]
  | _ => []

theorem sample_program : Program sample 3 sampleGens [] where
  others := by simp
  kinds := by
    intro d hd g hg
    simp only [sample, List.mem_cons, List.not_mem_nil, or_false] at hd
    rcases hd with rfl | rfl | rfl | rfl | rfl <;> simp [sampleGens] at hg <;> simp [hg]
  enums := by
    intro d hd os hos
    simp only [sample, List.mem_cons, List.not_mem_nil, or_false] at hd
    rcases hd with rfl | rfl | rfl | rfl | rfl <;> cases hos

/-- `struct View { c: &clock }` implements `Data`, although a clock cannot be stored: the check for
witnesses does not look behind views. -/
theorem C66_counterexample_view_of_clock :
    ∃ (T : List TypeDecl) (S : Nat → List IGen), Program T 3 S [] ∧
      Implements (implsOf T 3 S []) (.node (.named 3) []) trData [] ∧
      groundConc (layout T 3) (.node (.named 3) []) =
        .ok (.struct 3 [("c", .copyView (.single "clock" []))]) ∧
      ¬ Fit .data (.struct 3 [("c", .copyView (.single "clock" []))]) := by
  refine ⟨sample, sampleGens, sample_program, ?_, rfl, ?_⟩
  · refine .mk (i := autoImpl .data 3 []) (σ := fun _ => .node .tuple []) ?_ ?_ ?_ rfl rfl rfl
    · apply auto_mem (a := .data)
      simp only [autoImpls, List.mem_filterMap]
      exact ⟨⟨3, .struct [("c", .copyView (.declared 2 []))], []⟩, by simp [sample], rfl⟩
    · intro g p hg; simp [autoImpl, autoGens] at hg
    · intro g p hg; simp [autoImpl, autoGens] at hg
  · intro h
    cases h with
    | struct h =>
      have := h _ (List.mem_singleton.mpr rfl)
      cases this with
      | readView h => cases h
      | view h =>
        cases h with
        | single h _ => simp [Auto.prims] at h

/-- A tuple of nine booleans can be stored but does not implement `Data`: marker.spade stops at
eight. -/
theorem C66_counterexample_nine_members :
    ∃ (T : List TypeDecl) (S : Nat → List IGen) (t : GT) (c : Conc), Program T 3 S [] ∧
      groundConc (layout T 3) t = .ok c ∧ Fit .data c ∧
      ¬ Implements (implsOf T 3 S []) t trData [] := by
  refine ⟨sample, sampleGens, .node .tuple (List.replicate 9 (.node (.named 1) [])),
    .tuple (List.replicate 9 (.single "bool" [])), sample_program, rfl, ?_, ?_⟩
  · refine .tuple (fun c hc => ?_)
    obtain ⟨_, rfl⟩ := List.mem_replicate.mp hc
    exact .single (by simp [Auto.prims]) (by simp)
  · intro h
    rcases implements_head (a := .data) (by simp) h with h | ⟨_, h⟩ | ⟨n, h⟩
    · cases h
    · simp at h
    · cases h

/-- A view `&bool` can be read and stored but implements neither `Copy` nor `Data`. So a view of a
view cannot be read through. -/
theorem C66_counterexample_view :
    ∃ (T : List TypeDecl) (S : Nat → List IGen) (t : GT) (c : Conc), Program T 3 S [] ∧
      groundConc (layout T 3) t = .ok c ∧ (∀ a, Fit a c) ∧
      ∀ a : Auto, ¬ Implements (implsOf T 3 S []) t a.trait [] := by
  refine ⟨sample, sampleGens, .node .copyView [.node (.named 1) []],
    .copyView (.single "bool" []), sample_program, rfl, fun a => ?_, fun a h => ?_⟩
  · refine .view (.single ?_ (by simp))
    cases a <;> simp [Auto.prims]
  · rcases implements_head (by simp) h with h | ⟨h, _⟩ | ⟨n, h⟩ <;> cases h

/-- `struct Unused<T> { b: bool }` applied to `inv bool` is one bit that can be stored, but does not
implement `Data`: the implementation asks for it of every parameter. -/
theorem C66_counterexample_unused_parameter :
    ∃ (T : List TypeDecl) (S : Nat → List IGen) (t : GT) (c : Conc), Program T 3 S [] ∧
      groundConc (layout T 3) t = .ok c ∧ Fit .data c ∧
      ¬ Implements (implsOf T 3 S []) t trData [] := by
  refine ⟨sample, sampleGens, .node (.named 4) [.node .inverted [.node (.named 1) []]],
    .struct 4 [("b", .single "bool" [])], sample_program, rfl, ?_, ?_⟩
  · refine .struct (fun m hm => ?_)
    simp only [List.mem_singleton] at hm
    subst hm
    exact .single (by simp [Auto.prims]) (by simp)
  · intro h
    have := implements_args (a := .data) (by simp) (bs := []) rfl h
    rcases implements_head (by simp) this with h | ⟨h, _⟩ | ⟨n, h⟩ <;> cases h

end Spade.Auto

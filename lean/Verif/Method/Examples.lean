import Verif.Method.Props
/-!
# Examples and counterexamples for method resolution (C49)
-/
namespace Spade.Method
open Spade.Impl

/-- No aliases. -/
def noAl : Nat → Option TySpec := fun _ => none

/-- `struct X {}` is 0, `struct Opt<T>` is 1, `uint` is 2. -/
def exSig : Sig where
  gen := fun _ => .type
  params := fun n => if n = 1 then [.type] else if n = 2 then [.int] else []
  traitParams := fun _ => []

/-- `impl X { fn a(&self) }`, `impl Tr for X { fn a(self) fn b(self) }`,
`impl<T> Opt<T> { fn a(self) }`, `impl Tr for Opt<uint<8>> { fn b(&self) fn new() }`. -/
def exBlocks : List Block := [
  ⟨.anonymous 0, .declared 0 [], [(0, ⟨10, .copyView⟩)]⟩,
  ⟨.named 0, .declared 0 [], [(0, ⟨11, .value⟩), (1, ⟨12, .value⟩)]⟩,
  ⟨.anonymous 1, .declared 1 [.spec (.generic 0)], [(0, ⟨13, .value⟩)]⟩,
  ⟨.named 0, .declared 1 [.spec (.declared 2 [.int 8])], [(1, ⟨14, .copyView⟩), (2, ⟨15, .static⟩)]⟩]

theorem example_accepted : Accepted noAl exBlocks where
  heads := by
    intro b hb
    simp only [exBlocks, List.mem_cons, List.not_mem_nil, or_false] at hb
    rcases hb with rfl | rfl | rfl | rfl <;>
      simp [HeadS, HeadEs, HeadE, PlainS, PlainEs, PlainE, key, noAl]
  linear := by
    intro b hb
    simp only [exBlocks, List.mem_cons, List.not_mem_nil, or_false] at hb
    rcases hb with rfl | rfl | rfl | rfl <;> simp [gensS, gensEs, gensE]
  names := by
    intro b hb
    simp only [exBlocks, List.mem_cons, List.not_mem_nil, or_false] at hb
    rcases hb with rfl | rfl | rfl | rfl <;> simp
  units := by simp [exBlocks]
  unique := by
    intro target
    simp only [unique, exBlocks, List.filter, TraitName.isAnonymous, key]
    by_cases h0 : target = .named 0
    · subst h0; rfl
    · by_cases h1 : target = .named 1
      · subst h1; rfl
      · have e0 : ¬ (some (Target.named 0) = some target) := fun h => h0 (Option.some.inj h).symm
        have e1 : ¬ (some (Target.named 1) = some target) := fun h => h1 (Option.some.inj h).symm
        simp [e0, e1, uniqueBlocks]

/-- `x.a()` with `x: X` is the method of the type itself and takes a view; on a view it takes the
view as it is; `x.b()` is the method of the trait and dereferences a view. -/
theorem example_selects :
    select exBlocks (.named 0 []) 0 true = .ok ⟨10, .copyView⟩ 1 ∧
    select exBlocks (.copyView (.named 0 [])) 0 true = .ok ⟨10, .copyView⟩ 0 ∧
    select exBlocks (.copyView (.named 0 [])) 1 true = .ok ⟨12, .value⟩ (-1) ∧
    select exBlocks (.named 1 [.unknown 0]) 0 true = .ok ⟨13, .value⟩ 0 ∧
    select exBlocks (.named 1 [.unknown 0]) 1 true = .wait ∧
    select exBlocks (.named 1 [.named 2 [.int 8]]) 1 true = .ok ⟨14, .copyView⟩ 1 ∧
    select exBlocks (.named 1 [.named 2 [.int 9]]) 1 true = .bad .noSuch ∧
    select exBlocks (.named 1 [.named 2 [.int 8]]) 2 true = .bad .static ∧
    select exBlocks (.named 1 [.named 2 [.int 8]]) 2 false = .ok ⟨15, .static⟩ 0 := by
  refine ⟨?_, ?_, ?_, ?_, ?_, ?_, ?_, ?_, ?_⟩ <;> decide

/-- The hypotheses of `C49_resolves` are met: `a` on `Opt<_>` means the method of `Opt` whatever the
parameter is. -/
example (τ : Nat → Con) : Means noAl exBlocks (.named 1 [τ 0]) 0 ⟨13, .value⟩ :=
  (C49_resolves noAl exBlocks example_accepted (.named 1 [.unknown 0]) 0 true _ _
    example_selects.2.2.2.1 τ (.named 1 [τ 0]) (.named (.cons (.unknown rfl) .nil))).1

/-- The hypotheses of `C49_decides` and `C49_stable` are met. -/
example : (∀ b ∈ exBlocks, WKS exSig b.target) ∧
    (RTy.refine (fun _ => .named 2 [.int 8]) (.named 1 [.unknown 0])).WK exSig (fun _ => .type) := by
  constructor
  · intro b hb
    simp only [exBlocks, List.mem_cons, List.not_mem_nil, or_false] at hb
    rcases hb with rfl | rfl | rfl | rfl <;>
      simp [WKS, WKEs, WKE, exSig, TyExpr.kind, TySpec.kind]
  · simp [RTy.refine, refines, RTy.WK, WKs, exSig, RTy.kind]

/-- The outcome depends on the order of inference for views of types that are not known yet: the call
is rejected, although it resolves once the type is known (for a type that is not known at all the
caller waits, spade-typeinference/src/requirements.rs:275-300). -/
theorem C49_counterexample_view :
    select exBlocks (.copyView (.unknown 0)) 0 true = .bad .noMethods ∧
    select exBlocks ((RTy.copyView (.unknown 0)).refine fun _ => .named 0 []) 0 true =
      .ok ⟨10, .copyView⟩ 0 := by
  refine ⟨?_, ?_⟩ <;> decide

/-- With a generic that occurs twice, `impl<T> Tr0 for (T, T) { fn a(self) }` counts as a candidate
for `(X, Opt<X>)`, so a call of the `a` of `impl Tr1 for (X, Opt<X>)` is rejected as ambiguous although
only that block applies. -/
theorem C49_counterexample_nonlinear :
    let blocks : List Block := [
      ⟨.named 0, .tuple [.generic 0, .generic 0], [(0, ⟨10, .value⟩)]⟩,
      ⟨.named 1, .tuple [.declared 0 [], .declared 1 [.spec (.declared 0 [])]], [(0, ⟨11, .value⟩)]⟩]
    Means noAl blocks (.tuple [.named 0 [], .named 1 [.named 0 []]]) 0 ⟨11, .value⟩ ∧
    select blocks (.tuple [.named 0 [], .named 1 [.named 0 []]]) 0 true = .bad .ambiguous := by
  refine ⟨.trait (List.mem_cons_of_mem _ (List.mem_singleton.2 rfl)) ⟨⟨fun _ => .bool true, ?_⟩, ?_⟩ ?_,
    by decide⟩
  · exact .tuple (.cons (.named rfl .nil) (.cons (.named rfl (.cons (.spec (.named rfl .nil)) .nil)) .nil))
  · simp
  · intro b' hb' f' ho'
    simp only [List.mem_cons, List.not_mem_nil, or_false] at hb'
    rcases hb' with rfl | rfl
    · obtain ⟨⟨σ, hs⟩, _⟩ := ho'
      generalize hc : Con.tuple [.named 0 [], .named 1 [.named 0 []]] = c at hs
      cases hs with
      | tuple h =>
        cases h with
        | cons h1 h2 => cases h2 with
          | cons h2 h3 =>
            simp only [Con.tuple.injEq, List.cons.injEq] at hc
            obtain ⟨e1, e2, _⟩ := hc
            cases h1
            cases h2
            rw [← e1] at e2
            simp at e2
    · obtain ⟨_, hf⟩ := ho'
      simp at hf
      exact hf

/-- Two blocks `impl S<true> { fn a(self) }` are accepted, and a call silently takes the first. -/
theorem C49_counterexample_bool :
    let blocks : List Block := [⟨.anonymous 0, .declared 0 [.bool true], [(0, ⟨10, .value⟩)]⟩,
      ⟨.anonymous 1, .declared 0 [.bool true], [(0, ⟨11, .value⟩)]⟩]
    (∀ target, unique blocks target = some true) ∧
    (∀ b ∈ blocks, b.AppliesTo noAl (.named 0 [.bool true])) ∧
    select blocks (.named 0 [.bool true]) 0 true = .ok ⟨10, .value⟩ 0 := by
  refine ⟨?_, ?_, by decide⟩
  · intro target
    simp only [unique, List.filter, TraitName.isAnonymous, key]
    by_cases h0 : target = .named 0
    · subst h0
      simp [uniqueBlocks, uniqueFns, specsOverlap, exprsAllOverlap, exprsOverlap, andThen]
    · have e0 : ¬ (some (Target.named 0) = some target) := fun h => h0 (Option.some.inj h).symm
      simp [e0, uniqueBlocks]
  · intro b hb
    simp only [List.mem_cons, List.not_mem_nil, or_false] at hb
    rcases hb with rfl | rfl <;>
      exact ⟨fun _ => .bool true, .named rfl (.cons (.bool _) .nil)⟩

/-- `impl &X { fn a(self) }` is a legal block that applies to `&X`, but a call of `a` on a `&X` is
rejected: only blocks for the base type are looked at. -/
theorem C49_counterexample_impl_for_view :
    let blocks : List Block := [⟨.anonymous 0, .copyView (.declared 0 []), [(0, ⟨10, .value⟩)]⟩]
    Offers noAl (blocks.headD ⟨.named 0, .wildcard, []⟩) (.copyView (.named 0 [])) 0 ⟨10, .value⟩ ∧
    select blocks (.copyView (.named 0 [])) 0 true = .bad .noSuch :=
  ⟨⟨⟨fun _ => .bool true, .copyView (.named rfl .nil)⟩, by simp⟩, by decide⟩

/-- A target in which parameters with a default are omitted (which is legal,
spade-ast-lowering/src/lib.rs:403-409) never matches: with `struct S<A, B = X>` and
`impl S<X> { fn a(self) }`, calls of `a` on an `S<X, X>` are rejected. -/
theorem C49_counterexample_default :
    select [⟨.anonymous 0, .declared 5 [.spec (.declared 0 [])], [(0, ⟨10, .value⟩)]⟩]
      (.named 5 [.named 0 [], .named 0 []]) 0 true = .bad .noSuch := by decide

/-- A parameter that is erroneous makes the compiler panic where the target has a number. -/
theorem C49_counterexample_error :
    select [⟨.anonymous 0, .declared 2 [.int 8], [(0, ⟨10, .value⟩)]⟩] (.named 2 [.error]) 0 true =
      .panic := by decide

end Spade.Method

import Verif.Units.Props
/-! Where C72 fails, and that the hypotheses of its theorem can be met. -/
namespace Spade.Units

open Spade.Mono Spade.Mono.Spec

/-- `#[no_mangle] entity f(x: impl T)`. -/
def exHidden : Decl := ⟨2, [.named ['f']], ['f'], none, none, 1, true, false⟩

/-- `#[no_mangle]` is accepted on a unit with `impl Trait` in its inputs, because only the written
parameters are checked (spade-ast-lowering/src/lib.rs:1344-1373).  All modules made of it are called `f`, and
its instances ask for `f[7]`. -/
theorem C72_counterexample_hidden_parameter : ∃ u, unitName exHidden = some u ∧
    (renamed 7 u).text = ['f'] ∧ (renamed 8 u).text = ['f'] ∧
    (instanceName exHidden u 7).text = ['f', '[', '7', ']'] :=
  ⟨.unmangled ['f'] 2 [.named ['f']], by decide, by decide, by decide, by decide⟩

/-- Two units with `#[no_mangle]` in different modules, or one and a unit outside of all modules, get the same
name. -/
theorem C72_counterexample_same_name :
    let d : Decl := ⟨0, [.named ['a'], .named ['x']], ['x'], none, none, 0, true, false⟩
    let e : Decl := ⟨1, [.named ['b'], .named ['x']], ['x'], none, none, 0, true, false⟩
    let f : Decl := ⟨2, [.named ['x']], ['x'], none, none, 0, false, false⟩
    d.path ≠ e.path ∧ (unitName d).map UnitName.text = some ['x'] ∧
      (unitName e).map UnitName.text = some ['x'] ∧ (unitName f).map UnitName.text = some ['x'] := by
  decide

/-- The units of `exampleProg`: 0 has `#[no_mangle]`, 1 is a branch of a `gen if`, 2 has a parameter of its own, and 3 is in a
generic `impl` block. -/
def exDecls : List Decl :=
  [⟨0, [.named ['m'], .named ['t']], ['t'], none, none, 0, true, false⟩,
   ⟨1, [.named ['m'], .named ['t'], .ifT], ['t'], none, none, 0, false, true⟩,
   ⟨2, [.named ['m'], .named ['g']], ['g'], some 1, none, 0, false, false⟩,
   ⟨3, [.named ['m'], .impl 4, .named ['g']], ['g'], none, some 1, 0, false, false⟩]

theorem exProgram : Program exampleProg exDecls where
  ids := by decide
  old := by decide
  roots := by
    intro r
    simp only [exampleProg, exDecls, List.mem_cons, List.not_mem_nil, or_false]
    constructor
    · rintro (rfl | rfl)
      · exact ⟨_, .inl rfl, rfl, rfl⟩
      · exact ⟨_, .inr (.inl rfl), rfl, rfl⟩
    · rintro ⟨d, rfl | rfl | rfl | rfl, rfl, h⟩
      · exact .inl rfl
      · exact .inr rfl
      · exact absurd h (by decide)
      · exact absurd h (by decide)
  uses := by
    intro k k' h
    simp only [exampleProg] at h
    have hd : ∀ n, n = 2 ∨ n = 3 → ∃ d ∈ exDecls, d.id = n ∧ d.params ≠ 0 := by
      rintro n (rfl | rfl)
      · exact ⟨_, .tail _ (.tail _ (.head _)), rfl, by decide⟩
      · exact ⟨_, .tail _ (.tail _ (.tail _ (.head _))), rfl, by decide⟩
    refine hd _ ?_
    split at h
    · simp at h; rcases h with rfl | rfl | rfl <;> simp
    · split at h
      · simp at h; rw [h]; simp
      · split at h
        · simp at h; rcases h with rfl | rfl <;> simp
        · cases h
  accepted := by decide

theorem exNamed : Named exDecls where
  name := by unfold Clean; decide
  path := by
    intro d hd
    simp only [exDecls, List.mem_cons, List.not_mem_nil, or_false] at hd
    rcases hd with rfl | rfl | rfl | rfl <;> simp [Clean]
  distinct := by decide

theorem exNoClash : NoClash exDecls := by unfold NoClash; decide

theorem exampleProg_ends : ∃ s, Reachable exampleProg s ∧ Final s := by
  have hid : ∀ r ∈ exampleProg.roots, r < exampleProg.firstId := by decide
  have hreq : ∀ k, Requested exampleProg k →
      k ∈ ([⟨0, []⟩, ⟨1, []⟩, ⟨2, [7]⟩, ⟨2, [8]⟩, ⟨3, [8]⟩] : List (Key Nat)) := by
    intro k hk
    induction hk with
    | @root s hs =>
      rcases List.mem_cons.1 hs with rfl | hs
      · decide
      · rw [List.mem_singleton.1 hs]
        decide
    | @use k k' _ hu ih =>
      have : ∀ k ∈ ([⟨0, []⟩, ⟨1, []⟩, ⟨2, [7]⟩, ⟨2, [8]⟩, ⟨3, [8]⟩] : List (Key Nat)),
          ∀ k' ∈ exampleProg.uses k,
          k' ∈ ([⟨0, []⟩, ⟨1, []⟩, ⟨2, [7]⟩, ⟨2, [8]⟩, ⟨3, [8]⟩] : List (Key Nat)) := by decide
      exact this k ih k' hu
  obtain ⟨s, hs, hf⟩ := C32_every_run_can_finish exampleProg hid _ hreq _ Reachable.start
  exact ⟨s, Reachable.start.steps hs, hf⟩

/-- `C72_linked_partial`: the program has a run that ends. -/
example : ∃ s, Reachable exampleProg s ∧ Final s ∧ Linked (modules exDecls s) (Instance exDecls s) := by
  obtain ⟨s, hr, hf⟩ := exampleProg_ends
  exact ⟨s, hr, hf, C72_linked_partial exProgram exNamed exNoClash hr hf⟩

end Spade.Units

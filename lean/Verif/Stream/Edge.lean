import Verif.Stream.Run
/-! # Edge detectors (C67) -/
namespace Spade.Stream
open Spade.Codegen Spade.Lower Spade.Expr Spade.Std Spade.Entity
open Spade.Match (Val Matches HasTy)

variable {P : Prog} {num : Key → Nat} {D : Ents} {u : Nat} {ins : Inputs} {clk value : Nat → Bool}

/-- The register holds the value at the last rising edge. -/
theorem old_state {E : Ent} (hD : D u = some E) (hp : E.params = [(0, .bool), (1, .bool)])
    (hc : ∀ t, ins t 0 = some (.bool (clk t))) (hv : ∀ t, ins t 1 = some (.bool (value t))) :
    ∀ {t : Nat} {b : Bool}, sampled clk value t = some b → State P D u ins t oldReg (.bool b)
  | 0, _, h => by cases h
  | t + 1, b, h => by
    have k0 : ∀ t, Gives P D u ins t oldReg.clock (.bool (clk t)) := fun t =>
      gives_var (.input (p := (0, .bool)) (k := 0) hD (by rw [hp]; rfl) (hc t))
    have k1 : ∀ t, Gives P D u ins t oldReg.value (.bool (value t)) := fun t =>
      gives_var (.input (p := (1, .bool)) (k := 1) hD (by rw [hp]; rfl) (hv t))
    by_cases hr : rises clk t = true
    · obtain ⟨h1, h2⟩ := rises_iff hr
      simp only [sampled, hr, if_true, Option.some.injEq] at h
      subst h
      have c1 := k0 t
      have c2 := k0 (t + 1)
      rw [h1] at c1
      rw [h2] at c2
      exact .tick rfl c1 c2 (k1 t)
    · rw [Bool.not_eq_true] at hr
      simp only [sampled, hr, Bool.false_eq_true, if_false] at h
      exact state_keep k0 hr (old_state hD hp hc hv h)

theorem rising_gives (L : Lib P num) (hand : (P (num (.op (.logic .and)))).isSome)
    (hnot : (P (num (.op .not))).isSome) (hD : D u = some (risingEdge num))
    (hc : ∀ t, ins t 0 = some (.bool (clk t))) (hv : ∀ t, ins t 1 = some (.bool (value t)))
    {t : Nat} {b : Bool} (h : sampled clk value t = some b) :
    Gives P D u ins t (risingEdge num).result (.bool (value t && !b)) := by
  refine gives [(1, .bool (value t)), (2, .bool b)] ?_ ?_
  · exact ev_call (.cons (.var rfl) (.cons (ev_call (.cons (.var rfl) .nil) (not_returns L hnot)) .nil))
      (logic_returns L (l := .and) hand)
  · intro p hp
    simp only [List.mem_cons, List.not_mem_nil, or_false] at hp
    rcases hp with rfl | rfl
    · exact .input (p := (1, .bool)) (k := 1) hD rfl (hv t)
    · exact known_reg (r := oldReg) hD (by simp [risingEdge]) rfl (old_state hD rfl hc hv h)

theorem falling_gives (L : Lib P num) (hand : (P (num (.op (.logic .and)))).isSome)
    (hnot : (P (num (.op .not))).isSome) (hD : D u = some (fallingEdge num))
    (hc : ∀ t, ins t 0 = some (.bool (clk t))) (hv : ∀ t, ins t 1 = some (.bool (value t)))
    {t : Nat} {b : Bool} (h : sampled clk value t = some b) :
    Gives P D u ins t (fallingEdge num).result (.bool (!value t && b)) := by
  refine gives [(1, .bool (value t)), (2, .bool b)] ?_ ?_
  · exact ev_call (.cons (ev_call (.cons (.var rfl) .nil) (not_returns L hnot)) (.cons (.var rfl) .nil))
      (logic_returns L (l := .and) hand)
  · intro p hp
    simp only [List.mem_cons, List.not_mem_nil, or_false] at hp
    rcases hp with rfl | rfl
    · exact .input (p := (1, .bool)) (k := 1) hD rfl (hv t)
    · exact known_reg (r := oldReg) hD (by simp [fallingEdge]) rfl (old_state hD rfl hc hv h)

end Spade.Stream

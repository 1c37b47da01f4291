import Verif.Stream.Chunks
import Verif.Stream.Edge
/-! # The entities pass type inference (C67) -/
namespace Spade.Stream
open Spade.Codegen Spade.Lower Spade.Expr Spade.Std Spade.Entity
open Spade.Match (Val Matches HasTy)

variable {P : Prog} {num : Key → Nat} {D : Ents} {T : MTy} {N : Nat}

/-- What type inference guarantees for one entity. -/
def Accepted (P : Prog) (D : Ents) (E : Ent) : Prop :=
  (∀ p ∈ E.params, E.types p.1 = p.2) ∧ (∀ s ∈ E.body, s.Ok P.sig D E.types) ∧ E.result.Ok P.sig E.types

theorem bound_ok {n : Nat} {t : MTy} (h : t.size ≤ 2 ^ 32) : PatOk (.bound n t) := ⟨trivial, trivial, h⟩

theorem window_accepted (L : Lib P num) (hsf : (P (num (.shiftFront T N))).isSome)
    (his : (P (num (.op (.isSome T)))).isSome) (hT : (option T).size ≤ 2 ^ 32)
    (hA : (MTy.array T N).size ≤ 2 ^ 32) : Accepted P D (window num T N) := by
  refine ⟨?_, ?_, ?_⟩
  · intro p hp
    simp only [window, List.mem_cons, List.not_mem_nil, or_false] at hp
    rcases hp with rfl | rfl | rfl | rfl <;> rfl
  · intro s hs
    simp only [window, List.mem_cons, List.not_mem_nil, or_false] at hs
    rcases hs with rfl | rfl | rfl
    · trivial
    · refine ⟨bound_ok hA, ⟨rfl, rfl⟩, ?_, (by intro e h; cases h), ⟨rfl, rfl⟩⟩
      intro c e h
      cases h
      exact ⟨rfl, rfl, rfl, rfl, rfl⟩
    · refine ⟨rfl, bound_ok hA, ⟨rfl, hT, rfl, ⟨some_pat.1, some_pat.2, hT⟩, rfl, ?_, rfl,
        ⟨none_pat.1, none_pat.2, hT⟩, rfl, rfl, trivial⟩, trivial⟩
      exact call_ok L hsf rfl ⟨rfl, rfl, trivial⟩
  · exact ⟨rfl, rfl, rfl, call_ok L his rfl ⟨rfl, trivial⟩, ⟨⟨_, rfl, rfl⟩, rfl, trivial⟩,
      ⟨⟨_, rfl, rfl⟩, trivial⟩⟩

theorem one_ok {N : Nat} (hN : 0 < N) : InRange (.uint (bitsFor N)) 1 := by
  have := lt_bitsFor N
  have h2 : 1 < 2 ^ bitsFor N := by omega
  exact ⟨by decide, by exact_mod_cast h2⟩

theorem succ_ok {sig : Nat → Option (List MTy × MTy)} (hN : 0 < N) {Γ : Nat → MTy}
    (h3 : Γ 3 = .uint (bitsFor N)) {a b : Nat} :
    (Expr.bin a (.uint (bitsFor N + 1)) .add (.var 3 (.uint (bitsFor N)))
      (.int b (.uint (bitsFor N)) 1)).Ok sig Γ := by
  have hb := bitsFor_ne (n := N) (by omega)
  exact ⟨.addUint, hb, hb, h3, one_ok hN⟩

theorem isLast_ok (L : Lib P num) (heq : (P (num (.op (.eq (.uint (bitsFor N + 1)))))).isSome) (hN : 0 < N)
    {Γ : Nat → MTy} (h3 : Γ 3 = .uint (bitsFor N)) (id : Nat) : (isLast num id N).Ok P.sig Γ := by
  refine call_ok L heq rfl ⟨succ_ok hN h3, ?_, trivial⟩
  have := lt_bitsFor N
  have h2 : N < 2 ^ (bitsFor N + 1) := by rw [Nat.pow_succ]; omega
  exact ⟨by omega, by exact_mod_cast h2⟩

theorem chunks_accepted (L : Lib P num) (heq : (P (num (.op (.eq (.uint (bitsFor N + 1)))))).isSome)
    (hcat : (P (num (.concat T (N - 1) 1))).isSome) (hand : (P (num (.op (.logic .and)))).isSome)
    (his : (P (num (.op (.isSome T)))).isSome) (hN : 0 < N) (hT : (option T).size ≤ 2 ^ 32)
    (hA : (MTy.array T N).size ≤ 2 ^ 32) (hC : bitsFor N ≤ 2 ^ 32) {start : Expr} {ids : List (Nat × MTy)} (hf : Foldable start)
    (hn : start.names.Nodup) (ht : start.ty = .array T N)
    (hs : start.Ok P.sig (chunks num T N start ids).types) : Accepted P D (chunks num T N start ids) := by
  have hb := bitsFor_ne (n := N) (by omega)
  refine ⟨?_, ?_, ?_⟩
  · intro p hp
    simp only [chunks, List.mem_cons, List.not_mem_nil, or_false] at hp
    rcases hp with rfl | rfl | rfl <;> rfl
  · intro s hs'
    simp only [chunks, List.mem_cons, List.not_mem_nil, or_false] at hs'
    rcases hs' with rfl | rfl | rfl | rfl
    · refine ⟨bound_ok hC, ⟨rfl, rfl⟩, ?_, (by intro e h; cases h), rfl, rfl, hT, rfl,
        ⟨some_pat.1, some_pat.2, hT⟩, rfl, ?_, rfl, ⟨none_pat.1, none_pat.2, hT⟩, rfl, ⟨trivial, rfl⟩, trivial⟩
      · intro c e h
        cases h
        exact ⟨rfl, rfl, rfl, inRange_zero⟩
      · refine ⟨trivial, rfl, rfl, rfl, isLast_ok L heq hN rfl _, ⟨trivial, inRange_zero⟩, trivial, ?_,
          succ_ok hN rfl, trivial⟩
        refine .trunc trivial trivial (Nat.le_succ _) (.inl ?_)
        show 2 ≤ bitsFor N + 1
        omega
    · trivial
    · refine ⟨rfl, bound_ok hA, ⟨rfl, hT, rfl, ⟨some_pat.1, some_pat.2, hT⟩, rfl, ?_, rfl,
        ⟨none_pat.1, none_pat.2, hT⟩, rfl, rfl, trivial⟩, trivial⟩
      exact cat_ok L hcat (by omega) ⟨⟨T, N, rfl, hN, Nat.le_refl _, rfl⟩, hA, rfl⟩
        ⟨⟨T, rfl, by simp [Expr.ty]⟩, rfl, trivial⟩ rfl rfl
    · refine ⟨bound_ok hA, ⟨rfl, rfl⟩, (by intro c e h; cases h), ?_, ⟨rfl, rfl⟩⟩
      intro e h
      cases h
      exact ⟨hf, hn, ht, hs⟩
  · exact ⟨rfl, rfl, rfl, call_ok L hand rfl ⟨isLast_ok L heq hN rfl _,
      call_ok L his rfl ⟨rfl, trivial⟩, trivial⟩, ⟨⟨_, rfl, rfl⟩, rfl, trivial⟩,
      ⟨⟨_, rfl, rfl⟩, trivial⟩⟩

theorem old_ok {Γ : Nat → MTy} {sig : Nat → Option (List MTy × MTy)} (h : ∀ n, Γ n = .bool) : oldReg.Ok sig Γ :=
  ⟨bound_ok (by decide), ⟨rfl, h 0⟩, (by intro c e h; cases h), (by intro e h; cases h), ⟨rfl, h 1⟩⟩

theorem rising_accepted (L : Lib P num) (hand : (P (num (.op (.logic .and)))).isSome)
    (hnot : (P (num (.op .not))).isSome) : Accepted P D (risingEdge num) := by
  refine ⟨by simp [risingEdge, tys], ?_, ?_⟩
  · intro s hs
    obtain rfl : s = .reg oldReg := by simpa [risingEdge] using hs
    exact old_ok fun _ => rfl
  · exact call_ok L hand rfl ⟨rfl, call_ok L hnot rfl ⟨rfl, trivial⟩, trivial⟩

theorem falling_accepted (L : Lib P num) (hand : (P (num (.op (.logic .and)))).isSome)
    (hnot : (P (num (.op .not))).isSome) : Accepted P D (fallingEdge num) := by
  refine ⟨by simp [fallingEdge, tys], ?_, ?_⟩
  · intro s hs
    obtain rfl : s = .reg oldReg := by simpa [fallingEdge] using hs
    exact old_ok fun _ => rfl
  · exact call_ok L hand rfl ⟨call_ok L hnot rfl ⟨rfl, trivial⟩, rfl, trivial⟩

end Spade.Stream

import Verif.Std.OpsAccept
/-! # The functions on arrays pass type inference -/
namespace Spade.Std
open Spade.Verilog Spade.Codegen Spade.Lower Spade.Expr
open Spade.Match (Val HasTy HasTys Matches MatchesAll)

variable {P : Prog} {num : Key → Nat}

/-- Finds a unit among those a body calls. -/
local macro "called" : tactic =>
  `(tactic| simp [Expr.calls, Stms.calls, Exprs.calls, cat, splitLet])

theorem params_ok (k : Key) : ∀ p ∈ (std num k).params, (std num k).types p.1 = p.2 := by
  cases k <;> first | exact ops_params_ok _ | simp [std, tys, List.lookup]

/-- Bodies of the functions are accepted. -/
theorem body_ok (L : Lib P num) (u : Nat) (k : Key) (h : P u = some (std num k)) (g : Good P k) :
    (std num k).body.Ok P.sig (std num k).types := by
  have sub : ∀ {n}, n ∈ (std num k).body.calls → (P n).isSome := fun hc => L.closed u _ h _ hc
  cases k with
  | op o => exact ops_body_ok L u o h g
  | unfold T N f =>
    match N with
    | 0 => exact ⟨⟨T, rfl, fun e he => by cases he⟩, trivial⟩
    | N + 1 =>
      simp only [std, Nat.add_one_ne_zero, if_false, Nat.add_sub_cancel] at sub ⊢
      exact cat_ok L (sub (by called)) (by omega)
        ⟨⟨T, rfl, fun e he => by cases List.mem_singleton.1 he; rfl⟩, rfl, trivial⟩
        (call_ok L (sub (by called)) rfl ⟨⟨g, rfl, ⟨rfl, rfl, trivial⟩, trivial⟩, rfl, trivial⟩) rfl rfl
  | all T N f =>
    match N with
    | 0 => trivial
    | N + 1 =>
      simp only [std, Nat.add_one_ne_zero, if_false] at sub ⊢
      exact call_ok L (sub (by called)) rfl ⟨call_ok L (sub (by called)) rfl ⟨rfl, rfl, trivial⟩, trivial⟩
  | any T N f =>
    match N with
    | 0 => trivial
    | N + 1 =>
      simp only [std, Nat.add_one_ne_zero, if_false] at sub ⊢
      exact call_ok L (sub (by called)) rfl ⟨call_ok L (sub (by called)) rfl ⟨rfl, rfl, trivial⟩, trivial⟩
  | chunks T N K =>
    obtain ⟨hK, hd, hs⟩ := g
    by_cases h0 : N = 0
    · subst h0
      refine ⟨⟨.array T K, ?_, fun e he => by cases he⟩, trivial⟩
      rw [Nat.zero_div]; rfl
    · simp only [std, h0, if_false] at sub ⊢
      have hle : K ≤ N := by
        rcases Nat.lt_or_ge N K with h | h
        · rw [Nat.div_eq_of_lt h] at hd; omega
        · exact h
      exact ⟨splitLet_ok L (sub (by called)) hle hs rfl rfl trivial,
        cat_ok L (sub (by called)) (by rw [Nat.div_eq_sub_div hK hle])
          ⟨⟨_, rfl, fun e he => by cases List.mem_singleton.1 he; rfl⟩, rfl, trivial⟩
          (call_ok L (sub (by called)) rfl ⟨rfl, trivial⟩) rfl rfl⟩
  | concat T N M =>
    refine ⟨.transmute ?_ join_readable, ⟨rfl, rfl, rfl, trivial⟩, trivial⟩
    simp only [MTy.size, Expr.ty, sizes]
    rw [Nat.add_zero, ← Nat.mul_add]
  | reversed T N =>
    by_cases h0 : N < 2
    · simp only [std, h0, if_true]; rfl
    · simp only [std, h0, if_false] at sub ⊢
      exact ⟨splitLet_ok L (sub (by called)) (by omega) g rfl rfl trivial,
        cat_ok L (sub (by called)) (by omega) (call_ok L (sub (by called)) rfl ⟨rfl, trivial⟩)
          (call_ok L (sub (by called)) rfl ⟨rfl, trivial⟩) rfl rfl⟩
  | fold T B N f =>
    obtain ⟨hf, hs, hb⟩ := g
    match N with
    | 0 => rfl
    | N + 1 =>
      simp only [std, Nat.add_one_ne_zero, if_false] at sub ⊢
      exact ⟨⟨rfl, ⟨trivial, trivial, hb⟩, ⟨hf, rfl, ⟨rfl, rfl, first_ok (by omega) rfl hs rfl, trivial⟩, trivial⟩, trivial⟩,
        call_ok L (sub (by called)) rfl ⟨tail_ok (by omega) rfl hs rfl, rfl, rfl, trivial⟩⟩
  | interleave T N =>
    simp only [std] at sub ⊢
    exact call_ok L (sub (by called)) (by simp only [sigOf, Nat.mul_comm]; rfl)
      ⟨call_ok L (sub (by called)) rfl ⟨call_ok L (sub (by called)) rfl ⟨rfl, rfl, trivial⟩, ⟨rfl, trivial⟩, trivial⟩, trivial⟩
  | lamPair T =>
    simp only [Good] at g
    refine ⟨⟨rfl, ⟨⟨rfl, ⟨rfl, trivial, trivial, trivial⟩, trivial⟩, ⟨⟨trivial, trivial, trivial⟩, trivial⟩, ?_⟩, rfl, trivial⟩,
      ⟨T, rfl, fun e he => ?_⟩, rfl, rfl, trivial⟩
    · simp only [LPat.ty, MTy.size, sizes]; omega
    · simp only [List.mem_cons, List.not_mem_nil, or_false] at he
      rcases he with rfl | rfl <;> rfl
  | map T O N f =>
    obtain ⟨hf, hs⟩ := g
    rcases Nat.lt_or_ge N 2 with hN | hN
    · match N, hN with
      | 0, _ => exact ⟨⟨O, rfl, fun e he => by cases he⟩, trivial⟩
      | 1, _ =>
        exact ⟨⟨O, rfl, fun e he => by cases List.mem_singleton.1 he; rfl⟩,
          ⟨hf (by decide), rfl, ⟨rfl, first_ok (by omega) rfl hs rfl, trivial⟩, trivial⟩, trivial⟩
    · have h0 : N ≠ 0 := by omega
      have h1 : N ≠ 1 := by omega
      simp only [std, h0, h1, if_false] at sub ⊢
      exact ⟨splitLet_ok L (sub (by called)) (by omega) hs rfl rfl trivial,
        cat_ok L (sub (by called)) (by omega) (call_ok L (sub (by called)) rfl ⟨rfl, rfl, trivial⟩)
          (call_ok L (sub (by called)) rfl ⟨rfl, rfl, trivial⟩) rfl rfl⟩
  | pushBack T N =>
    simp only [std] at sub ⊢
    exact cat_ok L (sub (by called)) (by omega) rfl
      ⟨⟨T, rfl, fun e he => by cases List.mem_singleton.1 he; rfl⟩, rfl, trivial⟩ rfl rfl
  | pushFront T N =>
    simp only [std] at sub ⊢
    exact cat_ok L (sub (by called)) (by omega)
      ⟨⟨T, rfl, fun e he => by cases List.mem_singleton.1 he; rfl⟩, rfl, trivial⟩ rfl rfl rfl
  | slidingWindow T N M =>
    obtain ⟨hM, hs⟩ := g
    by_cases h0 : N = M
    · subst h0
      simp only [std, if_true]
      exact ⟨⟨_, rfl, fun e he => by cases List.mem_singleton.1 he; rfl⟩, rfl, trivial⟩
    · simp only [std, h0, if_false] at sub ⊢
      exact cat_ok L (sub (by called)) (by omega)
        ⟨⟨_, rfl, fun e he => by cases List.mem_singleton.1 he; rfl⟩,
          ⟨⟨T, N, rfl, Nat.zero_le _, hM, rfl⟩, hs, rfl⟩, trivial⟩
        (call_ok L (sub (by called)) rfl ⟨tail_ok (by omega) rfl hs rfl, trivial⟩) rfl rfl
  | splitAt T N K =>
    obtain ⟨hK, hs⟩ := g
    refine ⟨⟨rfl, ⟨⟨rfl, trivial, trivial, trivial⟩, ⟨trivial, trivial, trivial⟩, size_half' hK hs⟩,
      ⟨.transmute ?_ (cut_readable hK), rfl, trivial⟩, trivial⟩, rfl, rfl, rfl, trivial⟩
    simp only [MTy.size, Expr.ty, sizes]
    rw [Nat.add_zero, ← Nat.mul_add, show N - K + K = N by omega]
  | zip T O N =>
    have hs1 : (MTy.array T N).size ≤ 2 ^ 32 := Nat.le_trans (by
      simp only [MTy.size, sizes]; exact Nat.mul_le_mul_right _ (by omega)) g
    have hs2 : (MTy.array O N).size ≤ 2 ^ 32 := Nat.le_trans (by
      simp only [MTy.size, sizes]; exact Nat.mul_le_mul_right _ (by omega)) g
    rcases Nat.lt_or_ge N 2 with hN | hN
    · match N, hN with
      | 0, _ => exact ⟨⟨_, rfl, fun e he => by cases he⟩, trivial⟩
      | 1, _ =>
        exact ⟨⟨_, rfl, fun e he => by cases List.mem_singleton.1 he; rfl⟩,
          ⟨rfl, first_ok (by omega) rfl hs1 rfl, first_ok (by omega) rfl hs2 rfl, trivial⟩, trivial⟩
    · have h0 : N ≠ 0 := by omega
      have h1 : N ≠ 1 := by omega
      simp only [std, h0, h1, if_false] at sub ⊢
      exact ⟨splitLet_ok L (sub (by called)) (by omega) hs1 rfl rfl
          (splitLet_ok L (sub (by called)) (by omega) hs2 rfl rfl
            ⟨rfl, ⟨trivial, trivial, size_le g (by omega)⟩, call_ok L (sub (by called)) rfl ⟨rfl, rfl, trivial⟩,
             rfl, ⟨trivial, trivial, size_le g (by omega)⟩, call_ok L (sub (by called)) rfl ⟨rfl, rfl, trivial⟩, trivial⟩),
        cat_ok L (sub (by called)) (by omega) rfl rfl rfl rfl⟩
  | len T N => exact inRange_bitsFor
  | first T N => exact first_ok g.1 rfl g.2 rfl
  | last T N =>
    obtain ⟨hN, hs⟩ := g
    refine first_ok (by decide) rfl (size_le hs hN) ⟨⟨T, N, rfl, Nat.sub_le _ _, Nat.le_refl _, ?_⟩, hs, rfl⟩
    simp only [Option.getD_some, Option.getD_none]
    rw [show N - (N - 1) = 1 by omega]
  | reduce T N f =>
    obtain ⟨hN, hs⟩ := g
    simp only [std] at sub ⊢
    exact call_ok L (sub (by called)) rfl ⟨tail_ok hN rfl hs rfl, first_ok hN rfl hs rfl, rfl, trivial⟩
  | shiftBack T N =>
    obtain ⟨hN, hs⟩ := g
    simp only [std] at sub ⊢
    exact call_ok L (sub (by called)) (by simp only [sigOf]; rw [Nat.sub_add_cancel hN]; rfl)
      ⟨tail_ok hN rfl hs rfl, rfl, trivial⟩
  | shiftFront T N =>
    obtain ⟨hN, hs⟩ := g
    simp only [std] at sub ⊢
    exact ⟨⟨T, N + 1, rfl, Nat.zero_le _, Nat.le_succ _, rfl⟩, hs, call_ok L (sub (by called)) rfl ⟨rfl, rfl, trivial⟩⟩
  | unzip S T N =>
    rcases Nat.lt_or_ge N 2 with hN | hN
    · match N, hN with
      | 0, _ => exact ⟨rfl, ⟨⟨_, rfl, fun e he => by cases he⟩, trivial⟩, ⟨⟨_, rfl, fun e he => by cases he⟩, trivial⟩, trivial⟩
      | 1, _ =>
        have hs := size_one g (by omega)
        exact ⟨rfl, ⟨⟨_, rfl, fun e he => by cases List.mem_singleton.1 he; rfl⟩,
            ⟨⟨_, S, rfl, rfl, rfl⟩, hs, first_ok (by omega) rfl g rfl⟩, trivial⟩,
          ⟨⟨_, rfl, fun e he => by cases List.mem_singleton.1 he; rfl⟩,
            ⟨⟨_, T, rfl, rfl, rfl⟩, hs, first_ok (by omega) rfl g rfl⟩, trivial⟩, trivial⟩
    · have h0 : N ≠ 0 := by omega
      have h1 : N ≠ 1 := by omega
      simp only [std, h0, h1, if_false] at sub ⊢
      have hz : ∀ n, n ≤ N → (MTy.tuple [.array S n, .array T n]).size ≤ 2 ^ 32 := fun n hn =>
        Nat.le_trans (by simp only [MTy.size, sizes]; rw [Nat.add_zero, Nat.add_zero, ← Nat.add_mul]
                         exact Nat.mul_le_mul_left _ hn) g
      exact ⟨splitLet_ok L (sub (by called)) (by omega) g rfl rfl
          ⟨rfl, ⟨⟨rfl, trivial, trivial, trivial⟩, ⟨trivial, trivial, trivial⟩, hz _ (by omega)⟩,
           call_ok L (sub (by called)) rfl ⟨rfl, trivial⟩,
           rfl, ⟨⟨rfl, trivial, trivial, trivial⟩, ⟨trivial, trivial, trivial⟩, hz _ (by omega)⟩,
           call_ok L (sub (by called)) rfl ⟨rfl, trivial⟩, trivial⟩,
        rfl, cat_ok L (sub (by called)) (by omega) rfl rfl rfl rfl,
        cat_ok L (sub (by called)) (by omega) rfl rfl rfl rfl, trivial⟩
  | flatten T N M =>
    rcases Nat.lt_or_ge N 2 with hN | hN
    · match N, hN with
      | 0, _ => exact ⟨⟨T, by rw [Nat.zero_mul]; rfl, fun e he => by cases he⟩, trivial⟩
      | 1, _ => exact first_ok (by omega) rfl g rfl
    · have h0 : N ≠ 0 := by omega
      have h1 : N ≠ 1 := by omega
      simp only [std, h0, h1, if_false] at sub ⊢
      exact ⟨splitLet_ok L (sub (by called)) (by omega) g rfl rfl trivial,
        cat_ok L (sub (by called)) (by rw [← Nat.add_mul, show N - N / 2 + N / 2 = N by omega])
          (call_ok L (sub (by called)) rfl ⟨rfl, trivial⟩)
          (call_ok L (sub (by called)) rfl ⟨rfl, trivial⟩) rfl rfl⟩
  | reduceAnd N => exact ⟨.reduceAnd (Nat.ne_of_gt g), rfl, trivial⟩
  | reduceOr N => exact ⟨.reduceOr (Nat.ne_of_gt g), rfl, trivial⟩
  | reduceXor N => exact ⟨.reduceXor (Nat.ne_of_gt g), rfl, trivial⟩

end Spade.Std

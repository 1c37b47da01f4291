import Verif.Stream.Spec
/-! # Chunks partition the stream (C67) -/
namespace Spade.Stream
open Spade.Match (Val)

theorem succ_div {n N : Nat} (hN : 0 < N) (h : (n + 1) % N ≠ 0) : (n + 1) / N = n / N := by
  have h1 := Nat.div_add_mod (n + 1) N
  have h2 := Nat.mod_lt (n + 1) hN
  generalize (n + 1) / N = q at h1 ⊢
  generalize (n + 1) % N = k at h h1 h2
  have h3 : n = N * q + (k - 1) := by omega
  rw [h3, Nat.mul_add_div hN, Nat.div_eq_of_lt (by omega), Nat.add_zero]

theorem seen_eq (s : Stream) {N : Nat} (hN : 0 < N) : ∀ t,
    (s.chunksSeen N t).flatten = (s.taken t).reverse.take ((s.taken t).length / N * N)
  | 0 => by simp [Stream.chunksSeen, Stream.taken]
  | t + 1 => by
    have ih := seen_eq s hN t
    simp only [Stream.chunksSeen, Stream.taken]
    by_cases hr : rises s.clk t = true
    · by_cases hrst : s.rst t = true
      · simp [hr, hrst]
      · simp only [hr, hrst, if_true, if_false, Bool.false_eq_true]
        cases hi : s.item t with
        | none => simpa [Stream.chunk, hi] using ih
        | some v =>
          simp only [Stream.chunk, hi, Option.toList_some, List.singleton_append, List.length_cons,
            List.reverse_cons]
          have hle : (s.taken t).length / N * N ≤ (s.taken t).length := Nat.div_mul_le_self _ _
          by_cases h : ((s.taken t).length + 1) % N = 0
          · rw [if_pos h]
            have e : ((s.taken t).length + 1) / N * N = (s.taken t).length + 1 :=
              Nat.div_mul_cancel (Nat.dvd_of_mod_eq_zero h)
            rw [e]
            conv => rhs; rw [List.take_of_length_le (by simp)]
            simp only [Option.toList_some, List.flatten_append, List.flatten_singleton, ih]
            have hd := Nat.div_add_mod (s.taken t).length N
            have hge : N ≤ (s.taken t).length + 1 := Nat.le_of_dvd (by omega) (Nat.dvd_of_mod_eq_zero h)
            have e2 : (s.taken t).length / N * N = (s.taken t).length + 1 - N := by
              have hl := Nat.mod_lt (s.taken t).length hN
              have h0 := Nat.mod_add_mod (s.taken t).length N 1
              rw [h] at h0
              have : (s.taken t).length % N + 1 = N := by
                apply Classical.byContradiction
                intro hne
                rw [Nat.mod_eq_of_lt (by omega)] at h0
                omega
              rw [Nat.mul_comm]
              omega
            rw [e2, List.reverse_take]
            have e3 : (v :: s.taken t).length - N = (s.taken t).length + 1 - N := by simp
            rw [e3, List.reverse_cons]
            rw [← List.take_append_of_le_length (l₂ := [v]) (by simp; omega), List.take_append_drop]
          · rw [if_neg h, succ_div hN h]
            simp only [Option.toList_none, List.append_nil, ih]
            rw [List.take_append_of_le_length (by simpa using hle)]
    · simp [hr, ih]

theorem chunks_once (s : Stream) {N : Nat} (hN : 0 < N) (t : Nat) :
    ∃ rest, rest.length < N ∧ (s.chunksSeen N t).flatten ++ rest = (s.taken t).reverse := by
  refine ⟨(s.taken t).reverse.drop ((s.taken t).length / N * N), ?_, ?_⟩
  · have hd := Nat.div_add_mod (s.taken t).length N
    have hl := Nat.mod_lt (s.taken t).length hN
    rw [Nat.mul_comm] at hd
    simp only [List.length_drop, List.length_reverse]
    omega
  · rw [seen_eq s hN t, List.take_append_drop]

end Spade.Stream

import Verif.Cxx.Model
/-!
# Values on the ports
-/
namespace Spade.Cxx

open Spade.Codegen Spade.Verilog

theorem testBit_toNat : ∀ (bs : Bits) (i : Nat), (toNat bs).testBit i = (bs.reverse[i]?).getD false
  | [], i => by simp [toNat]
  | b :: bs, i => by
    have h := testBit_toNat bs i
    have hb : (if b then 2 ^ bs.length else 0) + toNat bs = 2 ^ bs.length * b.toNat + toNat bs := by
      cases b <;> simp
    rw [toNat, hb, Nat.testBit_two_pow_mul_add _ (toNat_lt bs)]
    simp only [List.reverse_cons]
    split
    · rename_i hi
      rw [List.getElem?_append_left (by simpa using hi), h]
    · rename_i hi
      rw [List.getElem?_append_right (by simpa using hi)]
      simp only [List.length_reverse]
      cases hk : i - bs.length with
      | zero => cases b <;> simp
      | succ k => cases b <;> simp [Nat.testBit_succ]

theorem testBit_strNat (s : List (Option Bool)) (i : Nat) :
    (strNat s).testBit i = match s.reverse[i]? with
      | some (some b) => b
      | _ => false := by
  rw [strNat, testBit_toNat, ← List.map_reverse, List.getElem?_map]
  cases s.reverse[i]? with
  | none => rfl
  | some o => cases o <;> rfl

theorem u32Digits_get (n k : Nat) : (u32Digits n)[k]?.getD 0 = n / 2 ^ (32 * k) % 2 ^ 32 := by
  induction k generalizing n with
  | zero =>
    rw [u32Digits]
    split
    · rename_i h; simp [h]
    · simp
  | succ k ih =>
    rw [u32Digits]
    split
    · rename_i h; simp [h]
    · rw [List.getElem?_cons_succ, ih, Nat.div_div_eq_div_mul, ← Nat.pow_add,
        show 32 + 32 * k = 32 * (k + 1) by omega]

theorem u32Digits_lt (n : Nat) : ∀ w ∈ u32Digits n, w < 2 ^ 32 := by
  induction n using Nat.strongRecOn with
  | _ n ih =>
    intro w hw
    rw [u32Digits] at hw
    split at hw
    · cases hw
    · rcases List.mem_cons.1 hw with rfl | h
      · exact Nat.mod_lt _ (by decide)
      · exact ih _ (Nat.div_lt_self (by omega) (by omega)) w h

theorem u32Digits_length (m : Nat) : ∀ n, n < 2 ^ (32 * m) → (u32Digits n).length ≤ m := by
  induction m with
  | zero => intro n h; rw [u32Digits, dif_pos (by simpa using h)]; simp
  | succ m ih =>
    intro n h
    rw [u32Digits]
    split
    · simp
    · have := ih (n / 2 ^ 32) (by
        rw [Nat.div_lt_iff_lt_mul (by decide), ← Nat.pow_add]
        exact h)
      simp; omega

theorem wire_digits (n i : Nat) :
    ((u32Digits n)[i / 32]?.getD 0).testBit (i % 32) = n.testBit i := by
  rw [u32Digits_get, Nat.testBit_mod_two_pow, Nat.testBit_div_two_pow,
    Nat.mod_add_div, decide_eq_true (Nat.mod_lt _ (by decide)), Bool.true_and]

theorem getD_append_zeros (l : List Nat) (k i : Nat) :
    (l ++ List.replicate k 0)[i]?.getD 0 = l[i]?.getD 0 := by
  by_cases h : i < l.length
  · rw [List.getElem?_append_left h]
  · rw [List.getElem?_append_right (by omega), List.getElem?_eq_none (l := l) (by omega),
      List.getElem?_replicate]
    split <;> rfl

theorem copyWords_ok (split : List Nat) : ∀ (is ws : List Nat), ws.length = split.length →
    (∀ i ∈ is, i < ws.length) → ∃ ws', copyWords split is ws = some ws' ∧
      ws'.length = split.length ∧ ∀ k, ws'[k]? = if k ∈ is then split[k]? else ws[k]?
  | [], ws, hl, _ => ⟨ws, rfl, hl, by simp⟩
  | i :: is, ws, hl, hi => by
    have h0 := hi i (by simp)
    obtain ⟨ws', h1, h2, h3⟩ := copyWords_ok split is (ws.set i (split[i]'(hl ▸ h0)))
      (by simpa using hl) (fun j hj => by simpa using hi j (by simp [hj]))
    refine ⟨ws', ?_, h2, ?_⟩
    · simp only [copyWords, List.getElem?_eq_getElem (hl ▸ h0), setWord, h0, if_true,
        Option.bind_eq_bind, Option.bind_some, h1]
    · intro k
      rw [h3]
      by_cases hk : k ∈ is
      · simp [hk]
      · simp only [hk, if_false, List.mem_cons, or_false]
        by_cases he : k = i
        · subst he
          rw [if_pos rfl, List.getElem?_set_self h0, List.getElem?_eq_getElem (hl ▸ h0)]
        · rw [if_neg he, List.getElem?_set_ne (Ne.symm he)]

theorem mem_indices (n i : Nat) : i ∈ indices n ↔ i < (n + 31) / 32 := by
  rw [indices]
  split
  · simp; omega
  · simp; omega

theorem copyWords_all {split ws : List Nat} {n : Nat} (hs : split.length = (n + 31) / 32)
    (hw : ws.length = split.length) : copyWords split (indices n) ws = some split := by
  obtain ⟨ws', h1, h2, h3⟩ := copyWords_ok split (indices n) ws hw
    (fun i hi => by rw [mem_indices] at hi; omega)
  rw [h1]
  congr 1
  apply List.ext_getElem?
  intro k
  rw [h3]
  split
  · rfl
  · rename_i hk
    rw [mem_indices] at hk
    rw [List.getElem?_eq_none (by omega), List.getElem?_eq_none (by omega)]

theorem fits_length {n : Nat} {ws : List Nat} (h : (Port.words ws).Fits n) :
    ws.length = (n + 31) / 32 := by
  simp only [Port.Fits] at h
  omega

theorem le_holder {n : Nat} (h : n ≤ 64) : n ≤ holder n ∧ holder n ≤ 64 := by
  rw [holder]
  repeat' split
  all_goals omega

theorem assign_ok {n : Nat} {v : Value} {p : Port} (h : v.Ok) (hn : v.Narrow) (hw : v.width = n)
    (h0 : 0 < n) (h64 : n < 2 ^ 64) (hp : p.Fits n) :
    ∃ s p', v.asString = some s ∧ assign n v p = some p' ∧ p'.Fits n ∧ Carries p' s := by
  obtain ⟨s, hs, hlen, _⟩ := asString_ok v h
  have hlt := strNat_lt s
  rw [hlen, hw] at hlt
  refine ⟨s, ?_⟩
  cases p with
  | scalar k x =>
    obtain ⟨h1, rfl, h3⟩ := hp
    have hu := asU64_ok v s h hn (by omega) hs
    have hm : strNat s % 2 ^ holder n = strNat s :=
      Nat.mod_eq_of_lt (Nat.lt_of_lt_of_le hlt (Nat.pow_le_pow_right (by omega) (le_holder h1).1))
    refine ⟨.scalar (holder n) (strNat s), hs, ?_, ⟨h1, rfl, ?_⟩, fun i => ?_⟩
    · simp [assign, h1, hu, hm]; omega
    · exact Nat.lt_of_lt_of_le hlt (Nat.pow_le_pow_right (by omega) (le_holder h1).1)
    · exact testBit_strNat s i
  | words ws =>
    have hl := fits_length hp
    have hp' := hp
    simp only [Port.Fits] at hp
    obtain ⟨s', hs', hc⟩ := C10_as_u32_chunks_partial v h hn
    rw [hs] at hs'; cases hs'
    have hd : (u32Digits (strNat s)).length ≤ (n + 31) / 32 :=
      u32Digits_length _ _ (Nat.lt_of_lt_of_le hlt (Nat.pow_le_pow_right (by omega) (by omega)))
    have hk : u32Chunks v = some (u32Digits (strNat s) ++
        List.replicate ((n + 31) / 32 - (u32Digits (strNat s)).length) 0) := by
      simp only [u32Chunks, hc, Option.bind_eq_bind, Option.bind_some, hw, toU64_some h64]
      rw [if_neg (by omega)]
    have hlen' : (u32Digits (strNat s) ++
        List.replicate ((n + 31) / 32 - (u32Digits (strNat s)).length) 0).length
          = (n + 31) / 32 := by simp; omega
    refine ⟨.words (u32Digits (strNat s) ++
      List.replicate ((n + 31) / 32 - (u32Digits (strNat s)).length) 0), hs, ?_, ?_, fun i => ?_⟩
    · rw [assign, if_neg (by omega), if_neg (by omega)]
      simp only [hk, Option.bind_eq_bind, Option.bind_some]
      rw [copyWords_all hlen' (by omega)]
      rfl
    · refine ⟨hp.1, by omega, by omega, fun w hw => ?_⟩
      rcases List.mem_append.1 hw with hw | hw
      · exact u32Digits_lt _ w hw
      · rw [List.mem_replicate] at hw; rw [hw.2]; decide
    · rw [Port.wire, getD_append_zeros, wire_digits]
      exact testBit_strNat s i

theorem bitset_length (n x : Nat) : (bitset n x).length = n := by simp [bitset]

theorem bitset_reverse (n x i : Nat) (h : i < n) : (bitset n x).reverse[i]? = some (x.testBit i) := by
  simp [bitset, ← List.map_reverse, h]

theorem wordsDown_ok (ws : List Nat) : ∀ m, m ≤ ws.length → ∃ r, wordsDown ws m = some r ∧
    r.length = 32 * m ∧ ∀ i, i < 32 * m → r.reverse[i]? = some ((Port.words ws).wire i)
  | 0, _ => ⟨[], rfl, rfl, by omega⟩
  | m + 1, h => by
    obtain ⟨r, h1, h2, h3⟩ := wordsDown_ok ws m (by omega)
    refine ⟨bitset 32 ws[m] ++ r, ?_, ?_, fun i hi => ?_⟩
    · simp [wordsDown, List.getElem?_eq_getElem (show m < ws.length by omega), h1]
    · simp [bitset_length, h2]; omega
    · rw [List.reverse_append]
      by_cases hm : i < 32 * m
      · rw [List.getElem?_append_left (by simpa [h2] using hm), h3 i hm]
      · rw [List.getElem?_append_right (by simp [h2]; omega)]
        simp only [List.length_reverse, h2]
        rw [bitset_reverse _ _ _ (by omega), Port.wire, show i / 32 = m by omega,
          List.getElem?_eq_getElem (show m < ws.length by omega), show i - 32 * m = i % 32 by omega]
        rfl

theorem output_ok {n : Nat} {p : Port} (h0 : 0 < n) (hp : p.Fits n) :
    ∃ r, outputString n p = some r ∧ r.length = n ∧ ∀ i, i < n → r.reverse[i]? = some (p.wire i) := by
  cases p with
  | scalar k x =>
    obtain ⟨h1, _, _⟩ := hp
    refine ⟨bitset n x, ?_, bitset_length _ _, fun i hi => bitset_reverse _ _ _ hi⟩
    simp [outputString, h1]; omega
  | words ws =>
    have hl := fits_length hp
    simp only [Port.Fits] at hp
    obtain ⟨r, h1, h2, h3⟩ := wordsDown_ok ws (n / 32) (by omega)
    by_cases hm : n % 32 = 0
    · refine ⟨r, ?_, by omega, fun i hi => h3 i (by omega)⟩
      rw [outputString, if_neg (by omega), if_neg (by omega)]
      simp [hm, h1]
    · have hg : n / 32 < ws.length := by omega
      refine ⟨bitset (n % 32) ws[n / 32] ++ r, ?_, by simp [bitset_length, h2]; omega, fun i hi => ?_⟩
      · rw [outputString, if_neg (by omega), if_neg (by omega)]
        simp [hm, h1, List.getElem?_eq_getElem hg]
      · rw [List.reverse_append]
        by_cases hi' : i < 32 * (n / 32)
        · rw [List.getElem?_append_left (by simpa [h2] using hi'), h3 i hi']
        · rw [List.getElem?_append_right (by simp [h2]; omega)]
          simp only [List.length_reverse, h2]
          rw [bitset_reverse _ _ _ (by omega), Port.wire, show i / 32 = n / 32 by omega,
            List.getElem?_eq_getElem hg, show i - 32 * (n / 32) = i % 32 by omega]
          rfl

end Spade.Cxx

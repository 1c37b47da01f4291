import Verif.Fifo.Model
/-! # Gray codes -/
namespace Spade.Fifo

theorem getLsbD_toGray {n} (x : BitVec n) (i : Nat) :
    (toGray x).getLsbD i = (x.getLsbD (i + 1) ^^ x.getLsbD i) := by
  simp [toGray, BitVec.getLsbD_xor, BitVec.getLsbD_ushiftRight, Nat.add_comm 1 i]

theorem getLsbD_high {n} (i : Nat) :
    ((1#1 ++ (0 : BitVec (n + 1))).cast (show 1 + (n + 1) = n + 2 by omega)).getLsbD i =
      decide (i = n + 1) := by
  rw [BitVec.getLsbD_cast, BitVec.getLsbD_append]
  by_cases h : i < n + 1
  · simp [h]; omega
  · simp only [h, if_false]
    rw [BitVec.getLsbD_one]
    by_cases h' : i = n + 1 <;> simp [h'] <;> omega

/-- Decoding is the inverse of encoding. -/
theorem grayToBin_toGray : ∀ (n : Nat) (x : BitVec n), grayToBin n (toGray x) = x
  | 0, x => by simp [BitVec.of_length_zero]
  | 1, x => by
    apply BitVec.eq_of_getLsbD_eq
    intro i hi
    show (toGray x).getLsbD i = _
    rw [getLsbD_toGray, BitVec.getLsbD_of_ge x (i + 1) (by omega)]
    simp
  | n + 2, x => by
    have hl : ((toGray x ^^^ ((toGray x &&& ((1#1 ++ (0 : BitVec (n + 1))).cast
        (show 1 + (n + 1) = n + 2 by omega))) >>> 1)).setWidth (n + 1)) =
        toGray (x.setWidth (n + 1)) := by
      apply BitVec.eq_of_getLsbD_eq
      intro i hi
      rw [BitVec.getLsbD_setWidth, BitVec.getLsbD_xor, BitVec.getLsbD_ushiftRight,
        BitVec.getLsbD_and, getLsbD_high, getLsbD_toGray, getLsbD_toGray, getLsbD_toGray,
        BitVec.getLsbD_setWidth, BitVec.getLsbD_setWidth, Nat.add_comm 1 i]
      by_cases h : i = n
      · subst h
        rw [BitVec.getLsbD_of_ge x (i + 1 + 1) (by omega)]
        generalize x.getLsbD (i + 1) = a
        generalize x.getLsbD i = b
        cases a <;> cases b <;> simp
      · have h1 : i + 1 ≠ n + 1 := by omega
        have h2 : i + 1 < n + 1 := by omega
        simp [h, hi, h2]
    apply BitVec.eq_of_getLsbD_eq
    intro i hi
    show (_ ||| (grayToBin (n + 1) _).setWidth (n + 2)).getLsbD i = _
    rw [hl, grayToBin_toGray (n + 1), BitVec.getLsbD_or, BitVec.getLsbD_and, getLsbD_high,
      getLsbD_toGray, BitVec.getLsbD_setWidth, BitVec.getLsbD_setWidth]
    by_cases h : i = n + 1
    · subst h
      rw [BitVec.getLsbD_of_ge x (n + 1 + 1) (by omega)]
      simp
    · have h2 : i < n + 1 := by omega
      simp [h, hi, h2]

/-- Encoding is injective. -/
theorem toGray_injective {n} {x y : BitVec n} (h : toGray x = toGray y) : x = y := by
  rw [← grayToBin_toGray n x, h, grayToBin_toGray]

/-- All bits below `i` are set. -/
def ones {n} (x : BitVec n) (i : Nat) : Bool := decide (∀ j < i, x.getLsbD j = true)

theorem getLsbD_add_one {n} (x : BitVec n) (i : Nat) (hi : i < n) :
    (x + 1).getLsbD i = (x.getLsbD i ^^ ones x i) := by
  have h : x + 1 = -(~~~x) := by
    rw [BitVec.neg_eq_not_add, BitVec.not_not]; rfl
  rw [h, BitVec.getLsbD_neg]
  simp only [BitVec.getLsbD_not, hi, decide_true, Bool.true_and]
  have : decide (∃ j, j < i ∧ (decide (j < n) && !x.getLsbD j) = true) = !ones x i := by
    simp only [ones, Bool.not_eq_eq_eq_not]
    rw [← decide_not]
    apply decide_eq_decide.mpr
    constructor
    · rintro ⟨j, hj, h⟩ hall
      simp [hall j hj] at h
    · intro h
      simp only [Classical.not_forall] at h
      obtain ⟨j, hj, h⟩ := h
      refine ⟨j, hj, ?_⟩
      rw [Bool.not_eq_true] at h
      rw [h, decide_eq_true (show j < n by omega)]; rfl
  rw [this]
  cases x.getLsbD i <;> cases ones x i <;> rfl

theorem ones_succ {n} (x : BitVec n) (i : Nat) : ones x (i + 1) = (ones x i && x.getLsbD i) := by
  simp only [ones]
  rw [Bool.eq_iff_iff]
  simp only [decide_eq_true_eq, Bool.and_eq_true]
  constructor
  · intro h; exact ⟨fun j hj => h j (by omega), h i (by omega)⟩
  · rintro ⟨h, hi⟩ j hj
    rcases Nat.lt_succ_iff_lt_or_eq.mp hj with h' | rfl
    · exact h j h'
    · exact hi

/-- The index at which the run of ones below ends. -/
theorem exists_drop {n} (x : BitVec n) : ∀ m, 0 < m → ∃ k < m, ones x k = true ∧
    (∀ i, i ≤ k → ones x i = true) ∧ ∀ i, k < i → i < m → ones x i = false
  | 1, _ => ⟨0, by omega, by simp [ones], by intro i hi; simp [ones]; omega, by omega⟩
  | m + 2, _ => by
    obtain ⟨k, hk, h1, h2, h3⟩ := exists_drop x (m + 1) (by omega)
    by_cases h : ones x (m + 1) = true
    · refine ⟨m + 1, by omega, h, ?_, by omega⟩
      intro i hi
      simp only [ones, decide_eq_true_eq] at *
      intro j hj; exact h j (by omega)
    · refine ⟨k, by omega, h1, h2, ?_⟩
      intro i hi hm
      by_cases e : i = m + 1
      · subst e; simpa using h
      · exact h3 i hi (by omega)

/-- **The Gray codes of consecutive numbers differ in exactly one bit**, also when the number wraps
around. -/
theorem toGray_succ {n} (hn : 0 < n) (x : BitVec n) : ∃ k < n, ∀ i < n,
    (toGray (x + 1)).getLsbD i = ((toGray x).getLsbD i ^^ decide (i = k)) := by
  obtain ⟨k, hk, h1, h2, h3⟩ := exists_drop x n hn
  refine ⟨k, hk, ?_⟩
  intro i hi
  rw [getLsbD_toGray, getLsbD_toGray, getLsbD_add_one x i hi]
  have hs : (x + 1).getLsbD (i + 1) = (x.getLsbD (i + 1) ^^ decide (i + 1 ≤ k)) := by
    by_cases h : i + 1 < n
    · rw [getLsbD_add_one x _ h]
      congr 1
      by_cases e : i + 1 ≤ k
      · simp [h2 _ e, e]
      · simp [h3 (i + 1) (by omega) h, e]
    · rw [BitVec.getLsbD_of_ge x _ (by omega), BitVec.getLsbD_of_ge (x + 1) _ (by omega)]
      simp; omega
  have ho : ones x i = decide (i ≤ k) := by
    by_cases e : i ≤ k
    · simp [h2 _ e, e]
    · simp [h3 i (by omega) hi, e]
  rw [hs, ho]
  have : decide (i = k) = (decide (i + 1 ≤ k) ^^ decide (i ≤ k)) := by
    rcases Nat.lt_trichotomy i k with h | h | h
    · simp [show i + 1 ≤ k by omega, show i ≤ k by omega, show i ≠ k by omega]
    · subst h; simp
    · simp [show ¬ i + 1 ≤ k by omega, show ¬ i ≤ k by omega, show i ≠ k by omega]
  rw [this]
  cases x.getLsbD (i + 1) <;> cases x.getLsbD i <;> cases decide (i + 1 ≤ k) <;>
    cases decide (i ≤ k) <;> rfl

theorem getLsbD_mix {n} (pick : Nat) (old new : BitVec n) (i : Nat) (hi : i < n) :
    (mix pick old new).getLsbD i = if pick.testBit i then new.getLsbD i else old.getLsbD i := by
  simp only [mix, BitVec.getLsbD_or, BitVec.getLsbD_and, BitVec.getLsbD_not, BitVec.getLsbD_ofNat,
    hi, decide_true, Bool.true_and]
  cases pick.testBit i <;> simp

/-- A Gray code that is sampled while the number is increased is the old or the new one. -/
theorem mix_succ {n} (pick : Nat) (x : BitVec n) :
    mix pick (toGray x) (toGray (x + 1)) = toGray x ∨
    mix pick (toGray x) (toGray (x + 1)) = toGray (x + 1) := by
  by_cases hn : n = 0
  · subst hn; left; exact BitVec.eq_of_zero_length rfl
  · obtain ⟨k, hk, h⟩ := toGray_succ (by omega) x
    by_cases hp : pick.testBit k = true
    · right
      apply BitVec.eq_of_getLsbD_eq
      intro i hi
      rw [getLsbD_mix _ _ _ _ hi]
      by_cases e : i = k
      · subst e; simp [hp]
      · rw [h i hi]; simp [e]
    · left
      apply BitVec.eq_of_getLsbD_eq
      intro i hi
      rw [getLsbD_mix _ _ _ _ hi]
      by_cases e : i = k
      · subst e; simp [hp]
      · rw [h i hi]; simp [e]

theorem mix_same {n} (pick : Nat) (x : BitVec n) : mix pick x x = x := by
  apply BitVec.eq_of_getLsbD_eq
  intro i hi
  rw [getLsbD_mix _ _ _ _ hi]; simp

end Spade.Fifo

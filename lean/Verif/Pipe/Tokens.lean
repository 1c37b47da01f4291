import Verif.Pipe.Spec

/-
Facts about tokens in a pipeline that stalls: they stay in order, they are not duplicated and not
lost.
-/

namespace Spade.Pipe

section
variable {cond : Nat → Nat → Bool} {n : Nat} {occ : Nat → Bool}

theorem advances_iff {i c : Nat} :
    advances cond n i c = true ↔ ∀ m, i ≤ m → m < n → cond m c = true := by
  simp only [advances, List.all_eq_true, List.mem_range, Bool.or_eq_true, Bool.not_eq_true',
    decide_eq_false_iff_not]
  constructor
  · intro h m h1 h2
    rcases h m h2 with h3 | h3
    · exact absurd h1 h3
    · exact h3
  · intro h m h2
    by_cases h1 : i ≤ m
    · exact .inr (h m h1 h2)
    · exact .inl h1

/-- If a stage advances, so do the later ones. -/
theorem advances_mono {i j c : Nat} (hij : i ≤ j) (h : advances cond n i c = true) :
    advances cond n j c = true :=
  advances_iff.2 fun m h1 h2 => advances_iff.1 h m (Nat.le_trans hij h1) h2

theorem advances_last {i c : Nat} (h : n ≤ i) : advances cond n i c = true :=
  advances_iff.2 fun m h1 h2 => absurd h2 (by omega)

/-- When a token entered: inputs in their cycle, what was there in the beginning before that, the
later stages first. -/
def Token.rank : Token → Int
  | .input c => c
  | .initial i => -(i : Int)

theorem rank_lt {k c : Nat} {a : Token} (hk : 0 < k) (h : token cond n occ k c = some a) :
    a.rank < c := by
  induction c generalizing k with
  | zero =>
    obtain ⟨k, rfl⟩ : ∃ k', k = k' + 1 := ⟨k - 1, by omega⟩
    simp only [token] at h
    split at h
    · simp only [Option.some.injEq] at h
      subst h
      simp only [Token.rank]
      omega
    · exact (nomatch h)
  | succ c ih =>
    obtain ⟨k, rfl⟩ : ∃ k', k = k' + 1 := ⟨k - 1, by omega⟩
    simp only [token] at h
    split at h
    · rcases Nat.eq_zero_or_pos k with rfl | hk'
      · simp only [token, Option.some.injEq] at h
        subst h
        simp only [Token.rank]
        omega
      · have := ih hk' h
        omega
    · split at h
      · exact (nomatch h)
      · have := ih hk h
        omega

theorem rank_le {k c : Nat} {a : Token} (h : token cond n occ k c = some a) : a.rank ≤ c := by
  rcases Nat.eq_zero_or_pos k with rfl | hk
  · simp only [token, Option.some.injEq] at h
    subst h
    exact Int.le_refl _
  · exact Int.le_of_lt (rank_lt hk h)

/-- Where the token of a stage was in the cycle before. -/
theorem token_before {k c : Nat} {a : Token} (h : token cond n occ (k + 1) (c + 1) = some a) :
    (advances cond n k c = true ∧ token cond n occ k c = some a) ∨
    (advances cond n (k + 1) c = false ∧ token cond n occ (k + 1) c = some a) := by
  simp only [token] at h
  split at h
  · next h1 => exact .inl ⟨h1, h⟩
  · split at h
    · exact (nomatch h)
    · next h1 => exact .inr ⟨by simpa using h1, h⟩

/-- Tokens are in order: a later stage holds an earlier token. -/
theorem token_order {c : Nat} : ∀ {i k : Nat} {a b : Token}, i < k →
    token cond n occ i c = some b → token cond n occ k c = some a → a.rank < b.rank := by
  induction c with
  | zero =>
    intro i k a b hik hb ha
    obtain ⟨k, rfl⟩ : ∃ k', k = k' + 1 := ⟨k - 1, by omega⟩
    have h1 := rank_lt (by omega) ha
    cases i with
    | zero =>
      simp only [token, Option.some.injEq] at hb
      subst hb
      exact h1
    | succ i =>
      simp only [token] at hb ha
      split at hb
      · split at ha
        · simp only [Option.some.injEq] at ha hb
          subst ha hb
          simp only [Token.rank]
          omega
        · exact (nomatch ha)
      · exact (nomatch hb)
  | succ c ih =>
    intro i k a b hik hb ha
    obtain ⟨k, rfl⟩ : ∃ k', k = k' + 1 := ⟨k - 1, by omega⟩
    have h1 := rank_lt (by omega) ha
    cases i with
    | zero =>
      simp only [token, Option.some.injEq] at hb
      subst hb
      exact h1
    | succ i =>
      rcases token_before ha with ⟨h2, h3⟩ | ⟨h2, h3⟩ <;>
        rcases token_before hb with ⟨h4, h5⟩ | ⟨h4, h5⟩
      · exact ih (by omega) h5 h3
      · rcases Nat.lt_or_ge (i + 1) k with hlt | hge
        · exact ih hlt h5 h3
        · obtain rfl : k = i + 1 := by omega
          rw [h2] at h4
          exact (nomatch h4)
      · exact ih (by omega) h5 h3
      · exact ih hik h5 h3

/-- After a token has left a stage, that stage and those before it hold later tokens. -/
theorem token_gone {j c1 : Nat} {a : Token} (h1 : token cond n occ j c1 = some a)
    (h2 : advances cond n j c1 = true) : ∀ (e i : Nat) {b : Token}, i ≤ j →
    token cond n occ i (c1 + 1 + e) = some b → a.rank < b.rank := by
  have h3 : token cond n occ (j + 1) (c1 + 1) = some a := by
    simp only [token, h2, if_true, h1]
  intro e
  induction e with
  | zero =>
    intro i b hi hb
    exact token_order (by omega) hb h3
  | succ e ih =>
    intro i b hi hb
    cases i with
    | zero =>
      simp only [token, Option.some.injEq] at hb
      subst hb
      have := rank_le h1
      show a.rank < ((c1 + 1 + (e + 1) : Nat) : Int)
      omega
    | succ i =>
      rcases token_before (c := c1 + 1 + e) hb with ⟨_, h⟩ | ⟨_, h⟩
      · exact ih i (by omega) h
      · exact ih (i + 1) hi h

end

/-- **C28, no duplication.**  In no cycle is a token in two stages. -/
theorem C28_token_in_one_stage (cond : Nat → Nat → Bool) (n : Nat) (occ : Nat → Bool) (i k c : Nat)
    (a : Token) (hi : token cond n occ i c = some a) (hk : token cond n occ k c = some a) : i = k := by
  rcases Nat.lt_trichotomy i k with h | h | h
  · exact absurd (token_order h hi hk) (by omega)
  · exact h
  · exact absurd (token_order h hk hi) (by omega)

/-- **C28, no duplication.**  A token leaves a stage only once. -/
theorem C28_token_leaves_once (cond : Nat → Nat → Bool) (n : Nat) (occ : Nat → Bool)
    (j c1 c2 : Nat) (a : Token)
    (h1 : token cond n occ j c1 = some a) (h1' : advances cond n j c1 = true)
    (h2 : token cond n occ j c2 = some a) (h2' : advances cond n j c2 = true) : c1 = c2 := by
  have key : ∀ {c1 c2}, token cond n occ j c1 = some a → advances cond n j c1 = true →
      token cond n occ j c2 = some a → c1 < c2 → False := by
    intro c1 c2 h1 h2 h3 hlt
    have := token_gone h1 h2 (c2 - (c1 + 1)) j (Nat.le_refl _)
      (by rw [show c1 + 1 + (c2 - (c1 + 1)) = c2 by omega]; exact h3)
    omega
  rcases Nat.lt_trichotomy c1 c2 with h | h | h
  · exact (key h1 h1' h2 h).elim
  · exact h
  · exact (key h2 h2' h1 h).elim

/-- **C28, no loss.**  A token that is in the pipeline stays where it is or, exactly if the stage
advances, moves on by one stage.  (A token in stage 0 that does not advance is an input that was not
accepted; a token in the last stage leaves the pipeline.) -/
theorem C28_token_not_lost (cond : Nat → Nat → Bool) (n : Nat) (occ : Nat → Bool) (i c : Nat)
    (a : Token) (h : token cond n occ i c = some a) :
    (advances cond n i c = true → token cond n occ (i + 1) (c + 1) = some a) ∧
    (advances cond n i c = false → 0 < i → token cond n occ i (c + 1) = some a) := by
  constructor
  · intro h1
    simp only [token, h1, if_true, h]
  · intro h1 hi
    obtain ⟨i, rfl⟩ : ∃ i', i = i' + 1 := ⟨i - 1, by omega⟩
    have h2 : advances cond n i c = false := by
      cases h2 : advances cond n i c with
      | false => rfl
      | true =>
        rw [advances_mono (Nat.le_succ i) h2] at h1
        exact (nomatch h1)
    simp only [token, h1, h2, Bool.false_eq_true, if_false, h]

/-- **C28, progress.**  If from some cycle on every condition holds at least in the next `n` cycles,
an accepted input reaches the last stage: a token in stage `i` at cycle `c` is in stage `i + m` at
cycle `c + m` if the stages it passes advance. -/
theorem C28_token_moves_when_not_stalled (cond : Nat → Nat → Bool) (n : Nat) (occ : Nat → Bool)
    (i c : Nat) (a : Token) (h : token cond n occ i c = some a) : ∀ (m : Nat),
    (∀ e, e < m → ∀ k, i ≤ k → k < n → cond k (c + e) = true) →
    token cond n occ (i + m) (c + m) = some a
  | 0, _ => h
  | m + 1, hm => by
    have ih := C28_token_moves_when_not_stalled cond n occ i c a h m
      (fun e he => hm e (by omega))
    refine (C28_token_not_lost cond n occ (i + m) (c + m) a ih).1 ?_
    exact advances_iff.2 fun k hk1 hk2 => hm m (by omega) k (by omega) hk2

/-- A pipeline with two stages where the second one stalls in cycle 1: the input of cycle 0 waits in
stage 1 during cycle 2, the input of cycle 1 is not accepted. -/
example :
    let cond := fun m c => !(m == 1 && c == 1)
    advances cond 2 0 0 = true ∧ advances cond 2 0 1 = false ∧
    token cond 2 (fun _ => false) 1 1 = some (.input 0) ∧
    token cond 2 (fun _ => false) 1 2 = some (.input 0) ∧
    token cond 2 (fun _ => false) 2 2 = none ∧
    token cond 2 (fun _ => false) 2 3 = some (.input 0) ∧
    token cond 2 (fun _ => false) 1 3 = some (.input 2) := by decide

end Spade.Pipe

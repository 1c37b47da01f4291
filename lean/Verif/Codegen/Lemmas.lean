import Verif.Verilog.Lemmas
import Verif.Codegen.Model
/-!
# Lemmas about the emitted expressions
-/
namespace Spade.Verilog

mutual
/-- An expression evaluated in a context of width `w` has `w` bits. -/
theorem eval_length (ρ : Env) (xs : Nat → Bool) : ∀ (e : VExpr) (w : Nat) (s : Bool) (b : Bits),
    e.eval ρ xs w s = some b → b.length = w
  | .var x, w, s, b, h => by
    simp only [VExpr.eval] at h
    split at h
    · cases h
    · cases h; exact resize_length _ _ _
  | .lit w' n, w, s, b, h => by
    simp only [VExpr.eval, Option.some.injEq] at h; subst h; exact resize_length _ _ _
  | .dec n, w, s, b, h => by
    simp only [VExpr.eval, Option.some.injEq] at h; subst h; exact resize_length _ _ _
  | .undef w', w, s, b, h => by
    simp only [VExpr.eval, Option.some.injEq] at h; subst h; exact resize_length _ _ _
  | .bit x i, w, s, b, h => by
    simp only [VExpr.eval, Option.bind_eq_bind, Option.bind_eq_some_iff] at h
    obtain ⟨i', _, h⟩ := h
    split at h
    · cases h
    · simp only [Option.bind_eq_some_iff, Option.some.injEq] at h
      obtain ⟨b', _, h⟩ := h; subst h; exact resize_length _ _ _
  | .part x hi lo, w, s, b, h => by
    simp only [VExpr.eval, Option.bind_eq_bind] at h
    split at h
    · cases h
    · simp only [Option.bind_eq_some_iff, Option.some.injEq] at h
      obtain ⟨b', _, h⟩ := h; subst h; exact resize_length _ _ _
  | .plus x base w', w, s, b, h => by
    simp only [VExpr.eval, Option.bind_eq_bind, Option.bind_eq_some_iff] at h
    obtain ⟨i', _, h⟩ := h
    split at h
    · cases h
    · split at h
      · cases h
      · simp only [Option.bind_eq_some_iff, Option.some.injEq] at h
        obtain ⟨b', _, h⟩ := h; subst h; exact resize_length _ _ _
  | .minus x base w', w, s, b, h => by
    simp only [VExpr.eval, Option.bind_eq_bind] at h
    split at h
    · cases h
    · split at h
      · cases h
      · simp only [Option.bind_eq_some_iff, Option.some.injEq] at h
        obtain ⟨b', _, h⟩ := h; subst h; exact resize_length _ _ _
  | .concat es, w, s, b, h => by
    simp only [VExpr.eval, Option.bind_eq_bind, Option.bind_eq_some_iff] at h
    obtain ⟨i', _, h⟩ := h
    split at h
    · cases h
    · cases h; exact resize_length _ _ _
  | .repl n e, w, s, b, h => by
    simp only [VExpr.eval, Option.bind_eq_bind, Option.bind_eq_some_iff] at h
    obtain ⟨i', _, h⟩ := h
    split at h
    · cases h
    · cases h; exact resize_length _ _ _
  | .signed e, w, s, b, h => by
    simp only [VExpr.eval, Option.bind_eq_bind, Option.bind_eq_some_iff] at h
    obtain ⟨i', _, h⟩ := h
    cases h; exact resize_length _ _ _
  | .un op e, w, s, b, h => by
    cases op <;> simp only [VExpr.eval, Option.bind_eq_bind, Option.bind_eq_some_iff] at h <;>
      obtain ⟨i', h1, h⟩ := h <;> cases h
    · exact ofInt_length _ _
    · simp [eval_length ρ xs e _ _ _ h1]
    all_goals exact resize_length _ _ _
  | .bin op x y, w, s, b, h => by
    cases op <;> simp only [VExpr.eval, Option.bind_eq_bind, Option.bind_eq_some_iff] at h <;>
      obtain ⟨a', h1, b', h2, h⟩ := h <;> try simp only [arith, shift, Option.bind_eq_some_iff] at h
    case div => split at h <;> cases h; exact ofInt_length _ _
    case mod => split at h <;> cases h; exact ofInt_length _ _
    case band =>
      cases h; simp [eval_length ρ xs x _ _ _ h1, eval_length ρ xs y _ _ _ h2]
    case bor =>
      cases h; simp [eval_length ρ xs x _ _ _ h1, eval_length ρ xs y _ _ _ h2]
    case bxor =>
      cases h; simp [eval_length ρ xs x _ _ _ h1, eval_length ρ xs y _ _ _ h2]
    case ashr => cases h; split <;> simp
    all_goals first
      | (cases h; exact ofInt_length _ _)
      | (cases h; exact ofNat_length _ _)
      | (cases h; exact resize_length _ _ _)
      | (obtain ⟨r, _, h⟩ := h; cases h; exact resize_length _ _ _)
  | .cond c x y, w, s, b, h => by
    simp only [VExpr.eval, Option.bind_eq_bind, Option.bind_eq_some_iff] at h
    obtain ⟨c', _, a', h1, b', h2, h⟩ := h
    cases h
    split
    · exact eval_length ρ xs x _ _ _ h1
    · exact eval_length ρ xs y _ _ _ h2
/-- A concatenation has the sum of the widths of its parts. -/
theorem evals_length (ρ : Env) (xs : Nat → Bool) : ∀ (es : List VExpr) (b : Bits),
    evals ρ xs es = some b → b.length = widths ρ es
  | [], b, h => by simp only [evals, Option.some.injEq] at h; subst h; rfl
  | e :: es, b, h => by
    simp only [evals, Option.bind_eq_bind, Option.bind_eq_some_iff] at h
    obtain ⟨a', h1, b', h2, h⟩ := h
    cases h
    simp [widths, eval_length ρ xs e _ _ _ h1, evals_length ρ xs es _ h2]
end

theorem evals_append (ρ : Env) (xs : Nat → Bool) (a b : List VExpr) {x y : Bits}
    (ha : evals ρ xs a = some x) (hb : evals ρ xs b = some y) :
    evals ρ xs (a ++ b) = some (x ++ y) := by
  induction a generalizing x with
  | nil => simp [evals] at ha; subst ha; simpa using hb
  | cons e es ih =>
    simp only [evals, Option.bind_eq_bind, Option.bind_eq_some_iff] at ha
    obtain ⟨b1, h1, b2, h2, h⟩ := ha
    cases h
    simp [evals, h1, ih h2]

theorem widths_append (ρ : Env) (a b : List VExpr) :
    widths ρ (a ++ b) = widths ρ a + widths ρ b := by
  induction a with
  | nil => simp [widths]
  | cons e es ih => simp [widths, ih, Nat.add_assoc]

theorem value_var {ρ : Env} {xs} {x : Nat} (h : ρ x ≠ []) :
    (VExpr.var x).value ρ xs = some (ρ x) := by
  have : (ρ x).length ≠ 0 := by simpa using h
  simp [VExpr.value, VExpr.eval, VExpr.width, this, resize_eq_self]

theorem value_lit {ρ : Env} {xs} {w n : Nat} :
    (VExpr.lit w n).value ρ xs = some (ofNat w n) := by
  simp [VExpr.value, VExpr.eval, VExpr.width, resize_eq_self]

theorem value_undef {ρ : Env} {xs} {w : Nat} :
    (VExpr.undef w).value ρ xs = some ((List.range w).map xs) := by
  simp [VExpr.value, VExpr.eval, VExpr.width, resize_eq_self]

theorem evals_one {ρ : Env} {xs} {e : VExpr} {b : Bits} (h : e.value ρ xs = some b) :
    evals ρ xs [e] = some b := by
  simp only [VExpr.value] at h
  simp [evals, h]

theorem value_concat {ρ : Env} {xs} {es : List VExpr} {b : Bits} (h : evals ρ xs es = some b)
    (hb : b ≠ []) : (VExpr.concat es).value ρ xs = some b := by
  have := evals_length ρ xs es b h
  simp [VExpr.value, VExpr.eval, VExpr.width, h, hb, resize_eq_self this]

/-- Assigning an expression of exactly the declared width stores its value. -/
theorem assigned_exact {ρ : Env} {xs} {lw : Nat} {e : VExpr} (h : e.width ρ = lw) :
    assigned ρ xs lw e = e.value ρ xs := by
  subst h
  simp only [assigned, Nat.max_self, VExpr.value]
  cases he : e.eval ρ xs (e.width ρ) e.isSigned with
  | none => rfl
  | some b => simp [eval_length ρ xs e _ _ _ he]

theorem assigned_var {ρ : Env} {xs} {lw x : Nat} (h : (ρ x).length = lw) (h0 : lw ≠ 0) :
    assigned ρ xs lw (.var x) = some (ρ x) := by
  rw [assigned_exact (by simpa [VExpr.width] using h), value_var]
  intro hc; rw [hc] at h; simp at h; omega

theorem value_part {ρ : Env} {xs} {x hi lo : Nat} (h1 : 2 ≤ (ρ x).length) :
    (VExpr.part x hi lo).value ρ xs = slice (ρ x) hi lo := by
  simp only [VExpr.value, VExpr.eval, VExpr.width]
  rw [if_neg (by omega)]
  cases hs : slice (ρ x) hi lo with
  | none => rfl
  | some r => simp [resize_eq_self (slice_length hs)]

theorem value_bit_dec {ρ : Env} {xs} {x i : Nat} (h1 : 2 ≤ (ρ x).length) (hi : i < 2 ^ 32) :
    (VExpr.bit x (.dec i)).value ρ xs = slice (ρ x) i i := by
  simp only [VExpr.value, VExpr.eval, VExpr.width, Option.bind_eq_bind, Option.bind_some]
  rw [if_neg (by omega), resize_eq_self (ofNat_length _ _), toNat_ofNat, Nat.mod_eq_of_lt hi]
  cases hs : slice (ρ x) i i with
  | none => rfl
  | some r =>
    have := slice_length hs
    simp [resize_eq_self (show r.length = 1 by omega)]

/-- Selecting the middle part of a vector. -/
theorem slice_eq {bs a b c : Bits} (h : bs = a ++ b ++ c) (hb : b ≠ []) {hi lo : Nat}
    (hh : hi = c.length + b.length - 1) (hl : lo = c.length) : slice bs hi lo = some b := by
  subst h hh hl; exact slice_mid hb

end Spade.Verilog

namespace Spade.Codegen
open Spade.Verilog

/-! ## Tag size -/

theorem nextPow_go (n : Nat) : ∀ (p : Nat) (_ : p > 0) (j : Nat), p = 2 ^ j →
    (j = 0 ∨ 2 ^ (j - 1) < n) →
    ∃ k, nextPow2From n p = 2 ^ k ∧ n ≤ 2 ^ k ∧ (k = 0 ∨ 2 ^ (k - 1) < n) := by
  intro p hp
  induction hm : n - p using Nat.strongRecOn generalizing p with
  | _ m ih =>
  intro j hj hmin
  unfold nextPow2From
  split
  · rename_i hlt
    exact ih (n - p * 2) (by omega) (p * 2) (by omega) rfl (j + 1)
      (by rw [hj, Nat.pow_succ]) (Or.inr (by simpa [← hj] using hlt.2))
  · exact ⟨j, hj, by omega, hmin⟩

theorem tagSize_spec (n : Nat) :
    n ≤ 2 ^ tagSize n ∧ (tagSize n = 0 ∨ 2 ^ (tagSize n - 1) < n) := by
  obtain ⟨k, h1, h2, h3⟩ := nextPow_go n 1 (by decide) 0 rfl (Or.inl rfl)
  have : tagSize n = k := by
    simp only [tagSize, nextPow2, h1, Nat.log2_two_pow]
  rw [this]; exact ⟨h2, h3⟩

theorem tagSize_le {n k : Nat} (h : n ≤ 2 ^ k) : tagSize n ≤ k := by
  rcases (tagSize_spec n).2 with h0 | h0
  · omega
  · have := Nat.lt_of_lt_of_le h0 h
    have := (Nat.pow_lt_pow_iff_right (by decide : 1 < 2)).1 this
    omega

theorem tagSize_zero {n : Nat} (h : tagSize n = 0) : n ≤ 1 := by
  have := (tagSize_spec n).1; rw [h] at this; simpa using this

theorem variant_lt_tag {n i : Nat} (h : i < n) : i < 2 ^ tagSize n :=
  Nat.lt_of_lt_of_le h (tagSize_spec n).1

theorem tagSize_eq {n k : Nat} (h1 : n ≤ 2 ^ k) (h2 : k = 0 ∨ 2 ^ (k - 1) < n) : tagSize n = k := by
  have h3 := tagSize_le h1
  rcases h2 with h2 | h2
  · omega
  · rcases Nat.lt_or_ge (tagSize n) k with h | h
    · have h4 := (tagSize_spec n).1
      have h5 : (2:Nat) ^ tagSize n ≤ 2 ^ (k - 1) := Nat.pow_le_pow_right (by omega) (by omega)
      omega
    · omega

@[simp] theorem tagSize_0 : tagSize 0 = 0 := tagSize_eq (by decide) (by decide)
@[simp] theorem tagSize_1 : tagSize 1 = 0 := tagSize_eq (by decide) (by decide)
@[simp] theorem tagSize_2 : tagSize 2 = 1 := tagSize_eq (by decide) (by decide)
@[simp] theorem tagSize_3 : tagSize 3 = 2 := tagSize_eq (by decide) (by decide)
@[simp] theorem tagSize_4 : tagSize 4 = 2 := tagSize_eq (by decide) (by decide)

/-! ## Sizes -/

theorem sizes_append (a b : List MTy) : sizes (a ++ b) = sizes a + sizes b := by
  induction a with
  | nil => simp [sizes]
  | cons t ts ih => simp [sizes, ih, Nat.add_assoc]

theorem sizes_eq_sum (ts : List MTy) : sizes ts = (ts.map MTy.size).sum := by
  induction ts with
  | nil => rfl
  | cons t ts ih => simp [sizes, ih]

theorem backSizes_eq_sum (ts : List MTy) : backSizes ts = (ts.map MTy.backSize).sum := by
  induction ts with
  | nil => rfl
  | cons t ts ih => simp [backSizes, ih]

theorem sizes_replicate (t : MTy) (n : Nat) : sizes (List.replicate n t) = t.size * n := by
  induction n with
  | zero => simp [sizes]
  | succ n ih => simp [List.replicate_succ, sizes, ih, Nat.mul_add, Nat.add_comm]

theorem sizes_le_max {os : List (List MTy)} {i : Nat} {o : List MTy} (h : os[i]? = some o) :
    sizes o ≤ maxSize os := by
  induction os generalizing i with
  | nil => simp at h
  | cons x os ih =>
    cases i with
    | zero => simp at h; subst h; simp only [maxSize]; omega
    | succ i => simp at h; have := ih h; simp only [maxSize]; omega

theorem MTy.strip_size : ∀ t : MTy, t.strip.size = t.size
  | .copyView t => by simp [MTy.strip, MTy.size, MTy.strip_size t]
  | .int _ | .uint _ | .bool | .tuple _ | .struct _ | .array _ _ | .memory _ _ | .enum _
  | .backward _ | .inout _ => by simp [MTy.strip]

/-! ## Concatenations of operand variables -/

/-- Bits of all the operands in order. -/
def allBits (f : Nat → Bits) (ops : List Nat) : Bits := ops.flatMap f

theorem allBits_length (f : Nat → Bits) (size : Nat → Nat) (ops : List Nat)
    (h : ∀ o ∈ ops, (f o).length = size o) : (allBits f ops).length = (ops.map size).sum := by
  induction ops with
  | nil => rfl
  | cons o os ih =>
    simp only [List.mem_cons, forall_eq_or_imp] at h
    have := ih h.2
    simp [allBits] at this ⊢
    simp [h.1, this]

theorem evals_vars (ρ : Env) (xs : Nat → Bool) (g : Nat → Nat) (ops : List Nat)
    (h : ∀ o ∈ ops, ρ (g o) ≠ []) :
    evals ρ xs (ops.map fun o => .var (g o)) = some (allBits (fun o => ρ (g o)) ops) := by
  induction ops with
  | nil => simp [evals, allBits]
  | cons o os ih =>
    simp only [List.mem_cons, forall_eq_or_imp] at h
    have h1 := value_var (xs := xs) h.1
    simp only [VExpr.value] at h1
    have := ih h.2
    simp only [List.map_cons, evals, this]
    simp [h1, allBits]

theorem allBits_filter (f : Nat → Bits) (size : Nat → Nat) (ops : List Nat)
    (h : ∀ o ∈ ops, (f o).length = size o) :
    allBits f (ops.filter fun o => size o != 0) = allBits f ops := by
  induction ops with
  | nil => rfl
  | cons o os ih =>
    simp only [List.mem_cons, forall_eq_or_imp] at h
    have h1 := ih h.2
    by_cases hz : size o = 0
    · have : f o = [] := List.length_eq_zero_iff.1 (by rw [h.1, hz])
      simp [hz, allBits, this] at h1 ⊢
      exact h1
    · simp [hz, allBits] at h1 ⊢
      exact h1

/-- The concatenation of all operands that have bits. -/
theorem evals_filtered (ρ : Env) (xs : Nat → Bool) (g : Nat → Nat) (size : Nat → Nat)
    (ops : List Nat) (h : ∀ o ∈ ops, (ρ (g o)).length = size o) :
    evals ρ xs ((ops.filter fun o => size o != 0).map fun o => .var (g o)) =
      some (allBits (fun o => ρ (g o)) ops) := by
  rw [evals_vars, allBits_filter _ size _ h]
  intro o ho hc
  simp at ho
  have := h o ho.1
  rw [hc] at this
  simp at this; omega

/-- Position of one operand inside the concatenation. -/
theorem allBits_split (f : Nat → Bits) (ops : List Nat) (i o : Nat) (h : ops[i]? = some o) :
    allBits f ops = allBits f (ops.take i) ++ f o ++ allBits f (ops.drop (i + 1)) := by
  induction ops generalizing i with
  | nil => simp at h
  | cons x os ih =>
    cases i with
    | zero => simp at h; subst h; simp [allBits]
    | succ i =>
      simp at h
      have := ih i h
      simp [allBits] at this ⊢
      exact this

theorem sum_split (l : List Nat) (i w : Nat) (h : l[i]? = some w) :
    l.sum = (l.take i).sum + w + (l.drop (i + 1)).sum := by
  induction l generalizing i with
  | nil => simp at h
  | cons x os ih =>
    cases i with
    | zero => simp at h; subst h; simp
    | succ i =>
      simp at h
      have := ih i h
      simp; omega

end Spade.Codegen

import Verif.Codegen.Enum
/-!
# Tuples, structs and arrays
-/
namespace Spade.Codegen
open Spade.Verilog

/-- Total width of a list of operands. -/
theorem allBits_fits {Γ : Nat → MTy} {ρ : Env} {ops : List Nat} (hf : ∀ o ∈ ops, Fits Γ ρ o) :
    (allBits (fun o => ρ (fwd o)) ops).length = sizes (ops.map Γ) := by
  rw [allBits_length _ (fun o => (Γ o).size) _ hf, sizes_eq_sum, List.map_map]; rfl

theorem allBits_fitsBack {Γ : Nat → MTy} {ρ : Env} {ops : List Nat}
    (hf : ∀ o ∈ ops, FitsBack Γ ρ o) :
    (allBits (fun o => ρ (back o)) ops).length = backSizes (ops.map Γ) := by
  rw [allBits_length _ (fun o => (Γ o).backSize) _ hf, backSizes_eq_sum, List.map_map]; rfl

/-- A constructed tuple is the concatenation of its members. -/
theorem tuple_bits {Γ : Nat → MTy} {ty : MTy} {ops : List Nat} {ρ : Env} (xs : Nat → Bool)
    (hty : ty.size = sizes (ops.map Γ)) (hf : ∀ o ∈ ops, Fits Γ ρ o) :
    runOp Γ ty .constructTuple ops ρ xs = some (allBits (fun o => ρ (fwd o)) ops) := by
  have hlen := allBits_fits hf
  unfold runOp
  split
  · rw [List.length_eq_zero_iff.1 (by omega : (allBits (fun o => ρ (fwd o)) ops).length = 0)]
  · simp only [fwdCode]
    have hev := evals_filtered ρ xs fwd (fun o => (Γ o).size) ops hf
    have hw := evals_length _ _ _ _ hev
    rw [assigned_exact (by simp only [VExpr.width]; omega), value_concat hev]
    intro hc
    rw [hc] at hlen
    simp at hlen; omega

/-- `compute_tuple_index` selects the member's bits. -/
theorem tupleIndex_value {ρ : Env} {xs : Nat → Bool} {x idx w : Nat} {szs : List Nat}
    {before here after : Bits} (hw : szs[idx]? = some w) (hw0 : w ≠ 0)
    (hb : ρ x = before ++ here ++ after) (hbefore : before.length = (szs.take idx).sum)
    (hhere : here.length = w) (htot : (ρ x).length = szs.sum) (h32 : szs.sum ≤ 2 ^ 32) :
    ∃ ti e, computeTupleIndex idx szs = some ti ∧ ti.code x = some e ∧ e.width ρ = w ∧
      e.value ρ xs = some here := by
  have hlen := congrArg List.length hb
  simp at hlen
  have hne : here ≠ [] := by intro hc; rw [hc] at hhere; simp at hhere; omega
  simp only [computeTupleIndex, hw, Option.bind_eq_bind, Option.bind_some, hw0, if_false]
  by_cases h1 : szs.sum = 1
  · have h1' : before = [] := List.length_eq_zero_iff.1 (by omega)
    have h2' : after = [] := List.length_eq_zero_iff.1 (by omega)
    subst h1' h2'
    simp at hb
    refine ⟨.none, .var x, by simp [h1], rfl, ?_, ?_⟩
    · simp only [VExpr.width]; omega
    · rw [value_var (by rw [hb]; exact hne), hb]
  · by_cases h2 : w = 1
    · refine ⟨.single (szs.sum - (szs.take idx).sum - 1), _, by simp [h1, h2], rfl,
        by simp [VExpr.width, h2], ?_⟩
      rw [value_bit_dec (by omega) (by omega)]
      exact slice_eq hb hne (by omega) (by omega)
    · refine ⟨.range (szs.sum - (szs.take idx).sum - 1) (szs.sum - ((szs.take idx).sum + w)), _,
        by simp [h1, h2], rfl, by simp only [VExpr.width]; omega, ?_⟩
      rw [value_part (by omega)]
      exact slice_eq hb hne (by omega) (by omega)

/-- Reading member `i` of a tuple selects the bits after the earlier members. -/
theorem index_bits {Γ : Nat → MTy} {ty : MTy} {ts : List MTy} {r i : Nat} {t : MTy} {ρ : Env}
    {xs : Nat → Bool} {before here after : Bits} (hr : tupleTypes (Γ r) = some ts)
    (hi : ts[i]? = some t) (hty : ty.size = t.size)
    (hb : ρ (fwd r) = before ++ here ++ after) (hbefore : before.length = sizes (ts.take i))
    (hhere : here.length = t.size) (hf : (ρ (fwd r)).length = sizes ts)
    (h32 : sizes ts ≤ 2 ^ 32) : runOp Γ ty (.indexTuple i) [r] ρ xs = some here := by
  unfold runOp
  split
  · rw [List.length_eq_zero_iff.1 (by omega : here.length = 0)]
  · rename_i h0
    obtain ⟨ti, e, h1, h2, h3, h4⟩ := tupleIndex_value (ρ := ρ) (xs := xs) (x := fwd r) (idx := i)
      (w := t.size) (szs := ts.map MTy.size) (by simp [hi]) (by omega) hb
      (by rw [hbefore, sizes_eq_sum, List.map_take]) hhere
      (by rw [hf, sizes_eq_sum]) (by rw [← sizes_eq_sum]; exact h32)
    simp only [fwdCode, hr, h1, h2, Option.bind_eq_bind, Option.bind_some]
    rw [assigned_exact (by omega), h4]

/-! ## Arrays -/

theorem sum_const (l : List Nat) (w : Nat) (h : ∀ x ∈ l, x = w) : l.sum = w * l.length := by
  induction l with
  | nil => simp
  | cons x l ih =>
    simp only [List.mem_cons, forall_eq_or_imp] at h
    simp [ih h.2, h.1, Nat.mul_add, Nat.add_comm]

theorem allBits_const {f : Nat → Bits} {w : Nat} {ops : List Nat}
    (hf : ∀ o ∈ ops, (f o).length = w) : (allBits f ops).length = w * ops.length := by
  rw [allBits_length f (fun _ => w) ops hf, sum_const _ w (by simp)]; simp

/-- A constructed array holds its last element in the most significant bits. -/
theorem array_bits {Γ : Nat → MTy} {t ty : MTy} {ops : List Nat} {ρ : Env} (xs : Nat → Bool)
    (hty : ty.size = t.size * ops.length)
    (hf : ∀ o ∈ ops, (ρ (fwd o)).length = t.size) :
    runOp Γ ty .constructArray ops ρ xs = some (allBits (fun o => ρ (fwd o)) ops.reverse) := by
  have hf' : ∀ o ∈ ops.reverse, (ρ (fwd o)).length = t.size := fun o ho => hf o (by simpa using ho)
  have hlen := allBits_const hf'
  simp only [List.length_reverse] at hlen
  unfold runOp
  split
  · rename_i h0
    rw [List.length_eq_zero_iff.1
      (by omega : (allBits (fun o => ρ (fwd o)) ops.reverse).length = 0)]
  · rename_i h0
    have ht : t.size ≠ 0 := by intro hc; rw [hc] at hty; simp at hty; omega
    simp only [fwdCode]
    have hev := evals_vars ρ xs fwd ops.reverse (fun o ho hc => by
      have := hf' o ho; rw [hc] at this; simp at this; omega)
    have hw := evals_length _ _ _ _ hev
    rw [assigned_exact (by simp only [VExpr.width]; omega), value_concat hev]
    intro hc
    rw [hc] at hlen
    simp at hlen; omega

/-- Self-determined value of `i * w` used as an index. -/
theorem value_mul_dec {ρ : Env} {xs : Nat → Bool} {x w : Nat} (h0 : ρ x ≠ []) (hw : w < 2 ^ 32)
    (hlt : toNat (ρ x) * w < 2 ^ 32) :
    ∃ b, (VExpr.bin .mul (.var x) (.dec w)).eval ρ xs
      ((VExpr.bin .mul (.var x) (.dec w)).width ρ)
      (VExpr.bin .mul (.var x) (.dec w)).isSigned = some b ∧ toNat b = toNat (ρ x) * w := by
  have hl : (ρ x).length ≠ 0 := by simpa using h0
  have hp : (2:Nat) ^ 32 ≤ 2 ^ max (ρ x).length 32 :=
    Nat.pow_le_pow_right (by omega) (Nat.le_max_right _ _)
  simp only [VExpr.width, VExpr.isSigned, VExpr.eval, hl, if_false, Bool.false_and,
    Option.bind_eq_bind, Option.bind_some, arith]
  refine ⟨_, rfl, ?_⟩
  simp only [valOf, Bool.false_eq_true, if_false, toNat_resize_false (Nat.le_max_left _ _)]
  rw [toNat_resize_false (by simp; omega), toNat_ofNat, Nat.mod_eq_of_lt hw]
  have : ((toNat (ρ x) : Int) * (w : Int)) = ((toNat (ρ x) * w : Nat) : Int) := by simp
  rw [this, ofInt_natCast, toNat_ofNat, Nat.mod_eq_of_lt (by omega)]

/-- `x[i]` with a variable index. -/
theorem value_bit_var {ρ : Env} {xs : Nat → Bool} {x i : Nat} (h1 : 2 ≤ (ρ x).length)
    (hi : ρ i ≠ []) :
    (VExpr.bit x (.var i)).value ρ xs = slice (ρ x) (toNat (ρ i)) (toNat (ρ i)) := by
  have hl : (ρ i).length ≠ 0 := by simpa using hi
  simp only [VExpr.value, VExpr.eval, VExpr.width, Option.bind_eq_bind, hl, if_false,
    Option.bind_some]
  rw [if_neg (by omega), resize_self]
  cases hs : slice (ρ x) (toNat (ρ i)) (toNat (ρ i)) with
  | none => rfl
  | some r =>
    have := slice_length hs
    simp [resize_eq_self (show r.length = 1 by omega)]

/-- `x[base +: w]`. -/
theorem value_plus {ρ : Env} {xs : Nat → Bool} {x w : Nat} {base : VExpr} {b : Bits}
    (hb : base.value ρ xs = some b) (h1 : 2 ≤ (ρ x).length) (hw0 : w ≠ 0) :
    (VExpr.plus x base w).value ρ xs = slice (ρ x) (toNat b + w - 1) (toNat b) := by
  simp only [VExpr.value] at hb
  simp only [VExpr.value, VExpr.eval, VExpr.width, hb, Option.bind_eq_bind, Option.bind_some, hw0,
    if_false]
  rw [if_neg (by omega)]
  cases hs : slice (ρ x) (toNat b + w - 1) (toNat b) with
  | none => rfl
  | some r =>
    have := slice_length hs
    simp [resize_eq_self (show r.length = w by omega)]

/-- `x[i * w +: w]` with a variable index. -/
theorem value_plus_mul {ρ : Env} {xs : Nat → Bool} {x i w : Nat} (h1 : 2 ≤ (ρ x).length)
    (hi : ρ i ≠ []) (hw0 : w ≠ 0) (hw : w < 2 ^ 32) (hlt : toNat (ρ i) * w < 2 ^ 32) :
    (VExpr.plus x (.bin .mul (.var i) (.dec w)) w).value ρ xs =
      slice (ρ x) (toNat (ρ i) * w + w - 1) (toNat (ρ i) * w) := by
  obtain ⟨b, hb, hv⟩ := value_mul_dec (xs := xs) hi hw hlt
  rw [value_plus hb h1 hw0, hv]

/-- Selecting element `i` of an array stored with element 0 in the least significant bits. -/
theorem element_value {ρ : Env} {xs : Nat → Bool} {x i w k n : Nat} {before here after : Bits}
    (hb : ρ x = before ++ here ++ after) (hhere : here.length = w) (hafter : after.length = w * k)
    (hk : toNat (ρ i) = k) (hi : ρ i ≠ []) (hw0 : w ≠ 0) (hn : n ≠ 1) (hkn : k < n)
    (htot : (ρ x).length = w * n) (h32 : w * n ≤ 2 ^ 32) :
    (w = 1 → (VExpr.bit x (.var i)).value ρ xs = some here) ∧
    (VExpr.plus x (.bin .mul (.var i) (.dec w)) w).value ρ xs = some here := by
  have hlen := congrArg List.length hb
  simp at hlen
  have hne : here ≠ [] := by intro hc; rw [hc] at hhere; simp at hhere; omega
  have h2 : 2 ≤ n := by omega
  have h3 : w * 2 ≤ w * n := Nat.mul_le_mul_left w h2
  have h4 : w * (k + 1) ≤ w * n := Nat.mul_le_mul_left w hkn
  rw [Nat.mul_add] at h4
  refine ⟨fun hw1 => ?_, ?_⟩
  · subst hw1
    rw [value_bit_var (by omega) hi, hk]
    exact slice_eq hb hne (by omega) (by omega)
  · have hc : k * w = w * k := Nat.mul_comm _ _
    rw [value_plus_mul (by omega) hi hw0 (by omega) (by rw [hk]; omega), hk]
    exact slice_eq hb hne (by omega) (by omega)

/-- Splitting a reversed concatenation at element `k`. -/
theorem allBits_reverse_split (f : Nat → Bits) (ops : List Nat) (k o : Nat) (h : ops[k]? = some o) :
    allBits f ops.reverse =
      allBits f (ops.drop (k + 1)).reverse ++ f o ++ allBits f (ops.take k).reverse := by
  have hk : k < ops.length := by
    rcases Nat.lt_or_ge k ops.length with h' | h'
    · exact h'
    · rw [List.getElem?_eq_none h'] at h; cases h
  have he : ops = ops.take k ++ o :: ops.drop (k + 1) := by
    rw [List.getElem?_eq_getElem hk] at h
    cases h
    simp
  have := congrArg (fun l => allBits f (List.reverse l)) he
  refine Eq.trans this ?_
  simp [allBits]

/-- Reading element `k` of an array. -/
theorem indexArray_bits {Γ : Nat → MTy} {t ty : MTy} {n r i k : Nat} {ρ : Env} {xs : Nat → Bool}
    {before here after : Bits} (hr : Γ r = .array t n) (hty : ty.size = t.size)
    (hb : ρ (fwd r) = before ++ here ++ after) (hhere : here.length = t.size)
    (hafter : after.length = t.size * k) (hk : toNat (ρ (fwd i)) = k)
    (hi : n ≠ 1 → ρ (fwd i) ≠ []) (hkn : k < n)
    (hf : Fits Γ ρ r) (h32 : t.size * n ≤ 2 ^ 32) :
    runOp Γ ty .indexArray [r, i] ρ xs = some here := by
  simp only [Fits, hr, MTy.size] at hf
  have hlen := congrArg List.length hb
  simp at hlen
  unfold runOp
  split
  · rw [List.length_eq_zero_iff.1 (by omega : here.length = 0)]
  · rename_i h0
    simp only [fwdCode, hr, hty]
    by_cases hn1 : n = 1
    · subst hn1
      have h1 : before = [] := List.length_eq_zero_iff.1 (by omega)
      have h2 : after = [] := List.length_eq_zero_iff.1 (by omega)
      subst h1 h2
      simp at hb
      simp only [ne_eq, not_true, if_false]
      rw [assigned_var (by omega) (by omega), hb]
    · obtain ⟨hv1, hv2⟩ := element_value (xs := xs) hb hhere hafter hk (hi hn1) (by omega) hn1 hkn
        hf h32
      simp only [ne_eq, hn1, not_false_eq_true, if_true]
      by_cases h1 : t.size = 1
      · simp only [h1, if_true]
        rw [assigned_exact (by simp [VExpr.width]), hv1 h1]
      · simp only [h1, if_false]
        rw [assigned_exact (by simp [VExpr.width]), hv2]

end Spade.Codegen

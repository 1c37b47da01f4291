import Verif.Codegen.Props
/-!
# C09 Array elements round trip
-/
namespace Spade.Codegen
open Spade.Verilog

/-- C09, elements: indexing a constructed array with an index whose value is `k` gives the bits of
element `k`. -/
theorem C09_index_round_trip (Γ : Nat → MTy) (t : MTy) (ops : List Nat) (ρ : Env) (xs : Nat → Bool)
    (hops : ∀ o ∈ ops, Γ o = t) (hf : ∀ o ∈ ops, Fits Γ ρ o)
    (h32 : t.size * ops.length ≤ 2 ^ 32) :
    ∃ bits, runOp Γ (.array t ops.length) .constructArray ops ρ xs = some bits ∧
      ∀ (r i k o : Nat) (ρ' : Env) (xs' : Nat → Bool), Γ r = .array t ops.length →
        ρ' (fwd r) = bits → ρ' (fwd i) ≠ [] → toNat (ρ' (fwd i)) = k → ops[k]? = some o →
        runOp Γ t .indexArray [r, i] ρ' xs' = some (ρ (fwd o)) := by
  have hf' : ∀ o ∈ ops, (ρ (fwd o)).length = t.size := fun o ho => by
    have := hf o ho; rw [Fits, hops o ho] at this; exact this
  have hfr : ∀ o ∈ ops.reverse, (ρ (fwd o)).length = t.size := fun o ho => hf' o (by simpa using ho)
  refine ⟨_, array_bits (t := t) xs (by simp [MTy.size]) hf', ?_⟩
  intro r i k o ρ' xs' hr hb hi hk ho
  have hlt : k < ops.length := by
    rcases Nat.lt_or_ge k ops.length with h | h
    · exact h
    · rw [List.getElem?_eq_none h] at ho; cases ho
  refine indexArray_bits (before := allBits (fun o => ρ (fwd o)) (ops.drop (k + 1)).reverse)
    (after := allBits (fun o => ρ (fwd o)) (ops.take k).reverse) hr rfl ?_ ?_ ?_ hk (fun _ => hi)
    hlt ?_ h32
  · rw [hb]; exact allBits_reverse_split _ ops k o ho
  · exact hf' o (List.mem_of_getElem? ho)
  · rw [allBits_const (w := t.size) (fun o ho => hf' o (List.mem_of_mem_take (by simpa using ho)))]
    simp; rw [Nat.min_eq_left (by omega)]
  · simp only [Fits, hr, hb, MTy.size]
    rw [allBits_const hfr]; simp

/-- Splitting a reversed concatenation at a range of elements. -/
theorem allBits_reverse_range (f : Nat → Bits) (ops : List Nat) (a b : Nat) (hab : a ≤ b) :
    allBits f ops.reverse = allBits f (ops.drop b).reverse ++
      allBits f ((ops.take b).drop a).reverse ++ allBits f (ops.take a).reverse := by
  have h1 : ops.take a = (ops.take b).take a := by rw [List.take_take, Nat.min_eq_left hab]
  have he : ops = ops.take a ++ (ops.take b).drop a ++ ops.drop b := by
    rw [h1, List.take_append_drop, List.take_append_drop]
  refine Eq.trans (congrArg (fun l => allBits f (List.reverse l)) he) ?_
  simp [allBits]

/-- Reading a range of elements. -/
theorem rangeIndex_bits {Γ : Nat → MTy} {t : MTy} {n r a b : Nat} {ρ' : Env} {xs' : Nat → Bool}
    {B H A : Bits} (hr : Γ r = .array t n) (hab : a ≤ b) (hb : b ≤ n)
    (hρ : ρ' (fwd r) = B ++ H ++ A) (hm : H.length = t.size * (b - a))
    (ha : A.length = t.size * a) (hρl : (ρ' (fwd r)).length = t.size * n)
    (h32 : t.size * n ≤ 2 ^ 32) :
    runOp Γ (.array t (b - a)) (.rangeIndexArray a b) [r] ρ' xs' = some H := by
  have hbl := congrArg List.length hρ
  simp only [List.length_append] at hbl
  have hsz : (MTy.array t (b - a)).size = t.size * (b - a) := by simp [MTy.size]
  unfold runOp
  rw [hsz]
  by_cases h0 : t.size * (b - a) = 0
  · rw [if_pos h0, List.length_eq_zero_iff.1 (by omega : H.length = 0)]
  · rw [if_neg h0]
    have ht : t.size ≠ 0 := by intro hz; simp [hz] at h0
    have hab : a < b := by
      rcases Nat.lt_or_eq_of_le hab with h | h
      · exact h
      · rw [h] at h0; simp at h0
    have hne : H ≠ [] := by intro hz; rw [hz] at hm; simp at hm; omega
    simp only [fwdCode, hr]
    rw [if_neg (by omega)]
    have hmul1 : t.size * b = t.size * a + t.size * (b - a) := by
      rw [← Nat.mul_add]; congr 1; omega
    have hmul2 : t.size * b ≤ t.size * n := Nat.mul_le_mul_left _ hb
    by_cases h1 : n = 1
    · simp only [h1, if_true]
      have hz : b = 1 ∧ a = 0 := by omega
      have hA : A = [] := List.length_eq_zero_iff.1 (by rw [ha, hz.2]; simp)
      have hB : B = [] := List.length_eq_zero_iff.1 (by
        rw [h1] at hρl; rw [hz.1, hz.2] at hm; simp at hm; rw [hA] at hbl; simp at hbl hρl; omega)
      rw [hA, hB] at hρ
      simp at hρ
      rw [assigned_var (by rw [hρl, h1, hz.1, hz.2]) h0, hρ]
    · simp only [h1, if_false]
      have h2 : t.size * 2 ≤ t.size * n := Nat.mul_le_mul_left _ (by omega)
      have hlen2 : 2 ≤ (ρ' (fwd r)).length := by omega
      by_cases h3 : t.size = 1 ∧ b - a = 1
      · simp only [h3, and_self, if_true]
        rw [assigned_exact (by simp [VExpr.width]), value_bit_dec hlen2
          (by rw [h3.1, Nat.one_mul] at h32; omega)]
        simp only [h3, Nat.one_mul] at hm ha
        exact slice_eq hρ hne (by omega) (by omega)
      · rw [if_neg h3]
        have hcomm : b * t.size = t.size * b := Nat.mul_comm _ _
        rw [if_neg (by
          rw [hcomm]
          have : t.size * 1 ≤ t.size * b := Nat.mul_le_mul_left _ (by omega)
          omega)]
        simp only
        rw [assigned_exact (by simp [VExpr.width])]
        have : (VExpr.minus (fwd r) (b * t.size - 1) (t.size * (b - a))).value ρ' xs' =
            slice (ρ' (fwd r)) (b * t.size - 1) (b * t.size - 1 + 1 - t.size * (b - a)) := by
          simp only [VExpr.value, VExpr.eval, VExpr.width, h0, false_or]
          rw [if_neg (by omega), if_neg (by omega)]
          cases hs : slice (ρ' (fwd r)) (b * t.size - 1) (b * t.size - 1 + 1 - t.size * (b - a)) with
          | none => rfl
          | some v =>
            have := slice_length hs
            simp [resize_eq_self (show v.length = t.size * (b - a) by omega)]
        rw [this]
        exact slice_eq hρ hne (by omega) (by omega)

/-- C09, ranges: `array[a..b]` gives exactly the array of the elements `a ≤ k < b`. -/
theorem C09_range_index (Γ : Nat → MTy) (t : MTy) (ops : List Nat) (ρ : Env) (xs : Nat → Bool)
    (hops : ∀ o ∈ ops, Γ o = t) (hf : ∀ o ∈ ops, Fits Γ ρ o)
    (h32 : t.size * ops.length ≤ 2 ^ 32) (a b : Nat) (hab : a < b) (hb : b ≤ ops.length)
    (bits : Bits) (hc : runOp Γ (.array t ops.length) .constructArray ops ρ xs = some bits)
    (r : Nat) (ρ' : Env) (xs' : Nat → Bool) (hr : Γ r = .array t ops.length)
    (hbits : ρ' (fwd r) = bits) :
    runOp Γ (.array t (b - a)) (.rangeIndexArray a b) [r] ρ' xs' =
      runOp Γ (.array t (b - a)) .constructArray ((ops.take b).drop a) ρ xs := by
  have hf' : ∀ o ∈ ops, (ρ (fwd o)).length = t.size := fun o ho => by
    have := hf o ho; rw [Fits, hops o ho] at this; exact this
  have hfr : ∀ o ∈ ops.reverse, (ρ (fwd o)).length = t.size := fun o ho => hf' o (by simpa using ho)
  have hfs : ∀ o ∈ (ops.take b).drop a, (ρ (fwd o)).length = t.size := fun o ho =>
    hf' o (List.mem_of_mem_take (List.mem_of_mem_drop ho))
  have hsl : ((ops.take b).drop a).length = b - a := by simp; omega
  rw [array_bits (t := t) xs (by simp [MTy.size]) hf'] at hc
  rw [array_bits (t := t) xs (by simp only [MTy.size]; rw [hsl]) hfs]
  have hsplit := allBits_reverse_range (fun o => ρ (fwd o)) ops a b (by omega)
  have hlen : (allBits (fun o => ρ (fwd o)) ops.reverse).length = t.size * ops.length := by
    rw [allBits_const hfr]; simp
  have hm : (allBits (fun o => ρ (fwd o)) ((ops.take b).drop a).reverse).length =
      t.size * (b - a) := by
    rw [allBits_const (w := t.size) (fun o ho => hfs o (by simpa using ho))]; simp [hsl]
  have ha : (allBits (fun o => ρ (fwd o)) (ops.take a).reverse).length = t.size * a := by
    rw [allBits_const (w := t.size) (fun o ho => hf' o (List.mem_of_mem_take (by simpa using ho)))]
    simp; rw [Nat.min_eq_left (by omega)]
  have hρ : ρ' (fwd r) = allBits (fun o => ρ (fwd o)) ops.reverse := by
    rw [hbits]; exact (Option.some.inj hc).symm
  rw [hsplit] at hρ
  have hρl : (ρ' (fwd r)).length = t.size * ops.length := by rw [hρ, ← hsplit, hlen]
  exact rangeIndex_bits hr (by omega) hb hρ hm ha hρl h32

/-- C09, backward elements: if `arr` is constructed from `ops` and `x` is `arr[i]`, then the
backward bits of the selected element are those of `x`. -/
theorem C09_backward_index (Γ : Nat → MTy) (t : MTy) (ops : List Nat) (ρ : Env) (xs : Nat → Bool)
    (arr x i k o : Nat) (hops : ∀ o ∈ ops, Γ o = t) (harr : Γ arr = .array t ops.length)
    (hx : Γ x = t) (hf : ∀ n, FitsBack Γ ρ n) (h32 : t.backSize * ops.length ≤ 2 ^ 32)
    (hi : ρ (fwd i) ≠ []) (hk : toNat (ρ (fwd i)) = k) (ho : ops[k]? = some o)
    (hcon : BackHolds Γ ρ xs arr .constructArray ops)
    (hidx : BackHolds Γ ρ xs x .indexArray [arr, i]) :
    ρ (back o) = ρ (back x) := by
  have hlt : k < ops.length := by
    rcases Nat.lt_or_ge k ops.length with h | h
    · exact h
    · rw [List.getElem?_eq_none h] at ho; cases ho
  have hf' : ∀ o ∈ ops, (ρ (back o)).length = t.backSize := fun o ho => by
    have := hf o; rw [FitsBack, hops o ho] at this; exact this
  have hfr : ∀ o ∈ ops.reverse, (ρ (back o)).length = t.backSize :=
    fun o ho => hf' o (by simpa using ho)
  have hlen : (allBits (fun o => ρ (back o)) ops.reverse).length = t.backSize * ops.length := by
    rw [allBits_const hfr]; simp
  have hsplit := allBits_reverse_split (fun o => ρ (back o)) ops k o ho
  have hfa : (ρ (back arr)).length = t.backSize * ops.length := by
    have := hf arr; rw [FitsBack, harr] at this; simpa [MTy.backSize] using this
  have hfx : (ρ (back x)).length = t.backSize := by have := hf x; rw [FitsBack, hx] at this; exact this
  have hfo := hf' o (List.mem_of_getElem? ho)
  by_cases h0 : t.backSize = 0
  · rw [List.length_eq_zero_iff.1 (by omega : (ρ (back o)).length = 0),
      List.length_eq_zero_iff.1 (by omega : (ρ (back x)).length = 0)]
  · have hne : ρ (back o) ≠ [] := by intro hc; rw [hc] at hfo; simp at hfo; omega
    have h1 : t.backSize * 1 ≤ t.backSize * ops.length := Nat.mul_le_mul_left _ (by omega)
    obtain ⟨e1, hc1, hd1⟩ := hcon (by rw [harr, MTy.backSize]; omega)
    obtain ⟨e2, hc2, hd2⟩ := hidx (by rw [hx]; exact h0)
    simp only [backCode, Option.some.injEq] at hc1
    subst hc1
    have hev := evals_vars ρ xs back ops.reverse (fun o ho hc => by
      have := hfr o ho; rw [hc] at this; simp at this; omega)
    have hane : allBits (fun o => ρ (back o)) ops.reverse ≠ [] := by
      intro hc; rw [hc] at hlen; simp at hlen; omega
    have hρ := drives_var hd1 (value_concat hev hane) (by rw [hfa, hlen]) hane
    rw [hsplit] at hρ
    have haft : (allBits (fun o => ρ (back o)) (ops.take k).reverse).length = t.backSize * k := by
      rw [allBits_const (w := t.backSize)
        (fun o ho => hf' o (List.mem_of_mem_take (by simpa using ho)))]
      simp; rw [Nat.min_eq_left (by omega)]
    simp only [backCode, harr, hx] at hc2
    by_cases hn1 : ops.length = 1
    · simp only [hn1, ne_eq, not_true, if_false, Option.some.injEq] at hc2
      subst hc2
      have hbl := congrArg List.length hρ
      simp only [List.length_append] at hbl
      rw [hn1] at hfa
      have hA := List.length_eq_zero_iff.1
        (by omega : (allBits (fun o => ρ (back o)) (ops.drop (k + 1)).reverse).length = 0)
      have hB := List.length_eq_zero_iff.1
        (by omega : (allBits (fun o => ρ (back o)) (ops.take k).reverse).length = 0)
      rw [hA, hB] at hρ
      simp at hρ
      have hane2 : ρ (back arr) ≠ [] := by rw [hρ]; exact hne
      have := drives_var hd2 (value_var hane2) (by omega) hane2
      rw [this, hρ]
    · obtain ⟨hv1, hv2⟩ := element_value (xs := xs) hρ hfo haft hk hi h0 hn1 hlt hfa h32
      simp only [ne_eq, hn1, not_false_eq_true, if_true] at hc2
      split at hc2 <;> rename_i hm <;> cases hc2
      · exact (drives_var hd2 (hv1 hm) (by omega) hne).symm
      · exact (drives_var hd2 hv2 (by omega) hne).symm

/-- C09 fails for range indexing in the backward direction: the code uses the forward width of
the elements (codegen/mod.rs:858), which is 0 for elements that are purely backward, so the
emitted select `x[start * 0 +: 0]` is not valid Verilog and no valuation of the nets satisfies it. -/
theorem C09_counterexample_backward_range (Γ : Nat → MTy) (ρ : Env) (xs : Nat → Bool)
    (h0 : Γ 0 = .array (.backward .bool) 4) (h1 : Γ 1 = .array (.backward .bool) 2) :
    ¬ BackHolds Γ ρ xs 1 (.rangeIndexArray 1 3) [0] := by
  intro h
  obtain ⟨e, hc, bits, hv, _⟩ := h (by simp [h1, MTy.backSize, MTy.size])
  simp [backCode, h0, MTy.size] at hc
  subst hc
  simp [VExpr.value, VExpr.eval, VExpr.width, arith] at hv

/-- C09, bit ranges, partial: `RangeIndexBits` reads bits `a` to `b - 1`, when it does not touch
the most significant bit of the value.  Missing: ranges that end at the top
(`C09_counterexample_bit_range`). -/
theorem C09_bit_range_partial (Γ : Nat → MTy) (ty : MTy) (r a b : Nat) (ρ : Env)
    (xs : Nat → Bool) (hab : a < b) (hty : ty.size = b - a) (hb : b < (ρ (fwd r)).length)
    (h32 : b ≤ 2 ^ 32) :
    runOp Γ ty (.rangeIndexBits a b) [r] ρ xs = slice (ρ (fwd r)) (b - 1) a := by
  simp only [runOp, fwdCode]
  rw [if_neg (by omega), if_neg (by omega)]
  by_cases h1 : b - a = 1
  · simp only [h1, if_true]
    rw [assigned_exact (by simp [VExpr.width, hty, h1]), value_bit_dec (by omega) (by omega)]
    congr 1; omega
  · simp only [h1, if_false]
    have hs1 : slice (ρ (fwd r)) b a =
        some (((ρ (fwd r)).drop ((ρ (fwd r)).length - 1 - b)).take (b - a + 1)) := by
      simp only [slice]; rw [if_pos (by omega)]
    have hs2 : slice (ρ (fwd r)) (b - 1) a =
        some (((ρ (fwd r)).drop ((ρ (fwd r)).length - 1 - (b - 1))).take (b - 1 - a + 1)) := by
      simp only [slice]; rw [if_pos (by omega)]
    have hl := slice_length hs1
    have hmax : max ty.size (b - a + 1) = b - a + 1 := by omega
    simp only [assigned, VExpr.width, VExpr.isSigned, VExpr.eval, Option.bind_eq_bind]
    rw [if_neg (by omega), hs2, hs1, hmax]
    simp only [Option.bind_some, hty]
    rw [resize_eq_self hl, hl]
    rw [List.drop_take, List.drop_drop]
    congr 2
    · omega
    · congr 1; omega

/-- Reading the two most significant bits of a 4-bit value: the emitted select is `x[4:2]`, which
is out of range (codegen/mod.rs:522). -/
theorem C09_counterexample_bit_range (Γ : Nat → MTy) (ρ : Env) (xs : Nat → Bool)
    (h : (ρ (fwd 0)).length = 4) :
    runOp Γ (.uint 2) (.rangeIndexBits 2 4) [0] ρ xs = none := by
  simp [runOp, MTy.size, fwdCode, assigned, VExpr.eval, slice, h]

/-- The hypotheses of the C09 theorems are met by a three element array. -/
example : ∃ (Γ : Nat → MTy) (ρ : Env), (∀ o ∈ [0, 1, 2], Γ o = .uint 2) ∧
    (∀ o ∈ [0, 1, 2], Fits Γ ρ o) ∧ Γ 3 = .array (.uint 2) 3 ∧ toNat (ρ (fwd 4)) = 2 ∧
    ρ (fwd 4) ≠ [] := by
  refine ⟨fun n => if n = 3 then .array (.uint 2) 3 else .uint 2,
    fun x => if x = 8 then [true, false] else [true, true], ?_, ?_, ?_, ?_, ?_⟩ <;>
    simp [Fits, MTy.size, fwd, toNat]

/-- Satisfiable hypotheses for `C09_backward_index`. -/
example : ∃ (Γ : Nat → MTy) (ρ : Env), (∀ o ∈ [0, 1], Γ o = .backward .bool) ∧
    Γ 2 = .array (.backward .bool) 2 ∧ Γ 3 = .backward .bool ∧ (∀ n, FitsBack Γ ρ n) ∧
    toNat (ρ (fwd 4)) = 1 ∧ ρ (fwd 4) ≠ [] ∧
    BackHolds Γ ρ (fun _ => false) 2 .constructArray [0, 1] ∧
    BackHolds Γ ρ (fun _ => false) 3 .indexArray [2, 4] := by
  refine ⟨fun n => [.backward .bool, .backward .bool, MTy.array (.backward .bool) 2,
      .backward .bool].getD n (.uint 1),
    fun x => ([[], [false], [], [true], [], [true, false], [], [true], [true]] : List Bits).getD x [],
    by simp, rfl, rfl, ?_, by decide, by decide, ?_, ?_⟩
  · intro n
    rcases n with _ | _ | _ | _ | n <;>
      simp [FitsBack, back, MTy.backSize, MTy.size, List.getD_eq_getElem?_getD]
    rw [List.getElem?_eq_none (by simp; omega)]; rfl
  · intro _; exact ⟨_, rfl, [true, false], by decide, by decide⟩
  · intro _; exact ⟨_, rfl, [true], by decide, by decide⟩

end Spade.Codegen

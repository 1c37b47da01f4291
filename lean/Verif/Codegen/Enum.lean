import Verif.Codegen.Lemmas
import Verif.Codegen.Spec
/-!
# Enums: bits of a constructed variant, variant test, member access
-/
namespace Spade.Codegen
open Spade.Verilog

theorem ofNat_inj {w i j : Nat} (hi : i < 2 ^ w) (hj : j < 2 ^ w) (h : ofNat w i = ofNat w j) :
    i = j := by
  have := congrArg toNat h
  rwa [toNat_ofNat, toNat_ofNat, Nat.mod_eq_of_lt hi, Nat.mod_eq_of_lt hj] at this

/-- An unsigned comparison of two expressions of the same width, assigned to a bit. -/
theorem assigned_eq {ρ : Env} {xs} {a b : VExpr} {w : Nat} {va vb : Bits}
    (hwa : a.width ρ = w) (hwb : b.width ρ = w) (hsa : a.isSigned = false)
    (hsb : b.isSigned = false) (ha : a.value ρ xs = some va) (hb : b.value ρ xs = some vb) :
    assigned ρ xs 1 (.bin .eq a b) = some [decide (va = vb)] := by
  simp only [VExpr.value, hwa, hsa, hwb, hsb] at ha hb
  simp [assigned, VExpr.width, VExpr.isSigned, VExpr.eval, hwa, hwb, hsa, hsb, ha, hb, Verilog.compare,
    ofBool, resize]

theorem assigned_dec_one {ρ : Env} {xs} : assigned ρ xs 1 (.dec 1) = some [true] := by
  simp [assigned, VExpr.width, VExpr.isSigned, VExpr.eval, resize, ofNat]

/-- Filtering zero-size members by the declared member types. -/
theorem included_eq (Γ : Nat → MTy) (ops : List Nat) :
    (((ops.map Γ).zip ops).filterMap fun p =>
      if p.1.size ≠ 0 then some (VExpr.var (fwd p.2)) else none) =
    (ops.filter fun o => (Γ o).size != 0).map fun o => .var (fwd o) := by
  induction ops with
  | nil => rfl
  | cons o os ih =>
    simp only [ne_eq, ite_not] at ih
    by_cases h : (Γ o).size = 0 <;> simp [h, ih]

/-- The bits of variant `i` with member bits `ms`: tag, members, padding. -/
theorem construct_bits {Γ : Nat → MTy} {opts : List (List MTy)} {i : Nat} {ops : List Nat}
    {ρ : Env} (xs : Nat → Bool) (hv : opts[i]? = some (ops.map Γ)) (hf : ∀ o ∈ ops, Fits Γ ρ o) :
    runOp Γ (.enum opts) (.constructEnum i) ops ρ xs =
      some (ofNat (tagSize opts.length) i ++ allBits (fun o => ρ (fwd o)) ops ++
        (List.range ((MTy.enum opts).size - tagSize opts.length - sizes (ops.map Γ))).map xs) := by
  have hle := sizes_le_max hv
  have hlen : (allBits (fun o => ρ (fwd o)) ops).length = sizes (ops.map Γ) := by
    rw [allBits_length _ (fun o => (Γ o).size) _ hf, sizes_eq_sum, List.map_map]; rfl
  have hs : (MTy.enum opts).size = tagSize opts.length + maxSize opts := by simp [MTy.size]
  generalize hS : (MTy.enum opts).size = S at *
  generalize hT : tagSize opts.length = T at *
  generalize hM : sizes (ops.map Γ) = M at *
  generalize hA : allBits (fun o => ρ (fwd o)) ops = A at *
  unfold runOp
  split
  · have hT0 : T = 0 := by omega
    have hM0 : M = 0 := by omega
    have : A = [] := List.length_eq_zero_iff.1 (by omega)
    simp [hT0, this, ofNat, show S = 0 by omega]
  · simp only [fwdCode, hv, hT, hM, hS, Option.bind_eq_bind, Option.bind_some]
    rw [if_neg (by omega), included_eq]
    simp only
    have hev : evals ρ xs ((if T ≠ 0 then [VExpr.lit T i] else []) ++
        ((ops.filter fun o => (Γ o).size != 0).map fun o => .var (fwd o)) ++
        (if S - T - M ≠ 0 then [VExpr.undef (S - T - M)] else [])) =
        some (ofNat T i ++ A ++ (List.range (S - T - M)).map xs) := by
      apply evals_append
      · apply evals_append
        · split
          · exact evals_one value_lit
          · rename_i h; simp at h; subst h; simp [evals, ofNat]
        · rw [evals_filtered ρ xs fwd (fun o => (Γ o).size) ops hf, hA]
      · split
        · exact evals_one value_undef
        · rename_i h; simp at h; simp [evals, h]
    have hw := evals_length _ _ _ _ hev
    simp only [List.length_append, ofNat_length, List.length_map, List.length_range] at hw
    rw [assigned_exact, value_concat hev]
    · intro hc
      have := congrArg List.length hc
      simp only [List.length_append, ofNat_length, List.length_map, List.length_range,
        List.length_nil] at this
      omega
    · simp only [VExpr.width]
      omega

/-- Testing a value whose top bits are the tag of variant `i`. -/
theorem isVariant_bits {Γ : Nat → MTy} {opts : List (List MTy)} {i j r : Nat} {ρ : Env}
    {xs : Nat → Bool} {rest : Bits} (hr : Γ r = .enum opts) (hi : i < opts.length)
    (hj : j < opts.length) (hb : ρ (fwd r) = ofNat (tagSize opts.length) i ++ rest)
    (hf : Fits Γ ρ r) (h32 : (MTy.enum opts).size ≤ 2 ^ 32) :
    runOp Γ .bool (.isEnumVariant j) [r] ρ xs = some [decide (i = j)] := by
  have hi' := variant_lt_tag hi
  have hj' := variant_lt_tag hj
  have ht0 : tagSize opts.length = 0 → i = j := fun h => by
    have := tagSize_zero h; omega
  have hts : tagSize opts.length ≤ (MTy.enum opts).size := by simp [MTy.size]
  simp only [Fits, hr] at hf
  simp only [runOp, MTy.size, Nat.one_ne_zero, if_false, fwdCode, hr]
  simp only [MTy.size] at hf h32 hts
  generalize hS : tagSize opts.length + maxSize opts = S at *
  generalize hT : tagSize opts.length = T at *
  have hdec : decide (ofNat T i = ofNat T j) = decide (i = j) := by
    by_cases h : i = j
    · simp [h]
    · simp only [h, decide_false, decide_eq_false_iff_not]; exact fun hc => h (ofNat_inj hi' hj' hc)
  have hlen := congrArg List.length hb
  simp at hlen
  by_cases hS0 : S = 0
  · have hij := ht0 (by omega)
    rw [if_pos hS0]
    simp [assigned_dec_one, hij]
  · rw [if_neg hS0]
    by_cases hT0 : T = 0
    · simp [hT0, assigned_dec_one, ht0 hT0]
    · simp only [hT0, if_false]
      by_cases hS1 : S = 1
      · have hT1 : T = 1 := by omega
        have : rest = [] := List.length_eq_zero_iff.1 (by omega)
        subst this hT1
        simp at hb
        simp only [hS1, if_true]
        have hne : ρ (fwd r) ≠ [] := by intro hc; rw [hc] at hf; simp at hf; omega
        have := assigned_eq (ρ := ρ) (xs := xs) (a := .var (fwd r)) (b := .lit 1 j) (w := 1)
          (by simp [VExpr.width, hf, hS1]) rfl rfl rfl (value_var hne) value_lit
        rw [this, hb, hdec]
      · simp only [hS1, if_false]
        have hne : ofNat T i ≠ [] := by
          intro hc; have := congrArg List.length hc; simp at this; omega
        have hsl : slice (ρ (fwd r)) (S - 1) (S - T) = some (ofNat T i) :=
          slice_eq (a := []) (c := rest) (by simpa using hb) hne (by simp; omega) (by omega)
        by_cases hT1 : S - 1 = S - T
        · have hT1' : T = 1 := by omega
          simp only [hT1', if_true]
          have hv := value_bit_dec (ρ := ρ) (xs := xs) (x := fwd r) (i := S - 1) (by omega) (by omega)
          rw [← hT1] at hsl
          rw [hsl] at hv
          rw [assigned_eq (w := 1) rfl rfl rfl rfl hv value_lit]
          rw [hT1'] at hdec ⊢
          rw [hdec]
        · simp only [hT1, if_false]
          have hv := value_part (ρ := ρ) (xs := xs) (x := fwd r) (hi := S - 1) (lo := S - T) (by omega)
          rw [hsl] at hv
          rw [assigned_eq (w := T) (by simp only [VExpr.width]; omega) rfl rfl rfl hv value_lit, hdec]

/-- Reading member `m` of variant `i` reads the bits after the tag and the earlier members. -/
theorem member_bits {Γ : Nat → MTy} {opts : List (List MTy)} {i m r : Nat} {ρ : Env}
    {xs : Nat → Bool} {members : List MTy} {mty : MTy} {before here after : Bits}
    (hr : Γ r = .enum opts) (hv : opts[i]? = some members) (hm : members[m]? = some mty)
    (hb : ρ (fwd r) = before ++ here ++ after)
    (hbefore : before.length = tagSize opts.length + sizes (members.take m))
    (hhere : here.length = mty.size) (hf : Fits Γ ρ r)
    (h5 : opts.length ≠ 1 ∨ mty.size ≠ 1 ∨ (MTy.enum opts).size = 1) :
    runOp Γ mty (.enumMember i m) [r] ρ xs = some here := by
  have hlt : i < opts.length := by
    rcases Nat.lt_or_ge i opts.length with h | h
    · exact h
    · rw [List.getElem?_eq_none h] at hv; cases hv
  have htag : tagSize opts.length = 0 → opts.length = 1 := fun h => by
    have := tagSize_zero h; omega
  have hle := sizes_le_max hv
  have hsplit : sizes (members.take m) + mty.size ≤ sizes members := by
    have := sum_split (members.map MTy.size) m mty.size (by simp [hm])
    rw [sizes_eq_sum, sizes_eq_sum, List.map_take]; omega
  unfold runOp
  split
  · rename_i h0
    have : here = [] := List.length_eq_zero_iff.1 (by omega)
    rw [this]
  · rename_i h0
    simp only [Fits, hr] at hf
    simp only [fwdCode, hr, hv, hm, Option.bind_eq_bind, Option.bind_some]
    have hS : (MTy.enum opts).size = tagSize opts.length + maxSize opts := by simp [MTy.size]
    generalize (MTy.enum opts).size = S at *
    generalize tagSize opts.length = T at *
    generalize sizes (members.take m) = B at *
    rw [if_neg (by omega)]
    have hlen := congrArg List.length hb
    simp at hlen
    have hne : here ≠ [] := by intro hc; rw [hc] at hhere; simp at hhere; omega
    have hsl : slice (ρ (fwd r)) (S - (T + B) - 1) (S - (T + B + mty.size)) = some here :=
      slice_eq hb hne (by omega) (by omega)
    by_cases h1 : S - (T + B) - 1 = S - (T + B + mty.size) ∧ T = 0
    · rw [if_pos h1]
      have h1' := htag h1.2
      have hm1 : mty.size = 1 := by omega
      have hS1 : S = 1 := by omega
      have : before = [] := List.length_eq_zero_iff.1 (by omega)
      have h2 : after = [] := List.length_eq_zero_iff.1 (by omega)
      subst this h2
      simp at hb
      simp only [assigned_var (show (ρ (fwd r)).length = mty.size by omega) h0]
      rw [hb]
    · rw [if_neg h1]
      have hS2 : 2 ≤ (ρ (fwd r)).length := by
        rcases Nat.lt_or_ge (ρ (fwd r)).length 2 with h2 | h2
        · exfalso; apply h1; omega
        · exact h2
      simp only
      rw [assigned_exact (by simp only [VExpr.width]; omega), value_part hS2, hsl]

end Spade.Codegen

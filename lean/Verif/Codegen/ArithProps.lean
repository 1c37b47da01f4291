import Verif.Codegen.Arith
/-!
# C12 arithmetic, C42 comparisons, C43 width changes, C44 division, shifts and bitwise operators
-/
namespace Spade.Codegen
open Spade.Verilog

/-- The mathematical meaning of `+`, `-` and `*`. -/
def SrcBin.exact : SrcBin → Int → Int → Option Int
  | .add, x, y => some (x + y)
  | .sub, x, y => some (x - y)
  | .mul, x, y => some (x * y)
  | _, _, _ => none

theorem numVal_range {t : MTy} (hn : IsNum t) {b : Bits} (hl : b.length = t.size) :
    InRange t (numVal t b) := by
  cases t <;> simp only [IsNum] at hn
  · rename_i n
    simp only [MTy.size] at hl
    rcases n with _ | n
    · left; exact ⟨rfl, by rw [List.length_eq_zero_iff.1 hl]; rfl⟩
    · right; have := toInt_bounds hl; exact ⟨by omega, this.1, this.2⟩
  · rename_i n
    simp only [MTy.size] at hl
    simp only [InRange, numVal]
    exact ⟨by omega, by rw [← hl]; exact toNat_cast_lt b⟩

/-- A result computed modulo `2 ^ width` is exact if the exact result is a value of the type. -/
theorem numVal_ofInt {t : MTy} (hn : IsNum t) {z : Int} (h : InRange t z) :
    numVal t (ofInt t.size z) = z := by
  cases t <;> simp only [IsNum] at hn
  · rename_i n
    simp only [MTy.size, numVal]
    rcases h with ⟨h1, h2⟩ | ⟨h0, h1, h2⟩
    · subst h1 h2; rfl
    · obtain ⟨m, rfl⟩ : ∃ m, n = m + 1 := ⟨n - 1, by omega⟩
      exact toInt_ofInt h1 h2
  · rename_i n
    exact toNat_ofInt_exact h.1 h.2

theorem ne_nil_of_fits {Γ : Nat → MTy} {ρ : Env} {a : Nat} (hf : Fits Γ ρ a)
    (h : (Γ a).size ≠ 0) : ρ (fwd a) ≠ [] := by
  intro hc; rw [Fits, hc] at hf; simp at hf; omega

/-- What the three operators compute, before asking whether it fits. -/
theorem arith_bits {Γ : Nat → MTy} {ty : MTy} {op : SrcBin} {o : Op} {a b : Nat} {ρ : Env}
    {xs : Nat → Bool} {z : Int} (hty : BinTy op (Γ a) (Γ b) ty) (hop : lowerBin op (Γ a) = some o)
    (hfa : Fits Γ ρ a) (hfb : Fits Γ ρ b) (ha : (Γ a).size ≠ 0) (hb : (Γ b).size ≠ 0)
    (hz : op.exact (numVal (Γ a) (ρ (fwd a))) (numVal (Γ b) (ρ (fwd b))) = some z) :
    runOp Γ ty o [a, b] ρ xs = some (ofInt ty.size z) := by
  have hna := ne_nil_of_fits hfa ha
  have hnb := ne_nil_of_fits hfb hb
  have H := fun lw op s f h => assigned_arith (xs := xs) (lw := lw) (op := op) (s := s) (f := f)
    hna hnb h
  generalize hA : Γ a = A at *
  generalize hB : Γ b = B at *
  cases hty <;> simp only [lowerBin, dual, Option.some.injEq] at hop <;>
    simp only [SrcBin.exact, Option.some.injEq, reduceCtorEq] at hz <;> subst hop hz <;>
    simp only [MTy.size] at ha hb <;>
    rw [runOp_assign (by simp only [MTy.size]; rfl) (by omega) (by simp only [fwdCode, signedBinop, binop]; rfl)]
  · simpa [valOf, numVal, MTy.size] using H _ .add true _ (Or.inl ⟨rfl, rfl⟩)
  · simpa [valOf, numVal, MTy.size] using H _ .add false _ (Or.inl ⟨rfl, rfl⟩)
  · simpa [valOf, numVal, MTy.size] using H _ .sub true _ (Or.inr (Or.inl ⟨rfl, rfl⟩))
  · simpa [valOf, numVal, MTy.size] using H _ .sub false _ (Or.inr (Or.inl ⟨rfl, rfl⟩))
  · simpa [valOf, numVal, MTy.size] using H _ .mul true _ (Or.inr (Or.inr ⟨rfl, rfl⟩))
  · simpa [valOf, numVal, MTy.size] using H _ .mul false _ (Or.inr (Or.inr ⟨rfl, rfl⟩))

/-- The result type chosen by the type checker contains the exact result, except for the
difference of unsigned numbers. -/
theorem exact_inRange {op : SrcBin} {A B ty : MTy} {x y z : Int} (hty : BinTy op A B ty)
    (ha : A.size ≠ 0) (hb : B.size ≠ 0)
    (hx : InRange A x) (hy : InRange B y) (hz : op.exact x y = some z)
    (hsub : ∀ n, A = .uint n → op = .sub → y ≤ x) : InRange ty z := by
  cases hty <;> simp only [SrcBin.exact, Option.some.injEq, reduceCtorEq] at hz <;> subst hz <;>
    simp only [MTy.size] at ha hb <;> simp only [InRange] at hx hy ⊢
  · rename_i n
    obtain ⟨m, rfl⟩ : ∃ m, n = m + 1 := ⟨n - 1, by omega⟩
    have := pow_succ_int m
    simp only [Nat.add_sub_cancel] at *
    omega
  · rename_i n; have := pow_succ_int n; omega
  · rename_i n
    obtain ⟨m, rfl⟩ : ∃ m, n = m + 1 := ⟨n - 1, by omega⟩
    have := pow_succ_int m
    simp only [Nat.add_sub_cancel] at *
    omega
  · rename_i n; have := pow_succ_int n; have := hsub n rfl rfl; omega
  · rename_i n m
    obtain ⟨n, rfl⟩ : ∃ m, n = m + 1 := ⟨n - 1, by omega⟩
    obtain ⟨m, rfl⟩ : ∃ n, m = n + 1 := ⟨m - 1, by omega⟩
    have h1 := two_pow_pos n
    have h2 := two_pow_pos m
    simp only [Nat.add_sub_cancel] at hx hy
    have hb' := mul_bound (A := 2 ^ n) (B := 2 ^ m) (x := x) (y := y) (by omega) (by omega)
      (by omega) (by omega) (by omega)
    have he : n + 1 + (m + 1) - 1 = n + m + 1 := by omega
    have h3 : (2 : Int) ^ n * 2 ^ m = 2 ^ (n + m) := (Int.pow_add 2 n m).symm
    have h4 := two_pow_pos (n + m)
    have h5 := pow_succ_int (n + m)
    rw [he, h5]
    rw [h3] at hb'
    omega
  · rename_i n m
    have h3 : (2 : Int) ^ n * 2 ^ m = 2 ^ (n + m) := (Int.pow_add 2 n m).symm
    refine ⟨Int.mul_nonneg hx.1 hy.1, ?_⟩
    rw [← h3]
    rcases Int.lt_or_eq_of_le hy.1 with h | h
    · calc x * y < 2 ^ n * y := Int.mul_lt_mul_of_pos_right hx.2 h
        _ ≤ 2 ^ n * 2 ^ m := Int.mul_le_mul_of_nonneg_left (by omega) (Int.le_of_lt (two_pow_pos n))
    · rw [← h]; simp; rw [h3]; exact two_pow_pos _

/-- C12, partial: `+`, `-` and `*`, typed and lowered by the compiler, compute the exact result.
Missing: differences of unsigned numbers whose exact result is negative
(`C12_counterexample_uint_sub`); zero-width operands, which the compiler rejects
(spade-hir-lowering/src/passes/disallow_zero_size.rs). -/
theorem C12_exact_partial (Γ : Nat → MTy) (ty : MTy) (op : SrcBin) (o : Op) (a b : Nat) (ρ : Env)
    (xs : Nat → Bool) (z : Int) (hty : BinTy op (Γ a) (Γ b) ty)
    (hop : lowerBin op (Γ a) = some o) (hfa : Fits Γ ρ a) (hfb : Fits Γ ρ b)
    (ha : (Γ a).size ≠ 0) (hb : (Γ b).size ≠ 0)
    (hz : op.exact (numVal (Γ a) (ρ (fwd a))) (numVal (Γ b) (ρ (fwd b))) = some z)
    (hsub : ∀ n, Γ a = .uint n → op = .sub →
      numVal (Γ b) (ρ (fwd b)) ≤ numVal (Γ a) (ρ (fwd a))) :
    ∃ bits, runOp Γ ty o [a, b] ρ xs = some bits ∧ bits.length = ty.size ∧ numVal ty bits = z := by
  refine ⟨_, arith_bits hty hop hfa hfb ha hb hz, by simp, ?_⟩
  have hn : IsNum (Γ a) ∧ IsNum (Γ b) ∧ IsNum ty := by
    generalize Γ a = A at hty; generalize Γ b = B at hty
    cases hty <;> exact ⟨trivial, trivial, trivial⟩
  exact numVal_ofInt hn.2.2 (exact_inRange hty ha hb (numVal_range hn.1 hfa)
    (numVal_range hn.2.1 hfb) hz hsub)

/-- The missing part of C12: a negative difference of unsigned numbers is not exact; it is off by
`2 ^ (n + 1)`.  It does become exact when the result is read as a signed number, because the
result type is one bit wider than the operands. -/
theorem C12_counterexample_uint_sub (Γ : Nat → MTy) (n a b : Nat) (ρ : Env) (xs : Nat → Bool)
    (hta : Γ a = .uint n) (htb : Γ b = .uint n) (hn : n ≠ 0) (hfa : Fits Γ ρ a) (hfb : Fits Γ ρ b)
    (hlt : toNat (ρ (fwd a)) < toNat (ρ (fwd b))) :
    ∃ bits, runOp Γ (.uint (n + 1)) .unsignedSub [a, b] ρ xs = some bits ∧
      (toNat bits : Int) = toNat (ρ (fwd a)) - toNat (ρ (fwd b)) + 2 ^ (n + 1) ∧
      toInt bits = toNat (ρ (fwd a)) - toNat (ρ (fwd b)) := by
  have h := arith_bits (xs := xs) (z := (toNat (ρ (fwd a)) : Int) - toNat (ρ (fwd b)))
    (ty := .uint (n + 1)) (op := .sub) (o := .unsignedSub) (a := a) (b := b)
    (by rw [hta, htb]; exact .subUint) (by rw [hta]; rfl) hfa hfb (by rw [hta]; exact hn)
    (by rw [htb]; exact hn) (by rw [hta, htb]; rfl)
  refine ⟨_, h, ?_, ?_⟩
  · simp only [MTy.size]
    have hb : (toNat (ρ (fwd b)) : Int) < 2 ^ n := by
      have := toNat_cast_lt (ρ (fwd b)); rw [Fits, htb] at hfb; rw [hfb] at this; exact this
    have h2 := pow_succ_int n
    rw [toNat_ofInt, ← Int.add_emod_right, Int.emod_eq_of_lt (by omega) (by omega)]
  · simp only [MTy.size]
    have hb : (toNat (ρ (fwd b)) : Int) < 2 ^ n := by
      have := toNat_cast_lt (ρ (fwd b)); rw [Fits, htb] at hfb; rw [hfb] at this; exact this
    exact toInt_ofInt (by omega) (by omega)

/-- The hypotheses of `C12_exact_partial` are met: multiplying an `int<3>` and an `int<2>`. -/
example : ∃ (Γ : Nat → MTy) (ρ : Env) (o : Op), BinTy .mul (Γ 0) (Γ 1) (.int 5) ∧
    lowerBin .mul (Γ 0) = some o ∧ Fits Γ ρ 0 ∧ Fits Γ ρ 1 ∧
    SrcBin.mul.exact (numVal (Γ 0) (ρ (fwd 0))) (numVal (Γ 1) (ρ (fwd 1))) = some 6 := by
  refine ⟨fun n => if n = 0 then .int 3 else .int 2,
    fun x => if x = 0 then [true, false, true] else [true, false], _, .mulInt, rfl, rfl, rfl,
    by decide⟩

/-! ## C42 comparisons -/

/-- C42: comparing two numbers of the same type gives the mathematical answer, for signed and for
unsigned numbers of every width, including width 0. -/
theorem C42_comparison (Γ : Nat → MTy) (op : Cmp) (o : Op) (a b : Nat) (ρ : Env)
    (xs : Nat → Bool) (hn : IsNum (Γ a)) (heq : Γ b = Γ a) (hop : lowerCmp op (Γ a) = some o)
    (hfa : Fits Γ ρ a) (hfb : Fits Γ ρ b) :
    runOp Γ .bool o [a, b] ρ xs =
      some [op.holds (numVal (Γ a) (ρ (fwd a))) (numVal (Γ b) (ρ (fwd b)))] := by
  have hlen : (ρ (fwd a)).length = (ρ (fwd b)).length := by rw [hfa, hfb, heq]
  by_cases h0 : (Γ a).size = 0
  · have e1 : ρ (fwd a) = [] := List.length_eq_zero_iff.1 (by rw [hfa, h0])
    have e2 : ρ (fwd b) = [] := List.length_eq_zero_iff.1 (by rw [← hlen, hfa, h0])
    have hone : assigned ρ xs 1 (.lit 1 1) = some [true] := by
      rw [assigned_lit]; rfl
    have hzero : assigned ρ xs 1 (.lit 1 0) = some [false] := by
      rw [assigned_lit]; rfl
    have hv : numVal (Γ a) [] = 0 := by
      generalize Γ a = A at hn ⊢
      cases A <;> rfl
    rw [e1, e2, heq, hv]
    generalize hA : Γ a = A at *
    cases op <;> cases A <;> simp only [IsNum, lowerCmp, dual, Option.some.injEq, reduceCtorEq] at hn hop <;>
      subst hop <;>
      simp [runOp, MTy.size, fwdCode, signedBinop, binop, onZero, hA] <;>
      simp only [MTy.size] at h0 <;> simp [h0, hone, hzero, Cmp.holds]
  · have hna := ne_nil_of_fits hfa h0
    have hN := @toNat_eq_iff _ _ hlen
    have hI : toInt (ρ (fwd a)) = toInt (ρ (fwd b)) ↔ ρ (fwd a) = ρ (fwd b) :=
      ⟨toInt_inj hlen, fun h => by rw [h]⟩
    have H := fun op s r h1 h2 => assigned_cmp (xs := xs) (op := op) (s := s) (r := r) hna hlen h1 h2
    rw [heq]
    generalize hA : Γ a = A at *
    cases op <;> cases A <;>
      simp only [IsNum, lowerCmp, dual, Option.some.injEq, reduceCtorEq] at hn hop <;>
      subst hop <;> simp only [MTy.size] at h0 <;>
      simp only [runOp, MTy.size, fwdCode, signedBinop, binop, onZero, hA, h0, if_false,
        Option.map_some, numVal, Cmp.holds, Nat.one_ne_zero]
    · exact H .lt true _ (by simp) rfl
    · simpa [valOf, Verilog.compare] using H .lt false _ (by simp) rfl
    · exact H .le true _ (by simp) rfl
    · simpa [valOf, Verilog.compare] using H .le false _ (by simp) rfl
    · exact H .gt true _ (by simp) rfl
    · simpa [valOf, Verilog.compare] using H .gt false _ (by simp) rfl
    · exact H .ge true _ (by simp) rfl
    · simpa [valOf, Verilog.compare] using H .ge false _ (by simp) rfl
    · refine H .eq false _ (by simp) ?_
      simp only [Verilog.compare, Option.some.injEq]; exact decide_eq_decide.2 hI.symm
    · refine H .eq false _ (by simp) ?_
      simp only [Verilog.compare, Option.some.injEq]; exact decide_eq_decide.2 (by rw [← hN]; omega)
    · refine H .ne false _ (by simp) ?_
      simp only [Verilog.compare, Option.some.injEq]; exact decide_eq_decide.2 (not_congr hI.symm)
    · refine H .ne false _ (by simp) ?_
      simp only [Verilog.compare, Option.some.injEq]; exact decide_eq_decide.2 (by rw [ne_eq, ← hN]; omega)

/-- C42 for compound types: `==` decides equality of all bits, for values of any type. -/
theorem C42_equality (Γ : Nat → MTy) (a b : Nat) (ρ : Env) (xs : Nat → Bool) (heq : Γ b = Γ a)
    (hfa : Fits Γ ρ a) (hfb : Fits Γ ρ b) :
    runOp Γ .bool .eq [a, b] ρ xs = some [decide (ρ (fwd a) = ρ (fwd b))] ∧
    runOp Γ .bool .notEq [a, b] ρ xs = some [decide (ρ (fwd a) ≠ ρ (fwd b))] := by
  have hlen : (ρ (fwd a)).length = (ρ (fwd b)).length := by rw [hfa, hfb, heq]
  by_cases h0 : (Γ a).size = 0
  · have e1 : ρ (fwd a) = [] := List.length_eq_zero_iff.1 (by rw [hfa, h0])
    have e2 : ρ (fwd b) = [] := List.length_eq_zero_iff.1 (by rw [← hlen, hfa, h0])
    have hone : assigned ρ xs 1 (.lit 1 1) = some [true] := by
      rw [assigned_lit]; rfl
    have hzero : assigned ρ xs 1 (.lit 1 0) = some [false] := by
      rw [assigned_lit]; rfl
    simp [e1, e2, runOp, MTy.size, fwdCode, binop, onZero, h0, hone, hzero]
  · have hna := ne_nil_of_fits hfa h0
    constructor <;>
      simp only [runOp, MTy.size, fwdCode, binop, onZero, h0, if_false, Option.map_some,
        Nat.one_ne_zero]
    · exact assigned_cmp (s := false) hna hlen (by simp) rfl
    · exact assigned_cmp (s := false) hna hlen (by simp) rfl

/-- The hypotheses of C42 are met by two negative numbers. -/
example : ∃ (Γ : Nat → MTy) (ρ : Env) (o : Op), IsNum (Γ 0) ∧ Γ 1 = Γ 0 ∧
    lowerCmp .lt (Γ 0) = some o ∧ Fits Γ ρ 0 ∧ Fits Γ ρ 1 ∧
    Cmp.lt.holds (numVal (Γ 0) (ρ (fwd 0))) (numVal (Γ 1) (ρ (fwd 1))) = true :=
  ⟨fun _ => .int 2, fun x => if x = 0 then [true, false] else [true, true], _, trivial, rfl, rfl,
    rfl, rfl, by decide⟩

/-! ## C43 width changes -/

/-- C43, partial: sign extension keeps the signed value.  Missing: operands narrower than two bits
that are really extended (`C43_counterexample_sext`). -/
theorem C43_sext_partial (Γ : Nat → MTy) (n m a : Nat) (ρ : Env) (xs : Nat → Bool)
    (ha : (Γ a).size = n) (hfa : Fits Γ ρ a) (hnm : n ≤ m) (h2 : 2 ≤ n ∨ n = m)
    (h32 : n ≤ 2 ^ 32) :
    ∃ bits, runOp Γ (.int m) .signExtend [a] ρ xs = some bits ∧ bits.length = m ∧
      toInt bits = toInt (ρ (fwd a)) := by
  have hl : (ρ (fwd a)).length = n := by rw [hfa, ha]
  by_cases hm : m = 0
  · subst hm
    exact ⟨[], by simp [runOp, MTy.size], rfl, by
      rw [List.length_eq_zero_iff.1 (by omega : (ρ (fwd a)).length = 0)]⟩
  by_cases he : n = m
  · subst he
    refine ⟨ρ (fwd a), ?_, hl, rfl⟩
    simp only [runOp, MTy.size, fwdCode, ha, gt_iff_lt, Nat.lt_irrefl, if_false, hm]
    exact assigned_var hl hm
  · have hn2 : 2 ≤ n := by omega
    obtain ⟨b, bs, hb⟩ : ∃ b bs, ρ (fwd a) = b :: bs := by
      cases h : ρ (fwd a) with
      | nil => rw [h] at hl; simp at hl; omega
      | cons b bs => exact ⟨b, bs, rfl⟩
    have hbit : (VExpr.bit (fwd a) (.dec (n - 1))).value ρ xs = some [b] := by
      rw [value_bit_dec (by omega) (by omega)]
      exact slice_eq (a := []) (c := bs) (by rw [hb]; rfl) (by simp)
        (by rw [hb] at hl; simp at hl ⊢; omega) (by rw [hb] at hl; simp at hl ⊢; omega)
    have hvar : (VExpr.var (fwd a)).value ρ xs = some (b :: bs) := by
      rw [← hb]; exact value_var (by rw [hb]; simp)
    have hres : ∀ k, k ≠ 0 → (List.replicate k b ++ b :: bs).length = n + k ∧
        toInt (List.replicate k b ++ b :: bs) = toInt (b :: bs) := by
      intro k _
      exact ⟨by rw [hb] at hl; simp at hl ⊢; omega, toInt_replicate_head k b bs⟩
    have hrepl : ∀ k, k ≠ 0 → (VExpr.repl k (.bit (fwd a) (.dec (n - 1)))).value ρ xs =
        some (List.replicate k b) := by
      intro k hk
      have : VExpr.eval ρ xs 1 false (.bit (fwd a) (.dec (n - 1))) = some [b] := hbit
      simp only [VExpr.value, VExpr.eval, VExpr.width, VExpr.isSigned, Nat.mul_one] at this ⊢
      rw [this]
      simp [hk, resize_eq_self]
    have hc : ∀ e k, k ≠ 0 → e.value ρ xs = some (List.replicate k b) →
        (VExpr.concat [e, .var (fwd a)]).value ρ xs = some (List.replicate k b ++ b :: bs) := by
      intro e k hk he
      refine value_concat ?_ (by simp)
      have h1 : VExpr.eval ρ xs (e.width ρ) e.isSigned e = some (List.replicate k b) := he
      have h2 : VExpr.eval ρ xs ((VExpr.var (fwd a)).width ρ) (VExpr.var (fwd a)).isSigned
        (.var (fwd a)) = some (b :: bs) := hvar
      simp only [evals, h1, h2, Option.bind_eq_bind, Option.bind_some, List.append_nil]
    have hw : (VExpr.var (fwd a)).width ρ = n := by simp only [VExpr.width]; exact hl
    refine ⟨List.replicate (m - n) b ++ b :: bs, ?_, by rw [(hres (m - n) (by omega)).1]; omega, by
      rw [hb]; exact (hres (m - n) (by omega)).2⟩
    simp only [runOp, MTy.size, fwdCode, ha, hm, if_false, gt_iff_lt]
    rw [if_pos (by omega), if_neg (by omega)]
    by_cases h1 : m - n = 1
    · rw [if_pos h1]
      simp only
      rw [assigned_exact (by simp only [VExpr.width, widths]; omega), h1]
      exact hc _ 1 (by omega) hbit
    · rw [if_neg h1]
      simp only
      rw [assigned_exact (by simp only [VExpr.width, widths]; omega)]
      exact hc _ _ (by omega) (hrepl _ (by omega))

/-- Extending a one-bit number: the generated code selects bit 0 of a scalar, which Verilog does
not allow (codegen/mod.rs:376-388). -/
theorem C43_counterexample_sext (Γ : Nat → MTy) (ρ : Env) (xs : Nat → Bool) (h : Γ 0 = .int 1)
    (hf : Fits Γ ρ 0) : runOp Γ (.int 4) .signExtend [0] ρ xs = none := by
  rw [Fits, h] at hf
  simp only [MTy.size] at hf
  have : 31 < 2 ^ 32 := by decide
  simp [runOp, MTy.size, fwdCode, h, assigned, VExpr.eval, evals, VExpr.width, hf,
    Option.bind_eq_none_iff]

/-- C43, partial: zero extension keeps the unsigned value.  Missing: extending a zero-width value
(`C43_counterexample_zext`). -/
theorem C43_zext_partial (Γ : Nat → MTy) (n m a : Nat) (ρ : Env) (xs : Nat → Bool)
    (ha : (Γ a).size = n) (hfa : Fits Γ ρ a) (hnm : n ≤ m) (h1 : 1 ≤ n ∨ n = m) :
    ∃ bits, runOp Γ (.uint m) .zeroExtend [a] ρ xs = some bits ∧ bits.length = m ∧
      toNat bits = toNat (ρ (fwd a)) := by
  have hl : (ρ (fwd a)).length = n := by rw [hfa, ha]
  by_cases hm : m = 0
  · subst hm
    exact ⟨[], by simp [runOp, MTy.size], rfl, by
      rw [List.length_eq_zero_iff.1 (by omega : (ρ (fwd a)).length = 0)]⟩
  by_cases he : n = m
  · subst he
    refine ⟨ρ (fwd a), ?_, hl, rfl⟩
    simp only [runOp, MTy.size, fwdCode, ha, gt_iff_lt, Nat.lt_irrefl, if_false, hm]
    exact assigned_var hl hm
  · have hne : ρ (fwd a) ≠ [] := by intro hc; rw [hc] at hl; simp at hl; omega
    have hlit : ∀ k, ofNat k 0 = List.replicate k false := by
      intro k
      induction k with
      | zero => rfl
      | succ k ih => rw [ofNat, ih]; simp [List.replicate_succ]
    refine ⟨List.replicate (m - n) false ++ ρ (fwd a), ?_, by simp; omega,
      toNat_replicate_false _ _⟩
    simp only [runOp, MTy.size, fwdCode, ha, hm, if_false, gt_iff_lt]
    rw [if_pos (by omega)]
    simp only
    rw [assigned_exact (by simp only [VExpr.width, widths]; omega)]
    refine value_concat ?_ (by simp [hne])
    have h2 : VExpr.eval ρ xs ((VExpr.var (fwd a)).width ρ) (VExpr.var (fwd a)).isSigned
        (.var (fwd a)) = some (ρ (fwd a)) := value_var hne
    have h3 : VExpr.eval ρ xs ((VExpr.lit (m - n) 0).width ρ) (VExpr.lit (m - n) 0).isSigned
        (.lit (m - n) 0) = some (ofNat (m - n) 0) := value_lit
    simp only [evals, h2, h3, Option.bind_eq_bind, Option.bind_some, List.append_nil, hlit]

/-- Extending a value of type `uint<0>`: the code refers to a variable that is not declared
(codegen/mod.rs:393-402). -/
theorem C43_counterexample_zext (Γ : Nat → MTy) (ρ : Env) (xs : Nat → Bool) (h : Γ 0 = .uint 0)
    (hf : Fits Γ ρ 0) : runOp Γ (.uint 4) .zeroExtend [0] ρ xs = none := by
  rw [Fits, h] at hf
  simp only [MTy.size] at hf
  simp [runOp, MTy.size, fwdCode, h, assigned, VExpr.eval, evals, VExpr.width, hf]

/-- C43, partial: truncation keeps the value modulo `2 ^ width`.  Missing: truncating a one-bit
value to one bit (`C43_counterexample_trunc`). -/
theorem C43_trunc_partial (Γ : Nat → MTy) (ty : MTy) (n a : Nat) (ρ : Env) (xs : Nat → Bool)
    (ha : (Γ a).size = n) (hfa : Fits Γ ρ a) (hnm : ty.size ≤ n) (h2 : 2 ≤ n ∨ ty.size = 0) :
    ∃ bits, runOp Γ ty .truncate [a] ρ xs = some bits ∧ bits.length = ty.size ∧
      toNat bits = toNat (ρ (fwd a)) % 2 ^ ty.size := by
  have hl : (ρ (fwd a)).length = n := by rw [hfa, ha]
  by_cases hm : ty.size = 0
  · exact ⟨[], by simp [runOp, hm], by simp [hm], by simp [hm, Nat.mod_one, toNat]⟩
  · refine ⟨(ρ (fwd a)).drop (n - ty.size), ?_, by simp; omega, ?_⟩
    · simp only [runOp, fwdCode, hm, if_false]
      rw [assigned_exact (by simp only [VExpr.width]; omega), value_part (by omega)]
      refine slice_eq (a := (ρ (fwd a)).take (n - ty.size)) (c := []) (by simp) ?_ ?_ ?_
      · intro hc; have := congrArg List.length hc; simp at this; omega
      · simp; omega
      · simp
    · have := drop_toNat (ρ (fwd a)) ty.size (by omega)
      rw [hl] at this
      exact this

/-- Truncating a one-bit value to one bit, which is accepted (lib.rs:2703), emits `x[0:0]` on a
scalar. -/
theorem C43_counterexample_trunc (Γ : Nat → MTy) (ρ : Env) (xs : Nat → Bool) (h : Γ 0 = .int 1)
    (hf : Fits Γ ρ 0) : runOp Γ (.int 1) .truncate [0] ρ xs = none := by
  rw [Fits, h] at hf
  simp only [MTy.size] at hf
  simp [runOp, MTy.size, fwdCode, assigned, VExpr.eval, VExpr.width, hf]

/-- C43: concatenation puts its first operand in the high bits. -/
theorem C43_concat (Γ : Nat → MTy) (ty : MTy) (a b : Nat) (ρ : Env) (xs : Nat → Bool)
    (hty : ty.size = (Γ a).size + (Γ b).size) (hfa : Fits Γ ρ a) (hfb : Fits Γ ρ b) :
    ∃ bits, runOp Γ ty .concat [a, b] ρ xs = some bits ∧ bits.length = ty.size ∧
      toNat bits = toNat (ρ (fwd a)) * 2 ^ (Γ b).size + toNat (ρ (fwd b)) := by
  have h := tuple_bits (Γ := Γ) (ty := ty) (ops := [a, b]) (ρ := ρ) xs (by simp [sizes, hty])
    (by simp [hfa, hfb])
  have h' : runOp Γ ty .concat [a, b] ρ xs = runOp Γ ty .constructTuple [a, b] ρ xs := rfl
  refine ⟨_, h'.trans h, ?_, ?_⟩
  · simp only [allBits, List.flatMap_cons, List.flatMap_nil, List.length_append, List.append_nil]
    rw [hfa, hfb, hty]
  · simp only [allBits, List.flatMap_cons, List.flatMap_nil, List.append_nil]
    rw [toNat_append, hfb]

/-- The hypotheses of the C43 theorems are met. -/
example : ∃ (Γ : Nat → MTy) (ρ : Env), (Γ 0).size = 3 ∧ Fits Γ ρ 0 ∧ Fits Γ ρ 1 ∧
    toInt (ρ (fwd 0)) = -3 :=
  ⟨fun _ => .int 3, fun _ => [true, false, true], rfl, rfl, rfl, by decide⟩

/-! ## C44 division, shifts, negation and bitwise operators -/

/-- A division or remainder of operands of the same width. -/
theorem assigned_divmod {ρ : Env} {xs : Nat → Bool} {n a b : Nat} {op : BinOp} {s : Bool}
    {f : Int → Int → Int} (ha : (ρ a).length = n) (hb : (ρ b).length = n) (hn : n ≠ 0)
    (h0 : toNat (ρ b) ≠ 0)
    (hop : op = .div ∧ f = Int.tdiv ∨ op = .mod ∧ f = Int.tmod) :
    assigned ρ xs n (if s then .bin op (.signed (.var a)) (.signed (.var b))
      else .bin op (.var a) (.var b)) =
      some (ofInt n (f (valOf s (ρ a)) (valOf s (ρ b)))) := by
  have ra := fun s => resize_eq_self (s := s) ha
  have rb := fun s => resize_eq_self (s := s) hb
  cases s <;> rcases hop with ⟨h1, h2⟩ | ⟨h1, h2⟩ <;> subst h1 h2 <;>
    simp [assigned, VExpr.width, VExpr.isSigned, ha, hb, hn, VExpr.eval, arith, ra, rb, h0]

theorem toNat_ne_zero_of_num {t : MTy} (hn : IsNum t) {b : Bits} (h : numVal t b ≠ 0) :
    toNat b ≠ 0 := by
  intro hc
  apply h
  cases t <;> simp only [IsNum] at hn <;> simp only [numVal]
  · cases b with
    | nil => rfl
    | cons c bs =>
      simp only [toNat] at hc
      cases c
      · simp only [toInt]; simp at hc ⊢; exact hc
      · have := Nat.two_pow_pos bs.length; simp at hc
  · omega

theorem tmod_inRange {t : MTy} {x y : Int} (hn : IsNum t) (hx : InRange t x) (hy : InRange t y) :
    InRange t (x.tmod y) := by
  have h1 : (x.tmod y).natAbs ≤ x.natAbs := by
    rw [Int.natAbs_tmod]; exact Nat.mod_le _ _
  have h2 : 0 ≤ x → 0 ≤ x.tmod y := fun h => Int.tmod_nonneg y h
  have h3 : x ≤ 0 → x.tmod y ≤ 0 := fun h => by
    have := Int.tmod_nonneg y (by omega : 0 ≤ -x)
    rw [Int.neg_tmod] at this
    omega
  cases t <;> simp only [IsNum] at hn <;> simp only [InRange] at hx hy ⊢ <;> omega

theorem tdiv_inRange {t : MTy} {x y : Int} (hn : IsNum t) (hs : t.size ≠ 0) (hx : InRange t x)
    (hy : InRange t y) (h0 : y ≠ 0) (hr : y ≠ -1) : InRange t (x.tdiv y) := by
  have h1 : (x.tdiv y).natAbs = x.natAbs / y.natAbs := Int.natAbs_tdiv x y
  have h2 : x.natAbs / y.natAbs ≤ x.natAbs := Nat.div_le_self _ _
  have h3 : 2 ≤ y.natAbs → x.natAbs / y.natAbs ≤ x.natAbs / 2 :=
    fun h => Nat.div_le_div_left h (by omega)
  have h4 : y = 1 → x.tdiv y = x := fun h => by rw [h]; simp
  have h5 : 0 ≤ x → 0 ≤ y → 0 ≤ x.tdiv y := fun h h' => Int.tdiv_nonneg h h'
  cases t <;> simp only [IsNum] at hn <;> simp only [InRange] at hx hy ⊢ <;>
    simp only [MTy.size] at hs
  · by_cases h1' : y = 1
    · rw [h4 h1']; exact hx
    · have := h3 (by omega); omega
  · exact ⟨h5 hx.1 hy.1, by omega⟩

/-- C44, division: the quotient is the exact quotient rounded towards zero, for every divisor
except 0 and -1 (`-1` overflows for the smallest number: `C44_counterexample_division`).  This is
the code used for `/` with a literal power of two, and for `comb_div` with any divisor. -/
theorem C44_division_partial (Γ : Nat → MTy) (t : MTy) (o : Op) (a b : Nat) (ρ : Env)
    (xs : Nat → Bool) (hn : IsNum t) (ha : Γ a = t) (hb : Γ b = t) (hs : t.size ≠ 0)
    (hop : lowerBin .div t = some o) (hfa : Fits Γ ρ a) (hfb : Fits Γ ρ b)
    (h0 : numVal t (ρ (fwd b)) ≠ 0) (hr : numVal t (ρ (fwd b)) ≠ -1) :
    ∃ bits, runOp Γ t o [a, b] ρ xs = some bits ∧ bits.length = t.size ∧
      numVal t bits = (numVal t (ρ (fwd a))).tdiv (numVal t (ρ (fwd b))) := by
  have hla : (ρ (fwd a)).length = t.size := by rw [hfa, ha]
  have hlb : (ρ (fwd b)).length = t.size := by rw [hfb, hb]
  have hN := toNat_ne_zero_of_num hn h0
  have hrange := tdiv_inRange hn hs (numVal_range hn hla) (numVal_range hn hlb) h0 hr
  refine ⟨_, ?_, ofInt_length _ _, numVal_ofInt hn hrange⟩
  cases t <;> simp only [IsNum] at hn <;> simp only [lowerBin, dual, Option.some.injEq] at hop <;>
    subst hop
  · exact (runOp_assign rfl hs rfl).trans
      (assigned_divmod (s := true) hla hlb hs hN (Or.inl ⟨rfl, rfl⟩))
  · exact (runOp_assign rfl hs rfl).trans
      (assigned_divmod (s := false) hla hlb hs hN (Or.inl ⟨rfl, rfl⟩))

/-- C44, remainder: the remainder has the sign of the dividend and is exact for every divisor
except 0. -/
theorem C44_remainder (Γ : Nat → MTy) (t : MTy) (o : Op) (a b : Nat) (ρ : Env)
    (xs : Nat → Bool) (hn : IsNum t) (ha : Γ a = t) (hb : Γ b = t) (hs : t.size ≠ 0)
    (hop : lowerBin .mod t = some o) (hfa : Fits Γ ρ a) (hfb : Fits Γ ρ b)
    (h0 : numVal t (ρ (fwd b)) ≠ 0) :
    ∃ bits, runOp Γ t o [a, b] ρ xs = some bits ∧ bits.length = t.size ∧
      numVal t bits = (numVal t (ρ (fwd a))).tmod (numVal t (ρ (fwd b))) := by
  have hla : (ρ (fwd a)).length = t.size := by rw [hfa, ha]
  have hlb : (ρ (fwd b)).length = t.size := by rw [hfb, hb]
  have hN := toNat_ne_zero_of_num hn h0
  have hrange := tmod_inRange hn (numVal_range hn hla) (numVal_range hn hlb)
  refine ⟨_, ?_, ofInt_length _ _, numVal_ofInt hn hrange⟩
  cases t <;> simp only [IsNum] at hn <;> simp only [lowerBin, dual, Option.some.injEq] at hop <;>
    subst hop
  · exact (runOp_assign rfl hs rfl).trans
      (assigned_divmod (s := true) hla hlb hs hN (Or.inr ⟨rfl, rfl⟩))
  · exact (runOp_assign rfl hs rfl).trans
      (assigned_divmod (s := false) hla hlb hs hN (Or.inr ⟨rfl, rfl⟩))

/-- The quotient of the smallest `int<2>` and -1 is 2, which `int<2>` does not contain; the
hardware gives -2. -/
theorem C44_counterexample_division (Γ : Nat → MTy) (ρ : Env) (xs : Nat → Bool)
    (h0 : ρ (fwd 0) = [true, false]) (h1 : ρ (fwd 1) = [true, true]) :
    ∃ bits, runOp Γ (.int 2) .div [0, 1] ρ xs = some bits ∧ toInt (ρ (fwd 0)) = -2 ∧
      toInt (ρ (fwd 1)) = -1 ∧ toInt bits = -2 := by
  refine ⟨[true, false], ?_, by rw [h0]; decide, by rw [h1]; decide, by decide⟩
  rw [runOp_assign (w := 2) (by simp [MTy.size]) (by decide) rfl]
  refine (assigned_divmod (s := true) (n := 2) (op := .div) (f := Int.tdiv) (by rw [h0]; rfl)
    (by rw [h1]; rfl) (by decide) (by rw [h1]; decide) (Or.inl ⟨rfl, rfl⟩)).trans ?_
  rw [h0, h1]
  decide

/-- A shift of operands of the same width. -/
theorem assigned_shift {ρ : Env} {xs : Nat → Bool} {n a b : Nat} {op : BinOp}
    (ha : (ρ a).length = n) (hb : (ρ b).length = n) (hn : n ≠ 0)
    (hop : op = .shl ∨ op = .shr) :
    assigned ρ xs n (.bin op (.var a) (.var b)) = shift op false n (ρ a) (toNat (ρ b)) := by
  have ra := fun s => resize_eq_self (s := s) ha
  have rb := fun s => resize_eq_self (s := s) hb
  rcases hop with h | h <;> subst h <;>
    simp [assigned, VExpr.width, VExpr.isSigned, ha, hb, hn, VExpr.eval, ra, rb, shift]

theorem assigned_ashr {ρ : Env} {xs : Nat → Bool} {n a b : Nat}
    (ha : (ρ a).length = n) (hb : (ρ b).length = n) (hn : n ≠ 0) :
    assigned ρ xs n (.bin .ashr (.signed (.var a)) (.signed (.var b))) =
      some (ofInt n (toInt (ρ a) / 2 ^ toNat (ρ b))) := by
  have ra := fun s => resize_eq_self (s := s) ha
  have rb := fun s => resize_eq_self (s := s) hb
  simp [assigned, VExpr.width, VExpr.isSigned, ha, hb, hn, VExpr.eval, ra, rb, shift]

/-- C44, shifts: `<<` multiplies by a power of two modulo `2 ^ width`, `>>` divides the unsigned
reading by a power of two (rounding down), `>>>` divides the signed reading by a power of two
(rounding down).  The amount is the unsigned reading of the right operand. -/
theorem C44_shifts (Γ : Nat → MTy) (t : MTy) (a b : Nat) (ρ : Env) (xs : Nat → Bool)
    (ha : Γ a = t) (hb : Γ b = t) (hs : t.size ≠ 0) (hfa : Fits Γ ρ a) (hfb : Fits Γ ρ b)
    (op : SrcBin) (o : Op) (hop : lowerBin op t = some o)
    (hsh : op = .shl ∨ op = .shr ∨ op = .ashr) :
    ∃ bits, runOp Γ t o [a, b] ρ xs = some bits ∧ bits.length = t.size ∧
      (op = .shl → toNat bits = toNat (ρ (fwd a)) * 2 ^ toNat (ρ (fwd b)) % 2 ^ t.size) ∧
      (op = .shr → toNat bits = toNat (ρ (fwd a)) / 2 ^ toNat (ρ (fwd b))) ∧
      (op = .ashr → toInt bits = toInt (ρ (fwd a)) / 2 ^ toNat (ρ (fwd b))) := by
  have hla : (ρ (fwd a)).length = t.size := by rw [hfa, ha]
  have hlb : (ρ (fwd b)).length = t.size := by rw [hfb, hb]
  rcases hsh with h | h | h <;> subst h <;> simp only [lowerBin, Option.some.injEq] at hop <;>
    subst hop
  · refine ⟨_, (runOp_assign rfl hs rfl).trans (assigned_shift hla hlb hs (Or.inl rfl)),
      ofNat_length _ _, fun _ => toNat_ofNat _ _, by simp, by simp⟩
  · refine ⟨_, (runOp_assign rfl hs rfl).trans (assigned_shift hla hlb hs (Or.inr rfl)),
      ofNat_length _ _, by simp, fun _ => ?_, by simp⟩
    rw [toNat_ofNat, Nat.mod_eq_of_lt]
    have := toNat_lt (ρ (fwd a))
    rw [hla] at this
    exact Nat.lt_of_le_of_lt (Nat.div_le_self _ _) this
  · refine ⟨_, (runOp_assign rfl hs rfl).trans (assigned_ashr hla hlb hs),
      ofInt_length _ _, by simp, by simp, fun _ => ?_⟩
    obtain ⟨m, hm⟩ : ∃ m, t.size = m + 1 := ⟨t.size - 1, by omega⟩
    rw [hm] at hla ⊢
    have hbd := toInt_bounds hla
    have hp := two_pow_pos (toNat (ρ (fwd b)))
    have hp1 : (1 : Int) ≤ 2 ^ toNat (ρ (fwd b)) := by omega
    generalize (2 : Int) ^ toNat (ρ (fwd b)) = P at *
    generalize toInt (ρ (fwd a)) = x at *
    have hm0 := two_pow_pos m
    apply toInt_ofInt
    · rw [Int.le_ediv_iff_mul_le hp]
      have : -(2 : Int) ^ m * P ≤ -(2 : Int) ^ m * 1 :=
        Int.mul_le_mul_of_nonpos_left (by omega) (by omega)
      omega
    · rw [Int.ediv_lt_iff_lt_mul hp]
      have : (2 : Int) ^ m * 1 ≤ (2 : Int) ^ m * P :=
        Int.mul_le_mul_of_nonneg_left (by omega) (by omega)
      omega

/-- C44, negation, partial: `-x` is exact.  Missing: the smallest number of the type, whose
negation is not a value of the type. -/
theorem C44_negation_partial (Γ : Nat → MTy) (n a : Nat) (ρ : Env) (xs : Nat → Bool)
    (ha : Γ a = .int (n + 1)) (hfa : Fits Γ ρ a) (hmin : toInt (ρ (fwd a)) ≠ -(2 ^ n)) :
    ∃ bits, runOp Γ (.int (n + 1)) .usub [a] ρ xs = some bits ∧ bits.length = n + 1 ∧
      toInt bits = - toInt (ρ (fwd a)) := by
  have hla : (ρ (fwd a)).length = n + 1 := by rw [hfa, ha]; rfl
  have hb := toInt_bounds hla
  refine ⟨ofInt (n + 1) (- toInt (ρ (fwd a))), ?_, ofInt_length _ _,
    toInt_ofInt (by omega) (by omega)⟩
  rw [runOp_assign (w := n + 1) rfl (by omega) rfl]
  simp only [assigned, VExpr.width, VExpr.isSigned, hla, Nat.max_self, VExpr.eval, Nat.add_one_ne_zero,
    if_false, Option.bind_eq_bind, Option.bind_some, ofInt_length, Nat.sub_self, List.drop_zero,
    Option.some.injEq, resize_eq_self hla]
  apply ofInt_congr
  have hm := toInt_mod (ρ (fwd a))
  rw [hla] at hm
  simp only [valOf, Bool.false_eq_true, if_false]
  rw [Int.neg_emod_eq_sub_emod, Int.neg_emod_eq_sub_emod, Int.sub_emod, ← hm, ← Int.sub_emod]

/-- C44, bitwise operators act on every bit; reductions combine all bits. -/
theorem C44_bitwise (Γ : Nat → MTy) (t : MTy) (a b : Nat) (ρ : Env) (xs : Nat → Bool)
    (ha : Γ a = t) (hb : Γ b = t) (hs : t.size ≠ 0) (hfa : Fits Γ ρ a) (hfb : Fits Γ ρ b) :
    runOp Γ t .bitwiseAnd [a, b] ρ xs = some (List.zipWith (· && ·) (ρ (fwd a)) (ρ (fwd b))) ∧
    runOp Γ t .bitwiseOr [a, b] ρ xs = some (List.zipWith (· || ·) (ρ (fwd a)) (ρ (fwd b))) ∧
    runOp Γ t .bitwiseXor [a, b] ρ xs = some (List.zipWith (· ^^ ·) (ρ (fwd a)) (ρ (fwd b))) ∧
    runOp Γ t .bitwiseNot [a] ρ xs = some ((ρ (fwd a)).map (!·)) ∧
    runOp Γ .bool .reduceAnd [a] ρ xs = some [(ρ (fwd a)).all id] ∧
    runOp Γ .bool .reduceOr [a] ρ xs = some [(ρ (fwd a)).any id] ∧
    runOp Γ .bool .reduceXor [a] ρ xs = some [(ρ (fwd a)).foldl (· ^^ ·) false] := by
  have hla : (ρ (fwd a)).length = t.size := by rw [hfa, ha]
  have hlb : (ρ (fwd b)).length = t.size := by rw [hfb, hb]
  have ra := fun s => resize_eq_self (s := s) hla
  have rb := fun s => resize_eq_self (s := s) hlb
  have r1 : ∀ s x, resize s 1 [x] = [x] := fun s x => resize_eq_self rfl
  refine ⟨?_, ?_, ?_, ?_, ?_, ?_, ?_⟩
  · rw [runOp_assign rfl hs rfl]
    simp [assigned, VExpr.width, VExpr.isSigned, hla, hlb, hs, VExpr.eval, ra, rb, arith]
  · rw [runOp_assign rfl hs rfl]
    simp [assigned, VExpr.width, VExpr.isSigned, hla, hlb, hs, VExpr.eval, ra, rb, arith]
  · rw [runOp_assign rfl hs rfl]
    simp [assigned, VExpr.width, VExpr.isSigned, hla, hlb, hs, VExpr.eval, ra, rb, arith]
  · rw [runOp_assign rfl hs rfl]
    simp [assigned, VExpr.width, VExpr.isSigned, hla, hs, VExpr.eval, ra]
  · rw [runOp_assign (w := 1) rfl (by omega) rfl]
    simp [assigned, VExpr.width, VExpr.isSigned, hla, hs, VExpr.eval, ra, ofBool, r1]
  · rw [runOp_assign (w := 1) rfl (by omega) rfl]
    simp [assigned, VExpr.width, VExpr.isSigned, hla, hs, VExpr.eval, ra, ofBool, r1]
  · rw [runOp_assign (w := 1) rfl (by omega) rfl]
    simp [assigned, VExpr.width, VExpr.isSigned, hla, hs, VExpr.eval, ra, ofBool, r1]

/-- C44, booleans: `&&`, `||`, `^^` and `!` are the logical connectives. -/
theorem C44_logical (Γ : Nat → MTy) (a b : Nat) (ρ : Env) (xs : Nat → Bool) (x y : Bool)
    (ha : ρ (fwd a) = [x]) (hb : ρ (fwd b) = [y]) :
    runOp Γ .bool .logicalAnd [a, b] ρ xs = some [x && y] ∧
    runOp Γ .bool .logicalOr [a, b] ρ xs = some [x || y] ∧
    runOp Γ .bool .logicalXor [a, b] ρ xs = some [x ^^ y] ∧
    runOp Γ .bool .not [a] ρ xs = some [!x] := by
  have r1 : ∀ s x, resize s 1 [x] = [x] := fun s x => resize_eq_self rfl
  refine ⟨?_, ?_, ?_, ?_⟩ <;> rw [runOp_assign (w := 1) rfl (by omega) rfl] <;>
    simp [assigned, VExpr.width, VExpr.isSigned, ha, hb, VExpr.eval, ofBool, r1, truth, arith]

/-- C44 fails for `div_pow2`: the documentation says that it rounds towards positive infinity, but
`div_pow2(1, 2)`, whose exact value is one quarter, gives 0 (codegen/mod.rs:328-348). -/
theorem C44_counterexample_div_pow2 (Γ : Nat → MTy) (ρ : Env) (xs : Nat → Bool)
    (h0 : ρ (fwd 0) = ofNat 8 1) (h1 : ρ (fwd 1) = ofNat 8 2) :
    runOp Γ (.int 8) .divPow2 [0, 1] ρ xs = some (ofNat 8 0) := by
  have : ∀ ρ : Env, ρ (fwd 0) = ofNat 8 1 → ρ (fwd 1) = ofNat 8 2 →
      runOp Γ (.int 8) .divPow2 [0, 1] ρ xs =
        runOp Γ (.int 8) .divPow2 [0, 1] (fun x => if x = 0 then ofNat 8 1 else ofNat 8 2) xs := by
    intro ρ h0 h1
    simp only [fwd] at h0 h1
    simp [runOp, MTy.size, fwdCode, assigned, VExpr.width, VExpr.value, VExpr.eval, fwd,
      VExpr.isSigned, h0, h1]
  rw [this ρ h0 h1]
  rfl

/-- The hypotheses of the C44 theorems are met: -7 divided by 2. -/
example : ∃ (Γ : Nat → MTy) (ρ : Env) (o : Op), IsNum (Γ 0) ∧ Γ 1 = Γ 0 ∧
    lowerBin .div (Γ 0) = some o ∧ Fits Γ ρ 0 ∧ Fits Γ ρ 1 ∧
    numVal (Γ 0) (ρ (fwd 0)) = -7 ∧ numVal (Γ 0) (ρ (fwd 1)) = 2 :=
  ⟨fun _ => .int 4, fun x => if x = 0 then [true, false, false, true] else [false, false, true, false],
    _, trivial, rfl, rfl, rfl, rfl, by decide, by decide⟩

end Spade.Codegen

import Verif.Codegen.Eval
import Verif.Codegen.ArithProps
import Verif.Codegen.Props
/-!
# C10 encoding of constants, C11 agreement with the hardware
-/
namespace Spade.Codegen
open Spade.Verilog

/-! ## Binary digits -/

theorem binDigits_toNat (n : Nat) : toNat (binDigits n) = n := by
  induction n using Nat.strongRecOn with
  | ind n ih =>
    unfold binDigits
    split
    · have : n = 0 ∨ n = 1 := by omega
      rcases this with h | h <;> subst h <;> decide
    · rw [toNat_append, ih (n / 2) (by omega)]
      simp only [List.length_singleton, toNat, List.length_nil, Nat.pow_zero]
      have : n % 2 = 0 ∨ n % 2 = 1 := by omega
      rcases this with h | h <;> simp [h] <;> omega

theorem binDigits_pos (n : Nat) : 1 ≤ (binDigits n).length := by
  unfold binDigits; split <;> simp

theorem binDigits_lower (n : Nat) (h : 1 ≤ n) : 2 ^ ((binDigits n).length - 1) ≤ n := by
  induction n using Nat.strongRecOn with
  | ind n ih =>
    unfold binDigits
    split
    · simp; omega
    · have := ih (n / 2) (by omega) (by omega)
      have hp := binDigits_pos (n / 2)
      simp only [List.length_append, List.length_singleton, Nat.add_sub_cancel]
      obtain ⟨k, hk⟩ : ∃ k, (binDigits (n / 2)).length = k + 1 := ⟨_, (Nat.sub_add_cancel hp).symm⟩
      rw [hk] at this ⊢
      simp only [Nat.add_sub_cancel] at this
      rw [Nat.pow_succ]; omega

theorem binDigits_le {n k : Nat} (hk : 1 ≤ k) (h : n < 2 ^ k) : (binDigits n).length ≤ k := by
  rcases Nat.eq_zero_or_pos n with h0 | h0
  · subst h0; rw [binDigits]; simpa using hk
  · have := binDigits_lower n h0
    have h2 : (binDigits n).length - 1 < k :=
      (Nat.pow_lt_pow_iff_right (by omega : 1 < 2)).1 (Nat.lt_of_le_of_lt this h)
    omega

theorem binDigits_eq {n k : Nat} (h1 : 2 ^ k ≤ n) (h2 : n < 2 ^ (k + 1)) :
    binDigits n = ofNat (k + 1) n := by
  have hle := binDigits_le (by omega : 1 ≤ k + 1) h2
  have hlt := toNat_lt (binDigits n)
  rw [binDigits_toNat] at hlt
  have : k < (binDigits n).length :=
    (Nat.pow_lt_pow_iff_right (by omega : 1 < 2)).1 (Nat.lt_of_le_of_lt h1 hlt)
  have hl : (binDigits n).length = k + 1 := by omega
  apply toNat_inj (by simp [hl])
  rw [binDigits_toNat, toNat_ofNat, Nat.mod_eq_of_lt h2]

theorem padZeros_eq {size val : Nat} (h0 : 1 ≤ size) (h : val < 2 ^ size) :
    padZeros size val = some (ofNat size val) := by
  have hle := binDigits_le h0 h
  simp only [padZeros]
  rw [if_neg (by omega), Option.some.injEq]
  apply toNat_inj (by simp; omega)
  rw [toNat_replicate_false, binDigits_toNat, toNat_ofNat, Nat.mod_eq_of_lt h]

/-! ## Specification of the encoding -/

mutual
/-- Values whose numbers are representable.  An `int` value of the evaluator also stands for
constants of type `uint`, so it may go up to `2 ^ size - 1`. -/
def Value.Ok : Value → Prop
  | .bit _ => True
  | .int size val => 1 ≤ size ∧ -(2 ^ (size - 1)) ≤ val ∧ val < 2 ^ size
  | .uint size val => 1 ≤ size ∧ val < 2 ^ size
  | .concat vs => OkAll vs
  | .undef _ => True
/-- The same for all elements. -/
def OkAll : List Value → Prop
  | [] => True
  | v :: vs => v.Ok ∧ OkAll vs
end

mutual
/-- The string is a correct encoding of the value: numbers decode to themselves, in two's
complement if they are small enough to be signed, in binary if they are not negative; undefined
bits are `X`. -/
def Encodes : Value → List (Option Bool) → Prop
  | .bit b, s => s = [some b]
  | .int size val, s => ∃ bits, s = bits.map some ∧ bits.length = size ∧
      (val < 2 ^ (size - 1) → toInt bits = val) ∧ (0 ≤ val → (toNat bits : Int) = val)
  | .uint size val, s => ∃ bits, s = bits.map some ∧ bits.length = size ∧ toNat bits = val
  | .concat vs, s => EncodesAll vs s
  | .undef size, s => s = List.replicate size none
/-- Encodings of the elements, in order. -/
def EncodesAll : List Value → List (Option Bool) → Prop
  | [], s => s = []
  | v :: vs, s => ∃ a b, s = a ++ b ∧ Encodes v a ∧ EncodesAll vs b
end

theorem asString_int {size : Nat} {val : Int} (h0 : 1 ≤ size) (h1 : -(2 ^ (size - 1)) ≤ val)
    (h2 : val < 2 ^ size) : (Value.int size val).asString = some ((ofInt size val).map some) := by
  obtain ⟨k, rfl⟩ : ∃ k, size = k + 1 := ⟨size - 1, by omega⟩
  simp only [Nat.add_sub_cancel] at h1
  have hp := pow_succ_int k
  have hc : ((2 ^ (k + 1) : Nat) : Int) = 2 ^ (k + 1) := by simp
  have hc' : ((2 ^ k : Nat) : Int) = 2 ^ k := by simp
  simp only [Value.asString]
  by_cases hn : 0 ≤ val
  · rw [if_pos hn, padZeros_eq h0 (by omega)]
    simp only [Option.map_some, Option.some.injEq]
    rw [← ofInt_natCast]; congr 2; omega
  · rw [if_neg hn]
    simp only [Option.some.injEq]
    have hm : val % 2 ^ (k + 1) = val + 2 ^ (k + 1) := by
      rw [← Int.add_emod_right, Int.emod_eq_of_lt (by omega) (by omega)]
    have hmb : maskBits (k + 1) val = (val + 2 ^ (k + 1)).toNat := by rw [maskBits, hm]
    rw [binDigits_eq (k := k) (by omega) (by omega)]
    simp only [ofInt, maskBits]

mutual
theorem asString_ok : ∀ v : Value, v.Ok →
    ∃ s, v.asString = some s ∧ s.length = v.width ∧ Encodes v s
  | .bit b, _ => ⟨[some b], by simp [Value.asString], by simp [Value.width], by simp [Encodes]⟩
  | .int size val, h => by
    simp only [Value.Ok] at h
    refine ⟨_, asString_int h.1 h.2.1 h.2.2, by simp [Value.width], ?_⟩
    simp only [Encodes]
    refine ⟨_, rfl, by simp, fun hlt => ?_, fun h0 => toNat_ofInt_exact h0 h.2.2⟩
    obtain ⟨k, rfl⟩ : ∃ k, size = k + 1 := ⟨size - 1, by omega⟩
    exact toInt_ofInt h.2.1 hlt
  | .uint size val, h => by
    simp only [Value.Ok] at h
    refine ⟨(ofNat size val).map some, by simp [Value.asString, padZeros_eq h.1 h.2],
      by simp [Value.width], ?_⟩
    simp only [Encodes]
    exact ⟨_, rfl, by simp, by rw [toNat_ofNat, Nat.mod_eq_of_lt h.2]⟩
  | .concat vs, h => by
    obtain ⟨s, h1, h2, h3⟩ := asStrings_ok vs (by simpa [Value.Ok] using h)
    exact ⟨s, by simpa [Value.asString] using h1, by simpa [Value.width] using h2,
      by simpa [Encodes] using h3⟩
  | .undef size, _ => ⟨List.replicate size none, by simp [Value.asString], by simp [Value.width],
      by simp [Encodes]⟩
theorem asStrings_ok : ∀ vs : List Value, OkAll vs →
    ∃ s, asStrings vs = some s ∧ s.length = valueWidths vs ∧ EncodesAll vs s
  | [], _ => ⟨[], by simp [asStrings], by simp [valueWidths], by simp [EncodesAll]⟩
  | v :: vs, h => by
    simp only [OkAll] at h
    obtain ⟨a, h1, h2, h3⟩ := asString_ok v h.1
    obtain ⟨b, h4, h5, h6⟩ := asStrings_ok vs h.2
    refine ⟨a ++ b, by simp [asStrings, h1, h4], by simp [valueWidths, h2, h5], ?_⟩
    simp only [EncodesAll]
    exact ⟨a, b, rfl, h3, h6⟩
end

/-- C10, partial: the bit string of a constant has exactly the width of the value and decodes to
it.  Missing: numbers of width 0, on which the code panics (`C10_counterexample_zero_width`). -/
theorem C10_as_string_partial (v : Value) (h : v.Ok) :
    ∃ s, v.asString = some s ∧ s.length = v.width ∧ Encodes v s := asString_ok v h

/-- The only value of type `int<0>` cannot be printed: `size - val_str.len()` underflows
(eval.rs:51). -/
theorem C10_counterexample_zero_width : (Value.int 0 0).asString = none := by
  simp [Value.asString, padZeros, binDigits]

/-- The number read from a bit string when `X` counts as 0. -/
def strNat (s : List (Option Bool)) : Nat := toNat (s.map (·.getD false))

theorem strNat_some (b : Bits) : strNat (b.map some) = toNat b := by
  simp [strNat, Function.comp_def]

theorem strNat_append (a b : List (Option Bool)) :
    strNat (a ++ b) = strNat a * 2 ^ b.length + strNat b := by
  simp [strNat, toNat_append]

theorem strNat_undef (n : Nat) : strNat (List.replicate n none) = 0 := by
  have := toNat_replicate_false n []
  simpa [strNat, toNat] using this

theorem strNat_lt (a : List (Option Bool)) : strNat a < 2 ^ a.length := by
  have := toNat_lt (a.map (·.getD false))
  simpa [strNat] using this

mutual
/-- Every element of every concatenation is narrower than 64 bits. -/
def Value.Narrow : Value → Prop
  | .concat vs => NarrowAll vs
  | _ => True
/-- The same for the elements. -/
def NarrowAll : List Value → Prop
  | [] => True
  | v :: vs => v.width < 64 ∧ v.Narrow ∧ NarrowAll vs
end

theorem toU64_some {n : Nat} (h : n < 2 ^ 64) : toU64 n = some n := by simp [toU64, h]

mutual
theorem asU64_ok : ∀ (v : Value) (s : List (Option Bool)), v.Ok → v.Narrow → v.width ≤ 64 →
    v.asString = some s → v.asU64 = some (strNat s)
  | .bit b, s, _, _, _, hs => by
    simp only [Value.asString, Option.some.injEq] at hs; subst hs
    cases b <;> simp [Value.asU64, strNat, toNat]
  | .int size val, s, h, _, hw, hs => by
    simp only [Value.Ok] at h
    simp only [Value.width] at hw
    rw [asString_int h.1 h.2.1 h.2.2] at hs
    cases hs
    rw [strNat_some]
    have hlt := toNat_lt (ofInt size val)
    rw [ofInt_length] at hlt
    have hle : 2 ^ size ≤ 2 ^ 64 := Nat.pow_le_pow_right (by omega) hw
    simp only [Value.asU64]
    split
    · rename_i h0
      have := toNat_ofInt_exact h0 h.2.2
      rw [show val.toNat = toNat (ofInt size val) by omega, toU64_some (by omega)]
    · have : maskBits size val = toNat (ofInt size val) := by
        rw [maskBits, ofInt, toNat_ofNat, Nat.mod_eq_of_lt]
        have h1 := Int.emod_lt_of_pos val (two_pow_pos size)
        have h2 := Int.emod_nonneg val (Int.ne_of_gt (two_pow_pos size))
        have hc : ((2 ^ size : Nat) : Int) = 2 ^ size := by simp
        omega
      rw [this, toU64_some (by omega)]
  | .uint size val, s, h, _, hw, hs => by
    simp only [Value.Ok] at h
    simp only [Value.width] at hw
    simp only [Value.asString, padZeros_eq h.1 h.2, Option.map_some, Option.some.injEq] at hs
    subst hs
    have hle : 2 ^ size ≤ 2 ^ 64 := Nat.pow_le_pow_right (by omega) hw
    rw [strNat_some, toNat_ofNat, Nat.mod_eq_of_lt h.2]
    simp only [Value.asU64]
    exact toU64_some (by omega)
  | .concat vs, s, h, hn, hw, hs => by
    simp only [Value.asU64]
    have := concatU64_ok vs 0 s (by simpa [Value.Ok] using h) (by simpa [Value.Narrow] using hn)
      (by
        simp only [Value.width] at hw
        have := Nat.pow_le_pow_right (n := 2) (by omega) hw
        simpa using this) (by simpa [Value.asString] using hs)
    simpa using this
  | .undef size, s, _, _, _, hs => by
    simp only [Value.asString, Option.some.injEq] at hs; subst hs
    simp [Value.asU64, strNat_undef]
theorem concatU64_ok : ∀ (vs : List Value) (cur : Nat) (s : List (Option Bool)), OkAll vs →
    NarrowAll vs → (cur + 1) * 2 ^ valueWidths vs ≤ 2 ^ 64 → asStrings vs = some s →
    concatU64 cur vs = some (cur * 2 ^ s.length + strNat s)
  | [], cur, s, _, _, _, hs => by
    simp only [asStrings, Option.some.injEq] at hs; subst hs
    simp [concatU64, strNat, toNat]
  | v :: vs, cur, s, h, hn, hw, hs => by
    simp only [OkAll] at h
    simp only [NarrowAll] at hn
    obtain ⟨a, ha, hla, _⟩ := asString_ok v h.1
    obtain ⟨b, hb, hlb, _⟩ := asStrings_ok vs h.2
    simp only [asStrings, ha, hb, Option.bind_eq_bind, Option.bind_some, Option.some.injEq] at hs
    subst hs
    have hv := asU64_ok v a h.1 hn.2.1 (by omega) ha
    simp only [valueWidths, Nat.pow_add] at hw
    rw [← Nat.mul_assoc] at hw
    have hpos := Nat.two_pow_pos (valueWidths vs)
    have hbound : (cur + 1) * 2 ^ v.width ≤ 2 ^ 64 :=
      Nat.le_trans (Nat.le_mul_of_pos_right _ hpos) hw
    have hsl := strNat_lt a
    rw [hla] at hsl
    have hexp : (cur + 1) * 2 ^ v.width = cur * 2 ^ v.width + 2 ^ v.width := by
      rw [Nat.add_mul, Nat.one_mul]
    simp only [concatU64]
    rw [toU64_some (by omega)]
    simp only [Option.bind_eq_bind, Option.bind_some]
    rw [if_neg (by omega), hv]
    simp only [Option.bind_some]
    have hpw := Nat.two_pow_pos v.width
    rw [Nat.mod_eq_of_lt (by omega), toU64_some (by omega)]
    simp only [Option.bind_some]
    have hstep : (cur * 2 ^ v.width + strNat a + 1) * 2 ^ valueWidths vs ≤ 2 ^ 64 :=
      Nat.le_trans (Nat.mul_le_mul_right _ (by omega)) hw
    rw [concatU64_ok vs (cur * 2 ^ v.width + strNat a) b h.2 hn.2.2 hstep hb, strNat_append,
      List.length_append, Nat.pow_add, hla, Nat.add_mul, Nat.mul_assoc]
    congr 1; omega
end

/-- C10, partial: `as_u64` gives the number encoded by the bit string (with `X` as 0), for values
of at most 64 bits.  Missing: concatenations with an element of exactly 64 bits
(`C10_counterexample_u64`). -/
theorem C10_as_u64_partial (v : Value) (h : v.Ok) (hn : v.Narrow) (hw : v.width ≤ 64) :
    ∃ s, v.asString = some s ∧ v.asU64 = some (strNat s) := by
  obtain ⟨s, hs, _, _⟩ := asString_ok v h
  exact ⟨s, hs, asU64_ok v s h hn hw hs⟩

/-- A one-element tuple of a `uint<64>` shifts a `u64` by 64, which overflows (eval.rs:125). -/
theorem C10_counterexample_u64 : (Value.concat [.uint 64 5]).asU64 = none := by
  simp [Value.asU64, concatU64, Value.width, toU64]

theorem concatChunks_ok : ∀ (vs : List Value) (cur : Nat) (s : List (Option Bool)), OkAll vs →
    NarrowAll vs → asStrings vs = some s →
    concatChunks cur vs = some (cur * 2 ^ s.length + strNat s)
  | [], cur, s, _, _, hs => by
    simp only [asStrings, Option.some.injEq] at hs; subst hs
    simp [concatChunks, strNat, toNat]
  | v :: vs, cur, s, h, hn, hs => by
    simp only [OkAll] at h
    simp only [NarrowAll] at hn
    obtain ⟨a, ha, hla, _⟩ := asString_ok v h.1
    obtain ⟨b, hb, hlb, _⟩ := asStrings_ok vs h.2
    simp only [asStrings, ha, hb, Option.bind_eq_bind, Option.bind_some, Option.some.injEq] at hs
    subst hs
    have hv := asU64_ok v a h.1 hn.2.1 (by omega) ha
    simp only [concatChunks]
    rw [toU64_some (by omega)]
    simp only [Option.bind_eq_bind, Option.bind_some, hv]
    rw [concatChunks_ok vs _ b h.2 hn.2.2 hb, strNat_append, List.length_append, Nat.pow_add, hla,
      Nat.add_mul, Nat.mul_assoc]
    congr 1; omega

/-- C10, partial: `as_u32_chunks` gives the number encoded by the bit string, for values of any
width.  Missing: concatenations with elements of 64 bits or more (`C10_counterexample_chunks`). -/
theorem C10_as_u32_chunks_partial (v : Value) (h : v.Ok) (hn : v.Narrow) :
    ∃ s, v.asString = some s ∧ v.asU32Chunks = some (strNat s) := by
  obtain ⟨s, hs, _, _⟩ := asString_ok v h
  refine ⟨s, hs, ?_⟩
  cases v with
  | bit b =>
    simp only [Value.asString, Option.some.injEq] at hs; subst hs
    cases b <;> simp [Value.asU32Chunks, strNat, toNat]
  | int size val =>
    simp only [Value.Ok] at h
    rw [asString_int h.1 h.2.1 h.2.2] at hs
    cases hs
    rw [strNat_some]
    simp only [Value.asU32Chunks]
    split
    · rename_i h0
      have := toNat_ofInt_exact h0 h.2.2
      congr 1; omega
    · rw [maskBits, ofInt, toNat_ofNat, Nat.mod_eq_of_lt]
      have h1 := Int.emod_lt_of_pos val (two_pow_pos size)
      have h2 := Int.emod_nonneg val (Int.ne_of_gt (two_pow_pos size))
      have hc : ((2 ^ size : Nat) : Int) = 2 ^ size := by simp
      omega
  | uint size val =>
    simp only [Value.Ok] at h
    simp only [Value.asString, padZeros_eq h.1 h.2, Option.map_some, Option.some.injEq] at hs
    subst hs
    rw [strNat_some, toNat_ofNat, Nat.mod_eq_of_lt h.2]
    rfl
  | concat vs =>
    have := concatChunks_ok vs 0 s (by simpa [Value.Ok] using h) (by simpa [Value.Narrow] using hn)
      (by simpa [Value.asString] using hs)
    simpa [Value.asU32Chunks] using this
  | undef size =>
    simp only [Value.asString, Option.some.injEq] at hs; subst hs
    simp [Value.asU32Chunks, strNat_undef]

/-- The elements of a concatenation go through `as_u64`, which panics beyond 64 bits
(eval.rs:161). -/
theorem C10_counterexample_chunks :
    (Value.concat [.uint 65 (2 ^ 64)]).asU32Chunks = none := by
  simp [Value.asU32Chunks, concatChunks, Value.width, Value.asU64, toU64]

/-- The hypotheses of the C10 theorems are met by a compound value. -/
example : (Value.concat [.int 8 (-1), .bit true, .undef 7, .uint 8 3]).Ok ∧
    (Value.concat [.int 8 (-1), .bit true, .undef 7, .uint 8 3]).Narrow ∧
    (Value.concat [.int 8 (-1), .bit true, .undef 7, .uint 8 3]).width = 24 := by
  simp [Value.Ok, OkAll, Value.Narrow, NarrowAll, Value.width, valueWidths]

end Spade.Codegen

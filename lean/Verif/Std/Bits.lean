import Verif.Std.Base
/-! # Bits of numbers -/
namespace Spade.Std
open Spade.Verilog Spade.Codegen Spade.Lower Spade.Expr
open Spade.Match (Val HasTy HasTys Matches MatchesAll)

theorem numTy_size (s : Bool) (N : Nat) : (numTy s N).size = N := by cases s <;> simp [numTy, MTy.size]

theorem numTy_num (s : Bool) (N : Nat) : IsNum (numTy s N) := by cases s <;> simp [numTy, IsNum]

theorem pow_pos (n : Nat) : (0 : Int) < 2 ^ n := Int.pow_pos (by decide)

/-- Higher bits do not matter. -/
theorem bitOf_mod {N i : Nat} (h : i < N) (z : Int) : bitOf (z % 2 ^ N) i = bitOf z i := by
  have e : (2 : Int) ^ N = 2 ^ i * (2 * 2 ^ (N - i - 1)) := by
    rw [← Int.pow_succ', ← Int.pow_add]; congr 1; omega
  have h1 : z % 2 ^ N = z + 2 ^ i * (2 * (2 ^ (N - i - 1) * -(z / 2 ^ N))) := by
    have := Int.emod_add_mul_ediv z (2 ^ N)
    have e2 : 2 ^ i * (2 * (2 ^ (N - i - 1) * -(z / 2 ^ N))) = -(2 ^ N * (z / 2 ^ N)) := by
      rw [← Int.mul_assoc, ← Int.mul_assoc, Int.mul_assoc (2 ^ i), ← e, Int.mul_neg]
    omega
  unfold bitOf
  rw [h1, Int.add_mul_ediv_left _ _ (Int.ne_of_gt (pow_pos i)), Int.add_mul_emod_self_left]

theorem bitList_mod (N : Nat) (z : Int) : bitList N (z % 2 ^ N) = bitList N z := by
  apply List.map_congr_left
  intro i hi
  exact bitOf_mod (List.mem_range.1 hi) z

@[simp] theorem bitList_length (N : Nat) (z : Int) : (bitList N z).length = N := by simp [bitList]

theorem bitList_getElem {N i : Nat} {z : Int} (h : i < N) : (bitList N z)[i]? = some (bitOf z i) := by
  simp [bitList, h]

theorem bitList_take {N M : Nat} (h : N ≤ M) (z : Int) : (bitList M z).take N = bitList N z := by
  apply List.ext_getElem
  · simp; omega
  · intro i h1 h2; simp [bitList]

/-- Bits and vectors. -/
theorem ofNat_bits : ∀ (N n : Nat), ofNat N n = (bitList N n).reverse
  | 0, _ => rfl
  | N + 1, n => by
    have := ofNat_bits N n
    unfold bitList at *
    rw [ofNat, this, List.range_succ, List.map_append, List.reverse_append]
    simp only [List.map_cons, List.map_nil, List.reverse_cons, List.reverse_nil, List.nil_append,
      List.cons_append, List.cons.injEq, and_true]
    simp only [bitOf]
    congr 1
    exact propext (by norm_cast)

theorem ofInt_bits (N : Nat) (z : Int) : ofInt N z = (bitList N z).reverse := by
  rw [ofInt, ofNat_bits, Int.toNat_of_nonneg (Int.emod_nonneg _ (Int.ne_of_gt (pow_pos N))), bitList_mod]

theorem toNat_bits : ∀ bs : List Bool, (toNat bs.reverse : Int) = bitSum bs
  | [] => rfl
  | b :: bs => by
    rw [List.reverse_cons, toNat_append, bitSum, ← toNat_bits bs]
    cases b <;> simp [toNat] <;> omega

theorem bitSum_bitList (N : Nat) (z : Int) : bitSum (bitList N z) = z % 2 ^ N := by
  rw [← toNat_bits, ← ofInt_bits, toNat_ofInt]

theorem bitSum_range (bs : List Bool) : 0 ≤ bitSum bs ∧ bitSum bs < 2 ^ bs.length := by
  have h := toNat_lt bs.reverse
  have := toNat_bits bs
  rw [List.length_reverse] at h
  constructor
  · omega
  · rw [← this]; exact_mod_cast h

theorem bitList_bitSum (bs : List Bool) : bitList bs.length (bitSum bs) = bs := by
  have := ofInt_bits bs.length (bitSum bs)
  rw [← toNat_bits] at this
  have h2 : ofInt bs.length (toNat bs.reverse : Int) = bs.reverse := by
    apply toNat_inj (by simp)
    have h3 := toNat_ofInt bs.length (toNat bs.reverse : Int)
    have h4 := bitSum_range bs
    rw [← toNat_bits] at h4
    rw [Int.emod_eq_of_lt h4.1 h4.2] at h3
    omega
  rw [h2, toNat_bits] at this
  have := congrArg List.reverse this
  simpa using this.symm

theorem bitOf_bitSum {bs : List Bool} {i : Nat} (h : i < bs.length) : bitOf (bitSum bs) i = bs[i] := by
  have := bitList_getElem (z := bitSum bs) h
  rw [bitList_bitSum] at this
  simpa [h] using this.symm

/-! ## Encodings -/

/-- Numbers in the range of their type. -/
theorem is_num {s : Bool} {N : Nat} {z : Int} : Is (numTy s N) (.int z) ↔ InRange (numTy s N) z := by
  constructor
  · intro h
    obtain ⟨b, hb⟩ := enc_exists _ _ h
    exact (enc_num hb).2.1
  · intro h
    cases s with
    | true => exact enc_hasTy (.int h)
    | false => exact enc_hasTy (.uint h)

theorem is_num_elim {s : Bool} {N : Nat} {v : Val} (h : Is (numTy s N) v) : ∃ z, v = .int z := by
  cases s <;> simp only [Is, numTy, srcTy, Bool.false_eq_true, if_false, if_true] at h <;> cases h <;>
    exact ⟨_, rfl⟩

theorem enc_numTy {s : Bool} {N : Nat} {z : Int} (h : InRange (numTy s N) z) :
    Enc (numTy s N) (.int z) (bitList N z).reverse := by
  rw [← ofInt_bits]
  cases s with
  | true => exact .int h
  | false => exact .uint h

theorem wrap_range (s : Bool) (N : Nat) (z : Int) : InRange (numTy s N) (wrap (numTy s N) z) :=
  (enc_num (enc_wrap (numTy_num s N) z)).2.1

theorem wrap_mod (s : Bool) (N : Nat) (z : Int) : wrap (numTy s N) z % 2 ^ N = z % 2 ^ N := by
  cases s <;> simp only [numTy, wrap, Bool.false_eq_true, if_false, if_true]
  · exact Int.emod_emod_of_dvd _ (Int.dvd_refl _)
  · have h := Int.bmod_emod (x := z) (m := 2 ^ N)
    simpa using h

/-- Numbers that differ by a multiple are the same when wrapped. -/
theorem wrap_congr {s : Bool} {N : Nat} {x y : Int} (h : x % 2 ^ N = y % 2 ^ N) :
    wrap (numTy s N) x = wrap (numTy s N) y := by
  have e := enc_wrap (numTy_num s N) x
  have e' := enc_wrap (numTy_num s N) y
  rw [numTy_size, ofInt_bits, ← bitList_mod] at e e'
  rw [h] at e
  have := enc_unique e e'
  injection this

theorem wrap_eq {s : Bool} {N : Nat} {z : Int} (h : InRange (numTy s N) z) : wrap (numTy s N) z = z := by
  have e := enc_wrap (numTy_num s N) z
  rw [numTy_size, ofInt_bits] at e
  have := enc_unique e (enc_numTy h)
  injection this

theorem wrap_bits (s : Bool) (N : Nat) (z : Int) : bitList N (wrap (numTy s N) z) = bitList N z := by
  rw [← bitList_mod, wrap_mod, bitList_mod]

theorem wrap_wrap {s s' : Bool} {N M : Nat} (h : N ≤ M) (z : Int) :
    wrap (numTy s N) (wrap (numTy s' M) z) = wrap (numTy s N) z := by
  apply wrap_congr
  have hd : (2 : Int) ^ N ∣ 2 ^ M := ⟨2 ^ (M - N), by rw [← Int.pow_add]; congr 1; omega⟩
  rw [← Int.emod_emod_of_dvd (wrap (numTy s' M) z) hd, wrap_mod, Int.emod_emod_of_dvd _ hd]

/-! ## Transmutes -/

theorem bits_transmute {s : Bool} {N : Nat} {z : Int} (h : InRange (numTy s N) z) :
    IntrVal .transmute [numTy s N] (.array .bool N) [.int z] (bools (bitList N z)) :=
  .transmute (enc_numTy h) (bools_enc _ (by simp))

theorem num_transmute {s : Bool} {N : Nat} {bs : List Bool} (h : bs.length = N) :
    IntrVal .transmute [.array .bool N] (numTy s N) [bools bs] (.int (wrap (numTy s N) (bitSum bs))) := by
  refine .transmute (bools_enc bs h) ?_
  have e := enc_wrap (numTy_num s N) (bitSum bs)
  rw [numTy_size, ofInt_bits, ← h, bitList_bitSum, h] at e
  exact e

theorem recast_transmute {s s' : Bool} {N : Nat} {z : Int} (h : InRange (numTy s N) z) :
    IntrVal .transmute [numTy s N] (numTy s' N) [.int z] (.int (wrap (numTy s' N) z)) := by
  refine .transmute (enc_numTy h) ?_
  have e := enc_wrap (numTy_num s' N) z
  rwa [numTy_size, ofInt_bits] at e

theorem is_bools {N : Nat} {bs : List Bool} : Is (.array .bool N) (bools bs) ↔ bs.length = N := by
  simp only [bools, is_array, List.length_map, and_iff_left_iff_imp]
  intro _ v hv
  obtain ⟨b, -, rfl⟩ := List.mem_map.1 hv
  exact .bool

theorem is_bools_elim {N : Nat} {v : Val} (h : Is (.array .bool N) v) : ∃ bs, v = bools bs ∧ bs.length = N := by
  have : ∃ xs, v = .tup xs := by cases h; exact ⟨_, rfl⟩
  obtain ⟨xs, rfl⟩ := this
  obtain ⟨hl, ha⟩ := is_array.1 h
  have : ∃ bs : List Bool, xs = bs.map .bool := by
    clear hl h
    induction xs with
    | nil => exact ⟨[], rfl⟩
    | cons x xs ih =>
      obtain ⟨bs, rfl⟩ := ih fun v hv => ha v (by simp [hv])
      have hx := ha x (by simp)
      simp only [Is, srcTy] at hx
      cases hx with
      | @bool b => exact ⟨b :: bs, rfl⟩
  obtain ⟨bs, rfl⟩ := this
  exact ⟨bs, rfl, by simpa using hl⟩

end Spade.Std

import Verif.Vcd.Model
import Verif.Codegen.Props
/-! Numbers, slices and loops of the translator. -/
namespace Spade.Vcd

open Spade.Codegen Spade.Verilog

@[simp] theorem lift_nil : lift [] = [] := rfl
@[simp] theorem lift_cons (b : Bool) (bs : Bits) : lift (b :: bs) = (if b then .v1 else .v0) :: lift bs := rfl
@[simp] theorem lift_append (a b : Bits) : lift (a ++ b) = lift a ++ lift b := by simp [lift]
@[simp] theorem lift_length (a : Bits) : (lift a).length = a.length := by simp [lift]

theorem x_notin_lift (bs : Bits) : Level.x ∉ lift bs := by
  induction bs with
  | nil => simp
  | cons b bs ih => cases b <;> simp [ih]

theorem z_notin_lift (bs : Bits) : Level.z ∉ lift bs := by
  induction bs with
  | nil => simp
  | cons b bs ih => cases b <;> simp [ih]

theorem toNat_lt' (bs : Bits) : toNat bs < 2 ^ bs.length := by
  induction bs with
  | nil => simp [toNat]
  | cons b bs ih =>
    simp only [toNat, List.length_cons, Nat.pow_succ]
    split <;> omega

theorem wrap64_id {n c : Nat} (h : n < 2 ^ c) (hc : c ≤ 64) : wrap64 n = n := by
  unfold wrap64
  exact Nat.mod_eq_of_lt (Nat.lt_of_lt_of_le h (Nat.pow_le_pow_right (by decide) hc))

/-- One step of the loop on a defined bit. -/
theorem uintLoop_step (flip b : Bool) (l : List Level) (r c i : Nat) (hc : c ≤ 64) (hi : i < 2 ^ c) :
    ∃ r' c' i', c' ≤ 64 ∧ i' < 2 ^ c' ∧
      uintLoop flip ((if b then .v1 else .v0) :: l) r c i = uintLoop flip l r' c' i' ∧
      r' * 2 ^ c' + i' = (r * 2 ^ c + i) * 2 + (b != flip).toNat := by
  have key : ∀ r c i, c < 64 → i < 2 ^ c → ∃ r' c' i', c' ≤ 64 ∧ i' < 2 ^ c' ∧
      (uintLoop flip l r (c + 1)
        (if flip = false then
          if (if b then Level.v1 else .v0) = .v1 then wrap64 (wrap64 (i * 2) + 1) else wrap64 (i * 2)
        else if (if b then Level.v1 else .v0) = .v0 then wrap64 (wrap64 (i * 2) + 1) else wrap64 (i * 2))) =
        uintLoop flip l r' c' i' ∧ r' * 2 ^ c' + i' = (r * 2 ^ c + i) * 2 + (b != flip).toNat := by
    intro r c i hc hi
    have h2 : i * 2 < 2 ^ (c + 1) := by rw [Nat.pow_succ]; omega
    have h3 : i * 2 + 1 < 2 ^ (c + 1) := by rw [Nat.pow_succ]; omega
    rw [wrap64_id h2 (by omega), wrap64_id h3 (by omega)]
    have hmul : r * 2 ^ (c + 1) = (r * 2 ^ c) * 2 := by rw [Nat.pow_succ, Nat.mul_assoc]
    cases b <;> cases flip
    · exact ⟨r, c + 1, i * 2, by omega, h2, by simp, by rw [hmul]; simp; omega⟩
    · exact ⟨r, c + 1, i * 2 + 1, by omega, h3, by simp, by rw [hmul]; simp; omega⟩
    · exact ⟨r, c + 1, i * 2 + 1, by omega, h3, by simp, by rw [hmul]; simp; omega⟩
    · exact ⟨r, c + 1, i * 2, by omega, h2, by simp, by rw [hmul]; simp; omega⟩
  have hx : (if b then Level.v1 else .v0) ≠ .x := by cases b <;> simp
  have hz : (if b then Level.v1 else .v0) ≠ .z := by cases b <;> simp
  rw [uintLoop]
  by_cases h64 : c = 64
  · subst h64
    simp only [↓reduceIte, hx, hz]
    obtain ⟨r', c', i', h1, h2, h3, h4⟩ := key (r * 2 ^ 64 + i) 0 0 (by omega) (by simp)
    exact ⟨r', c', i', h1, h2, h3, by rw [h4]; simp⟩
  · simp only [h64, ↓reduceIte, hx, hz]
    exact key r c i (by omega) hi

theorem uintLoop_lift (flip : Bool) (bs : Bits) (l : List Level) : ∀ (r c i : Nat), c ≤ 64 → i < 2 ^ c →
    ∃ r' c' i', c' ≤ 64 ∧ i' < 2 ^ c' ∧ uintLoop flip (lift bs ++ l) r c i = uintLoop flip l r' c' i' ∧
      r' * 2 ^ c' + i' = (r * 2 ^ c + i) * 2 ^ bs.length + toNat (bs.map (· != flip)) := by
  induction bs with
  | nil => intro r c i hc hi; exact ⟨r, c, i, hc, hi, rfl, by simp [toNat]⟩
  | cons b bs ih =>
    intro r c i hc hi
    obtain ⟨r1, c1, i1, h1, h2, h3, h4⟩ := uintLoop_step flip b (lift bs ++ l) r c i hc hi
    obtain ⟨r2, c2, i2, k1, k2, k3, k4⟩ := ih r1 c1 i1 h1 h2
    refine ⟨r2, c2, i2, k1, k2, ?_, ?_⟩
    · rw [lift_cons, List.cons_append, h3, k3]
    · rw [k4, h4]
      simp only [List.length_cons, List.map_cons, toNat, List.length_map, Nat.pow_succ]
      rw [Nat.add_mul, Nat.mul_assoc, Nat.mul_comm 2 (2 ^ bs.length), Nat.add_assoc]
      congr 1
      cases b <;> cases flip <;> simp

theorem translateUint_lift (bs : Bits) (flip : Bool) :
    translateUint (lift bs) flip = .value (toNat (bs.map (· != flip))) := by
  obtain ⟨r, c, i, _, _, h, h'⟩ := uintLoop_lift flip bs [] 0 0 0 (by omega) (by simp)
  rw [List.append_nil] at h
  unfold translateUint
  rw [h, uintLoop, h']
  simp

theorem uintLoop_x (flip : Bool) (l : List Level) (r c i : Nat) : uintLoop flip (.x :: l) r c i = .undef := by
  rw [uintLoop]; split <;> simp

theorem uintLoop_z (flip : Bool) (l : List Level) (r c i : Nat) : uintLoop flip (.z :: l) r c i = .highz := by
  rw [uintLoop]; split <;> simp

theorem translateUint_x (bs : Bits) (flip : Bool) (l : List Level) :
    translateUint (lift bs ++ .x :: l) flip = .undef := by
  obtain ⟨r, c, i, _, _, h, _⟩ := uintLoop_lift flip bs (.x :: l) 0 0 0 (by omega) (by simp)
  unfold translateUint
  rw [h, uintLoop_x]

theorem translateUint_z (bs : Bits) (flip : Bool) (l : List Level) :
    translateUint (lift bs ++ .z :: l) flip = .highz := by
  obtain ⟨r, c, i, _, _, h, _⟩ := uintLoop_lift flip bs (.z :: l) 0 0 0 (by omega) (by simp)
  unfold translateUint
  rw [h, uintLoop_z]

theorem map_bne_false (bs : Bits) : bs.map (· != false) = bs := by
  induction bs with
  | nil => rfl
  | cons b bs ih => cases b <;> simp_all

theorem toNat_not (bs : Bits) : toNat (bs.map (· != true)) + toNat bs + 1 = 2 ^ bs.length := by
  induction bs with
  | nil => rfl
  | cons b bs ih =>
    simp only [List.map_cons, toNat, List.length_map, List.length_cons, Nat.pow_succ]
    cases b <;> simp at ih ⊢ <;> omega

theorem translateSigned_lift {bs : Bits} (h : bs ≠ []) :
    translateSigned (lift bs) = some (.value (toInt bs)) := by
  unfold translateSigned
  have hx : (lift bs).contains .x = false := by simpa using x_notin_lift bs
  have hz : (lift bs).contains .z = false := by simpa using z_notin_lift bs
  simp only [hx, hz, Bool.false_eq_true, ↓reduceIte]
  cases bs with
  | nil => exact absurd rfl h
  | cons b bs =>
    have hn := toNat_not bs
    have hp : ((2 ^ bs.length : Nat) : Int) = (2 : Int) ^ bs.length := by simp
    cases b
    · simp [translateUint_lift, map_bne_false, Maybe.map, toInt]
    · simp only [lift_cons, ↓reduceIte, decide_true, translateUint_lift, Maybe.map, toInt, Option.some.injEq,
        Maybe.value.injEq]
      omega

theorem translateUnsigned_lift (bs : Bits) : translateUnsigned (lift bs) = .value (toNat bs) := by
  unfold translateUnsigned
  have hx : (lift bs).contains .x = false := by simpa using x_notin_lift bs
  have hz : (lift bs).contains .z = false := by simpa using z_notin_lift bs
  simp only [hx, hz, Bool.false_eq_true, ↓reduceIte, translateUint_lift, map_bne_false]

theorem translateSigned_bad {l : List Level} {p : Shown} (h : Bad l p) :
    (translateSigned l).map Maybe.writeInt = some (text p) := by
  cases h with
  | x h => simp [translateSigned, List.contains_iff_mem, h, Maybe.writeInt, text]
  | z h h' => simp [translateSigned, List.contains_iff_mem, h, h', Maybe.writeInt, text]

theorem translateUnsigned_bad {l : List Level} {p : Shown} (h : Bad l p) :
    (translateUnsigned l).writeNat = text p := by
  cases h with
  | x h => simp [translateUnsigned, List.contains_iff_mem, h, Maybe.writeNat, text]
  | z h h' => simp [translateUnsigned, List.contains_iff_mem, h, h', Maybe.writeNat, text]

theorem slice_mid (a b c : List Level) (w : Nat) (h : b.length = w) :
    slice (a ++ b ++ c) a.length (a.length + w) = some b := by
  subst h
  unfold slice
  rw [if_pos ⟨by omega, by simp⟩]
  simp

/-- With all the wires, the beginning passes the value on. -/
theorem withValue_full (debug : Bool) {size : Nat} {l : List Level} (h : l.length = size) (hs : size ≠ 0)
    (rest : List Level → Option Str) : withValue debug size l rest = rest l := by
  unfold withValue
  rw [if_neg (by omega), if_neg (by omega), if_neg hs]
  cases l with
  | nil => simp at h; omega
  | cons b l => simp [h]

theorem withValue_zero (debug : Bool) (rest : List Level → Option Str) :
    withValue debug 0 [] rest = some [] := by simp [withValue]

end Spade.Vcd

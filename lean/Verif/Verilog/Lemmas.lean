import Verif.Verilog.Sem
/-! Facts about bit vectors and the Verilog specification. -/
namespace Spade.Verilog

theorem toNat_lt : ∀ bs : Bits, toNat bs < 2 ^ bs.length
  | [] => by simp [toNat]
  | b :: bs => by
    have := toNat_lt bs
    simp only [toNat, List.length_cons, Nat.pow_succ]
    split <;> omega

theorem toNat_append : ∀ a b : Bits, toNat (a ++ b) = toNat a * 2 ^ b.length + toNat b
  | [], b => by simp [toNat]
  | x :: a, b => by
    simp only [List.cons_append, toNat, toNat_append a b, List.length_append, Nat.pow_add]
    split
    · rw [Nat.add_mul]; omega
    · simp

@[simp] theorem ofNat_length : ∀ w n, (ofNat w n).length = w
  | 0, _ => rfl
  | w + 1, n => by simp [ofNat, ofNat_length w n]

theorem toNat_ofNat : ∀ w n, toNat (ofNat w n) = n % 2 ^ w
  | 0, n => by simp [ofNat, toNat, Nat.mod_one]
  | w + 1, n => by
    simp only [ofNat, toNat, ofNat_length, toNat_ofNat w n]
    rw [Nat.pow_succ, Nat.mod_mul]
    have h := Nat.mod_two_eq_zero_or_one (n / 2 ^ w)
    rcases h with h | h <;> simp [h] <;> omega

theorem toNat_inj : ∀ {a b : Bits}, a.length = b.length → toNat a = toNat b → a = b
  | [], [], _, _ => rfl
  | [], _ :: _, h, _ => by simp at h
  | _ :: _, [], h, _ => by simp at h
  | x :: a, y :: b, hl, h => by
    simp only [List.length_cons, Nat.add_right_cancel_iff] at hl
    have h1 := toNat_lt a
    have h2 := toNat_lt b
    simp only [toNat, hl] at h h1
    have hxy : x = y := by
      cases x <;> cases y <;> simp at h ⊢ <;> omega
    subst hxy
    rw [toNat_inj hl (by omega)]

theorem ofNat_toNat (bs : Bits) : ofNat bs.length (toNat bs) = bs := by
  apply toNat_inj (by simp)
  rw [toNat_ofNat, Nat.mod_eq_of_lt (toNat_lt bs)]

theorem ofNat_mod (w n : Nat) : ofNat w (n % 2 ^ w) = ofNat w n := by
  apply toNat_inj (by simp)
  simp [toNat_ofNat]

@[simp] theorem ofInt_length (w z) : (ofInt w z).length = w := by simp [ofInt]

theorem two_pow_pos (w : Nat) : (0 : Int) < 2 ^ w := Int.pow_pos (by omega)

theorem toNat_ofInt (w : Nat) (z : Int) : (toNat (ofInt w z) : Int) = z % 2 ^ w := by
  have h1 := Int.emod_nonneg z (Int.ne_of_gt (two_pow_pos w))
  have h2 := Int.emod_lt_of_pos z (two_pow_pos w)
  rw [ofInt, toNat_ofNat]
  have : (z % 2 ^ w).toNat < 2 ^ w := by
    have : ((2 ^ w : Nat) : Int) = 2 ^ w := by simp
    omega
  rw [Nat.mod_eq_of_lt this]
  omega

theorem ofInt_natCast (w n : Nat) : ofInt w (n : Int) = ofNat w n := by
  apply toNat_inj (by simp)
  have := toNat_ofInt w (n : Int)
  rw [toNat_ofNat]
  have h : ((n % 2 ^ w : Nat) : Int) = (n : Int) % 2 ^ w := by simp
  omega

theorem ofInt_congr {w : Nat} {a b : Int} (h : a % 2 ^ w = b % 2 ^ w) : ofInt w a = ofInt w b := by
  simp [ofInt, h]

theorem ofInt_inj {w : Nat} {a b : Int} (h : ofInt w a = ofInt w b) : a % 2 ^ w = b % 2 ^ w := by
  have h1 := toNat_ofInt w a
  have h2 := toNat_ofInt w b
  rw [h] at h1; omega

/-- Signed and unsigned readings agree modulo `2 ^ length`. -/
theorem toInt_mod : ∀ bs : Bits, toInt bs % 2 ^ bs.length = (toNat bs : Int) % 2 ^ bs.length
  | [] => by simp [toInt, toNat]
  | b :: bs => by
    simp only [toInt, toNat, List.length_cons]
    cases b with
    | false => simp
    | true =>
      have : -(2 ^ bs.length : Int) + (toNat bs : Int) =
          ((2 ^ bs.length + toNat bs : Nat) : Int) + (2 ^ (bs.length + 1)) * (-1) := by
        have : ((2 ^ bs.length : Nat) : Int) = 2 ^ bs.length := by simp
        rw [Int.pow_succ]; push_cast; omega
      simp only [if_true]
      rw [this, Int.add_mul_emod_self_left]

theorem ofInt_toInt (bs : Bits) : ofInt bs.length (toInt bs) = bs := by
  rw [ofInt_congr (toInt_mod bs), ofInt_natCast, ofNat_toNat]

/-- Bounds of the signed reading. -/
theorem toInt_bounds : ∀ {bs : Bits} {w : Nat}, bs.length = w + 1 →
    -(2 ^ w : Int) ≤ toInt bs ∧ toInt bs < 2 ^ w
  | b :: bs, w, h => by
    simp at h; subst h
    have h1 := toNat_lt bs
    have h2 : ((2 ^ bs.length : Nat) : Int) = 2 ^ bs.length := by simp
    simp only [toInt]
    split <;> omega

theorem toInt_eq_of_mod {bs : Bits} {w : Nat} {z : Int} (hl : bs.length = w + 1)
    (h1 : -(2 ^ w : Int) ≤ z) (h2 : z < 2 ^ w) (hm : (toNat bs : Int) % 2 ^ (w + 1) = z % 2 ^ (w + 1)) :
    toInt bs = z := by
  have hb := toInt_bounds hl
  have he := toInt_mod bs
  rw [hl, hm] at he
  have hp := two_pow_pos w
  have h3 : (toInt bs - z) % 2 ^ (w + 1) = 0 := by
    rw [Int.sub_emod, he]; simp
  obtain ⟨k, hk⟩ := Int.dvd_of_emod_eq_zero h3
  rw [Int.pow_succ] at hk
  have : k = 0 := by
    have hk' : toInt bs - z = 2 ^ w * (2 * k) := by rw [hk, Int.mul_assoc]
    have a1 : 2 ^ w * (2 * k) < 2 ^ w * 2 := by omega
    have a2 : 2 ^ w * (-2) < 2 ^ w * (2 * k) := by omega
    have b1 := Int.lt_of_mul_lt_mul_left a1 (by omega)
    have b2 := Int.lt_of_mul_lt_mul_left a2 (by omega)
    omega
  subst this; omega

theorem toInt_ofInt {w : Nat} {z : Int} (h1 : -(2 ^ w : Int) ≤ z) (h2 : z < 2 ^ w) :
    toInt (ofInt (w + 1) z) = z := by
  apply toInt_eq_of_mod (by simp) h1 h2
  rw [toNat_ofInt, Int.emod_emod_of_dvd]
  exact Int.dvd_refl _

theorem toNat_replicate_false (n : Nat) (bs : Bits) :
    toNat (List.replicate n false ++ bs) = toNat bs := by
  induction n with
  | zero => simp
  | succ n ih => simp [List.replicate_succ, toNat, ih]

theorem toInt_replicate_head (n : Nat) : ∀ (b : Bool) (bs : Bits),
    toInt (List.replicate n b ++ b :: bs) = toInt (b :: bs) := by
  induction n with
  | zero => simp
  | succ n ih =>
    intro b bs
    rw [List.replicate_succ, List.cons_append]
    cases b with
    | false =>
      have h : toNat (List.replicate n false ++ false :: bs) = toNat (false :: bs) :=
        toNat_replicate_false n _
      simp only [toInt, h]
      simp [toNat]
    | true =>
      have := ih true bs
      -- toInt of the tail in terms of toNat
      have hrep : List.replicate n true ++ true :: bs = true :: (List.replicate n true ++ bs) := by
        have : List.replicate n true ++ [true] = true :: List.replicate n true := by
          rw [← List.replicate_succ', List.replicate_succ]
        rw [List.append_cons, this]; rfl
      rw [hrep] at this ⊢
      have hp : ((2 ^ (List.replicate n true ++ bs).length : Nat) : Int) =
        2 ^ (List.replicate n true ++ bs).length := by simp
      simp only [toInt, toNat, if_true, List.length_cons] at this ⊢
      rw [Int.pow_succ]
      push_cast
      omega

theorem resize_length (s : Bool) (w : Nat) (bs : Bits) : (resize s w bs).length = w := by
  unfold resize; split <;> simp <;> omega

theorem resize_self (s : Bool) (bs : Bits) : resize s bs.length bs = bs := by
  simp [resize]

theorem resize_eq_self {s : Bool} {w : Nat} {bs : Bits} (h : bs.length = w) :
    resize s w bs = bs := by subst h; exact resize_self s bs

theorem toNat_resize_false {w : Nat} {bs : Bits} (h : bs.length ≤ w) :
    toNat (resize false w bs) = toNat bs := by
  simp [resize, h, toNat_replicate_false]

theorem toInt_resize_true {w : Nat} {bs : Bits} (h : bs.length ≤ w) (h0 : bs ≠ []) :
    toInt (resize true w bs) = toInt bs := by
  cases bs with
  | nil => exact absurd rfl h0
  | cons b bs =>
    simp only [resize, h, if_true, Bool.true_and, List.headD_cons]
    exact toInt_replicate_head _ _ _

/-- The value under the context's signedness survives extension. -/
theorem valOf_resize {s : Bool} {w : Nat} {bs : Bits} (h : bs.length ≤ w) (h0 : bs ≠ []) :
    valOf s (resize s w bs) = valOf s bs := by
  cases s with
  | false => simp [valOf, toNat_resize_false h]
  | true => simp [valOf, toInt_resize_true h h0]

theorem drop_toNat : ∀ (bs : Bits) (w : Nat), w ≤ bs.length →
    toNat (bs.drop (bs.length - w)) = toNat bs % 2 ^ w := by
  intro bs w h
  have hs := List.take_append_drop (bs.length - w) bs
  have hl : (bs.drop (bs.length - w)).length = w := by simp; omega
  have := toNat_append (bs.take (bs.length - w)) (bs.drop (bs.length - w))
  rw [hs, hl] at this
  rw [this, Nat.mul_comm, Nat.mul_add_mod, Nat.mod_eq_of_lt]
  have := toNat_lt (bs.drop (bs.length - w))
  rwa [hl] at this

/-- Truncating a two's complement encoding. -/
theorem ofInt_drop (w w' : Nat) (z : Int) (h : w ≤ w') :
    (ofInt w' z).drop ((ofInt w' z).length - w) = ofInt w z := by
  apply toNat_inj (by simp; omega)
  rw [drop_toNat _ _ (by simpa using h)]
  have h1 := toNat_ofInt w' z
  have h2 := toNat_ofInt w z
  have h3 : ((toNat (ofInt w' z) % 2 ^ w : Nat) : Int) = (toNat (ofInt w' z) : Int) % 2 ^ w := by simp
  have hd : (2 ^ w : Int) ∣ 2 ^ w' := ⟨2 ^ (w' - w), by rw [← Int.pow_add]; congr 1; omega⟩
  rw [h1, Int.emod_emod_of_dvd _ hd] at h3
  omega

@[simp] theorem toInt_nil : toInt [] = 0 := rfl

theorem slice_self {bs : Bits} (h : bs ≠ []) : slice bs (bs.length - 1) 0 = some bs := by
  have : 0 < bs.length := List.length_pos_iff.2 h
  simp only [slice]
  rw [if_pos (by omega)]
  congr 1
  have h1 : bs.length - 1 - (bs.length - 1) = 0 := by omega
  rw [h1, List.drop_zero, List.take_of_length_le (by omega)]

/-- The slice that picks the middle of three adjacent vectors. -/
theorem slice_mid {a b c : Bits} (hb : b ≠ []) :
    slice (a ++ b ++ c) (c.length + b.length - 1) c.length = some b := by
  have : 0 < b.length := List.length_pos_iff.2 hb
  simp only [slice]
  rw [if_pos (by simp; omega)]
  congr 1
  have h1 : (a ++ b ++ c).length - 1 - (c.length + b.length - 1) = a.length := by
    simp; omega
  have h2 : c.length + b.length - 1 - c.length + 1 = b.length := by omega
  rw [h1, h2, List.append_assoc, List.drop_left, List.take_left]

theorem slice_length {bs : Bits} {hi lo : Nat} {r : Bits} (h : slice bs hi lo = some r) :
    r.length = hi - lo + 1 := by
  simp only [slice] at h
  split at h
  · cases h; simp; omega
  · cases h

end Spade.Verilog

import Verif.Codegen.Tuple
/-!
# Arithmetic, comparison, shifts and width changes
-/
namespace Spade.Codegen
open Spade.Verilog

theorem var_width_ne {ρ : Env} {x : Nat} (h : ρ x ≠ []) : (ρ x).length ≠ 0 := by simpa using h

theorem runOp_assign {Γ : Nat → MTy} {ty : MTy} {op : Op} {ops : List Nat} {ρ : Env}
    {xs : Nat → Bool} {e : VExpr} {w : Nat} (hw : ty.size = w) (h0 : w ≠ 0)
    (hc : fwdCode Γ ty op ops = some (.assign e)) :
    runOp Γ ty op ops ρ xs = assigned ρ xs w e := by
  unfold runOp
  rw [hc, if_neg (by omega), hw]

theorem assigned_lit {ρ : Env} {xs : Nat → Bool} {w n : Nat} :
    assigned ρ xs w (.lit w n) = some (ofNat w n) := by
  rw [assigned_exact (by simp [VExpr.width]), value_lit]

/-- A sum, difference or product (`f`) of two operands assigned to `lw` bits. -/
theorem assigned_arith {ρ : Env} {xs : Nat → Bool} {lw a b : Nat} {op : BinOp} {s : Bool}
    {f : Int → Int → Int} (ha : ρ a ≠ []) (hb : ρ b ≠ [])
    (hop : op = .add ∧ f = (· + ·) ∨ op = .sub ∧ f = (· - ·) ∨ op = .mul ∧ f = (· * ·)) :
    assigned ρ xs lw (if s then .bin op (.signed (.var a)) (.signed (.var b))
      else .bin op (.var a) (.var b)) =
      some (ofInt lw (f (valOf s (ρ a)) (valOf s (ρ b)))) := by
  have ha' := var_width_ne ha
  have hb' := var_width_ne hb
  have hla : (ρ a).length ≤ max lw (max (ρ a).length (ρ b).length) := by omega
  have hlb : (ρ b).length ≤ max lw (max (ρ a).length (ρ b).length) := by omega
  generalize hW : max lw (max (ρ a).length (ρ b).length) = W at *
  have hlw : lw ≤ W := by omega
  have hva := valOf_resize (s := s) hla ha
  have hvb := valOf_resize (s := s) hlb hb
  cases s <;> rcases hop with ⟨h1, h2⟩ | ⟨h1, h2⟩ | ⟨h1, h2⟩ <;> subst h1 h2 <;>
    simp only [assigned, if_true, if_false, Bool.false_eq_true, VExpr.width, VExpr.isSigned,
      Bool.and_self, hW, VExpr.eval, ha', hb', Option.bind_eq_bind, Option.bind_some, arith, hva,
      hvb, resize_self] <;>
    rw [ofInt_drop _ _ _ hlw]

/-- A comparison of two operands of the same width. -/
theorem assigned_cmp {ρ : Env} {xs : Nat → Bool} {a b : Nat} {op : BinOp} {s : Bool}
    (ha : ρ a ≠ []) (hl : (ρ a).length = (ρ b).length) {r : Bool}
    (hop : op = .gt ∨ op = .lt ∨ op = .ge ∨ op = .le ∨ op = .eq ∨ op = .ne)
    (hr : Verilog.compare op s (ρ a) (ρ b) = some r) :
    assigned ρ xs 1 (if s then .bin op (.signed (.var a)) (.signed (.var b))
      else .bin op (.var a) (.var b)) = some [r] := by
  have ha' := var_width_ne ha
  have hb' : (ρ b).length ≠ 0 := by omega
  have h1 : max (ρ a).length (ρ b).length = (ρ a).length := by omega
  have h2 : ∀ s, resize s (ρ a).length (ρ b) = ρ b := fun s => resize_eq_self hl.symm
  have h3 : ∀ s, resize s 1 [r] = [r] := fun s => resize_eq_self rfl
  cases s <;> rcases hop with h | h | h | h | h | h <;> subst h <;>
    simp [assigned, VExpr.width, VExpr.isSigned, h1, VExpr.eval, ha', hb', resize_self, h2, hr,
      ofBool, h3]

theorem toNat_eq_iff {a b : Bits} (h : a.length = b.length) : toNat a = toNat b ↔ a = b :=
  ⟨toNat_inj h, fun h => by rw [h]⟩

theorem toInt_inj {a b : Bits} (h : a.length = b.length) (he : toInt a = toInt b) : a = b := by
  have h1 := ofInt_toInt a
  have h2 := ofInt_toInt b
  rw [he, h, h2] at h1
  exact h1.symm

theorem toNat_cast_lt (bs : Bits) : (toNat bs : Int) < 2 ^ bs.length := by
  have := toNat_lt bs
  have h2 : ((2 ^ bs.length : Nat) : Int) = 2 ^ bs.length := by simp
  omega

/-- An exact unsigned result. -/
theorem toNat_ofInt_exact {w : Nat} {z : Int} (h0 : 0 ≤ z) (h1 : z < 2 ^ w) :
    (toNat (ofInt w z) : Int) = z := by
  rw [toNat_ofInt, Int.emod_eq_of_lt h0 h1]

theorem pow_succ_int (w : Nat) : (2 : Int) ^ (w + 1) = 2 * 2 ^ w := by
  rw [Int.pow_succ]; omega

theorem pow_le_int {a b : Nat} (h : a ≤ b) : (2 : Int) ^ a ≤ 2 ^ b := by
  have := Nat.pow_le_pow_right (n := 2) (by omega) h
  have h1 : ((2 ^ a : Nat) : Int) = 2 ^ a := by simp
  have h2 : ((2 ^ b : Nat) : Int) = 2 ^ b := by simp
  omega

theorem mul_bound {x y A B : Int} (hA : 0 ≤ A) (hx1 : -A ≤ x) (hx2 : x ≤ A) (hy1 : -B ≤ y)
    (hy2 : y ≤ B) : -(A * B) ≤ x * y ∧ x * y ≤ A * B := by
  have hB : 0 ≤ B := by omega
  have h1 := Int.mul_nonneg (by omega : 0 ≤ A - x) (by omega : 0 ≤ B + y)
  have h2 := Int.mul_nonneg (by omega : 0 ≤ A + x) (by omega : 0 ≤ B - y)
  have h3 := Int.mul_nonneg (by omega : 0 ≤ A - x) (by omega : 0 ≤ B - y)
  have h4 := Int.mul_nonneg (by omega : 0 ≤ A + x) (by omega : 0 ≤ B + y)
  simp only [Int.sub_mul, Int.add_mul, Int.mul_sub, Int.mul_add] at h1 h2 h3 h4
  constructor <;> omega

end Spade.Codegen

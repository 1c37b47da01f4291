import Verif.Expr.Model
import Verif.Codegen.ArrayProps
import Verif.Codegen.ArithProps
/-!
# What each emitted statement does to encoded values
-/
namespace Spade.Expr
open Spade.Verilog Spade.Codegen Spade.Lower
open Spade.Match (Val Matches)

/-! ## Numbers -/

theorem enc_num {t : MTy} {z : Int} {b : Bits} (h : Enc t (.int z) b) :
    IsNum t ∧ InRange t z ∧ b = ofInt t.size z := by
  cases h with
  | int h => exact ⟨trivial, h, rfl⟩
  | uint h => exact ⟨trivial, h, rfl⟩

theorem num_enc {t : MTy} {z : Int} (hn : IsNum t) (h : InRange t z) :
    Enc t (.int z) (ofInt t.size z) := by
  cases t <;> simp only [IsNum] at hn
  · exact .int h
  · exact .uint h

theorem enc_numVal {t : MTy} {z : Int} {b : Bits} (h : Enc t (.int z) b) : numVal t b = z := by
  obtain ⟨hn, hr, rfl⟩ := enc_num h
  exact numVal_ofInt hn hr

theorem enc_toNat {t : MTy} {z : Int} {b : Bits} (h : Enc t (.int z) b) : toNat b = unsigned t z := by
  obtain ⟨hn, hr, rfl⟩ := enc_num h
  rw [unsigned, ← toNat_ofInt]; simp

theorem numVal_enc {t : MTy} {b : Bits} (hn : IsNum t) (hl : b.length = t.size) :
    Enc t (.int (numVal t b)) b := by
  have h := num_enc hn (numVal_range hn hl)
  have : ofInt t.size (numVal t b) = b := by
    cases t <;> simp only [IsNum] at hn
    · rw [← hl]; exact ofInt_toInt b
    · rw [← hl]; simp only [numVal]; rw [ofInt_natCast, ofNat_toNat]
  rwa [this] at h

theorem toInt_bmod (b : Bits) : toInt b = Int.bmod (toNat b) (2 ^ b.length) := by
  rcases Nat.eq_zero_or_pos b.length with h | h
  · rw [List.length_eq_zero_iff.1 h]; rfl
  · obtain ⟨m, hm⟩ : ∃ m, b.length = m + 1 := ⟨b.length - 1, by omega⟩
    have h1 := toInt_bounds hm
    have h2 := toInt_mod b
    rw [hm] at h2 ⊢
    have h3 := pow_succ_int m
    have h4 : ((2 ^ (m + 1) : Nat) : Int) = 2 ^ (m + 1) := by simp
    have h5 : Int.bmod (toNat b) (2 ^ (m + 1)) = Int.bmod (toInt b) (2 ^ (m + 1)) := by
      rw [← Int.emod_bmod, h4, ← h2, ← h4, Int.emod_bmod]
    rw [h5]
    refine (Int.bmod_eq_of_le ?_ ?_).symm <;> rw [h4] <;> omega

/-- The bits of a number modulo a power of two are those of the number it is wrapped to. -/
theorem enc_wrap {t : MTy} (hn : IsNum t) (z : Int) : Enc t (.int (wrap t z)) (ofInt t.size z) := by
  have h := numVal_enc (t := t) (b := ofInt t.size z) hn (by simp)
  have : numVal t (ofInt t.size z) = wrap t z := by
    cases t <;> simp only [IsNum] at hn
    · simp only [numVal, MTy.size, wrap, toInt_bmod, toNat_ofInt, ofInt_length]
      rename_i n
      have h4 : ((2 ^ n : Nat) : Int) = 2 ^ n := by simp
      rw [← h4, Int.emod_bmod]
    · simp only [numVal, MTy.size, wrap, toNat_ofInt]
  rwa [this] at h

theorem wrap_congr {t : MTy} (hn : IsNum t) {x y : Int} (h : ofInt t.size x = ofInt t.size y) :
    wrap t x = wrap t y := by
  have h1 := enc_wrap hn x
  have h2 := enc_wrap hn y
  rw [h] at h1
  have := enc_unique h1 h2
  simpa using this

theorem enc_toInt {t : MTy} {z : Int} {b : Bits} (h : Enc t (.int z) b) : toInt b = signed t z := by
  obtain ⟨hn, hr, rfl⟩ := enc_num h
  have h4 : ((2 ^ t.size : Nat) : Int) = 2 ^ t.size := by simp
  rw [toInt_bmod, toNat_ofInt, ofInt_length, signed, ← h4, Int.emod_bmod]

variable {H : Nat → Option HUnit} {Γ : Nat → MTy} {ρ : Env} {xs : Nat → Nat → Bool}

/-! ## Statements of which the value is defined -/

theorem item_ty {n : Nat} {ty : MTy} {op : Op} {ops : List Nat}
    (h : ItemHolds H Γ ρ xs (.stmt (.bind n ty op ops))) : Γ n = ty := by
  cases h with
  | stmt h => exact h.1
  | undefined h _ => exact h

theorem item_defined {s : Stmt} (h : ItemHolds H Γ ρ xs (.stmt s)) (hd : ¬ Undefined Γ ρ s) :
    Holds Γ ρ xs s := by
  cases h with
  | stmt h => exact h
  | undefined _ h => exact absurd h hd

/-! ## Operators -/

theorem binTy_num {op : SrcBin} {A B ty : MTy} (h : BinTy op A B ty) :
    IsNum A ∧ IsNum B ∧ IsNum ty := by
  cases h <;> exact ⟨trivial, trivial, trivial⟩

/-- Operators with operands and results of one type. -/
theorem binTy_same {op : SrcBin} {A B ty : MTy} (h : BinTy op A B ty)
    (ho : op = .div ∨ op = .mod ∨ op = .shl ∨ op = .shr ∨ op = .ashr) : B = A ∧ ty = A := by
  cases h <;> simp at ho <;> exact ⟨rfl, rfl⟩

theorem toNat_zero_iff {t : MTy} {z : Int} {b : Bits} (h : Enc t (.int z) b) :
    toNat b = 0 ↔ z = 0 := by
  have hv := enc_numVal h
  constructor
  · intro h0
    have hn := (enc_num h).1
    have := toNat_ne_zero_of_num (t := t) hn (b := b)
    rw [hv] at this
    exact Classical.byContradiction fun hc => this hc h0
  · intro h0
    subst h0
    obtain ⟨_, _, rfl⟩ := enc_num h
    have := toNat_ofInt t.size 0
    simp at this
    omega

theorem bin_step {n a b : Nat} {op : SrcBin} {o : Op} {A B ty : MTy} {x y z : Int}
    (hty : BinTy op A B ty) (hA : A.size ≠ 0) (hB : B.size ≠ 0) (hop : lowerBin op A = some o)
    (ha : Γ a = A) (hb : Γ b = B) (hea : Enc A (.int x) (ρ (fwd a)))
    (heb : Enc B (.int y) (ρ (fwd b))) (hz : binVal op ty x y = some z)
    (h : ItemHolds H Γ ρ xs (.stmt (.bind n ty o [a, b]))) : Enc ty (.int z) (ρ (fwd n)) := by
  have hn := binTy_num hty
  have hfa : Fits Γ ρ a := by rw [Fits, ha]; exact enc_length hea
  have hfb : Fits Γ ρ b := by rw [Fits, hb]; exact enc_length heb
  have hla := enc_length hea
  have hlb := enc_length heb
  have hdef : ¬ Undefined Γ ρ (.bind n ty o [a, b]) := by
    have hy := toNat_zero_iff heb
    cases op <;> simp only [lowerBin] at hop
    · cases A <;> simp only [dual, Option.some.injEq, reduceCtorEq] at hop <;> subst hop <;> exact id
    · cases A <;> simp only [dual, Option.some.injEq, reduceCtorEq] at hop <;> subst hop <;> exact id
    · cases A <;> simp only [dual, Option.some.injEq, reduceCtorEq] at hop <;> subst hop <;> exact id
    · simp only [binVal] at hz
      split at hz
      · cases hz
      · cases A <;> simp only [dual, Option.some.injEq, reduceCtorEq] at hop <;> subst hop <;>
          simp only [Undefined] <;> omega
    · simp only [binVal] at hz
      split at hz
      · cases hz
      · cases A <;> simp only [dual, Option.some.injEq, reduceCtorEq] at hop <;> subst hop <;>
          simp only [Undefined] <;> omega
    · cases hop; exact id
    · cases hop; exact id
    · cases hop; exact id
  have hrun := (item_defined h hdef).2
  have hxa := enc_numVal hea
  have hxb := enc_numVal heb
  have arith : ∀ z', op.exact x y = some z' → z = wrap ty z' → Enc ty (.int z) (ρ (fwd n)) := by
    intro z' hz' hzw
    rw [arith_bits (z := z') (by rw [ha, hb]; exact hty) (by rw [ha]; exact hop) hfa hfb
      (by rw [ha]; exact hA) (by rw [hb]; exact hB) (by rw [ha, hb, hxa, hxb]; exact hz')] at hrun
    rw [← Option.some.inj hrun, hzw]
    exact enc_wrap hn.2.2 z'
  cases op
  · exact arith _ rfl (by simpa [binVal] using hz.symm)
  · exact arith _ rfl (by simpa [binVal] using hz.symm)
  · exact arith _ rfl (by simpa [binVal] using hz.symm)
  · obtain ⟨rfl, rfl⟩ := binTy_same hty (by simp)
    simp only [binVal] at hz
    split at hz
    · cases hz
    rename_i hy
    have hN : toNat (ρ (fwd b)) ≠ 0 := fun hc => hy ((toNat_zero_iff heb).1 hc)
    rw [← Option.some.inj hz]
    have key : ρ (fwd n) = ofInt ty.size (x.tdiv y) := by
      have hn1 := hn.1
      cases ty <;> simp only [IsNum] at hn1 <;> simp only [lowerBin, dual, Option.some.injEq] at hop <;>
        subst hop
      · have h1 := (runOp_assign (Γ := Γ) (op := .div) (ops := [a, b]) (ρ := ρ) (xs := xs n) rfl hA rfl).trans
          (assigned_divmod (s := true) hla hlb hA hN (Or.inl ⟨rfl, rfl⟩))
        rw [h1] at hrun
        rw [← Option.some.inj hrun]
        simp only [valOf, if_true]
        simp only [numVal] at hxa hxb
        rw [hxa, hxb]
      · have h1 := (runOp_assign (Γ := Γ) (op := .unsignedDiv) (ops := [a, b]) (ρ := ρ) (xs := xs n) rfl hA rfl).trans
          (assigned_divmod (s := false) hla hlb hA hN (Or.inl ⟨rfl, rfl⟩))
        rw [h1] at hrun
        rw [← Option.some.inj hrun]
        simp only [valOf, Bool.false_eq_true, if_false]
        simp only [numVal] at hxa hxb
        rw [hxa, hxb]
    rw [key]
    exact enc_wrap hn.1 _
  · obtain ⟨rfl, rfl⟩ := binTy_same hty (by simp)
    simp only [binVal] at hz
    split at hz
    · cases hz
    rename_i hy
    have hN : toNat (ρ (fwd b)) ≠ 0 := fun hc => hy ((toNat_zero_iff heb).1 hc)
    rw [← Option.some.inj hz]
    have key : ρ (fwd n) = ofInt ty.size (x.tmod y) := by
      have hn1 := hn.1
      cases ty <;> simp only [IsNum] at hn1 <;> simp only [lowerBin, dual, Option.some.injEq] at hop <;>
        subst hop
      · have h1 := (runOp_assign (Γ := Γ) (op := .mod) (ops := [a, b]) (ρ := ρ) (xs := xs n) rfl hA rfl).trans
          (assigned_divmod (s := true) hla hlb hA hN (Or.inr ⟨rfl, rfl⟩))
        rw [h1] at hrun
        rw [← Option.some.inj hrun]
        simp only [valOf, if_true]
        simp only [numVal] at hxa hxb
        rw [hxa, hxb]
      · have h1 := (runOp_assign (Γ := Γ) (op := .unsignedMod) (ops := [a, b]) (ρ := ρ) (xs := xs n) rfl hA rfl).trans
          (assigned_divmod (s := false) hla hlb hA hN (Or.inr ⟨rfl, rfl⟩))
        rw [h1] at hrun
        rw [← Option.some.inj hrun]
        simp only [valOf, Bool.false_eq_true, if_false]
        simp only [numVal] at hxa hxb
        rw [hxa, hxb]
    rw [key]
    exact enc_wrap hn.1 _
  · obtain ⟨rfl, rfl⟩ := binTy_same hty (by simp)
    simp only [lowerBin, Option.some.injEq] at hop
    subst hop
    simp only [binVal, Option.some.injEq] at hz
    rw [(runOp_assign (w := ty.size) rfl hA rfl).trans (assigned_shift hla hlb hA (Or.inl rfl))] at hrun
    simp only [shift, Option.some.injEq] at hrun
    rw [← hrun, ← hz, enc_toNat heb, ← ofInt_natCast]
    have : ofInt ty.size ((toNat (ρ (fwd a)) * 2 ^ unsigned ty y : Nat) : Int) =
        ofInt ty.size (x * 2 ^ unsigned ty y) := by
      apply ofInt_congr
      have h1 := toNat_ofInt ty.size x
      rw [← (enc_num hea).2.2] at h1
      rw [Int.natCast_mul, h1]
      simp [Int.mul_emod]
    rw [this]
    exact enc_wrap hn.1 _
  · obtain ⟨rfl, rfl⟩ := binTy_same hty (by simp)
    simp only [lowerBin, Option.some.injEq] at hop
    subst hop
    simp only [binVal, Option.some.injEq] at hz
    rw [(runOp_assign (w := ty.size) rfl hA rfl).trans (assigned_shift hla hlb hA (Or.inr rfl))] at hrun
    simp only [shift, Option.some.injEq] at hrun
    rw [← hrun, ← hz, enc_toNat heb, enc_toNat hea, ← ofInt_natCast]
    have h2 := enc_wrap hn.1 ((unsigned ty x / 2 ^ unsigned ty y : Nat) : Int)
    simpa using h2
  · obtain ⟨rfl, rfl⟩ := binTy_same hty (by simp)
    simp only [lowerBin, Option.some.injEq] at hop
    subst hop
    simp only [binVal, Option.some.injEq] at hz
    rw [(runOp_assign (w := ty.size) rfl hA rfl).trans (assigned_ashr hla hlb hA)] at hrun
    simp only [Option.some.injEq] at hrun
    rw [← hrun, ← hz, enc_toNat heb, enc_toInt hea]
    exact enc_wrap hn.1 _

theorem size_unview : ∀ T : MTy, (unview T).size = T.size
  | .copyView T => by simp only [unview, MTy.size]; exact size_unview T
  | .int _ | .uint _ | .bool | .tuple _ | .struct _ | .array _ _ | .memory _ _ | .enum _
  | .backward _ | .inout _ => rfl

theorem strip_unview : ∀ T : MTy, T.strip = unview T
  | .copyView T => by simp only [unview, MTy.strip]; exact strip_unview T
  | .int _ | .uint _ | .bool | .tuple _ | .struct _ | .array _ _ | .memory _ _ | .enum _
  | .backward _ | .inout _ => rfl

theorem size_review : ∀ T t : MTy, (review T t).size = t.size
  | .copyView T, t => by simp only [review, MTy.size]; exact size_review T t
  | .int _, _ | .uint _, _ | .bool, _ | .tuple _, _ | .struct _, _ | .array _ _, _
  | .memory _ _, _ | .enum _, _ | .backward _, _ | .inout _, _ => rfl

theorem alias_step {n a : Nat} {ty : MTy} {v : Val} (hea : Enc ty v (ρ (fwd a)))
    (h : ItemHolds H Γ ρ xs (.stmt (.bind n ty .alias [a]))) : Enc ty v (ρ (fwd n)) := by
  rw [holds_alias (item_defined h id) (enc_length hea)]; exact hea

theorem copyView_step {n a : Nat} {ty : MTy} {bits : Bits} (hb : ρ (fwd a) = bits)
    (hl : bits.length = ty.size)
    (h : ItemHolds H Γ ρ xs (.stmt (.bind n ty .constructCopyView [a]))) : ρ (fwd n) = bits := by
  have h2 := (item_defined h id).2
  unfold runOp at h2
  split at h2
  · rename_i h0
    rw [List.length_eq_zero_iff.1 (hl.trans h0), ← Option.some.inj h2]
  · rename_i h0
    simp only [fwdCode] at h2
    rw [assigned_var (by rw [hb]; exact hl) h0, hb] at h2
    exact (Option.some.inj h2).symm

theorem un_step {n a : Nat} {op : SrcUn} {A ty : MTy} {v w : Val} (hty : UnTy op A ty)
    (ha : Γ a = A) (hea : Enc A v (ρ (fwd a))) (hv : UnVal op ty v w)
    (h : ItemHolds H Γ ρ xs (.stmt (.bind n ty (lowerUn op) [a]))) : Enc ty w (ρ (fwd n)) := by
  have hla := enc_length hea
  cases hty with
  | neg =>
    rename_i m
    cases hv with
    | neg =>
    rename_i z
    have hrun := (item_defined h id).2
    have hz := enc_toInt hea
    simp only [lowerUn] at hrun
    simp only [MTy.size] at hla
    rw [runOp_assign (w := m + 1) rfl (by omega) rfl] at hrun
    simp only [assigned, VExpr.width, VExpr.isSigned, hla, Nat.max_self, VExpr.eval,
      Nat.add_one_ne_zero, if_false, Option.bind_eq_bind, Option.bind_some, ofInt_length,
      Nat.sub_self, List.drop_zero, Option.some.injEq, resize_eq_self hla] at hrun
    rw [← hrun]
    have hc : ofInt (m + 1) (-valOf false (ρ (fwd a))) = ofInt (m + 1) (-z) := by
      apply ofInt_congr
      have h1 := toNat_ofInt (m + 1) z
      have h2 := (enc_num hea).2.2
      simp only [MTy.size] at h2
      rw [← h2] at h1
      simp only [valOf, Bool.false_eq_true, if_false]
      rw [h1, Int.neg_emod_eq_sub_emod, Int.neg_emod_eq_sub_emod, Int.sub_emod, Int.emod_emod,
        ← Int.sub_emod]
    rw [hc]
    exact enc_wrap (t := .int (m + 1)) trivial _
  | not =>
    cases hv with
    | not =>
    rename_i b
    generalize hbits : ρ (fwd a) = bits at hea
    cases hea with
    | bool =>
    have hrun := (item_defined h id).2
    rw [show lowerUn .not = Op.not from rfl, (C44_logical Γ a a ρ (xs n) _ _ hbits hbits).2.2.2] at hrun
    rw [← Option.some.inj hrun]
    exact .bool
  | bitNot hn hs =>
    cases hv with
    | bitNot =>
    rename_i z
    have hrun := (item_defined h id).2
    have hfa : Fits Γ ρ a := by rw [Fits, ha]; exact hla
    rw [show lowerUn .bitNot = Op.bitwiseNot from rfl,
      (C44_bitwise Γ A a a ρ (xs n) ha ha hs hfa hfa).2.2.2.1] at hrun
    rw [← Option.some.inj hrun, (enc_num hea).2.2]
    have key : ∀ (l : Bits), l.map (!·) = ofInt l.length (-(toNat l : Int) - 1) := by
      intro l
      apply toNat_inj (by simp)
      have h1 : ∀ l : Bits, toNat (l.map (!·)) + toNat l + 1 = 2 ^ l.length := by
        intro l
        induction l with
        | nil => rfl
        | cons b l ih =>
          simp only [List.map_cons, toNat, List.length_map, List.length_cons, Nat.pow_succ]
          cases b <;> simp <;> omega
      have h2 := h1 l
      have h3 := toNat_ofInt l.length (-(toNat l : Int) - 1)
      have h4 : ((2 ^ l.length : Nat) : Int) = 2 ^ l.length := by simp
      have h5 : (-(toNat l : Int) - 1) % 2 ^ l.length = (toNat (l.map (!·)) : Int) := by
        have : (-(toNat l : Int) - 1) = (toNat (l.map (!·)) : Int) + 2 ^ l.length * (-1) := by omega
        rw [this, Int.add_mul_emod_self_left]
        exact Int.emod_eq_of_lt (by omega) (by omega)
      omega
    rw [key, ofInt_length]
    have hc : ofInt A.size (-(toNat (ofInt A.size z) : Int) - 1) = ofInt A.size (-z - 1) := by
      apply ofInt_congr
      rw [toNat_ofInt, Int.sub_emod, Int.neg_emod_eq_sub_emod, Int.sub_emod (2 ^ A.size), Int.emod_emod,
        ← Int.sub_emod (2 ^ A.size), ← Int.neg_emod_eq_sub_emod, ← Int.sub_emod]
    rw [hc]
    exact enc_wrap hn _
  | deref =>
    cases hv with
    | deref =>
    generalize hbits : ρ (fwd a) = bits at hea
    cases hea with
    | copyView hea =>
    subst hbits
    exact alias_step hea h
  | ref =>
    cases hv with
    | ref =>
    rw [copyView_step rfl (by simpa [MTy.size] using hla) h]
    exact .copyView hea

/-! ## Components -/

theorem member_enc : ∀ (T : MTy) {v w : Val} {bits : Bits} {ts : List MTy} {k : Nat} {t : MTy},
    Enc T v bits → (unview T = .tuple ts ∨ unview T = .struct ts) → Member v k w →
    ts[k]? = some t →
    ∃ vs bss b, EncAll ts vs bss ∧ bits = bss.flatten ∧ bss[k]? = some b ∧ Enc (review T t) w b
  | .copyView T, _, _, _, _, _, _, he, hT, hm, ht => by
    cases he with
    | copyView he =>
    cases hm with
    | view hm =>
    obtain ⟨vs, bss, b, h1, h2, h3, h4⟩ := member_enc T he hT hm ht
    exact ⟨vs, bss, b, h1, h2, h3, .copyView h4⟩
  | .tuple ts', _, _, _, _, _, _, he, hT, hm, ht => by
    simp only [unview, MTy.tuple.injEq, reduceCtorEq, or_false] at hT
    subst hT
    cases he with
    | tuple he =>
    cases hm with
    | tup hm =>
    obtain ⟨b, hb, hv⟩ := encAll_at he hm ht
    exact ⟨_, _, b, he, rfl, hb, hv⟩
  | .struct ts', _, _, _, _, _, _, he, hT, hm, ht => by
    simp only [unview, MTy.struct.injEq, reduceCtorEq, false_or] at hT
    subst hT
    cases he with
    | struct he =>
    cases hm with
    | tup hm =>
    obtain ⟨b, hb, hv⟩ := encAll_at he hm ht
    exact ⟨_, _, b, he, rfl, hb, hv⟩
  | .int _, _, _, _, _, _, _, _, hT, _, _ | .uint _, _, _, _, _, _, _, _, hT, _, _
  | .bool, _, _, _, _, _, _, _, hT, _, _ | .array _ _, _, _, _, _, _, _, _, hT, _, _
  | .memory _ _, _, _, _, _, _, _, _, hT, _, _ | .enum _, _, _, _, _, _, _, _, hT, _, _
  | .backward _, _, _, _, _, _, _, _, hT, _, _ | .inout _, _, _, _, _, _, _, _, hT, _, _ => by
    simp [unview] at hT
where
  encAll_at : ∀ {ts : List MTy} {vs : List Val} {bss : List Bits} {k : Nat} {t : MTy} {w : Val},
      EncAll ts vs bss → vs[k]? = some w → ts[k]? = some t → ∃ b, bss[k]? = some b ∧ Enc t w b
    | _, _, _, 0, _, _, .cons h _, hw, ht => by
      simp only [List.getElem?_cons_zero, Option.some.injEq] at hw ht
      subst hw ht
      exact ⟨_, rfl, h⟩
    | _, _, _, k + 1, _, _, .cons _ h, hw, ht => by
      simp only [List.getElem?_cons_succ] at hw ht ⊢
      exact encAll_at h hw ht
    | _, _, _, _, _, _, .nil, hw, _ => by simp at hw

theorem proj_step {n a k : Nat} {T t ty : MTy} {ts : List MTy} {v w : Val}
    (hT : unview T = .tuple ts ∨ unview T = .struct ts) (ht : ts[k]? = some t)
    (hty : ty = review T t) (h32 : T.size ≤ 2 ^ 32) (ha : Γ a = T) (hea : Enc T v (ρ (fwd a)))
    (hm : Member v k w) (h : ItemHolds H Γ ρ xs (.stmt (.bind n ty (.indexTuple k) [a]))) :
    Enc ty w (ρ (fwd n)) := by
  obtain ⟨vs, bss, b, h1, h2, h3, h4⟩ := member_enc T hea hT hm ht
  have hsz : T.size = sizes ts := by
    rw [← size_unview]; rcases hT with h | h <;> rw [h] <;> simp [MTy.size]
  have htt : tupleTypes (Γ a) = some ts := by
    rw [tupleTypes, ha, strip_unview]; rcases hT with h | h <;> rw [h]
  obtain ⟨t', v', g1, g2, g3⟩ := encAll_get h1 k b h3
  have hb : b.length = t.size := by rw [enc_length h4, size_review]
  have hrun := (item_defined h id).2
  rw [index_bits htt ht (by rw [hty, size_review]) (h2.trans (flatten_split h3))
    (encAll_lengths h1 k) hb (by rw [enc_length hea, hsz]) (by omega)] at hrun
  rw [← Option.some.inj hrun, hty]
  exact h4

theorem encAll_at {ts : List MTy} {vs : List Val} {bss : List Bits} {k : Nat} {t : MTy} {w : Val}
    (h : EncAll ts vs bss) (hw : vs[k]? = some w) (ht : ts[k]? = some t) :
    ∃ b, bss[k]? = some b ∧ Enc t w b := member_enc.encAll_at h hw ht

theorem encAll_lens' {ts : List MTy} {vs : List Val} {bss : List Bits} (h : EncAll ts vs bss) :
    vs.length = ts.length ∧ bss.length = ts.length := by
  match h with
  | .nil => exact ⟨rfl, rfl⟩
  | .cons _ h => have := encAll_lens' h; simp [this]

theorem reverse_take_length {t : MTy} {n k : Nat} {vs : List Val} {bss : List Bits}
    (h : EncAll (List.replicate n t) vs bss) (hk : k ≤ n) :
    (bss.take k).reverse.flatten.length = t.size * k := by
  have h5 := encAll_lengths h k
  rw [List.take_replicate, sizes_replicate, Nat.min_eq_left hk] at h5
  rw [← h5, List.length_flatten, List.length_flatten, List.map_reverse, List.sum_reverse]

theorem elem_step {n a i len w k : Nat} {ty : MTy} {vs : List Val} {v : Val}
    (hw : len = 1 ∨ w ≠ 0) (h32 : (MTy.array ty len).size ≤ 2 ^ 32) (ha : Γ a = .array ty len)
    (hi : Γ i = .uint w) (hea : Enc (.array ty len) (.tup vs) (ρ (fwd a)))
    (hei : Enc (.uint w) (.int (k : Nat)) (ρ (fwd i))) (hv : vs[k]? = some v)
    (h : ItemHolds H Γ ρ xs (.stmt (.bind n ty .indexArray [a, i]))) : Enc ty v (ρ (fwd n)) := by
  have hla := enc_length hea
  have hli := enc_length hei
  generalize hbits : ρ (fwd a) = bits at hea
  cases hea with
  | array hea =>
  rename_i bss
  have hlens := encAll_lens' hea
  have hkl : k < vs.length := (List.getElem?_eq_some_iff.1 hv).1
  have hk : k < len := by rw [hlens.1] at hkl; simpa using hkl
  have hti : toNat (ρ (fwd i)) = k := by
    have := enc_numVal hei
    simp only [numVal] at this
    omega
  have hdef : ¬ Undefined Γ ρ (.bind n ty .indexArray [a, i]) := by
    rintro ⟨t, m, h1, h2⟩
    rw [ha] at h1
    cases h1
    omega
  obtain ⟨b, hb, hev⟩ := encAll_at (t := ty) hea hv (by simp [hk])
  have hrun := (item_defined h hdef).2
  rw [indexArray_bits (k := k) (n := len) (t := ty) (before := (bss.drop (k + 1)).reverse.flatten)
    (after := (bss.take k).reverse.flatten) ha rfl (hbits.trans (flatten_reverse_split hb))
    (enc_length hev) (reverse_take_length hea (by omega)) hti
    (by
      intro h1 hc
      rw [hc] at hli
      simp only [List.length_nil, MTy.size] at hli
      omega) hk (by rw [Fits, ha]; exact hla) (by simpa [MTy.size] using h32)] at hrun
  rw [← Option.some.inj hrun]
  exact hev

theorem encAll_take_drop : ∀ {ts : List MTy} {vs : List Val} {bss : List Bits} (a b : Nat),
    EncAll ts vs bss → EncAll ((ts.take b).drop a) ((vs.take b).drop a) ((bss.take b).drop a)
  | _, _, _, a, b, .nil => by simp; exact .nil
  | _, _, _, a, 0, .cons _ _ => by simp; exact .nil
  | _, _, _, 0, b + 1, .cons h h' => by
    have := encAll_take_drop 0 b h'
    simp only [List.take_succ_cons, List.drop_zero] at this ⊢
    exact .cons h this
  | _, _, _, a + 1, b + 1, .cons h h' => by
    simp only [List.take_succ_cons, List.drop_succ_cons]
    exact encAll_take_drop a b h'

theorem range_step {n x len a b : Nat} {t : MTy} {vs : List Val} (hab : a ≤ b) (hb : b ≤ len)
    (h32 : (MTy.array t len).size ≤ 2 ^ 32) (hx : Γ x = .array t len)
    (he : Enc (.array t len) (.tup vs) (ρ (fwd x)))
    (h : ItemHolds H Γ ρ xs (.stmt (.bind n (.array t (b - a)) (.rangeIndexArray a b) [x]))) :
    Enc (.array t (b - a)) (.tup ((vs.take b).drop a)) (ρ (fwd n)) := by
  have hla := enc_length he
  generalize hbits : ρ (fwd x) = bits at he
  cases he with
  | array he =>
  rename_i bss
  have hlens := encAll_lens' he
  simp only [List.length_replicate] at hlens
  have hsub := encAll_take_drop a b he
  have hts : ((List.replicate len t).take b).drop a = List.replicate (b - a) t := by
    rw [List.take_replicate, List.drop_replicate, Nat.min_eq_left hb]
  rw [hts] at hsub
  have hm : ((bss.take b).drop a).reverse.flatten.length = t.size * (b - a) := by
    have h5 := encAll_length hsub
    rw [sizes_replicate] at h5
    rw [← h5, List.length_flatten, List.length_flatten, List.map_reverse, List.sum_reverse]
  have hsplit : bss.reverse.flatten = (bss.drop b).reverse.flatten ++
      ((bss.take b).drop a).reverse.flatten ++ (bss.take a).reverse.flatten := by
    have h1 : bss.take a = (bss.take b).take a := by rw [List.take_take, Nat.min_eq_left hab]
    have he : bss = bss.take a ++ (bss.take b).drop a ++ bss.drop b := by
      rw [h1, List.take_append_drop, List.take_append_drop]
    refine Eq.trans (congrArg (fun l => (List.reverse l).flatten) he) ?_
    simp
  have hrun := (item_defined h id).2
  rw [rangeIndex_bits hx hab hb (hbits.trans hsplit) hm (reverse_take_length he (by omega))
    (by simpa [MTy.size] using hla) (by simpa [MTy.size] using h32)] at hrun
  rw [← Option.some.inj hrun]
  exact .array hsub

theorem select_step {n c a b : Nat} {ty : MTy} {x : Bool} (hc : ρ (fwd c) = [x])
    (ha : (ρ (fwd a)).length = ty.size) (hb : (ρ (fwd b)).length = ty.size)
    (h : ItemHolds H Γ ρ xs (.stmt (.bind n ty .select [c, a, b]))) :
    ρ (fwd n) = if x then ρ (fwd a) else ρ (fwd b) := by
  have hrun := (item_defined h id).2
  unfold runOp at hrun
  split at hrun
  · rename_i h0
    rw [← Option.some.inj hrun, List.length_eq_zero_iff.1 (ha.trans h0),
      List.length_eq_zero_iff.1 (hb.trans h0)]
    simp
  · rename_i h0
    simp only [fwdCode] at hrun
    have r1 : resize false 1 [x] = [x] := resize_eq_self rfl
    simp only [assigned, VExpr.width, VExpr.isSigned, VExpr.eval, hc, ha, hb, Nat.max_self, h0,
      if_false, Option.bind_eq_bind, Option.bind_some, Bool.and_self, List.length_cons,
      List.length_nil, Nat.zero_add, Nat.one_ne_zero, r1, truth, List.any_cons, id, List.any_nil,
      Bool.or_false, resize_eq_self ha, resize_eq_self hb, Option.some.injEq] at hrun
    rw [← hrun]
    cases x <;> simp [ha, hb]

end Spade.Expr

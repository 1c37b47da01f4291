import Verif.Expr.Congr
/-!
# Every statement the lowering produces has a value
-/
namespace Spade.Expr
open Spade.Verilog Spade.Codegen Spade.Lower

/-! ## Legal expressions -/

mutual
/-- Legal uses of variables with constant bounds, without division. -/
def Legal (ρ : Env) : VExpr → Prop
  | .var x => (ρ x).length ≠ 0
  | .lit _ _ | .dec _ | .undef _ => True
  | .bit x i => match i with
    | .dec i => 2 ≤ (ρ x).length ∧ i < (ρ x).length ∧ i < 2 ^ 32
    | _ => False
  | .part x hi lo => 2 ≤ (ρ x).length ∧ lo ≤ hi ∧ hi < (ρ x).length
  | .plus _ _ _ | .minus _ _ _ => False
  | .concat es => Legals ρ es ∧ widths ρ es ≠ 0
  | .repl n e => n ≠ 0 ∧ Legal ρ e
  | .signed e => Legal ρ e
  | .un _ e => Legal ρ e
  | .bin op a b => op ≠ .div ∧ op ≠ .mod ∧ Legal ρ a ∧ Legal ρ b
  | .cond c a b => Legal ρ c ∧ Legal ρ a ∧ Legal ρ b
/-- All of them. -/
def Legals (ρ : Env) : List VExpr → Prop
  | [] => True
  | e :: es => Legal ρ e ∧ Legals ρ es
end

mutual
theorem legal_eval {ρ : Env} {xs : Nat → Bool} : ∀ (e : VExpr) (w : Nat) (s : Bool), Legal ρ e →
    ∃ b, e.eval ρ xs w s = some b
  | .var x, w, s, h => by
    simp only [Legal] at h
    simp [VExpr.eval, h]
  | .lit _ _, w, s, h | .dec _, w, s, h | .undef _, w, s, h => by simp [VExpr.eval]
  | .bit x i, w, s, h => by
    simp only [Legal] at h
    split at h
    · rename_i i
      have hv := value_bit_dec (ρ := ρ) (xs := xs) (x := x) (i := i) h.1 h.2.2
      obtain ⟨h1, h2, h3⟩ := h
      have : toNat (resize true 32 (ofNat 32 i)) = i := by
        rw [resize_eq_self (ofNat_length _ _), toNat_ofNat, Nat.mod_eq_of_lt h3]
      simp only [VExpr.eval, VExpr.width, VExpr.isSigned, Option.bind_eq_bind, Option.bind_some,
        this]
      rw [if_neg (by omega), slice, if_pos ⟨Nat.le_refl _, h2⟩]
      exact ⟨_, rfl⟩
    · cases h
  | .part x hi lo, w, s, h => by
    simp only [Legal] at h
    simp only [VExpr.eval, Option.bind_eq_bind]
    rw [if_neg (by omega), slice, if_pos ⟨h.2.1, h.2.2⟩]
    exact ⟨_, rfl⟩
  | .plus _ _ _, w, s, h => by simp [Legal] at h
  | .minus _ _ _, w, s, h => by simp [Legal] at h
  | .concat es, w, s, h => by
    simp only [Legal] at h
    obtain ⟨b, hb⟩ := legal_evals (xs := xs) es h.1
    have hl := evals_length _ _ _ _ hb
    have : b ≠ [] := by intro hc; rw [hc] at hl; exact h.2 hl.symm
    simp [VExpr.eval, hb, this]
  | .repl n e, w, s, h => by
    simp only [Legal] at h
    obtain ⟨b, hb⟩ := legal_eval (xs := xs) e (e.width ρ) e.isSigned h.2
    simp [VExpr.eval, hb, h.1]
  | .signed e, w, s, h => by
    simp only [Legal] at h
    obtain ⟨b, hb⟩ := legal_eval (xs := xs) e (e.width ρ) e.isSigned h
    simp [VExpr.eval, hb]
  | .un op e, w, s, h => by
    simp only [Legal] at h
    obtain ⟨b, hb⟩ := legal_eval (xs := xs) e (e.width ρ) e.isSigned h
    obtain ⟨b', hb'⟩ := legal_eval (xs := xs) e w s h
    cases op <;> simp [VExpr.eval, hb, hb']
  | .bin op a b, w, s, h => by
    simp only [Legal] at h
    obtain ⟨a1, ha1⟩ := legal_eval (xs := xs) a (a.width ρ) a.isSigned h.2.2.1
    obtain ⟨a2, ha2⟩ := legal_eval (xs := xs) a w s h.2.2.1
    obtain ⟨a3, ha3⟩ := legal_eval (xs := xs) a (max (a.width ρ) (b.width ρ))
      (a.isSigned && b.isSigned) h.2.2.1
    obtain ⟨b1, hb1⟩ := legal_eval (xs := xs) b (b.width ρ) b.isSigned h.2.2.2
    obtain ⟨b2, hb2⟩ := legal_eval (xs := xs) b w s h.2.2.2
    obtain ⟨b3, hb3⟩ := legal_eval (xs := xs) b (max (a.width ρ) (b.width ρ))
      (a.isSigned && b.isSigned) h.2.2.2
    cases op <;> simp [VExpr.eval, ha1, ha2, ha3, hb1, hb2, hb3, arith, Verilog.compare, shift] <;>
      simp at h
  | .cond c a b, w, s, h => by
    simp only [Legal] at h
    obtain ⟨c1, hc1⟩ := legal_eval (xs := xs) c (c.width ρ) c.isSigned h.1
    obtain ⟨a1, ha1⟩ := legal_eval (xs := xs) a w s h.2.1
    obtain ⟨b1, hb1⟩ := legal_eval (xs := xs) b w s h.2.2
    simp [VExpr.eval, hc1, ha1, hb1]
theorem legal_evals {ρ : Env} {xs : Nat → Bool} : ∀ (es : List VExpr), Legals ρ es →
    ∃ b, evals ρ xs es = some b
  | [], _ => ⟨[], rfl⟩
  | e :: es, h => by
    simp only [Legals] at h
    obtain ⟨b, hb⟩ := legal_eval (xs := xs) e (e.width ρ) e.isSigned h.1
    obtain ⟨b', hb'⟩ := legal_evals (xs := xs) es h.2
    simp [evals, hb, hb']
end

theorem legal_assigned {ρ : Env} {xs : Nat → Bool} {e : VExpr} {w : Nat} (h : Legal ρ e) :
    ∃ b, assigned ρ xs w e = some b := by
  obtain ⟨b, hb⟩ := legal_eval (xs := xs) e (max w (e.width ρ)) e.isSigned h
  simp [assigned, hb]

theorem legals_vars {ρ : Env} : ∀ {l : List Nat}, (∀ o ∈ l, (ρ o).length ≠ 0) →
    Legals ρ (l.map fun o => .var o)
  | [], _ => trivial
  | _ :: _, h => ⟨h _ (by simp), legals_vars fun o ho => h o (by simp [ho])⟩

/-! ## Statements -/

/-- A statement has a value, whatever the values of other signals and of unknown bits are, unless
Verilog leaves its result undefined. -/
def Total (Γ : Nat → MTy) : Stmt → Prop
  | .const _ ty c => ∀ (ρ : Env) (xs : Nat → Bool), ∃ b, constBits ty c ρ xs = some b
  | .bind n ty op ops => ∀ (ρ : Env) (xs : Nat → Bool), (∀ m, Fits Γ ρ m) →
      (∃ b, runOp Γ ty op ops ρ xs = some b) ∨ Undefined Γ ρ (.bind n ty op ops)

section
variable {Γ : Nat → MTy} {n : Nat}

theorem total_int {ty : MTy} {z : Int} (h : IsNum ty) : Total Γ (.const n ty (.int z)) := by
  intro ρ xs
  cases ty <;> simp only [IsNum] at h
  all_goals
    simp only [constBits, constExpr, Option.map_some]
    split
    · exact ⟨_, rfl⟩
    · apply legal_assigned
      repeat' split
      all_goals simp [Legal]

theorem total_bool {b : Bool} : Total Γ (.const n .bool (.bool b)) := by
  intro ρ xs
  exact ⟨_, constBits_bool⟩

/-- A binding whose code is a legal expression. -/
theorem total_assign {ty : MTy} {op : Op} {ops : List Nat}
    (h : ty.size ≠ 0 → ∀ ρ, (∀ m, Fits Γ ρ m) →
      ∃ e, fwdCode Γ ty op ops = some (.assign e) ∧ Legal ρ e) : Total Γ (.bind n ty op ops) := by
  intro ρ xs hf
  left
  by_cases h0 : ty.size = 0
  · exact ⟨[], by simp [runOp, h0]⟩
  · obtain ⟨e, he, hl⟩ := h h0 ρ hf
    rw [runOp_assign rfl h0 he]
    exact legal_assigned hl

theorem total_alias {ty : MTy} {a : Nat} (h : ty.size = (Γ a).size) :
    Total Γ (.bind n ty .alias [a]) := by
  refine total_assign fun h0 ρ hf => ⟨_, rfl, ?_⟩
  simp only [Legal]
  rw [hf a, ← h]; exact h0

theorem total_copyView {ty : MTy} {a : Nat} (h : ty.size = (Γ a).size) :
    Total Γ (.bind n ty .constructCopyView [a]) := by
  refine total_assign fun h0 ρ hf => ⟨_, rfl, ?_⟩
  simp only [Legal]
  rw [hf a, ← h]; exact h0

theorem total_un {ty : MTy} {a : Nat} {op : Op} (h : (Γ a).size ≠ 0)
    (ho : op = .usub ∨ op = .not ∨ op = .bitwiseNot ∨ op = .logicalNot ∨ op = .reduceAnd ∨
      op = .reduceOr ∨ op = .reduceXor) :
    Total Γ (.bind n ty op [a]) := by
  rcases ho with rfl | rfl | rfl | rfl | rfl | rfl | rfl <;>
  · refine total_assign fun h0 ρ hf => ⟨_, rfl, ?_⟩
    simp only [Legal]
    rw [hf a]; exact h

theorem total_bin {ty : MTy} {a b : Nat} {op : Op} (ha : (Γ a).size ≠ 0) (hb : (Γ b).size ≠ 0)
    (ho : op = .add ∨ op = .unsignedAdd ∨ op = .sub ∨ op = .unsignedSub ∨ op = .mul ∨
      op = .unsignedMul ∨ op = .leftShift ∨ op = .rightShift ∨ op = .arithmeticRightShift ∨
      op = .logicalAnd ∨ op = .bitwiseAnd ∨ op = .bitwiseOr ∨ op = .bitwiseXor) :
    Total Γ (.bind n ty op [a, b]) := by
  rcases ho with rfl | rfl | rfl | rfl | rfl | rfl | rfl | rfl | rfl | rfl | rfl | rfl | rfl <;>
  · refine total_assign fun h0 ρ hf => ⟨_, rfl, ?_⟩
    simp only [Legal, ne_eq, reduceCtorEq, not_false_eq_true, true_and]
    rw [hf a, hf b]
    exact ⟨ha, hb⟩

theorem total_cmp {a b : Nat} {c : Cmp} {op : Op} {ty : MTy} (ha : (Γ a).size = (Γ b).size)
    (ho : lowerCmp c (Γ a) = some op) : Total Γ (.bind n ty op [a, b]) := by
  have key : ∀ z e, binop e [a, b] ≠ none → (e ≠ .div ∧ e ≠ .mod) → ∀ ρ, (∀ m, Fits Γ ρ m) →
      ∃ e', onZero Γ [a, b] z (binop e [a, b]) = some e' ∧ Legal ρ e' := by
    intro z e _ he ρ hf
    simp only [onZero, binop, Option.map_some]
    split
    · exact ⟨_, rfl, trivial⟩
    · rename_i h
      refine ⟨_, rfl, ?_⟩
      simp only [Legal]
      rw [hf a, hf b]
      exact ⟨he.1, he.2, h, by rw [← ha]; exact h⟩
  have keys : ∀ z e, (e ≠ .div ∧ e ≠ .mod) → ∀ ρ, (∀ m, Fits Γ ρ m) →
      ∃ e', onZero Γ [a, b] z (signedBinop e [a, b]) = some e' ∧ Legal ρ e' := by
    intro z e he ρ hf
    simp only [onZero, signedBinop, Option.map_some]
    split
    · exact ⟨_, rfl, trivial⟩
    · rename_i h
      refine ⟨_, rfl, ?_⟩
      simp only [Legal]
      rw [hf a, hf b]
      exact ⟨he.1, he.2, h, by rw [← ha]; exact h⟩
  refine total_assign fun h0 ρ hf => ?_
  have fin : ∀ o : Option VExpr, (∃ e', o = some e' ∧ Legal ρ e') →
      ∃ e, o.map VCode.assign = some (.assign e) ∧ Legal ρ e := by
    rintro o ⟨e, rfl, h⟩
    exact ⟨e, rfl, h⟩
  cases c <;> simp only [lowerCmp, Option.some.injEq] at ho
  case eq => subst ho; exact fin _ (key _ _ (by simp [binop]) (by simp) ρ hf)
  case ne => subst ho; exact fin _ (key _ _ (by simp [binop]) (by simp) ρ hf)
  all_goals
    unfold dual at ho
    split at ho
    · simp only [Option.some.injEq] at ho
      subst ho
      exact fin _ (keys _ _ (by simp) ρ hf)
    · simp only [Option.some.injEq] at ho
      subst ho
      exact fin _ (key _ _ (by simp [binop]) (by simp) ρ hf)
    · cases ho

/-- Division and remainder, unless the divisor is 0. -/
theorem total_div {ty : MTy} {a b : Nat} {op : Op} (ha : (Γ a).size = ty.size)
    (hb : (Γ b).size = ty.size)
    (ho : op = .div ∨ op = .unsignedDiv ∨ op = .mod ∨ op = .unsignedMod) :
    Total Γ (.bind n ty op [a, b]) := by
  intro ρ xs hf
  have hla : (ρ (fwd a)).length = ty.size := by rw [hf a, ha]
  have hlb : (ρ (fwd b)).length = ty.size := by rw [hf b, hb]
  by_cases h0 : ty.size = 0
  · left; exact ⟨[], by simp [runOp, h0]⟩
  · by_cases hz : toNat (ρ (fwd b)) = 0
    · right
      rcases ho with rfl | rfl | rfl | rfl <;> exact hz
    · left
      rcases ho with rfl | rfl | rfl | rfl
      · exact ⟨_, (runOp_assign rfl h0 rfl).trans
          (assigned_divmod (s := true) hla hlb h0 hz (.inl ⟨rfl, rfl⟩))⟩
      · exact ⟨_, (runOp_assign rfl h0 rfl).trans
          (assigned_divmod (s := false) hla hlb h0 hz (.inl ⟨rfl, rfl⟩))⟩
      · exact ⟨_, (runOp_assign rfl h0 rfl).trans
          (assigned_divmod (s := true) hla hlb h0 hz (.inr ⟨rfl, rfl⟩))⟩
      · exact ⟨_, (runOp_assign rfl h0 rfl).trans
          (assigned_divmod (s := false) hla hlb h0 hz (.inr ⟨rfl, rfl⟩))⟩

theorem total_tuple {ty : MTy} {ops : List Nat} {op : Op} (h : ty.size = sizes (ops.map Γ))
    (ho : op = .constructTuple ∨ op = .concat) : Total Γ (.bind n ty op ops) := by
  intro ρ xs hf
  left
  rcases ho with rfl | rfl
  · exact ⟨_, tuple_bits xs h fun o _ => hf o⟩
  · have : runOp Γ ty .concat ops ρ xs = runOp Γ ty .constructTuple ops ρ xs := rfl
    exact ⟨_, this.trans (tuple_bits xs h fun o _ => hf o)⟩

theorem total_enum {opts : List (List MTy)} {i : Nat} {ops : List Nat}
    (h : opts[i]? = some (ops.map Γ)) : Total Γ (.bind n (.enum opts) (.constructEnum i) ops) :=
  fun _ xs hf => .inl ⟨_, construct_bits xs h fun o _ => hf o⟩

theorem widths_vars {ρ : Env} : ∀ {l : List Nat},
    widths ρ (l.map fun o => .var o) = (l.map fun o => (ρ o).length).sum
  | [] => rfl
  | _ :: _ => by simp [widths, VExpr.width, widths_vars]

theorem total_array {t : MTy} {ops : List Nat} (h : ∀ o ∈ ops, Γ o = t) :
    Total Γ (.bind n (.array t ops.length) .constructArray ops) := by
  refine total_assign fun h0 ρ hf => ⟨_, rfl, ?_⟩
  simp only [MTy.size] at h0
  have ht : t.size ≠ 0 := fun hc => h0 (by rw [hc, Nat.zero_mul])
  have hn : ops ≠ [] := by rintro rfl; simp at h0
  have hl : ∀ o ∈ ops, (ρ (fwd o)).length ≠ 0 := by
    intro o ho
    rw [hf o, h o ho]; exact ht
  have hm : (ops.reverse.map fun o => VExpr.var (fwd o)) =
      (ops.reverse.map fwd).map fun o => .var o := by simp
  simp only [Legal]
  rw [hm]
  refine ⟨legals_vars ?_, ?_⟩
  · intro x hx
    simp only [List.mem_map, List.mem_reverse] at hx
    obtain ⟨o, ho, rfl⟩ := hx
    exact hl o ho
  · rw [widths_vars]
    intro hc
    obtain ⟨o, ho⟩ := List.exists_mem_of_ne_nil _ hn
    have := List.sum_eq_zero_iff_forall_eq_nat.1 hc (ρ (fwd o)).length
      (List.mem_map.2 ⟨fwd o, List.mem_map.2 ⟨o, List.mem_reverse.2 ho, rfl⟩, rfl⟩)
    exact hl o ho this

theorem total_trunc {ty : MTy} {a : Nat} (h : ty.size ≤ (Γ a).size)
    (h2 : 2 ≤ (Γ a).size ∨ ty.size = 0) : Total Γ (.bind n ty .truncate [a]) := by
  refine total_assign fun h0 ρ hf => ?_
  refine ⟨.part (fwd a) (ty.size - 1) 0, by simp [fwdCode, h0], ?_⟩
  simp only [Legal]
  rw [hf a]
  omega

theorem total_sext {ty : MTy} {a : Nat} (h2 : 2 ≤ (Γ a).size ∨ (Γ a).size = ty.size)
    (h32 : (Γ a).size ≤ 2 ^ 32) : Total Γ (.bind n ty .signExtend [a]) := by
  refine total_assign fun h0 ρ hf => ?_
  simp only [fwdCode]
  split
  · rw [if_neg (by omega)]
    split
    · refine ⟨_, rfl, ?_⟩
      simp only [Legal, Legals, widths, VExpr.width, true_and, and_true]
      rw [hf a]
      omega
    · refine ⟨_, rfl, ?_⟩
      simp only [Legal, Legals, widths, VExpr.width, true_and, and_true]
      rw [hf a]
      omega
  · refine ⟨_, rfl, ?_⟩
    simp only [Legal]
    rw [hf a]
    omega

theorem total_zext {ty : MTy} {a : Nat} (h1 : 1 ≤ (Γ a).size ∨ (Γ a).size = ty.size) :
    Total Γ (.bind n ty .zeroExtend [a]) := by
  refine total_assign fun h0 ρ hf => ?_
  simp only [fwdCode]
  split
  · refine ⟨_, rfl, ?_⟩
    simp only [Legal, Legals, widths, VExpr.width, true_and, and_true]
    rw [hf a]
    omega
  · refine ⟨_, rfl, ?_⟩
    simp only [Legal]
    rw [hf a]
    omega

theorem total_select {ty : MTy} {c a b : Nat} (hc : (Γ c).size ≠ 0) (ha : (Γ a).size = ty.size)
    (hb : (Γ b).size = ty.size) : Total Γ (.bind n ty .select [c, a, b]) := by
  refine total_assign fun h0 ρ hf => ⟨_, rfl, ?_⟩
  simp only [Legal]
  rw [hf a, hf b, hf c, ha, hb]
  exact ⟨hc, h0, h0⟩

/-- A member of a tuple or struct, or of a view of one. -/
theorem total_indexTuple {ty t : MTy} {a k : Nat} {ts : List MTy} (hts : tupleTypes (Γ a) = some ts)
    (hk : ts[k]? = some t) (hty : ty.size = t.size) (hs : (Γ a).size = sizes ts)
    (h32 : (Γ a).size ≤ 2 ^ 32) : Total Γ (.bind n ty (.indexTuple k) [a]) := by
  intro ρ xs hf
  have hla := hf a
  rw [Fits, hs] at hla
  have hsum : sizes ts = sizes (ts.take k) + t.size + sizes (ts.drop (k + 1)) := by
    have hlt : k < ts.length := by
      rcases Nat.lt_or_ge k ts.length with h | h
      · exact h
      · rw [List.getElem?_eq_none h] at hk; cases hk
    have : ts = ts.take k ++ t :: ts.drop (k + 1) := by
      rw [List.getElem?_eq_getElem hlt] at hk
      cases hk
      simp
    conv => lhs; rw [this]
    rw [sizes_eq_sum, sizes_eq_sum, sizes_eq_sum]
    simp only [List.map_append, List.map_cons, List.sum_append, List.sum_cons]
    omega
  left
  refine ⟨((ρ (fwd a)).drop (sizes (ts.take k))).take t.size, index_bits (before := (ρ (fwd a)).take (sizes (ts.take k)))
    (after := ((ρ (fwd a)).drop (sizes (ts.take k))).drop t.size) hts hk hty ?_ ?_ ?_ hla
    (by rw [← hs]; exact h32)⟩
  · rw [List.append_assoc, List.take_append_drop, List.take_append_drop]
  · rw [List.length_take]; omega
  · rw [List.length_take, List.length_drop]; omega

/-- An element of an array, unless the index is out of range. -/
theorem total_indexArray {t : MTy} {a i len : Nat} (ha : Γ a = .array t len)
    (hi : len = 1 ∨ (Γ i).size ≠ 0) (h32 : (Γ a).size ≤ 2 ^ 32) :
    Total Γ (.bind n t .indexArray [a, i]) := by
  intro ρ xs hf
  by_cases hk : len ≤ toNat (ρ (fwd i))
  · exact .inr ⟨t, len, ha, hk⟩
  · left
    have hla := hf a
    have hli := hf i
    rw [ha] at h32
    simp only [Fits, ha, MTy.size] at hla hli h32
    generalize hK : toNat (ρ (fwd i)) = K at hk
    obtain ⟨d, rfl⟩ : ∃ d, len = K + 1 + d := ⟨len - K - 1, by omega⟩
    rw [Nat.mul_add, Nat.mul_add] at hla
    refine ⟨((ρ (fwd a)).drop (t.size * d)).take t.size,
      indexArray_bits (k := K) (before := (ρ (fwd a)).take (t.size * d))
        (after := ((ρ (fwd a)).drop (t.size * d)).drop t.size) ha rfl ?_ ?_ ?_ hK ?_ (by omega)
        (hf a) h32⟩
    · rw [List.append_assoc, List.take_append_drop, List.take_append_drop]
    · rw [List.length_take, List.length_drop]; omega
    · rw [List.length_drop, List.length_drop]; omega
    · intro hne hc
      rw [hc] at hli
      simp only [List.length_nil] at hli
      rcases hi with hi | hi
      · exact hne hi
      · exact hi hli.symm

theorem total_range {t : MTy} {a len x y : Nat} (ha : Γ a = .array t len) (hxy : x ≤ y)
    (hy : y ≤ len) (h32 : (Γ a).size ≤ 2 ^ 32) :
    Total Γ (.bind n (.array t (y - x)) (.rangeIndexArray x y) [a]) := by
  intro ρ xs hf
  left
  have hla := hf a
  rw [ha] at h32
  simp only [Fits, ha, MTy.size] at hla h32
  obtain ⟨e, rfl⟩ : ∃ e, y = x + e := ⟨y - x, by omega⟩
  obtain ⟨d, rfl⟩ : ∃ d, len = x + e + d := ⟨len - (x + e), by omega⟩
  have hla' := hla
  rw [Nat.mul_add, Nat.mul_add] at hla'
  have he : x + e - x = e := by omega
  refine ⟨((ρ (fwd a)).drop (t.size * d)).take (t.size * e),
    rangeIndex_bits (B := (ρ (fwd a)).take (t.size * d))
      (A := ((ρ (fwd a)).drop (t.size * d)).drop (t.size * e)) ha hxy hy ?_ ?_ ?_ hla h32⟩
  · rw [List.append_assoc, List.take_append_drop, List.take_append_drop]
  · rw [List.length_take, List.length_drop, he]; omega
  · rw [List.length_drop, List.length_drop]; omega

theorem total_isVariant {opts : List (List MTy)} {a i : Nat} {ty : MTy} (ha : Γ a = .enum opts)
    (h32 : (Γ a).size ≤ 2 ^ 32) : Total Γ (.bind n ty (.isEnumVariant i) [a]) := by
  refine total_assign fun h0 ρ hf => ?_
  have hla := hf a
  have hs : (MTy.enum opts).size = tagSize opts.length + maxSize opts := by simp [MTy.size]
  rw [Fits, ha] at hla
  rw [ha] at h32
  simp only [fwdCode, ha]
  split
  · exact ⟨_, rfl, trivial⟩
  · split
    · exact ⟨_, rfl, trivial⟩
    · split
      · refine ⟨_, rfl, ?_⟩
        simp only [Legal]
        simp only [ne_eq, reduceCtorEq, not_false_eq_true, true_and, and_true]
        omega
      · split
        · refine ⟨_, rfl, ?_⟩
          simp only [Legal]
          simp only [ne_eq, reduceCtorEq, not_false_eq_true, true_and, and_true]
          omega
        · refine ⟨_, rfl, ?_⟩
          simp only [Legal]
          simp only [ne_eq, reduceCtorEq, not_false_eq_true, true_and, and_true]
          omega

theorem total_enumMember {opts : List (List MTy)} {ms : List MTy} {t : MTy} {a i k : Nat}
    (ha : Γ a = .enum opts) (hi : opts[i]? = some ms) (hk : ms[k]? = some t) :
    Total Γ (.bind n t (.enumMember i k) [a]) := by
  refine total_assign fun h0 ρ hf => ?_
  have hla := hf a
  rw [Fits, ha] at hla
  have hs : (MTy.enum opts).size = tagSize opts.length + maxSize opts := by simp [MTy.size]
  have hle := sizes_le_max hi
  have hsum : sizes (ms.take k) + t.size ≤ sizes ms := by
    have hlt : k < ms.length := by
      rcases Nat.lt_or_ge k ms.length with h | h
      · exact h
      · rw [List.getElem?_eq_none h] at hk; cases hk
    have : ms = ms.take k ++ t :: ms.drop (k + 1) := by
      rw [List.getElem?_eq_getElem hlt] at hk
      cases hk
      simp
    conv => rhs; rw [this]
    rw [sizes_eq_sum, sizes_eq_sum]
    simp only [List.map_append, List.map_cons, List.sum_append, List.sum_cons]
    omega
  simp only [fwdCode, ha, hi, hk, Option.bind_eq_bind, Option.bind_some]
  rw [if_neg (by omega)]
  split
  · refine ⟨_, rfl, ?_⟩
    simp only [Legal]
    omega
  · refine ⟨_, rfl, ?_⟩
    simp only [Legal]
    omega

/-- Operands of a `Match`: one-bit conditions and results of the size of the type. -/
def Pairs (Γ : Nat → MTy) (ty : MTy) : List Nat → Prop
  | [] => True
  | [_] => False
  | c :: r :: rest => (Γ c).size = 1 ∧ (Γ r).size = ty.size ∧ Pairs Γ ty rest

theorem pairs_conds {ty : MTy} : ∀ {ops : List Nat}, Pairs Γ ty ops →
    ops.length = 2 * (matchConds ops).length ∧ ∀ c ∈ matchConds ops, (Γ c).size = 1
  | [], _ => by simp [matchConds]
  | [_], h => by simp [Pairs] at h
  | c :: r :: rest, h => by
    obtain ⟨h1, h2, h3⟩ := h
    have := pairs_conds h3
    simp only [matchConds, List.length_cons, List.mem_cons, forall_eq_or_imp]
    exact ⟨by omega, h1, this.2⟩

theorem pairs_items {ty : MTy} : ∀ {ops : List Nat} {m i : Nat}, Pairs Γ ty ops →
    ∀ it ∈ matchItems m i ops, ∃ r, it.2 = .var (fwd r) ∧ (Γ r).size = ty.size
  | [], _, _, _, it, h => by simp [matchItems] at h
  | [_], _, _, h, _, _ => by simp [Pairs] at h
  | c :: r :: rest, m, i, h, it, hit => by
    simp only [matchItems, List.mem_cons] at hit
    rcases hit with rfl | hit
    · exact ⟨r, rfl, h.2.1⟩
    · exact pairs_items h.2.2 it hit

theorem caseMatch_any : ∀ (b : Bits), caseMatch (List.replicate b.length none) b = true
  | [] => rfl
  | _ :: b => by simp only [List.length_cons, List.replicate_succ, caseMatch]; exact caseMatch_any b

theorem sum_ones {l : List Nat} {f : Nat → Nat} (h : ∀ o ∈ l, f o = 1) : (l.map f).sum = l.length := by
  induction l with
  | nil => rfl
  | cons a l ih =>
    simp only [List.map_cons, List.sum_cons, List.length_cons]
    rw [h a (by simp), ih fun o ho => h o (by simp [ho])]; omega

theorem total_match {ty : MTy} {ops : List Nat} (hne : ops ≠ []) (h : Pairs Γ ty ops) :
    Total Γ (.bind n ty .match ops) := by
  intro ρ xs hf
  left
  unfold runOp
  split
  · exact ⟨_, rfl⟩
  · rename_i h0
    obtain ⟨hlen, hc⟩ := pairs_conds h
    have hm : ((matchConds ops).map fun c => VExpr.var (fwd c)) =
        ((matchConds ops).map fwd).map fun o => .var o := by simp
    have hw : widths ρ (((matchConds ops).map fwd).map fun o => .var o) = (matchConds ops).length := by
      rw [widths_vars, List.map_map]
      exact sum_ones fun o ho => by simp only [Function.comp]; rw [hf o, hc o ho]
    have hpos : (matchConds ops).length ≠ 0 := by
      intro h1
      rw [h1] at hlen
      exact hne (List.length_eq_zero_iff.1 hlen)
    have hL : Legal ρ (.concat (((matchConds ops).map fwd).map fun o => .var o)) := by
      simp only [Legal]
      refine ⟨legals_vars ?_, by rw [hw]; exact hpos⟩
      intro x hx
      obtain ⟨o, ho, rfl⟩ := List.mem_map.1 hx
      rw [hf o, hc o ho]; omega
    simp only [fwdCode]
    rw [if_neg (by omega)]
    simp only [caseValue, VExpr.value]
    rw [hm]
    obtain ⟨b, hb⟩ := legal_eval (xs := xs) _ (VExpr.width ρ
      (.concat (((matchConds ops).map fwd).map fun o => .var o))) (VExpr.isSigned
      (.concat (((matchConds ops).map fwd).map fun o => .var o))) hL
    have hbl := eval_length _ _ _ _ _ _ hb
    simp only [VExpr.width] at hbl
    rw [hw] at hbl
    rw [hb]
    simp only [Option.bind_eq_bind, Option.bind_some]
    have hhalf : ops.length / 2 = b.length := by omega
    rw [hhalf]
    cases hfd : (matchItems b.length 0 ops ++ [(List.replicate b.length none, VExpr.undef ty.size)]).find?
        fun it : CaseItem => caseMatch it.1 b with
    | none =>
      have := List.find?_eq_none.1 hfd (List.replicate b.length none, .undef ty.size) (by simp)
      simp [caseMatch_any] at this
    | some it =>
      have hmem := List.mem_of_find?_eq_some hfd
      apply legal_assigned
      rcases List.mem_append.1 hmem with hmem | hmem
      · obtain ⟨r, hr, hsz⟩ := pairs_items h it hmem
        rw [hr]
        simp only [Legal]
        rw [hf r, hsz]; exact h0
      · simp only [List.mem_singleton] at hmem
        subst hmem
        trivial

end
end Spade.Expr

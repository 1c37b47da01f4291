import Verif.Codegen.EvalProps
/-!
# C11 compile time evaluation agrees with the generated hardware
-/
namespace Spade.Codegen
open Spade.Verilog

/-! ## Specification -/

/-- A bit vector agrees with a string: equal where the string is `0` or `1`, anything where it is
`X`. -/
def Fills : List (Option Bool) → Bits → Prop
  | [], [] => True
  | none :: s, _ :: b => Fills s b
  | some c :: s, x :: b => c = x ∧ Fills s b
  | _, _ => False

/-- Operands of a statement. -/
def Stmt.operands : Stmt → List Nat
  | .const _ _ _ => []
  | .bind _ _ _ ops => ops

/-- A well-typed statement of a constant expression, as produced by lowering.  Names have the
types `Γ`. -/
inductive StmtOk (Γ : Nat → MTy) : Stmt → Prop
  | constInt {n k z} : Γ n = .int k → k ≠ 0 → InRange (.int k) z →
      StmtOk Γ (.const n (.int k) (.int z))
  | constUint {n k z} : Γ n = .uint k → k ≠ 0 → InRange (.uint k) z →
      StmtOk Γ (.const n (.uint k) (.int z))
  | constBool {n b} : Γ n = .bool → StmtOk Γ (.const n .bool (.bool b))
  | add {n k a b} : Γ n = .int (k + 1) → Γ a = .int k → Γ b = .int k → k ≠ 0 →
      StmtOk Γ (.bind n (.int (k + 1)) .add [a, b])
  | sub {n k a b} : Γ n = .int (k + 1) → Γ a = .int k → Γ b = .int k → k ≠ 0 →
      StmtOk Γ (.bind n (.int (k + 1)) .sub [a, b])
  | neg {n k a} : Γ n = .int k → Γ a = .int k → k ≠ 0 →
      StmtOk Γ (.bind n (.int k) .usub [a])
  | tuple {n ops} : Γ n = .tuple (ops.map Γ) →
      StmtOk Γ (.bind n (.tuple (ops.map Γ)) .constructTuple ops)
  | struct {n ops} : Γ n = .struct (ops.map Γ) →
      StmtOk Γ (.bind n (.struct (ops.map Γ)) .constructTuple ops)
  | array {n t ops} : Γ n = .array t ops.length → (∀ o ∈ ops, Γ o = t) →
      StmtOk Γ (.bind n (.array t ops.length) .constructArray ops)
  | enum {n opts i ops} : Γ n = .enum opts → opts[i]? = some (ops.map Γ) →
      StmtOk Γ (.bind n (.enum opts) (.constructEnum i) ops)
  | alias {n a} : Γ n = Γ a → StmtOk Γ (.bind n (Γ a) .alias [a])

/-- Every name is defined once, before it is used, by a well-typed statement. -/
def WellFormed (Γ : Nat → MTy) : List Nat → List Stmt → Prop
  | _, [] => True
  | defs, s :: rest => StmtOk Γ s ∧ (∀ o ∈ s.operands, o ∈ defs) ∧ s.name ∉ defs ∧
      WellFormed Γ (s.name :: defs) rest

/-! ## Lemmas -/

theorem fills_append : ∀ {s s' : List (Option Bool)} {b b' : Bits}, Fills s b → Fills s' b' →
    Fills (s ++ s') (b ++ b')
  | [], _, [], _, _, h => h
  | none :: s, _, _ :: b, _, h1, h2 => by
    simp only [Fills, List.cons_append] at *; exact fills_append h1 h2
  | some c :: s, _, x :: b, _, h1, h2 => by
    simp only [Fills, List.cons_append] at *; exact ⟨h1.1, fills_append h1.2 h2⟩
  | [], _, _ :: _, _, h, _ => by simp [Fills] at h
  | none :: _, _, [], _, h, _ => by simp [Fills] at h
  | some _ :: _, _, [], _, h, _ => by simp [Fills] at h

theorem fills_some (b : Bits) : Fills (b.map some) b := by
  induction b with
  | nil => trivial
  | cons x b ih => exact ⟨rfl, ih⟩

theorem fills_undef : ∀ (n : Nat) (b : Bits), b.length = n → Fills (List.replicate n none) b
  | 0, [], _ => trivial
  | n + 1, _ :: b, h => by
    simp only [List.replicate_succ, Fills]; exact fills_undef n b (by simpa using h)

theorem asStrings_append (a b : List Value) {x y : List (Option Bool)}
    (hx : asStrings a = some x) (hy : asStrings b = some y) :
    asStrings (a ++ b) = some (x ++ y) := by
  induction a generalizing x with
  | nil => simp [asStrings] at hx; subst hx; simpa using hy
  | cons v vs ih =>
    simp only [asStrings, Option.bind_eq_bind, Option.bind_eq_some_iff, Option.some.injEq] at hx
    obtain ⟨s, hs, t, ht, rfl⟩ := hx
    simp [asStrings, hs, ih ht]

theorem look_cons_self {α : Type} (m : List (Nat × α)) (n : Nat) (v : α) :
    look ((n, v) :: m) n = some v := by simp [look]

theorem look_cons_ne {α : Type} (m : List (Nat × α)) {n n' : Nat} (v : α) (h : n' ≠ n) :
    look ((n, v) :: m) n' = look m n' := by
  have : (n == n') = false := by simp [Ne.symm h]
  simp [look, this]

theorem lookAll_types {Γ : Nat → MTy} {types : TEnv} : ∀ {ops : List Nat},
    (∀ o ∈ ops, look types o = some (Γ o)) → lookAll types ops = some (ops.map Γ)
  | [], _ => rfl
  | o :: os, h => by
    simp only [List.mem_cons, forall_eq_or_imp] at h
    simp [lookAll, h.1, lookAll_types h.2]

theorem setVar_self (ρ : Env) (n : Nat) (b : Bits) : setVar ρ n b (fwd n) = b := by simp [setVar]

theorem setVar_ne (ρ : Env) {n m : Nat} (b : Bits) (h : m ≠ n) : setVar ρ n b (fwd m) = ρ (fwd m) := by
  have : fwd m ≠ fwd n := by simp only [fwd]; omega
  simp [setVar, this]

/-- Integer typed names hold `int` values. -/
def Shape (t : MTy) (v : Value) : Prop := ∀ k, t = .int k → ∃ z, v = .int k z

theorem lookAll_some {vals : VEnv} : ∀ {ops : List Nat},
    (∀ o ∈ ops, ∃ v, look vals o = some v) → ∃ vs, lookAll vals ops = some vs
  | [], _ => ⟨[], rfl⟩
  | o :: os, h => by
    simp only [List.mem_cons, forall_eq_or_imp] at h
    obtain ⟨⟨v, hv⟩, h2⟩ := h
    obtain ⟨vs, hvs⟩ := lookAll_some h2
    exact ⟨v :: vs, by simp [lookAll, hv, hvs]⟩

/-- The evaluator's states before a statement. -/
def EvalInv (Γ : Nat → MTy) (defs : List Nat) (vals : VEnv) (types : TEnv) : Prop :=
  ∀ n ∈ defs, (∃ v, look vals n = some v ∧ Shape (Γ n) v) ∧ look types n = some (Γ n)

theorem evalOp_total {Γ : Nat → MTy} {n : Nat} {ty : MTy} {op : Op} {ops : List Nat} {vals : VEnv}
    {types : TEnv} (h : StmtOk Γ (.bind n ty op ops))
    (hv : ∀ o ∈ ops, (∃ v, look vals o = some v ∧ Shape (Γ o) v) ∧ look types o = some (Γ o)) :
    ∃ v, evalOp vals types ty op ops = some v ∧ Shape (Γ n) v := by
  have hall : ∃ vs, lookAll vals ops = some vs :=
    lookAll_some fun o ho => let ⟨⟨v, h, _⟩, _⟩ := hv o ho; ⟨v, h⟩
  have hall' : ∃ vs, lookAll vals ops.reverse = some vs :=
    lookAll_some fun o ho => let ⟨⟨v, h, _⟩, _⟩ := hv o (by simpa using ho); ⟨v, h⟩
  have htys := lookAll_types (Γ := Γ) (types := types) (ops := ops) fun o ho => (hv o ho).2
  obtain ⟨vs, hvs⟩ := hall
  obtain ⟨vs', hvs'⟩ := hall'
  cases h with
  | add hn ha hb hk =>
    rename_i k a b
    obtain ⟨⟨va, h1, h2⟩, _⟩ := hv a (by simp)
    obtain ⟨⟨vb, h3, h4⟩, _⟩ := hv b (by simp)
    obtain ⟨x, rfl⟩ := h2 k ha
    obtain ⟨y, rfl⟩ := h4 k hb
    refine ⟨.int (k + 1) (x + y), by simp [evalOp, h1, h3, Value.assumeInt, MTy.size], ?_⟩
    intro j hj; rw [hn] at hj; cases hj; exact ⟨_, rfl⟩
  | sub hn ha hb hk =>
    rename_i k a b
    obtain ⟨⟨va, h1, h2⟩, _⟩ := hv a (by simp)
    obtain ⟨⟨vb, h3, h4⟩, _⟩ := hv b (by simp)
    obtain ⟨x, rfl⟩ := h2 k ha
    obtain ⟨y, rfl⟩ := h4 k hb
    refine ⟨.int (k + 1) (x - y), by simp [evalOp, h1, h3, Value.assumeInt, MTy.size], ?_⟩
    intro j hj; rw [hn] at hj; cases hj; exact ⟨_, rfl⟩
  | neg hn ha hk =>
    rename_i k a
    obtain ⟨⟨va, h1, h2⟩, _⟩ := hv a (by simp)
    obtain ⟨x, rfl⟩ := h2 _ ha
    refine ⟨.int _ (-x), by simp [evalOp, h1, Value.assumeInt, MTy.size]; rfl, ?_⟩
    intro j hj; rw [hn] at hj; cases hj; exact ⟨_, rfl⟩
  | tuple hn =>
    exact ⟨.concat vs, by simp [evalOp, hvs], fun k hk => by rw [hn] at hk; cases hk⟩
  | struct hn =>
    exact ⟨.concat vs, by simp [evalOp, hvs], fun k hk => by rw [hn] at hk; cases hk⟩
  | array hn _ =>
    exact ⟨.concat vs', by simp [evalOp, hvs'], fun k hk => by rw [hn] at hk; cases hk⟩
  | enum hn hi =>
    have hle := sizes_le_max hi
    rename_i opts i
    have : ∃ v, evalOp vals types (.enum opts) (.constructEnum i) ops = some v := by
      simp only [evalOp, hvs, htys, Option.bind_eq_bind, Option.bind_some]
      rw [if_neg (by simp only [MTy.size]; omega)]
      exact ⟨_, rfl⟩
    obtain ⟨v, hv⟩ := this
    exact ⟨v, hv, fun k hk => by rw [hn] at hk; cases hk⟩
  | alias hn =>
    rename_i a
    obtain ⟨⟨va, h1, h2⟩, _⟩ := hv a (by simp)
    exact ⟨va, by simp [evalOp, h1], by rw [hn]; exact h2⟩

/-- The value of a constant (eval.rs:347-352). -/
def constValue (ty : MTy) : Const → Value
  | .int z => .int ty.size z
  | .bool b => .bit b

theorem evalStmts_const (n : Nat) (ty : MTy) (c : Const) (rest : List Stmt) (vals : VEnv)
    (types : TEnv) (last : Option Value) :
    evalStmts (.const n ty c :: rest) vals types last =
      evalStmts rest ((n, constValue ty c) :: vals) ((n, ty) :: types) (some (constValue ty c)) := by
  cases c <;> rfl

theorem evalInv_cons {Γ : Nat → MTy} {defs : List Nat} {vals : VEnv} {types : TEnv} {n : Nat}
    {v : Value} (h : EvalInv Γ defs vals types) (hs : Shape (Γ n) v) :
    EvalInv Γ (n :: defs) ((n, v) :: vals) ((n, Γ n) :: types) := by
  intro m hm
  by_cases he : m = n
  · subst he; exact ⟨⟨v, look_cons_self _ _ _, hs⟩, look_cons_self _ _ _⟩
  · have := h m (by simpa [he] using hm)
    rw [look_cons_ne _ _ he, look_cons_ne _ _ he]; exact this

theorem stmt_type {Γ : Nat → MTy} {n : Nat} {ty : MTy} {op : Op} {ops : List Nat}
    (h : StmtOk Γ (.bind n ty op ops)) : ty = Γ n := by
  cases h <;> simp_all

theorem const_type {Γ : Nat → MTy} {n : Nat} {ty : MTy} {c : Const}
    (h : StmtOk Γ (.const n ty c)) : ty = Γ n ∧ Shape (Γ n) (constValue ty c) := by
  cases h with
  | constInt h1 h2 h3 => 
    refine ⟨h1.symm, fun k hk => ?_⟩
    rw [h1] at hk; cases hk; exact ⟨_, rfl⟩
  | constUint h1 h2 h3 => exact ⟨h1.symm, fun k hk => by rw [h1] at hk; cases hk⟩
  | constBool h1 => exact ⟨h1.symm, fun k hk => by rw [h1] at hk; cases hk⟩

theorem evalStmts_total {Γ : Nat → MTy} : ∀ (ss : List Stmt) (defs : List Nat) (vals : VEnv)
    (types : TEnv) (last : Option Value), WellFormed Γ defs ss → EvalInv Γ defs vals types →
    ∃ vals' last', evalStmts ss vals types last = some (vals', last') ∧
      (∀ m ∈ defs, look vals' m = look vals m)
  | [], _, vals, _, last, _, _ => ⟨vals, last, rfl, fun _ _ => rfl⟩
  | .const n ty c :: rest, defs, vals, types, last, hw, hi => by
    simp only [WellFormed, Stmt.name] at hw
    obtain ⟨hok, _, hn, hrest⟩ := hw
    have ht := const_type hok
    rw [evalStmts_const]
    obtain ⟨vals', last', h1, h2⟩ := evalStmts_total rest (n :: defs) _ ((n, Γ n) :: types)
      (some (constValue ty c)) hrest (evalInv_cons hi ht.2)
    refine ⟨vals', last', by rw [ht.1] at *; exact h1, fun m hm => ?_⟩
    rw [h2 m (List.mem_cons_of_mem _ hm), look_cons_ne]
    intro he; exact hn (he ▸ hm)
  | .bind n ty op ops :: rest, defs, vals, types, last, hw, hi => by
    simp only [WellFormed, Stmt.name, Stmt.operands] at hw
    obtain ⟨hok, hops, hn, hrest⟩ := hw
    have ht := stmt_type hok
    obtain ⟨v, hv, hs⟩ := evalOp_total (types := (n, ty) :: types) hok fun o ho => by
      have := hi o (hops o ho)
      refine ⟨this.1, ?_⟩
      rw [look_cons_ne _ _ (fun he : o = n => hn (he ▸ hops o ho))]; exact this.2
    obtain ⟨vals', last', h1, h2⟩ := evalStmts_total rest (n :: defs) _ ((n, Γ n) :: types)
      (some v) hrest (evalInv_cons hi hs)
    refine ⟨vals', last', ?_, fun m hm => ?_⟩
    · simp only [evalStmts, hv, Option.bind_eq_bind, Option.bind_some]
      rw [ht]; exact h1
    · rw [h2 m (List.mem_cons_of_mem _ hm), look_cons_ne]
      intro he; exact hn (he ▸ hm)

/-! ## Agreement -/

/-- A value and the bits of its hardware variable agree. -/
structure Agree (t : MTy) (v : Value) (b : Bits) : Prop where
  len : b.length = t.size
  str : ∃ s, v.asString = some s ∧ Fills s b
  num : ∀ k, t = .int k → ∃ z, v = .int k z ∧ InRange (.int k) z ∧ b = ofInt k z

theorem agree_all {Γ : Nat → MTy} {vals : VEnv} {ρ : Env} : ∀ {ops : List Nat} {vs : List Value},
    lookAll vals ops = some vs →
    (∀ o ∈ ops, ∃ v, look vals o = some v ∧ Agree (Γ o) v (ρ (fwd o))) →
    ∃ s, asStrings vs = some s ∧ Fills s (allBits (fun o => ρ (fwd o)) ops)
  | [], vs, h, _ => by simp [lookAll] at h; subst h; exact ⟨[], rfl, trivial⟩
  | o :: os, vs, h, ha => by
    simp only [lookAll, Option.bind_eq_bind, Option.bind_eq_some_iff, Option.some.injEq] at h
    obtain ⟨v, hv, vs', hvs, rfl⟩ := h
    simp only [List.mem_cons, forall_eq_or_imp] at ha
    obtain ⟨⟨v', hv', hag⟩, ha2⟩ := ha
    rw [hv] at hv'; cases hv'
    obtain ⟨s, hs, hf⟩ := hag.str
    obtain ⟨s', hs', hf'⟩ := agree_all hvs ha2
    exact ⟨s ++ s', by simp [asStrings, hs, hs'], by
      simp only [allBits, List.flatMap_cons]; exact fills_append hf hf'⟩

theorem agree_int {k : Nat} {z : Int} (hk : k ≠ 0) (hz : InRange (.int k) z) :
    Agree (.int k) (.int k z) (ofInt k z) := by
  have hz' := hz
  simp only [InRange] at hz'
  obtain ⟨m, rfl⟩ : ∃ m, k = m + 1 := ⟨k - 1, by omega⟩
  have hp := pow_succ_int m
  have hp' := two_pow_pos m
  simp only [Nat.add_sub_cancel] at hz'
  refine ⟨by simp [MTy.size], ⟨_, asString_int (by omega) ?_ ?_, fills_some _⟩, ?_⟩
  · simp only [Nat.add_sub_cancel]; omega
  · omega
  · intro j hj; cases hj; exact ⟨z, rfl, hz, rfl⟩

/-- The bits of a constant. -/
theorem constBits_int {ty : MTy} {k : Nat} {z : Int} {ρ : Env} {xs : Nat → Bool}
    (ht : ty = .int k ∨ ty = .uint k) (hk : k ≠ 0) (h1 : -(2 ^ (k - 1)) ≤ z) (h2 : z < 2 ^ k)
    (h3 : ty = .uint k → 0 ≤ z) :
    constBits ty (.int z) ρ xs = some (ofInt k z) := by
  have hs : ty.size = k := by rcases ht with h | h <;> rw [h] <;> simp [MTy.size]
  have hsz : constExpr ty (.int z) = some (
      let abs := if k ≥ 32 then VExpr.lit k z.natAbs else .dec z.natAbs
      if z < 0 then .un .neg abs else abs) := by
    rcases ht with h | h <;> rw [h] <;> rfl
  obtain ⟨m, rfl⟩ : ∃ m, k = m + 1 := ⟨k - 1, by omega⟩
  simp only [Nat.add_sub_cancel] at h1
  have hp := pow_succ_int m
  have hc : ((2 ^ (m + 1) : Nat) : Int) = 2 ^ (m + 1) := by simp
  have hlt : z.natAbs < 2 ^ (m + 1) := by omega
  simp only [constBits, hsz, hs, Nat.add_one_ne_zero, if_false]
  by_cases hbig : m + 1 ≥ 32
  · simp only [hbig, if_true]
    by_cases hneg : z < 0
    · simp only [hneg, if_true]
      simp only [assigned, VExpr.width, VExpr.isSigned, VExpr.eval, Nat.max_self, Option.bind_eq_bind,
        Option.bind_some, ofInt_length, Nat.sub_self, List.drop_zero, Option.some.injEq,
        resize_eq_self (ofNat_length _ _), valOf, Bool.false_eq_true, if_false]
      rw [toNat_ofNat, Nat.mod_eq_of_lt hlt]
      congr 1; omega
    · simp only [hneg, if_false]
      rw [assigned_lit, ← ofInt_natCast]
      congr 2; omega
  · simp only [hbig, if_false]
    have hp31 : 2 ^ (m + 1) ≤ 2 ^ 31 := Nat.pow_le_pow_right (by omega) (by omega)
    have hmax : max (m + 1) 32 = 32 := by omega
    by_cases hneg : z < 0
    · simp only [hneg, if_true]
      simp only [assigned, VExpr.width, VExpr.isSigned, VExpr.eval, hmax, Option.bind_eq_bind,
        Option.bind_some, ofInt_length, resize_eq_self (ofNat_length _ _), valOf, if_true,
        Option.some.injEq]
      rw [← ofInt_natCast, toInt_ofInt (by omega) (by omega)]
      have hd := ofInt_drop (m + 1) 32 (-(z.natAbs : Int)) (by omega)
      rw [ofInt_length] at hd
      rw [hd]; congr 1; omega
    · simp only [hneg, if_false]
      simp only [assigned, VExpr.width, VExpr.isSigned, VExpr.eval, hmax, Option.bind_eq_bind,
        Option.bind_some, ofNat_length, resize_eq_self (ofNat_length _ _), Option.some.injEq]
      have hd := ofInt_drop (m + 1) 32 (z.natAbs : Int) (by omega)
      rw [ofInt_length] at hd
      rw [← ofInt_natCast, hd]; congr 1; omega

theorem constBits_bool {b : Bool} {ρ : Env} {xs : Nat → Bool} :
    constBits .bool (.bool b) ρ xs = some [b] := by
  cases b <;> simp [constBits, constExpr, MTy.size, assigned, VExpr.width, VExpr.isSigned,
    VExpr.eval, resize_eq_self (ofNat_length _ _)] <;> decide

/-- The states of the evaluator and of the hardware before a statement. -/
def AgreeInv (Γ : Nat → MTy) (defs : List Nat) (vals : VEnv) (types : TEnv) (ρ : Env) : Prop :=
  ∀ n ∈ defs, (∃ v, look vals n = some v ∧ Agree (Γ n) v (ρ (fwd n))) ∧
    look types n = some (Γ n)

theorem AgreeInv.eval {Γ : Nat → MTy} {defs : List Nat} {vals : VEnv} {types : TEnv} {ρ : Env}
    (h : AgreeInv Γ defs vals types ρ) : EvalInv Γ defs vals types := fun n hn =>
  let ⟨⟨v, h1, h2⟩, h3⟩ := h n hn
  ⟨⟨v, h1, fun k hk => let ⟨z, hz, _⟩ := h2.num k hk; ⟨z, hz⟩⟩, h3⟩

theorem agreeInv_cons {Γ : Nat → MTy} {defs : List Nat} {vals : VEnv} {types : TEnv} {ρ : Env}
    {n : Nat} {v : Value} {b : Bits} (h : AgreeInv Γ defs vals types ρ) (hs : Agree (Γ n) v b) :
    AgreeInv Γ (n :: defs) ((n, v) :: vals) ((n, Γ n) :: types) (setVar ρ n b) := by
  intro m hm
  by_cases he : m = n
  · subst he
    exact ⟨⟨v, look_cons_self _ _ _, by rw [setVar_self]; exact hs⟩, look_cons_self _ _ _⟩
  · have := h m (by simpa [he] using hm)
    rw [look_cons_ne _ _ he, look_cons_ne _ _ he, setVar_ne _ _ he]; exact this

theorem const_agree {Γ : Nat → MTy} {n : Nat} {ty : MTy} {c : Const} {ρ : Env} {xs : Nat → Bool}
    (h : StmtOk Γ (.const n ty c)) :
    ∃ b, constBits ty c ρ xs = some b ∧ Agree (Γ n) (constValue ty c) b := by
  cases h with
  | constInt hn hk hz =>
    rename_i k z
    have hz' := hz
    simp only [InRange] at hz'
    have hp : (2 : Int) ^ (k - 1) ≤ 2 ^ k := pow_le_int (by omega)
    refine ⟨_, constBits_int (Or.inl rfl) hk (by omega) (by omega) (by simp), ?_⟩
    rw [hn]; exact agree_int hk hz
  | constUint hn hk hz =>
    rename_i k z
    simp only [InRange] at hz
    have hp := two_pow_pos (k - 1)
    refine ⟨_, constBits_int (Or.inr rfl) hk (by omega) (by omega) (fun _ => hz.1), ?_⟩
    rw [hn]
    exact ⟨by simp [MTy.size], ⟨_, asString_int (by simp [MTy.size]; omega)
      (by simp [MTy.size]; omega) (by simpa [MTy.size] using hz.2), by
        simp only [MTy.size]; exact fills_some _⟩, by simp⟩
  | constBool hn =>
    refine ⟨_, constBits_bool, ?_⟩
    rw [hn]
    exact ⟨rfl, ⟨_, by simp only [constValue, Value.asString]; rfl, by simp [Fills]⟩, by simp⟩

theorem op_agree {Γ : Nat → MTy} {n : Nat} {ty : MTy} {op : Op} {ops : List Nat} {vals : VEnv}
    {types : TEnv} {ρ : Env} {xs : Nat → Bool} (h : StmtOk Γ (.bind n ty op ops))
    (hv : ∀ o ∈ ops, (∃ v, look vals o = some v ∧ Agree (Γ o) v (ρ (fwd o))) ∧
      look types o = some (Γ o))
    (hmin : ∀ k a, ty = .int k → op = .usub → ops = [a] →
      look vals a ≠ some (.int k (-(2 ^ (k - 1))))) :
    ∃ v b, evalOp vals types ty op ops = some v ∧ runOp Γ ty op ops ρ xs = some b ∧
      Agree (Γ n) v b := by
  have hfits : ∀ o ∈ ops, Fits Γ ρ o := fun o ho => let ⟨⟨_, _, h⟩, _⟩ := hv o ho; h.len
  have hag : ∀ o ∈ ops, ∃ v, look vals o = some v ∧ Agree (Γ o) v (ρ (fwd o)) :=
    fun o ho => (hv o ho).1
  obtain ⟨vs, hvs⟩ := lookAll_some fun o ho => let ⟨v, h, _⟩ := hag o ho; ⟨v, h⟩
  obtain ⟨vs', hvs'⟩ := lookAll_some (ops := ops.reverse)
    fun o ho => let ⟨v, h, _⟩ := hag o (by simpa using ho); ⟨v, h⟩
  have htys := lookAll_types (Γ := Γ) (types := types) (ops := ops) fun o ho => (hv o ho).2
  cases h with
  | add hn ha hb hk =>
    rename_i k a b
    obtain ⟨va, h1, h2⟩ := hag a (by simp)
    obtain ⟨vb, h3, h4⟩ := hag b (by simp)
    obtain ⟨x, rfl, hx, hbx⟩ := h2.num k ha
    obtain ⟨y, rfl, hy, hby⟩ := h4.num k hb
    have hnx : numVal (Γ a) (ρ (fwd a)) = x := by
      rw [ha, hbx]; exact numVal_ofInt (t := .int k) trivial hx
    have hny : numVal (Γ b) (ρ (fwd b)) = y := by
      rw [hb, hby]; exact numVal_ofInt (t := .int k) trivial hy
    have hbin : BinTy .add (Γ a) (Γ b) (.int (k + 1)) := by rw [ha, hb]; exact .addInt
    refine ⟨.int (k + 1) (x + y), _, by simp [evalOp, h1, h3, Value.assumeInt, MTy.size],
      arith_bits hbin (by rw [ha]; rfl) (hfits a (by simp)) (hfits b (by simp))
        (by rw [ha]; exact hk) (by rw [hb]; exact hk)
        (by rw [hnx, hny]; rfl), ?_⟩
    rw [hn]
    refine agree_int (by omega) (exact_inRange (op := .add) (A := .int k) (B := .int k) .addInt
      hk hk hx hy rfl (by simp))
  | sub hn ha hb hk =>
    rename_i k a b
    obtain ⟨va, h1, h2⟩ := hag a (by simp)
    obtain ⟨vb, h3, h4⟩ := hag b (by simp)
    obtain ⟨x, rfl, hx, hbx⟩ := h2.num k ha
    obtain ⟨y, rfl, hy, hby⟩ := h4.num k hb
    have hnx : numVal (Γ a) (ρ (fwd a)) = x := by
      rw [ha, hbx]; exact numVal_ofInt (t := .int k) trivial hx
    have hny : numVal (Γ b) (ρ (fwd b)) = y := by
      rw [hb, hby]; exact numVal_ofInt (t := .int k) trivial hy
    have hbin : BinTy .sub (Γ a) (Γ b) (.int (k + 1)) := by rw [ha, hb]; exact .subInt
    refine ⟨.int (k + 1) (x - y), _, by simp [evalOp, h1, h3, Value.assumeInt, MTy.size],
      arith_bits hbin (by rw [ha]; rfl) (hfits a (by simp)) (hfits b (by simp))
        (by rw [ha]; exact hk) (by rw [hb]; exact hk)
        (by rw [hnx, hny]; rfl), ?_⟩
    rw [hn]
    refine agree_int (by omega) (exact_inRange (op := .sub) (A := .int k) (B := .int k) .subInt
      hk hk hx hy rfl (by simp))
  | neg hn ha hk =>
    rename_i k a
    obtain ⟨va, h1, h2⟩ := hag a (by simp)
    obtain ⟨x, rfl, hx, hbx⟩ := h2.num k ha
    obtain ⟨m, rfl⟩ : ∃ m, k = m + 1 := ⟨k - 1, by omega⟩
    have hne : x ≠ -(2 ^ m) := by
      intro hc; exact hmin (m + 1) a rfl rfl rfl (by rw [h1, hc]; rfl)
    have hx' := hx
    simp only [InRange, Nat.add_sub_cancel] at hx'
    have hti : toInt (ρ (fwd a)) = x := by rw [hbx]; exact toInt_ofInt (by omega) (by omega)
    obtain ⟨bits, hr, hl, ht⟩ := C44_negation_partial Γ m a ρ xs ha (hfits a (by simp))
      (by rw [hti]; exact hne)
    refine ⟨.int (m + 1) (-x), bits, by simp [evalOp, h1, Value.assumeInt, MTy.size], hr, ?_⟩
    have : bits = ofInt (m + 1) (-x) := by
      apply toInt_inj (by simp [hl])
      rw [ht, hti, toInt_ofInt (by omega) (by omega)]
    rw [hn, this]
    exact agree_int (by omega) (by simp only [InRange, Nat.add_sub_cancel]; omega)
  | tuple hn =>
    obtain ⟨s, hs, hf⟩ := agree_all hvs hag
    refine ⟨.concat vs, _, by simp [evalOp, hvs], tuple_bits xs (by simp [MTy.size]) hfits, ?_⟩
    rw [hn]
    exact ⟨by rw [allBits_fits hfits]; simp [MTy.size], ⟨s, by simpa [Value.asString] using hs, hf⟩,
      by simp⟩
  | struct hn =>
    obtain ⟨s, hs, hf⟩ := agree_all hvs hag
    refine ⟨.concat vs, _, by simp [evalOp, hvs], tuple_bits xs (by simp [MTy.size]) hfits, ?_⟩
    rw [hn]
    exact ⟨by rw [allBits_fits hfits]; simp [MTy.size], ⟨s, by simpa [Value.asString] using hs, hf⟩,
      by simp⟩
  | array hn ht =>
    rename_i t
    obtain ⟨s, hs, hf⟩ := agree_all hvs' (fun o ho => hag o (by simpa using ho))
    have hfl : ∀ o ∈ ops, (ρ (fwd o)).length = t.size := fun o ho => by
      rw [← ht o ho]; exact hfits o ho
    refine ⟨.concat vs', _, by simp [evalOp, hvs'], array_bits xs (by simp [MTy.size]) hfl, ?_⟩
    rw [hn]
    refine ⟨?_, ⟨s, by simpa [Value.asString] using hs, hf⟩, by simp⟩
    rw [allBits_const (fun o ho => hfl o (by simpa using ho))]; simp [MTy.size]
  | enum hn hi =>
    rename_i opts i
    obtain ⟨s, hs, hf⟩ := agree_all hvs hag
    have hle := sizes_le_max hi
    have hsz : (MTy.enum opts).size = tagSize opts.length + maxSize opts := by simp [MTy.size]
    have hlt : i < opts.length := by
      rcases Nat.lt_or_ge i opts.length with h | h
      · exact h
      · rw [List.getElem?_eq_none h] at hi; cases hi
    have hlen := allBits_fits hfits
    obtain ⟨hd, hhd, hfd⟩ : ∃ hd, asStrings (if opts.length ≤ 1 then []
        else [Value.uint (tagSize opts.length) i]) = some hd ∧
        Fills hd (ofNat (tagSize opts.length) i) := by
      split
      · rename_i h1
        have : tagSize opts.length = 0 := tagSize_eq (by simpa using h1) (Or.inl rfl)
        rw [this]; exact ⟨[], rfl, trivial⟩
      · have h1 : 1 ≤ tagSize opts.length := by
          rcases Nat.eq_zero_or_pos (tagSize opts.length) with h | h
          · have := tagSize_zero h; omega
          · exact h
        refine ⟨(ofNat (tagSize opts.length) i).map some, ?_, fills_some _⟩
        simp [asStrings, Value.asString, padZeros_eq h1 (variant_lt_tag hlt)]
    generalize hP : (MTy.enum opts).size - tagSize opts.length - sizes (ops.map Γ) = P
    obtain ⟨pd, hpd, hfp⟩ : ∃ pd, asStrings (if P ≠ 0 then [.undef P] else []) = some pd ∧
        Fills pd ((List.range P).map xs) := by
      split
      · exact ⟨List.replicate P none, by simp [asStrings, Value.asString],
          fills_undef _ _ (by simp)⟩
      · rename_i h0
        simp only [ne_eq, Decidable.not_not] at h0
        subst h0; exact ⟨[], rfl, by simp [Fills]⟩
    refine ⟨.concat ((if opts.length ≤ 1 then [] else [Value.uint (tagSize opts.length) i]) ++ vs ++
      (if P ≠ 0 then [.undef P] else [])), _, ?_, construct_bits xs hi hfits, ?_⟩
    · simp only [evalOp, hvs, htys, Option.bind_eq_bind, Option.bind_some]
      rw [if_neg (by omega), hP]
    · rw [hn, hP]
      refine ⟨?_, ⟨hd ++ s ++ pd, ?_, fills_append (fills_append hfd hf) hfp⟩, by simp⟩
      · simp only [List.length_append, ofNat_length, List.length_map, List.length_range]
        omega
      · simp only [Value.asString]
        exact asStrings_append _ _ (asStrings_append _ _ hhd hs) hpd
  | alias hn =>
    rename_i a
    obtain ⟨va, h1, h2⟩ := hag a (by simp)
    refine ⟨va, ρ (fwd a), by simp [evalOp, h1], ?_, by rw [hn]; exact h2⟩
    have hl := h2.len
    by_cases h0 : (Γ a).size = 0
    · unfold runOp
      rw [if_pos h0, List.length_eq_zero_iff.1 (by omega : (ρ (fwd a)).length = 0)]
    · rw [runOp_assign rfl h0 rfl, assigned_var hl h0]

theorem run_agree {Γ : Nat → MTy} {xs : Nat → Nat → Bool} : ∀ (ss : List Stmt) (defs : List Nat)
    (vals : VEnv) (types : TEnv) (ρ : Env) (last : Option Value), WellFormed Γ defs ss →
    AgreeInv Γ defs vals types ρ →
    (∀ vals' last', evalStmts ss vals types last = some (vals', last') →
      ∀ n k a, .bind n (.int k) .usub [a] ∈ ss → look vals' a ≠ some (.int k (-(2 ^ (k - 1))))) →
    ∃ vals' last' ρ', evalStmts ss vals types last = some (vals', last') ∧
      hwRun Γ xs ss ρ = some ρ' ∧ (∀ n ∈ ss.map Stmt.name ++ defs, ∃ v, look vals' n = some v ∧
        Agree (Γ n) v (ρ' (fwd n))) ∧
      (ss = [] ∧ last' = last ∨ ∃ s v, ss.getLast? = some s ∧ last' = some v ∧
        look vals' s.name = some v)
  | [], defs, vals, types, ρ, last, _, hi, _ =>
    ⟨vals, last, ρ, rfl, rfl, fun n hn => (hi n (by simpa using hn)).1, Or.inl ⟨rfl, rfl⟩⟩
  | .const n ty c :: rest, defs, vals, types, ρ, last, hw, hi, hmin => by
    simp only [WellFormed, Stmt.name] at hw
    obtain ⟨hok, _, hn, hrest⟩ := hw
    have ht := (const_type hok).1
    obtain ⟨b, hb, hag⟩ := const_agree (ρ := ρ) (xs := xs n) hok
    rw [evalStmts_const] at hmin ⊢
    rw [ht] at hmin hb hag ⊢
    have hinv := agreeInv_cons hi hag
    obtain ⟨vals', last', ρ', h1, h2, h3, h4⟩ := run_agree (xs := xs) rest (n :: defs) _ _ _ _ hrest hinv
      (fun vals' last' he m k a hm => hmin vals' last' he m k a (List.mem_cons_of_mem _ hm))
    refine ⟨vals', last', ρ', h1, by simp [hwRun, hb, h2], fun m hm => h3 m ?_, Or.inr ?_⟩
    · simp only [List.map_cons, Stmt.name, List.cons_append, List.mem_cons, List.mem_append] at hm ⊢
      rcases hm with h | h | h <;> simp [h]
    · rcases h4 with ⟨rfl, rfl⟩ | ⟨s, v, hs, hl, hlk⟩
      · simp only [evalStmts, Option.some.injEq, Prod.mk.injEq] at h1
        refine ⟨_, _, rfl, rfl, ?_⟩
        rw [← h1.1]; exact look_cons_self _ _ _
      · refine ⟨s, v, ?_, hl, hlk⟩
        cases rest with
        | nil => simp at hs
        | cons x xs => simpa [List.getLast?_cons_cons] using hs
  | .bind n ty op ops :: rest, defs, vals, types, ρ, last, hw, hi, hmin => by
    have hw0 := hw
    simp only [WellFormed, Stmt.name, Stmt.operands] at hw
    obtain ⟨hok, hops, hn, hrest⟩ := hw
    have ht := stmt_type hok
    obtain ⟨vf, lf, hfin, hkeep⟩ := evalStmts_total _ _ _ _ last hw0 hi.eval
    obtain ⟨v, b, hv, hb, hag⟩ := op_agree (xs := xs n) (types := (n, ty) :: types) (ρ := ρ) hok
      (fun o ho => by
        have := hi o (hops o ho)
        refine ⟨this.1, ?_⟩
        rw [look_cons_ne _ _ (fun he : o = n => hn (he ▸ hops o ho))]; exact this.2)
      (fun k a h1 h2 h3 => by
        have := hmin vf lf hfin n k a (by rw [h1, h2, h3]; simp)
        rwa [hkeep a (hops a (by simp [h3]))] at this)
    have hinv := agreeInv_cons hi hag
    have hstep : evalStmts (.bind n ty op ops :: rest) vals types last =
        evalStmts rest ((n, v) :: vals) ((n, Γ n) :: types) (some v) := by
      simp only [evalStmts, hv, Option.bind_eq_bind, Option.bind_some]; rw [ht]
    rw [hstep] at hmin ⊢
    obtain ⟨vals', last', ρ', h1, h2, h3, h4⟩ := run_agree (xs := xs) rest (n :: defs) _ _ _ _ hrest hinv
      (fun vals' last' he m k a hm => hmin vals' last' he m k a (List.mem_cons_of_mem _ hm))
    refine ⟨vals', last', ρ', h1, by simp [hwRun, hb, h2], fun m hm => h3 m ?_, Or.inr ?_⟩
    · simp only [List.map_cons, Stmt.name, List.cons_append, List.mem_cons, List.mem_append] at hm ⊢
      rcases hm with h | h | h <;> simp [h]
    · rcases h4 with ⟨rfl, rfl⟩ | ⟨s, v, hs, hl, hlk⟩
      · simp only [evalStmts, Option.some.injEq, Prod.mk.injEq] at h1
        refine ⟨_, _, rfl, rfl, ?_⟩
        rw [← h1.1]; exact look_cons_self _ _ _
      · refine ⟨s, v, ?_, hl, hlk⟩
        cases rest with
        | nil => simp at hs
        | cons x xs => simpa [List.getLast?_cons_cons] using hs

/-! ## C11 -/

/-- C11, partial: for every well-typed program of constants, signed `+`, `-` and negation, tuples,
structs, arrays, enums and aliases, the compile time evaluator succeeds, and the bit string it
produces for the last statement agrees with the value the generated hardware computes, whatever
the undefined bits are.  Missing: negation of the least number of a type
(`C11_counterexample_negation`), unsigned arithmetic, on which the evaluator always panics
(`C11_counterexample_unsigned`), and the operators marked `todo!()` in eval.rs. -/
theorem C11_eval_agrees_partial (Γ : Nat → MTy) (xs : Nat → Nat → Bool) (ss : List Stmt) (s : Stmt)
    (ρ : Env) (hlast : ss.getLast? = some s) (hw : WellFormed Γ [] ss)
    (hmin : ∀ vals v, evalStmts ss [] [] none = some (vals, v) →
      ∀ n k a, .bind n (.int k) .usub [a] ∈ ss → look vals a ≠ some (.int k (-(2 ^ (k - 1))))) :
    ∃ v str ρ', evalStatements ss = some v ∧ v.asString = some str ∧
      hwRun Γ xs ss ρ = some ρ' ∧ str.length = (Γ s.name).size ∧ Fills str (ρ' (fwd s.name)) := by
  obtain ⟨vals', last', ρ', h1, h2, h3, h4⟩ := run_agree (xs := xs) ss [] [] [] ρ none hw
    (by intro n hn; cases hn) hmin
  rcases h4 with ⟨rfl, _⟩ | ⟨s', v, hs, hl, hlk⟩
  · simp at hlast
  · rw [hlast] at hs; cases hs
    have hmem : s.name ∈ ss.map Stmt.name ++ [] := by
      simp only [List.append_nil, List.mem_map]
      exact ⟨s, List.mem_of_getLast? hlast, rfl⟩
    obtain ⟨v', hv', hag⟩ := h3 s.name hmem
    rw [hlk] at hv'; cases hv'
    obtain ⟨str, hstr, hf⟩ := hag.str
    refine ⟨v, str, ρ', by simp [evalStatements, h1, hl], hstr, h2, ?_, hf⟩
    rw [← hag.len]
    clear hstr
    generalize ρ' (fwd s.name) = b at hf
    induction str generalizing b with
    | nil => cases b <;> simp_all [Fills]
    | cons c str ih =>
      cases b with
      | nil => cases c <;> simp [Fills] at hf
      | cons x b =>
        have : Fills str b := by cases c <;> simp only [Fills] at hf <;> simp [hf]
        simp [ih _ this]

/-- C11 fails for negation: the evaluator computes `-(-8)` in `int<4>` as the number 8, and adding
0 in `int<5>` gives 8, while the hardware wraps around and gives -8. -/
theorem C11_counterexample_negation :
    let Γ : Nat → MTy := fun n => [MTy.int 4, .int 4, .int 4, .int 5].getD n .bool
    let ss : List Stmt := [.const 0 (.int 4) (.int (-8)), .bind 1 (.int 4) .usub [0],
      .const 2 (.int 4) (.int 0), .bind 3 (.int 5) .add [1, 2]]
    WellFormed Γ [] ss ∧
    (∃ v, evalStatements ss = some v ∧
      v.asString = some [some false, some true, some false, some false, some false]) ∧
    ∃ ρ', hwRun Γ (fun _ _ => false) ss (fun _ => []) = some ρ' ∧
      ρ' (fwd 3) = [true, true, false, false, false] := by
  refine ⟨⟨.constInt rfl (by decide) (by simp [InRange]), by simp [Stmt.operands], by simp,
    .neg rfl rfl (by decide), by simp [Stmt.operands, Stmt.name], by simp [Stmt.name],
    .constInt rfl (by decide) (by simp [InRange]), by simp [Stmt.operands],
    by simp [Stmt.name], .add rfl rfl rfl (by decide), by simp [Stmt.operands, Stmt.name],
    by simp [Stmt.name], trivial⟩, ⟨.int 5 8, rfl, ?_⟩, ?_⟩
  · rw [asString_int (by omega) (by decide) (by decide)]; decide
  · refine ⟨_, rfl, by decide⟩

/-- No value is of the unsigned kind unless unsigned arithmetic has been evaluated. -/
def NoUint (vals : VEnv) : Prop := ∀ n s x, look vals n ≠ some (.uint s x)

theorem noUint_cons {vals : VEnv} {n : Nat} {v : Value} (h : NoUint vals)
    (hv : ∀ s x, v ≠ .uint s x) : NoUint ((n, v) :: vals) := by
  intro m s x
  by_cases he : m = n
  · subst he; rw [look_cons_self]; simpa using hv s x
  · rw [look_cons_ne _ _ he]; exact h m s x

theorem evalOp_noUint {vals : VEnv} {types : TEnv} {ty : MTy} {op : Op} {ops : List Nat} {v : Value}
    (h : NoUint vals) (he : evalOp vals types ty op ops = some v) :
    (∀ s x, v ≠ .uint s x) ∧ op ≠ .unsignedAdd ∧ op ≠ .unsignedSub := by
  have hu : ∀ {v n x}, look vals n = some v → v.assumeUint = some x → False := by
    intro v n x h1 h2
    cases v <;> simp [Value.assumeUint] at h2
    exact h _ _ _ h1
  rcases ops with _ | ⟨a, _ | ⟨b, ops⟩⟩
  all_goals
    cases op <;> simp only [evalOp, reduceCtorEq] at he <;>
    first
    | (simp only [Option.bind_eq_bind, Option.bind_eq_some_iff] at he
       obtain ⟨v1, h1, x, h2, _⟩ := he
       exact (hu h1 h2).elim)
    | (simp only [Option.bind_eq_bind, Option.bind_eq_some_iff, Option.some.injEq] at he
       obtain ⟨v1, h1, x, h2, v2, h3, y, h4, rfl⟩ := he
       simp)
    | (simp only [Option.bind_eq_bind, Option.bind_eq_some_iff, Option.some.injEq] at he
       obtain ⟨v1, h1, x, h2, rfl⟩ := he
       simp)
    | (simp only [Option.bind_eq_bind, Option.bind_eq_some_iff, Option.some.injEq] at he
       obtain ⟨vs, _, rfl⟩ := he
       simp)
    | (refine ⟨fun s x hc => ?_, by simp, by simp⟩
       subst hc
       exact h _ _ _ he)
    | (cases ty <;> simp only [reduceCtorEq] at he
       simp only [Option.bind_eq_bind, Option.bind_eq_some_iff] at he
       obtain ⟨vs, _, ts, _, he⟩ := he
       split at he
       · cases he
       · simp only [Option.some.injEq] at he; subst he; simp)

theorem evalStmts_unsigned : ∀ (ss : List Stmt) (vals : VEnv) (types : TEnv) (last : Option Value),
    NoUint vals → (∃ n ty op ops, .bind n ty op ops ∈ ss ∧ (op = .unsignedAdd ∨ op = .unsignedSub)) →
    evalStmts ss vals types last = none
  | [], _, _, _, _, ⟨_, _, _, _, h, _⟩ => by cases h
  | .const n ty c :: rest, vals, types, last, hu, ⟨m, ty', op, ops, hm, hop⟩ => by
    rw [evalStmts_const]
    exact evalStmts_unsigned rest _ _ _ (noUint_cons hu (by cases c <;> simp [constValue]))
      ⟨m, ty', op, ops, by simpa using hm, hop⟩
  | .bind n ty op ops :: rest, vals, types, last, hu, ⟨m, ty', op', ops', hm, hop⟩ => by
    simp only [evalStmts]
    cases he : evalOp vals ((n, ty) :: types) ty op ops with
    | none => rfl
    | some v =>
      have hs := evalOp_noUint hu he
      refine evalStmts_unsigned rest _ _ _ (noUint_cons hu hs.1) ⟨m, ty', op', ops', ?_, hop⟩
      rcases List.mem_cons.1 hm with h | h
      · cases h; rcases hop with h | h
        · exact (hs.2.1 h).elim
        · exact (hs.2.2 h).elim
      · exact h

/-- C11 fails for unsigned arithmetic: every program with an unsigned addition or subtraction
makes the evaluator panic, because constants of type `uint` are given the signed kind
(eval.rs:348) and the unsigned operators demand the unsigned kind (eval.rs:238-250). -/
theorem C11_counterexample_unsigned (ss : List Stmt) (n : Nat) (ty : MTy) (op : Op)
    (ops : List Nat) (h : .bind n ty op ops ∈ ss) (hop : op = .unsignedAdd ∨ op = .unsignedSub) :
    evalStatements ss = none := by
  have := evalStmts_unsigned ss [] [] none (by intro n s x; simp [look]) ⟨n, ty, op, ops, h, hop⟩
  simp [evalStatements, this]

/-- The hypotheses of `C11_eval_agrees_partial` are met: `[Some((-3 - 2, 7u)), None]`. -/
example :
    let opt : MTy := .enum [[], [.tuple [.int 5, .uint 3]]]
    let Γ : Nat → MTy := fun n => [MTy.int 4, .int 4, .int 5, .uint 3, .tuple [.int 5, .uint 3],
      opt, opt, .array opt 2].getD n .bool
    let ss : List Stmt := [.const 0 (.int 4) (.int (-3)), .const 1 (.int 4) (.int 2),
      .bind 2 (.int 5) .sub [0, 1], .const 3 (.uint 3) (.int 7),
      .bind 4 (.tuple [.int 5, .uint 3]) .constructTuple [2, 3], .bind 5 opt (.constructEnum 1) [4],
      .bind 6 opt (.constructEnum 0) [], .bind 7 (.array opt 2) .constructArray [5, 6]]
    WellFormed Γ [] ss ∧ ss.getLast? = some (.bind 7 (.array opt 2) .constructArray [5, 6]) ∧
    ∀ n k a, .bind n (.int k) .usub [a] ∉ ss := by
  refine ⟨?_, rfl, by simp⟩
  refine ⟨.constInt rfl (by decide) (by simp [InRange]), by simp [Stmt.operands], by simp,
    .constInt rfl (by decide) (by simp [InRange]), by simp [Stmt.operands], by simp [Stmt.name],
    .sub rfl rfl rfl (by decide), by simp [Stmt.operands, Stmt.name], by simp [Stmt.name],
    .constUint rfl (by decide) (by simp [InRange]), by simp [Stmt.operands], by simp [Stmt.name],
    .tuple (ops := [2, 3]) rfl, by simp [Stmt.operands, Stmt.name], by simp [Stmt.name],
    .enum rfl rfl, by simp [Stmt.operands, Stmt.name], by simp [Stmt.name],
    .enum rfl rfl, by simp [Stmt.operands, Stmt.name], by simp [Stmt.name],
    .array (ops := [5, 6]) rfl (by simp), by simp [Stmt.operands, Stmt.name], by simp [Stmt.name], trivial⟩

end Spade.Codegen

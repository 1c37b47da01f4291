import Verif.Lower.Model
import Verif.Codegen.ArrayProps
import Verif.Codegen.ArithProps
import Verif.Codegen.EvalAgree
/-!
# Lemmas on lowered patterns
-/
namespace Spade.Lower
open Spade.Verilog Spade.Codegen
open Spade.Match (Val Matches MatchesAll)

theorem assigned_length {ρ : Env} {xs : Nat → Bool} {lw : Nat} {e : VExpr} {b : Bits}
    (h : assigned ρ xs lw e = some b) : b.length = lw := by
  simp only [assigned, Option.bind_eq_bind, Option.bind_eq_some_iff, Option.some.injEq] at h
  obtain ⟨b', h1, rfl⟩ := h
  have := eval_length ρ xs e _ _ _ h1
  simp only [List.length_drop]; omega

theorem runOp_length {Γ : Nat → MTy} {ty : MTy} {op : Op} {ops : List Nat} {ρ : Env}
    {xs : Nat → Bool} {b : Bits} (h : runOp Γ ty op ops ρ xs = some b) : b.length = ty.size := by
  unfold runOp at h
  split at h
  · cases h; simp [*]
  · split at h
    · cases h
    · exact assigned_length h
    · simp only [caseValue, Option.bind_eq_bind, Option.bind_eq_some_iff] at h
      obtain ⟨_, _, h⟩ := h
      split at h
      · cases h
      · exact assigned_length h
    · simp only [Option.bind_eq_bind, Option.bind_eq_some_iff] at h
      obtain ⟨_, _, h⟩ := h
      split at h <;> exact assigned_length h

theorem constBits_length {ty : MTy} {c : Const} {ρ : Env} {xs : Nat → Bool} {b : Bits}
    (h : constBits ty c ρ xs = some b) : b.length = ty.size := by
  unfold constBits at h
  split at h
  · cases h
  · split at h
    · cases h; simp [*]
    · exact assigned_length h

section
variable {Γ : Nat → MTy} {ρ : Env} {xs : Nat → Nat → Bool}

theorem Holds.bind {n : Nat} {ty : MTy} {op : Op} {ops : List Nat}
    (h : Holds Γ ρ xs (.bind n ty op ops)) :
    Γ n = ty ∧ (ρ (fwd n)).length = ty.size ∧ Fits Γ ρ n := by
  obtain ⟨h1, h2⟩ := h
  have := runOp_length h2
  exact ⟨h1, this, by rw [Fits, h1, this]⟩

theorem Holds.const {n : Nat} {ty : MTy} {c : Const} (h : Holds Γ ρ xs (.const n ty c)) :
    Γ n = ty ∧ (ρ (fwd n)).length = ty.size ∧ Fits Γ ρ n := by
  obtain ⟨h1, h2⟩ := h
  have := constBits_length h2
  exact ⟨h1, this, by rw [Fits, h1, this]⟩

theorem holds_alias {n a : Nat} {ty : MTy} (h : Holds Γ ρ xs (.bind n ty .alias [a]))
    (ha : (ρ (fwd a)).length = ty.size) : ρ (fwd n) = ρ (fwd a) := by
  obtain ⟨_, h2⟩ := h
  unfold runOp at h2
  split at h2
  · rename_i h0
    rw [List.length_eq_zero_iff.1 (ha.trans h0), ← Option.some.inj h2]
  · rename_i h0
    simp only [fwdCode] at h2
    rw [assigned_var ha h0] at h2
    exact (Option.some.inj h2).symm

theorem holds_and {n a b : Nat} {x y : Bool} (h : Holds Γ ρ xs (.bind n .bool .logicalAnd [a, b]))
    (ha : ρ (fwd a) = [x]) (hb : ρ (fwd b) = [y]) : ρ (fwd n) = [x && y] := by
  obtain ⟨_, h2⟩ := h
  rw [(C44_logical Γ a b ρ (xs n) x y ha hb).1] at h2
  exact (Option.some.inj h2).symm

theorem holds_not {n a : Nat} {x : Bool} (h : Holds Γ ρ xs (.bind n .bool .logicalNot [a]))
    (ha : ρ (fwd a) = [x]) : ρ (fwd n) = [!x] := by
  obtain ⟨_, h2⟩ := h
  have h3 := (C44_logical Γ a a ρ (xs n) x x ha ha).2.2.2
  have h4 : runOp Γ .bool .logicalNot [a] ρ (xs n) = runOp Γ .bool .not [a] ρ (xs n) := rfl
  rw [h4, h3] at h2
  exact (Option.some.inj h2).symm

theorem holds_true {n : Nat} (h : Holds Γ ρ xs (.const n .bool (.bool true))) :
    ρ (fwd n) = [true] := by
  obtain ⟨_, h2⟩ := h
  rw [constBits_bool] at h2
  exact (Option.some.inj h2).symm

/-- The value of a one-bit signal. -/
theorem one_bit {n : Nat} (h : (ρ (fwd n)).length = 1) : ∃ b, ρ (fwd n) = [b] := by
  match hr : ρ (fwd n), h with
  | [b], _ => exact ⟨b, rfl⟩

/-- `bs` are the values of the one-bit signals `ns`. -/
def Values (ρ : Env) (ns : List Nat) (bs : List Bool) : Prop := ns.map (fun n => ρ (fwd n)) = bs.map ([·])

theorem values_nil : Values ρ [] [] := rfl

theorem values_cons {n : Nat} {ns : List Nat} {b : Bool} {bs : List Bool} (h : ρ (fwd n) = [b])
    (h' : Values ρ ns bs) : Values ρ (n :: ns) (b :: bs) := by
  simp only [Values, List.map_cons] at *; rw [h, h']

theorem values_append {ns ns' : List Nat} {bs bs' : List Bool} (h : Values ρ ns bs)
    (h' : Values ρ ns' bs') : Values ρ (ns ++ ns') (bs ++ bs') := by
  simp only [Values, List.map_append] at *; rw [h, h']

/-- `all_conditions` computes the conjunction. -/
theorem andAll_value : ∀ (ops : List Nat) (bs : List Bool) (r nid : Nat) (b : Bool),
    ρ (fwd r) = [b] → Values ρ ops bs → (∀ s ∈ (andAll r ops nid).1, Holds Γ ρ xs s) →
    ρ (fwd (andAll r ops nid).2.1) = [b && bs.all id]
  | [], bs, r, nid, b, hr, hv, _ => by
    cases bs with
    | nil => simpa [andAll] using hr
    | cons _ _ => simp [Values] at hv
  | op :: ops, bs, r, nid, b, hr, hv, h => by
    cases bs with
    | nil => simp [Values] at hv
    | cons c bs =>
      simp only [Values, List.map_cons, List.cons.injEq] at hv
      simp only [andAll, List.mem_cons, forall_eq_or_imp] at h
      have h1 := holds_and h.1 hr hv.1
      have := andAll_value ops bs nid (nid + 1) (b && c) h1 hv.2 h.2
      simp only [andAll, List.all_cons, id]
      rw [this, Bool.and_assoc]

theorem allConditions_value {ops : List Nat} {bs : List Bool} {nid : Nat} (hv : Values ρ ops bs)
    (h : ∀ s ∈ (allConditions ops nid).1, Holds Γ ρ xs s) :
    ρ (fwd (allConditions ops nid).2.1) = [bs.all id] := by
  match ops, bs, hv with
  | [], [], _ => simp only [allConditions] at *; exact holds_true (h _ (by simp))
  | [op], [b], hv => simpa [allConditions, Values] using hv
  | [op], b :: b' :: bs, hv => simp [Values] at hv
  | op :: op' :: ops, b :: bs, hv =>
    simp only [Values, List.map_cons, List.cons.injEq] at hv
    simp only [allConditions] at *
    exact andAll_value _ bs _ _ b hv.1 (by simp only [Values, List.map_cons]; exact hv.2) h

mutual
theorem enc_length : ∀ {t : MTy} {v : Val} {b : Bits}, Enc t v b → b.length = t.size
  | _, _, _, .int _ => by simp [MTy.size]
  | _, _, _, .uint _ => by simp [MTy.size]
  | _, _, _, .bool => rfl
  | _, _, _, .tuple h => by rw [MTy.size]; exact encAll_length h
  | _, _, _, .struct h => by rw [MTy.size]; exact encAll_length h
  | .array t n, _, _, .array h => by
    have := encAll_length h
    rw [sizes_replicate] at this
    rw [MTy.size, ← this]
    simp [List.length_flatten, List.sum_reverse]
  | .enum opts, _, _, .enum (ts := ts) hv h hp => by
    have := encAll_length h
    simp only [List.length_append, ofNat_length, this, MTy.size]; omega
  | _, _, _, .memory h => h
  | _, _, _, .inout h => h
  | _, _, _, .backward => rfl
  | _, _, _, .copyView h => by rw [MTy.size]; exact enc_length h
theorem encAll_length : ∀ {ts : List MTy} {vs : List Val} {bs : List Bits}, EncAll ts vs bs →
    bs.flatten.length = sizes ts
  | _, _, _, .nil => rfl
  | _, _, _, .cons h h' => by
    simp only [List.flatten_cons, List.length_append, sizes, enc_length h, encAll_length h']
end

/-- Subpatterns whose signals hold the encoded components, with their own statements. -/
inductive Sub (Γ : Nat → MTy) (ρ : Env) (xs : Nat → Nat → Bool) : List LPat → List Val → Prop
  | nil : Sub Γ ρ xs [] []
  | cons {p v ps vs nid r} : Γ p.name = p.ty → Enc p.ty v (ρ (fwd p.name)) →
      lowerPat p p.name nid = some r → (∀ s ∈ r.1, Holds Γ ρ xs s) → Sub Γ ρ xs ps vs →
      Sub Γ ρ xs (p :: ps) (v :: vs)

/-- Subpatterns whose signals have the right width, with their own statements. -/
inductive SubFits (Γ : Nat → MTy) (ρ : Env) (xs : Nat → Nat → Bool) : List LPat → Prop
  | nil : SubFits Γ ρ xs []
  | cons {p ps nid r} : Γ p.name = p.ty → Fits Γ ρ p.name →
      lowerPat p p.name nid = some r → (∀ s ∈ r.1, Holds Γ ρ xs s) → SubFits Γ ρ xs ps →
      SubFits Γ ρ xs (p :: ps)

theorem lowerMembers_fits {op : Nat → Op} {self : Nat} : ∀ (ps : List LPat) (k nid : Nat)
    (r : List Stmt × Nat), lowerMembers op self k ps nid = some r →
    (∀ s ∈ r.1, Holds Γ ρ xs s) → SubFits Γ ρ xs ps
  | [], _, _, _, _, _ => .nil
  | p :: ps, k, nid, r, h, hs => by
    simp only [lowerMembers, Option.bind_eq_bind, Option.bind_eq_some_iff, Option.some.injEq] at h
    obtain ⟨r1, h1, r2, h2, rfl⟩ := h
    simp only [List.mem_cons, List.mem_append, List.cons_append, or_imp,
      forall_and, forall_eq] at hs
    exact .cons hs.1.bind.1 hs.1.bind.2.2 h1 hs.2.1
      (lowerMembers_fits ps _ _ _ h2 hs.2.2)

theorem lowerElements_fits {it : MTy} {self : Nat} : ∀ (ps : List LPat) (k nid : Nat)
    (r : List Stmt × Nat), lowerElements it self k ps nid = some r →
    (∀ s ∈ r.1, Holds Γ ρ xs s) → SubFits Γ ρ xs ps
  | [], _, _, _, _, _ => .nil
  | p :: ps, k, nid, r, h, hs => by
    simp only [lowerElements, Option.bind_eq_bind, Option.bind_eq_some_iff, Option.some.injEq] at h
    obtain ⟨r1, h1, r2, h2, rfl⟩ := h
    simp only [List.mem_cons, List.mem_append, List.cons_append, or_imp,
      forall_and, forall_eq] at hs
    exact .cons hs.2.1.bind.1 hs.2.1.bind.2.2 h1 hs.2.2.1
      (lowerElements_fits ps _ _ _ h2 hs.2.2.2)

mutual
/-- The condition of a pattern is one bit, whatever it is matched against. -/
theorem condition_bit : ∀ (p : LPat) (x : Nat) (c : Option Nat) (nid nid' : Nat)
    (r : List Stmt × Nat), Γ x = p.ty → Fits Γ ρ x → p.Ok →
    (∀ g, c = some g → (ρ (fwd g)).length = 1) →
    lowerPat p x nid = some r → (∀ s ∈ r.1, Holds Γ ρ xs s) →
    (∀ s ∈ (condition p x c nid').1, Holds Γ ρ xs s) →
    (ρ (fwd (condition p x c nid').2.1)).length = 1
  | .int _ ty z, x, c, nid, nid', r, hx, hf, ho, hc, hl, hls, h => by
    cases c with
    | none =>
      simp only [condition] at *
      exact (h (.bind nid' .bool .eq [x, nid' + 1]) (by simp)).bind.2.1
    | some c =>
      simp only [condition] at *
      exact (h (.bind nid' .bool .logicalAnd [nid' + 2, c]) (by simp)).bind.2.1
  | .bool _ b, x, c, nid, nid', r, hx, hf, ho, hc, hl, hls, h => by
    cases b <;> cases c <;> simp only [condition] at *
    · exact (h (.bind nid' .bool .logicalNot [x]) (by simp)).bind.2.1
    · next c => exact (h (.bind nid' .bool .logicalAnd [nid' + 1, c]) (by simp)).bind.2.1
    · rw [hf, hx]; rfl
    · next c => exact (h (.bind nid' .bool .logicalAnd [x, c]) (by simp)).bind.2.1
  | .bound _ t, x, c, nid, nid', r, hx, hf, ho, hc, hl, hls, h => by
    cases c <;> simp only [condition] at *
    · exact (h (.const nid' .bool (.bool true)) (by simp)).const.2.1
    · next c => exact (h (.bind nid' .bool .alias [c]) (by simp)).bind.2.1
  | .boundInner _ t p, x, c, nid, nid', r, hx, hf, ho, hc, hl, hls, h => by
    simp only [lowerPat, Option.bind_eq_bind, Option.bind_eq_some_iff, Option.some.injEq] at hl
    obtain ⟨r1, h1, rfl⟩ := hl
    simp only [List.mem_cons, forall_eq_or_imp] at hls
    simp only [condition, List.mem_append] at h ⊢
    exact condition_bit p p.name c nid (nid' + 1) r1 hls.1.bind.1 hls.1.bind.2.2 ho.2 hc h1 hls.2
      (fun s hs => h s (.inl hs))
  | .tuple _ t ps, x, c, nid, nid', r, hx, hf, ho, hc, hl, hls, h => by
    simp only [condition, List.mem_append, or_imp, forall_and] at h ⊢
    simp only [lowerPat] at hl
    obtain ⟨bs, hbs⟩ := conditions_bits ps (nid' + 1) (lowerMembers_fits _ _ _ _ hl hls) ho.2 h.1
    obtain ⟨cs, hcs⟩ := guard_bits c hc
    rw [allConditions_value (values_append hbs hcs) h.2]; rfl
  | .array _ t ps, x, c, nid, nid', r, hx, hf, ho, hc, hl, hls, h => by
    simp only [condition, List.mem_append, or_imp, forall_and] at h ⊢
    simp only [lowerPat, Option.bind_eq_bind, Option.bind_eq_some_iff] at hl
    obtain ⟨w, _, hl⟩ := hl
    obtain ⟨bs, hbs⟩ := conditions_bits ps (nid' + 1) (lowerElements_fits _ _ _ _ hl hls) ho.2 h.1
    obtain ⟨cs, hcs⟩ := guard_bits c hc
    rw [allConditions_value (values_append hbs hcs) h.2]; rfl
  | .struct _ t ps, x, c, nid, nid', r, hx, hf, ho, hc, hl, hls, h => by
    simp only [condition, List.mem_append, List.mem_cons, List.cons_append, or_imp, forall_and,
      forall_eq] at h ⊢
    simp only [lowerPat] at hl
    obtain ⟨bs, hbs⟩ := conditions_bits ps (nid' + 2) (lowerMembers_fits _ _ _ _ hl hls) ho.2 h.2.1
    obtain ⟨cs, hcs⟩ := guard_bits c hc
    rw [allConditions_value (values_cons (holds_true h.1) (values_append hbs hcs)) h.2.2]; rfl
  | .variant _ t i ps, x, c, nid, nid', r, hx, hf, ho, hc, hl, hls, h => by
    simp only [condition, List.mem_append, List.mem_cons, List.cons_append, or_imp, forall_and,
      forall_eq] at h ⊢
    simp only [lowerPat] at hl
    obtain ⟨bs, hbs⟩ := conditions_bits ps (nid' + 2) (lowerMembers_fits _ _ _ _ hl hls) ho.2 h.2.1
    obtain ⟨cs, hcs⟩ := guard_bits c hc
    obtain ⟨b, hb⟩ := one_bit (ρ := ρ) h.1.bind.2.1
    rw [allConditions_value (values_cons hb (values_append hbs hcs)) h.2.2]; rfl
theorem conditions_bits : ∀ (ps : List LPat) (nid : Nat), SubFits Γ ρ xs ps → Oks ps →
    (∀ s ∈ (conditions ps nid).1, Holds Γ ρ xs s) → ∃ bs, Values ρ (conditions ps nid).2.1 bs
  | [], _, _, _, _ => ⟨[], rfl⟩
  | p :: ps, nid, .cons h1 h2 h3 h4 h5, ho, h => by
    simp only [conditions, List.mem_append, or_imp, forall_and] at h ⊢
    obtain ⟨b, hb⟩ := one_bit (condition_bit p p.name none _ nid _ h1 h2 ho.1
      (fun _ hc => nomatch hc) h3 h4 h.1)
    obtain ⟨bs, hbs⟩ := conditions_bits ps _ h5 ho.2 h.2
    exact ⟨b :: bs, values_cons hb hbs⟩
theorem guard_bits : ∀ (c : Option Nat), (∀ g, c = some g → (ρ (fwd g)).length = 1) →
    ∃ bs, Values ρ c.toList bs
  | none, _ => ⟨[], rfl⟩
  | some g, h => by
    obtain ⟨b, hb⟩ := one_bit (h g rfl)
    exact ⟨[b], values_cons hb values_nil⟩
end

end
end Spade.Lower

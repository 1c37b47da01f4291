import Verif.Expr.Intr
import Verif.Lower.Props
/-!
# Patterns inside expressions
-/
namespace Spade.Expr
open Spade.Verilog Spade.Codegen Spade.Lower
open Spade.Match (Val Matches)

variable {H : Nat → Option HUnit} {Γ : Nat → MTy} {ρ : Env} {xs : Nat → Nat → Bool}

/-! ## The statements of patterns are always defined -/

theorem members_op {op : Nat → Op} (h : op = .indexTuple ∨ ∃ i, op = .enumMember i) (n : Nat)
    (ty : MTy) (k self : Nat) : ¬ Undefined Γ ρ (.bind n ty (op k) [self]) := by
  rcases h with rfl | ⟨i, rfl⟩ <;> exact id

mutual
theorem lowerPat_defined : ∀ (p : LPat) (x nid : Nat) (r : List Stmt × Nat), Γ x = p.ty → p.Ok →
    lowerPat p x nid = some r → (∀ s ∈ r.1, ItemHolds H Γ ρ xs (.stmt s)) →
    ∀ s ∈ r.1, Holds Γ ρ xs s
  | .int .., x, nid, r, hx, ho, hl, hs => by
    simp only [lowerPat, Option.some.injEq] at hl
    subst hl
    simp
  | .bool .., x, nid, r, hx, ho, hl, hs => by
    simp only [lowerPat, Option.some.injEq] at hl
    subst hl
    simp
  | .bound .., x, nid, r, hx, ho, hl, hs => by
    simp only [lowerPat, Option.some.injEq] at hl
    subst hl
    simp
  | .boundInner _ _ p, x, nid, r, hx, ho, hl, hs => by
    simp only [lowerPat, Option.bind_eq_bind, Option.bind_eq_some_iff, Option.some.injEq] at hl
    obtain ⟨r1, h1, rfl⟩ := hl
    simp only [List.mem_cons, forall_eq_or_imp] at hs ⊢
    simp only [LPat.Ok] at ho
    exact ⟨item_defined hs.1 id, lowerPat_defined p p.name nid r1 (item_ty hs.1) ho.2 h1 hs.2⟩
  | .tuple _ _ ps, x, nid, r, hx, ho, hl, hs => by
    simp only [lowerPat] at hl
    exact lowerMembers_defined (op := .indexTuple) (.inl rfl) ps 0 nid r ho.2 hl hs
  | .struct _ _ ps, x, nid, r, hx, ho, hl, hs => by
    simp only [lowerPat] at hl
    exact lowerMembers_defined (op := .indexTuple) (.inl rfl) ps 0 nid r ho.2 hl hs
  | .variant _ _ i ps, x, nid, r, hx, ho, hl, hs => by
    simp only [lowerPat] at hl
    exact lowerMembers_defined (op := .enumMember i) (.inr ⟨i, rfl⟩) ps 0 nid r ho.2 hl hs
  | .array _ _ ps, x, nid, r, hx, ho, hl, hs => by
    simp only [lowerPat, Option.bind_eq_bind, Option.bind_eq_some_iff] at hl
    obtain ⟨w, hw, hl⟩ := hl
    simp only [LPat.Ok] at ho
    obtain ⟨⟨e, rfl, _⟩, ho⟩ := ho
    refine lowerElements_defined (e := e) (n := ps.length) ?_ hx ps 0 nid r (by omega) ho hl hs
    simp only [ilog2] at hw
    split at hw
    · cases hw
    · cases hw
      exact Nat.lt_log2_self (n := ps.length)
theorem lowerMembers_defined {op : Nat → Op} {self : Nat}
    (hop : op = .indexTuple ∨ ∃ i, op = .enumMember i) :
    ∀ (ps : List LPat) (k nid : Nat) (r : List Stmt × Nat), Oks ps →
    lowerMembers op self k ps nid = some r → (∀ s ∈ r.1, ItemHolds H Γ ρ xs (.stmt s)) →
    ∀ s ∈ r.1, Holds Γ ρ xs s
  | [], k, nid, r, ho, hl, hs => by
    simp only [lowerMembers, Option.some.injEq] at hl
    subst hl
    simp
  | p :: ps, k, nid, r, ho, hl, hs => by
    simp only [lowerMembers, Option.bind_eq_bind, Option.bind_eq_some_iff, Option.some.injEq] at hl
    obtain ⟨r1, h1, r2, h2, rfl⟩ := hl
    simp only [List.cons_append, List.mem_cons, List.mem_append, or_imp, forall_eq,
      forall_and] at hs ⊢
    exact ⟨item_defined hs.1 (members_op hop _ _ _ _),
      lowerPat_defined p p.name nid r1 (item_ty hs.1) ho.1 h1 hs.2.1,
      lowerMembers_defined hop ps (k + 1) _ r2 ho.2 h2 hs.2.2⟩
theorem lowerElements_defined {w n self : Nat} {e : MTy} (hw : n < 2 ^ (w + 1))
    (hself : Γ self = .array e n) : ∀ (ps : List LPat) (k nid : Nat) (r : List Stmt × Nat),
    k + ps.length ≤ n → Oks ps →
    lowerElements (.int (w + 1)) self k ps nid = some r →
    (∀ s ∈ r.1, ItemHolds H Γ ρ xs (.stmt s)) → ∀ s ∈ r.1, Holds Γ ρ xs s
  | [], k, nid, r, hk, ho, hl, hs => by
    simp only [lowerElements, Option.some.injEq] at hl
    subst hl
    simp
  | p :: ps, k, nid, r, hk, ho, hl, hs => by
    simp only [List.length_cons] at hk
    simp only [lowerElements, Option.bind_eq_bind, Option.bind_eq_some_iff, Option.some.injEq] at hl
    obtain ⟨r1, h1, r2, h2, rfl⟩ := hl
    simp only [List.cons_append, List.mem_cons, List.mem_append, or_imp, forall_eq,
      forall_and] at hs ⊢
    have hc := item_defined hs.1 id
    have hk' : ρ (fwd nid) = ofNat (w + 1) k := by
      have h4 := hc.2
      rw [constBits_int (k := w + 1) (.inl rfl) (by omega)
        (by have := two_pow_pos (w + 1 - 1); omega)
        (by have : ((2 ^ (w + 1) : Nat) : Int) = 2 ^ (w + 1) := by simp
            omega) (by simp)] at h4
      rw [ofInt_natCast] at h4
      exact (Option.some.inj h4).symm
    refine ⟨hc, item_defined hs.2.1 ?_,
      lowerPat_defined p p.name _ r1 (item_ty hs.2.1) ho.1 h1 hs.2.2.1,
      lowerElements_defined hw hself ps (k + 1) _ r2 (by omega) ho.2 h2 hs.2.2.2⟩
    rintro ⟨t, m, ht, hm⟩
    rw [hself] at ht
    cases ht
    rw [hk', toNat_ofNat, Nat.mod_eq_of_lt (by omega)] at hm
    omega
end

theorem andAll_defined : ∀ (ops : List Nat) (r nid : Nat), ∀ s ∈ (andAll r ops nid).1,
    ¬ Undefined Γ ρ s
  | [], r, nid, s, h => by simp [andAll] at h
  | o :: ops, r, nid, s, h => by
    simp only [andAll, List.mem_cons] at h
    rcases h with rfl | h
    · exact id
    · exact andAll_defined ops _ _ s h

theorem allConditions_defined (ops : List Nat) (nid : Nat) : ∀ s ∈ (allConditions ops nid).1,
    ¬ Undefined Γ ρ s := by
  intro s h
  match ops with
  | [] => simp [allConditions] at h; subst h; exact id
  | [o] => simp [allConditions] at h
  | o :: o' :: ops => exact andAll_defined _ _ _ s h

mutual
theorem condition_defined : ∀ (p : LPat) (x : Nat) (c : Option Nat) (nid : Nat),
    ∀ s ∈ (condition p x c nid).1, ¬ Undefined Γ ρ s
  | .int _ ty z, x, c, nid, s, h => by
    cases c <;> simp only [condition, List.mem_cons, List.not_mem_nil, or_false] at h
    · rcases h with rfl | rfl <;> exact id
    · rcases h with rfl | rfl | rfl <;> exact id
  | .bool _ b, x, c, nid, s, h => by
    cases b <;> cases c <;>
      simp only [condition, List.mem_cons, List.not_mem_nil, or_false] at h
    · subst h; exact id
    · rcases h with rfl | rfl <;> exact id
    · subst h; exact id
  | .bound .., x, c, nid, s, h => by
    cases c <;> simp only [condition, List.mem_cons, List.not_mem_nil, or_false] at h <;>
      subst h <;> exact id
  | .boundInner _ _ p, x, c, nid, s, h => by
    simp only [condition, List.mem_append, List.mem_singleton] at h
    rcases h with h | rfl
    · exact condition_defined p p.name c _ s h
    · exact id
  | .tuple _ _ ps, x, c, nid, s, h => by
    simp only [condition, List.mem_append] at h
    rcases h with h | h
    · exact conditions_defined ps _ s h
    · exact allConditions_defined _ _ s h
  | .array _ _ ps, x, c, nid, s, h => by
    simp only [condition, List.mem_append] at h
    rcases h with h | h
    · exact conditions_defined ps _ s h
    · exact allConditions_defined _ _ s h
  | .struct _ _ ps, x, c, nid, s, h => by
    simp only [condition, List.cons_append, List.mem_cons, List.mem_append] at h
    rcases h with rfl | h | h
    · exact id
    · exact conditions_defined ps _ s h
    · exact allConditions_defined _ _ s h
  | .variant _ _ i ps, x, c, nid, s, h => by
    simp only [condition, List.cons_append, List.mem_cons, List.mem_append] at h
    rcases h with rfl | h | h
    · exact id
    · exact conditions_defined ps _ s h
    · exact allConditions_defined _ _ s h
theorem conditions_defined : ∀ (ps : List LPat) (nid : Nat), ∀ s ∈ (conditions ps nid).1,
    ¬ Undefined Γ ρ s
  | [], nid, s, h => by simp [conditions] at h
  | p :: ps, nid, s, h => by
    simp only [conditions, List.mem_append] at h
    rcases h with h | h
    · exact condition_defined p _ _ _ s h
    · exact conditions_defined ps _ s h
end

/-! ## Variables -/

/-- The signals of the variables in scope hold their values. -/
def Agree (Γ : Nat → MTy) (ρ : Env) (env : Vars) : Prop :=
  ∀ n v, env n = some v → Enc (Γ n) v (ρ (fwd n))

theorem agree_extend {env : Vars} {bs : List (Nat × MTy × Val)} (h : Agree Γ ρ env)
    (hb : ∀ n t w, (n, t, w) ∈ bs → Γ n = t ∧ Enc t w (ρ (fwd n))) :
    Agree Γ ρ (env.extend bs) := by
  intro n v hn
  simp only [Vars.extend] at hn
  split at hn
  · rename_i b hf
    have hm := List.mem_of_find?_eq_some hf
    have he := List.find?_some hf
    simp only [beq_iff_eq] at he
    simp only [Option.some.injEq] at hn
    obtain ⟨m, t, w⟩ := b
    simp only at he hn
    subst he hn
    have := hb m t w hm
    rw [this.1]
    exact this.2
  · exact h n v hn

theorem lower_split {p : LPat} {x nid : Nat} {l : List Stmt × Nat} (hx : Γ x = p.ty) (hp : PatOk p)
    (hl : lower p x p.ty nid = some l) (hs : ∀ s ∈ l.1, ItemHolds H Γ ρ xs (.stmt s)) :
    (∀ s ∈ l.1, Holds Γ ρ xs s) ∧ ∃ l', lowerPat p x nid = some l' ∧ ∀ s ∈ l'.1, Holds Γ ρ xs s := by
  simp only [lower, Option.bind_eq_bind, Option.bind_eq_some_iff, Option.some.injEq] at hl
  obtain ⟨l', hl', rfl⟩ := hl
  simp only [List.mem_cons, forall_eq_or_imp] at hs
  have h2 := lowerPat_defined p x nid l' hx hp.1 hl' hs.2
  refine ⟨?_, l', hl', h2⟩
  simp only [List.mem_cons, forall_eq_or_imp]
  exact ⟨item_defined hs.1 id, h2⟩

theorem pat_binds {p : LPat} {x nid : Nat} {l : List Stmt × Nat} {v : Val} (hx : Γ x = p.ty)
    (he : Enc p.ty v (ρ (fwd x))) (hp : PatOk p) (hl : lower p x p.ty nid = some l)
    (hs : ∀ s ∈ l.1, ItemHolds H Γ ρ xs (.stmt s)) (hm : Matches p.src v) {env : Vars}
    (hA : Agree Γ ρ env) : Agree Γ ρ (env.extend (p.binds v)) :=
  agree_extend hA fun n t w hb => C05_let_partial Γ ρ xs p x nid l v hl (lower_split hx hp hl hs).1 hx he
    hp.1 hp.2.1 hp.2.2 hm n t w hb

/-! ## Arms -/

theorem plain_arm {operand nid : Nat} {p : LPat} {e : Expr} {as : List Arm} {v : Val}
    {r : List Item × List Nat × Nat} (hx : Γ operand = p.ty) (he : Enc p.ty v (ρ (fwd operand)))
    (hp : PatOk p) (hl : lowerArms operand (.plain p e :: as) nid = some r)
    (hs : ∀ i ∈ r.1, ItemHolds H Γ ρ xs i) :
    ∃ c m rb m' rr b, r.2.1 = c :: e.variable :: rr.2.1 ∧ lowerE e m = some rb ∧
      (∀ i ∈ rb.1, ItemHolds H Γ ρ xs i) ∧ lowerArms operand as m' = some rr ∧
      (∀ i ∈ rr.1, ItemHolds H Γ ρ xs i) ∧ ρ (fwd c) = [b] ∧ (b = true ↔ Matches p.src v) ∧
      (Matches p.src v → ∀ env, Agree Γ ρ env → Agree Γ ρ (env.extend (p.binds v))) := by
  simp only [lowerArms, Option.bind_eq_bind, Option.bind_eq_some_iff, Option.some.injEq] at hl
  obtain ⟨l, hl, rb, hb, rr, hr, rfl⟩ := hl
  simp only [List.mem_append, or_imp, forall_and, List.mem_map, forall_exists_index, and_imp,
    forall_apply_eq_imp_iff₂] at hs
  obtain ⟨⟨⟨h1, h2⟩, h3⟩, h4⟩ := hs
  obtain ⟨_, l', hl', hh⟩ := lower_split hx hp hl h1
  obtain ⟨b, hc, hm⟩ := condition_value p operand none [] nid l.2 l' v hx he hp.1 hp.2.1 hp.2.2 rfl
    hl' hh (fun s hs => item_defined (h2 s hs) (condition_defined p _ _ _ s hs))
  exact ⟨_, _, rb, _, rr, b, rfl, hb, h3, hr, h4, by simpa using hc, hm,
    fun hm env hA => pat_binds hx he hp hl h1 hm hA⟩

theorem guarded_arm {operand nid : Nat} {p : LPat} {g e : Expr} {as : List Arm} {v : Val}
    {r : List Item × List Nat × Nat} (hx : Γ operand = p.ty) (he : Enc p.ty v (ρ (fwd operand)))
    (hp : PatOk p) (hl : lowerArms operand (.guarded p g e :: as) nid = some r)
    (hs : ∀ i ∈ r.1, ItemHolds H Γ ρ xs i)
    (hg : ∀ m rg, lowerE g m = some rg → (∀ i ∈ rg.1, ItemHolds H Γ ρ xs i) →
      (ρ (fwd g.variable)).length = 1) :
    ∃ c m0 rg m rb m' rr b gb, r.2.1 = c :: e.variable :: rr.2.1 ∧
      lowerE g m0 = some rg ∧ (∀ i ∈ rg.1, ItemHolds H Γ ρ xs i) ∧ ρ (fwd g.variable) = [gb] ∧
      lowerE e m = some rb ∧
      (∀ i ∈ rb.1, ItemHolds H Γ ρ xs i) ∧ lowerArms operand as m' = some rr ∧
      (∀ i ∈ rr.1, ItemHolds H Γ ρ xs i) ∧ ρ (fwd c) = [b && gb] ∧ (b = true ↔ Matches p.src v) ∧
      (Matches p.src v → ∀ env, Agree Γ ρ env → Agree Γ ρ (env.extend (p.binds v))) := by
  simp only [lowerArms, Option.bind_eq_bind, Option.bind_eq_some_iff, Option.some.injEq] at hl
  obtain ⟨l, hl, rg, hg', rb, hb, rr, hr, rfl⟩ := hl
  simp only [List.mem_append, or_imp, forall_and, List.mem_map, forall_exists_index, and_imp,
    forall_apply_eq_imp_iff₂] at hs
  obtain ⟨⟨⟨⟨h1, h0⟩, h2⟩, h3⟩, h4⟩ := hs
  obtain ⟨_, l', hl', hh⟩ := lower_split hx hp hl h1
  obtain ⟨gb, hgb⟩ := one_bit (hg _ rg hg' h0)
  obtain ⟨b, hc, hm⟩ := condition_value p operand (some g.variable) [gb] nid rg.2 l' v hx he hp.1
    hp.2.1 hp.2.2 (by simp [Values, hgb]) hl' hh
    (fun s hs => item_defined (h2 s hs) (condition_defined p _ _ _ s hs))
  exact ⟨_, _, rg, _, rb, _, rr, b, gb, rfl, hg', h0, hgb, hb, h3, hr, h4, by simpa using hc, hm,
    fun hm env hA => pat_binds hx he hp hl h1 hm hA⟩

end Spade.Expr

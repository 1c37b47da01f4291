import Verif.Expr.Total
import Verif.Expr.Accept
/-!
# Every item the lowering of a well-typed expression produces has a value
-/
namespace Spade.Expr
open Spade.Verilog Spade.Codegen Spade.Lower

section
variable {Γ : Nat → MTy} {sig : Nat → Option (List MTy × MTy)}

/-- Typed statements. -/
def Decl (Γ : Nat → MTy) (ss : List Stmt) : Prop := ∀ s ∈ ss, Γ (target s).1 = (target s).2

theorem decl_cons {s : Stmt} {ss : List Stmt} :
    Decl Γ (s :: ss) ↔ Γ (target s).1 = (target s).2 ∧ Decl Γ ss := by simp [Decl]

theorem decl_append {ss ss' : List Stmt} : Decl Γ (ss ++ ss') ↔ Decl Γ ss ∧ Decl Γ ss' := by
  simp only [Decl, List.mem_append, or_imp, forall_and]

theorem decl_nil : Decl Γ [] := by simp [Decl]

/-- All statements have values. -/
def Totals (Γ : Nat → MTy) (ss : List Stmt) : Prop := ∀ s ∈ ss, Total Γ s

theorem totals_cons {s : Stmt} {ss : List Stmt} (h : Total Γ s) (h' : Totals Γ ss) :
    Totals Γ (s :: ss) := by
  intro x hx
  rcases List.mem_cons.1 hx with rfl | hx
  · exact h
  · exact h' x hx

theorem totals_append {ss ss' : List Stmt} (h : Totals Γ ss) (h' : Totals Γ ss') :
    Totals Γ (ss ++ ss') := by
  intro x hx
  rcases List.mem_append.1 hx with hx | hx
  · exact h x hx
  · exact h' x hx

theorem totals_nil : Totals Γ [] := by intro x hx; cases hx

mutual
/-- The signals of subpatterns have the types of the subpatterns. -/
def Named (Γ : Nat → MTy) : LPat → Prop
  | .int .. | .bool .. | .bound .. => True
  | .boundInner _ _ p => Γ p.name = p.ty ∧ Named Γ p
  | .tuple _ _ ps | .array _ _ ps | .struct _ _ ps | .variant _ _ _ ps => Nameds Γ ps
/-- Pointwise. -/
def Nameds (Γ : Nat → MTy) : List LPat → Prop
  | [] => True
  | p :: ps => (Γ p.name = p.ty ∧ Named Γ p) ∧ Nameds Γ ps
end

theorem le_sum_mem {a : Nat} : ∀ {l : List Nat}, a ∈ l → a ≤ l.sum
  | b :: l, h => by
    rw [List.sum_cons]
    rcases List.mem_cons.1 h with rfl | h
    · omega
    · have := le_sum_mem h
      omega

theorem size_mem {p : LPat} {ps : List LPat} (h : p ∈ ps) : p.ty.size ≤ sizes (ps.map LPat.ty) := by
  rw [sizes_eq_sum, List.map_map]
  exact le_sum_mem (List.mem_map.2 ⟨p, h, rfl⟩)

mutual
theorem pat_total : ∀ (p : LPat) {self nid : Nat} {r : List Stmt × Nat}, p.Ok → Γ self = p.ty →
    p.ty.size ≤ 2 ^ 32 → lowerPat p self nid = some r → Decl Γ r.1 → Totals Γ r.1 ∧ Named Γ p
  | .int _ _ _, _, _, _, _, _, _, hl, _ | .bool _ _, _, _, _, _, _, _, hl, _
  | .bound _ _, _, _, _, _, _, _, hl, _ => by
    simp only [lowerPat, Option.some.injEq] at hl
    subst hl
    exact ⟨totals_nil, trivial⟩
  | .boundInner _ t p, self, nid, r, ho, hx, h32, hl, hd => by
    simp only [lowerPat, Option.bind_eq_bind, Option.bind_eq_some_iff, Option.some.injEq] at hl
    obtain ⟨r1, h1, rfl⟩ := hl
    rw [decl_cons] at hd
    simp only [LPat.ty] at h32 hx
    have := pat_total p ho.2 hd.1 (by rw [ho.1]; exact h32) h1 hd.2
    refine ⟨totals_cons (total_alias ?_) this.1, hd.1, this.2⟩
    rw [hx, ho.1]
  | .tuple _ t ps, self, nid, r, ho, hx, h32, hl, hd => by
    simp only [lowerPat] at hl
    simp only [LPat.ty] at h32 hx
    have hs : (Γ self).size = sizes (ps.map LPat.ty) := by rw [hx, ho.1]; simp [MTy.size]
    refine members_total ps ho.2 ?_ ?_ hl hd
    · intro j q hq n
      refine total_indexTuple (ts := ps.map LPat.ty) (t := q.ty) ?_ (by simp [hq]) rfl hs
        (by rw [hx]; exact h32)
      rw [tupleTypes, hx, ho.1]; rfl
    · intro q hq
      have := size_mem hq
      rw [← hs, hx] at this
      omega
  | .struct _ t ps, self, nid, r, ho, hx, h32, hl, hd => by
    simp only [lowerPat] at hl
    simp only [LPat.ty] at h32 hx
    have hs : (Γ self).size = sizes (ps.map LPat.ty) := by rw [hx, ho.1]; simp [MTy.size]
    refine members_total ps ho.2 ?_ ?_ hl hd
    · intro j q hq n
      refine total_indexTuple (ts := ps.map LPat.ty) (t := q.ty) ?_ (by simp [hq]) rfl hs
        (by rw [hx]; exact h32)
      rw [tupleTypes, hx, ho.1]; rfl
    · intro q hq
      have := size_mem hq
      rw [← hs, hx] at this
      omega
  | .variant _ t i ps, self, nid, r, ho, hx, h32, hl, hd => by
    simp only [lowerPat] at hl
    simp only [LPat.ty] at h32 hx
    obtain ⟨⟨opts, rfl, hi⟩, hps⟩ := ho
    refine members_total ps hps ?_ ?_ hl hd
    · intro j q hq n
      rw [Nat.zero_add]
      exact total_enumMember hx hi (by simp [hq])
    · intro q hq
      have := size_mem hq
      have h2 := sizes_le_max hi
      simp only [MTy.size] at h32
      omega
  | .array _ t ps, self, nid, r, ho, hx, h32, hl, hd => by
    simp only [lowerPat, Option.bind_eq_bind, Option.bind_eq_some_iff] at hl
    obtain ⟨w, _, hl⟩ := hl
    obtain ⟨⟨e, rfl, he⟩, hps⟩ := ho
    have hall : ∀ q ∈ ps, q.ty = e := by
      intro q hq
      have : q.ty ∈ ps.map LPat.ty := List.mem_map.2 ⟨q, hq, rfl⟩
      rw [he] at this
      exact (List.mem_replicate.1 this).2
    simp only [LPat.ty] at hx h32
    refine elements_total (len := ps.length) ps hps hx (by rw [hx]; exact h32) hall ?_ hl hd
    intro hne
    simp only [MTy.size] at h32
    exact Nat.le_trans (Nat.le_mul_of_pos_right _ (List.length_pos_iff.2 hne)) h32
theorem members_total {op : Nat → Op} {self : Nat} : ∀ (ps : List LPat) {k nid : Nat}
    {r : List Stmt × Nat}, Oks ps →
    (∀ j q, ps[j]? = some q → ∀ n, Total Γ (.bind n q.ty (op (k + j)) [self])) →
    (∀ q ∈ ps, q.ty.size ≤ 2 ^ 32) →
    lowerMembers op self k ps nid = some r → Decl Γ r.1 → Totals Γ r.1 ∧ Nameds Γ ps
  | [], k, nid, r, ho, hop, h32, hl, hd => by
    simp only [lowerMembers, Option.some.injEq] at hl
    subst hl
    exact ⟨totals_nil, trivial⟩
  | p :: ps, k, nid, r, ho, hop, h32, hl, hd => by
    simp only [lowerMembers, Option.bind_eq_bind, Option.bind_eq_some_iff, Option.some.injEq] at hl
    obtain ⟨r1, h1, r2, h2, rfl⟩ := hl
    simp only [List.cons_append, decl_cons, decl_append] at hd
    obtain ⟨a1, a2⟩ := pat_total p ho.1 hd.1 (h32 p (by simp)) h1 hd.2.1
    obtain ⟨b1, b2⟩ := members_total ps (k := k + 1) ho.2 (fun j q hq n => by
      have := hop (j + 1) q (by simpa using hq) n
      rwa [show k + (j + 1) = k + 1 + j by omega] at this) (fun q hq => h32 q (by simp [hq])) h2
      hd.2.2
    exact ⟨totals_cons (hop 0 p rfl p.name) (totals_append a1 b1), ⟨hd.1, a2⟩, b2⟩
theorem elements_total {e : MTy} {self len w : Nat} : ∀ (ps : List LPat) {k nid : Nat}
    {r : List Stmt × Nat}, Oks ps → Γ self = .array e len → (Γ self).size ≤ 2 ^ 32 →
    (∀ q ∈ ps, q.ty = e) → (ps ≠ [] → e.size ≤ 2 ^ 32) →
    lowerElements (.int (w + 1)) self k ps nid = some r → Decl Γ r.1 →
    Totals Γ r.1 ∧ Nameds Γ ps
  | [], k, nid, r, ho, hs, h32, hall, he, hl, hd => by
    simp only [lowerElements, Option.some.injEq] at hl
    subst hl
    exact ⟨totals_nil, trivial⟩
  | p :: ps, k, nid, r, ho, hs, h32, hall, he, hl, hd => by
    simp only [lowerElements, Option.bind_eq_bind, Option.bind_eq_some_iff, Option.some.injEq] at hl
    obtain ⟨r1, h1, r2, h2, rfl⟩ := hl
    simp only [List.cons_append, decl_cons, decl_append] at hd
    have hp := hall p (by simp)
    have hE := he (by simp)
    obtain ⟨a1, a2⟩ := pat_total p ho.1 hd.2.1 (by rw [hp]; exact hE) h1 hd.2.2.1
    obtain ⟨b1, b2⟩ := elements_total ps ho.2 hs h32 (fun q hq => hall q (by simp [hq]))
      (fun _ => hE) h2 hd.2.2.2
    refine ⟨totals_cons (total_int trivial) (totals_cons ?_ (totals_append a1 b1)), ⟨hd.2.1, a2⟩, b2⟩
    have h := hd.1
    simp only [target] at h
    rw [hp]
    exact total_indexArray hs (.inr (by rw [h]; simp [MTy.size])) h32
end

theorem andAll_total : ∀ (ops : List Nat) {result nid : Nat}, Γ result = .bool →
    (∀ o ∈ ops, Γ o = .bool) → Decl Γ (andAll result ops nid).1 →
    Totals Γ (andAll result ops nid).1 ∧ Γ (andAll result ops nid).2.1 = .bool
  | [], result, nid, hr, ho, hd => ⟨totals_nil, hr⟩
  | op :: ops, result, nid, hr, ho, hd => by
    simp only [andAll, decl_cons] at hd ⊢
    have := andAll_total ops hd.1 (fun o h => ho o (by simp [h])) hd.2
    refine ⟨totals_cons (total_bin ?_ ?_ (by simp)) this.1, this.2⟩
    · rw [hr]; simp [MTy.size]
    · rw [ho op (by simp)]; simp [MTy.size]

theorem allConditions_total {ops : List Nat} {nid : Nat} (ho : ∀ o ∈ ops, Γ o = .bool)
    (hd : Decl Γ (allConditions ops nid).1) :
    Totals Γ (allConditions ops nid).1 ∧ Γ (allConditions ops nid).2.1 = .bool := by
  match ops with
  | [] =>
    simp only [allConditions, decl_cons] at hd ⊢
    exact ⟨totals_cons total_bool totals_nil, hd.1⟩
  | [op] => exact ⟨totals_nil, ho op (by simp)⟩
  | op :: op' :: ops =>
    exact andAll_total _ (ho op (by simp)) (fun o h => ho o (List.mem_cons_of_mem _ h)) hd

theorem bool_ne {n : Nat} (h : Γ n = .bool) : (Γ n).size ≠ 0 := by rw [h]; simp [MTy.size]

mutual
theorem condition_total : ∀ (p : LPat) {x : Nat} {c : Option Nat} {nid : Nat}, p.Ok → Named Γ p →
    Γ x = p.ty → p.ty.size ≤ 2 ^ 32 → (∀ g, c = some g → Γ g = .bool) →
    Decl Γ (condition p x c nid).1 →
    Totals Γ (condition p x c nid).1 ∧ Γ (condition p x c nid).2.1 = .bool
  | .int _ ty z, x, c, nid, ho, hn, hx, h32, hc, hd => by
    have hnum : IsNum ty := by
      cases ty <;> first | exact trivial | exact ho.elim
    cases c with
    | none =>
      simp only [condition, decl_cons, target] at hd ⊢
      refine ⟨totals_cons (total_int hnum) (totals_cons ?_ totals_nil), hd.2.1⟩
      exact total_cmp (c := .eq) (by rw [hx, hd.1]; rfl) rfl
    | some c =>
      simp only [condition, decl_cons, target] at hd ⊢
      refine ⟨totals_cons (total_int hnum) (totals_cons ?_ (totals_cons ?_ totals_nil)), hd.2.2.1⟩
      · exact total_cmp (c := .eq) (by rw [hx, hd.1]; rfl) rfl
      · exact total_bin (bool_ne hd.2.1) (bool_ne (hc c rfl)) (by simp)
  | .bool _ b, x, c, nid, ho, hn, hx, h32, hc, hd => by
    simp only [LPat.ty] at hx
    cases b <;> cases c <;> simp only [condition, decl_cons, target] at hd ⊢
    · exact ⟨totals_cons (total_un (bool_ne hx) (by simp)) totals_nil, hd.1⟩
    · rename_i c
      exact ⟨totals_cons (total_un (bool_ne hx) (by simp)) (totals_cons
        (total_bin (bool_ne hd.1) (bool_ne (hc c rfl)) (by simp)) totals_nil), hd.2.1⟩
    · exact ⟨totals_nil, hx⟩
    · rename_i c
      exact ⟨totals_cons (total_bin (bool_ne hx) (bool_ne (hc c rfl)) (by simp)) totals_nil, hd.1⟩
  | .bound _ t, x, c, nid, ho, hn, hx, h32, hc, hd => by
    cases c <;> simp only [condition, decl_cons, target] at hd ⊢
    · exact ⟨totals_cons total_bool totals_nil, hd.1⟩
    · rename_i c
      exact ⟨totals_cons (total_alias (by rw [hc c rfl])) totals_nil, hd.1⟩
  | .boundInner _ t p, x, c, nid, ho, hn, hx, h32, hc, hd => by
    simp only [LPat.ty] at h32
    simp only [condition, decl_append, decl_cons, target] at hd ⊢
    obtain ⟨a, b⟩ := condition_total p ho.2 hn.2 hn.1 (by rw [ho.1]; exact h32) hc hd.1
    exact ⟨totals_append a (totals_cons (total_alias (by rw [b])) totals_nil), b⟩
  | .tuple _ t ps, x, c, nid, ho, hn, hx, h32, hc, hd => by
    simp only [condition, decl_append] at hd ⊢
    have hsz : ∀ q ∈ ps, q.ty.size ≤ 2 ^ 32 := by
      intro q hq
      have := size_mem hq
      simp only [LPat.ty, ho.1, MTy.size] at h32
      omega
    obtain ⟨a, b⟩ := conditions_total ps ho.2 hn hsz hd.1
    obtain ⟨a', b'⟩ := allConditions_total (fun o h => by
      rcases List.mem_append.1 h with h | h
      · exact b o h
      · exact hc o (Option.mem_toList.1 h)) hd.2
    exact ⟨totals_append a a', b'⟩
  | .array _ t ps, x, c, nid, ho, hn, hx, h32, hc, hd => by
    simp only [condition, decl_append] at hd ⊢
    have hsz : ∀ q ∈ ps, q.ty.size ≤ 2 ^ 32 := by
      intro q hq
      obtain ⟨e, ht, he⟩ := ho.1
      have hm : q.ty ∈ ps.map LPat.ty := List.mem_map.2 ⟨q, hq, rfl⟩
      rw [he] at hm
      simp only [LPat.ty, ht, MTy.size] at h32
      rw [(List.mem_replicate.1 hm).2]
      exact Nat.le_trans (Nat.le_mul_of_pos_right _ (List.length_pos_of_mem hq)) h32
    obtain ⟨a, b⟩ := conditions_total ps ho.2 hn hsz hd.1
    obtain ⟨a', b'⟩ := allConditions_total (fun o h => by
      rcases List.mem_append.1 h with h | h
      · exact b o h
      · exact hc o (Option.mem_toList.1 h)) hd.2
    exact ⟨totals_append a a', b'⟩
  | .struct _ t ps, x, c, nid, ho, hn, hx, h32, hc, hd => by
    simp only [condition, List.cons_append, decl_cons, decl_append, target] at hd ⊢
    have hsz : ∀ q ∈ ps, q.ty.size ≤ 2 ^ 32 := by
      intro q hq
      have := size_mem hq
      simp only [LPat.ty, ho.1, MTy.size] at h32
      omega
    obtain ⟨a, b⟩ := conditions_total ps ho.2 hn hsz hd.2.1
    obtain ⟨a', b'⟩ := allConditions_total (fun o h => by
      simp only [List.mem_cons, List.mem_append] at h
      rcases h with rfl | h | h
      · exact hd.1
      · exact b o h
      · exact hc o (Option.mem_toList.1 h)) hd.2.2
    exact ⟨totals_cons total_bool (totals_append a a'), b'⟩
  | .variant _ t i ps, x, c, nid, ho, hn, hx, h32, hc, hd => by
    simp only [condition, List.cons_append, decl_cons, decl_append, target] at hd ⊢
    obtain ⟨⟨opts, rfl, hi⟩, hps⟩ := ho
    simp only [LPat.ty] at hx h32
    have hsz : ∀ q ∈ ps, q.ty.size ≤ 2 ^ 32 := by
      intro q hq
      have := size_mem hq
      have h2 := sizes_le_max hi
      simp only [MTy.size] at h32
      omega
    obtain ⟨a, b⟩ := conditions_total ps hps hn hsz hd.2.1
    obtain ⟨a', b'⟩ := allConditions_total (fun o h => by
      simp only [List.mem_cons, List.mem_append] at h
      rcases h with rfl | h | h
      · exact hd.1
      · exact b o h
      · exact hc o (Option.mem_toList.1 h)) hd.2.2
    exact ⟨totals_cons (total_isVariant hx (by rw [hx]; exact h32)) (totals_append a a'), b'⟩
theorem conditions_total : ∀ (ps : List LPat) {nid : Nat}, Oks ps → Nameds Γ ps →
    (∀ q ∈ ps, q.ty.size ≤ 2 ^ 32) → Decl Γ (conditions ps nid).1 →
    Totals Γ (conditions ps nid).1 ∧ ∀ o ∈ (conditions ps nid).2.1, Γ o = .bool
  | [], nid, ho, hn, h32, hd => ⟨totals_nil, by simp [conditions]⟩
  | p :: ps, nid, ho, hn, h32, hd => by
    simp only [conditions, decl_append] at hd ⊢
    obtain ⟨a, b⟩ := condition_total p ho.1 hn.1.2 hn.1.1 (h32 p (by simp))
      (by intro _ hc; cases hc) hd.1
    obtain ⟨a', b'⟩ := conditions_total ps ho.2 hn.2 (fun q hq => h32 q (by simp [hq])) hd.2
    refine ⟨totals_append a a', ?_⟩
    intro o ho
    rcases List.mem_cons.1 ho with rfl | ho
    · exact b
    · exact b' o ho
end

/-- The pattern of a `let` or an arm. -/
theorem lower_total {p : LPat} {self nid : Nat} {r : List Stmt × Nat} (ho : p.Ok)
    (hx : Γ self = p.ty) (h32 : p.ty.size ≤ 2 ^ 32) (hl : lower p self p.ty nid = some r)
    (hd : Decl Γ r.1) : Totals Γ r.1 ∧ Named Γ p := by
  simp only [lower, Option.bind_eq_bind, Option.bind_eq_some_iff, Option.some.injEq] at hl
  obtain ⟨r1, h1, rfl⟩ := hl
  rw [decl_cons] at hd
  obtain ⟨a, b⟩ := pat_total p ho hx h32 h1 hd.2
  exact ⟨totals_cons (total_alias (by rw [hx])) a, b⟩

/-! ## Expressions -/

/-- An item has a value: a statement in the sense of `Total`, and the operands of an instance have
the types of the parameters of its unit. -/
def Item.Total (sig : Nat → Option (List MTy × MTy)) (Γ : Nat → MTy) : Item → Prop
  | .stmt s => Expr.Total Γ s
  | .nop _ _ | .assert _ => True
  | .inst _ ty u ops => sig u = some (ops.map Γ, ty)

/-- The signal of an expression has the type of the expression. -/
theorem typed_variable : ∀ (e : Expr) {nid : Nat} {r : List Item × Nat}, e.Ok sig Γ →
    lowerE e nid = some r → (∀ i ∈ r.1, i.Typed Γ) → Γ e.variable = e.ty
  | .var n ty, nid, r, ho, hl, hs => ho
  | .block _ ss e, nid, r, ho, hl, hs => by
    simp only [lowerE, Option.bind_eq_bind, Option.bind_eq_some_iff, Option.some.injEq] at hl
    obtain ⟨a, _, b, hb, rfl⟩ := hl
    simp only [List.mem_append, or_imp, forall_and] at hs
    exact typed_variable e ho.2 hb hs.2
  | .int _ _ _, nid, r, ho, hl, hs | .bool _ _, nid, r, ho, hl, hs => by
    simp only [lowerE, Option.some.injEq] at hl
    subst hl
    exact hs _ List.mem_cons_self
  | .bin _ _ _ _ _, nid, r, ho, hl, hs => by
    simp only [lowerE, Option.bind_eq_bind, Option.bind_eq_some_iff] at hl
    obtain ⟨a, _, b, _, o, _, hl⟩ := hl
    split at hl
    · cases hl
      exact hs _ (List.mem_append_right _ List.mem_cons_self)
    · cases hl
  | .un _ _ _ _, nid, r, ho, hl, hs | .tuple _ _ _, nid, r, ho, hl, hs
  | .proj _ _ _ _, nid, r, ho, hl, hs | .cast _ _ _, nid, r, ho, hl, hs
  | .array _ _ _, nid, r, ho, hl, hs | .rep _ _ _ _, nid, r, ho, hl, hs
  | .unitBlock _ _, nid, r, ho, hl, hs => by
    simp only [lowerE, Option.bind_eq_bind, Option.bind_eq_some_iff, Option.some.injEq] at hl
    obtain ⟨a, _, rfl⟩ := hl
    exact hs _ (List.mem_append_right _ List.mem_cons_self)
  | .field _ _ _ _ _, nid, r, ho, hl, hs | .elem _ _ _ _, nid, r, ho, hl, hs
  | .range _ _ _ _ _, nid, r, ho, hl, hs | .match _ _ _ _, nid, r, ho, hl, hs => by
    simp only [lowerE, Option.bind_eq_bind, Option.bind_eq_some_iff, Option.some.injEq] at hl
    obtain ⟨a, _, b, _, rfl⟩ := hl
    exact hs _ (List.mem_append_right _ List.mem_cons_self)
  | .ite _ _ _ _ _, nid, r, ho, hl, hs => by
    simp only [lowerE, Option.bind_eq_bind, Option.bind_eq_some_iff, Option.some.injEq] at hl
    obtain ⟨a, _, b, _, c, _, rfl⟩ := hl
    exact hs _ (List.mem_append_right _ List.mem_cons_self)
  | .call id ty f args, nid, r, ho, hl, hs => by
    simp only [lowerE, Option.bind_eq_bind, Option.bind_eq_some_iff, Option.some.injEq] at hl
    obtain ⟨a, _, i, hi, rfl⟩ := hl
    have h := hs i (by simp)
    cases f with
    | intr j =>
      simp only [lowerCall, Option.map_eq_some_iff] at hi
      obtain ⟨op, _, rfl⟩ := hi
      exact h
    | variant j => simp only [lowerCall, Option.some.injEq] at hi; subst hi; exact h
    | struct => simp only [lowerCall, Option.some.injEq] at hi; subst hi; exact h
    | unit u => simp only [lowerCall, Option.some.injEq] at hi; subst hi; exact h

theorem typed_variables : ∀ (es : List Expr) {nid : Nat} {r : List Item × Nat}, Exprs.Ok sig Γ es →
    lowerEs es nid = some r → (∀ i ∈ r.1, i.Typed Γ) →
    (es.map Expr.variable).map Γ = es.map Expr.ty
  | [], nid, r, ho, hl, hs => rfl
  | e :: es, nid, r, ho, hl, hs => by
    simp only [lowerEs, Option.bind_eq_bind, Option.bind_eq_some_iff, Option.some.injEq] at hl
    obtain ⟨a, ha, b, hb, rfl⟩ := hl
    simp only [List.mem_append, or_imp, forall_and] at hs
    simp only [List.map_cons]
    rw [typed_variable e ho.1 ha hs.1, typed_variables es ho.2 hb hs.2]

theorem bin_total {n a b : Nat} {op : SrcBin} {o : Op} {A B ty : MTy} (hty : BinTy op A B ty)
    (hA : A.size ≠ 0) (hB : B.size ≠ 0) (hop : lowerBin op A = some o) (ha : Γ a = A)
    (hb : Γ b = B) : Total Γ (.bind n ty o [a, b]) := by
  have ha' : (Γ a).size ≠ 0 := by rw [ha]; exact hA
  have hb' : (Γ b).size ≠ 0 := by rw [hb]; exact hB
  cases hty <;> simp only [lowerBin, dual, Option.some.injEq] at hop <;> subst hop <;>
    first
    | (refine total_bin ha' hb' ?_; simp; done)
    | exact total_div (by rw [ha]) (by rw [hb]) (by simp)

theorem un_total {n a : Nat} {op : SrcUn} {A ty : MTy} (hty : UnTy op A ty) (ha : Γ a = A) :
    Total Γ (.bind n ty (lowerUn op) [a]) := by
  cases hty with
  | neg => exact total_un (by rw [ha]; simp [MTy.size]) (by simp [lowerUn])
  | not => exact total_un (by rw [ha]; simp [MTy.size]) (by simp [lowerUn])
  | bitNot _ h => exact total_un (by rw [ha]; exact h) (by simp [lowerUn])
  | deref => exact total_alias (by rw [ha]; simp [MTy.size])
  | ref => exact total_copyView (by rw [ha]; simp [MTy.size])

theorem array_ne {a m : Nat} (h : Γ a = .array .bool m) (hm : m ≠ 0) : (Γ a).size ≠ 0 := by
  rw [h]; simp only [MTy.size]; omega

theorem intr_total {n : Nat} {i : Intr} {o : Op} {ts : List MTy} {ty : MTy} {ops : List Nat}
    (hty : IntrTy i ts ty) (hop : lowerIntr i ts ty = some o) (ho : ops.map Γ = ts) :
    Total Γ (.bind n ty o ops) := by
  have one : ∀ t, ts = [t] → ∃ a, ops = [a] ∧ Γ a = t := by
    rintro t rfl
    match ops, ho with
    | [a], ho => simp only [List.map_cons, List.map_nil, List.cons.injEq, and_true] at ho
                 exact ⟨a, rfl, ho⟩
  have two : ∀ t u, ts = [t, u] → ∃ a b, ops = [a, b] ∧ Γ a = t ∧ Γ b = u := by
    rintro t u rfl
    match ops, ho with
    | [a, b], ho => simp only [List.map_cons, List.map_nil, List.cons.injEq, and_true] at ho
                    exact ⟨a, b, rfl, ho.1, ho.2⟩
  cases hty with
  | transmute h _ =>
    obtain ⟨a, rfl, ha⟩ := one _ rfl
    simp only [lowerIntr] at hop
    split at hop
    · cases hop
    · cases hop
      exact total_alias (by rw [ha]; exact h.symm)
  | order _ _ _ =>
    obtain ⟨a, b, rfl, ha, hb⟩ := two _ _ rfl
    simp only [lowerIntr] at hop
    exact total_cmp (by rw [ha, hb]) (by rw [ha]; exact hop)
  | eq _ =>
    obtain ⟨a, b, rfl, ha, hb⟩ := two _ _ rfl
    simp only [lowerIntr] at hop
    exact total_cmp (by rw [ha, hb]) (by rw [ha]; exact hop)
  | ne _ =>
    obtain ⟨a, b, rfl, ha, hb⟩ := two _ _ rfl
    simp only [lowerIntr] at hop
    exact total_cmp (by rw [ha, hb]) (by rw [ha]; exact hop)
  | bitNot h =>
    obtain ⟨a, rfl, ha⟩ := one _ rfl
    simp only [lowerIntr, Option.some.injEq] at hop
    subst hop
    exact total_un (array_ne ha h) (by simp)
  | bitAnd h =>
    obtain ⟨a, b, rfl, ha, hb⟩ := two _ _ rfl
    simp only [lowerIntr, Option.some.injEq] at hop
    subst hop
    exact total_bin (array_ne ha h) (array_ne hb h) (by simp)
  | bitOr h =>
    obtain ⟨a, b, rfl, ha, hb⟩ := two _ _ rfl
    simp only [lowerIntr, Option.some.injEq] at hop
    subst hop
    exact total_bin (array_ne ha h) (array_ne hb h) (by simp)
  | bitXor h =>
    obtain ⟨a, b, rfl, ha, hb⟩ := two _ _ rfl
    simp only [lowerIntr, Option.some.injEq] at hop
    subst hop
    exact total_bin (array_ne ha h) (array_ne hb h) (by simp)
  | trunc _ _ h1 h2 =>
    obtain ⟨a, rfl, ha⟩ := one _ rfl
    simp only [lowerIntr] at hop
    split at hop
    · cases hop
    · cases hop
      exact total_trunc (by rw [ha]; exact h1) (by rw [ha]; exact h2)
  | sext h1 h2 h3 =>
    obtain ⟨a, rfl, ha⟩ := one _ rfl
    simp only [lowerIntr] at hop
    split at hop
    · cases hop
    · cases hop
      exact total_sext (by rw [ha]; simpa [MTy.size] using h2) (by rw [ha]; simpa [MTy.size] using h3)
  | zext h1 h2 =>
    obtain ⟨a, rfl, ha⟩ := one _ rfl
    simp only [lowerIntr] at hop
    split at hop
    · cases hop
    · cases hop
      exact total_zext (by rw [ha]; simpa [MTy.size] using h2)
  | concat _ _ _ h =>
    obtain ⟨a, b, rfl, ha, hb⟩ := two _ _ rfl
    simp only [lowerIntr] at hop
    split at hop
    · cases hop
    · cases hop
      exact total_tuple (by simp [sizes, ha, hb, h]) (by simp)
  | reduceAnd h =>
    obtain ⟨a, rfl, ha⟩ := one _ rfl
    simp only [lowerIntr, Option.some.injEq] at hop
    subst hop
    exact total_un (array_ne ha h) (by simp)
  | reduceOr h =>
    obtain ⟨a, rfl, ha⟩ := one _ rfl
    simp only [lowerIntr, Option.some.injEq] at hop
    subst hop
    exact total_un (array_ne ha h) (by simp)
  | reduceXor h =>
    obtain ⟨a, rfl, ha⟩ := one _ rfl
    simp only [lowerIntr, Option.some.injEq] at hop
    subst hop
    exact total_un (array_ne ha h) (by simp)
  | combDiv hn h =>
    obtain ⟨a, b, rfl, ha, hb⟩ := two _ _ rfl
    simp only [lowerIntr] at hop
    cases ty <;> simp only [dual, Option.some.injEq, reduceCtorEq] at hop <;> subst hop <;>
      exact total_div (by rw [ha]) (by rw [hb]) (by simp)
  | combMod hn h =>
    obtain ⟨a, b, rfl, ha, hb⟩ := two _ _ rfl
    simp only [lowerIntr] at hop
    cases ty <;> simp only [dual, Option.some.injEq, reduceCtorEq] at hop <;> subst hop <;>
      exact total_div (by rw [ha]) (by rw [hb]) (by simp)

/-- All items have values. -/
def ItemsTotal (sig : Nat → Option (List MTy × MTy)) (Γ : Nat → MTy) (is : List Item) : Prop :=
  ∀ i ∈ is, i.Total sig Γ

theorem its_append {is is' : List Item} (h : ItemsTotal sig Γ is) (h' : ItemsTotal sig Γ is') :
    ItemsTotal sig Γ (is ++ is') := by
  intro x hx
  rcases List.mem_append.1 hx with hx | hx
  · exact h x hx
  · exact h' x hx

theorem its_nil : ItemsTotal sig Γ [] := by intro x hx; cases hx

theorem its_one {i : Item} (h : i.Total sig Γ) : ItemsTotal sig Γ [i] := by
  intro x hx
  rw [List.mem_singleton.1 hx]; exact h

theorem its_stmt {s : Stmt} (h : Expr.Total Γ s) : ItemsTotal sig Γ [.stmt s] := its_one h

theorem its_stmts {ss : List Stmt} (h : Totals Γ ss) : ItemsTotal sig Γ (ss.map .stmt) := by
  intro x hx
  obtain ⟨s, hs, rfl⟩ := List.mem_map.1 hx
  exact h s hs

theorem decl_map {ss : List Stmt} (h : ∀ i ∈ ss.map Item.stmt, i.Typed Γ) : Decl Γ ss :=
  fun s hs => h (.stmt s) (List.mem_map.2 ⟨s, hs, rfl⟩)

theorem tupleTypes_unview {T : MTy} {ts : List MTy} (h : unview T = .tuple ts ∨ unview T = .struct ts) :
    tupleTypes T = some ts ∧ T.size = sizes ts := by
  rw [tupleTypes, strip_unview, ← size_unview T]
  rcases h with h | h <;> rw [h] <;> simp [MTy.size]

mutual
theorem expr_total : ∀ (e : Expr) {nid : Nat} {r : List Item × Nat}, e.Ok sig Γ → e.Armed →
    lowerE e nid = some r → (∀ i ∈ r.1, i.Typed Γ) → ItemsTotal sig Γ r.1
  | .var n ty, nid, r, ho, hm, hl, hs => by
    simp only [lowerE, Option.some.injEq] at hl
    subst hl
    exact its_nil
  | .int id ty z, nid, r, ho, hm, hl, hs => by
    simp only [lowerE, Option.some.injEq] at hl
    subst hl
    simp only [Expr.Ok] at ho
    exact its_stmt (total_int (by cases ty <;> first | exact trivial | exact ho.elim))
  | .bool id b, nid, r, ho, hm, hl, hs => by
    simp only [lowerE, Option.some.injEq] at hl
    subst hl
    exact its_stmt total_bool
  | .bin id ty op l r', nid, r, ho, hm, hl, hs => by
    simp only [lowerE, Option.bind_eq_bind, Option.bind_eq_some_iff] at hl
    obtain ⟨a, ha, b, hb, o, hop, hl⟩ := hl
    split at hl
    · cases hl
      simp only [List.mem_append, or_imp, forall_and] at hs
      obtain ⟨h1, h2, h3, h4, h5⟩ := ho
      exact its_append (its_append (expr_total l h4 hm.1 ha hs.1.1) (expr_total r' h5 hm.2 hb hs.1.2))
        (its_stmt (bin_total h1 h2 h3 hop (typed_variable l h4 ha hs.1.1)
          (typed_variable r' h5 hb hs.1.2)))
    · cases hl
  | .un id ty op e, nid, r, ho, hm, hl, hs => by
    simp only [lowerE, Option.bind_eq_bind, Option.bind_eq_some_iff, Option.some.injEq] at hl
    obtain ⟨a, ha, rfl⟩ := hl
    simp only [List.mem_append, or_imp, forall_and] at hs
    exact its_append (expr_total e ho.2 hm ha hs.1)
      (its_stmt (un_total ho.1 (typed_variable e ho.2 ha hs.1)))
  | .tuple id ty es, nid, r, ho, hm, hl, hs => by
    simp only [lowerE, Option.bind_eq_bind, Option.bind_eq_some_iff, Option.some.injEq] at hl
    obtain ⟨a, ha, rfl⟩ := hl
    simp only [List.mem_append, or_imp, forall_and] at hs
    refine its_append (exprs_total es ho.2 hm ha hs.1) (its_stmt (total_tuple ?_ (by simp)))
    rw [typed_variables es ho.2 ha hs.1, ho.1]; simp [MTy.size]
  | .proj id ty e k, nid, r, ho, hm, hl, hs => by
    simp only [lowerE, Option.bind_eq_bind, Option.bind_eq_some_iff, Option.some.injEq] at hl
    obtain ⟨a, ha, rfl⟩ := hl
    simp only [List.mem_append, or_imp, forall_and] at hs
    obtain ⟨⟨ts, t, h1, h2, h3⟩, h32, he⟩ := ho
    have hv := typed_variable e he ha hs.1
    obtain ⟨h4, h5⟩ := tupleTypes_unview (.inl h1)
    refine its_append (expr_total e he hm ha hs.1) (its_stmt (total_indexTuple (ts := ts) (t := t)
      (by rw [hv]; exact h4) h2 (by rw [h3, size_review]) (by rw [hv]; exact h5)
      (by rw [hv]; exact h32)))
  | .field id ty e fields f, nid, r, ho, hm, hl, hs => by
    simp only [lowerE, Option.bind_eq_bind, Option.bind_eq_some_iff, Option.some.injEq] at hl
    obtain ⟨a, ha, k, hk, rfl⟩ := hl
    simp only [List.mem_append, or_imp, forall_and] at hs
    obtain ⟨⟨ts, h1, h2, h3⟩, h32, he⟩ := ho
    have hv := typed_variable e he ha hs.1
    obtain ⟨h4, h5⟩ := tupleTypes_unview (.inr h1)
    obtain ⟨hkf, hkl⟩ : fields[k]? = some f ∧ k < fields.length := by
      unfold fieldIndex at hk
      split at hk
      · rename_i i hi
        cases hk
        have : k ∈ (List.range fields.length).filter fun i => fields[i]? == some f := by
          rw [hi]; simp
        simp only [List.mem_filter, List.mem_range, beq_iff_eq] at this
        exact ⟨this.2, this.1⟩
      · cases hk
    have hkt : k < ts.length := by omega
    have h6 := h3 k ts[k] hkf (List.getElem?_eq_getElem hkt)
    refine its_append (expr_total e he hm ha hs.1) (its_stmt (total_indexTuple (ts := ts) (t := ts[k])
      (by rw [hv]; exact h4) (List.getElem?_eq_getElem hkt) (by rw [h6, size_review])
      (by rw [hv]; exact h5) (by rw [hv]; exact h32)))
  | .cast id ty e, nid, r, ho, hm, hl, hs => by
    simp only [lowerE, Option.bind_eq_bind, Option.bind_eq_some_iff, Option.some.injEq] at hl
    obtain ⟨a, ha, rfl⟩ := hl
    simp only [List.mem_append, or_imp, forall_and] at hs
    exact its_append (expr_total e ho.2 hm ha hs.1)
      (its_stmt (total_alias (by rw [typed_variable e ho.2 ha hs.1, ho.1])))
  | .array id ty es, nid, r, ho, hm, hl, hs => by
    simp only [lowerE, Option.bind_eq_bind, Option.bind_eq_some_iff, Option.some.injEq] at hl
    obtain ⟨a, ha, rfl⟩ := hl
    simp only [List.mem_append, or_imp, forall_and] at hs
    obtain ⟨⟨t, rfl, ht⟩, hes⟩ := ho
    have hv := typed_variables es hes ha hs.1
    refine its_append (exprs_total es hes hm ha hs.1) (its_one ?_)
    have := total_array (Γ := Γ) (n := id) (t := t) (ops := es.map Expr.variable) (by
      intro o ho
      have : Γ o ∈ (es.map Expr.variable).map Γ := List.mem_map.2 ⟨o, ho, rfl⟩
      rw [hv] at this
      obtain ⟨e, he, h⟩ := List.mem_map.1 this
      rw [← h]; exact ht e he)
    rwa [List.length_map] at this
  | .rep id ty e n, nid, r, ho, hm, hl, hs => by
    simp only [lowerE, Option.bind_eq_bind, Option.bind_eq_some_iff, Option.some.injEq] at hl
    obtain ⟨a, ha, rfl⟩ := hl
    simp only [List.mem_append, or_imp, forall_and] at hs
    have hv := typed_variable e ho.2 ha hs.1
    refine its_append (expr_total e ho.2 hm ha hs.1) (its_one ?_)
    have := total_array (Γ := Γ) (n := id) (t := e.ty) (ops := List.replicate n e.variable) (by
      intro o h
      rw [(List.mem_replicate.1 h).2]; exact hv)
    rw [List.length_replicate, ← ho.1] at this
    exact this
  | .elem id ty e i, nid, r, ho, hm, hl, hs => by
    simp only [lowerE, Option.bind_eq_bind, Option.bind_eq_some_iff, Option.some.injEq] at hl
    obtain ⟨a, ha, b, hb, rfl⟩ := hl
    simp only [List.mem_append, or_imp, forall_and] at hs
    obtain ⟨⟨n, w, h1, h2, h3⟩, h32, he, hi⟩ := ho
    have hv := typed_variable e he ha hs.1.1
    have hw := typed_variable i hi hb hs.1.2
    refine its_append (its_append (expr_total e he hm.1 ha hs.1.1) (expr_total i hi hm.2 hb hs.1.2))
      (its_stmt (total_indexArray (hv.trans h1) ?_ (by rw [hv]; exact h32)))
    rw [hw, h2]; exact h3
  | .range id ty e start stop, nid, r, ho, hm, hl, hs => by
    simp only [lowerE, Option.bind_eq_bind, Option.bind_eq_some_iff, Option.some.injEq] at hl
    obtain ⟨a, ha, n, hn, rfl⟩ := hl
    simp only [List.mem_append, or_imp, forall_and] at hs
    obtain ⟨⟨t, len, h1, h2, h3, h4⟩, h32, he⟩ := ho
    have hv := typed_variable e he ha hs.1
    have hst : n = stop.getD len := by
      cases stop with
      | none => rw [h1] at hn; simp only [rangeStop, arrayLen, Option.some.injEq] at hn; exact hn.symm
      | some m => simp only [rangeStop, Option.some.injEq] at hn; exact hn.symm
    subst hst
    rw [h4]
    exact its_append (expr_total e he hm ha hs.1)
      (its_stmt (total_range (hv.trans h1) h2 h3 (by rw [hv]; exact h32)))
  | .block id ss e, nid, r, ho, hm, hl, hs => by
    simp only [lowerE, Option.bind_eq_bind, Option.bind_eq_some_iff, Option.some.injEq] at hl
    obtain ⟨a, ha, b, hb, rfl⟩ := hl
    simp only [List.mem_append, or_imp, forall_and] at hs
    exact its_append (stms_total ss ho.1 hm.1 ha hs.1) (expr_total e ho.2 hm.2 hb hs.2)
  | .unitBlock id ss, nid, r, ho, hm, hl, hs => by
    simp only [lowerE, Option.bind_eq_bind, Option.bind_eq_some_iff, Option.some.injEq] at hl
    obtain ⟨a, ha, rfl⟩ := hl
    simp only [List.mem_append, or_imp, forall_and] at hs
    exact its_append (stms_total ss ho hm ha hs.1) (its_one trivial)
  | .ite id ty c x y, nid, r, ho, hm, hl, hs => by
    simp only [lowerE, Option.bind_eq_bind, Option.bind_eq_some_iff, Option.some.injEq] at hl
    obtain ⟨a, ha, b, hb, d, hd, rfl⟩ := hl
    simp only [List.mem_append, or_imp, forall_and] at hs
    obtain ⟨h1, h2, h3, h4, h5, h6⟩ := ho
    have hc := typed_variable c h4 ha hs.1.1.1
    have hx := typed_variable x h5 hb hs.1.1.2
    have hy := typed_variable y h6 hd hs.1.2
    exact its_append (its_append (its_append (expr_total c h4 hm.1 ha hs.1.1.1)
      (expr_total x h5 hm.2.1 hb hs.1.1.2)) (expr_total y h6 hm.2.2 hd hs.1.2))
      (its_stmt (total_select (by rw [hc, h1]; simp [MTy.size]) (by rw [hx, h2]) (by rw [hy, h3])))
  | .match id ty e arms, nid, r, ho, hm, hl, hs => by
    simp only [lowerE, Option.bind_eq_bind, Option.bind_eq_some_iff, Option.some.injEq] at hl
    obtain ⟨a, ha, b, hb, rfl⟩ := hl
    simp only [List.mem_append, or_imp, forall_and] at hs
    obtain ⟨h1, h2, h3⟩ := ho
    have hv := typed_variable e h1 ha hs.1.1
    obtain ⟨h4, h5, h6⟩ := arms_total arms hv h2 h3 hm.2.2 hb hs.1.2
    exact its_append (its_append (expr_total e h1 hm.2.1 ha hs.1.1) h4)
      (its_stmt (total_match (h6 hm.1) h5))
  | .call id ty f args, nid, r, ho, hm, hl, hs => by
    simp only [lowerE, Option.bind_eq_bind, Option.bind_eq_some_iff, Option.some.injEq] at hl
    obtain ⟨a, ha, i, hi, rfl⟩ := hl
    simp only [List.mem_append, or_imp, forall_and] at hs
    cases f with
    | intr j =>
      simp only [lowerCall, Option.map_eq_some_iff] at hi
      obtain ⟨op, hop, rfl⟩ := hi
      exact its_append (exprs_total args ho.2 hm ha hs.1)
        (its_stmt (intr_total ho.1 hop (typed_variables args ho.2 ha hs.1)))
    | variant j =>
      simp only [lowerCall, Option.some.injEq] at hi
      subst hi
      obtain ⟨⟨opts, rfl, h1⟩, h2⟩ := ho
      exact its_append (exprs_total args h2 hm ha hs.1)
        (its_stmt (total_enum (by rw [typed_variables args h2 ha hs.1]; exact h1)))
    | struct =>
      simp only [lowerCall, Option.some.injEq] at hi
      subst hi
      refine its_append (exprs_total args ho.2 hm ha hs.1) (its_stmt (total_tuple ?_ (by simp)))
      rw [typed_variables args ho.2 ha hs.1, ho.1]; simp [MTy.size]
    | unit u =>
      simp only [lowerCall, Option.some.injEq] at hi
      subst hi
      refine its_append (exprs_total args ho.2 hm ha hs.1) (its_one ?_)
      simp only [Item.Total]
      rw [typed_variables args ho.2 ha hs.1]; exact ho.1
theorem exprs_total : ∀ (es : List Expr) {nid : Nat} {r : List Item × Nat}, Exprs.Ok sig Γ es →
    Exprs.Armed es → lowerEs es nid = some r → (∀ i ∈ r.1, i.Typed Γ) → ItemsTotal sig Γ r.1
  | [], nid, r, ho, hm, hl, hs => by
    simp only [lowerEs, Option.some.injEq] at hl
    subst hl
    exact its_nil
  | e :: es, nid, r, ho, hm, hl, hs => by
    simp only [lowerEs, Option.bind_eq_bind, Option.bind_eq_some_iff, Option.some.injEq] at hl
    obtain ⟨a, ha, b, hb, rfl⟩ := hl
    simp only [List.mem_append, or_imp, forall_and] at hs
    exact its_append (expr_total e ho.1 hm.1 ha hs.1) (exprs_total es ho.2 hm.2 hb hs.2)
theorem stms_total : ∀ (ss : List Stm) {nid : Nat} {r : List Item × Nat}, Stms.Ok sig Γ ss →
    Stms.Armed ss → lowerStms ss nid = some r → (∀ i ∈ r.1, i.Typed Γ) → ItemsTotal sig Γ r.1
  | [], nid, r, ho, hm, hl, hs => by
    simp only [lowerStms, Option.some.injEq] at hl
    subst hl
    exact its_nil
  | .bind p e :: ss, nid, r, ho, hm, hl, hs => by
    simp only [lowerStms, Option.bind_eq_bind, Option.bind_eq_some_iff, Option.some.injEq] at hl
    obtain ⟨a, ha, l, hl, b, hb, rfl⟩ := hl
    simp only [List.mem_append, or_imp, forall_and] at hs
    obtain ⟨h1, ⟨h2, _, h3⟩, h4, h5⟩ := ho
    have hv := typed_variable e h4 ha hs.1.1
    exact its_append (its_append (expr_total e h4 hm.1 ha hs.1.1)
      (its_stmts (lower_total h2 (hv.trans h1.symm) h3 hl (decl_map hs.1.2)).1))
      (stms_total ss h5 hm.2 hb hs.2)
  | .expr e :: ss, nid, r, ho, hm, hl, hs => by
    simp only [lowerStms, Option.bind_eq_bind, Option.bind_eq_some_iff, Option.some.injEq] at hl
    obtain ⟨a, ha, b, hb, rfl⟩ := hl
    simp only [List.mem_append, or_imp, forall_and] at hs
    exact its_append (expr_total e ho.1 hm.1 ha hs.1) (stms_total ss ho.2 hm.2 hb hs.2)
  | .assert e :: ss, nid, r, ho, hm, hl, hs => by
    simp only [lowerStms, Option.bind_eq_bind, Option.bind_eq_some_iff, Option.some.injEq] at hl
    obtain ⟨a, ha, b, hb, rfl⟩ := hl
    simp only [List.mem_append, or_imp, forall_and] at hs
    exact its_append (its_append (expr_total e ho.2.1 hm.1 ha hs.1.1) (its_one trivial))
      (stms_total ss ho.2.2 hm.2 hb hs.2)
  | .decl :: ss, nid, r, ho, hm, hl, hs => stms_total ss ho hm hl hs
theorem arms_total {x : Nat} {t ty : MTy} : ∀ (arms : List Arm) {nid : Nat}
    {r : List Item × List Nat × Nat}, Γ x = t → t.size ≤ 2 ^ 32 → Arms.Ok sig Γ t ty arms →
    Arms.Armed arms → lowerArms x arms nid = some r → (∀ i ∈ r.1, i.Typed Γ) →
    ItemsTotal sig Γ r.1 ∧ Pairs Γ ty r.2.1 ∧ (arms ≠ [] → r.2.1 ≠ [])
  | [], nid, r, hx, h32, ho, hm, hl, hs => by
    simp only [lowerArms, Option.some.injEq] at hl
    subst hl
    exact ⟨its_nil, trivial, fun h => absurd rfl h⟩
  | .plain p e :: as, nid, r, hx, h32, ho, hm, hl, hs => by
    simp only [lowerArms, Option.bind_eq_bind, Option.bind_eq_some_iff, Option.some.injEq] at hl
    obtain ⟨l, hl, b, hb, d, hd, rfl⟩ := hl
    simp only [List.mem_append, or_imp, forall_and] at hs
    obtain ⟨h1, ⟨h2, _, h3⟩, h4, h5, h6⟩ := ho
    have hx' : Γ x = p.ty := by rw [hx, h1]
    have hv := typed_variable e h5 hb hs.1.2
    obtain ⟨a1, a2⟩ := lower_total h2 hx' h3 hl (decl_map hs.1.1.1)
    obtain ⟨c1, c2⟩ := condition_total p h2 a2 hx' h3 (by intro _ hc; cases hc) (decl_map hs.1.1.2)
    obtain ⟨d1, d2, _⟩ := arms_total as hx h32 h6 hm.2 hd hs.2
    refine ⟨its_append (its_append (its_append (its_stmts a1) (its_stmts c1))
      (expr_total e h5 hm.1 hb hs.1.2)) d1, ⟨?_, ?_, d2⟩, by simp⟩
    · rw [c2]; simp [MTy.size]
    · rw [hv, h4]
  | .guarded p g e :: as, nid, r, hx, h32, ho, hm, hl, hs => by
    simp only [lowerArms, Option.bind_eq_bind, Option.bind_eq_some_iff, Option.some.injEq] at hl
    obtain ⟨l, hl, a, ha, b, hb, d, hd, rfl⟩ := hl
    simp only [List.mem_append, or_imp, forall_and] at hs
    obtain ⟨h1, ⟨h2, _, h3⟩, hg, hgo, h4, h5, h6⟩ := ho
    have hx' : Γ x = p.ty := by rw [hx, h1]
    have hv := typed_variable e h5 hb hs.1.2
    have hgv := typed_variable g hgo ha hs.1.1.1.2
    obtain ⟨a1, a2⟩ := lower_total h2 hx' h3 hl (decl_map hs.1.1.1.1)
    obtain ⟨c1, c2⟩ := condition_total p h2 a2 hx' h3
      (by intro _ hc; cases hc; rw [hgv, hg]) (decl_map hs.1.1.2)
    obtain ⟨d1, d2, _⟩ := arms_total as hx h32 h6 hm.2.2 hd hs.2
    refine ⟨its_append (its_append (its_append (its_append (its_stmts a1)
      (expr_total g hgo hm.1 ha hs.1.1.1.2)) (its_stmts c1))
      (expr_total e h5 hm.2.1 hb hs.1.2)) d1, ⟨?_, ?_, d2⟩, by simp⟩
    · rw [c2]; simp [MTy.size]
    · rw [hv, h4]
end

end
end Spade.Expr

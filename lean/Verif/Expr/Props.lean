import Verif.Expr.Pats
/-!
# C45: the hardware generated for an expression computes its value
-/
namespace Spade.Expr
open Spade.Verilog Spade.Codegen Spade.Lower
open Spade.Match (Val Matches)

section
variable {H : Nat → Option HUnit} {Γ : Nat → MTy} {ρ : Env} {xs : Nat → Nat → Bool}
  {sig : Nat → Option (List MTy × MTy)}

/-- The signal of an expression has the type of the expression. -/
theorem variable_ty : ∀ (e : Expr) {nid : Nat} {r : List Item × Nat}, e.Ok sig Γ →
    lowerE e nid = some r → (∀ i ∈ r.1, ItemHolds H Γ ρ xs i) → Γ e.variable = e.ty
  | .var n ty, nid, r, ho, hl, hs => ho
  | .block _ ss e, nid, r, ho, hl, hs => by
    simp only [lowerE, Option.bind_eq_bind, Option.bind_eq_some_iff, Option.some.injEq] at hl
    obtain ⟨a, _, b, hb, rfl⟩ := hl
    simp only [List.mem_append, or_imp, forall_and] at hs
    exact variable_ty e ho.2 hb hs.2
  | .int _ _ _, nid, r, ho, hl, hs => by
    simp only [lowerE, Option.some.injEq] at hl
    subst hl
    simp only [List.mem_singleton, forall_eq] at hs
    exact (item_defined hs id).1
  | .bool _ _, nid, r, ho, hl, hs => by
    simp only [lowerE, Option.some.injEq] at hl
    subst hl
    simp only [List.mem_singleton, forall_eq] at hs
    exact (item_defined hs id).1
  | .bin _ _ _ _ _, nid, r, ho, hl, hs => by
    simp only [lowerE, Option.bind_eq_bind, Option.bind_eq_some_iff] at hl
    obtain ⟨a, _, b, _, o, _, hl⟩ := hl
    split at hl
    · cases hl
      exact item_ty (hs _ (List.mem_append_right _ List.mem_cons_self))
    · cases hl
  | .un _ _ _ _, nid, r, ho, hl, hs | .tuple _ _ _, nid, r, ho, hl, hs
  | .proj _ _ _ _, nid, r, ho, hl, hs | .cast _ _ _, nid, r, ho, hl, hs
  | .array _ _ _, nid, r, ho, hl, hs | .rep _ _ _ _, nid, r, ho, hl, hs => by
    simp only [lowerE, Option.bind_eq_bind, Option.bind_eq_some_iff, Option.some.injEq] at hl
    obtain ⟨a, _, rfl⟩ := hl
    exact item_ty (hs _ (List.mem_append_right _ List.mem_cons_self))
  | .field _ _ _ _ _, nid, r, ho, hl, hs | .elem _ _ _ _, nid, r, ho, hl, hs
  | .range _ _ _ _ _, nid, r, ho, hl, hs | .match _ _ _ _, nid, r, ho, hl, hs => by
    simp only [lowerE, Option.bind_eq_bind, Option.bind_eq_some_iff, Option.some.injEq] at hl
    obtain ⟨a, _, b, _, rfl⟩ := hl
    exact item_ty (hs _ (List.mem_append_right _ List.mem_cons_self))
  | .ite _ _ _ _ _, nid, r, ho, hl, hs => by
    simp only [lowerE, Option.bind_eq_bind, Option.bind_eq_some_iff, Option.some.injEq] at hl
    obtain ⟨a, _, b, _, c, _, rfl⟩ := hl
    exact item_ty (hs _ (List.mem_append_right _ List.mem_cons_self))
  | .unitBlock id ss, nid, r, ho, hl, hs => by
    simp only [lowerE, Option.bind_eq_bind, Option.bind_eq_some_iff, Option.some.injEq] at hl
    obtain ⟨a, _, rfl⟩ := hl
    have := hs (.nop id (.tuple [])) (by simp)
    cases this with
    | nop h => exact h
  | .call id ty f args, nid, r, ho, hl, hs => by
    simp only [lowerE, Option.bind_eq_bind, Option.bind_eq_some_iff, Option.some.injEq] at hl
    obtain ⟨a, _, i, hi, rfl⟩ := hl
    have h := hs i (by simp)
    cases f with
    | intr j =>
      simp only [lowerCall, Option.map_eq_some_iff] at hi
      obtain ⟨op, _, rfl⟩ := hi
      exact item_ty h
    | variant j => simp only [lowerCall, Option.some.injEq] at hi; subst hi; exact item_ty h
    | struct => simp only [lowerCall, Option.some.injEq] at hi; subst hi; exact item_ty h
    | unit u =>
      simp only [lowerCall, Option.some.injEq] at hi
      subst hi
      cases h with
      | inst h _ => exact h

/-- The conditions of all arms are single bits. -/
theorem arms_values {operand : Nat} {t ty : MTy} {v : Val} (hfit : ∀ n, Fits Γ ρ n)
    (hx : Γ operand = t) (he : Enc t v (ρ (fwd operand))) :
    ∀ (arms : List Arm) (nid : Nat) (r : List Item × List Nat × Nat), Arms.Ok sig Γ t ty arms →
    lowerArms operand arms nid = some r → (∀ i ∈ r.1, ItemHolds H Γ ρ xs i) →
    ∃ (prs : List (Nat × Nat)) (bs : List Bool), r.2.1 = flat prs ∧ Values ρ (prs.map (·.1)) bs
  | [], nid, r, ho, hl, hs => by
    simp only [lowerArms, Option.some.injEq] at hl
    subst hl
    exact ⟨[], [], rfl, rfl⟩
  | .plain p e :: as, nid, r, ho, hl, hs => by
    simp only [Arms.Ok] at ho
    obtain ⟨c, m, rb, m', rr, b, h1, _, _, h4, h5, h6, _⟩ :=
      plain_arm (hx.trans ho.1.symm) (ho.1 ▸ he) ho.2.1 hl hs
    obtain ⟨prs, bs, h7, h8⟩ := arms_values hfit hx he as m' rr ho.2.2.2.2 h4 h5
    exact ⟨(c, e.variable) :: prs, b :: bs, by rw [h1, h7, flat], values_cons h6 h8⟩
  | .guarded p g e :: as, nid, r, ho, hl, hs => by
    simp only [Arms.Ok] at ho
    obtain ⟨c, m0, rg, m, rb, m', rr, b, gb, h1, _, _, _, _, _, h4, h5, h6, _⟩ :=
      guarded_arm (hx.trans ho.1.symm) (ho.1 ▸ he) ho.2.1 hl hs (fun m rg h1 h2 => by
        rw [hfit, variable_ty g ho.2.2.2.1 h1 h2, ho.2.2.1]; rfl)
    obtain ⟨prs, bs, h7, h8⟩ := arms_values hfit hx he as m' rr ho.2.2.2.2.2.2 h4 h5
    exact ⟨(c, e.variable) :: prs, (b && gb) :: bs, by rw [h1, h7, flat], values_cons h6 h8⟩

theorem agree_call : ∀ {params : List (Nat × MTy)} {vs : List Val} {bss : List Bits},
    (∀ p ∈ params, Γ p.1 = p.2) → EncAll (params.map (·.2)) vs bss →
    bss = params.map (fun p => ρ (fwd p.1)) → Agree Γ ρ (callVars params vs)
  | [], _, _, _, _, _ => fun n v h => by simp [callVars] at h
  | (m, t) :: ps, _, _, hp, .cons he hes, hb => by
    simp only [List.map_cons, List.cons.injEq] at hb
    simp only [List.mem_cons, forall_eq_or_imp] at hp
    have ih := agree_call hp.2 hes hb.2
    intro n v h
    simp only [callVars] at h
    split at h
    · rename_i hn
      subst hn
      simp only [Option.some.injEq] at h
      subst h
      rw [hp.1, ← hb.1]
      exact he
    · exact ih n v h

theorem fieldIndex_unique {fields : List String} {f : String} {i k : Nat}
    (h : fieldIndex fields f = some i) (hk : fields[k]? = some f) : i = k := by
  simp only [fieldIndex] at h
  split at h
  · rename_i j hj
    have hkl : k < fields.length := (List.getElem?_eq_some_iff.1 hk).1
    have : k ∈ (List.range fields.length).filter fun i => fields[i]? == some f := by
      simp only [List.mem_filter, List.mem_range]
      exact ⟨hkl, by rw [hk]; simp⟩
    rw [hj] at this
    simp only [List.mem_singleton] at this
    simp only [Option.some.injEq] at h
    omega
  · cases h

theorem holdVals_types {es : List Expr} (h : ∀ e ∈ es, Γ e.variable = e.ty) :
    (es.map Expr.variable).map Γ = es.map Expr.ty := by
  rw [List.map_map]
  exact List.map_congr_left h

theorem variables_ty : ∀ (es : List Expr) {nid : Nat} {r : List Item × Nat}, Exprs.Ok sig Γ es →
    lowerEs es nid = some r → (∀ i ∈ r.1, ItemHolds H Γ ρ xs i) → ∀ e ∈ es, Γ e.variable = e.ty
  | [], _, _, _, _, _, e, he => by cases he
  | e :: es, nid, r, ho, hl, hs, e', he => by
    simp only [lowerEs, Option.bind_eq_bind, Option.bind_eq_some_iff, Option.some.injEq] at hl
    obtain ⟨a, ha, b, hb, rfl⟩ := hl
    simp only [List.mem_append, or_imp, forall_and] at hs
    simp only [List.mem_cons] at he
    rcases he with rfl | he
    · exact variable_ty e' ho.1 ha hs.1
    · exact variables_ty es ho.2 hb hs.2 e' he

end

theorem replicate_holdVals {Γ : Nat → MTy} {ρ : Env} {a : Nat} {v : Val}
    (h : Enc (Γ a) v (ρ (fwd a))) : ∀ n, HoldVals Γ ρ (List.replicate n a) (List.replicate n v)
  | 0 => trivial
  | n + 1 => ⟨h, replicate_holdVals h n⟩

variable {P : Prog} {nids : Nat → Nat}

mutual
/-- The signal of an expression holds the value of the expression. -/
theorem ev_value (hP : P.Ok) : ∀ {env : Vars} {e : Expr} {v : Val}, Ev P env e v →
    ∀ {Γ : Nat → MTy} {ρ : Env} {xs : Nat → Nat → Bool} {nid : Nat} {r : List Item × Nat},
    (∀ n, Fits Γ ρ n) → e.Ok P.sig Γ → Agree Γ ρ env → lowerE e nid = some r →
    (∀ i ∈ r.1, ItemHolds (lowerProg P nids) Γ ρ xs i) → Enc e.ty v (ρ (fwd e.variable))
  | _, _, _, .var hv, Γ, ρ, xs, nid, r, hfit, ho, hA, hl, hs => by
    have := hA _ _ hv
    rw [show Γ _ = _ from ho] at this
    exact this
  | _, _, _, @Ev.int _ env self ty z, Γ, ρ, xs, nid, r, hfit, ho, hA, hl, hs => by
    simp only [lowerE, Option.some.injEq] at hl
    subst hl
    simp only [List.mem_singleton, forall_eq] at hs
    have hh := (item_defined hs id).2
    simp only [Expr.Ok] at ho
    cases ty <;> simp only [InRange] at ho
    · rename_i n
      rw [constBits_num (n := n) (.inl rfl) ho] at hh
      simp only [Expr.variable, Expr.ty]
      rw [← Option.some.inj hh]
      exact .int ho
    · rename_i n
      rw [constBits_num (n := n) (.inr rfl) ho] at hh
      simp only [Expr.variable, Expr.ty]
      rw [← Option.some.inj hh]
      exact .uint ho
  | _, _, _, .bool, Γ, ρ, xs, nid, r, hfit, ho, hA, hl, hs => by
    simp only [lowerE, Option.some.injEq] at hl
    subst hl
    simp only [List.mem_singleton, forall_eq] at hs
    have hh := (item_defined hs id).2
    rw [constBits_bool] at hh
    simp only [Expr.variable, Expr.ty]
    rw [← Option.some.inj hh]
    exact .bool
  | _, _, _, .bin h1 h2 hz, Γ, ρ, xs, nid, r, hfit, ho, hA, hl, hs => by
    simp only [lowerE, Option.bind_eq_bind, Option.bind_eq_some_iff] at hl
    obtain ⟨a, ha, b, hb, o, hop, hl⟩ := hl
    split at hl
    · cases hl
      simp only [List.mem_append, or_imp, forall_and, List.mem_singleton, forall_eq] at hs
      simp only [Expr.Ok] at ho
      have e1 := ev_value hP h1 hfit ho.2.2.2.1 hA ha hs.1.1
      have e2 := ev_value hP h2 hfit ho.2.2.2.2 hA hb hs.1.2
      exact bin_step ho.1 ho.2.1 ho.2.2.1 hop (variable_ty _ ho.2.2.2.1 ha hs.1.1)
        (variable_ty _ ho.2.2.2.2 hb hs.1.2) e1 e2 hz hs.2
    · cases hl
  | _, _, _, .un h1 hv, Γ, ρ, xs, nid, r, hfit, ho, hA, hl, hs => by
    simp only [lowerE, Option.bind_eq_bind, Option.bind_eq_some_iff, Option.some.injEq] at hl
    obtain ⟨a, ha, rfl⟩ := hl
    simp only [List.mem_append, or_imp, forall_and, List.mem_singleton, forall_eq] at hs
    simp only [Expr.Ok] at ho
    exact un_step ho.1 (variable_ty _ ho.2 ha hs.1) (ev_value hP h1 hfit ho.2 hA ha hs.1) hv hs.2
  | _, _, _, .tuple h1, Γ, ρ, xs, nid, r, hfit, ho, hA, hl, hs => by
    simp only [lowerE, Option.bind_eq_bind, Option.bind_eq_some_iff, Option.some.injEq] at hl
    obtain ⟨a, ha, rfl⟩ := hl
    simp only [List.mem_append, or_imp, forall_and, List.mem_singleton, forall_eq] at hs
    simp only [Expr.Ok] at ho
    have ht := holdVals_types (variables_ty _ ho.2 ha hs.1)
    exact (C05_construct Γ ρ xs _ _ _ _ (evs_value hP h1 hfit ho.2 hA ha hs.1)).1
      (.inl (by rw [ht]; exact ho.1)) (item_defined hs.2 id)
  | _, _, _, .proj h1 hm, Γ, ρ, xs, nid, r, hfit, ho, hA, hl, hs => by
    simp only [lowerE, Option.bind_eq_bind, Option.bind_eq_some_iff, Option.some.injEq] at hl
    obtain ⟨a, ha, rfl⟩ := hl
    simp only [List.mem_append, or_imp, forall_and, List.mem_singleton, forall_eq] at hs
    simp only [Expr.Ok] at ho
    obtain ⟨⟨ts, t, g1, g2, g3⟩, h32, ho⟩ := ho
    exact proj_step (.inl g1) g2 g3 h32 (variable_ty _ ho ha hs.1)
      (ev_value hP h1 hfit ho hA ha hs.1) hm hs.2
  | _, _, _, .field h1 hk hm, Γ, ρ, xs, nid, r, hfit, ho, hA, hl, hs => by
    simp only [lowerE, Option.bind_eq_bind, Option.bind_eq_some_iff, Option.some.injEq] at hl
    obtain ⟨a, ha, i, hi, rfl⟩ := hl
    simp only [List.mem_append, or_imp, forall_and, List.mem_singleton, forall_eq] at hs
    simp only [Expr.Ok] at ho
    obtain ⟨⟨ts, g1, g2, g3⟩, h32, ho⟩ := ho
    have := fieldIndex_unique hi hk.1
    subst this
    have hil := (List.getElem?_eq_some_iff.1 hk.1).1
    have hts : ts[i]? = some (ts[i]'(by omega)) := List.getElem?_eq_getElem (by omega)
    exact proj_step (.inr g1) hts (g3 i _ hk.1 hts) h32 (variable_ty _ ho ha hs.1)
      (ev_value hP h1 hfit ho hA ha hs.1) hm hs.2
  | _, _, _, .cast h1, Γ, ρ, xs, nid, r, hfit, ho, hA, hl, hs => by
    simp only [lowerE, Option.bind_eq_bind, Option.bind_eq_some_iff, Option.some.injEq] at hl
    obtain ⟨a, ha, rfl⟩ := hl
    simp only [List.mem_append, or_imp, forall_and, List.mem_singleton, forall_eq] at hs
    simp only [Expr.Ok] at ho
    have e1 := ev_value hP h1 hfit ho.2 hA ha hs.1
    rw [← ho.1] at e1
    exact alias_step e1 hs.2
  | _, _, _, .array h1, Γ, ρ, xs, nid, r, hfit, ho, hA, hl, hs => by
    simp only [lowerE, Option.bind_eq_bind, Option.bind_eq_some_iff, Option.some.injEq] at hl
    obtain ⟨a, ha, rfl⟩ := hl
    simp only [List.mem_append, or_imp, forall_and, List.mem_singleton, forall_eq] at hs
    simp only [Expr.Ok] at ho
    obtain ⟨⟨t, g1, g2⟩, ho⟩ := ho
    have ht := variables_ty _ ho ha hs.1
    refine (C05_construct Γ ρ xs _ _ _ _ (evs_value hP h1 hfit ho hA ha hs.1)).2.1 t
      (by rw [List.length_map]; exact g1) ?_ (item_defined hs.2 id)
    intro o hmem
    simp only [List.mem_map] at hmem
    obtain ⟨e, he, rfl⟩ := hmem
    rw [ht e he, g2 e he]
  | _, _, _, .rep h1, Γ, ρ, xs, nid, r, hfit, ho, hA, hl, hs => by
    simp only [lowerE, Option.bind_eq_bind, Option.bind_eq_some_iff, Option.some.injEq] at hl
    obtain ⟨a, ha, rfl⟩ := hl
    simp only [List.mem_append, or_imp, forall_and, List.mem_singleton, forall_eq] at hs
    simp only [Expr.Ok] at ho
    have e1 := ev_value hP h1 hfit ho.2 hA ha hs.1
    have ht := variable_ty _ ho.2 ha hs.1
    rw [← ht] at e1
    refine (C05_construct Γ ρ xs _ _ _ _ (replicate_holdVals e1 _)).2.1 _
      (by rw [List.length_replicate]; exact ho.1) ?_ (item_defined hs.2 id)
    intro o hmem
    rw [(List.mem_replicate.1 hmem).2, ht]
  | _, _, _, .elem h1 h2 hv, Γ, ρ, xs, nid, r, hfit, ho, hA, hl, hs => by
    simp only [lowerE, Option.bind_eq_bind, Option.bind_eq_some_iff, Option.some.injEq] at hl
    obtain ⟨a, ha, b, hb, rfl⟩ := hl
    simp only [List.mem_append, or_imp, forall_and, List.mem_singleton, forall_eq] at hs
    simp only [Expr.Ok] at ho
    obtain ⟨⟨len, w, g1, g2, g3⟩, h32, ho1, ho2⟩ := ho
    have e1 := ev_value hP h1 hfit ho1 hA ha hs.1.1
    have e2 := ev_value hP h2 hfit ho2 hA hb hs.1.2
    have t1 := variable_ty _ ho1 ha hs.1.1
    have t2 := variable_ty _ ho2 hb hs.1.2
    rw [g1] at e1 t1 h32
    rw [g2] at e2 t2
    exact elem_step g3 h32 t1 t2 e1 e2 hv hs.2
  | _, _, _, .range h1, Γ, ρ, xs, nid, r, hfit, ho, hA, hl, hs => by
    simp only [lowerE, Option.bind_eq_bind, Option.bind_eq_some_iff, Option.some.injEq] at hl
    obtain ⟨a, ha, m, hm, rfl⟩ := hl
    simp only [List.mem_append, or_imp, forall_and, List.mem_singleton, forall_eq] at hs
    simp only [Expr.Ok] at ho
    obtain ⟨⟨t, len, g1, g2, g3, g4⟩, h32, ho⟩ := ho
    rename_i env id ty e start stop vs
    have e1 := ev_value hP h1 hfit ho hA ha hs.1
    have t1 := variable_ty _ ho ha hs.1
    rw [g1] at e1 t1 h32
    have hlen : vs.length = len := by
      generalize ρ (fwd e.variable) = bits at e1
      cases e1 with
      | array h => simpa using (encAll_lens' h).1
    have hm' : m = stop.getD len := by
      cases stop with
      | some s => simpa [rangeStop] using hm.symm
      | none => simp only [rangeStop, g1, arrayLen, Option.some.injEq] at hm; exact hm.symm
    rw [hlen]
    subst hm'
    have h2 := hs.2
    simp only [Expr.ty, Expr.variable]
    rw [g4] at h2 ⊢
    exact range_step g2 g3 h32 t1 e1 h2
  | _, _, _, .block h1 h2, Γ, ρ, xs, nid, r, hfit, ho, hA, hl, hs => by
    simp only [lowerE, Option.bind_eq_bind, Option.bind_eq_some_iff, Option.some.injEq] at hl
    obtain ⟨a, ha, b, hb, rfl⟩ := hl
    simp only [List.mem_append, or_imp, forall_and] at hs
    simp only [Expr.Ok] at ho
    exact ev_value hP h2 hfit ho.2 (stms_value hP h1 hfit ho.1 hA ha hs.1) hb hs.2
  | _, _, _, .unitBlock h1, Γ, ρ, xs, nid, r, hfit, ho, hA, hl, hs => by
    simp only [lowerE, Option.bind_eq_bind, Option.bind_eq_some_iff, Option.some.injEq] at hl
    obtain ⟨a, ha, rfl⟩ := hl
    simp only [List.mem_append, or_imp, forall_and, List.mem_singleton, forall_eq] at hs
    rename_i env env' id ss
    have hty : Γ id = .tuple [] := by
      have := hs.2
      cases this with
      | nop h => exact h
    have hl := hfit id
    simp only [Fits, hty, MTy.size, sizes] at hl
    simp only [Expr.ty, Expr.variable]
    rw [List.length_eq_zero_iff.1 hl]
    exact .tuple .nil
  | _, _, _, .iteTrue h1 h2, Γ, ρ, xs, nid, r, hfit, ho, hA, hl, hs => by
    simp only [lowerE, Option.bind_eq_bind, Option.bind_eq_some_iff, Option.some.injEq] at hl
    obtain ⟨a, ha, b, hb, d, hd, rfl⟩ := hl
    simp only [List.mem_append, or_imp, forall_and, List.mem_singleton, forall_eq] at hs
    simp only [Expr.Ok] at ho
    obtain ⟨g1, g2, g3, o1, o2, o3⟩ := ho
    rename_i env id ty c x y
    have e1 := ev_value hP h1 hfit o1 hA ha hs.1.1.1
    have e2 := ev_value hP h2 hfit o2 hA hb hs.1.1.2
    have t2 := variable_ty _ o2 hb hs.1.1.2
    have t3 := variable_ty _ o3 hd hs.1.2
    rw [g1] at e1
    have hc : ρ (fwd c.variable) = [true] := by
      generalize ρ (fwd c.variable) = bits at e1
      cases e1; rfl
    have := select_step hc (by rw [hfit, t2, g2]) (by rw [hfit, t3, g3]) hs.2
    simp only [if_true] at this
    simp only [Expr.ty, Expr.variable]
    rw [this, ← g2]
    exact e2
  | _, _, _, .iteFalse h1 h2, Γ, ρ, xs, nid, r, hfit, ho, hA, hl, hs => by
    simp only [lowerE, Option.bind_eq_bind, Option.bind_eq_some_iff, Option.some.injEq] at hl
    obtain ⟨a, ha, b, hb, d, hd, rfl⟩ := hl
    simp only [List.mem_append, or_imp, forall_and, List.mem_singleton, forall_eq] at hs
    simp only [Expr.Ok] at ho
    obtain ⟨g1, g2, g3, o1, o2, o3⟩ := ho
    rename_i env id ty c x y
    have e1 := ev_value hP h1 hfit o1 hA ha hs.1.1.1
    have e2 := ev_value hP h2 hfit o3 hA hd hs.1.2
    have t2 := variable_ty _ o2 hb hs.1.1.2
    have t3 := variable_ty _ o3 hd hs.1.2
    rw [g1] at e1
    have hc : ρ (fwd c.variable) = [false] := by
      generalize ρ (fwd c.variable) = bits at e1
      cases e1; rfl
    have := select_step hc (by rw [hfit, t2, g2]) (by rw [hfit, t3, g3]) hs.2
    simp only [Bool.false_eq_true, if_false] at this
    simp only [Expr.ty, Expr.variable]
    rw [this, ← g3]
    exact e2
  | _, _, _, .match h1 h2, Γ, ρ, xs, nid, r, hfit, ho, hA, hl, hs => by
    simp only [lowerE, Option.bind_eq_bind, Option.bind_eq_some_iff, Option.some.injEq] at hl
    obtain ⟨a, ha, b, hb, rfl⟩ := hl
    simp only [List.mem_append, or_imp, forall_and, List.mem_singleton, forall_eq] at hs
    simp only [Expr.Ok] at ho
    obtain ⟨o1, _, o2⟩ := ho
    have e1 := ev_value hP h1 hfit o1 hA ha hs.1.1
    have t1 := variable_ty _ o1 ha hs.1.1
    obtain ⟨prs, bs, k, p, k1, k2, k3, k4, k5, k6⟩ :=
      arms_value hP h2 hfit t1 e1 o2 hA hb hs.1.2
    have hh := item_defined hs.2 id
    rw [k1] at hh
    simp only [Expr.ty, Expr.variable]
    rw [holds_match hh k2 k3 k4 k5 (enc_length k6)]
    exact k6
  | _, _, _, .variant h1, Γ, ρ, xs, nid, r, hfit, ho, hA, hl, hs => by
    simp only [lowerE, lowerCall, Option.bind_eq_bind, Option.bind_eq_some_iff,
      Option.some.injEq] at hl
    obtain ⟨a, ha, i, rfl, rfl⟩ := hl
    simp only [List.mem_append, or_imp, forall_and, List.mem_singleton, forall_eq] at hs
    simp only [Expr.Ok] at ho
    obtain ⟨⟨opts, g1, g2⟩, ho⟩ := ho
    have ht := holdVals_types (variables_ty _ ho ha hs.1)
    exact (C05_construct Γ ρ xs _ _ _ _ (evs_value hP h1 hfit ho hA ha hs.1)).2.2 opts _ g1
      (by rw [ht]; exact g2) (item_defined hs.2 id)
  | _, _, _, .struct h1, Γ, ρ, xs, nid, r, hfit, ho, hA, hl, hs => by
    simp only [lowerE, lowerCall, Option.bind_eq_bind, Option.bind_eq_some_iff,
      Option.some.injEq] at hl
    obtain ⟨a, ha, i, rfl, rfl⟩ := hl
    simp only [List.mem_append, or_imp, forall_and, List.mem_singleton, forall_eq] at hs
    simp only [Expr.Ok] at ho
    have ht := holdVals_types (variables_ty _ ho.2 ha hs.1)
    exact (C05_construct Γ ρ xs _ _ _ _ (evs_value hP h1 hfit ho.2 hA ha hs.1)).1
      (.inr (by rw [ht]; exact ho.1)) (item_defined hs.2 id)
  | _, _, _, .intr h1 hv, Γ, ρ, xs, nid, r, hfit, ho, hA, hl, hs => by
    simp only [lowerE, lowerCall, Option.bind_eq_bind, Option.bind_eq_some_iff,
      Option.some.injEq, Option.map_eq_some_iff] at hl
    obtain ⟨a, ha, i, ⟨op, hop, rfl⟩, rfl⟩ := hl
    simp only [List.mem_append, or_imp, forall_and, List.mem_singleton, forall_eq] at hs
    simp only [Expr.Ok] at ho
    have ht := holdVals_types (variables_ty _ ho.2 ha hs.1)
    exact intr_step ho.1 hop ht (evs_value hP h1 hfit ho.2 hA ha hs.1) hv hs.2
  | _, _, _, .unit hf h1 h2, Γ, ρ, xs, nid, r, hfit, ho, hA, hl, hs => by
    simp only [lowerE, lowerCall, Option.bind_eq_bind, Option.bind_eq_some_iff,
      Option.some.injEq] at hl
    obtain ⟨a, ha, i, rfl, rfl⟩ := hl
    simp only [List.mem_append, or_imp, forall_and, List.mem_singleton, forall_eq] at hs
    simp only [Expr.Ok] at ho
    obtain ⟨hsig, ho⟩ := ho
    have ht := holdVals_types (variables_ty _ ho ha hs.1)
    have hvs := holdVals_enc _ _ (evs_value hP h1 hfit ho hA ha hs.1)
    simp only [Prog.sig, hf, Option.map_some, Option.some.injEq, Prod.mk.injEq] at hsig
    rw [ht, ← hsig.1] at hvs
    obtain ⟨hinst⟩ := hs.2
    rename_i hprod
    cases hprod with
    | mk k1 k2 k3 k4 k5 =>
    rename_i h ρ' xs'
    simp only [lowerProg, hf, Option.bind_some, lowerFn, Option.bind_eq_bind,
      Option.bind_eq_some_iff, Option.some.injEq] at k1
    obtain ⟨rb, hrb, rfl⟩ := k1
    have hok := hP _ _ hf
    have := ev_value hP h2 k2 hok.2 (agree_call hok.1 hvs k3) hrb k4
    simp only [Expr.ty, Expr.variable]
    rw [k5, ← hsig.2]
    exact this
theorem evs_value (hP : P.Ok) : ∀ {env : Vars} {es : List Expr} {vs : List Val}, Evs P env es vs →
    ∀ {Γ : Nat → MTy} {ρ : Env} {xs : Nat → Nat → Bool} {nid : Nat} {r : List Item × Nat},
    (∀ n, Fits Γ ρ n) → Exprs.Ok P.sig Γ es → Agree Γ ρ env → lowerEs es nid = some r →
    (∀ i ∈ r.1, ItemHolds (lowerProg P nids) Γ ρ xs i) → HoldVals Γ ρ (es.map Expr.variable) vs
  | _, _, _, .nil, Γ, ρ, xs, nid, r, hfit, ho, hA, hl, hs => trivial
  | _, _, _, .cons h1 h2, Γ, ρ, xs, nid, r, hfit, ho, hA, hl, hs => by
    simp only [lowerEs, Option.bind_eq_bind, Option.bind_eq_some_iff, Option.some.injEq] at hl
    obtain ⟨a, ha, b, hb, rfl⟩ := hl
    simp only [List.mem_append, or_imp, forall_and] at hs
    refine ⟨?_, evs_value hP h2 hfit ho.2 hA hb hs.2⟩
    rw [variable_ty _ ho.1 ha hs.1]
    exact ev_value hP h1 hfit ho.1 hA ha hs.1
theorem stms_value (hP : P.Ok) : ∀ {env env' : Vars} {ss : List Stm}, EvStms P env ss env' →
    ∀ {Γ : Nat → MTy} {ρ : Env} {xs : Nat → Nat → Bool} {nid : Nat} {r : List Item × Nat},
    (∀ n, Fits Γ ρ n) → Stms.Ok P.sig Γ ss → Agree Γ ρ env → lowerStms ss nid = some r →
    (∀ i ∈ r.1, ItemHolds (lowerProg P nids) Γ ρ xs i) → Agree Γ ρ env'
  | _, _, _, .nil, Γ, ρ, xs, nid, r, hfit, ho, hA, hl, hs => hA
  | _, _, _, .bind h1 hm h2, Γ, ρ, xs, nid, r, hfit, ho, hA, hl, hs => by
    simp only [lowerStms, Option.bind_eq_bind, Option.bind_eq_some_iff, Option.some.injEq] at hl
    obtain ⟨a, ha, l, hp, b, hb, rfl⟩ := hl
    simp only [List.mem_append, or_imp, forall_and, List.mem_map, forall_exists_index, and_imp,
      forall_apply_eq_imp_iff₂] at hs
    simp only [Stms.Ok] at ho
    obtain ⟨g1, g2, o1, o2⟩ := ho
    have e1 := ev_value hP h1 hfit o1 hA ha hs.1.1
    have t1 := variable_ty _ o1 ha hs.1.1
    rw [← g1] at e1 t1
    exact stms_value hP h2 hfit o2 (pat_binds t1 e1 g2 hp hs.1.2 hm hA) hb hs.2
  | _, _, _, .expr h2, Γ, ρ, xs, nid, r, hfit, ho, hA, hl, hs => by
    simp only [lowerStms, Option.bind_eq_bind, Option.bind_eq_some_iff, Option.some.injEq] at hl
    obtain ⟨a, ha, b, hb, rfl⟩ := hl
    simp only [List.mem_append, or_imp, forall_and] at hs
    simp only [Stms.Ok] at ho
    exact stms_value hP h2 hfit ho.2 hA hb hs.2
  | _, _, _, .assert h2, Γ, ρ, xs, nid, r, hfit, ho, hA, hl, hs => by
    simp only [lowerStms, Option.bind_eq_bind, Option.bind_eq_some_iff, Option.some.injEq] at hl
    obtain ⟨a, ha, b, hb, rfl⟩ := hl
    simp only [List.mem_append, or_imp, forall_and] at hs
    simp only [Stms.Ok] at ho
    exact stms_value hP h2 hfit ho.2.2 hA hb hs.2
  | _, _, _, .decl h2, Γ, ρ, xs, nid, r, hfit, ho, hA, hl, hs =>
    stms_value hP h2 hfit ho hA hl hs
theorem arms_value (hP : P.Ok) : ∀ {env : Vars} {arms : List Arm} {v w : Val},
    EvArms P env arms v w →
    ∀ {Γ : Nat → MTy} {ρ : Env} {xs : Nat → Nat → Bool} {nid operand : Nat} {t ty : MTy}
      {r : List Item × List Nat × Nat},
    (∀ n, Fits Γ ρ n) → Γ operand = t → Enc t v (ρ (fwd operand)) → Arms.Ok P.sig Γ t ty arms →
    Agree Γ ρ env → lowerArms operand arms nid = some r →
    (∀ i ∈ r.1, ItemHolds (lowerProg P nids) Γ ρ xs i) →
    ∃ (prs : List (Nat × Nat)) (bs : List Bool) (k : Nat) (p : Nat × Nat), r.2.1 = flat prs ∧
      Values ρ (prs.map (·.1)) bs ∧ prs[k]? = some p ∧ bs[k]? = some true ∧
      (∀ j < k, bs[j]? = some false) ∧ Enc ty w (ρ (fwd p.2))
  | _, _, _, _, .plain hm h1, Γ, ρ, xs, nid, operand, t, ty, r, hfit, hx, he, ho, hA, hl, hs => by
    simp only [Arms.Ok] at ho
    obtain ⟨c, m, rb, m', rr, b, h1', h2, h3, h4, h5, h6, h7, h8⟩ :=
      plain_arm (hx.trans ho.1.symm) (ho.1 ▸ he) ho.2.1 hl hs
    obtain ⟨prs, bs, h9, h10⟩ := arms_values hfit hx he _ m' rr ho.2.2.2.2 h4 h5
    have e1 := ev_value hP h1 hfit ho.2.2.2.1 (h8 hm _ hA) h2 h3
    rw [ho.2.2.1] at e1
    exact ⟨(c, _) :: prs, b :: bs, 0, _, by rw [h1', h9, flat], values_cons h6 h10, rfl,
      by simp [h7.2 hm], by simp, e1⟩
  | _, _, _, _, .guarded hm hg h1, Γ, ρ, xs, nid, operand, t, ty, r, hfit, hx, he, ho, hA, hl, hs => by
    simp only [Arms.Ok] at ho
    obtain ⟨c, m0, rg, m, rb, m', rr, b, gb, h1', g1, g2, g3, h2, h3, h4, h5, h6, h7, h8⟩ :=
      guarded_arm (hx.trans ho.1.symm) (ho.1 ▸ he) ho.2.1 hl hs (fun m rg h1 h2 => by
        rw [hfit, variable_ty _ ho.2.2.2.1 h1 h2, ho.2.2.1]; rfl)
    obtain ⟨prs, bs, h9, h10⟩ := arms_values hfit hx he _ m' rr ho.2.2.2.2.2.2 h4 h5
    have eg := ev_value hP hg hfit ho.2.2.2.1 (h8 hm _ hA) g1 g2
    have e1 := ev_value hP h1 hfit ho.2.2.2.2.2.1 (h8 hm _ hA) h2 h3
    rw [ho.2.2.2.2.1] at e1
    rw [ho.2.2.1, g3] at eg
    cases eg
    exact ⟨(c, _) :: prs, _ :: bs, 0, _, by rw [h1', h9, flat], values_cons h6 h10, rfl,
      by simp [h7.2 hm], by simp, e1⟩
  | _, _, _, _, @EvArms.next _ _ (.plain p e) _ _ _ hm h1, Γ, ρ, xs, nid, operand, t, ty, r, hfit, hx, he,
      ho, hA, hl, hs => by
    simp only [Arms.Ok] at ho
    obtain ⟨c, m, rb, m', rr, b, h1', h2, h3, h4, h5, h6, h7, h8⟩ :=
      plain_arm (hx.trans ho.1.symm) (ho.1 ▸ he) ho.2.1 hl hs
    obtain ⟨prs, bs, k, q, k1, k2, k3, k4, k5, k6⟩ :=
      arms_value hP h1 hfit hx he ho.2.2.2.2 hA h4 h5
    refine ⟨(c, _) :: prs, b :: bs, k + 1, q, by rw [h1', k1, flat], values_cons h6 k2,
      by simpa using k3, by simpa using k4, ?_, k6⟩
    intro j hj
    cases j with
    | zero =>
      cases b with
      | false => rfl
      | true => exact absurd (h7.1 rfl) hm
    | succ j => simpa using k5 j (by omega)
  | _, _, _, _, @EvArms.next _ _ (.guarded p g e) _ _ _ hm h1, Γ, ρ, xs, nid, operand, t, ty, r, hfit, hx,
      he, ho, hA, hl, hs => by
    simp only [Arms.Ok] at ho
    obtain ⟨c, m0, rg, m, rb, m', rr, b, gb, h1', g1, g2, g3, h2, h3, h4, h5, h6, h7, h8⟩ :=
      guarded_arm (hx.trans ho.1.symm) (ho.1 ▸ he) ho.2.1 hl hs (fun m rg h1 h2 => by
        rw [hfit, variable_ty _ ho.2.2.2.1 h1 h2, ho.2.2.1]; rfl)
    obtain ⟨prs, bs, k, q, k1, k2, k3, k4, k5, k6⟩ :=
      arms_value hP h1 hfit hx he ho.2.2.2.2.2.2 hA h4 h5
    refine ⟨(c, _) :: prs, (b && gb) :: bs, k + 1, q, by rw [h1', k1, flat], values_cons h6 k2,
      by simpa using k3, by simpa using k4, ?_, k6⟩
    intro j hj
    cases j with
    | zero =>
      cases b with
      | false => rfl
      | true => exact absurd (h7.1 rfl) hm
    | succ j => simpa using k5 j (by omega)
  | _, _, _, _, .nextGuard hm hg h1, Γ, ρ, xs, nid, operand, t, ty, r, hfit, hx, he, ho, hA, hl, hs => by
    simp only [Arms.Ok] at ho
    obtain ⟨c, m0, rg, m, rb, m', rr, b, gb, h1', g1, g2, g3, h2, h3, h4, h5, h6, h7, h8⟩ :=
      guarded_arm (hx.trans ho.1.symm) (ho.1 ▸ he) ho.2.1 hl hs (fun m rg h1 h2 => by
        rw [hfit, variable_ty _ ho.2.2.2.1 h1 h2, ho.2.2.1]; rfl)
    obtain ⟨prs, bs, k, q, k1, k2, k3, k4, k5, k6⟩ :=
      arms_value hP h1 hfit hx he ho.2.2.2.2.2.2 hA h4 h5
    have eg := ev_value hP hg hfit ho.2.2.2.1 (h8 hm _ hA) g1 g2
    rw [ho.2.2.1, g3] at eg
    cases eg
    refine ⟨(c, _) :: prs, _ :: bs, k + 1, q, by rw [h1', k1, flat], values_cons h6 k2,
      by simpa using k3, by simpa using k4, ?_, k6⟩
    intro j hj
    cases j with
    | zero => simp
    | succ j => simpa using k5 j (by omega)
end

/-- C45, partial: if function `u` of a program that type inference accepts evaluates to `v` on the
arguments `vs`, then whatever the unit generated for it produces for inputs that encode `vs` is an
encoding of `v`.  The program may call functions, recursively through any number of units, and use
every modelled kind of expression.  Missing: the operators listed at `IntrTy` and `PatOk`, for which
the generated code is wrong. -/
theorem C45_function_value_partial (P : Prog) (nids : Nat → Nat) (u : Nat) (f : Fn)
    (vs : List Val) (v : Val) (ins : List Bits) (out : Bits) (hP : P.Ok) (hu : P u = some f)
    (hev : Ev P (callVars f.params vs) f.body v) (hins : EncAll (f.params.map (·.2)) vs ins)
    (hout : Produces (lowerProg P nids) u ins out) : Enc f.body.ty v out := by
  cases hout with
  | mk k1 k2 k3 k4 k5 =>
  rename_i h ρ' xs'
  simp only [lowerProg, hu, Option.bind_some, lowerFn, Option.bind_eq_bind,
    Option.bind_eq_some_iff, Option.some.injEq] at k1
  obtain ⟨rb, hrb, rfl⟩ := k1
  have hok := hP _ _ hu
  rw [k5]
  exact ev_value hP hev k2 hok.2 (agree_call hok.1 hins k3) hrb k4

/-! ## Types without padding -/

theorem exactAll {ts : List MTy} (h : ∀ t ∈ ts, Exact t) : ∀ {vs : List Val} {bs bs' : List Bits},
    EncAll ts vs bs → EncAll ts vs bs' → bs = bs' := by
  induction ts with
  | nil => intro vs bs bs' h1 h2; cases h1; cases h2; rfl
  | cons t ts ih =>
    intro vs bs bs' h1 h2
    cases h1 with
    | cons a as =>
    cases h2 with
    | cons b bs =>
    rw [h t (by simp) _ _ _ a b, ih (fun u hu => h u (by simp [hu])) as bs]

/-- Equality and `transmute` are covered for numbers, booleans, and tuples, structs and arrays of
covered types, and views of them. -/
theorem exact_types :
    (∀ n, Exact (.int n)) ∧ (∀ n, Exact (.uint n)) ∧ Exact .bool ∧
    (∀ ts, (∀ t ∈ ts, Exact t) → Exact (.tuple ts) ∧ Exact (.struct ts)) ∧
    (∀ t n, Exact t → Exact (.array t n)) ∧ (∀ t, Exact t → Exact (.copyView t)) ∧
    (∀ opts : List (List MTy), (∀ ts ∈ opts, (∀ t ∈ ts, Exact t) ∧ sizes ts = maxSize opts) →
      Exact (.enum opts)) := by
  refine ⟨?_, ?_, ?_, fun ts h => ⟨?_, ?_⟩, ?_, ?_, ?_⟩
  · intro n v b b' h1 h2; cases h1; cases h2; rfl
  · intro n v b b' h1 h2; cases h1; cases h2; rfl
  · intro v b b' h1 h2; cases h1; cases h2; rfl
  · intro v b b' h1 h2
    cases h1 with
    | tuple a =>
    cases h2 with
    | tuple c => rw [exactAll h a c]
  · intro v b b' h1 h2
    cases h1 with
    | struct a =>
    cases h2 with
    | struct c => rw [exactAll h a c]
  · intro t n h v b b' h1 h2
    cases h1 with
    | array a =>
    cases h2 with
    | array c => rw [exactAll (fun u hu => (List.mem_replicate.1 hu).2 ▸ h) a c]
  · intro t h v b b' h1 h2
    cases h1 with
    | copyView a =>
    cases h2 with
    | copyView c => exact h _ _ _ a c
  · intro opts h v b b' h1 h2
    cases h1 with
    | enum g1 g2 g3 =>
    cases h2 with
    | enum k1 k2 k3 =>
    rw [g1] at k1
    cases k1
    have := h _ (List.mem_of_getElem? g1)
    rw [exactAll this.1 g2 k2]
    rename_i pad _ pad'
    rw [List.length_eq_zero_iff.1 (show pad.length = 0 by omega),
      List.length_eq_zero_iff.1 (show pad'.length = 0 by omega)]

/-- `transmute` is covered for types without padding, whatever the result. -/
theorem Exact.readable {t ty : MTy} (h : Exact t) : Readable t ty := by
  intro v w b b' h1 h2 h3
  rwa [← h v b b' h1 h2]

end Spade.Expr

import Verif.Expr.Props
/-!
# The generated code of a statement reads its operands only
-/
namespace Spade.Expr
open Spade.Verilog Spade.Codegen Spade.Lower

mutual
/-- The variables in an expression. -/
def vars : VExpr → List Nat
  | .var x => [x]
  | .lit _ _ | .dec _ | .undef _ => []
  | .bit x i => x :: vars i
  | .part x _ _ => [x]
  | .plus x b _ => x :: vars b
  | .minus x _ _ => [x]
  | .concat es => varss es
  | .repl _ e => vars e
  | .signed e => vars e
  | .un _ e => vars e
  | .bin _ a b => vars a ++ vars b
  | .cond c a b => vars c ++ vars a ++ vars b
/-- All of them. -/
def varss : List VExpr → List Nat
  | [] => []
  | e :: es => vars e ++ varss es
end

section
variable {ρ ρ' : Env}

mutual
theorem width_congr : ∀ (e : VExpr), (∀ x ∈ vars e, ρ x = ρ' x) → e.width ρ = e.width ρ'
  | .var x, h => by simp only [VExpr.width]; rw [h x (by simp [vars])]
  | .lit _ _, h | .dec _, h | .undef _, h | .bit _ _, h | .part _ _ _, h | .plus _ _ _, h
  | .minus _ _ _, h => rfl
  | .concat es, h => by simp only [VExpr.width]; exact widths_congr es h
  | .repl _ e, h => by simp only [VExpr.width]; rw [width_congr e h]
  | .signed e, h => by simp only [VExpr.width]; rw [width_congr e h]
  | .un op e, h => by cases op <;> simp only [VExpr.width] <;> rw [width_congr e h]
  | .bin op a b, h => by
    simp only [vars, List.mem_append, or_imp, forall_and] at h
    cases op <;> simp only [VExpr.width, width_congr a h.1, width_congr b h.2]
  | .cond c a b, h => by
    simp only [vars, List.mem_append, or_imp, forall_and] at h
    simp only [VExpr.width]
    rw [width_congr a h.1.2, width_congr b h.2]
theorem widths_congr : ∀ (es : List VExpr), (∀ x ∈ varss es, ρ x = ρ' x) → widths ρ es = widths ρ' es
  | [], _ => rfl
  | e :: es, h => by
    simp only [varss, List.mem_append, or_imp, forall_and] at h
    simp only [widths]
    rw [width_congr e h.1, widths_congr es h.2]
end

mutual
theorem eval_congr (xs : Nat → Bool) : ∀ (e : VExpr) (w : Nat) (s : Bool),
    (∀ x ∈ vars e, ρ x = ρ' x) → e.eval ρ xs w s = e.eval ρ' xs w s
  | .var x, w, s, h => by simp only [VExpr.eval]; rw [h x (by simp [vars])]
  | .lit _ _, w, s, h | .dec _, w, s, h | .undef _, w, s, h => by simp only [VExpr.eval]
  | .bit x i, w, s, h => by
    simp only [vars, List.mem_cons, forall_eq_or_imp] at h
    simp only [VExpr.eval]
    rw [h.1, width_congr i h.2, eval_congr xs i _ _ h.2]
  | .part x _ _, w, s, h => by simp only [VExpr.eval]; rw [h x (by simp [vars])]
  | .plus x b _, w, s, h => by
    simp only [vars, List.mem_cons, forall_eq_or_imp] at h
    simp only [VExpr.eval]
    rw [h.1, width_congr b h.2, eval_congr xs b _ _ h.2]
  | .minus x _ _, w, s, h => by simp only [VExpr.eval]; rw [h x (by simp [vars])]
  | .concat es, w, s, h => by simp only [VExpr.eval]; rw [evals_congr xs es h]
  | .repl _ e, w, s, h => by
    simp only [VExpr.eval]; rw [width_congr e h, eval_congr xs e _ _ h]
  | .signed e, w, s, h => by
    simp only [VExpr.eval]; rw [width_congr e h, eval_congr xs e _ _ h]
  | .un op e, w, s, h => by
    cases op <;> simp only [VExpr.eval, width_congr e h, eval_congr xs e _ _ h]
  | .bin op a b, w, s, h => by
    simp only [vars, List.mem_append, or_imp, forall_and] at h
    cases op <;> simp only [VExpr.eval, width_congr a h.1, width_congr b h.2,
      eval_congr xs a _ _ h.1, eval_congr xs b _ _ h.2]
  | .cond c a b, w, s, h => by
    simp only [vars, List.mem_append, or_imp, forall_and] at h
    simp only [VExpr.eval]
    rw [width_congr c h.1.1, eval_congr xs c _ _ h.1.1, eval_congr xs a _ _ h.1.2,
      eval_congr xs b _ _ h.2]
theorem evals_congr (xs : Nat → Bool) : ∀ (es : List VExpr), (∀ x ∈ varss es, ρ x = ρ' x) →
    evals ρ xs es = evals ρ' xs es
  | [], _ => rfl
  | e :: es, h => by
    simp only [varss, List.mem_append, or_imp, forall_and] at h
    simp only [evals]
    rw [width_congr e h.1, eval_congr xs e _ _ h.1, evals_congr xs es h.2]
end

theorem assigned_congr {xs : Nat → Bool} {lw : Nat} {e : VExpr} (h : ∀ x ∈ vars e, ρ x = ρ' x) :
    assigned ρ xs lw e = assigned ρ' xs lw e := by
  simp only [assigned]
  rw [width_congr e h, eval_congr xs e _ _ h]

/-- The variables in the code of a binding. -/
def codeVars : VCode → List Nat
  | .assign e => vars e
  | .casez sel items => vars sel ++ items.flatMap fun it => vars it.2
  | .ifElse c a b => vars c ++ vars a ++ vars b

theorem varss_vars {α : Type} (f : α → Nat) : ∀ l : List α, varss (l.map fun a => .var (f a)) = l.map f
  | [] => rfl
  | a :: l => by simp [varss, vars, varss_vars f l]

theorem matchConds_sub : ∀ (ops : List Nat), ∀ c ∈ matchConds ops, c ∈ ops
  | [], c, h => by simp [matchConds] at h
  | [_], c, h => by simp [matchConds] at h
  | a :: b :: ops, c, h => by
    simp only [matchConds, List.mem_cons] at h ⊢
    rcases h with rfl | h
    · exact .inl rfl
    · exact .inr (.inr (matchConds_sub ops c h))

theorem matchItems_sub : ∀ (ops : List Nat) (n i : Nat), ∀ it ∈ matchItems n i ops,
    ∀ x ∈ vars it.2, ∃ o ∈ ops, x = fwd o
  | [], n, i, it, h, x, hx => by simp [matchItems] at h
  | [_], n, i, it, h, x, hx => by simp [matchItems] at h
  | a :: b :: ops, n, i, it, h, x, hx => by
    simp only [matchItems, List.mem_cons] at h
    rcases h with rfl | h
    · simp only [vars, List.mem_singleton] at hx
      exact ⟨b, by simp, hx⟩
    · obtain ⟨o, ho, h⟩ := matchItems_sub ops n (i + 1) it h x hx
      exact ⟨o, by simp [ho], h⟩

theorem binop_vars {op : BinOp} {ops : List Nat} {e : VExpr} (h : binop op ops = some e) :
    ∀ x ∈ vars e, ∃ o ∈ ops, x = fwd o := by
  match ops with
  | [a, b] =>
    simp only [binop, Option.some.injEq] at h
    subst h
    simp [vars]
  | [] | [_] | _ :: _ :: _ :: _ => simp [binop] at h

theorem signedBinop_vars {op : BinOp} {ops : List Nat} {e : VExpr}
    (h : signedBinop op ops = some e) : ∀ x ∈ vars e, ∃ o ∈ ops, x = fwd o := by
  match ops with
  | [a, b] =>
    simp only [signedBinop, Option.some.injEq] at h
    subst h
    simp [vars]
  | [] | [_] | _ :: _ :: _ :: _ => simp [signedBinop] at h

theorem unop_vars {op : UnOp} {ops : List Nat} {e : VExpr} (h : unop op ops = some e) :
    ∀ x ∈ vars e, ∃ o ∈ ops, x = fwd o := by
  match ops with
  | [a] =>
    simp only [unop, Option.some.injEq] at h
    subst h
    simp [vars]
  | [] | _ :: _ :: _ => simp [unop] at h

theorem onZero_vars {Γ : Nat → MTy} {ops : List Nat} {z : Nat} {e : Option VExpr} {e' : VExpr}
    (h : onZero Γ ops z e = some e') (he : ∀ e'', e = some e'' → ∀ x ∈ vars e'', ∃ o ∈ ops, x = fwd o) :
    ∀ x ∈ vars e', ∃ o ∈ ops, x = fwd o := by
  unfold onZero at h
  split at h
  · split at h
    · simp only [Option.map_eq_some_iff] at h
      obtain ⟨_, _, rfl⟩ := h
      simp [vars]
    · exact he _ h
  · exact he _ h

theorem fwdCode_vars {Γ : Nat → MTy} {ty : MTy} {op : Op} {ops : List Nat} {c : VCode}
    (h : fwdCode Γ ty op ops = some c) : ∀ x ∈ codeVars c, ∃ o ∈ ops, x = fwd o := by
  cases op <;> simp only [fwdCode] at h
  case divPow2 =>
    split at h
    · simp only [Option.some.injEq] at h
      subst h
      simp [codeVars, vars]
    · cases h
  case truncate =>
    split at h
    · split at h
      · cases h
      · simp only [Option.some.injEq] at h
        subst h
        simp [codeVars, vars]
    · cases h
  case concat =>
    simp only [Option.some.injEq] at h
    subst h
    simp only [codeVars, vars, varss_vars, List.mem_map, List.mem_filter]
    rintro x ⟨o, ⟨ho, _⟩, rfl⟩
    exact ⟨o, ho, rfl⟩
  case constructTuple =>
    simp only [Option.some.injEq] at h
    subst h
    simp only [codeVars, vars, varss_vars, List.mem_map, List.mem_filter]
    rintro x ⟨o, ⟨ho, _⟩, rfl⟩
    exact ⟨o, ho, rfl⟩
  case constructArray =>
    simp only [Option.some.injEq] at h
    subst h
    simp only [codeVars, vars, varss_vars, List.mem_map, List.mem_reverse]
    rintro x ⟨o, ho, rfl⟩
    exact ⟨o, ho, rfl⟩
  case signExtend =>
    split at h
    · split at h
      · split at h
        · cases h
        · split at h <;> simp only [Option.some.injEq] at h <;> subst h <;>
            simp [codeVars, vars, varss]
      · simp only [Option.some.injEq] at h
        subst h
        simp [codeVars, vars]
    · cases h
  case zeroExtend =>
    split at h
    · split at h <;> simp only [Option.some.injEq] at h <;> subst h <;>
        simp [codeVars, vars, varss]
    · cases h
  case «match» =>
    split at h
    · cases h
    · simp only [Option.some.injEq] at h
      subst h
      simp only [codeVars, vars, varss_vars, List.mem_append, List.mem_map, List.mem_flatMap,
        List.mem_singleton]
      rintro x (⟨o, ho, rfl⟩ | ⟨it, hit | rfl, hx⟩)
      · exact ⟨o, matchConds_sub _ _ ho, rfl⟩
      · exact matchItems_sub _ _ _ it hit x hx
      · simp [vars] at hx
  case select =>
    split at h
    · simp only [Option.some.injEq] at h
      subst h
      simp [codeVars, vars]
    · cases h
  case indexTuple =>
    split at h
    · simp only [Option.bind_eq_bind, Option.bind_eq_some_iff, Option.some.injEq] at h
      obtain ⟨ts, _, idx, _, e, he, rfl⟩ := h
      cases idx <;> simp only [TupleIndex.code, Option.some.injEq, reduceCtorEq] at he <;>
        subst he <;> simp [codeVars, vars]
    · cases h
  case indexArray =>
    split at h
    · split at h
      · split at h
        · split at h <;> simp only [Option.some.injEq] at h <;> subst h <;> simp [codeVars, vars]
        · simp only [Option.some.injEq] at h
          subst h
          simp [codeVars, vars]
      · cases h
    · cases h
  case rangeIndexArray =>
    split at h
    · split at h
      · split at h
        · cases h
        · split at h
          · simp only [Option.some.injEq] at h
            subst h
            simp [codeVars, vars]
          · split at h
            · simp only [Option.some.injEq] at h
              subst h
              simp [codeVars, vars]
            · split at h
              · cases h
              · simp only [Option.some.injEq] at h
                subst h
                simp [codeVars, vars]
      · cases h
    · cases h
  case rangeIndexBits =>
    split at h
    · split at h
      · cases h
      · split at h <;> simp only [Option.some.injEq] at h <;> subst h <;> simp [codeVars, vars]
    · cases h
  case constructEnum =>
    split at h
    · simp only [Option.bind_eq_bind, Option.bind_eq_some_iff] at h
      obtain ⟨ms, _, h⟩ := h
      split at h
      · cases h
      · simp only [Option.some.injEq] at h
        subst h
        simp only [codeVars, vars]
        have happ : ∀ a b : List VExpr, varss (a ++ b) = varss a ++ varss b := by
          intro a b
          induction a with
          | nil => rfl
          | cons e es ih => simp [varss, ih]
        have hz : ∀ (ms : List MTy) (ops : List Nat), ∀ x ∈ varss ((ms.zip ops).filterMap fun p =>
            if p.1.size ≠ 0 then some (VExpr.var (fwd p.2)) else none), ∃ o ∈ ops, x = fwd o := by
          intro ms
          induction ms with
          | nil => intro ops x hx; simp [varss] at hx
          | cons m ms ih =>
            intro ops x hx
            cases ops with
            | nil => simp [varss] at hx
            | cons o ops =>
              simp only [List.zip_cons_cons, List.filterMap_cons] at hx
              split at hx
              · obtain ⟨o', h1, h2⟩ := ih ops x hx
                exact ⟨o', by simp [h1], h2⟩
              · rename_i h
                split at h
                · cases h
                  simp only [varss, vars, List.singleton_append, List.mem_cons] at hx
                  rcases hx with rfl | hx
                  · exact ⟨o, by simp, rfl⟩
                  · obtain ⟨o', h1, h2⟩ := ih ops x hx
                    exact ⟨o', by simp [h1], h2⟩
                · cases h
        intro x hx
        rw [happ, happ, List.mem_append, List.mem_append] at hx
        rcases hx with (hx | hx) | hx
        · split at hx <;> simp [varss, vars] at hx
        · exact hz _ _ x hx
        · split at hx <;> simp [varss, vars] at hx
    · cases h
  case isEnumVariant =>
    split at h
    · split at h
      · simp only [Option.some.injEq] at h
        subst h
        simp [codeVars, vars]
      · split at h
        · repeat' split at h
          all_goals (simp only [Option.some.injEq] at h; subst h; simp [codeVars, vars])
        · cases h
    · cases h
  case enumMember =>
    split at h
    · split at h
      · simp only [Option.bind_eq_bind, Option.bind_eq_some_iff] at h
        obtain ⟨ms, _, mty, _, h⟩ := h
        repeat' split at h
        · cases h
        all_goals (simp only [Option.some.injEq] at h; subst h; simp [codeVars, vars])
      · cases h
    · cases h
  case constructCopyView =>
    split at h
    · simp only [Option.some.injEq] at h
      subst h
      simp [codeVars, vars]
    · cases h
  case alias =>
    split at h
    · simp only [Option.some.injEq] at h
      subst h
      simp [codeVars, vars]
    · cases h
  all_goals
    simp only [Option.map_eq_some_iff] at h
    obtain ⟨e, he, rfl⟩ := h
    first
      | exact binop_vars he
      | exact signedBinop_vars he
      | exact unop_vars he
      | exact onZero_vars he fun e'' h'' => binop_vars h''
      | exact onZero_vars he fun e'' h'' => signedBinop_vars h''

/-- The value of a binding depends on its operands only. -/
theorem runOp_congr {Γ : Nat → MTy} {ty : MTy} {op : Op} {ops : List Nat} {xs : Nat → Bool}
    (h : ∀ o ∈ ops, ρ (fwd o) = ρ' (fwd o)) : runOp Γ ty op ops ρ xs = runOp Γ ty op ops ρ' xs := by
  unfold runOp
  split
  · rfl
  · cases hc : fwdCode Γ ty op ops with
    | none => rfl
    | some c =>
      have hv : ∀ x ∈ codeVars c, ρ x = ρ' x := by
        intro x hx
        obtain ⟨o, ho, rfl⟩ := fwdCode_vars hc x hx
        exact h o ho
      cases c with
      | assign e => exact assigned_congr hv
      | casez sel items =>
        simp only [codeVars, List.mem_append, or_imp, forall_and, List.mem_flatMap,
          forall_exists_index, and_imp] at hv
        simp only [caseValue, VExpr.value]
        rw [width_congr sel hv.1, eval_congr xs sel _ _ hv.1]
        cases sel.eval ρ' xs (sel.width ρ') sel.isSigned with
        | none => rfl
        | some b =>
          simp only [Option.bind_eq_bind, Option.bind_some]
          cases hf : items.find? fun it => caseMatch it.1 b with
          | none => rfl
          | some it =>
            exact assigned_congr fun x hx => hv.2 x it (List.mem_of_find?_eq_some hf) hx
      | ifElse c a b =>
        simp only [codeVars, List.mem_append, or_imp, forall_and] at hv
        simp only [VExpr.value]
        rw [width_congr c hv.1.1, eval_congr xs c _ _ hv.1.1, assigned_congr hv.1.2,
          assigned_congr hv.2]

/-- A constant does not depend on any signal. -/
theorem constBits_congr {ty : MTy} {c : Const} {xs : Nat → Bool} :
    constBits ty c ρ xs = constBits ty c ρ' xs := by
  unfold constBits
  cases h : constExpr ty c with
  | none => rfl
  | some e =>
    have : vars e = [] := by
      unfold constExpr at h
      split at h
      · simp only [Option.map_eq_some_iff] at h
        obtain ⟨n, _, rfl⟩ := h
        repeat' split
        all_goals rfl
      · simp only [Option.some.injEq] at h
        subst h
        rfl
    simp only
    rw [assigned_congr (ρ := ρ) (ρ' := ρ') (by simp [this])]

end
end Spade.Expr

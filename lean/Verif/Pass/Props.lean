import Verif.Pass.Model
/-!
# Passes over typed units: theorems
-/
namespace Spade.Pass
open Spade.Codegen (MTy)

/-! ## Checks reach everything -/

/-- A pass that only checks expressions. -/
structure Checks (P : Pass) (ok : Exp → Bool) : Prop where
  expr : ∀ e, P.expr e = bif ok e then some e else none
  stm : ∀ s, P.stm s = some none

section
variable {P : Pass} {ok : Exp → Bool}

mutual
/-- Everything in the expression passes the check. -/
def allE (ok : Exp → Bool) : Exp → Bool
  | .leaf i => ok (.leaf i)
  | .one i k e => allE ok e && ok (.one i k e)
  | .many i k es => allEs ok es && ok (.many i k es)
  | .index i a b => allE ok a && allE ok b && ok (.index i a b)
  | .bin i op a b => allE ok a && allE ok b && ok (.bin i op a b)
  | .un i op a => allE ok a && ok (.un i op a)
  | .mtch i e arms => allE ok e && allArms ok arms && ok (.mtch i e arms)
  | .block i ss r => allStms ok ss && allOpt ok r && ok (.block i ss r)
  | .ite i c a b => allE ok c && allE ok a && allE ok b && ok (.ite i c a b)
  | .genIf i a b => allE ok a && allE ok b && ok (.genIf i a b)
def allOpt (ok : Exp → Bool) : Opt → Bool
  | .none => true
  | .some e => allE ok e
def allEs (ok : Exp → Bool) : List Exp → Bool
  | [] => true
  | e :: es => allE ok e && allEs ok es
def allArms (ok : Exp → Bool) : List Arm → Bool
  | [] => true
  | .mk _ g e :: as => allOpt ok g && allE ok e && allArms ok as
def allStms (ok : Exp → Bool) : List Stm → Bool
  | [] => true
  | s :: ss => allStm ok s && allStms ok ss
def allStm (ok : Exp → Bool) : Stm → Bool
  | .bind _ e => allE ok e
  | .expr e => allE ok e
  | .reg _ c t r i v => allOpt ok t && allOpt ok r && allOpt ok i && allE ok c && allE ok v
  | .stageIf c => allE ok c
  | .assert e => allE ok e
  | .set t v => allE ok t && allE ok v
  | .error | .decl | .stage | .stages _ | .label _ => true
end

mutual
theorem apply_all (h : Checks P ok) : ∀ e, apply P e = bif allE ok e then some e else none
  | .leaf i => by simp [apply, allE, h.expr]
  | .one i k e => by
    simp only [apply, allE, apply_all h e]; cases allE ok e <;> simp [h.expr]
  | .many i k es => by
    simp only [apply, allE, applys_all h es]; cases allEs ok es <;> simp [h.expr]
  | .index i a b => by
    simp only [apply, allE, apply_all h a, apply_all h b]
    cases allE ok a <;> cases allE ok b <;> simp [h.expr]
  | .bin i op a b => by
    simp only [apply, allE, apply_all h a, apply_all h b]
    cases allE ok a <;> cases allE ok b <;> simp [h.expr]
  | .un i op a => by
    simp only [apply, allE, apply_all h a]; cases allE ok a <;> simp [h.expr]
  | .mtch i e arms => by
    simp only [apply, allE, apply_all h e, applyArms_all h arms]
    cases allE ok e <;> cases allArms ok arms <;> simp [h.expr]
  | .block i ss r => by
    simp only [apply, allE, applyStms_all h ss, applyOpt_all h r]
    cases allStms ok ss <;> cases allOpt ok r <;> simp [h.expr]
  | .ite i c a b => by
    simp only [apply, allE, apply_all h a, apply_all h b, apply_all h c]
    cases allE ok c <;> cases allE ok a <;> cases allE ok b <;> simp [h.expr]
  | .genIf i a b => by
    simp only [apply, allE, apply_all h a, apply_all h b]
    cases allE ok a <;> cases allE ok b <;> simp [h.expr]
theorem applyOpt_all (h : Checks P ok) : ∀ e, applyOpt P e = bif allOpt ok e then some e else none
  | .none => by simp [applyOpt, allOpt]
  | .some e => by simp only [applyOpt, allOpt, apply_all h e]; cases allE ok e <;> simp
theorem applys_all (h : Checks P ok) : ∀ es, applys P es = bif allEs ok es then some es else none
  | [] => by simp [applys, allEs]
  | e :: es => by
    simp only [applys, allEs, apply_all h e, applys_all h es]
    cases allE ok e <;> cases allEs ok es <;> simp
theorem applyArms_all (h : Checks P ok) : ∀ as, applyArms P as = bif allArms ok as then some as else none
  | [] => by simp [applyArms, allArms]
  | .mk p g e :: as => by
    simp only [applyArms, allArms, applyOpt_all h g, apply_all h e, applyArms_all h as]
    cases allOpt ok g <;> cases allE ok e <;> cases allArms ok as <;> simp
theorem applyStms_all (h : Checks P ok) : ∀ ss, applyStms P ss = bif allStms ok ss then some ss else none
  | [] => by simp [applyStms, allStms]
  | s :: ss => by
    simp only [applyStms, allStms, h.stm, applyStm_all h s, applyStms_all h ss, Option.bind_some]
    cases allStm ok s <;> cases allStms ok ss <;> simp
theorem applyStm_all (h : Checks P ok) : ∀ s, applyStm P s = bif allStm ok s then some s else none
  | .bind p e => by simp only [applyStm, allStm, apply_all h e]; cases allE ok e <;> simp
  | .expr e => by simp only [applyStm, allStm, apply_all h e]; cases allE ok e <;> simp
  | .reg p c t r i v => by
    simp only [applyStm, allStm, applyOpt_all h t, applyOpt_all h r, applyOpt_all h i, apply_all h c,
      apply_all h v]
    cases allOpt ok t <;> cases allOpt ok r <;> cases allOpt ok i <;> cases allE ok c <;>
      cases allE ok v <;> simp
  | .stageIf c => by simp only [applyStm, allStm, apply_all h c]; cases allE ok c <;> simp
  | .assert e => by simp only [applyStm, allStm, apply_all h e]; cases allE ok e <;> simp
  | .set t v => by
    simp only [applyStm, allStm, apply_all h t, apply_all h v]; cases allE ok t <;> cases allE ok v <;> simp
  | .error => by simp [applyStm, allStm]
  | .decl => by simp [applyStm, allStm]
  | .stage => by simp [applyStm, allStm]
  | .stages c => by simp [applyStm, allStm]
  | .label x => by simp [applyStm, allStm]
end

theorem allEs_iff : ∀ es, allEs ok es = true ↔ ∀ e ∈ es, allE ok e = true
  | [] => by simp [allEs]
  | e :: es => by simp [allEs, allEs_iff es]

theorem allStms_iff : ∀ ss, allStms ok ss = true ↔ ∀ s ∈ ss, allStm ok s = true
  | [] => by simp [allStms]
  | s :: ss => by simp [allStms, allStms_iff ss]

theorem allArms_iff : ∀ as, allArms ok as = true ↔
    ∀ p g e, Arm.mk p g e ∈ as → allOpt ok g = true ∧ allE ok e = true
  | [] => by simp [allArms]
  | .mk p g e :: as => by
    simp only [allArms, Bool.and_eq_true, allArms_iff as, List.mem_cons, Arm.mk.injEq]
    constructor
    · rintro ⟨h1, h2⟩ p' g' e' (⟨rfl, rfl, rfl⟩ | h)
      · exact h1
      · exact h2 _ _ _ h
    · intro h
      exact ⟨h p g e (.inl ⟨rfl, rfl, rfl⟩), fun p' g' e' hm => h _ _ _ (.inr hm)⟩

theorem allStm_has {s : Stm} {e : Exp} (h : s.Has e) (ha : allStm ok s = true) : allE ok e = true := by
  cases h <;> simp_all [allStm, allOpt]

theorem allE_self : ∀ {e : Exp}, allE ok e = true → ok e = true
  | .leaf _, h | .one _ _ _, h | .many _ _ _, h | .index _ _ _, h | .bin _ _ _ _, h | .un _ _ _, h
  | .mtch _ _ _, h | .block _ _ _, h | .ite _ _ _ _, h | .genIf _ _ _, h => by
    simp [allE] at h; simp [h]

theorem allE_has {e x : Exp} (h : e.Has x) : allE ok e = true → ok x = true := by
  induction h with
  | self => exact allE_self
  | one _ ih | un _ ih => intro h; simp [allE] at h; exact ih h.1
  | many hm _ ih => intro h; simp [allE, allEs_iff] at h; exact ih (h.1 _ hm)
  | indexed _ ih | left _ ih | genTrue _ ih => intro h; simp [allE] at h; exact ih h.1.1
  | index _ ih | right _ ih | genFalse _ ih => intro h; simp [allE] at h; exact ih h.1.2
  | scrutinee _ ih => intro h; simp [allE] at h; exact ih h.1.1
  | guard hm _ ih =>
    intro h; simp only [allE, Bool.and_eq_true, allArms_iff] at h
    exact ih (h.1.2 _ _ _ hm).1
  | arm hm _ ih =>
    intro h; simp only [allE, Bool.and_eq_true, allArms_iff] at h
    exact ih (h.1.2 _ _ _ hm).2
  | stm hm hs _ ih =>
    intro h; simp only [allE, Bool.and_eq_true, allStms_iff] at h
    exact ih (allStm_has hs (h.1.1 _ hm))
  | result _ ih => intro h; simp [allE, allOpt] at h; exact ih h.1.2
  | cond _ ih => intro h; simp [allE] at h; exact ih h.1.1.1
  | onTrue _ ih => intro h; simp [allE] at h; exact ih h.1.1.2
  | onFalse _ ih => intro h; simp [allE] at h; exact ih h.1.2

mutual
theorem allE_of : ∀ (e : Exp), (∀ x, e.Has x → ok x = true) → allE ok e = true
  | .leaf _, h => by simp [allE, h _ .self]
  | .one _ _ e, h => by simp [allE, h _ .self, allE_of e fun x hx => h x (.one hx)]
  | .many _ _ es, h => by
    simp [allE, h _ .self, allEs_of es fun e he x hx => h x (.many he hx)]
  | .index _ a b, h => by
    simp [allE, h _ .self, allE_of a fun x hx => h x (.indexed hx), allE_of b fun x hx => h x (.index hx)]
  | .bin _ _ a b, h => by
    simp [allE, h _ .self, allE_of a fun x hx => h x (.left hx), allE_of b fun x hx => h x (.right hx)]
  | .un _ _ e, h => by simp [allE, h _ .self, allE_of e fun x hx => h x (.un hx)]
  | .mtch _ e as, h => by
    simp [allE, h _ .self, allE_of e fun x hx => h x (.scrutinee hx),
      allArms_of as (fun p g v hm x hx => h x (.guard hm hx)) fun p g v hm x hx => h x (.arm hm hx)]
  | .block _ ss r, h => by
    simp only [allE, h _ .self, Bool.and_true, Bool.and_eq_true]
    refine ⟨allStms_of ss fun s hs e he x hx => h x (.stm hs he hx), ?_⟩
    exact allOpt_of r fun e he x hx => by subst he; exact h x (.result hx)
  | .ite _ c a b, h => by
    simp [allE, h _ .self, allE_of a fun x hx => h x (.onTrue hx), allE_of b fun x hx => h x (.onFalse hx),
      allE_of c fun x hx => h x (.cond hx)]
  | .genIf _ a b, h => by
    simp [allE, h _ .self, allE_of a fun x hx => h x (.genTrue hx),
      allE_of b fun x hx => h x (.genFalse hx)]
theorem allOpt_of : ∀ (e : Opt), (∀ e', e = .some e' → ∀ x, e'.Has x → ok x = true) → allOpt ok e = true
  | .none, _ => by simp [allOpt]
  | .some e, h => by simp only [allOpt]; exact allE_of e (h e rfl)
theorem allEs_of : ∀ (es : List Exp), (∀ e ∈ es, ∀ x, e.Has x → ok x = true) → allEs ok es = true
  | [], _ => by simp [allEs]
  | e :: es, h => by
    simp only [allEs, Bool.and_eq_true]
    exact ⟨allE_of e (h e (by simp)), allEs_of es fun e' he => h e' (by simp [he])⟩
theorem allArms_of : ∀ (as : List Arm),
    (∀ p g v, Arm.mk p (.some g) v ∈ as → ∀ x, g.Has x → ok x = true) →
    (∀ p g v, Arm.mk p g v ∈ as → ∀ x, v.Has x → ok x = true) → allArms ok as = true
  | [], _, _ => by simp [allArms]
  | .mk p g e :: as, h1, h2 => by
    simp only [allArms, Bool.and_eq_true]
    exact ⟨⟨allOpt_of g fun g' hg => h1 p g' e (by simp [hg]), allE_of e (h2 p g e (by simp))⟩,
      allArms_of as (fun p' g' v' hm => h1 p' g' v' (by simp [hm]))
        fun p' g' v' hm => h2 p' g' v' (by simp [hm])⟩
theorem allStms_of : ∀ (ss : List Stm), (∀ s ∈ ss, ∀ e, s.Has e → ∀ x, e.Has x → ok x = true) →
    allStms ok ss = true
  | [], _ => by simp [allStms]
  | s :: ss, h => by
    simp only [allStms, Bool.and_eq_true]
    exact ⟨allStm_of s (h s (by simp)), allStms_of ss fun s' hs => h s' (by simp [hs])⟩
theorem allStm_of : ∀ (s : Stm), (∀ e, s.Has e → ∀ x, e.Has x → ok x = true) → allStm ok s = true
  | .bind _ e, h => by simp only [allStm]; exact allE_of e (h e .bind)
  | .expr e, h => by simp only [allStm]; exact allE_of e (h e .expr)
  | .reg p c t r i v, h => by
    simp only [allStm, Bool.and_eq_true]
    exact ⟨⟨⟨⟨allOpt_of t fun e he => h e (by subst he; exact .trigger),
      allOpt_of r fun e he => h e (by subst he; exact .reset)⟩,
      allOpt_of i fun e he => h e (by subst he; exact .initial)⟩, allE_of c (h c .clock)⟩,
      allE_of v (h v .value)⟩
  | .stageIf e, h => by simp only [allStm]; exact allE_of e (h e .stageIf)
  | .assert e, h => by simp only [allStm]; exact allE_of e (h e .assert)
  | .set t v, h => by
    simp only [allStm, Bool.and_eq_true]; exact ⟨allE_of t (h t .target), allE_of v (h v .setValue)⟩
  | .error, _ | .decl, _ | .stage, _ | .stages _, _ | .label _, _ => by simp [allStm]
end

theorem allE_iff {e : Exp} : allE ok e = true ↔ ∀ x, e.Has x → ok x = true :=
  ⟨fun h _ hx => allE_has hx h, allE_of e⟩

end

theorem applyUnit_check {P : Pass} {ok : Exp → Bool} (h : Checks P ok) (u u' : Unit) :
    applyUnit P u = some u' ↔ P.unit u = some () ∧ u' = u ∧ ∀ x, u.body.Has x → ok x = true := by
  rw [← allE_iff]
  simp only [applyUnit, apply_all h]
  cases P.unit u with
  | none => simp
  | some _ =>
    cases allE ok u.body with
    | false => simp
    | true => simp; constructor <;> rintro rfl <;> rfl

/-- C68, checks.  A pass that checks expressions sees every expression of the unit, wherever it is: the unit
is accepted if and only if the unit's head is and every expression is, and it is not changed. -/
theorem C68_checks_reach_everything (P : Pass) (ok : Exp → Bool)
    (he : ∀ e, P.expr e = if ok e then some e else none) (hs : ∀ s, P.stm s = some none) (u u' : Unit) :
    applyUnit P u = some u' ↔
      P.unit u = some () ∧ u' = u ∧ ∀ x, u.body.Has x → ok x = true :=
  applyUnit_check ⟨fun e => by rw [he]; cases ok e <;> rfl, hs⟩ u u'

/-! ## Empty operands -/

theorem full_iff {ty : Nat → Option MTy} {e : Exp} : full ty e = true ↔ Full ty e.id := by
  simp only [full, Full]
  cases ty e.id <;> simp

theorem sizeOk_iff {ty : Nat → Option MTy} (e : Exp) : sizeOk ty e = true ↔ Supported ty e := by
  cases e with
  | leaf | one | many | index | block | ite | genIf => simp [sizeOk, Supported]
  | bin => simp [sizeOk, Supported, full_iff]
  | un _ op => cases op <;> simp [sizeOk, Supported, full_iff]
  | mtch _ _ arms =>
    cases arms with
    | nil => simp [sizeOk, Supported]
    | cons a _ => cases a; simp [sizeOk, Supported, full_iff]

/-- C68, empty operands.  A unit is accepted if and only if, everywhere in it, the operands of arithmetic and
the values a `match` chooses from have at least one bit, and no `gen if` is left.  It is not changed. -/
theorem C68_zero_size (ty : Nat → Option MTy) (u u' : Unit) :
    applyUnit (zeroSize ty) u = some u' ↔ u' = u ∧ ∀ x, u.body.Has x → Supported ty x := by
  rw [C68_checks_reach_everything _ (sizeOk ty) (fun _ => rfl) (fun _ => rfl)]
  simp [zeroSize, sizeOk_iff]

/-! ## Repeated registers -/

section
variable {num : Nat → Option Int}

/-- The numbers as they are written out. -/
def countsOf (num : Nat → Option Int) (c : Nat) : Nat := (countOf num c).getD 0

/-- The count of the statement, if it has one, is a number. -/
def countOk (num : Nat → Option Int) : Stm → Bool
  | .stages c => (countOf num c).isSome
  | _ => true

/-- The counts of the block are numbers. -/
def countsOk (num : Nat → Option Int) : Exp → Bool
  | .block _ ss _ => ss.all (countOk num)
  | _ => true

mutual
theorem flat_all : ∀ e, apply (flattenRegs num) e =
    bif allE (countsOk num) e then some (e.unroll (countsOf num)) else none
  | .leaf i => by simp [apply, allE, flattenRegs, Exp.unroll, countsOk]
  | .one i k e => by
    simp only [apply, allE, flat_all e, Exp.unroll]; cases allE (countsOk num) e <;> simp [flattenRegs, countsOk]
  | .many i k es => by
    simp only [apply, allE, flats_all es, Exp.unroll]; cases allEs (countsOk num) es <;> simp [flattenRegs, countsOk]
  | .index i a b => by
    simp only [apply, allE, flat_all a, flat_all b, Exp.unroll]
    cases allE (countsOk num) a <;> cases allE (countsOk num) b <;> simp [flattenRegs, countsOk]
  | .bin i op a b => by
    simp only [apply, allE, flat_all a, flat_all b, Exp.unroll]
    cases allE (countsOk num) a <;> cases allE (countsOk num) b <;> simp [flattenRegs, countsOk]
  | .un i op a => by
    simp only [apply, allE, flat_all a, Exp.unroll]; cases allE (countsOk num) a <;> simp [flattenRegs, countsOk]
  | .mtch i e arms => by
    simp only [apply, allE, flat_all e, flatArms_all arms, Exp.unroll]
    cases allE (countsOk num) e <;> cases allArms (countsOk num) arms <;> simp [flattenRegs, countsOk]
  | .block i ss r => by
    simp only [apply, allE, flatStms_all ss, flatOpt_all r, Exp.unroll, countsOk]
    cases allStms (countsOk num) ss <;> cases ss.all (countOk num) <;> cases allOpt (countsOk num) r <;> simp [flattenRegs, countsOk]
  | .ite i c a b => by
    simp only [apply, allE, flat_all a, flat_all b, flat_all c, Exp.unroll]
    cases allE (countsOk num) c <;> cases allE (countsOk num) a <;> cases allE (countsOk num) b <;> simp [flattenRegs, countsOk]
  | .genIf i a b => by
    simp only [apply, allE, flat_all a, flat_all b, Exp.unroll]
    cases allE (countsOk num) a <;> cases allE (countsOk num) b <;> simp [flattenRegs, countsOk]
theorem flatOpt_all : ∀ e, applyOpt (flattenRegs num) e =
    bif allOpt (countsOk num) e then some (e.unroll (countsOf num)) else none
  | .none => by simp [applyOpt, allOpt, Opt.unroll]
  | .some e => by simp only [applyOpt, allOpt, flat_all e, Opt.unroll]; cases allE (countsOk num) e <;> simp [countsOk, countOk]
theorem flats_all : ∀ es, applys (flattenRegs num) es =
    bif allEs (countsOk num) es then some (unrolls (countsOf num) es) else none
  | [] => by simp [applys, allEs, unrolls]
  | e :: es => by
    simp only [applys, allEs, flat_all e, flats_all es, unrolls]
    cases allE (countsOk num) e <;> cases allEs (countsOk num) es <;> simp [countsOk, countOk]
theorem flatArms_all : ∀ as, applyArms (flattenRegs num) as =
    bif allArms (countsOk num) as then some (unrollArms (countsOf num) as) else none
  | [] => by simp [applyArms, allArms, unrollArms]
  | .mk p g e :: as => by
    simp only [applyArms, allArms, flatOpt_all g, flat_all e, flatArms_all as, unrollArms]
    cases allOpt (countsOk num) g <;> cases allE (countsOk num) e <;> cases allArms (countsOk num) as <;> simp [countsOk, countOk]
theorem flatStms_all : ∀ ss, applyStms (flattenRegs num) ss =
    bif (allStms (countsOk num) ss && ss.all (countOk num)) then some (unrollStms (countsOf num) ss) else none
  | [] => by simp [applyStms, allStms, unrollStms]
  | .stages c :: ss => by
    simp only [applyStms, allStms, allStm, List.all_cons, countOk, flatStms_all ss, unrollStms]
    simp only [flattenRegs, countsOf]
    cases countOf num c <;> cases allStms (countsOk num) ss <;> cases ss.all (countOk num) <;> simp [countsOk, countOk]
  | .bind p e :: ss => by
    simp only [applyStms, allStms, List.all_cons, countOk, flatStms_all ss, flatStm_all (.bind p e), unrollStms]
    simp only [flattenRegs, Option.bind_some]
    cases allStm (countsOk num) (.bind p e) <;> cases allStms (countsOk num) ss <;> cases ss.all (countOk num) <;> simp [countsOk, countOk]
  | .expr e :: ss => by
    simp only [applyStms, allStms, List.all_cons, countOk, flatStms_all ss, flatStm_all (.expr e), unrollStms]
    simp only [flattenRegs, Option.bind_some]
    cases allStm (countsOk num) (.expr e) <;> cases allStms (countsOk num) ss <;> cases ss.all (countOk num) <;> simp [countsOk, countOk]
  | .reg p c t r i v :: ss => by
    simp only [applyStms, allStms, List.all_cons, countOk, flatStms_all ss, flatStm_all (.reg p c t r i v), unrollStms]
    simp only [flattenRegs, Option.bind_some]
    cases allStm (countsOk num) (.reg p c t r i v) <;> cases allStms (countsOk num) ss <;> cases ss.all (countOk num) <;> simp [countsOk, countOk]
  | .stageIf c :: ss => by
    simp only [applyStms, allStms, List.all_cons, countOk, flatStms_all ss, flatStm_all (.stageIf c), unrollStms]
    simp only [flattenRegs, Option.bind_some]
    cases allStm (countsOk num) (.stageIf c) <;> cases allStms (countsOk num) ss <;> cases ss.all (countOk num) <;> simp [countsOk, countOk]
  | .assert e :: ss => by
    simp only [applyStms, allStms, List.all_cons, countOk, flatStms_all ss, flatStm_all (.assert e), unrollStms]
    simp only [flattenRegs, Option.bind_some]
    cases allStm (countsOk num) (.assert e) <;> cases allStms (countsOk num) ss <;> cases ss.all (countOk num) <;> simp [countsOk, countOk]
  | .set t v :: ss => by
    simp only [applyStms, allStms, List.all_cons, countOk, flatStms_all ss, flatStm_all (.set t v), unrollStms]
    simp only [flattenRegs, Option.bind_some]
    cases allStm (countsOk num) (.set t v) <;> cases allStms (countsOk num) ss <;> cases ss.all (countOk num) <;> simp [countsOk, countOk]
  | .error :: ss => by
    simp only [applyStms, allStms, allStm, List.all_cons, countOk, flatStms_all ss, unrollStms, applyStm, Stm.unroll]
    simp only [flattenRegs, Option.bind_some]
    cases allStms (countsOk num) ss <;> cases ss.all (countOk num) <;> simp [countsOk, countOk]
  | .decl :: ss => by
    simp only [applyStms, allStms, allStm, List.all_cons, countOk, flatStms_all ss, unrollStms, applyStm, Stm.unroll]
    simp only [flattenRegs, Option.bind_some]
    cases allStms (countsOk num) ss <;> cases ss.all (countOk num) <;> simp [countsOk, countOk]
  | .stage :: ss => by
    simp only [applyStms, allStms, allStm, List.all_cons, countOk, flatStms_all ss, unrollStms, applyStm, Stm.unroll]
    simp only [flattenRegs, Option.bind_some]
    cases allStms (countsOk num) ss <;> cases ss.all (countOk num) <;> simp [countsOk, countOk]
  | .label x :: ss => by
    simp only [applyStms, allStms, allStm, List.all_cons, countOk, flatStms_all ss, unrollStms, applyStm, Stm.unroll]
    simp only [flattenRegs, Option.bind_some]
    cases allStms (countsOk num) ss <;> cases ss.all (countOk num) <;> simp [countsOk, countOk]
theorem flatStm_all : ∀ s, applyStm (flattenRegs num) s =
    match s with
    | .stages c => some (.stages c)
    | s => bif allStm (countsOk num) s then some (s.unroll (countsOf num)) else none
  | .bind p e => by simp only [applyStm, allStm, flat_all e, Stm.unroll]; cases allE (countsOk num) e <;> simp [countsOk, countOk]
  | .expr e => by simp only [applyStm, allStm, flat_all e, Stm.unroll]; cases allE (countsOk num) e <;> simp [countsOk, countOk]
  | .reg p c t r i v => by
    simp only [applyStm, allStm, flatOpt_all t, flatOpt_all r, flatOpt_all i, flat_all c,
      flat_all v, Stm.unroll]
    cases allOpt (countsOk num) t <;> cases allOpt (countsOk num) r <;> cases allOpt (countsOk num) i <;> cases allE (countsOk num) c <;>
      cases allE (countsOk num) v <;> simp [countsOk, countOk]
  | .stageIf c => by simp only [applyStm, allStm, flat_all c, Stm.unroll]; cases allE (countsOk num) c <;> simp [countsOk, countOk]
  | .assert e => by simp only [applyStm, allStm, flat_all e, Stm.unroll]; cases allE (countsOk num) e <;> simp [countsOk, countOk]
  | .set t v => by
    simp only [applyStm, allStm, flat_all t, flat_all v, Stm.unroll]; cases allE (countsOk num) t <;> cases allE (countsOk num) v <;> simp [countsOk, countOk]
  | .error => by simp [applyStm, allStm, Stm.unroll]
  | .decl => by simp [applyStm, allStm, Stm.unroll]
  | .stage => by simp [applyStm, allStm, Stm.unroll]
  | .stages c => by simp [applyStm]
  | .label x => by simp [applyStm, allStm, Stm.unroll]
end

theorem countsOk_iff (e : Exp) :
    (∀ x, e.Has x → countsOk num x = true) ↔ ∀ c, CountsIn e c → ∃ z, num c = some z ∧ 0 ≤ z ∧ z < 2 ^ 64 := by
  constructor
  · rintro h c ⟨id, ss, r, hx, hs⟩
    have := h _ hx
    simp only [countsOk, List.all_eq_true] at this
    have := this _ hs
    simp only [countOk, countOf, Option.isSome_iff_exists, Option.bind_eq_some_iff] at this
    obtain ⟨n, z, h1, h2⟩ := this
    split at h2
    next hz => exact ⟨z, h1, hz⟩
    next => exact nomatch h2
  · intro h x hx
    cases x with
    | block id ss r =>
      simp only [countsOk, List.all_eq_true]
      intro s hs
      cases s with
      | stages c =>
        obtain ⟨z, h1, h2⟩ := h c ⟨id, ss, r, hx, hs⟩
        simp only [countOk, countOf, h1, Option.bind_some, if_pos h2, Option.isSome_some]
      | _ => rfl
    | _ => rfl
end

section
variable (n m : Nat → Nat)
mutual
theorem unroll_eq : ∀ (e : Exp), (∀ c, CountsIn e c → n c = m c) → e.unroll n = e.unroll m
  | .leaf _, _ => by simp [Exp.unroll]
  | .one _ _ e, h => by
    simp only [Exp.unroll]
    rw [unroll_eq e fun c ⟨i, ss, r, a, b⟩ => h c ⟨i, ss, r, .one a, b⟩]
  | .many _ _ es, h => by
    simp only [Exp.unroll]
    rw [unrolls_eq es fun e he c ⟨i, ss, r, a, b⟩ => h c ⟨i, ss, r, .many he a, b⟩]
  | .index _ x y, h => by
    simp only [Exp.unroll]
    rw [unroll_eq x fun c ⟨i, ss, r, a, b⟩ => h c ⟨i, ss, r, .indexed a, b⟩,
      unroll_eq y fun c ⟨i, ss, r, a, b⟩ => h c ⟨i, ss, r, .index a, b⟩]
  | .bin _ _ x y, h => by
    simp only [Exp.unroll]
    rw [unroll_eq x fun c ⟨i, ss, r, a, b⟩ => h c ⟨i, ss, r, .left a, b⟩,
      unroll_eq y fun c ⟨i, ss, r, a, b⟩ => h c ⟨i, ss, r, .right a, b⟩]
  | .un _ _ e, h => by
    simp only [Exp.unroll]
    rw [unroll_eq e fun c ⟨i, ss, r, a, b⟩ => h c ⟨i, ss, r, .un a, b⟩]
  | .mtch _ e as, h => by
    simp only [Exp.unroll]
    rw [unroll_eq e fun c ⟨i, ss, r, a, b⟩ => h c ⟨i, ss, r, .scrutinee a, b⟩,
      unrollArms_eq as (fun p g v hm c ⟨i, ss, r, a, b⟩ => h c ⟨i, ss, r, .guard hm a, b⟩)
        fun p g v hm c ⟨i, ss, r, a, b⟩ => h c ⟨i, ss, r, .arm hm a, b⟩]
  | .block i ss r, h => by
    simp only [Exp.unroll]
    rw [unrollStms_eq ss (fun c hc => h c ⟨i, ss, r, .self, hc⟩)
        fun s hs e he c ⟨i, ss, r, a, b⟩ => h c ⟨i, ss, r, .stm hs he a, b⟩,
      unrollOpt_eq r fun e he c ⟨i, ss, r, a, b⟩ => h c ⟨i, ss, r, by subst he; exact .result a, b⟩]
  | .ite _ x y z, h => by
    simp only [Exp.unroll]
    rw [unroll_eq x fun c ⟨i, ss, r, a, b⟩ => h c ⟨i, ss, r, .cond a, b⟩,
      unroll_eq y fun c ⟨i, ss, r, a, b⟩ => h c ⟨i, ss, r, .onTrue a, b⟩,
      unroll_eq z fun c ⟨i, ss, r, a, b⟩ => h c ⟨i, ss, r, .onFalse a, b⟩]
  | .genIf _ x y, h => by
    simp only [Exp.unroll]
    rw [unroll_eq x fun c ⟨i, ss, r, a, b⟩ => h c ⟨i, ss, r, .genTrue a, b⟩,
      unroll_eq y fun c ⟨i, ss, r, a, b⟩ => h c ⟨i, ss, r, .genFalse a, b⟩]
theorem unrollOpt_eq : ∀ (e : Opt), (∀ e', e = .some e' → ∀ c, CountsIn e' c → n c = m c) →
    e.unroll n = e.unroll m
  | .none, _ => by simp [Opt.unroll]
  | .some e, h => by simp only [Opt.unroll]; rw [unroll_eq e (h e rfl)]
theorem unrolls_eq : ∀ (es : List Exp), (∀ e ∈ es, ∀ c, CountsIn e c → n c = m c) →
    unrolls n es = unrolls m es
  | [], _ => by simp [unrolls]
  | e :: es, h => by
    simp only [unrolls]
    rw [unroll_eq e (h e (by simp)), unrolls_eq es fun e' he => h e' (by simp [he])]
theorem unrollArms_eq : ∀ (as : List Arm),
    (∀ p g v, Arm.mk p (.some g) v ∈ as → ∀ c, CountsIn g c → n c = m c) →
    (∀ p g v, Arm.mk p g v ∈ as → ∀ c, CountsIn v c → n c = m c) → unrollArms n as = unrollArms m as
  | [], _, _ => by simp [unrollArms]
  | .mk p g e :: as, h1, h2 => by
    simp only [unrollArms]
    rw [unrollOpt_eq g fun g' hg => h1 p g' e (by simp [hg]), unroll_eq e (h2 p g e (by simp)),
      unrollArms_eq as (fun p' g' v' hm => h1 p' g' v' (by simp [hm]))
        fun p' g' v' hm => h2 p' g' v' (by simp [hm])]
theorem unrollStms_eq : ∀ (ss : List Stm), (∀ c, Stm.stages c ∈ ss → n c = m c) →
    (∀ s ∈ ss, ∀ e, s.Has e → ∀ c, CountsIn e c → n c = m c) → unrollStms n ss = unrollStms m ss
  | [], _, _ => by simp [unrollStms]
  | s :: ss, h1, h2 => by
    have ih := unrollStms_eq ss (fun c hc => h1 c (by simp [hc])) fun s' hs => h2 s' (by simp [hs])
    have hs := unrollStm_eq s (h2 s (by simp))
    cases s with
    | stages c => simp only [unrollStms, ih, h1 c (by simp)]
    | _ => simp only [unrollStms, ih, hs]
theorem unrollStm_eq : ∀ (s : Stm), (∀ e, s.Has e → ∀ c, CountsIn e c → n c = m c) →
    s.unroll n = s.unroll m
  | .bind _ e, h => by simp only [Stm.unroll]; rw [unroll_eq e (h e .bind)]
  | .expr e, h => by simp only [Stm.unroll]; rw [unroll_eq e (h e .expr)]
  | .reg p c t r i v, h => by
    simp only [Stm.unroll]
    rw [unrollOpt_eq t fun e he => h e (by subst he; exact .trigger),
      unrollOpt_eq r fun e he => h e (by subst he; exact .reset),
      unrollOpt_eq i fun e he => h e (by subst he; exact .initial), unroll_eq c (h c .clock),
      unroll_eq v (h v .value)]
  | .stageIf e, h => by simp only [Stm.unroll]; rw [unroll_eq e (h e .stageIf)]
  | .assert e, h => by simp only [Stm.unroll]; rw [unroll_eq e (h e .assert)]
  | .set t v, h => by simp only [Stm.unroll]; rw [unroll_eq t (h t .target), unroll_eq v (h v .setValue)]
  | .error, _ | .decl, _ | .stage, _ | .stages _, _ | .label _, _ => by simp [Stm.unroll]
end
end

/-- C68, repeated registers.  A unit is accepted if and only if every count in it is a number that fits a
machine word, and then the only change to it is that `reg*N;` becomes `N` times `reg;`. -/
theorem C68_flatten (num : Nat → Option Int) (u u' : Unit) :
    applyUnit (flattenRegs num) u = some u' ↔
      (∀ c, CountsIn u.body c → ∃ z, num c = some z ∧ 0 ≤ z ∧ z < 2 ^ 64) ∧
      u' = ⟨u.inputs, u.body.unroll fun c => ((num c).getD 0).toNat⟩ := by
  rw [← countsOk_iff, ← allE_iff]
  simp only [applyUnit, flat_all]
  have hu : (flattenRegs num).unit u = some () := rfl
  rw [hu]
  cases h : allE (countsOk num) u.body with
  | false => simp
  | true =>
    have := allE_iff.1 h
    rw [countsOk_iff] at this
    have := unroll_eq (countsOf num) (fun c => ((num c).getD 0).toNat) u.body fun c hc => by
      obtain ⟨z, h1, h2⟩ := this c hc
      simp only [countsOf, countOf, h1, Option.bind_some, if_pos h2, Option.getD_some]
    rw [this]
    simp [eq_comm]

theorem staged_replicate (n : Nat → Nat) (ss : List Stm) : ∀ (m k : Nat),
    staged n k (List.replicate m .stage ++ ss) = staged n (k + m) ss
  | 0, k => by simp
  | m + 1, k => by
    simp only [List.replicate_succ, List.cons_append, staged, staged_replicate n ss m]
    congr 1; omega

theorem depth_replicate (n : Nat → Nat) (ss : List Stm) : ∀ (m k : Nat),
    depth n k (List.replicate m .stage ++ ss) = depth n (k + m) ss
  | 0, k => by simp
  | m + 1, k => by
    simp only [List.replicate_succ, List.cons_append, depth, depth_replicate n ss m]
    congr 1; omega

/-- C68, stages.  Writing repeated registers out keeps every statement, and what is inside of it, in its
stage, and the number of stages. -/
theorem C68_same_stages (n : Nat → Nat) : ∀ (k : Nat) (ss : List Stm),
    staged n k (unrollStms n ss) = (staged n k ss).map (fun x => (x.1, x.2.unroll n)) ∧
    depth n k (unrollStms n ss) = depth n k ss
  | k, [] => by simp [unrollStms, staged, depth]
  | k, .stages c :: ss => by
    simp [unrollStms, staged, depth, staged_replicate, depth_replicate, C68_same_stages n _ ss]
  | k, .stage :: ss | k, .stageIf _ :: ss | k, .error :: ss | k, .bind _ _ :: ss | k, .expr _ :: ss
  | k, .reg _ _ _ _ _ _ :: ss | k, .decl :: ss | k, .label _ :: ss | k, .assert _ :: ss
  | k, .set _ _ :: ss => by
    simp [unrollStms, staged, depth, Stm.unroll, C68_same_stages n _ ss]

/-! ## Bidirectional wires -/

theorem inout_iff {ty : Nat → Option MTy} {id : Nat} : inout ty id = true ↔ IsInout ty id := by
  simp only [inout, IsInout]
  split <;> simp_all

theorem inout_false {ty : Nat → Option MTy} {id : Nat} : inout ty id = false ↔ ¬ IsInout ty id := by
  rw [← inout_iff]; simp

/-- C68, `inout`.  A unit is accepted if and only if its result is no `inout`, its inputs of such types
are marked, and no `let` and no `reg` anywhere in it has a pattern of such a type.  It is not changed. -/
theorem C68_inout_exact (ty : Nat → Option MTy) (u u' : Unit) :
    applyUnit (inoutChecks ty) u = some u' ↔
      u' = u ∧ ¬ IsInout ty u.body.id ∧ (∀ i ∈ u.inputs, IsInout ty i.id → i.noMangle = true) ∧
      ∀ p, u.Binds p → ¬ IsInout ty p.id := by
  rw [C68_checks_reach_everything _ (inoutOk ty) (fun _ => rfl) (fun _ => rfl)]
  have h1 : (inoutChecks ty).unit u = some () ↔ ¬ IsInout ty u.body.id ∧
      ∀ i ∈ u.inputs, IsInout ty i.id → i.noMangle = true := by
    simp only [inoutChecks]
    split
    next h =>
      simp only [headOk, Bool.and_eq_true, Bool.not_eq_true', inout_false, List.all_eq_true, Bool.or_eq_true] at h
      simp only [true_iff]
      exact ⟨h.1, fun i hi ht => (h.2 i hi).resolve_right fun hn => hn ht⟩
    next h =>
      simp only [reduceCtorEq, false_iff]
      rintro ⟨a, b⟩
      refine h ?_
      simp only [headOk, Bool.and_eq_true, Bool.not_eq_true', inout_false, List.all_eq_true, Bool.or_eq_true]
      refine ⟨a, fun i hi => ?_⟩
      by_cases ht : IsInout ty i.id
      · exact .inl (b i hi ht)
      · exact .inr ht
  have h2 : (∀ x, u.body.Has x → inoutOk ty x = true) ↔ ∀ p, u.Binds p → ¬ IsInout ty p.id := by
    constructor
    · rintro h p (⟨e, id, ss, r, hx, hs⟩ | ⟨c, t, r', i, v, id, ss, r, hx, hs⟩)
      all_goals
        have := h _ hx
        simp only [inoutOk, List.all_eq_true] at this
        simpa [stmOk, inout_false] using this _ hs
    · intro h x hx
      cases x with
      | block id ss r =>
        simp only [inoutOk, List.all_eq_true]
        intro s hs
        cases s with
        | bind p e => simpa [stmOk, inout_false] using h p (.inl ⟨e, id, ss, r, hx, hs⟩)
        | reg p c t r' i v => simpa [stmOk, inout_false] using h p (.inr ⟨c, t, r', i, v, id, ss, r, hx, hs⟩)
        | _ => rfl
      | _ => rfl
  rw [h1, h2]
  exact ⟨fun h => ⟨h.2.1, h.1.1, h.1.2, h.2.2⟩, fun h => ⟨⟨h.2.1, h.2.2.1⟩, h.1, h.2.2.2⟩⟩

/-- C68, `inout`, the promise.  It is kept for units in which every pattern of `let`, `reg` and `match` is a name or has
no name in it.  Missing: names inside of other patterns, for which it does not hold
(`C68_counterexample_inout_in_tuple`), and names in the arms of `match`
(`C68_counterexample_inout_in_match`). -/
theorem C68_inout_partial (ty : Nat → Option MTy) (u u' : Unit)
    (h : applyUnit (inoutChecks ty) u = some u')
    (hp : ∀ p, u.Binds p → ∀ i x, p.Has i x → p = .name i x)
    (hm : ∀ id e arms p g v, u.body.Has (.mtch id e arms) → Arm.mk p g v ∈ arms → ∀ i x, ¬ p.Has i x) :
    InoutOk ty u := by
  obtain ⟨_, h1, h2, h3⟩ := (C68_inout_exact ty u u').1 h
  refine ⟨h1, h2, ?_⟩
  rintro i x (⟨p, hb, hx⟩ | ⟨id, e, arms, p, g, v, ha, hmem, hx⟩)
  · have := h3 p hb
    rw [hp p hb i x hx] at this
    exact this
  · exact absurd hx (hm _ _ _ _ _ _ ha hmem i x)

end Spade.Pass

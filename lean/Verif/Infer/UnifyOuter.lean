import Verif.Infer.UnifyProps
import Verif.Infer.Const

/-!
# Unification with constraints (C23)

Model of `unify`, `/repo/spade-typeinference/src/lib.rs:3344-3423`: after two types have been unified,
constraints between type-level values that have become solvable are solved, until nothing new is
learned.
-/

namespace Spade.Infer

open Spec (Kind Base GT Ty Val)

/-- What the constraints see of a type variable, `constraints.rs:186-204`. -/
def St.seen (S : St) (id : Nat) : VState :=
  match S.get id with
  | some (.known b _) => .ofVal b.val
  | _ => .unknown

/-- The known type of a type-level value: `KnownType::{Integer, Bool, String}`. Constraints are never
solved with anything else. -/
def baseOf : Val → Base
  | .int i => .int i
  | .bool b => .bool b
  | .str s => .str s
  | .type _ => .tuple

/-- The outcome of unification with constraints. -/
inductive OutC where
  | ok (S : St) (cs : List (Nat × CE))
  | err
  | stuck

/-- Models the inner `for` loop of `unify`, `lib.rs:3369-3417`, with the recursion depth of
`unify_inner` as a parameter. -/
def learnAll (impls : Base → Nat → Bool) (fuel : Nat) : St → List (Nat × Val) → Out
  | S, [] => .ok S 0
  | S, (v, w) :: rest =>
    match unifyInner impls fuel (S.add (.known (baseOf w) [])) S.fresh v with
    | .ok S' _ => learnAll impls fuel S' rest
    | .err e => .err e
    | .stuck => .stuck

/-- Models the `loop` of `unify`, `lib.rs:3355-3419`. -/
def solveLoop (impls : Base → Nat → Bool) (fuel : Nat) : Nat → St → List (Nat × CE) → OutC
  | 0, _, _ => .stuck
  | n + 1, S, cs =>
    match updateConstraints S.seen cs with
    | none => .stuck
    | some (rest, []) => .ok S rest
    | some (rest, new) =>
      match learnAll impls fuel S new with
      | .ok S' _ => solveLoop impls fuel n S' rest
      | .err _ => .err
      | .stuck => .stuck

/-- Models `unify`, `lib.rs:3344-3423`. -/
def unify (impls : Base → Nat → Bool) (fuel : Nat) (S : St) (cs : List (Nat × CE)) (a b : Nat) :
    OutC :=
  match unifyInner impls fuel S a b with
  | .ok S' _ => solveLoop impls fuel fuel S' cs
  | .err _ => .err
  | .stuck => .stuck

/-- What constraints see of a ground type. -/
def groundSeen (V : Nat → GT) (id : Nat) : VState := .ofVal (V id).head.val

/-- The variables of an expression are below `n`. -/
def CE.Below (n : Nat) : CE → Prop
  | .int _ | .bool _ | .str _ => True
  | .var v => v < n
  | .bin _ a b => a.Below n ∧ b.Below n
  | .sub a | .logicalNot a | .intBits a | .uintBits a => a.Below n

/-- The variables of all constraints are below `n`. -/
def AllBelow (n : Nat) (cs : List (Nat × CE)) : Prop := ∀ vc ∈ cs, vc.1 < n ∧ vc.2.Below n

theorem Below.mono {n m : Nat} (h : n ≤ m) : ∀ {c : CE}, c.Below n → c.Below m
  | .int _, _ | .bool _, _ | .str _, _ => trivial
  | .var v, hv => Nat.lt_of_lt_of_le hv h
  | .bin _ a b, ⟨h1, h2⟩ => ⟨Below.mono h h1, Below.mono h h2⟩
  | .sub a, h1 => Below.mono (c := a) h h1
  | .logicalNot a, h1 => Below.mono (c := a) h h1
  | .intBits a, h1 => Below.mono (c := a) h h1
  | .uintBits a, h1 => Below.mono (c := a) h h1

theorem AllBelow.mono {n m : Nat} (h : n ≤ m) {cs} (hb : AllBelow n cs) : AllBelow m cs :=
  fun vc hm => ⟨Nat.lt_of_lt_of_le (hb vc hm).1 h, Below.mono h (hb vc hm).2⟩

theorem evaluate_congr {n : Nat} {K K' : Nat → VState} (h : ∀ id < n, K id = K' id) :
    ∀ {c : CE}, c.Below n → evaluate K c = evaluate K' c
  | .int _, _ | .bool _, _ | .str _, _ => rfl
  | .var v, hv => by simp only [evaluate]; rw [h v hv]
  | .bin _ a b, ⟨h1, h2⟩ => by
    simp only [evaluate]; rw [evaluate_congr h h1, evaluate_congr h h2]
  | .sub a, h1 => by simp only [evaluate]; rw [evaluate_congr (c := a) h h1]
  | .logicalNot a, h1 => by simp only [evaluate]; rw [evaluate_congr (c := a) h h1]
  | .intBits a, h1 => by simp only [evaluate]; rw [evaluate_congr (c := a) h h1]
  | .uintBits a, h1 => by simp only [evaluate]; rw [evaluate_congr (c := a) h h1]

theorem satisfies_congr {n : Nat} {K K' : Nat → VState} (h : ∀ id < n, K id = K' id) {cs}
    (hb : AllBelow n cs) : Satisfies K cs ↔ Satisfies K' cs := by
  have key : ∀ vc ∈ cs, ((∃ w, K vc.1 = .ofVal w ∧ evalVal K vc.2 = some w) ↔
      ∃ w, K' vc.1 = .ofVal w ∧ evalVal K' vc.2 = some w) := by
    intro vc hm
    have e : evalVal K vc.2 = evalVal K' vc.2 := by
      unfold evalVal; rw [evaluate_congr h (hb vc hm).2]
    rw [h _ (hb vc hm).1, e]
  constructor
  · intro hs vc hm; exact (key vc hm).1 (hs vc hm)
  · intro hs vc hm; exact (key vc hm).2 (hs vc hm)

theorem update_below {K : Nat → VState} {n : Nat} : ∀ {cs rest : List (Nat × CE)}
    {known : List (Nat × Val)}, AllBelow n cs → updateConstraints K cs = some (rest, known) →
      AllBelow n rest ∧ (∀ vw ∈ known, vw.1 < n ∧ ∀ l, vw.2 ≠ .type l)
  | [], rest, known, _, hu => by
    simp only [updateConstraints, Option.some.injEq, Prod.mk.injEq] at hu
    obtain ⟨rfl, rfl⟩ := hu
    exact ⟨fun _ h => by simp at h, fun _ h => by simp at h⟩
  | (v, c) :: cs, rest, known, hb, hu => by
    simp only [updateConstraints] at hu
    cases he : evaluate K c with
    | none => simp [he] at hu
    | some c' =>
      cases hr : updateConstraints K cs with
      | none => simp [he, hr] at hu
      | some rk =>
        obtain ⟨rest', known'⟩ := rk
        simp only [he, hr] at hu
        have ih := update_below (n := n) (fun vc hm => hb vc (List.mem_cons_of_mem _ hm)) hr
        have hv := hb (v, c) (List.mem_cons_self ..)
        cases hs : solved c' with
        | some w =>
          simp only [hs, Option.some.injEq, Prod.mk.injEq] at hu
          obtain ⟨rfl, rfl⟩ := hu
          refine ⟨ih.1, fun vw hm => ?_⟩
          rcases List.mem_cons.1 hm with rfl | hm
          · refine ⟨hv.1, fun l hl => ?_⟩
            simp only at hl
            subst hl
            cases c' <;> simp [solved] at hs
          · exact ih.2 vw hm
        | none =>
          simp only [hs, Option.some.injEq, Prod.mk.injEq] at hu
          obtain ⟨rfl, rfl⟩ := hu
          refine ⟨fun vc hm => ?_, ih.2⟩
          rcases List.mem_cons.1 hm with rfl | hm
          · rcases evaluate_lit_or_self c c' he with h' | rfl
            · exact absurd hs h'
            · exact hv
          · exact ih.1 vc hm

theorem moreKnown_of_sol {impls S V} (hw : WF S) (hs : Sol impls S V) :
    MoreKnown S.seen (groundSeen V) := by
  intro v
  unfold St.seen
  cases hg : S.get v with
  | none => exact Or.inl rfl
  | some tv =>
    cases tv with
    | unknown k ts => exact Or.inl rfl
    | known b ps =>
      right
      have hl : v < S.vars.length := by
        by_cases h : v < S.vars.length
        · exact h
        · unfold St.get at hg
          rw [hw.out v (by omega)] at hg
          exact absurd (List.getElem?_eq_some_iff.1 hg).1 h
      unfold groundSeen
      rw [sol_get hw hs hl hg]
      rfl

theorem baseOf_val {w : Val} (h : ∀ l, w ≠ .type l) : (baseOf w).val = w := by
  cases w with
  | type l => exact absurd rfl (h l)
  | _ => rfl

theorem head_of_val {b : Base} {w : Val} (h : ∀ l, w ≠ .type l) :
    VState.ofVal b.val = .ofVal w ↔ b = baseOf w := by
  cases w with
  | type l => exact absurd rfl (h l)
  | _ => cases b <;> simp [VState.ofVal, Base.val, baseOf]

/-- Type-level values have no parameters. -/
def Proper (V : Nat → GT) : Prop :=
  ∀ id b args, V id = .node b args → (∀ l, b.val ≠ .type l) → args = []

theorem Proper.ran {V V' : Nat → GT} (h : Proper V) (hr : ∀ id, ∃ j, V' id = V j) : Proper V' := by
  intro id b args he
  obtain ⟨j, hj⟩ := hr id
  exact h j b args (hj ▸ he)

theorem groundSeen_eq {V : Nat → GT} (hp : Proper V) {v : Nat} {w : Val} (hw : ∀ l, w ≠ .type l) :
    groundSeen V v = .ofVal w ↔ V v = .node (baseOf w) [] := by
  unfold groundSeen
  rw [head_of_val hw]
  constructor
  · intro h
    cases hv : V v with
    | node b args =>
      rw [hv] at h
      simp only [GT.head] at h
      subst h
      rw [hp v _ _ hv (by rw [baseOf_val hw]; exact hw)]
  · intro h; rw [h]; rfl

theorem Step.trans {impls S S1 S2} {e1 e2 : (Nat → GT) → Prop} (h1 : Step impls S S1 e1)
    (h2 : Step impls S1 S2 e2)
    (hc : ∀ V V', Agree S.vars.length V V' → e2 V → e2 V') :
    Step impls S S2 (fun V => e1 V ∧ e2 V) where
  wf := h2.wf
  len := Nat.le_trans h1.len h2.len
  sound V hs := by
    obtain ⟨h3, h4⟩ := h2.sound V hs
    obtain ⟨h5, h6⟩ := h1.sound V h3
    exact ⟨h5, h6, h4⟩
  complete V hs he := by
    obtain ⟨V1, ha1, hs1, hr1⟩ := h1.complete V hs he.1
    obtain ⟨V2, ha2, hs2, hr2⟩ := h2.complete V1 hs1 (hc V V1 ha1 he.2)
    refine ⟨V2, fun id hid => (ha1 id hid).trans (ha2 id (Nat.lt_of_lt_of_le hid h1.len)), hs2,
      fun id => ?_⟩
    obtain ⟨j, hj⟩ := hr2 id
    obtain ⟨j', hj'⟩ := hr1 j
    exact ⟨j', hj.trans hj'⟩
  clash h := h2.clash (h1.clash h)
  refines := h1.refines.trans h1.len h2.refines
  acyclic h := h2.acyclic (h1.acyclic h)

theorem Step.imp {impls S S1} {e1 e2 : (Nat → GT) → Prop} (h : Step impls S S1 e1)
    (hi : ∀ V, e1 V ↔ e2 V) : Step impls S S1 e2 where
  wf := h.wf
  len := h.len
  sound V hs := ⟨(h.sound V hs).1, (hi V).1 (h.sound V hs).2⟩
  complete V hs he := h.complete V hs ((hi V).2 he)
  clash := h.clash
  refines := h.refines
  acyclic := h.acyclic

/-- Learning the value of one variable. -/
theorem learnOne_good {impls S} (fuel : Nat) (hw : WF S) {v : Nat} {w : Val}
    (hv : v < S.vars.length) (hwt : ∀ l, w ≠ .type l) :
    match unifyInner impls fuel (S.add (.known (baseOf w) [])) S.fresh v with
    | .ok S' _ => Step impls S S' (fun V => V v = .node (baseOf w) [])
    | .err _ => NoClash S → ∀ V, Sol impls S V → V v ≠ .node (baseOf w) []
    | .stuck => True := by
  have hgood : GoodTV S (.known (baseOf w) []) :=
    ⟨fun b ps he p hp => (by cases he; simp at hp), fun b ps he _ => (by cases he; rfl),
      fun _ _ he => (nomatch he)⟩
  have hw1 := add_wf hw hgood
  have hg := unifyInner_good impls fuel _ S.vars.length v hw1 (by rw [add_length]; omega)
    (by rw [add_length]; omega)
  have hsol : ∀ V, Sol impls (S.add (.known (baseOf w) [])) V ↔
      Sol impls S V ∧ V S.vars.length = .node (baseOf w) [] := by
    intro V
    rw [sol_iff_solX, solX_add hw _ (by simp), ← sol_iff_solX, rootOk_known (add_get_new S _)]
    rfl
  have hext : ∀ V, Sol impls S V → V v = .node (baseOf w) [] →
      Sol impls (S.add (.known (baseOf w) [])) (extend V S.vars.length (V v)) ∧
        extend V S.vars.length (V v) S.vars.length = extend V S.vars.length (V v) v := by
    intro V hs he
    have hag := extend_agree V S.vars.length (V v)
    have e3 : extend V S.vars.length (V v) S.vars.length = V v := by simp [extend]
    refine ⟨(hsol _).2 ⟨(sol_congr hw hag).1 hs, e3.trans he⟩, ?_⟩
    rw [e3]; exact hag v hv
  unfold St.fresh
  cases ho : unifyInner impls fuel (S.add (.known (baseOf w) [])) S.vars.length v with
  | stuck => trivial
  | err e =>
    rw [ho] at hg
    intro hc V hs he
    exact hg (noClash_add_known hc) _ (hext V hs he).1 (hext V hs he).2
  | ok S' r =>
    rw [ho] at hg
    have st := hg.1
    have hlen : S.vars.length ≤ S'.vars.length := by
      have := st.len; rw [add_length] at this; omega
    refine ⟨st.wf, hlen, ?_, ?_, fun hc => st.clash (noClash_add_known hc),
      (add_refines hw _).trans (by rw [add_length]; omega) st.refines, ?_⟩
    · intro V hs
      obtain ⟨h1, h2⟩ := st.sound V hs
      obtain ⟨h3, h4⟩ := (hsol V).1 h1
      exact ⟨h3, h2.symm.trans h4⟩
    · intro V hs he
      obtain ⟨h1, h2⟩ := hext V hs he
      obtain ⟨V', ha, hs', hr⟩ := st.complete _ h1 h2
      refine ⟨V', fun id hid => (extend_agree V _ _ id hid).trans
        (ha id (by rw [add_length]; omega)), hs', fun id => ?_⟩
      obtain ⟨j, hj⟩ := hr id
      obtain ⟨j', hj'⟩ := extend_ran V S.vars.length v j
      exact ⟨j', hj.trans hj'⟩
    · intro hac
      apply st.acyclic
      intro id hid
      rw [add_length] at hid
      by_cases hlt : id < S.vars.length
      · obtain ⟨t, h'⟩ := hac id hlt
        exact ⟨t, add_denotes hw _ hlt h'⟩
      · have he : id = S.vars.length := by omega
        subst he
        refine ⟨.app (baseOf w) [], .app (ps := []) ?_ .nil⟩
        rw [fresh_root hw, add_get_new]

theorem learnAll_good {impls} (fuel : Nat) : ∀ (new : List (Nat × Val)) (S : St), WF S →
    (∀ vw ∈ new, vw.1 < S.vars.length ∧ ∀ l, vw.2 ≠ .type l) →
    match learnAll impls fuel S new with
    | .ok S' _ => Step impls S S' (fun V => ∀ vw ∈ new, V vw.1 = .node (baseOf vw.2) [])
    | .err _ => NoClash S → ∀ V, Sol impls S V → ¬ ∀ vw ∈ new, V vw.1 = .node (baseOf vw.2) []
    | .stuck => True
  | [], S, hw, _ => Step.refl hw (fun _ _ _ h => (by simp at h))
  | (v, w) :: rest, S, hw, hn => by
    have hv := hn (v, w) (List.mem_cons_self ..)
    have h1 := learnOne_good (impls := impls) fuel hw hv.1 hv.2
    simp only [learnAll]
    cases ho : unifyInner impls fuel (S.add (.known (baseOf w) [])) S.fresh v with
    | stuck => trivial
    | err e =>
      rw [ho] at h1
      intro hc V hs he
      exact h1 hc V hs (he (v, w) (List.mem_cons_self ..))
    | ok S1 r =>
      rw [ho] at h1
      have hrest : ∀ vw ∈ rest, vw.1 < S.vars.length ∧ ∀ l, vw.2 ≠ .type l :=
        fun vw hm => hn vw (List.mem_cons_of_mem _ hm)
      have h2 := learnAll_good (impls := impls) fuel rest S1 h1.wf
        (fun vw hm => ⟨Nat.lt_of_lt_of_le (hrest vw hm).1 h1.len, (hrest vw hm).2⟩)
      have hcong : ∀ V V', Agree S.vars.length V V' →
          (∀ vw ∈ rest, V vw.1 = .node (baseOf vw.2) []) →
          ∀ vw ∈ rest, V' vw.1 = .node (baseOf vw.2) [] := by
        intro V V' ha h vw hm
        rw [← ha _ (hrest vw hm).1]; exact h vw hm
      simp only
      cases ho2 : learnAll impls fuel S1 rest with
      | stuck => trivial
      | err e =>
        rw [ho2] at h2
        intro hc V hs he
        have he1 := he (v, w) (List.mem_cons_self ..)
        obtain ⟨V', ha, hs', _⟩ := h1.complete V hs he1
        exact h2 (h1.clash hc) V' hs'
          (hcong V V' ha (fun vw hm => he vw (List.mem_cons_of_mem _ hm)))
      | ok S2 r2 =>
        rw [ho2] at h2
        refine (h1.trans h2 hcong).imp (fun V => ?_)
        simp

/-- An assignment satisfies the state and the constraints. -/
def SolC (impls : Base → Nat → Bool) (S : St) (cs : List (Nat × CE)) (V : Nat → GT) : Prop :=
  Sol impls S V ∧ Satisfies (groundSeen V) cs

theorem update_sol {impls S V} (hw : WF S) (hp : Proper V) {cs rest new}
    (hb : AllBelow S.vars.length cs)
    (hu : updateConstraints S.seen cs = some (rest, new)) (hs : Sol impls S V) :
    Satisfies (groundSeen V) cs ↔ Satisfies (groundSeen V) rest ∧
      ∀ vw ∈ new, V vw.1 = .node (baseOf vw.2) [] := by
  rw [C20_update_preserves_solutions (moreKnown_of_sol hw hs) cs rest new hu]
  have hk := (update_below hb hu).2
  have : ∀ vw ∈ new, (groundSeen V vw.1 = .ofVal vw.2 ↔ V vw.1 = .node (baseOf vw.2) []) :=
    fun vw hm => groundSeen_eq hp (hk vw hm).2
  constructor
  · rintro ⟨h1, h2⟩; exact ⟨h1, fun vw hm => (this vw hm).1 (h2 vw hm)⟩
  · rintro ⟨h1, h2⟩; exact ⟨h1, fun vw hm => (this vw hm).2 (h2 vw hm)⟩

/-- What is shown of the loop. -/
def GoodC (impls : Base → Nat → Bool) (S : St) (cs : List (Nat × CE)) : OutC → Prop
  | .ok S' cs' => WF S' ∧ AllBelow S'.vars.length cs' ∧ S.vars.length ≤ S'.vars.length ∧
      Refines S S' ∧ (Acyclic S → Acyclic S') ∧
      (∀ V, Proper V → SolC impls S' cs' V → SolC impls S cs V) ∧
      (∀ V, Proper V → SolC impls S cs V → ∃ V', Agree S.vars.length V V' ∧ Proper V' ∧
        SolC impls S' cs' V')
  | .err => NoClash S → ∀ V, Proper V → ¬ SolC impls S cs V
  | .stuck => True

theorem groundSeen_agree {n : Nat} {V V' : Nat → GT} (h : Agree n V V') :
    ∀ id < n, groundSeen V id = groundSeen V' id := by
  intro id hid
  unfold groundSeen
  rw [h id hid]

theorem solveLoop_good {impls} (fuel : Nat) : ∀ (n : Nat) (S : St) (cs : List (Nat × CE)), WF S →
    AllBelow S.vars.length cs → GoodC impls S cs (solveLoop impls fuel n S cs) := by
  intro n
  induction n with
  | zero => intros; trivial
  | succ n ih =>
    intro S cs hw hb
    unfold solveLoop
    cases hu : updateConstraints S.seen cs with
    | none => trivial
    | some rn =>
      obtain ⟨rest, new⟩ := rn
      have hbr := update_below hb hu
      cases new with
      | nil =>
        refine ⟨hw, hbr.1, Nat.le_refl _, Refines.rfl, id, ?_, ?_⟩
        · intro V hp hs
          exact ⟨hs.1, (update_sol hw hp hb hu hs.1).2 ⟨hs.2, by simp⟩⟩
        · intro V hp hs
          exact ⟨V, fun _ _ => rfl, hp, hs.1, ((update_sol hw hp hb hu hs.1).1 hs.2).1⟩
      | cons x xs =>
        have hl := learnAll_good (impls := impls) fuel (x :: xs) S hw hbr.2
        simp only
        cases ho : learnAll impls fuel S (x :: xs) with
        | stuck => trivial
        | err e =>
          rw [ho] at hl
          intro hc V hp hs
          exact hl hc V hs.1 ((update_sol hw hp hb hu hs.1).1 hs.2).2
        | ok S1 r =>
          rw [ho] at hl
          have hb1 : AllBelow S1.vars.length rest := hbr.1.mono hl.len
          have h2 := ih S1 rest hl.wf hb1
          have hcomp : ∀ V, Proper V → SolC impls S cs V →
              ∃ V', Agree S.vars.length V V' ∧ Proper V' ∧ SolC impls S1 rest V' := by
            intro V hp hs
            obtain ⟨h3, h4⟩ := (update_sol hw hp hb hu hs.1).1 hs.2
            obtain ⟨V', ha, hs', hr⟩ := hl.complete V hs.1 h4
            exact ⟨V', ha, hp.ran hr, hs',
              (satisfies_congr (groundSeen_agree ha) hbr.1).1 h3⟩
          simp only
          cases ho2 : solveLoop impls fuel n S1 rest with
          | stuck => trivial
          | err =>
            rw [ho2] at h2
            intro hc V hp hs
            obtain ⟨V', ha, hp', hs'⟩ := hcomp V hp hs
            exact h2 (hl.clash hc) V' hp' hs'
          | ok S2 cs2 =>
            rw [ho2] at h2
            obtain ⟨w2, b2, l2, r2, a2, s2, c2⟩ := h2
            refine ⟨w2, b2, Nat.le_trans hl.len l2, hl.refines.trans hl.len r2,
              fun h => a2 (hl.acyclic h), ?_, ?_⟩
            · intro V hp hs
              obtain ⟨h3, h4⟩ := s2 V hp hs
              obtain ⟨h5, h6⟩ := hl.sound V h3
              exact ⟨h5, (update_sol hw hp hb hu h5).2 ⟨h4, h6⟩⟩
            · intro V hp hs
              obtain ⟨V', ha, hp', hs'⟩ := hcomp V hp hs
              obtain ⟨V2, ha2, hp2, hs2⟩ := c2 V' hp' hs'
              exact ⟨V2, fun id hid => (ha id hid).trans (ha2 id (Nat.lt_of_lt_of_le hid hl.len)),
                hp2, hs2⟩

/-- C23 for `unify` as it is called, with the constraints between type-level values: when it
succeeds, the assignments of ground types to the existing variables that satisfy the new state and
the remaining constraints are exactly those that satisfied the old state and constraints and give
both variables the same type. -/
theorem C23_unify_with_constraints_partial (impls : Base → Nat → Bool) (fuel : Nat) (S S' : St)
    (cs cs' : List (Nat × CE)) (a b : Nat) (hw : WF S) (ha : a < S.vars.length)
    (hb : b < S.vars.length) (hcs : AllBelow S.vars.length cs)
    (h : unify impls fuel S cs a b = .ok S' cs') :
    (WF S' ∧ AllBelow S'.vars.length cs') ∧
    (Acyclic S → Acyclic S' ∧ ∃ t, Denotes S' a t ∧ Denotes S' b t) ∧
    ∀ V, Proper V → ((Sol impls S V ∧ Satisfies (groundSeen V) cs ∧ V a = V b) ↔
      ∃ V', (∀ id < S.vars.length, V id = V' id) ∧ Proper V' ∧ Sol impls S' V' ∧
        Satisfies (groundSeen V') cs') := by
  have hg := unifyInner_good impls fuel S a b hw ha hb
  unfold unify at h
  cases ho : unifyInner impls fuel S a b with
  | stuck => rw [ho] at h; simp at h
  | err e => rw [ho] at h; simp at h
  | ok S1 r =>
    rw [ho] at h hg
    obtain ⟨st, _, hden⟩ := hg
    simp only at h
    have hcs1 := hcs.mono st.len
    have hl := solveLoop_good (impls := impls) fuel fuel S1 cs st.wf hcs1
    rw [h] at hl
    obtain ⟨w2, b2, l2, r2, a2, s2, c2⟩ := hl
    refine ⟨⟨w2, b2⟩, fun hac => ⟨a2 (st.acyclic hac), ?_⟩, fun V hp => ⟨?_, ?_⟩⟩
    · obtain ⟨t, h1, h2⟩ := hden hac
      obtain ⟨σ, hσ⟩ := r2
      exact ⟨_, hσ a t (Nat.lt_of_lt_of_le ha st.len) h1, hσ b t (Nat.lt_of_lt_of_le hb st.len) h2⟩
    · rintro ⟨hs, hc, he⟩
      obtain ⟨V1, ha1, hs1, hr1⟩ := st.complete V hs he
      obtain ⟨V2, ha2, hp2, hs2⟩ := c2 V1 (hp.ran hr1)
        ⟨hs1, (satisfies_congr (groundSeen_agree ha1) hcs).1 hc⟩
      exact ⟨V2, fun id hid => (ha1 id hid).trans (ha2 id (Nat.lt_of_lt_of_le hid st.len)), hp2,
        hs2.1, hs2.2⟩
    · rintro ⟨V', hag, hp', hs', hc'⟩
      obtain ⟨h1, h2⟩ := s2 V' hp' ⟨hs', hc'⟩
      obtain ⟨h3, h4⟩ := st.sound V' h1
      exact ⟨(sol_congr hw hag).2 h3, (satisfies_congr (groundSeen_agree hag) hcs).2 h2,
        by rw [hag a ha, hag b hb]; exact h4⟩

/-- C23: when `unify` is rejected, the state and the constraints have no solution that makes the two
variables equal, as long as `#int` and `#uint` variables do not occur together. -/
theorem C23_unify_rejection_partial (impls : Base → Nat → Bool) (fuel : Nat) (S : St)
    (cs : List (Nat × CE)) (a b : Nat) (hw : WF S) (hc : NoClash S) (ha : a < S.vars.length)
    (hb : b < S.vars.length) (hcs : AllBelow S.vars.length cs)
    (h : unify impls fuel S cs a b = .err) :
    ¬ ∃ V, Proper V ∧ Sol impls S V ∧ Satisfies (groundSeen V) cs ∧ V a = V b := by
  rintro ⟨V, hp, hs, hcs', he⟩
  have hg := unifyInner_good impls fuel S a b hw ha hb
  unfold unify at h
  cases ho : unifyInner impls fuel S a b with
  | stuck => rw [ho] at h; simp at h
  | err e => rw [ho] at hg; exact hg hc V hs he
  | ok S1 r =>
    rw [ho] at h hg
    obtain ⟨st, _, _⟩ := hg
    simp only at h
    have hl := solveLoop_good (impls := impls) fuel fuel S1 cs st.wf (hcs.mono st.len)
    rw [h] at hl
    obtain ⟨V1, ha1, hs1, hr1⟩ := st.complete V hs he
    exact hl (st.clash hc) V1 (hp.ran hr1)
      ⟨hs1, (satisfies_congr (groundSeen_agree ha1) hcs).1 hcs'⟩

/-- Unknown sizes `?0` and `?1` with the constraint `?1 = ?0 + 1`, and the number 7: unifying `?0`
with 7 makes `?1` resolve to 8. -/
def exConstr : St := { vars := [.unknown .uint [], .unknown .uint [], .known (.int 7) []], res := id }

example : (match unify (fun _ _ => false) 9 exConstr [(1, .bin .sum (.var 0) (.int 1))] 0 2 with
    | .ok S cs => (S.get 1, cs.length)
    | _ => (none, 9)) = (some (.known (.int 8) []), 0) := by decide +kernel

example : WF exConstr ∧ AllBelow exConstr.vars.length [(1, .bin .sum (.var 0) (.int 1))] ∧
    Sol (fun _ _ => false) exConstr (fun id => .node (.int (7 + id % 2)) []) := by
  refine ⟨⟨?_, ?_, ?_, ?_, ?_, ?_⟩, ?_, ?_⟩
  · intro id h; exact h
  · intro id; rfl
  · intro id _; rfl
  · intro r b ps h p hp
    match r with
    | 0 | 1 => cases h
    | 2 => cases h; simp at hp
    | r + 3 => cases h
  · intro r b ps h _
    match r with
    | 0 | 1 => cases h
    | 2 => cases h; rfl
    | r + 3 => cases h
  · intro r k ts h _
    match r with
    | 0 | 1 => cases h; rfl
    | 2 => cases h
    | r + 3 => cases h
  · intro vc hm
    simp only [List.mem_cons, List.not_mem_nil, or_false] at hm
    subst hm
    exact ⟨by decide, (by show 0 < 3; decide), trivial⟩
  · intro id hid
    refine ⟨rfl, fun _ => ?_⟩
    match id, hid with
    | 0, _ => exact ⟨⟨7, by decide, rfl⟩, by simp⟩
    | 1, _ => exact ⟨⟨8, by decide, rfl⟩, by simp⟩
    | 2, _ => rfl

end Spade.Infer

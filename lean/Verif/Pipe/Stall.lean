import Verif.Pipe.Tokens
import Verif.Pipe.DelayProps

/-
C28 and C29: the enable, ready and valid signals that are generated for a pipeline with stall
conditions.
-/

namespace Spade.Pipe

section
variable {V : Type} (I : Interp V) (σ : Sig → Nat → V)

/-- The truth of an optional signal; a missing one is true. -/
def sigTrue (o : Option Sig) (c : Nat) : Bool :=
  match o with
  | some s => I.truth (σ s c)
  | none => true

/-- The signals of the conditions of a body. -/
def condSigs (body : List Stmt) : List (Option Sig) :=
  (conditions body).map (Option.map fun p => .expr p.1)

/-- The condition of stage `m` in cycle `c`: the value of the signal of the condition of the `m`-th
register statement, true if it has none. -/
def condAt (body : List Stmt) (m c : Nat) : Bool := sigTrue I σ ((condSigs body)[m]?.getD none) c

theorem condSigs_length (body : List Stmt) : (condSigs body).length = stageAfter body := by
  unfold condSigs
  rw [List.length_map]
  induction body with
  | nil => rfl
  | cons s ss ih => cases s <;> simp_all [conditions, stageAfter]

theorem advances_drop (body : List Stmt) (i c : Nat) :
    advances (condAt I σ body) (stageAfter body) i c =
      ((condSigs body).drop i).all (fun o => sigTrue I σ o c) := by
  rw [Bool.eq_iff_iff, advances_iff, List.all_eq_true]
  constructor
  · intro h o ho
    obtain ⟨m, hm, rfl⟩ := List.mem_iff_getElem.1 ho
    rw [List.length_drop, condSigs_length] at hm
    have := h (i + m) (by omega) (by omega)
    have hl : i + m < (condSigs body).length := by rw [condSigs_length]; omega
    rw [List.getElem_drop]
    simpa [condAt, List.getElem?_eq_getElem hl] using this
  · intro h m h1 h2
    have hl : m < (condSigs body).length := by rw [condSigs_length]; omega
    have : (condSigs body)[m] ∈ (condSigs body).drop i := by
      rw [List.mem_iff_getElem]
      refine ⟨m - i, by rw [List.length_drop]; omega, ?_⟩
      rw [List.getElem_drop]
      congr 1
      omega
    have := h _ this
    simpa [condAt, List.getElem?_eq_getElem hl] using this

/-! ### Enable signals -/

theorem reserveEnables_length : ∀ (body : List Stmt) (nid : Nat),
    (reserveEnables body nid).2.2.length = stageAfter body
  | [], _ => rfl
  | .marker c :: ss, nid => by
    simp only [reserveEnables, stageAfter]
    split <;> simp [reserveEnables_length ss nid]
  | .letS .. :: ss, nid => reserveEnables_length ss nid
  | .regS .. :: ss, nid => reserveEnables_length ss nid
  | .other :: ss, nid => reserveEnables_length ss nid

theorem reserveEnables_none : ∀ (body : List Stmt) (nid : Nat),
    (reserveEnables body nid).2.1 = false →
    (∀ o ∈ condSigs body, o = none) ∧ ∀ o ∈ (reserveEnables body nid).2.2, o = none
  | [], _, _ => ⟨fun o ho => (by cases ho), fun o ho => (by cases ho)⟩
  | .marker c :: ss, nid, h => by
    simp only [reserveEnables] at h ⊢
    split at h
    · exact (nomatch h)
    · next hne =>
      rw [if_neg hne]
      simp only [Bool.or_eq_true, not_or, Bool.not_eq_true, Option.isSome_eq_false_iff] at hne
      obtain ⟨h1, h2⟩ := reserveEnables_none ss nid hne.1
      have hc : c = none := by simpa using hne.2
      subst hc
      refine ⟨fun o ho => ?_, fun o ho => ?_⟩
      · rcases List.mem_cons.1 ho with rfl | ho
        · rfl
        · exact h1 o ho
      · rcases List.mem_cons.1 ho with rfl | ho
        · rfl
        · exact h2 o ho
  | .letS .. :: ss, nid, h => reserveEnables_none ss nid h
  | .regS .. :: ss, nid, h => reserveEnables_none ss nid h
  | .other :: ss, nid, h => reserveEnables_none ss nid h

/-- The meaning of the enable signals: the one of stage `i` is the conjunction of the conditions from
stage `i` on. -/
def EnablesOk (conds enables : List (Option Sig)) : Prop :=
  ∀ i, i < enables.length → ∀ c, sigTrue I σ (enables[i]?.getD none) c =
    (conds.drop i).all (fun o => sigTrue I σ o c)

theorem enables_ok : ∀ (body : List Stmt) (nid : Nat) {es cur},
    enableEqns ((condSigs body).zip (reserveEnables body nid).2.2) = some (es, cur) →
    (∀ q ∈ es, q.Holds I σ) →
    EnablesOk I σ (condSigs body) (reserveEnables body nid).2.2 ∧
    cur.isSome = (reserveEnables body nid).2.1 ∧
    ∀ c, sigTrue I σ cur c = (condSigs body).all (fun o => sigTrue I σ o c)
  | [], nid, es, cur, h, _ => by
    simp only [condSigs, conditions, List.map_nil, List.zip_nil_left, enableEqns,
      Option.some.injEq, Prod.mk.injEq] at h
    obtain ⟨rfl, rfl⟩ := h
    exact ⟨fun i hi => absurd hi (by simp [reserveEnables]), rfl, fun c => rfl⟩
  | .marker cond :: ss, nid, es, cur, h, hq => by
    have hcs : condSigs (.marker cond :: ss) =
        cond.map (fun p => Sig.expr p.1) :: condSigs ss := rfl
    simp only [reserveEnables] at h ⊢
    split at h
    · next hen =>
      rw [if_pos hen]
      rw [hcs] at h ⊢
      simp only [List.zip_cons_cons, enableEqns] at h
      split at h
      · exact (nomatch h)
      · next es' cur' h' =>
        have hsub : ∀ q ∈ es', q ∈ es := by
          revert h
          cases cond <;> cases cur' <;> simp only [Option.map_none, Option.map_some, Option.some.injEq,
            Prod.mk.injEq] <;> (rintro ⟨rfl, rfl⟩; intro q hq; simp [hq])
        obtain ⟨h1, h2, h3⟩ := enables_ok ss nid h' (fun q hq' => hq q (hsub q hq'))
        have hall : ∀ c, sigTrue I σ cur c = ((cond.map (fun p => Sig.expr p.1) :: condSigs ss).all
            (fun o => sigTrue I σ o c)) ∧ cur = some (.name (reserveEnables ss nid).1) := by
          intro c
          rw [List.all_cons, ← h3 c]
          cases cond with
          | none =>
            cases cur' with
            | none => simp [← h2] at hen
            | some prev =>
              simp only [Option.map_none, Option.some.injEq, Prod.mk.injEq] at h
              obtain ⟨rfl, rfl⟩ := h
              have := hq (.alias (.name (reserveEnables ss nid).1) prev) (by simp) c
              simp [sigTrue, this]
          | some p =>
            cases cur' with
            | none =>
              simp only [Option.map_some, Option.some.injEq, Prod.mk.injEq] at h
              obtain ⟨rfl, rfl⟩ := h
              have := hq (.alias (.name (reserveEnables ss nid).1) (.expr p.1)) (by simp) c
              simp [sigTrue, this]
            | some prev =>
              simp only [Option.map_some, Option.some.injEq, Prod.mk.injEq] at h
              obtain ⟨rfl, rfl⟩ := h
              have := hq (.and (.name (reserveEnables ss nid).1) (.expr p.1) prev) (by simp) c
              simp [sigTrue, this]
        refine ⟨?_, ?_, fun c => (hall c).1⟩
        · intro i hi c
          cases i with
          | zero =>
            simp only [List.getElem?_cons_zero, Option.getD_some, List.drop_zero]
            rw [← (hall c).1, (hall c).2]
          | succ i =>
            simp only [List.getElem?_cons_succ, List.drop_succ_cons]
            exact h1 i (by simpa using hi) c
        · rw [(hall 0).2]
          rfl
    · next hen =>
      rw [if_neg hen]
      rw [hcs] at h ⊢
      simp only [List.zip_cons_cons, enableEqns] at h
      simp only [Bool.or_eq_true, not_or, Bool.not_eq_true, Option.isSome_eq_false_iff] at hen
      have hc : cond = none := by simpa using hen.2
      subst hc
      split at h
      · exact (nomatch h)
      · next es' cur' h' =>
        have hsub : ∀ q ∈ es', q ∈ es := by
          revert h
          cases cur' <;> simp only [Option.map_none, Option.some.injEq, Prod.mk.injEq, reduceCtorEq,
            false_imp_iff]
          rintro ⟨rfl, rfl⟩
          exact fun _ h => h
        obtain ⟨h1, h2, h3⟩ := enables_ok ss nid h' (fun q hq' => hq q (hsub q hq'))
        have hcn : cur' = none := by
          rw [hen.1] at h2
          simpa using h2
        subst hcn
        simp only [Option.map_none, Option.some.injEq, Prod.mk.injEq] at h
        obtain ⟨rfl, rfl⟩ := h
        have hall : ∀ c, sigTrue I σ none c = ((Option.map (fun p : Nat × Expr => Sig.expr p.1) none ::
            condSigs ss).all (fun o => sigTrue I σ o c)) := by
          intro c
          rw [List.all_cons, ← h3 c]
          rfl
        refine ⟨?_, rfl, hall⟩
        intro i hi c
        cases i with
        | zero =>
          simp only [List.getElem?_cons_zero, Option.getD_some, List.drop_zero]
          exact hall c
        | succ i =>
          simp only [List.getElem?_cons_succ, List.drop_succ_cons]
          exact h1 i (by simpa using hi) c
  | .letS .. :: ss, nid, es, cur, h, hq => enables_ok ss nid h hq
  | .regS .. :: ss, nid, es, cur, h, hq => enables_ok ss nid h hq
  | .other :: ss, nid, es, cur, h, hq => enables_ok ss nid h hq

/-! ### Conditions -/

theorem handleAll_condSigs {enables} : ∀ (body : List Stmt) {st st'},
    handleAll enables body st = some st' → st'.conds = st.conds ++ condSigs body
  | [], st, st', h => by
    simp only [handleAll, Option.some.injEq] at h
    subst h
    simp [condSigs, conditions]
  | s :: ss, st, st', h => by
    unfold handleAll at h
    split at h
    · exact (nomatch h)
    · next st1 h1 =>
      have ih := handleAll_condSigs ss h
      unfold handleStatement at h1
      split at h1
      · split at h1
        · exact (nomatch h1)
        · simp only [Option.some.injEq] at h1
          subst h1
          exact ih
      · split at h1
        · exact (nomatch h1)
        · simp only [Option.some.injEq] at h1
          subst h1
          exact ih
      · simp only [Option.some.injEq] at h1
        subst h1
        exact ih
      · next cond =>
        split at h1
        · exact (nomatch h1)
        · next ces lc hce =>
          split at h1
          · exact (nomatch h1)
          · split at h1
            · exact (nomatch h1)
            · simp only [Option.some.injEq] at h1
              subst h1
              have hlc : lc = cond.map (fun p => Sig.expr p.1) := by
                unfold condEqns at hce
                split at hce
                · simp only [Option.some.injEq, Prod.mk.injEq] at hce
                  exact hce.2.symm
                · split at hce
                  · simp only [Option.some.injEq, Prod.mk.injEq] at hce
                    exact hce.2.symm
                  · exact (nomatch hce)
              rw [ih, hlc]
              simp [condSigs, conditions]

/-! ### Valid signals -/

/-- The truth of a `MaybeConst`. -/
def mcTrue (m : MaybeConst) (c : Nat) : Bool :=
  match m with
  | .val s => I.truth (σ s c)
  | .const b => b

theorem mcTrue_orConst (o : Option Sig) (c : Nat) : mcTrue I σ (orConstTrue o) c = sigTrue I σ o c := by
  cases o <;> rfl

theorem constexprAnd_ok (eid : Nat) (l r : MaybeConst)
    (h : ∀ q ∈ (constexprAnd eid l r).2.1, q.Holds I σ) (c : Nat) :
    mcTrue I σ (constexprAnd eid l r).2.2 c = (mcTrue I σ l c && mcTrue I σ r c) := by
  cases l with
  | val l =>
    cases r with
    | val r => exact h (.and (.expr eid) l r) (by simp [constexprAnd]) c
    | const b => cases b <;> simp [constexprAnd, mcTrue]
  | const a =>
    cases a <;> cases r with
    | val r => simp [constexprAnd, mcTrue]
    | const b => cases b <;> simp [constexprAnd, mcTrue]

theorem constexprInv_ok (eid : Nat) (m : MaybeConst)
    (h : ∀ q ∈ (constexprInv eid m).2.1, q.Holds I σ) (c : Nat) :
    mcTrue I σ (constexprInv eid m).2.2 c = !mcTrue I σ m c := by
  cases m with
  | val n => exact h (.not (.expr eid) n) (by simp [constexprInv]) c
  | const b => simp [constexprInv, mcTrue]

theorem toValueName_ok (eid : Nat) (m : MaybeConst)
    (h : ∀ q ∈ (toValueName eid m).2.1, q.Holds I σ) (c : Nat) :
    I.truth (σ (toValueName eid m).2.2 c) = mcTrue I σ m c := by
  cases m with
  | val n => rfl
  | const b =>
    have := h (.const (.expr eid) b) (by simp [toValueName]) c
    simp only [toValueName, mcTrue]
    rw [this, I.truth_bool]

theorem constexprSelect_ok (eid : Nat) (t f s : MaybeConst)
    (h : ∀ q ∈ (constexprSelect eid t f s).2.1, q.Holds I σ) (c : Nat) :
    mcTrue I σ (constexprSelect eid t f s).2.2 c =
      if mcTrue I σ s c then mcTrue I σ t c else mcTrue I σ f c := by
  cases s with
  | val s =>
    simp only [constexprSelect] at h ⊢
    have h1 := h (.select (.expr eid) s (toValueName (eid + 1) t).2.2
      (toValueName (toValueName (eid + 1) t).1 f).2.2) (by simp) c
    have h2 := toValueName_ok I σ (eid + 1) t (fun q hq => h q (by simp [hq])) c
    have h3 := toValueName_ok I σ (toValueName (eid + 1) t).1 f (fun q hq => h q (by simp [hq])) c
    show I.truth (σ (.expr eid) c) =
      if I.truth (σ s c) = true then mcTrue I σ t c else mcTrue I σ f c
    rw [← h2, ← h3, h1]
    cases I.truth (σ s c) <;> rfl
  | const b => cases b <;> simp [constexprSelect, mcTrue]

theorem validStep_ok (eid : Nat) (name : Sig) (prev lc select downstream : Option Sig)
    (h : ∀ q ∈ (validStep eid name prev lc select downstream).2.1, q.Holds I σ) (c : Nat) :
    mcTrue I σ (validStep eid name prev lc select downstream).2.2 c =
      ((if sigTrue I σ select c then sigTrue I σ prev c else I.truth (σ name c)) &&
        !(!sigTrue I σ lc c && sigTrue I σ downstream c)) := by
  unfold validStep at h ⊢
  simp only at h ⊢
  rw [constexprAnd_ok I σ _ _ _ (fun q hq => h q (by simp [hq])),
    constexprInv_ok I σ _ _ (fun q hq => h q (by simp [hq])),
    constexprAnd_ok I σ _ _ _ (fun q hq => h q (by simp [hq])),
    constexprInv_ok I σ _ _ (fun q hq => h q (by simp [hq])),
    constexprSelect_ok I σ _ _ _ _ (fun q hq => h q (by simp [hq])), mcTrue_orConst, mcTrue_orConst,
    mcTrue_orConst, mcTrue_orConst]
  rfl

/-- The constant case: the stage is always valid only if nothing can stall it and the stage before is
always valid. -/
theorem validStep_const {eid : Nat} {name : Sig} {prev lc select downstream : Option Sig}
    (h : (validStep eid name prev lc select downstream).2.2 = .const true) :
    select = none ∧ prev = none := by
  cases select with
  | some s =>
    exfalso
    simp only [validStep, constexprSelect, orConstTrue] at h
    cases lc <;> cases downstream <;> simp [constexprInv, constexprAnd, orConstTrue] at h
  | none =>
    refine ⟨rfl, ?_⟩
    cases prev with
    | none => rfl
    | some p =>
      exfalso
      simp only [validStep, constexprSelect, orConstTrue] at h
      cases lc <;> cases downstream <;> simp [constexprInv, constexprAnd, orConstTrue] at h

/-- The valid signals from some stage on, together with the valid signal `prev` of the stage before:
the next value of each is given by the valid signal before it and the ready signals. -/
theorem validEqns_ok : ∀ (conds ready : List (Option Sig)) (nid eid : Nat) (prev : Option Sig) {es vs},
    validEqns nid eid prev conds ready = some (es, vs) → (∀ q ∈ es, q.Holds I σ) →
    (∀ i c, i < conds.length → sigTrue I σ (ready[i]?.getD none) c =
      (sigTrue I σ (conds[i]?.getD none) c && sigTrue I σ (ready[i + 1]?.getD none) c)) →
    vs.length = conds.length ∧
    ∀ i c, i < conds.length →
      sigTrue I σ ((prev :: vs)[i + 1]?.getD none) (c + 1) =
        if sigTrue I σ (ready[i]?.getD none) c then sigTrue I σ ((prev :: vs)[i]?.getD none) c
        else if sigTrue I σ (ready[i + 1]?.getD none) c then false
        else sigTrue I σ ((prev :: vs)[i + 1]?.getD none) c
  | [], _, _, _, _, es, vs, h, _, _ => by
    simp only [validEqns, Option.some.injEq, Prod.mk.injEq] at h
    obtain ⟨rfl, rfl⟩ := h
    exact ⟨rfl, fun i c hi => absurd hi (by simp)⟩
  | lc :: conds, [], _, _, _, es, vs, h, _, _ => by
    simp only [validEqns] at h
    exact (nomatch h)
  | lc :: conds, select :: ready, nid, eid, prev, es, vs, h, hq, hr => by
    simp only [validEqns] at h
    have hr0 := hr 0
    simp only [List.length_cons, Nat.zero_lt_succ, forall_const, List.getElem?_cons_zero,
      Option.getD_some, List.getElem?_cons_succ] at hr0
    have hdown : ready.head?.getD none = ready[0]?.getD none := by rw [List.head?_eq_getElem?]
    have hr' : ∀ i c, i < conds.length → sigTrue I σ (ready[i]?.getD none) c =
        (sigTrue I σ (conds[i]?.getD none) c && sigTrue I σ (ready[i + 1]?.getD none) c) := by
      intro i c hi
      have := hr (i + 1) c (by simpa using hi)
      simpa using this
    split at h
    · next next hnext =>
      split at h
      · exact (nomatch h)
      · next es' vs' h' =>
        simp only [Option.some.injEq, Prod.mk.injEq] at h
        obtain ⟨rfl, rfl⟩ := h
        obtain ⟨h1, h2⟩ := validEqns_ok conds ready (nid + 1) _ (some (.name nid)) h'
          (fun q hq' => hq q (by simp [hq'])) hr'
        refine ⟨by simp [h1], fun i c hi => ?_⟩
        cases i with
        | zero =>
          have h3 := validStep_ok I σ eid (.name nid) prev lc select (ready.head?.getD none)
            (fun q hq' => hq q (by simp [hq'])) c
          rw [hnext] at h3
          have h4 := hq (.reg (.name nid) (.sig next)) (by simp) c
          simp only [List.getElem?_cons_succ, List.getElem?_cons_zero, Option.getD_some]
          show I.truth (σ (.name nid) (c + 1)) = _
          rw [h4]
          show I.truth (σ next c) = _
          have h5 : I.truth (σ next c) = mcTrue I σ (.val next) c := rfl
          rw [h5, h3, hdown, hr0 c]
          show _ = if _ then _ else if _ then _ else I.truth (σ (.name nid) c)
          cases sigTrue I σ lc c <;> cases sigTrue I σ (ready[0]?.getD none) c <;> simp
        | succ i =>
          have := h2 i c (by simpa using hi)
          simpa using this
    · next hnext =>
      split at h
      · exact (nomatch h)
      · next es' vs' h' =>
        simp only [Option.some.injEq, Prod.mk.injEq] at h
        obtain ⟨rfl, rfl⟩ := h
        obtain ⟨rfl, rfl⟩ := validStep_const hnext
        obtain ⟨h1, h2⟩ := validEqns_ok conds ready (nid + 1) _ none h'
          (fun q hq' => hq q (by simp [hq'])) hr'
        refine ⟨by simp [h1], fun i c hi => ?_⟩
        cases i with
        | zero =>
          have h0 := hr0 c
          simp only [List.getElem?_cons_succ, List.getElem?_cons_zero, Option.getD_some]
          simp [sigTrue]
        | succ i =>
          have := h2 i c (by simpa using hi)
          simpa using this
    · exact (nomatch h)

end

end Spade.Pipe

import Verif.Pipe.Table

/-
C30: an expression in a pipeline is accepted only if all values it reads become available at the
same time, not later than the stage in which it is used.
-/

namespace Spade.Pipe

variable {isWire : Name → Bool}

theorem mergeAvail_some {a acc r : Option Nat} (h : mergeAvail a acc = some r) :
    (∀ d, a = some d → r = some d) ∧ (∀ d, acc = some d → r = some d) := by
  unfold mergeAvail at h
  split at h
  · simp only [Option.some.injEq] at h
    subst h
    exact ⟨fun _ h => h, fun _ h => (nomatch h)⟩
  · simp only [Option.some.injEq] at h
    subst h
    exact ⟨fun _ h => (nomatch h), fun _ h => h⟩
  · split at h
    · next he =>
      simp only [Option.some.injEq] at h
      subst h
      rw [he]
      exact ⟨fun _ h => h, fun _ h => h⟩
    · exact (nomatch h)

mutual
/-- Without pipeline instances everything is ready at once. -/
theorem noInst_ready : ∀ (e : Expr), NoInst e → ReadyAt isWire e 0
  | .ident x, _ => .inr rfl
  | .pref _ _, _ => rfl
  | .lit _, _ => trivial
  | .op _ args, h => noInsts_ready args h
  | .sel _ s arms, h => ⟨noInst_ready s h.1, noInsts_ready arms h.2⟩
  | .block _ values r, h => ⟨noInsts_ready values h.1, noInst_ready r h.2⟩
  | .pipe _ _ _ _, h => h.elim
  | .stageReady, _ => rfl
  | .stageValid, _ => rfl

theorem noInsts_ready : ∀ (es : List Expr), NoInsts es → ReadyAllAt isWire es 0
  | [], _ => trivial
  | e :: es, h => ⟨noInst_ready e h.1, noInsts_ready es h.2⟩
end

mutual
theorem noInst_avail (s : Subs) : ∀ (e : Expr) {a}, NoInst e → availableIn s e = some a →
    a = none ∨ a = some 0
  | .ident x, a, _, h => by
    unfold availableIn at h
    split at h <;> (simp only [Option.some.injEq] at h; subst h; simp)
  | .pref _ _, a, _, h => by
    simp only [availableIn, Option.some.injEq] at h
    exact .inr h.symm
  | .lit _, a, _, h => by
    simp only [availableIn, Option.some.injEq] at h
    exact .inl h.symm
  | .op _ args, a, hn, h => noInsts_avail s args hn (.inl rfl) (by simpa only [availableIn] using h)
  | .sel _ sc arms, a, hn, h =>
    noInsts_avail s arms hn.2 (.inl rfl) (by simpa only [availableIn] using h)
  | .block _ values r, a, hn, h => noInst_avail s r hn.2 (by simpa only [availableIn] using h)
  | .pipe _ _ _ _, a, hn, _ => hn.elim
  | .stageReady, a, _, h => by
    simp only [availableIn, Option.some.injEq] at h
    exact .inr h.symm
  | .stageValid, a, _, h => by
    simp only [availableIn, Option.some.injEq] at h
    exact .inr h.symm

theorem noInsts_avail (s : Subs) : ∀ (es : List Expr) {acc a}, NoInsts es →
    (acc = none ∨ acc = some 0) → availableAll s es acc = some a → a = none ∨ a = some 0
  | [], acc, a, _, hacc, h => by
    simp only [availableAll, Option.some.injEq] at h
    exact h ▸ hacc
  | e :: es, acc, a, hn, hacc, h => by
    unfold availableAll at h
    split at h
    · exact (nomatch h)
    · next a1 h1 =>
      have ha1 := noInst_avail s e hn.1 h1
      split at h
      · exact (nomatch h)
      · next acc1 h2 =>
        refine noInsts_avail s es hn.2 ?_ h
        rcases ha1 with rfl | rfl <;> rcases hacc with rfl | rfl <;>
          simp [mergeAvail] at h2 <;> simp [← h2]
end

mutual
theorem straight_ready (s : Subs)
    (hs : ∀ x, s.lookup x = .wire ∨ s.lookup x = .zeroSized → isWire x = true) :
    ∀ (e : Expr) {a}, Straight e → availableIn s e = some a →
    ∀ d, (∀ d', a = some d' → d = d') → ReadyAt isWire e d
  | .ident x, a, _, h, d, hd => by
    unfold availableIn at h
    split at h
    · simp only [Option.some.injEq] at h
      exact .inr (hd 0 h.symm)
    · simp only [Option.some.injEq] at h
      exact .inr (hd 0 h.symm)
    · next he => exact .inl (hs x (.inl he))
    · next he => exact .inl (hs x (.inr he))
  | .pref _ _, a, _, h, d, hd => by
    simp only [availableIn, Option.some.injEq] at h
    exact hd 0 h.symm
  | .lit _, a, _, _, _, _ => trivial
  | .op _ args, a, hst, h, d, hd =>
    (straightAll_ready s hs args hst (by simpa only [availableIn] using h) d hd).1
  | .sel _ _ _, a, hst, _, _, _ => hst.elim
  | .block _ values r, a, hst, h, d, hd =>
    ⟨noInsts_ready values hst.1,
      straight_ready s hs r hst.2 (by simpa only [availableIn] using h) d hd⟩
  | .pipe _ _ depth args, a, hst, h, d, hd => by
    simp only [availableIn] at h
    split at h
    · exact (nomatch h)
    · next a0 h0 =>
      simp only [Option.some.injEq] at h
      refine ⟨a0.getD 0, hd _ h.symm, ?_⟩
      rcases hst with hst | hst
      · exact (straightAll_ready s hs args hst h0 _ (fun d' hd' => by rw [hd']; rfl)).1
      · have : a0.getD 0 = 0 := by
          rcases noInsts_avail s args hst (.inl rfl) h0 with rfl | rfl <;> rfl
        rw [this]
        exact noInsts_ready args hst
  | .stageReady, a, _, h, d, hd => by
    simp only [availableIn, Option.some.injEq] at h
    exact hd 0 h.symm
  | .stageValid, a, _, h, d, hd => by
    simp only [availableIn, Option.some.injEq] at h
    exact hd 0 h.symm

theorem straightAll_ready (s : Subs)
    (hs : ∀ x, s.lookup x = .wire ∨ s.lookup x = .zeroSized → isWire x = true) :
    ∀ (es : List Expr) {acc a}, StraightAll es → availableAll s es acc = some a →
    ∀ d, (∀ d', a = some d' → d = d') →
      ReadyAllAt isWire es d ∧ (∀ d', acc = some d' → a = some d')
  | [], acc, a, _, h, d, _ => by
    simp only [availableAll, Option.some.injEq] at h
    subst h
    exact ⟨trivial, fun _ h => h⟩
  | e :: es, acc, a, hst, h, d, hd => by
    unfold availableAll at h
    split at h
    · exact (nomatch h)
    · next a1 h1 =>
      split at h
      · exact (nomatch h)
      · next acc1 h2 =>
        obtain ⟨h3, h4⟩ := straightAll_ready s hs es hst.2 h d hd
        obtain ⟨h5, h6⟩ := mergeAvail_some h2
        refine ⟨⟨straight_ready s hs e hst.1 h1 d (fun d' hd' => ?_), h3⟩, fun d' hd' => ?_⟩
        · exact hd d' (h4 d' (h5 d' hd'))
        · exact h4 d' (h6 d' hd')
end

/-- **C30 (partial).**  If `available_in` accepts an expression and computes a delay, then all values
the expression reads become available at the same time, after exactly that delay (an expression that
is always available is treated as having delay 0).

Missing: expressions that mix pipeline instances with `match`, `if` or inner blocks, where the claim
is false (see the counterexamples below). -/
theorem C30_accepted_expressions_are_ready_partial (s : Subs) (e : Expr) (a : Option Nat)
    (hs : ∀ x, s.lookup x = .wire ∨ s.lookup x = .zeroSized → isWire x = true)
    (he : Straight e ∨ NoInst e) (h : availableIn s e = some a) : ReadyAt isWire e (a.getD 0) := by
  rcases he with he | he
  · exact straight_ready s hs e he h _ (fun d' hd' => by rw [hd']; rfl)
  · rcases noInst_avail s e he h with rfl | rfl <;> exact noInst_ready e he

/-- **C30, use in a stage.**  A variable bound in stage `j` whose value has delay `d` can be referred
to in stage `k` only if `j + d ≤ k`, by its name or with `stage(k).x`. -/
theorem C30_use_not_before_ready {enables decls st} (h : Inv enables decls st) (D : Decl)
    (hD : D ∈ decls) (hw : D.v.wire = false) (hz : D.v.zeroSized = false)
    (k : Nat) (hk : k ≤ st.stage) (hj : D.stage ≤ k)
    (signals : Option (List (Option Sig) × List (Option Sig))) :
    ((value ⟨{ st.subs with cur := k }, signals⟩ (.ident D.v.name)).isSome ↔ D.stage + D.delay ≤ k) ∧
    (∀ cur, (value ⟨{ st.subs with cur := cur }, signals⟩ (.pref k D.v.name)).isSome ↔
      D.stage + D.delay ≤ k) := by
  have he := h.entries D hD k hk
  simp only [Expect, show ¬ k < D.stage by omega, if_false, hw, hz, Bool.false_eq_true] at he
  have hin : k < st.subs.inner.length := by rw [h.len]; omega
  have hl : ∀ cur, ({ st.subs with cur := cur } : Subs).lookupReferenced k D.v.name =
      st.subs.at k D.v.name := by
    intro cur
    simp [Subs.lookupReferenced, Subs.at, List.getElem?_eq_getElem hin]
  have hl' : ({ st.subs with cur := k } : Subs).lookup D.v.name =
      (st.subs.at k D.v.name).getD (.available D.v.name) := rfl
  split at he
  · next hlt =>
    constructor
    · simp only [value, hl', he, Option.getD_some]
      simp only [Option.isSome_none, Bool.false_eq_true, false_iff]
      omega
    · intro cur
      simp only [value, hl, he]
      simp only [Option.isSome_none, Bool.false_eq_true, false_iff]
      omega
  · next hlt =>
    have : ∃ n, st.subs.at k D.v.name = some (.available n) := by
      split at he
      · exact ⟨_, he⟩
      · exact he
    obtain ⟨n, hn⟩ := this
    constructor
    · simp only [value, hl', hn, Option.getD_some, Option.isSome_some, true_iff]
      omega
    · intro cur
      simp only [value, hl, hn, Option.isSome_some, true_iff]
      omega

/-! ### Counterexamples -/

/-- A pipeline with the variable 0 in its first stage. -/
def exSubs : Subs := setAvailable Subs.new 0 0 0 false

/-- **C30 counterexample, scrutinee.**  `match inst(3) f(x) { _ => x }`: the scrutinee comes three
cycles late, the arms are ready at once, and the expression is accepted as ready at once. -/
theorem C30_counterexample_delayed_scrutinee :
    availableIn exSubs (.sel 0 (.pipe 1 0 3 [.ident 0]) [.ident 0, .lit 0]) = some (some 0) ∧
    ∀ d, ¬ ReadyAt (fun _ => false) (.sel 0 (.pipe 1 0 3 [.ident 0]) [.ident 0, .lit 0]) d := by
  refine ⟨rfl, fun d h => ?_⟩
  simp only [ReadyAt, ReadyAllAt, Bool.false_eq_true, false_or, and_true] at h
  obtain ⟨⟨d', h1, h2⟩, h3⟩ := h
  omega

/-- **C30 counterexample, constant branches.**  `if x {1} else {0}` counts as always available although
it reads `x`; it can be added to a value that comes three cycles later. -/
theorem C30_counterexample_constant_branches :
    availableIn exSubs (.op 0 [.sel 0 (.ident 0) [.lit 1, .lit 0], .pipe 1 0 3 [.ident 0]])
      = some (some 3) ∧
    ∀ d, ¬ ReadyAt (fun _ => false)
      (.op 0 [.sel 0 (.ident 0) [.lit 1, .lit 0], .pipe 1 0 3 [.ident 0]]) d := by
  refine ⟨rfl, fun d h => ?_⟩
  simp only [ReadyAt, ReadyAllAt, Bool.false_eq_true, false_or, and_true] at h
  obtain ⟨h1, d', h2, h3⟩ := h
  omega

/-- **C30 counterexample, inner block.**  `{ let y = inst(3) f(x); y }` is accepted as ready at once,
although the value comes three cycles late. -/
theorem C30_counterexample_inner_block :
    availableIn exSubs (.block [7] [.pipe 1 0 3 [.ident 0]] (.ident 7)) = some (some 0) ∧
    ∀ d, ¬ ReadyAt (fun _ => false) (.block [7] [.pipe 1 0 3 [.ident 0]] (.ident 7)) d := by
  refine ⟨rfl, fun d h => ?_⟩
  simp only [ReadyAt, ReadyAllAt, Bool.false_eq_true, false_or, and_true] at h
  obtain ⟨⟨d', h1, h2⟩, h3⟩ := h
  omega

/-- The hypotheses of the partial theorem are met by `(inst(2) f(x), inst(1) g(inst(1) h(x)))`, and a
mismatch is rejected. -/
example :
    availableIn exSubs (.op 0 [.pipe 1 0 2 [.ident 0], .pipe 2 1 1 [.pipe 3 2 1 [.ident 0]]])
      = some (some 2) ∧
    Straight (.op 0 [.pipe 1 0 2 [.ident 0], .pipe 2 1 1 [.pipe 3 2 1 [.ident 0]]]) ∧
    availableIn exSubs (.op 0 [.pipe 1 0 2 [.ident 0], .ident 0]) = none :=
  ⟨rfl, by simp [Straight, StraightAll], rfl⟩

end Spade.Pipe

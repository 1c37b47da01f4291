import Verif.Lambda.Scopes
/-!
# What visiting expressions does to the state
-/
namespace Spade.Lambda

variable {V : Type}

/-- All variables of the innermost scope are numbered `lo` and up. -/
def TopNew (lo : Nat) : List Scope → Prop
  | [] => True
  | s :: _ => ∀ e ∈ s.vars, lo ≤ e.2.1

theorem TGrow.tail {lo : Nat} : ∀ {a b}, TGrow lo a b → Grow a.tail b.tail
  | [], [], _ => trivial
  | _ :: _, _ :: _, h => h.2.2
  | [], _ :: _, h => h.elim
  | _ :: _, [], h => h.elim

theorem TGrow.topNew {lo lo' : Nat} (hl : lo' ≤ lo) :
    ∀ {a b}, TGrow lo a b → TopNew lo' a → TopNew lo' b
  | [], [], _, _ => trivial
  | _ :: _, _ :: _, ⟨⟨new, h, hn⟩, _⟩, ht => by
    intro e he
    rw [h] at he
    rcases List.mem_append.mp he with he | he
    · exact Nat.le_trans hl (hn e he)
    · exact ht e he
  | [], _ :: _, h, _ => h.elim
  | _ :: _, [], h, _ => h.elim

theorem Known.tail {lo N} : ∀ {ss}, Known lo N ss → TopNew lo ss → Known lo N ss.tail
  | [], h, _ => h
  | _ :: _, h, ht => h.pop ht

theorem addClock_step {st : St} {c : Option Nat} (hi : st.Inv) : PStep st (st.addClock c).2 := by
  unfold St.addClock
  split
  · exact (EStep.refl hi).pstep
  · exact add_step hi

theorem makeDef_step {s c a : Nat} {G : List Nat} {clk ps caps} {ss : List (HPat × HExp V)} {r}
    {st : St} (hi : st.Inv) : EStep st (makeDef s c a G clk ps caps ss r st).2 := by
  unfold makeDef
  refine ⟨⟨by simp only; omega, fun L u h => ?_⟩, .refl _, ⟨hi.scopes.mono (by simp only; omega), fun e he => ?_⟩⟩
  · simp only [List.lookup_cons]
    have hne : (L == st.next) = false := by
      rw [beq_eq_false_iff_ne]
      intro h'
      have := hi.items _ (mem_of_lookup h)
      simp only at this
      omega
    rw [hne]
    exact h
  · simp only at he ⊢
    rcases List.mem_cons.mp he with rfl | he
    · simp only; omega
    · have := hi.items e he
      omega

/-- What `visit` does on a lambda. -/
theorem visit_lam {I : Ids} {G isFn ps ss} {r : Exp V} {st st' : St} {h}
    (hv : visit I G (.lam isFn ps ss r) st = some (h, st')) :
    ∃ clk ps₁ ss' st₃ r' st₄, handleKind I.clk isFn ps = some (clk, ps₁) ∧
      visitS I G ss ((visitPs ps₁ ((st.push (some [])).addClock clk).2).2.push none) = some (ss', st₃) ∧
      visit I G r st₃ = some (r', st₄) ∧
      (h, st') = makeDef I.self I.clk I.args G ((st.push (some [])).addClock clk).1
        (visitPs ps₁ ((st.push (some [])).addClock clk).2).1 (st₄.close).2.close.1 ss' r'
        (st₄.close).2.close.2 := by
  simp only [visit, Option.bind_eq_some_iff, Option.map_eq_some_iff] at hv
  obtain ⟨⟨clk, ps₁⟩, hk, ⟨ss', st₃⟩, hs, ⟨r', st₄⟩, hr, hd⟩ := hv
  exact ⟨clk, ps₁, ss', st₃, r', st₄, hk, hs, hr, hd.symm⟩

mutual
theorem visit_step {I : Ids} {G : List Nat} : ∀ {e : Exp V} {st st' : St} {h},
    visit I G e st = some (h, st') → st.Inv → EStep st st' ∧ Known st.next (hnames h) st'.scopes
  | .var x, st, st', h, hv, hi => by
    simp only [visit, Option.map_eq_some_iff] at hv
    obtain ⟨⟨n, ss⟩, hl, hv⟩ := hv
    simp only [Prod.mk.injEq] at hv
    obtain ⟨rfl, rfl⟩ := hv
    obtain ⟨hg, hr, hi'⟩ := look_some hl hi.scopes
    refine ⟨⟨⟨Nat.le_refl _, fun _ _ h => h⟩, hg, ⟨hi', hi.items⟩⟩, fun m hm => Or.inr ?_⟩
    simp only [hnames, List.mem_singleton] at hm
    subst hm
    rw [(hi'.resolve hr.resolve).2]
    exact hr
  | .prim gs f args, st, st', h, hv, hi => by
    simp only [visit] at hv
    split at hv
    · rw [Option.map_eq_some_iff] at hv
      obtain ⟨⟨as, st₁⟩, hl, hv⟩ := hv
      simp only [Prod.mk.injEq] at hv
      obtain ⟨rfl, rfl⟩ := hv
      simpa only [hnames] using visits_step hl hi
    · cases hv
  | .tup es, st, st', h, hv, hi => by
    simp only [visit, Option.map_eq_some_iff] at hv
    obtain ⟨⟨as, st₁⟩, hl, hv⟩ := hv
    simp only [Prod.mk.injEq] at hv
    obtain ⟨rfl, rfl⟩ := hv
    simpa only [hnames] using visits_step hl hi
  | .call u gs f args, st, st', h, hv, hi => by
    simp only [visit] at hv
    split at hv
    · rw [Option.map_eq_some_iff] at hv
      obtain ⟨⟨as, st₁⟩, hl, hv⟩ := hv
      simp only [Prod.mk.injEq] at hv
      obtain ⟨rfl, rfl⟩ := hv
      simpa only [hnames] using visits_step hl hi
    · cases hv
  | .app f clk a, st, st', h, hv, hi => by
    simp only [visit, Option.bind_eq_some_iff, Option.map_eq_some_iff] at hv
    obtain ⟨⟨f', st₁⟩, h1, ⟨clk', st₂⟩, h2, ⟨a', st₃⟩, h3, hv⟩ := hv
    simp only [Prod.mk.injEq] at hv
    obtain ⟨rfl, rfl⟩ := hv
    obtain ⟨e1, k1⟩ := visit_step h1 hi
    obtain ⟨e2, k2⟩ := visits_step h2 e1.inv
    obtain ⟨e3, k3⟩ := visit_step h3 e2.inv
    refine ⟨(e1.trans e2).trans e3, ?_⟩
    simp only [hnames]
    exact ((k1.grow (e2.grow.trans e3.grow)).append ((k2.mono e1.next).grow e3.grow)).append
      (k3.mono (Nat.le_trans e1.next e2.next))
  | .block ss r, st, st', h, hv, hi => by
    simp only [visit, Option.bind_eq_some_iff, Option.map_eq_some_iff] at hv
    obtain ⟨⟨ss', st₁⟩, h1, ⟨r', st₂⟩, h2, hv⟩ := hv
    simp only [Prod.mk.injEq] at hv
    obtain ⟨rfl, rfl⟩ := hv
    replace h1 : visitS I G ss (st.push none) = some (ss', st₁) := h1
    obtain ⟨e1, k1⟩ := visitS_step h1 (push_inv hi)
    obtain ⟨e2, k2⟩ := visit_step h2 e1.inv
    obtain ⟨s, t, hs, hc, hg, hn, _, hE⟩ := close_step (e1.trans e2.pstep)
    refine ⟨hE, ?_⟩
    have ht : TopNew st.next (st.push none).scopes := fun _ h => nomatch h
    have ht2 : TopNew st.next st₂.scopes := (e1.trans e2.pstep).grow.topNew (Nat.le_refl _) ht
    have e : st₂.close.2.scopes = st₂.scopes.tail := by rw [hc, hs]; rfl
    rw [e]
    simp only [hnames]
    refine Known.append ?_ ((k2.mono e1.next).tail ht2)
    exact (k1 st.next (Nat.le_refl _) ht).grow (e2.grow.top (lo := 0)).tail
  | .lam isFn ps ss r, st, st', h, hv, hi => by
    obtain ⟨clk, ps₁, ss', st₃, r', st₄, hk, h1, h2, hd⟩ := visit_lam hv
    have ea := addClock_step (c := clk) (push_inv' hi)
    have eb := visitPs_step (ps := ps₁) ea.inv
    obtain ⟨e1, _⟩ := visitS_step h1 (push_inv eb.inv)
    obtain ⟨e2, _⟩ := visit_step h2 e1.inv
    obtain ⟨_, _, _, _, _, _, _, e3⟩ := close_step (e1.trans e2.pstep)
    obtain ⟨s, t, hs, hc, hg, hn, hb, e4⟩ := close_step ((ea.trans eb).trans e3.pstep)
    have e5 := makeDef_step (s := I.self) (c := I.clk) (a := I.args) (G := G)
      (clk := ((st.push (some [])).addClock clk).1)
      (ps := (visitPs ps₁ ((st.push (some [])).addClock clk).2).1) (caps := (st₄.close).2.close.1)
      (ss := ss') (r := r') e4.inv
    rw [← hd] at e5
    refine ⟨e4.trans e5, ?_⟩
    have hh : hnames h = (st₄.close).2.close.1.map (·.2) := by
      have := congrArg Prod.fst hd
      simp only at this
      rw [this]
      rfl
    rw [hh]
    have hinv := e3.inv.scopes
    rw [hs] at hinv
    have hsc : (st₄.close).2.close.2.scopes = t := by rw [hc]
    refine Known.grow (a := t) ?_ (hsc ▸ e5.grow)
    intro n hn'
    rw [List.mem_map] at hn'
    obtain ⟨c, hcm, rfl⟩ := hn'
    rw [hc] at hcm
    simp only at hcm
    cases hbar : s.barrier with
    | none => rw [hbar] at hcm; cases hcm
    | some caps =>
      rw [hbar, Option.getD_some] at hcm
      have hrec := hinv.2.1 caps hbar c hcm
      rw [(hinv.2.2.resolve hrec.resolve).2]
      exact Or.inr hrec
theorem visits_step {I : Ids} {G : List Nat} : ∀ {es : List (Exp V)} {st st' : St} {hs},
    visits I G es st = some (hs, st') → st.Inv → EStep st st' ∧ Known st.next (hnamess hs) st'.scopes
  | [], st, st', hs, hv, hi => by
    simp only [visits, Option.some.injEq, Prod.mk.injEq] at hv
    obtain ⟨rfl, rfl⟩ := hv
    exact ⟨.refl hi, fun _ h => nomatch h⟩
  | e :: es, st, st', hs, hv, hi => by
    simp only [visits, Option.bind_eq_some_iff, Option.map_eq_some_iff] at hv
    obtain ⟨⟨h', st₁⟩, h1, ⟨hs', st₂⟩, h2, hv⟩ := hv
    simp only [Prod.mk.injEq] at hv
    obtain ⟨rfl, rfl⟩ := hv
    obtain ⟨e1, k1⟩ := visit_step h1 hi
    obtain ⟨e2, k2⟩ := visits_step h2 e1.inv
    refine ⟨e1.trans e2, ?_⟩
    simp only [hnamess]
    exact (k1.grow e2.grow).append (k2.mono e1.next)
theorem visitS_step {I : Ids} {G : List Nat} : ∀ {ss : List (Pat × Exp V)} {st st' : St} {hs},
    visitS I G ss st = some (hs, st') → st.Inv → PStep st st' ∧
      ∀ lo, lo ≤ st.next → TopNew lo st.scopes → Known lo (hnamesS hs) st'.scopes.tail
  | [], st, st', hs, hv, hi => by
    simp only [visitS, Option.some.injEq, Prod.mk.injEq] at hv
    obtain ⟨rfl, rfl⟩ := hv
    exact ⟨(EStep.refl hi).pstep, fun _ _ _ _ h => nomatch h⟩
  | (p, e) :: ss, st, st', hs, hv, hi => by
    simp only [visitS, Option.bind_eq_some_iff, Option.map_eq_some_iff] at hv
    obtain ⟨⟨h', st₁⟩, h1, ⟨hs', st₂⟩, h2, hv⟩ := hv
    simp only [Prod.mk.injEq] at hv
    obtain ⟨rfl, rfl⟩ := hv
    obtain ⟨e1, k1⟩ := visit_step h1 hi
    have ep := visitP_step (p := p) e1.inv
    obtain ⟨e2, k2⟩ := visitS_step h2 ep.inv
    refine ⟨(e1.pstep.trans ep).trans e2, fun lo hlo ht => ?_⟩
    have ht1 : TopNew lo st₁.scopes := (e1.grow.top (lo := st.next)).topNew hlo ht
    have ht2 := ep.grow.topNew (Nat.le_trans hlo e1.next) ht1
    simp only [hnamesS]
    refine Known.append ?_ (k2 lo (Nat.le_trans hlo (Nat.le_trans e1.next ep.next)) ht2)
    exact ((k1.mono hlo).tail ht1).grow (ep.grow.tail.trans e2.grow.tail)
end

end Spade.Lambda

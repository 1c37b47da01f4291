import Verif.Lambda.Props
/-!
# Which variables a lambda captures
-/
namespace Spade.Lambda

variable {V : Type}

/-- New captures are among `M`. -/
def Adds (M : List Nat) : List Scope → List Scope → Prop
  | [], [] => True
  | s :: ss, t :: ts => (∀ b, t.barrier = some b → ∀ c ∈ b,
      (∃ a, s.barrier = some a ∧ c ∈ a) ∨ c.1 ∈ M) ∧ Adds M ss ts
  | _, _ => False

theorem Adds.refl {M} : ∀ ss, Adds M ss ss
  | [] => trivial
  | _ :: ss => ⟨fun b hb _ hc => Or.inl ⟨b, hb, hc⟩, .refl ss⟩

theorem Adds.trans {M} : ∀ {a b c}, Adds M a b → Adds M b c → Adds M a c
  | [], [], [], _, _ => trivial
  | _ :: _, _ :: _, _ :: _, h, h' => ⟨fun b hb c hc => by
      rcases h'.1 b hb c hc with ⟨a, ha, hm⟩ | hm
      · exact h.1 a ha c hm
      · exact Or.inr hm, h.2.trans h'.2⟩
  | [], _ :: _, _, h, _ => h.elim
  | _ :: _, [], _, h, _ => h.elim
  | [], [], _ :: _, _, h => h.elim
  | _ :: _, _ :: _, [], _, h => h.elim

theorem Adds.mono {M M' : List Nat} (hm : ∀ x ∈ M, x ∈ M') : ∀ {a b}, Adds M a b → Adds M' a b
  | [], [], _ => trivial
  | _ :: _, _ :: _, h => ⟨fun b hb c hc => (h.1 b hb c hc).imp id (hm _), h.2.mono hm⟩
  | [], _ :: _, h => h.elim
  | _ :: _, [], h => h.elim

theorem look_adds {x n} : ∀ {ss ss'}, look x ss = some (n, ss') → Adds [x] ss ss'
  | [], _, h => by simp only [look, reduceCtorEq] at h
  | s :: ss, ss', h => by
    simp only [look] at h
    cases hl : s.vars.lookup x with
    | some m =>
      rw [hl] at h
      simp only [Option.some.injEq, Prod.mk.injEq] at h
      obtain ⟨rfl, rfl⟩ := h
      exact .refl _
    | none =>
      rw [hl] at h
      rw [Option.map_eq_some_iff] at h
      obtain ⟨⟨m, ts⟩, ht, h⟩ := h
      simp only [Prod.mk.injEq] at h
      obtain ⟨rfl, rfl⟩ := h
      refine ⟨fun b hb c hc => ?_, look_adds ht⟩
      unfold Scope.touch at hb
      split at hb
      · rename_i hn; rw [hn] at hb; cases hb
      · rename_i caps hcaps
        split at hb
        · exact Or.inl ⟨b, hb, hc⟩
        · simp only [Option.some.injEq] at hb
          subst hb
          rcases List.mem_append.mp hc with hc | hc
          · exact Or.inl ⟨caps, hcaps, hc⟩
          · rw [List.mem_singleton] at hc
            subst hc
            exact Or.inr (List.mem_singleton.mpr rfl)

theorem touch_adds {st : St} {x : Nat} : Adds [x] st.scopes (st.touch x).scopes := by
  unfold St.touch
  split
  · rename_i h; exact look_adds h
  · exact .refl _

theorem add_adds {M} {st : St} {x : Nat} : Adds M st.scopes (st.add x).2.scopes := by
  unfold St.add
  split
  · rename_i h; rw [h]; trivial
  · rename_i s ss h
    rw [h]
    exact ⟨fun b hb _ hc => Or.inl ⟨b, hb, hc⟩, .refl ss⟩

mutual
theorem visitP_adds : ∀ {p : Pat} {st : St}, Adds p.plain st.scopes (visitP p st).2.scopes
  | .wild, st => .refl _
  | .var x, st => by
    simp only [visitP, Pat.plain]
    exact touch_adds.trans add_adds
  | .bnd x p, st => by
    simp only [visitP, Pat.plain]
    exact (visitP_adds (p := p)).trans add_adds
  | .tup ps, st => by
    simp only [visitP, Pat.plain]
    exact visitPs_adds
theorem visitPs_adds : ∀ {ps : List Pat} {st : St}, Adds (plains ps) st.scopes (visitPs ps st).2.scopes
  | [], st => .refl _
  | p :: ps, st => by
    simp only [visitPs, plains]
    exact ((visitP_adds (p := p)).mono (by simp +contextual)).trans
      ((visitPs_adds (ps := ps)).mono (by simp +contextual))
end

theorem Adds.close {M} {st st' : St} {b} (h : Adds M (st.push b).scopes st'.scopes) :
    Adds M st.scopes st'.close.2.scopes ∧
      ∀ c ∈ st'.close.1, (∃ a, b = some a ∧ c ∈ a) ∨ c.1 ∈ M := by
  unfold St.push at h
  unfold St.close
  cases hs : st'.scopes with
  | nil => rw [hs] at h; exact h.elim
  | cons s ss =>
    rw [hs] at h
    refine ⟨h.2, fun c hc => ?_⟩
    simp only at hc
    cases hb : s.barrier with
    | none => rw [hb] at hc; cases hc
    | some cs => rw [hb] at hc; exact h.1 cs hb c hc

theorem handleKind_plain {k : Nat} {isFn ps clk ps₁} (h : handleKind k isFn ps = some (clk, ps₁)) :
    ∀ x ∈ plains ps₁, x ∈ plains ps := by
  cases isFn with
  | true =>
    simp only [handleKind, Option.some.injEq, Prod.mk.injEq] at h
    obtain ⟨_, rfl⟩ := h
    exact fun _ h => h
  | false =>
    unfold handleKind at h
    split at h
    · rename_i h'; cases h'
    · split at h
      · simp only [Option.some.injEq, Prod.mk.injEq] at h
        obtain ⟨_, rfl⟩ := h
        intro x hx
        simp only [plains]
        exact List.mem_append_right _ hx
      · cases h
    · cases h

theorem lam_adds {I : Ids} {G isFn ps ss} {r : Exp V} {st st' : St} {h}
    (hv : ∃ clk ps₁ ss' st₃ r' st₄, handleKind I.clk isFn ps = some (clk, ps₁) ∧
      visitS I G ss ((visitPs ps₁ ((st.push (some [])).addClock clk).2).2.push none) = some (ss', st₃) ∧
      visit I G r st₃ = some (r', st₄) ∧
      (h, st') = makeDef I.self I.clk I.args G ((st.push (some [])).addClock clk).1
        (visitPs ps₁ ((st.push (some [])).addClock clk).2).1 (st₄.close).2.close.1 ss' r'
        (st₄.close).2.close.2)
    (hs : ∀ {a b hs}, visitS I G ss a = some (hs, b) → Adds (mentionsS ss) a.scopes b.scopes)
    (hr : ∀ {a b h}, visit I G r a = some (h, b) → Adds r.mentions a.scopes b.scopes) :
    Adds (Exp.lam isFn ps ss r).mentions st.scopes st'.scopes ∧
      ∀ {L k outer clk ps' caps ss' r'}, h = .lam L k outer clk ps' caps ss' r' →
        ∀ c ∈ caps, c.1 ∈ (Exp.lam isFn ps ss r).mentions := by
  obtain ⟨clk, ps₁, ss', st₃, r', st₄, hk, h1, h2, hd⟩ := hv
  have hp := handleKind_plain hk
  have ha : Adds (Exp.lam isFn ps ss r).mentions (st.push (some [])).scopes
      ((st.push (some [])).addClock clk).2.scopes := by
    unfold St.addClock
    split
    · exact .refl _
    · exact add_adds
  have hb := (visitPs_adds (ps := ps₁) (st := ((st.push (some [])).addClock clk).2)).mono
    (M' := (Exp.lam isFn ps ss r).mentions) (fun x hx => by
      simp only [Exp.mentions]
      exact List.mem_append_left _ (List.mem_append_left _ (hp x hx)))
  have hc := ((hs h1).mono (M' := (Exp.lam isFn ps ss r).mentions) (by
      simp only [Exp.mentions]; simp +contextual)).trans
    ((hr h2).mono (by simp only [Exp.mentions]; simp +contextual))
  have hE := ((ha.trans hb).trans hc.close.1).close
  unfold makeDef at hd
  simp only [Prod.mk.injEq] at hd
  obtain ⟨rfl, rfl⟩ := hd
  refine ⟨hE.1, fun he c hcm => ?_⟩
  simp only [HExp.lam.injEq] at he
  obtain ⟨_, _, _, _, _, rfl, _⟩ := he
  rcases hE.2 c hcm with ⟨a, ha, hm⟩ | h
  · injection ha with ha
    subst ha
    cases hm
  · exact h

mutual
theorem visit_adds {I : Ids} {G : List Nat} : ∀ {e : Exp V} {st st' : St} {h},
    visit I G e st = some (h, st') → Adds e.mentions st.scopes st'.scopes
  | .var x, st, st', h, hv => by
    simp only [visit, Option.map_eq_some_iff] at hv
    obtain ⟨⟨n, ss⟩, hl, hv⟩ := hv
    simp only [Prod.mk.injEq] at hv
    obtain ⟨rfl, rfl⟩ := hv
    exact look_adds hl
  | .prim gs f args, st, st', h, hv => by
    simp only [visit] at hv
    split at hv
    · rw [Option.map_eq_some_iff] at hv
      obtain ⟨⟨as, st₁⟩, hl, hv⟩ := hv
      simp only [Prod.mk.injEq] at hv
      obtain ⟨rfl, rfl⟩ := hv
      exact visits_adds hl
    · cases hv
  | .tup es, st, st', h, hv => by
    simp only [visit, Option.map_eq_some_iff] at hv
    obtain ⟨⟨as, st₁⟩, hl, hv⟩ := hv
    simp only [Prod.mk.injEq] at hv
    obtain ⟨rfl, rfl⟩ := hv
    exact visits_adds hl
  | .call u gs f args, st, st', h, hv => by
    simp only [visit] at hv
    split at hv
    · rw [Option.map_eq_some_iff] at hv
      obtain ⟨⟨as, st₁⟩, hl, hv⟩ := hv
      simp only [Prod.mk.injEq] at hv
      obtain ⟨rfl, rfl⟩ := hv
      exact visits_adds hl
    · cases hv
  | .app f clk a, st, st', h, hv => by
    simp only [visit, Option.bind_eq_some_iff, Option.map_eq_some_iff] at hv
    obtain ⟨⟨f', st₁⟩, h1, ⟨clk', st₂⟩, h2, ⟨a', st₃⟩, h3, hv⟩ := hv
    simp only [Prod.mk.injEq] at hv
    obtain ⟨rfl, rfl⟩ := hv
    simp only [Exp.mentions]
    exact (((visit_adds h1).mono (by simp +contextual)).trans
      ((visits_adds h2).mono (by simp +contextual))).trans ((visit_adds h3).mono (by simp +contextual))
  | .block ss r, st, st', h, hv => by
    simp only [visit, Option.bind_eq_some_iff, Option.map_eq_some_iff] at hv
    obtain ⟨⟨ss', st₁⟩, h1, ⟨r', st₂⟩, h2, hv⟩ := hv
    simp only [Prod.mk.injEq] at hv
    obtain ⟨rfl, rfl⟩ := hv
    replace h1 : visitS I G ss (st.push none) = some (ss', st₁) := h1
    simp only [Exp.mentions]
    exact (((visitS_adds h1).mono (by simp +contextual)).trans
      ((visit_adds h2).mono (by simp +contextual))).close.1
  | .lam isFn ps ss r, st, st', h, hv => by
    exact (lam_adds (visit_lam hv) (fun h => visitS_adds h) (fun h => visit_adds h)).1
theorem visits_adds {I : Ids} {G : List Nat} : ∀ {es : List (Exp V)} {st st' : St} {hs},
    visits I G es st = some (hs, st') → Adds (mentionss es) st.scopes st'.scopes
  | [], st, st', hs, hv => by
    simp only [visits, Option.some.injEq, Prod.mk.injEq] at hv
    obtain ⟨rfl, rfl⟩ := hv
    exact .refl _
  | e :: es, st, st', hs, hv => by
    simp only [visits, Option.bind_eq_some_iff, Option.map_eq_some_iff] at hv
    obtain ⟨⟨h', st₁⟩, h1, ⟨hs', st₂⟩, h2, hv⟩ := hv
    simp only [Prod.mk.injEq] at hv
    obtain ⟨rfl, rfl⟩ := hv
    simp only [mentionss]
    exact ((visit_adds h1).mono (by simp +contextual)).trans
      ((visits_adds h2).mono (by simp +contextual))
theorem visitS_adds {I : Ids} {G : List Nat} : ∀ {ss : List (Pat × Exp V)} {st st' : St} {hs},
    visitS I G ss st = some (hs, st') → Adds (mentionsS ss) st.scopes st'.scopes
  | [], st, st', hs, hv => by
    simp only [visitS, Option.some.injEq, Prod.mk.injEq] at hv
    obtain ⟨rfl, rfl⟩ := hv
    exact .refl _
  | (p, e) :: ss, st, st', hs, hv => by
    simp only [visitS, Option.bind_eq_some_iff, Option.map_eq_some_iff] at hv
    obtain ⟨⟨h', st₁⟩, h1, ⟨hs', st₂⟩, h2, hv⟩ := hv
    simp only [Prod.mk.injEq] at hv
    obtain ⟨rfl, rfl⟩ := hv
    simp only [mentionsS]
    exact (((visit_adds h1).mono (by simp +contextual)).trans
      ((visitP_adds (p := p)).mono (by simp +contextual))).trans
      ((visitS_adds h2).mono (by simp +contextual))
end

/-- A lambda captures only variables from outside that it mentions: in an expression,
or as a pattern that is just that identifier. -/
theorem C54_captures_mentioned_partial {I : Ids} {G isFn ps ss} {r : Exp V} {st st' : St}
    {L k outer clk ps' caps ss' r'} (hi : st.Inv)
    (hv : visit I G (.lam isFn ps ss r) st = some (.lam L k outer clk ps' caps ss' r', st')) :
    ∀ c ∈ caps, c.1 ∈ (Exp.lam isFn ps ss r).mentions ∧ resolve c.1 st.scopes = some c.2 := by
  intro c hc
  refine ⟨(lam_adds (visit_lam hv) (fun h => visitS_adds h) (fun h => visit_adds h)).2 rfl c hc, ?_⟩
  obtain ⟨e, k⟩ := visit_step hv hi
  obtain ⟨clk₀, ps₁, ss', st₃, r', st₄, hk, h1, h2, hd⟩ := visit_lam hv
  have ea := addClock_step (c := clk₀) (push_inv' hi)
  have eb := visitPs_step (ps := ps₁) ea.inv
  obtain ⟨e1, _⟩ := visitS_step h1 (push_inv eb.inv)
  obtain ⟨e2, _⟩ := visit_step h2 e1.inv
  obtain ⟨_, _, _, _, _, _, _, e3⟩ := close_step (e1.trans e2.pstep)
  obtain ⟨s, t, hs, hcl, hg, hn, hb, e4⟩ := close_step ((ea.trans eb).trans e3.pstep)
  have hcaps : caps = st₄.close.2.close.1 := by
    have := congrArg Prod.fst hd
    simp only [makeDef, HExp.lam.injEq] at this
    exact this.2.2.2.2.2.1
  have hinv := e3.inv.scopes
  rw [hs] at hinv
  rw [hcaps, hcl] at hc
  simp only at hc
  cases hbar : s.barrier with
  | none => rw [hbar] at hc; cases hc
  | some cs =>
    rw [hbar, Option.getD_some] at hc
    have := (hinv.2.1 cs hbar c hc).resolve
    rwa [hg.resolve] at this

end Spade.Lambda

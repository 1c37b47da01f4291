import Verif.Inline.Props
/-! C33: inlining ends when the units to be inlined do not instantiate themselves. -/
namespace Spade.Inline

open Spade.Mir

variable {Op Ty C Ini V : Type}

theorem perform_mono (D : Design Op Ty C Ini) (typed : Typed) : ∀ fuel,
    (∀ name ids cache r, perform D typed fuel name ids cache = some r →
      perform D typed (fuel + 1) name ids cache = some r) ∧
    (∀ ss cur ids cache r, performStmts D typed fuel ss cur ids cache = some r →
      performStmts D typed (fuel + 1) ss cur ids cache = some r) := by
  intro fuel
  induction fuel with
  | zero => exact ⟨by intros; simp_all [perform], by intros; simp_all [performStmts]⟩
  | succ fuel ih =>
    obtain ⟨ih1, ih2⟩ := ih
    constructor
    · intro name ids cache r h
      rw [perform] at h ⊢
      cases hl : cache.lookup name with
      | some its => simpa only [hl] using h
      | none =>
        simp only [hl] at h ⊢
        cases hu : D.unit name with
        | none => simp [hu] at h
        | some u =>
          simp only [hu, Option.bind_eq_bind, Option.bind_eq_some_iff] at h ⊢
          obtain ⟨a, hp, he⟩ := h
          exact ⟨a, ih2 _ _ _ _ _ hp, he⟩
    · intro ss cur ids cache r h
      cases ss with
      | nil => simpa only [performStmts] using h
      | cons s ss =>
        rw [performStmts] at h ⊢
        cases hin : D.inlined s with
        | none => simp only [hin] at h ⊢; exact ih2 _ _ _ _ _ h
        | some p =>
          obtain ⟨r, e, ty, os⟩ := p
          simp only [hin, Option.bind_eq_bind, Option.bind_eq_some_iff] at h ⊢
          obtain ⟨a, hp1, b, hp2, he⟩ := h
          exact ⟨a, ih1 _ _ _ _ hp1, b, ih2 _ _ _ _ _ hp2, he⟩

theorem perform_le {D : Design Op Ty C Ini} {typed : Typed} {f g : Nat} (hfg : f ≤ g) {name ids cache r}
    (h : perform D typed f name ids cache = some r) : perform D typed g name ids cache = some r := by
  induction hfg with
  | refl => exact h
  | step _ ih => exact (perform_mono D typed _).1 _ _ _ _ ih

theorem performStmts_le {D : Design Op Ty C Ini} {typed : Typed} {f g : Nat} (hfg : f ≤ g) {ss cur ids cache r}
    (h : performStmts D typed f ss cur ids cache = some r) :
    performStmts D typed g ss cur ids cache = some r := by
  induction hfg with
  | refl => exact h
  | step _ ih => exact (perform_mono D typed _).2 _ _ _ _ _ ih

theorem performStmts_ends {D : Design Op Ty C Ini} (typed : Typed) (ss : List (Stmt Op Ty C Ini))
    (h : ∀ s ∈ ss, ∀ r e ty os, D.inlined s = some (r, e, ty, os) →
      ∃ f, ∀ ids cache, (perform D typed f e.name ids cache).isSome) :
    ∃ f, ∀ cur ids cache, (performStmts D typed f ss cur ids cache).isSome := by
  induction ss with
  | nil => exact ⟨1, by intros; simp [performStmts]⟩
  | cons s ss ih =>
    obtain ⟨f, hf⟩ := ih (fun s hs => h s (List.mem_cons_of_mem _ hs))
    cases hin : D.inlined s with
    | none =>
      refine ⟨f + 1, ?_⟩
      intro cur ids cache
      simp only [performStmts, hin]
      exact hf _ _ _
    | some p =>
      obtain ⟨r, e, ty, os⟩ := p
      obtain ⟨g, hg⟩ := h s (List.mem_cons_self ..) r e ty os hin
      refine ⟨max f g + 1, ?_⟩
      intro cur ids cache
      simp only [performStmts, hin]
      obtain ⟨⟨t, i1, c1⟩, h1⟩ := Option.isSome_iff_exists.mp (hg (freshAll ids (definedNames e.stmts)).2 cache)
      obtain ⟨⟨t2, i2, c2⟩, h2⟩ := Option.isSome_iff_exists.mp (hf [] i1 c1)
      rw [perform_le (Nat.le_max_right f g) h1]
      simp only [Option.bind_eq_bind, Option.bind_some]
      rw [performStmts_le (Nat.le_max_left f g) h2]
      rfl

/-- The units to be inlined do not instantiate themselves, directly or through others: every unit is
above the units to be inlined that it instantiates. -/
def Design.Acyclic (D : Design Op Ty C Ini) (rank : String → Nat) : Prop :=
  ∀ n u, D.unit n = some u → ∀ s ∈ u.entity.stmts, ∀ r e ty os, D.inlined s = some (r, e, ty, os) →
    rank e.name < rank n

theorem perform_ends {D : Design Op Ty C Ini} (hD : D.Ok) {rank : String → Nat} (hr : D.Acyclic rank)
    (typed : Typed) : ∀ k name, rank name < k → (D.unit name).isSome →
    ∃ f, ∀ ids cache, (perform D typed f name ids cache).isSome := by
  intro k
  induction k with
  | zero => intro name h; omega
  | succ k ih =>
    intro name hk hu
    obtain ⟨u, hu⟩ := Option.isSome_iff_exists.mp hu
    obtain ⟨f, hf⟩ := performStmts_ends typed u.entity.stmts (by
      intro s hs r e ty os hin
      have hlt := hr name u hu s hs r e ty os hin
      refine ih e.name (by omega) ?_
      obtain ⟨op, n, u', _, _, hu', _, rfl⟩ := inlined_spec hin
      rw [hD.named n u' hu', hu']; rfl)
    refine ⟨f + 1, ?_⟩
    intro ids cache
    simp only [perform]
    cases cache.lookup name with
    | some its => rfl
    | none =>
      simp only [hu]
      obtain ⟨⟨t, i1, c1⟩, h1⟩ := Option.isSome_iff_exists.mp (hf [] ids cache)
      rw [h1]; rfl

theorem performAll_ends {D : Design Op Ty C Ini} (hD : D.Ok) {rank : String → Nat} (hr : D.Acyclic rank)
    (typed : Typed) (names : List String) (hn : ∀ n ∈ names, (D.unit n).isSome) :
    ∃ f, ∀ g, f ≤ g → ∀ ids cache, (performAll D typed g names ids cache).isSome := by
  induction names with
  | nil => exact ⟨0, by intros; rfl⟩
  | cons n names ih =>
    obtain ⟨f, hf⟩ := ih (fun n hm => hn n (List.mem_cons_of_mem _ hm))
    have hun := hn n (List.mem_cons_self ..)
    obtain ⟨g, hg⟩ := perform_ends hD hr typed _ n (Nat.lt_succ_self _) hun
    refine ⟨max f g, ?_⟩
    intro m hm ids cache
    obtain ⟨u, hu⟩ := Option.isSome_iff_exists.mp hun
    obtain ⟨⟨t, i1, c1⟩, h1⟩ := Option.isSome_iff_exists.mp (hg ids cache)
    obtain ⟨⟨t2, i2⟩, h2⟩ := Option.isSome_iff_exists.mp (hf m (by omega) i1 c1)
    simp only [performAll, hu, Option.bind_eq_bind, Option.bind_some]
    rw [perform_le (by omega) h1]
    simp only [Option.bind_some]
    rw [h2]; rfl

/-- No internal error: the output of an inlined unit always has a new name. -/
theorem finalizeItems_some {D : Design Op Ty C Ini} (hD : D.Ok) {ss : List (Stmt Op Ty C Ini)}
    {items : List (Item Op Ty C Ini)} (h : Built D ss items) : ∀ (m : NMap) (ids : Ids), Arity D ss →
    (finalizeItems m ids items).isSome := by
  induction h with
  | nil => intros; rfl
  | @normal cur ss items _ _ ih =>
    intro m ids har
    obtain ⟨⟨o, i⟩, h⟩ := Option.isSome_iff_exists.mp (ih m ids (fun s hs => har s (by simp [hs])))
    simp [finalizeItems, finalizeItem, h]
  | @call s ss r e ty os target items nameMap tk hin _ hkeys _ ih1 ih2 =>
    intro m ids har
    obtain ⟨op, n, u, rfl, _, hu, hi, rfl⟩ := inlined_spec hin
    have hlen := har _ (by simp) _ _ _ _ hin
    have hget : ((NMap.collect ((freshAll ids (nameMap.keys ++ m.keys ++ tk)).1 ++
        (u.entity.inputNames.zip os).map (fun e => (e.1, finalName m e.2)))).get u.entity.output).isSome := by
      have hinfst : ((u.entity.inputNames.zip os).map (fun e => (e.1, finalName m e.2))).map (·.1)
          = u.entity.inputNames := by rw [List.map_map]; exact zip_map_fst hlen
      by_cases ho : u.entity.output ∈ u.entity.inputNames
      · rw [← hinfst] at ho
        obtain ⟨⟨k, v⟩, hp, hk⟩ := List.mem_map.mp ho
        simp only at hk
        subst hk
        rw [newMap_input (by rw [hinfst]; exact (hD.inputs n u hu hi).1) hp]; rfl
      · have hd := (hD.closed n u hu hi).2.resolve_left ho
        obtain ⟨v, hv, _⟩ := newMap_other
          (drawn := (freshAll ids (nameMap.keys ++ m.keys ++ tk)).1)
          (ins := (u.entity.inputNames.zip os).map (fun e => (e.1, finalName m e.2)))
          (k := u.entity.output) (by rw [hinfst]; exact ho)
          (by rw [(freshAll_spec _ ids).2.1]; simp [hkeys _ hd])
        rw [hv]; rfl
    obtain ⟨res, hres⟩ := Option.isSome_iff_exists.mp hget
    obtain ⟨⟨o1, i1⟩, h1⟩ := Option.isSome_iff_exists.mp (ih1
      (NMap.collect ((freshAll ids (nameMap.keys ++ m.keys ++ tk)).1 ++
        (u.entity.inputNames.zip os).map (fun e => (e.1, finalName m e.2))))
      (freshAll ids (nameMap.keys ++ m.keys ++ tk)).2 (hD.arity n u hu))
    obtain ⟨⟨o2, i2⟩, h2⟩ := Option.isSome_iff_exists.mp (ih2 m i1 (fun s hs => har s (by simp [hs])))
    simp only [finalizeItems, finalizeItem, Option.bind_eq_bind]
    rw [hres]
    simp only [Option.bind_some, h1, h2, Option.isSome_some]

theorem finalizeAll_some {D : Design Op Ty C Ini} (hD : D.Ok) :
    ∀ (all : List (Entity Op Ty C Ini × List (Item Op Ty C Ini))) (ids : Ids),
    (∀ p ∈ all, Built D p.1.stmts p.2 ∧ Arity D p.1.stmts) → (finalizeAll all ids).isSome := by
  intro all
  induction all with
  | nil => intros; rfl
  | cons p all ih =>
    intro ids h
    obtain ⟨e, items⟩ := p
    obtain ⟨hb, ha⟩ := h _ (List.mem_cons_self ..)
    obtain ⟨⟨o1, i1⟩, h1⟩ := Option.isSome_iff_exists.mp (finalizeItems_some hD hb [] ids ha)
    obtain ⟨o2, h2⟩ := Option.isSome_iff_exists.mp (ih i1 (fun p hp => h p (List.mem_cons_of_mem _ hp)))
    simp only [finalizeAll, Option.bind_eq_bind]
    rw [h1]
    simp only [Option.bind_some, h2, Option.isSome_some]

/-- **C33, termination.**  If no unit to be inlined instantiates itself, directly or through others,
inlining ends without an internal error, whatever the trackers. -/
theorem C33_terminates (D : Design Op Ty C Ini) (hD : D.Ok) (rank : String → Nat) (hr : D.Acyclic rank)
    (typed : Typed) (names : List String) (hn : ∀ n ∈ names, (D.unit n).isSome) :
    ∃ f, ∀ g, f ≤ g → ∀ ids, (doInlining D typed g names ids).isSome := by
  obtain ⟨f, hf⟩ := performAll_ends hD hr typed names hn
  refine ⟨f, ?_⟩
  intro g hg ids
  obtain ⟨⟨all, ids1⟩, h1⟩ := Option.isSome_iff_exists.mp (hf g hg ids [])
  obtain ⟨_, h2, h3⟩ := performAll_spec hD typed g names ids [] all ids1
    (by intro n items u hl; simp at hl) h1
  simp only [doInlining, Option.bind_eq_bind, h1, Option.bind_some]
  refine finalizeAll_some hD all ids1 ?_
  intro p hp
  refine ⟨h2 p hp, ?_⟩
  have : ∀ (names : List String) (l : List (Entity Op Ty C Ini)),
      Each (fun n p => ∃ u, D.unit n = some u ∧ u.entity = p) names l → ∀ e ∈ l, Arity D e.stmts := by
    intro names l hl
    induction hl with
    | nil => simp
    | cons hr _ ih =>
      intro e he
      rcases List.mem_cons.mp he with rfl | he
      · obtain ⟨u, hu, rfl⟩ := hr
        exact hD.arity _ u hu
      · exact ih e he
  exact this names _ h3 p.1 (List.mem_map_of_mem hp)

end Spade.Inline

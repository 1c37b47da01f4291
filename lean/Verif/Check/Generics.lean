import Verif.Check.Basics

/-!
# Generic lists are sound (C51)
-/

namespace Spade.Check

open Spade.Infer.Spec (Kind Base GT Val TExpr Value LeastUint)
open Spade.Infer (CE VState Proper groundSeen Satisfies evalVal evaluate)

section
variable {Δ : Decls}

theorem paramVars_snd (c : Cfg) (prev : GL) : ∀ (ps : List (String × Kind)) (ts : List (Option TExp)),
    Snd c.Δ (paramVars c prev ps ts) (fun gl F => gl.map (·.1) = ps.map (·.1) ∧
      ∀ (i : Nat) (p : String × Kind), ps[i]? = some p → ∃ v, gl[i]? = some (p.1, v) ∧
        p.2.Holds (F.V v).head.val ∧
        ∀ te, ts[i]? = some (some te) → te.Is (prev.vals F.V) (F.V v))
  | [], _ => by
    unfold paramVars
    exact Snd.pure (fun F => ⟨rfl, fun i p h => by simp at h⟩)
  | (n, k) :: ps, some te :: ts => by
    unfold paramVars
    refine (addVar_snd _).bind (fun v => (expVar_snd prev te).bind (fun w => (uni_snd c w v).bind
      (fun _ => (paramVars_snd c prev ps ts).bind (fun rest => Snd.pure
        (fun F h1 h2 h3 h4 => ⟨by simp [h1.1], ?_⟩)))))
    intro i p hp
    cases i with
    | zero =>
      simp only [List.getElem?_cons_zero, Option.some.injEq] at hp
      subst hp
      refine ⟨v, by simp, h4.1, ?_⟩
      intro te' ht
      simp only [List.getElem?_cons_zero, Option.some.injEq] at ht
      subst ht
      rw [← h2]
      exact h3
    | succ i =>
      simp only [List.getElem?_cons_succ] at hp ⊢
      exact h1.2 i p hp
  | (n, k) :: ps, none :: ts => by
    unfold paramVars
    refine (addVar_snd _).bind (fun v => (paramVars_snd c prev ps ts).bind (fun rest => Snd.pure
      (fun F h1 h4 => ⟨by simp [h1.1], ?_⟩)))
    intro i p hp
    cases i with
    | zero =>
      simp only [List.getElem?_cons_zero, Option.some.injEq] at hp
      subst hp
      exact ⟨v, by simp, h4.1, fun te' ht => by simp at ht⟩
    | succ i =>
      simp only [List.getElem?_cons_succ] at hp ⊢
      exact h1.2 i p hp
  | (n, k) :: ps, [] => by
    unfold paramVars
    refine (addVar_snd _).bind (fun v => (paramVars_snd c prev ps []).bind (fun rest => Snd.pure
      (fun F h1 h4 => ⟨by simp [h1.1], ?_⟩)))
    intro i p hp
    cases i with
    | zero =>
      simp only [List.getElem?_cons_zero, Option.some.injEq] at hp
      subst hp
      exact ⟨v, by simp, h4.1, fun te' ht => by simp at ht⟩
    | succ i =>
      simp only [List.getElem?_cons_succ] at hp
      obtain ⟨v', h5, h6, _⟩ := h1.2 i p hp
      exact ⟨v', by simpa using h5, h6, fun te' ht => by simp at ht⟩

theorem var_of_index {gl : GL} (hn : repeatsS (gl.map (·.1)) = false) {i : Nat} {n : String} {v : Nat}
    (h : gl[i]? = some (n, v)) : gl.var n = some v := by
  unfold GL.var
  induction gl generalizing i with
  | nil => simp at h
  | cons p gl ih =>
    obtain ⟨m, w⟩ := p
    simp only [List.map_cons, repeatsS, Bool.or_eq_false_iff, decide_eq_false_iff_not] at hn
    cases i with
    | zero =>
      simp only [List.getElem?_cons_zero, Option.some.injEq, Prod.mk.injEq] at h
      obtain ⟨rfl, rfl⟩ := h
      simp [List.lookup]
    | succ i =>
      simp only [List.getElem?_cons_succ] at h
      have hm : n ≠ m := by
        rintro rfl
        exact hn.1 (List.mem_map.2 ⟨_, List.mem_of_getElem? h, rfl⟩)
      have : (n == m) = false := by simp [hm]
      simp only [List.lookup, this]
      exact ih hn.2 h

theorem boundVars_snd (gl : GL) : ∀ bs : List (Nat × List TExp),
    Snd Δ (boundVars gl bs) (fun ts F => ∀ b ∈ bs, ∃ vs, (b.1, vs) ∈ ts ∧
      TExp.Are (gl.vals F.V) b.2 (vs.map F.V))
  | [] => by
    unfold boundVars
    exact Snd.pure (fun F b h => (nomatch h))
  | b :: bs => by
    unfold boundVars
    refine (expVars_snd gl b.2).bind (fun vs => (boundVars_snd gl bs).bind (fun rest =>
      Snd.pure (fun F h1 h2 b' hb => ?_)))
    rcases List.mem_cons.1 hb with rfl | hb
    · exact ⟨vs, by simp, h2⟩
    · obtain ⟨vs', h3, h4⟩ := h1 b' hb
      exact ⟨vs', by simp [h3], h4⟩

theorem boundVars_ne {gl : GL} {bs : List (Nat × List TExp)} {S S' : St} {ts : Traits}
    (h : boundVars gl bs S = .ok ts S') (he : ts.isEmpty = true) : bs = [] := by
  cases bs with
  | nil => rfl
  | cons b bs =>
    unfold boundVars at h
    obtain ⟨_, _, _, h1⟩ := bind_eq_ok.1 h
    obtain ⟨_, _, _, h2⟩ := bind_eq_ok.1 h1
    obtain ⟨rfl, _⟩ := pure_eq_ok.1 h2
    simp at he

theorem GL.var_set (gl : GL) (g : String) (v : Nat) (n : String) :
    (gl.set g v).var n = if n = g then (gl.var g).map (fun _ => v) else gl.var n := by
  unfold GL.var GL.set
  induction gl with
  | nil => simp
  | cons p gl ih =>
    obtain ⟨m, w⟩ := p
    by_cases h1 : m = g
    · subst h1
      by_cases h2 : n = m
      · subst h2
        simp [List.lookup]
      · have : (n == m) = false := by simp [h2]
        simp only [List.map_cons, if_true, List.lookup, this, ih, if_neg h2]
    · simp only [List.map_cons, if_neg h1]
      by_cases h2 : n = m
      · subst h2
        simp [List.lookup, h1]
      · have h3 : (n == m) = false := by simp [h2]
        have h4 : (g == m) = false := by simp [Ne.symm h1]
        simp only [List.lookup, h3, h4, ih]

theorem addBounds_snd (gl : GL) (free : Bool) (target : String) (ts : Traits) :
    Snd Δ (addBounds gl free target ts) (fun gl' F => gl'.vals F.V = gl.vals F.V ∧
      (free = true → ∃ t, gl.vals F.V target = some t ∧
        ∀ b ∈ ts, Implements Δ.impls t b.1 (b.2.map F.V))) := by
  unfold addBounds
  cases hv : gl.var target with
  | none => exact Snd.err
  | some v =>
    intro S gl' S' hw he
    obtain ⟨tv, S1, h1, h2⟩ := bind_eq_ok.1 he
    obtain ⟨rfl, hg, hb⟩ := getVar_eq h1
    cases tv with
    | known b ps =>
      simp only at h2
      obtain ⟨x, S2, h3, h4⟩ := bind_eq_ok.1 h2
      obtain ⟨rfl, rfl⟩ := pure_eq_ok.1 h4
      refine (setLost_snd free _ _ _ hw h3).mono (fun F h5 => ⟨rfl, fun h => ?_⟩)
      rw [h5] at h
      exact nomatch h
    | unknown k ts' =>
      simp only at h2
      obtain ⟨new, S2, h3, h4⟩ := bind_eq_ok.1 h2
      obtain ⟨rfl, rfl⟩ := pure_eq_ok.1 h4
      unfold boundReplace at h3
      simp only at h3
      split at h3
      next hc =>
        obtain ⟨hr, hl, rfl⟩ := hc
        split at h3
        next new' S3 ha =>
          injection h3 with h5 h6
          subst h5 h6
          obtain ⟨hf, rfl, rfl⟩ := addVar_eq ha
          have hw3 := addVar_wf hw hf
          refine ⟨bind_wf hw3 (by simp; omega), ?_, rfl, ?_⟩
          · exact Grows.trans ⟨[_], rfl⟩ bind_grows
          · intro X F hX hF
            obtain ⟨h7, h8⟩ := bind_fin (S := { S1 with vars := S1.vars ++ [_] }) hr hF
            have hn : S1.res S1.vars.length = S1.vars.length := hw.out _ (Nat.le_refl _)
            have hnew := h7.root S1.vars.length (.unknown .type (ts' ++ ts)) (by
                intro h
                simp only [hn] at h
                rcases List.mem_cons.1 h with h | h
                · omega
                · obtain ⟨k, ts, h'⟩ := hw.busy _ (hX _ h)
                  simp at h') (by
                unfold St.get
                simp only
                rw [hn]
                simp)
            have hold : ∀ tv, (S1.vars ++ [TV.unknown .type (ts' ++ ts)])[v]? = some tv →
                tv.Holds Δ.impls F.V (F.V v) := by
              intro tv ht
              unfold St.get at hg
              rw [hr] at hg
              rw [List.getElem?_append_left hl, hg] at ht
              cases ht
              rw [h8]
              exact ⟨hnew.1, fun tr htr => hnew.2 tr (List.mem_append_left _ htr)⟩
            have h9 := h7.drop hold
            refine ⟨((addVar_snd _) S1 _ _ hw ha).back X F hX h9 |>.1, ?_, ?_⟩
            · funext n
              unfold GL.vals
              rw [GL.var_set]
              split
              next h => subst h; rw [hv]; simp [h8]
              · rfl
            · intro _
              refine ⟨F.V v, by simp [GL.vals, hv], ?_⟩
              intro b hb'
              rw [h8]
              exact hnew.2 b (List.mem_append_right _ hb')
        · exact nomatch h3
        · exact nomatch h3
      · exact nomatch h3

theorem visitWhere_snd (free : String → Bool) (gl : GL) (w : Where) :
    Snd Δ (visitWhere free gl w) (fun gl' F => gl'.vals F.V = gl.vals F.V ∧
      w.Ok Δ (fun g => free g = true) (gl.vals F.V)) := by
  cases w with
  | bound target bs =>
    unfold visitWhere
    intro S gl' S' hw he
    obtain ⟨ts, S1, h1, h2⟩ := bind_eq_ok.1 he
    have p1 := boundVars_snd (Δ := Δ) gl bs _ _ _ hw h1
    have p2 : Post Δ S1 S' (fun F => (∀ b ∈ bs, ∃ vs, (b.1, vs) ∈ ts ∧
        TExp.Are (gl.vals F.V) b.2 (vs.map F.V)) → gl'.vals F.V = gl.vals F.V ∧
        (Where.bound target bs).Ok Δ (fun g => free g = true) (gl.vals F.V)) := by
      split at h2
      next hte =>
        obtain ⟨rfl, rfl⟩ := pure_eq_ok.1 h2
        refine Post.refl p1.wf (fun F _ => ⟨rfl, ?_⟩)
        rw [boundVars_ne h1 hte]
        intro _ b hb
        exact nomatch hb
      · refine (addBounds_snd gl (free target) target ts _ _ _ p1.wf h2).mono (fun F h3 h4 => ?_)
        refine ⟨h3.1, fun hf b hb => ?_⟩
        obtain ⟨t, h5, h6⟩ := h3.2 hf
        obtain ⟨vs, h7, h8⟩ := h4 b hb
        exact ⟨t, _, h5, h8, h6 _ h7⟩
    exact (p1.trans p2).mono (fun F h => h.2 h.1)
  | eq target e =>
    unfold visitWhere
    simp only
    split
    next v ce hv hc =>
      refine (addCon_const hc v).bind (fun _ => Snd.pure (fun F h => ⟨rfl, ?_⟩))
      exact ⟨F.V v, by simp [GL.vals, hv], h⟩
    · exact Snd.err
  | cmp k target e =>
    unfold visitWhere
    simp only
    split
    next v ce hv hc =>
      refine (addVar_snd _).bind (fun r => (addCon_const hc r).bind (fun _ =>
        (addReq_snd _).bind (fun _ => Snd.pure (fun F h1 h2 h3 => ⟨rfl, ?_⟩))))
      obtain ⟨x, y, h4, h5, h6⟩ := h1
      rw [h5] at h2
      exact ⟨x, y, by simp [GL.vals, hv, h4], h2, h6⟩
    · exact Snd.err

theorem visitWheres_snd (free : String → Bool) : ∀ (ws : List Where) (gl : GL),
    Snd Δ (visitWheres free gl ws) (fun gl' F => gl'.vals F.V = gl.vals F.V ∧
      ∀ w ∈ ws, w.Ok Δ (fun g => free g = true) (gl.vals F.V))
  | [], gl => by
    unfold visitWheres
    exact Snd.pure (fun F => ⟨rfl, fun w h => (nomatch h)⟩)
  | w :: ws, gl => by
    unfold visitWheres
    refine (visitWhere_snd free gl w).bind (fun gl1 => (visitWheres_snd free ws gl1).mono
      (fun gl' F h1 h2 => ⟨h1.1.trans h2.1, fun w' hw => ?_⟩))
    rcases List.mem_cons.1 hw with rfl | hw
    · exact h2.2
    · rw [← h2.1]; exact h1.2 w' hw

theorem freeIn_iff (ps : List (String × Kind)) (ts : List (Option TExp)) (g : String) :
    freeIn ps ts g = true ↔ FreeIn ps ts g := by
  unfold freeIn FreeIn
  rw [List.all_eq_true]
  constructor
  · intro h p te hm
    have := h _ hm
    simpa using this
  · rintro h ⟨p, o⟩ hm
    cases o with
    | none => simp
    | some te => simpa using h p te hm

theorem where_free {free free' : String → Prop} (h : ∀ g, free' g → free g) {θ : Generics} {w : Where}
    (hw : w.Ok Δ free θ) : w.Ok Δ free' θ := by
  cases w with
  | bound target bs => exact fun hf => hw (h _ hf)
  | eq => exact hw
  | cmp => exact hw

theorem createGenericList_snd (c : Cfg) (prev : GL) (ps : List (String × Kind)) (ws : List Where)
    (ts : List (Option TExp)) : Snd c.Δ (createGenericList c prev ps ws ts) (fun gl F =>
      GenericsOk c.Δ (prev.vals F.V) ps ws ts (gl.vals F.V)) := by
  unfold createGenericList
  split
  · exact Snd.stuck
  next hr =>
    refine (paramVars_snd c prev ps ts).bind (fun gl1 => (visitWheres_snd (freeIn ps ts) ws gl1).mono
      (fun gl F h1 h2 => ?_))
    have hr' : repeatsS (gl1.map (·.1)) = false := by rw [h2.1]; simpa using hr
    refine ⟨?_, ?_, ?_⟩
    · intro p hp
      obtain ⟨i, hi⟩ := List.mem_iff_getElem?.1 hp
      obtain ⟨v, h3, h4, _⟩ := h2.2 i p hi
      exact ⟨F.V v, by rw [h1.1]; simp [GL.vals, var_of_index hr' h3], h4⟩
    · intro p te hm
      obtain ⟨i, hi⟩ := List.mem_iff_getElem?.1 hm
      rw [List.getElem?_zip_eq_some] at hi
      obtain ⟨v, h3, _, h4⟩ := h2.2 i p hi.1
      exact ⟨F.V v, by rw [h1.1]; simp [GL.vals, var_of_index hr' h3], h4 te hi.2⟩
    · intro w hw
      rw [h1.1]
      exact where_free (fun g h => (freeIn_iff ps ts g).2 h) (h1.2 w hw)

end

end Spade.Check

import Verif.Pipe.Model

/-
The substitution table built by `lower_pipeline`: which signal stands for a variable in which stage.
-/

namespace Spade.Pipe

/-- A variable of the pipeline: where it is bound and how many stages later it is ready. -/
structure Decl where
  v : Var
  stage : Nat
  delay : Nat

/-- The substitution in stage `k`. -/
def Subs.at (s : Subs) (k : Nat) (x : Name) : Option Sub := get (s.inner[k]?.getD []) x

/-- What the table should say about a variable in stage `k`. -/
def Expect (D : Decl) (k : Nat) (o : Option Sub) : Prop :=
  if k < D.stage then o = none
  else if D.v.wire then o = some .wire
  else if D.v.zeroSized then o = some .zeroSized
  else if k < D.stage + D.delay then
    o = some (.waiting (D.stage + D.delay - k) D.stage (D.stage + D.delay) D.v.name)
  else if k = D.stage + D.delay then o = some (.available D.v.name)
  else ∃ n, o = some (.available n)

/-- There is a register from `p` to `n`, enabled by the enable signal of stage `k` if there is one. -/
def RegIn (enables : List (Option Sig)) (es : List Eqn) (k : Nat) (p n : Name) : Prop :=
  (enables[k]? = some none ∧ Eqn.reg (.name n) (.sig (.name p)) ∈ es) ∨
  (∃ en id, enables[k]? = some (some en) ∧
    Eqn.select (.expr id) en (.name p) (.name n) ∈ es ∧ Eqn.reg (.name n) (.sig (.expr id)) ∈ es)

theorem RegIn.mono {enables es es' k p n} (h : RegIn enables es k p n) (hs : ∀ e ∈ es, e ∈ es') :
    RegIn enables es' k p n := by
  rcases h with ⟨h1, h2⟩ | ⟨en, id, h1, h2, h3⟩
  · exact .inl ⟨h1, hs _ h2⟩
  · exact .inr ⟨en, id, h1, hs _ h2, hs _ h3⟩

/-- The invariant of `handle_statement`. -/
structure Inv (enables : List (Option Sig)) (decls : List Decl) (st : St) : Prop where
  len : st.subs.inner.length = st.stage + 1
  cur : st.subs.cur = 0
  live : st.subs.live = decls.map (·.v.name)
  nodup : (decls.map (·.v.name)).Nodup
  stages : ∀ D ∈ decls, D.stage ≤ st.stage
  undecl : ∀ x, x ∉ decls.map (·.v.name) → ∀ k, st.subs.at k x = none
  entries : ∀ D ∈ decls, ∀ k, k ≤ st.stage → Expect D k (st.subs.at k D.v.name)
  regs : ∀ D ∈ decls, D.v.wire = false → D.v.zeroSized = false →
    ∀ k, D.stage + D.delay ≤ k → k + 1 ≤ st.stage →
    ∃ p n, st.subs.at k D.v.name = some (.available p) ∧
      st.subs.at (k + 1) D.v.name = some (.available n) ∧ RegIn enables st.eqns k p n
  conds : st.conds.length = st.stage

theorem get_cons (m : List (Name × Sub)) (x y : Name) (s : Sub) :
    get ((y, s) :: m) x = if y = x then some s else get m x := rfl

theorem Subs.last_at {s : Subs} {k : Nat} (h : s.inner.length = k + 1) (x : Name) :
    get s.last x = s.at k x := by
  unfold Subs.last Subs.at
  rw [List.getLast?_eq_getElem?, h]
  rfl

/-- Adding an entry to the last stage. -/
theorem Subs.at_insertLast {s : Subs} {K : Nat} (h : s.inner.length = K + 1) (y : Name) (sub : Sub)
    (k : Nat) (x : Name) :
    (s.insertLast y sub).at k x = if k = K ∧ y = x then some sub else s.at k x := by
  have hl : s.inner.dropLast.length = K := by rw [List.length_dropLast, h]; rfl
  unfold Subs.insertLast
  simp only [Subs.at]
  rcases Nat.lt_trichotomy k K with hk | hk | hk
  · rw [List.getElem?_append_left (by omega), if_neg (by omega), List.getElem?_dropLast,
      if_pos (by omega)]
  · subst hk
    rw [List.getElem?_append_right (by omega), hl, Nat.sub_self]
    simp only [List.getElem?_cons_zero, Option.getD_some, get_cons, true_and]
    split
    · rfl
    · exact Subs.last_at h x
  · rw [List.getElem?_eq_none (by simp [h]; omega), List.getElem?_eq_none (by omega),
      if_neg (by omega)]

theorem Subs.length_insertLast {s : Subs} {K : Nat} (h : s.inner.length = K + 1) (y : Name)
    (sub : Sub) : (s.insertLast y sub).inner.length = K + 1 := by
  unfold Subs.insertLast
  simp only [List.length_append, List.length_dropLast, h, List.length_singleton]
  omega

/-- Binding one variable of a pattern. -/
theorem Inv.bindVar {enables decls st} (h : Inv enables decls st) (v : Var) (time : Nat)
    (hv : v.name ∉ decls.map (·.v.name)) :
    Inv enables (decls ++ [⟨v, st.stage, time⟩])
      { st with subs := Pipe.bindVar time st.stage st.subs v } := by
  obtain ⟨sub, hsubs, hsub⟩ : ∃ sub, Pipe.bindVar time st.stage st.subs v =
      ({ st.subs with live := st.subs.live ++ [v.name] }).insertLast v.name sub ∧
      Expect ⟨v, st.stage, time⟩ st.stage (some sub) := by
    unfold Pipe.bindVar
    split
    · next hw => exact ⟨.wire, rfl, by simp [Expect, hw]⟩
    · next hw =>
      refine ⟨_, rfl, ?_⟩
      simp only [Expect, Nat.lt_irrefl, if_false, hw]
      cases v.zeroSized with
      | true => simp
      | false =>
        by_cases ht : time = 0
        · simp [ht]
        · have : st.stage < st.stage + time := by omega
          simp [ht, this]
  have hlen : ({ st.subs with live := st.subs.live ++ [v.name] } : Subs).inner.length
      = st.stage + 1 := h.len
  have hat : ∀ k x, (Pipe.bindVar time st.stage st.subs v).at k x =
      if k = st.stage ∧ v.name = x then some sub else st.subs.at k x := by
    intro k x
    rw [hsubs, Subs.at_insertLast hlen]
    rfl
  have hne : ∀ D ∈ decls, v.name ≠ D.v.name := by
    intro D hD he
    exact hv (he ▸ List.mem_map.2 ⟨D, hD, rfl⟩)
  refine ⟨?_, ?_, ?_, ?_, ?_, ?_, ?_, ?_, h.conds⟩
  · simp only [hsubs]
    exact Subs.length_insertLast hlen _ _
  · simp only [hsubs]
    exact h.cur
  · simp only [hsubs, List.map_append, List.map_cons, List.map_nil]
    show st.subs.live ++ [v.name] = _
    rw [h.live]
  · simp only [List.map_append, List.map_cons, List.map_nil]
    refine List.nodup_append.2 ⟨h.nodup, by simp, ?_⟩
    intro a ha b hb
    rw [List.mem_singleton.1 hb]
    rintro rfl
    exact hv ha
  · intro D hD
    rcases List.mem_append.1 hD with hD | hD
    · exact h.stages D hD
    · rw [List.mem_singleton.1 hD]
      exact Nat.le_refl _
  · intro x hx k
    simp only [List.map_append, List.map_cons, List.map_nil, List.mem_append, List.mem_singleton,
      not_or] at hx
    rw [hat, if_neg (fun hc => hx.2 hc.2.symm)]
    exact h.undecl x hx.1 k
  · intro D hD k hk
    simp only [hat]
    rcases List.mem_append.1 hD with hD | hD
    · rw [if_neg (fun hc => hne D hD hc.2)]
      exact h.entries D hD k hk
    · rw [List.mem_singleton.1 hD]
      by_cases hk' : k = st.stage
      · rw [if_pos ⟨hk', rfl⟩, hk']
        exact hsub
      · rw [if_neg (fun hc => hk' hc.1), h.undecl _ hv]
        have : k < st.stage := by simp only at hk; omega
        simp [Expect, this]
  · intro D hD hw hz k hk1 hk2
    simp only [hat]
    rcases List.mem_append.1 hD with hD | hD
    · rw [if_neg (fun hc => hne D hD hc.2), if_neg (fun hc => hne D hD hc.2)]
      exact h.regs D hD hw hz k hk1 hk2
    · rw [List.mem_singleton.1 hD] at hk1
      simp only at hk1 hk2
      omega

/-- The declarations made by a pattern. -/
def declsOf (stage time : Nat) (vars : List Var) : List Decl := vars.map fun v => ⟨v, stage, time⟩

/-- Binding all variables of a pattern. -/
theorem Inv.bindVars {enables} (time stage : Nat) : ∀ (vars : List Var) {decls st},
    Inv enables decls st → st.stage = stage →
    (decls.map (·.v.name) ++ vars.map (·.name)).Nodup →
    Inv enables (decls ++ declsOf stage time vars)
      { st with subs := vars.foldl (Pipe.bindVar time stage) st.subs }
  | [], decls, st, h, _, _ => by simpa [declsOf] using h
  | v :: vs, decls, st, h, hs, hn => by
    subst hs
    have hv : v.name ∉ decls.map (·.v.name) := by
      intro hmem
      have := (List.nodup_append.1 hn).2.2 _ hmem v.name (by simp)
      exact this rfl
    have h1 := h.bindVar v time hv
    have h2 := Inv.bindVars time st.stage vs h1 rfl (by simpa using hn)
    simpa [declsOf] using h2

/-- What `next_stage` makes of the substitution of a variable. -/
def Advanced (o o' : Option Sub) (x : Name) (regs : List SubRegister) : Prop :=
  match o with
  | some (.waiting left a b defn) =>
    o' = if left = 1 then some (.available defn) else some (.waiting (left - 1) a b defn)
  | some (.available p) => ∃ n, o' = some (.available n) ∧ ⟨x, p, n⟩ ∈ regs
  | some .wire => o' = some .wire
  | some .zeroSized => o' = some .zeroSized
  | none => False

theorem Advanced.mono {o o' x regs regs'} (h : Advanced o o' x regs)
    (hs : ∀ r ∈ regs, r ∈ regs') : Advanced o o' x regs' := by
  match o with
  | some (.waiting ..) => exact h
  | some (.available p) =>
    obtain ⟨n, h1, h2⟩ := h
    exact ⟨n, h1, hs _ h2⟩
  | some .wire => exact h
  | some .zeroSized => exact h
  | none => exact h

theorem nextStageLoop_spec {last : List (Name × Sub)} : ∀ (xs : List Name) {nid regs new nid' regs' new'},
    xs.Nodup → nextStageLoop last xs nid regs new = some (nid', regs', new') →
    (∀ r ∈ regs, r ∈ regs') ∧
    (∀ x, x ∉ xs → get new' x = get new x) ∧
    (∀ x ∈ xs, Advanced (get last x) (get new' x) x regs')
  | [], nid, regs, new, nid', regs', new', _, h => by
    simp only [nextStageLoop, Option.some.injEq, Prod.mk.injEq] at h
    obtain ⟨rfl, rfl, rfl⟩ := h
    exact ⟨fun _ h => h, fun _ _ => rfl, fun x hx => by cases hx⟩
  | y :: ys, nid, regs, new, nid', regs', new', hn, h => by
    have hn' := List.nodup_cons.1 hn
    have key : ∀ {nid1 regs1 sub}, (∀ r ∈ regs, r ∈ regs1) →
        Advanced (get last y) (some sub) y regs1 →
        nextStageLoop last ys nid1 regs1 ((y, sub) :: new) = some (nid', regs', new') →
        (∀ r ∈ regs, r ∈ regs') ∧
        (∀ x, x ∉ y :: ys → get new' x = get new x) ∧
        (∀ x ∈ y :: ys, Advanced (get last x) (get new' x) x regs') := by
      intro nid1 regs1 sub h1 h2 h3
      obtain ⟨h4, h5, h6⟩ := nextStageLoop_spec ys hn'.2 h3
      refine ⟨fun r hr => h4 r (h1 r hr), fun x hx => ?_, fun x hx => ?_⟩
      · rw [h5 x (fun hc => hx (List.mem_cons_of_mem _ hc)), get_cons, if_neg]
        rintro rfl
        exact hx List.mem_cons_self
      · rcases List.mem_cons.1 hx with rfl | hx
        · rw [h5 x hn'.1, get_cons, if_pos rfl]
          exact h2.mono h4
        · exact h6 x hx
    unfold nextStageLoop at h
    split at h
    · exact (nomatch h)
    · next left orig av defn hg =>
      split at h
      · next hl => exact key (fun _ h => h) (by simp [Advanced, hg, hl]) h
      · next hl => exact key (fun _ h => h) (by simp [Advanced, hg, hl]) h
    · next p hg =>
      refine key (fun r hr => List.mem_append_left _ hr) ?_ h
      simp only [Advanced, hg]
      exact ⟨nid, rfl, by simp⟩
    · next hg => exact key (fun _ h => h) (by simp [Advanced, hg]) h
    · next hg => exact key (fun _ h => h) (by simp [Advanced, hg]) h

theorem nextStage_spec {s s' : Subs} {nid nid' regs} (hn : s.live.Nodup)
    (h : nextStage s nid = some (nid', regs, s')) :
    s'.live = s.live ∧ s'.cur = s.cur ∧ ∃ new, s'.inner = s.inner ++ [new] ∧
      (∀ x, x ∉ s.live → get new x = none) ∧
      (∀ x ∈ s.live, Advanced (get s.last x) (get new x) x regs) := by
  unfold nextStage at h
  split at h
  · exact (nomatch h)
  · next nid1 regs1 new hl =>
    simp only [Option.some.injEq, Prod.mk.injEq] at h
    obtain ⟨rfl, rfl, rfl⟩ := h
    obtain ⟨_, h2, h3⟩ := nextStageLoop_spec _ hn hl
    exact ⟨rfl, rfl, new, rfl, fun x hx => h2 x hx, h3⟩

theorem allRegEqns_mem (enable : Option Sig) : ∀ (rs : List SubRegister) (eid : Nat) {r},
    r ∈ rs → 
    (enable = none ∧ Eqn.reg (.name r.new) (.sig (.name r.previous)) ∈ (allRegEqns enable eid rs).2) ∨
    (∃ en id, enable = some en ∧
      Eqn.select (.expr id) en (.name r.previous) (.name r.new) ∈ (allRegEqns enable eid rs).2 ∧
      Eqn.reg (.name r.new) (.sig (.expr id)) ∈ (allRegEqns enable eid rs).2)
  | [], _, r, h => by cases h
  | r' :: rs, eid, r, h => by
    simp only [allRegEqns]
    rcases List.mem_cons.1 h with rfl | h
    · cases enable with
      | none => exact .inl ⟨rfl, List.mem_append_left _ (by simp [regEqns])⟩
      | some en =>
        exact .inr ⟨en, eid, rfl, List.mem_append_left _ (by simp [regEqns]),
          List.mem_append_left _ (by simp [regEqns])⟩
    · rcases allRegEqns_mem enable rs (regEqns enable eid r').1 h with ⟨h1, h2⟩ | ⟨en, id, h1, h2, h3⟩
      · exact .inl ⟨h1, List.mem_append_right _ h2⟩
      · exact .inr ⟨en, id, h1, List.mem_append_right _ h2, List.mem_append_right _ h3⟩

theorem getElem?_append_singleton {α : Type} (l : List α) (a : α) {K : Nat} (h : l.length = K + 1)
    (k : Nat) : (l ++ [a])[k]? = if k = K + 1 then some a else l[k]? := by
  rcases Nat.lt_trichotomy k (K + 1) with hk | hk | hk
  · rw [List.getElem?_append_left (by omega), if_neg (by omega)]
  · rw [List.getElem?_append_right (by omega), if_pos hk, h, hk, Nat.sub_self]
    rfl
  · rw [List.getElem?_eq_none (by simp; omega), List.getElem?_eq_none (by omega),
      if_neg (by omega)]

theorem Inv.marker {enables decls st st'} (h : Inv enables decls st) {cond}
    (hs : handleStatement enables st (.marker cond) = some st') :
    Inv enables decls st' ∧ st'.stage = st.stage + 1 ∧ (∀ e ∈ st.eqns, e ∈ st'.eqns) ∧
    st.stage < enables.length ∧
    ∃ ces lc, condEqns st.subs cond = some (ces, lc) ∧ (∀ e ∈ ces, e ∈ st'.eqns) ∧
      st'.conds = st.conds ++ [lc] := by
  unfold handleStatement at hs
  simp only at hs
  split at hs
  · exact (nomatch hs)
  · next ces lc hc =>
    split at hs
    · exact (nomatch hs)
    · next nid regs subs hn =>
      split at hs
      · exact (nomatch hs)
      · next enable he =>
        simp only [Option.some.injEq] at hs
        subst hs
        have hlt : st.stage < enables.length := by
          rcases Nat.lt_or_ge st.stage enables.length with hl | hl
          · exact hl
          · rw [List.getElem?_eq_none hl] at he
            exact (nomatch he)
        obtain ⟨hlive, hcur, new, hinner, hnew1, hnew2⟩ :=
          nextStage_spec (by rw [h.live]; exact h.nodup) hn
        have hat : ∀ k x, subs.at k x = if k = st.stage + 1 then get new x else st.subs.at k x := by
          intro k x
          simp only [Subs.at, hinner, getElem?_append_singleton _ _ h.len]
          split <;> rfl
        have hlast : ∀ x, get st.subs.last x = st.subs.at st.stage x := Subs.last_at h.len
        have hmem : ∀ D ∈ decls, D.v.name ∈ st.subs.live := by
          intro D hD
          rw [h.live]
          exact List.mem_map.2 ⟨D, hD, rfl⟩
        have hsub : ∀ e ∈ st.eqns, e ∈ st.eqns ++ ces ++ (allRegEqns enable st.eid regs).2 :=
          fun e he => List.mem_append_left _ (List.mem_append_left _ he)
        have hadv : ∀ D ∈ decls,
            Advanced (st.subs.at st.stage D.v.name) (get new D.v.name) D.v.name regs := by
          intro D hD
          have := hnew2 _ (hmem D hD)
          rwa [hlast] at this
        refine ⟨⟨?_, ?_, ?_, h.nodup, ?_, ?_, ?_, ?_, ?_⟩, rfl, hsub, hlt, ces, lc, hc, ?_, rfl⟩
        · simp only [hinner, List.length_append, h.len, List.length_singleton]
        · simp only [hcur]
          exact h.cur
        · simp only [hlive]
          exact h.live
        · intro D hD
          exact Nat.le_succ_of_le (h.stages D hD)
        · intro x hx k
          simp only [hat]
          split
          · exact hnew1 x (by rw [h.live]; exact hx)
          · exact h.undecl x hx k
        · intro D hD k hk
          simp only [hat]
          split
          · next hk' =>
            have h1 := h.entries D hD st.stage (Nat.le_refl _)
            have h2 := hadv D hD
            have h3 := h.stages D hD
            subst hk'
            simp only [Expect, show ¬ st.stage < D.stage by omega,
              show ¬ st.stage + 1 < D.stage by omega, if_false] at h1 ⊢
            split at h1
            · next hw =>
              rw [h1] at h2
              rw [if_pos hw]
              exact h2
            · next hw =>
              rw [if_neg hw]
              split at h1
              · next hz =>
                rw [h1] at h2
                rw [if_pos hz]
                exact h2
              · next hz =>
                rw [if_neg hz]
                split at h1
                · next hd =>
                  rw [h1] at h2
                  simp only [Advanced] at h2
                  by_cases hd' : st.stage + 1 < D.stage + D.delay
                  · rw [if_pos hd', h2, if_neg (by omega), Nat.sub_sub]
                  · rw [if_neg hd', if_pos (by omega), h2, if_pos (by omega)]
                · next hd =>
                  rw [if_neg (by omega), if_neg (by omega)]
                  have : ∃ p, st.subs.at st.stage D.v.name = some (.available p) := by
                    split at h1
                    · exact ⟨_, h1⟩
                    · exact h1
                  obtain ⟨p, hp⟩ := this
                  rw [hp] at h2
                  obtain ⟨n, hn, _⟩ := h2
                  exact ⟨n, hn⟩
          · exact h.entries D hD k (by simp only at hk; omega)
        · intro D hD hw hz k hk1 hk2
          simp only at hk2
          simp only [hat]
          rw [if_neg (by omega)]
          by_cases hk' : k = st.stage
          · subst hk'
            rw [if_pos rfl]
            have h1 := h.entries D hD st.stage (Nat.le_refl _)
            have h3 := h.stages D hD
            simp only [Expect, show ¬ st.stage < D.stage by omega, if_false, hw, hz,
              Bool.false_eq_true, show ¬ st.stage < D.stage + D.delay by omega] at h1
            have : ∃ p, st.subs.at st.stage D.v.name = some (.available p) := by
              split at h1
              · exact ⟨_, h1⟩
              · exact h1
            obtain ⟨p, hp⟩ := this
            have h2 := hadv D hD
            rw [hp] at h2
            obtain ⟨n, hn, hr⟩ := h2
            refine ⟨p, n, hp, hn, ?_⟩
            rcases allRegEqns_mem enable regs st.eid hr with ⟨h4, h5⟩ | ⟨en, id, h4, h5, h6⟩
            · exact .inl ⟨by rw [he, h4], List.mem_append_right _ h5⟩
            · exact .inr ⟨en, id, by rw [he, h4], List.mem_append_right _ h5,
                List.mem_append_right _ h6⟩
          · rw [if_neg (by omega)]
            obtain ⟨p, n, h1, h2, h3⟩ := h.regs D hD hw hz k hk1 (by omega)
            exact ⟨p, n, h1, h2, h3.mono hsub⟩
        · simp only [List.length_append, List.length_singleton, h.conds]
        · exact fun e he => List.mem_append_left _ (List.mem_append_right _ he)

/-- The declarations of a binding have the delay that `available_in` gives, and the lookups made by
`available_in` find only wires as wires. -/
def BindOk (isWire : Name → Bool) (decls : List Decl) (b : Bind) : Prop :=
  ∃ s time, availableIn s b.value = some time ∧
    (∀ x, s.lookup x = .wire ∨ s.lookup x = .zeroSized → isWire x = true) ∧
    ∀ v ∈ b.vars, (⟨v.1, b.stage, time.getD 0⟩ : Decl) ∈ decls

theorem Inv.lookup_wire {enables decls st} (h : Inv enables decls st) {x : Name}
    (hx : st.subs.lookup x = .wire ∨ st.subs.lookup x = .zeroSized) :
    wireIn (decls.map (·.v)) x = true := by
  have hl : st.subs.lookup x = (st.subs.at 0 x).getD (.available x) := by
    simp only [Subs.lookup, h.cur, Subs.at]
  by_cases hmem : x ∈ decls.map (·.v.name)
  · obtain ⟨D, hD, rfl⟩ := List.mem_map.1 hmem
    have he := h.entries D hD 0 (Nat.zero_le _)
    have hw : D.v.wire = true ∨ D.v.zeroSized = true := by
      unfold Expect at he
      split at he
      · rw [hl, he] at hx
        simp at hx
      · split at he
        · next h' => exact .inl h'
        · split at he
          · next h' => exact .inr h'
          · exfalso
            split at he
            · rw [hl, he] at hx
              simp at hx
            · split at he
              · rw [hl, he] at hx
                simp at hx
              · obtain ⟨n, he⟩ := he
                rw [hl, he] at hx
                simp at hx
    simp only [wireIn, List.any_eq_true]
    refine ⟨D.v, List.mem_map.2 ⟨D, hD, rfl⟩, ?_⟩
    rcases hw with hw | hw <;> simp [hw]
  · rw [hl, h.undecl x hmem 0] at hx
    simp at hx

theorem wireIn_append (a b : List Var) (x : Name) :
    wireIn (a ++ b) x = (wireIn a x || wireIn b x) := by
  simp [wireIn, List.any_append]

theorem BindOk.mono {isWire isWire' : Name → Bool} {decls decls' : List Decl} {b : Bind}
    (h : BindOk isWire decls b) (hw : ∀ x, isWire x = true → isWire' x = true)
    (hd : ∀ D ∈ decls, D ∈ decls') : BindOk isWire' decls' b := by
  obtain ⟨s, time, h1, h2, h3⟩ := h
  exact ⟨s, time, h1, fun x hx => hw x (h2 x hx), fun v hv => hd _ (h3 v hv)⟩

/-- The effect of a binding. -/
theorem Inv.bind {enables decls st} (h : Inv enables decls st) (vars : List (Var × Nat)) (e : Expr)
    (isReg : Bool) (time : Option Nat) (ha : availableIn st.subs e = some time)
    (hn : (decls.map (·.v.name) ++ vars.map (·.1.name)).Nodup) :
    Inv enables (decls ++ declsOf st.stage (time.getD 0) (vars.map (·.1)))
      { st with subs := (vars.map (·.1)).foldl (Pipe.bindVar (time.getD 0) st.stage) st.subs } ∧
    BindOk (wireIn (decls.map (·.v))) (declsOf st.stage (time.getD 0) (vars.map (·.1)))
      ⟨st.stage, isReg, vars, e⟩ := by
  refine ⟨h.bindVars _ _ _ rfl ?_, st.subs, time, ha, fun x hx => h.lookup_wire hx, ?_⟩
  · simpa [List.map_map, Function.comp_def] using hn
  · intro v hv
    exact List.mem_map.2 ⟨v.1, List.mem_map.2 ⟨v, hv, rfl⟩, rfl⟩

theorem handleAll_inv {enables} : ∀ (body : List Stmt) {decls st st'},
    Inv enables decls st → handleAll enables body st = some st' →
    (decls.map (·.v.name) ++ (boundVars (binds st.stage body)).map (·.name)).Nodup →
    ∃ decls', Inv enables (decls ++ decls') st' ∧
      (∀ b ∈ binds st.stage body,
        BindOk (wireIn (decls.map (·.v) ++ boundVars (binds st.stage body))) decls' b) ∧
      decls'.map (·.v) = boundVars (binds st.stage body) ∧
      (∀ e ∈ st.eqns, e ∈ st'.eqns) ∧ st'.stage = st.stage + stageAfter body
  | [], decls, st, st', h, hs, _ => by
    simp only [handleAll, Option.some.injEq] at hs
    subst hs
    exact ⟨[], by simpa using h, fun b hb => (by cases hb), rfl, fun _ h => h, rfl⟩
  | s :: ss, decls, st, st', h, hs, hn => by
    have hbind : ∀ (isReg : Bool) (vars : List (Var × Nat)) (e : Expr) (time : Option Nat),
        binds st.stage (s :: ss) = ⟨st.stage, isReg, vars, e⟩ :: binds st.stage ss →
        stageAfter (s :: ss) = stageAfter ss →
        availableIn st.subs e = some time →
        handleAll enables ss { st with
          subs := (vars.map (·.1)).foldl (Pipe.bindVar (time.getD 0) st.stage) st.subs } = some st' →
        ∃ decls', Inv enables (decls ++ decls') st' ∧
          (∀ b ∈ binds st.stage (s :: ss),
            BindOk (wireIn (decls.map (·.v) ++ boundVars (binds st.stage (s :: ss)))) decls' b) ∧
          decls'.map (·.v) = boundVars (binds st.stage (s :: ss)) ∧
          (∀ e ∈ st.eqns, e ∈ st'.eqns) ∧ st'.stage = st.stage + stageAfter (s :: ss) := by
      intro isReg vars e time hb hst ha hs
      rw [hb] at hn ⊢
      have hn' : (decls.map (·.v.name) ++ vars.map (·.1.name) ++
          (boundVars (binds st.stage ss)).map (·.name)).Nodup := by
        simpa [boundVars, List.map_map, Function.comp_def] using hn
      obtain ⟨h1, h2⟩ := h.bind vars e isReg time ha (List.nodup_append.1 hn').1
      obtain ⟨decls', h3, h4, h5, h6, h7⟩ := handleAll_inv ss h1 hs (by
        simpa [declsOf, List.map_map, Function.comp_def] using hn')
      have hdv : (declsOf st.stage (time.getD 0) (vars.map (·.1))).map (·.v) = vars.map (·.1) := by
        simp [declsOf, List.map_map, Function.comp_def]
      refine ⟨declsOf st.stage (time.getD 0) (vars.map (·.1)) ++ decls', ?_, ?_, ?_, h6, ?_⟩
      · rw [← List.append_assoc]
        exact h3
      · intro b hb'
        rcases List.mem_cons.1 hb' with rfl | hb'
        · refine h2.mono (fun x hx => ?_) (fun D hD => List.mem_append_left _ hD)
          rw [wireIn_append, hx]
          rfl
        · refine (h4 b hb').mono (fun x hx => ?_) (fun D hD => List.mem_append_right _ hD)
          simp only [List.map_append, hdv] at hx
          simpa [boundVars, List.append_assoc] using hx
      · simp only [List.map_append, hdv, h5]
        simp [boundVars]
      · rw [hst]
        exact h7
    unfold handleAll at hs
    split at hs
    · exact (nomatch hs)
    · next st1 hst =>
      cases s with
      | letS vars e =>
        unfold handleStatement at hst
        simp only at hst
        split at hst
        · exact (nomatch hst)
        · next time ha =>
          simp only [Option.some.injEq] at hst
          subst hst
          exact hbind false vars e time rfl rfl ha hs
      | regS id vars e =>
        unfold handleStatement at hst
        simp only at hst
        split at hst
        · exact (nomatch hst)
        · next time ha =>
          simp only [Option.some.injEq] at hst
          subst hst
          exact hbind true vars e time rfl rfl ha hs
      | other =>
        simp only [handleStatement, Option.some.injEq] at hst
        subst hst
        exact handleAll_inv ss h hs hn
      | marker cond =>
        obtain ⟨h1, h2, h3, _, _⟩ := h.marker hst
        simp only [binds] at hn ⊢
        rw [← h2] at hn ⊢
        obtain ⟨decls', h4, h5, h6, h7, h8⟩ := handleAll_inv ss h1 hs hn
        refine ⟨decls', h4, h5, h6, fun e he => h7 e (h3 e he), ?_⟩
        rw [h8, h2, stageAfter]
        omega

/-- The invariant at the start of the body. -/
theorem inv_inputs (enables : List (Option Sig)) (inputs : List Var) (nid eid : Nat)
    (hn : (inputs.map (·.name)).Nodup) :
    Inv enables (declsOf 0 0 inputs)
      ⟨inputs.foldl (Pipe.bindVar 0 0) Subs.new, nid, eid, [], [], 0⟩ := by
  have h0 : Inv enables [] ⟨Subs.new, nid, eid, [], [], 0⟩ := by
    refine ⟨rfl, rfl, rfl, by simp, by simp, ?_, by simp, by simp, rfl⟩
    intro x _ k
    cases k with
    | zero => rfl
    | succ k => rfl
  have := h0.bindVars 0 0 inputs rfl (by simpa using hn)
  simpa using this

end Spade.Pipe

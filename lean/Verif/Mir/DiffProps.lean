import Verif.Mir.Diff
/-!
# Units that compare as equal are the same up to names (C37)
-/
namespace Spade.Mir
variable {Op Ty C Ini : Type} [DecidableEq Op] [DecidableEq Ty] [DecidableEq C] [DecidableEq Ini]

/-- Everything a unit names. -/
def Entity.allNames (e : Entity Op Ty C Ini) : List Name := e.inputNames ++ e.names ++ [e.output]

/-- Numbers are not shared by names with different texts, as for units that come straight from
lowering, where every variable has its own number. -/
def Entity.IdsUnique (e : Entity Op Ty C Ini) : Prop :=
  ∀ i s t, .named i s ∈ e.allNames → .named i t ∈ e.allNames → s = t

/-- The pairs registered so far explain the map. -/
structure Explains (Ps : List (Name × Name)) (m : VarMap) : Prop where
  names : ∀ i j, m.names.lookup i = some j → ∃ s, (.named i s, .named j s) ∈ Ps
  exprs : ∀ i j, m.exprs.lookup i = some j → (.expr i, .expr j) ∈ Ps
  hasName : ∀ i s y, (.named i s, y) ∈ Ps → (m.names.lookup i).isSome ∧ ∃ j, y = .named j s
  hasExpr : ∀ i y, (.expr i, y) ∈ Ps → (m.exprs.lookup i).isSome ∧ ∃ j, y = .expr j

theorem Explains.empty : Explains [] .empty :=
  ⟨by simp [VarMap.empty, List.lookup], by simp [VarMap.empty, List.lookup], by simp, by simp⟩

theorem Explains.update {Ps : List (Name × Name)} {m m' : VarMap} {x y : Name} (h : Explains Ps m)
    (hu : m.tryUpdate x y = some m') : Explains (Ps ++ [(x, y)]) m' := by
  cases x with
  | named i s =>
    cases y with
    | expr j => cases hu
    | named j t =>
      simp only [VarMap.tryUpdate] at hu
      split at hu
      · rename_i hst; subst hst; cases hu
        refine ⟨fun a b hl => ?_, fun a b hl => ?_, fun a u y hm => ?_, fun a y hm => ?_⟩
        · by_cases ha : a = i
          · subst ha; simp [List.lookup] at hl; subst hl; exact ⟨s, by simp⟩
          · have : (a == i) = false := by simpa using ha
            simp only [List.lookup, this] at hl
            obtain ⟨u, hu⟩ := h.names a b hl
            exact ⟨u, List.mem_append_left _ hu⟩
        · exact List.mem_append_left _ (h.exprs a b hl)
        · by_cases ha : a = i
          · subst ha
            refine ⟨by simp [List.lookup], ?_⟩
            rcases List.mem_append.1 hm with hm | hm
            · exact (h.hasName a u y hm).2
            · simp at hm; exact ⟨j, by rw [hm.2, hm.1]⟩
          · have : (a == i) = false := by simpa using ha
            simp only [List.lookup, this]
            rcases List.mem_append.1 hm with hm | hm
            · exact h.hasName a u y hm
            · simp at hm; exact (ha hm.1.1).elim
        · rcases List.mem_append.1 hm with hm | hm
          · exact h.hasExpr a y hm
          · simp at hm
      · cases hu
  | expr i =>
    cases y with
    | named j t => cases hu
    | expr j =>
      simp only [VarMap.tryUpdate, Option.some.injEq] at hu
      subst hu
      refine ⟨fun a b hl => ?_, fun a b hl => ?_, fun a u y hm => ?_, fun a y hm => ?_⟩
      · obtain ⟨u, hu⟩ := h.names a b hl
        exact ⟨u, List.mem_append_left _ hu⟩
      · by_cases ha : a = i
        · subst ha; simp [List.lookup] at hl; subst hl; simp
        · have : (a == i) = false := by simpa using ha
          simp only [List.lookup, this] at hl
          exact List.mem_append_left _ (h.exprs a b hl)
      · rcases List.mem_append.1 hm with hm | hm
        · exact h.hasName a u y hm
        · simp at hm
      · by_cases ha : a = i
        · subst ha
          refine ⟨by simp [List.lookup], ?_⟩
          rcases List.mem_append.1 hm with hm | hm
          · exact (h.hasExpr a y hm).2
          · simp at hm; exact ⟨j, hm⟩
        · have : (a == i) = false := by simpa using ha
          simp only [List.lookup, this]
          rcases List.mem_append.1 hm with hm | hm
          · exact h.hasExpr a y hm
          · simp at hm; exact (ha hm.1).elim

/-- The pairs registered for two lists of inputs. -/
theorem compareInputs_spec : ∀ {as bs : List (Input Ty)} {Ps} {m m' : VarMap}, Explains Ps m →
    as.length = bs.length → compareInputs m as bs = some m' →
    Explains (Ps ++ (as.map (·.valName)).zip (bs.map (·.valName))) m' ∧
      as.map (fun i => (i.name, i.ty, i.noMangle)) = bs.map fun i => (i.name, i.ty, i.noMangle)
  | [], [], Ps, m, m', h, _, hc => by
    simp only [compareInputs, Option.some.injEq] at hc; subst hc; simpa using h
  | a :: as, b :: bs, Ps, m, m', h, hl, hc => by
    simp only [compareInputs] at hc
    split at hc
    · rename_i h1
      simp only [Bool.and_eq_true, decide_eq_true_eq] at h1
      simp only [Option.bind_eq_bind, Option.bind_eq_some_iff] at hc
      obtain ⟨m1, hu, hc⟩ := hc
      split at hc
      · rename_i h2
        obtain ⟨h3, h4⟩ := compareInputs_spec (h.update hu) (by simpa using hl) hc
        refine ⟨by simpa using h3, ?_⟩
        simp only [List.map_cons, h1.1, h1.2, h2, h4]
      · cases hc
    · cases hc

theorem populate_spec : ∀ {as bs : List (Stmt Op Ty C Ini)} {Ps} {m m' : VarMap}, Explains Ps m →
    as.length = bs.length → populate m as bs = some m' →
    Explains (Ps ++ (as.filterMap Stmt.defines).zip (bs.filterMap Stmt.defines)) m' ∧
      (as.filterMap Stmt.defines).length = (bs.filterMap Stmt.defines).length
  | [], [], Ps, m, m', h, _, hc => by
    simp only [populate, Option.some.injEq] at hc; subst hc; simpa using h
  | [], _ :: _, _, _, _, _, hl, _ => by simp at hl
  | _ :: _, [], _, _, _, _, hl, _ => by simp at hl
  | a :: as, b :: bs, Ps, m, m', h, hl, hc => by
    have hl' : as.length = bs.length := by simpa using hl
    have step : ∀ x y, a.defines = some x → b.defines = some y →
        (∃ m1, m.tryUpdate x y = some m1 ∧ populate m1 as bs = some m') →
        Explains (Ps ++ ((a :: as).filterMap Stmt.defines).zip ((b :: bs).filterMap Stmt.defines)) m' ∧
        ((a :: as).filterMap Stmt.defines).length = ((b :: bs).filterMap Stmt.defines).length := by
      rintro x y hx hy ⟨m1, hu, hc⟩
      obtain ⟨h1, h2⟩ := populate_spec (h.update hu) hl' hc
      simp only [List.filterMap_cons, hx, hy, List.zip_cons_cons, List.length_cons, h2, and_true]
      simpa using h1
    have skip : a.defines = none → b.defines = none → populate m as bs = some m' →
        Explains (Ps ++ ((a :: as).filterMap Stmt.defines).zip ((b :: bs).filterMap Stmt.defines)) m' ∧
        ((a :: as).filterMap Stmt.defines).length = ((b :: bs).filterMap Stmt.defines).length := by
      intro hx hy hc
      obtain ⟨h1, h2⟩ := populate_spec h hl' hc
      simp only [List.filterMap_cons, hx, hy, h2, and_true]
      exact h1
    cases a <;> cases b <;>
      simp only [populate, Option.bind_eq_bind, Option.bind_eq_some_iff, reduceCtorEq] at hc
    · exact step _ _ rfl rfl hc
    · exact step _ _ rfl rfl hc
    · exact step _ _ rfl rfl hc
    · exact skip rfl rfl hc
    · exact skip rfl rfl hc

/-- The renaming given by pairs. -/
def byPairs (Ps : List (Name × Name)) (x : Name) : Name := (Ps.lookup x).getD x

theorem lookup_of_nodup : ∀ {Ps : List (Name × Name)} {x y : Name}, (Ps.map (·.1)).Nodup →
    (x, y) ∈ Ps → Ps.lookup x = some y
  | (a, b) :: Ps, x, y, hn, hm => by
    simp only [List.map_cons, List.nodup_cons] at hn
    rcases List.mem_cons.1 hm with hm | hm
    · cases hm; simp [List.lookup]
    · have : x ≠ a := by
        intro hxa; exact hn.1 (List.mem_map.2 ⟨(x, y), hm, hxa⟩)
      have : (x == a) = false := by simpa using this
      simp only [List.lookup, this]
      exact lookup_of_nodup hn.2 hm

section
variable {U : Name → Prop} {Ps : List (Name × Name)} {m : VarMap}

/-- Names that compare as equal are related by the pairs. -/
theorem compareVals_sound (h : Explains Ps m) (hn : (Ps.map (·.1)).Nodup)
    (hid : ∀ i s t, U (.named i s) → U (.named i t) → s = t) (hU : ∀ p ∈ Ps, U p.1)
    {x y : Name} (hx : U x) (hc : m.compareVals x y = true) :
    (x, y) ∈ Ps ∧ byPairs Ps x = y := by
  have : (x, y) ∈ Ps := by
    cases x with
    | named i s =>
      cases y with
      | named j t =>
        simp only [VarMap.compareVals, Bool.and_eq_true, decide_eq_true_eq] at hc
        obtain ⟨rfl, hl⟩ := hc
        obtain ⟨u, hu⟩ := h.names i j hl
        have := hid i s u hx (hU _ hu)
        subst this
        exact hu
      | expr j => cases hc
    | expr i =>
      cases y with
      | named j t => cases hc
      | expr j =>
        simp only [VarMap.compareVals, decide_eq_true_eq] at hc
        exact h.exprs i j hc
  exact ⟨this, by rw [byPairs, lookup_of_nodup hn this]; rfl⟩

theorem compareAll_sound (h : Explains Ps m) (hn : (Ps.map (·.1)).Nodup)
    (hid : ∀ i s t, U (.named i s) → U (.named i t) → s = t) (hU : ∀ p ∈ Ps, U p.1) :
    ∀ {as bs : List Name}, (∀ a ∈ as, U a) → as.length = bs.length → m.compareAll as bs = true →
      as.map (byPairs Ps) = bs
  | [], [], _, _, _ => rfl
  | a :: as, b :: bs, hu, hl, hc => by
    simp only [VarMap.compareAll, Bool.and_eq_true] at hc
    rw [List.map_cons, (compareVals_sound h hn hid hU (hu a (by simp)) hc.1).2,
      compareAll_sound h hn hid hU (fun x hx => hu x (List.mem_cons_of_mem _ hx)) (by simpa using hl)
        hc.2]

/-- Statements that compare as equal, with related definitions, are renamed versions. -/
theorem compareStmts_sound (h : Explains Ps m) (hn : (Ps.map (·.1)).Nodup)
    (hid : ∀ i s t, U (.named i s) → U (.named i t) → s = t) (hU : ∀ p ∈ Ps, U p.1)
    {a b : Stmt Op Ty C Ini} (hu : ∀ n ∈ a.names, U n)
    (hd : ∀ x y, a.defines = some x → b.defines = some y → byPairs Ps x = y)
    (hc : compareStmts m a b = true) : a.rename (byPairs Ps) = b := by
  have cv : ∀ {x y}, x ∈ a.names → m.compareVals x y = true → byPairs Ps x = y := fun hx hc =>
    (compareVals_sound h hn hid hU (hu _ hx) hc).2
  cases a <;> cases b <;> simp only [compareStmts, Bool.and_eq_true, decide_eq_true_eq,
    Bool.false_eq_true] at hc
  · rename_i a b
    obtain ⟨⟨⟨h1, h2⟩, h3⟩, h4⟩ := hc
    have h5 := hd _ _ rfl rfl
    have h6 := compareAll_sound h hn hid hU
      (fun x hx => hu x (List.mem_cons_of_mem _ hx)) h3 h4
    rcases a with ⟨n, op, os, t⟩; rcases b with ⟨n', op', os', t'⟩
    simp only at h1 h2 h5 h6
    simp [Stmt.rename, h1, h2, h5, h6]
  · rename_i a b
    obtain ⟨⟨⟨⟨h1, h2⟩, h3⟩, h4⟩, h5⟩ := hc
    have h6 := hd _ _ rfl rfl
    have h7 := cv (by simp [Stmt.names]) h2
    have h8 := cv (by simp [Stmt.names]) h3
    rcases a with ⟨n, t, clk, rst, ini, val⟩; rcases b with ⟨n', t', clk', rst', ini', val'⟩
    simp only at h1 h4 h5 h6 h7 h8
    have h9 : rst.map (fun p => (byPairs Ps p.1, byPairs Ps p.2)) = rst' := by
      cases rst with
      | none => cases rst' <;> simp at h4 ⊢
      | some p =>
        cases rst' with
        | none => simp at h4
        | some q =>
          simp only [Bool.and_eq_true] at h4
          simp only [Option.map_some, cv (by simp [Stmt.names]) h4.1, cv (by simp [Stmt.names]) h4.2]
    simp only [Stmt.rename, h1, h5, h6, h7, h8, h9]
  · obtain ⟨h1, h2⟩ := hc
    simp only [Stmt.rename, hd _ _ rfl rfl, h1, h2]
  · simp only [Stmt.rename, cv (by simp [Stmt.names]) hc]
  · simp only [Stmt.rename, cv (by simp [Stmt.names]) hc.1, cv (by simp [Stmt.names]) hc.2]

theorem compareStmts_defines {a b : Stmt Op Ty C Ini} (hc : compareStmts m a b = true) :
    (a.defines.isSome ↔ b.defines.isSome) := by
  cases a <;> cases b <;> simp [compareStmts, Stmt.defines] at hc ⊢

theorem compareAllStmts_sound (h : Explains Ps m) (hn : (Ps.map (·.1)).Nodup)
    (hid : ∀ i s t, U (.named i s) → U (.named i t) → s = t) (hU : ∀ p ∈ Ps, U p.1) :
    ∀ {as bs : List (Stmt Op Ty C Ini)}, as.length = bs.length → (∀ s ∈ as, ∀ n ∈ s.names, U n) →
      (∀ p ∈ (as.filterMap Stmt.defines).zip (bs.filterMap Stmt.defines), p ∈ Ps) →
      compareAllStmts m as bs = true → as.map (Stmt.rename (byPairs Ps)) = bs
  | [], [], _, _, _, _ => rfl
  | a :: as, b :: bs, hl, hu, hz, hc => by
    simp only [compareAllStmts, Bool.and_eq_true] at hc
    have hdd := compareStmts_defines hc.1
    have h1 : a.rename (byPairs Ps) = b := by
      refine compareStmts_sound h hn hid hU (hu a (by simp)) (fun x y hx hy => ?_) hc.1
      have : (x, y) ∈ Ps := hz _ (by simp [List.filterMap_cons, hx, hy])
      rw [byPairs, lookup_of_nodup hn this]; rfl
    rw [List.map_cons, h1, compareAllStmts_sound h hn hid hU (by simpa using hl)
      (fun s hs => hu s (List.mem_cons_of_mem _ hs)) ?_ hc.2]
    intro p hp
    refine hz p ?_
    cases ha : a.defines with
    | none =>
      cases hb : b.defines with
      | none => simpa [List.filterMap_cons, ha, hb] using hp
      | some y => simp [ha, hb] at hdd
    | some x =>
      cases hb : b.defines with
      | none => simp [ha, hb] at hdd
      | some y => simp [List.filterMap_cons, ha, hb, hp]
end

theorem byPairs_inj : ∀ {xs ys : List Name}, xs.length = ys.length → xs.Nodup → ys.Nodup →
    ∀ {a b : Name}, a ∈ xs → b ∈ xs → byPairs (xs.zip ys) a = byPairs (xs.zip ys) b → a = b
  | xs, ys, hl, hx, hy, a, b, ha, hb, h => by
    have hfst : (xs.zip ys).map (·.1) = xs := List.map_fst_zip (by omega)
    have hsnd : (xs.zip ys).map (·.2) = ys := List.map_snd_zip (by omega)
    have get : ∀ c ∈ xs, ∃ d, (c, d) ∈ xs.zip ys ∧ byPairs (xs.zip ys) c = d := by
      intro c hc
      rw [← hfst] at hc
      obtain ⟨⟨c', d⟩, hm, rfl⟩ := List.mem_map.1 hc
      exact ⟨d, hm, by rw [byPairs, lookup_of_nodup (by rw [hfst]; exact hx) hm]; rfl⟩
    obtain ⟨d1, h1, h2⟩ := get a ha
    obtain ⟨d2, h3, h4⟩ := get b hb
    rw [h2, h4] at h
    subst h
    have hn : ((xs.zip ys).map (·.2)).Nodup := by rw [hsnd]; exact hy
    have : ∀ {l : List (Name × Name)}, (l.map (·.2)).Nodup → (a, d1) ∈ l → (b, d1) ∈ l → a = b := by
      intro l
      induction l with
      | nil => intro _ h; cases h
      | cons p l ih =>
        intro hn h1 h2
        simp only [List.map_cons, List.nodup_cons] at hn
        rcases List.mem_cons.1 h1 with h1 | h1 <;> rcases List.mem_cons.1 h2 with h2 | h2
        · rw [← h1] at h2; cases h2; rfl
        · exact (hn.1 (List.mem_map.2 ⟨_, h2, by rw [← h1]⟩)).elim
        · exact (hn.1 (List.mem_map.2 ⟨_, h1, by rw [← h2]⟩)).elim
        · exact ih hn.2 h1 h2
    exact this hn h1 h3

/-- **C37 (partial).** If two units with the same number of inputs compare as equal, the second is the
first with its names replaced one to one; so they have the same interface and the same behaviour.
Missing: units with different numbers of inputs, and units in which two variables share a number; the
counterexamples show that the comparison is wrong for those. -/
theorem C37_equal_partial (a b : Entity Op Ty C Ini) (ha : a.WellNamed) (hb : b.WellNamed)
    (hid : a.IdsUnique) (hin : a.inputs.length = b.inputs.length) (hc : compareEntity a b = true) :
    ∃ f : Name → Name, b = a.renameAll f ∧
      ∀ x y, x ∈ a.inputNames ++ a.defs → y ∈ a.inputNames ++ a.defs → f x = f y → x = y := by
  unfold compareEntity at hc
  split at hc
  · rename_i h1
    simp only [Bool.and_eq_true, decide_eq_true_eq] at h1
    cases hm : compareInputs .empty a.inputs b.inputs with
    | none => rw [hm] at hc; cases hc
    | some m =>
      rw [hm] at hc; simp only at hc
      cases hp : populate m a.stmts b.stmts with
      | none => rw [hp] at hc; cases hc
      | some m' =>
        rw [hp] at hc
        simp only [Bool.and_eq_true, decide_eq_true_eq] at hc
        obtain ⟨⟨h2, h3⟩, h4⟩ := hc
        obtain ⟨e1, h5⟩ := compareInputs_spec .empty hin hm
        obtain ⟨e2, h6⟩ := populate_spec e1 h3 hp
        have hzip : [] ++ (a.inputs.map (·.valName)).zip (b.inputs.map (·.valName)) ++
            (a.stmts.filterMap Stmt.defines).zip (b.stmts.filterMap Stmt.defines) =
            (a.inputNames ++ a.defs).zip (b.inputNames ++ b.defs) := by
          rw [List.zip_append (by simp [Entity.inputNames, hin])]
          simp [Entity.inputNames, Entity.defs]
        rw [hzip] at e2
        generalize hPs : (a.inputNames ++ a.defs).zip (b.inputNames ++ b.defs) = Ps at e2
        have hlen : (a.inputNames ++ a.defs).length = (b.inputNames ++ b.defs).length := by
          simp only [List.length_append, Entity.inputNames, List.length_map, Entity.defs]
          rw [hin, h6]
        have hfst : Ps.map (·.1) = a.inputNames ++ a.defs := by
          rw [← hPs]; exact List.map_fst_zip (by omega)
        have hn : (Ps.map (·.1)).Nodup := by rw [hfst]; exact ha.nodup
        have hdn : ∀ n ∈ a.defs, n ∈ a.names := by
          intro n hn
          obtain ⟨s, hs, hd⟩ := List.mem_filterMap.1 hn
          refine List.mem_flatMap.2 ⟨s, hs, ?_⟩
          cases s <;> simp only [Stmt.defines, Option.some.injEq, reduceCtorEq] at hd
          · subst hd; simp [Stmt.names]
          · subst hd; simp [Stmt.names]
          · subst hd; simp [Stmt.names]
        have hU : ∀ p ∈ Ps, p.1 ∈ a.allNames := by
          intro p hp
          have : p.1 ∈ Ps.map (·.1) := List.mem_map.2 ⟨p, hp, rfl⟩
          rw [hfst] at this
          rcases List.mem_append.1 this with h | h
          · simp [Entity.allNames, h]
          · simp [Entity.allNames, hdn _ h]
        refine ⟨byPairs Ps, ?_, ?_⟩
        · have hst := compareAllStmts_sound (U := (· ∈ a.allNames)) e2 hn hid hU h3
            (fun s hs n hn => by
              have : n ∈ a.names := List.mem_flatMap.2 ⟨s, hs, hn⟩
              simp [Entity.allNames, this])
            (fun p hp => by
              rw [← hPs, List.zip_append (by simp [Entity.inputNames, hin])]
              exact List.mem_append_right _ hp) h2
          have hout := (compareVals_sound (U := (· ∈ a.allNames)) e2 hn hid hU
            (by simp [Entity.allNames]) h4).2
          have hinputs : a.inputs.map (fun i => { i with valName := byPairs Ps i.valName }) = b.inputs := by
            have hz : ∀ p ∈ (a.inputs.map (·.valName)).zip (b.inputs.map (·.valName)), p ∈ Ps := by
              intro p hp
              rw [← hPs, List.zip_append (by simp [Entity.inputNames, hin])]
              exact List.mem_append_left _ hp
            generalize a.inputs = as at hz h5 hin
            generalize b.inputs = bs at hz h5 hin
            induction as generalizing bs with
            | nil =>
              cases bs with
              | nil => rfl
              | cons _ _ => simp at hin
            | cons i as ih =>
              cases bs with
              | nil => simp at hin
              | cons j bs =>
                simp only [List.map_cons, List.cons.injEq, Prod.mk.injEq] at h5
                rw [List.map_cons, ih bs (fun p hp => hz p (by
                    rw [List.map_cons, List.map_cons, List.zip_cons_cons]
                    exact List.mem_cons_of_mem _ hp)) h5.2 (by simpa using hin)]
                have : (i.valName, j.valName) ∈ Ps := hz _ (by simp)
                have : byPairs Ps i.valName = j.valName := by
                  rw [byPairs, lookup_of_nodup hn this]; rfl
                rcases i with ⟨a1, a2, a3, a4⟩; rcases j with ⟨b1, b2, b3, b4⟩
                simp only at this h5
                simp only [this, h5.1.1, h5.1.2.1, h5.1.2.2]
          rcases a with ⟨an, ai, ao, aty, as⟩; rcases b with ⟨bn, bi, bo, bty, bs⟩
          simp only at h1 hst hout hinputs
          simp only [Entity.renameAll, hst, hout, hinputs, h1.1, h1.2]
        · intro x y hx hy h
          rw [← hPs] at h
          exact byPairs_inj hlen ha.nodup hb.nodup hx hy h
  · cases hc

/-- **C37 (partial).** So units that compare as equal behave the same, input by input. -/
theorem C37_behaviour_partial {V : Type} [Inhabited V] (I : Interp Op Ty C Ini V)
    (a b : Entity Op Ty C Ini) (ha : a.WellNamed) (hb : b.WellNamed) (hcl : a.Closed)
    (hid : a.IdsUnique) (hin : a.inputs.length = b.inputs.length) (hc : compareEntity a b = true) :
    (∀ w, b.Sat I w → ∃ v, a.Sat I v ∧ v a.output = w b.output ∧
      a.inputNames.map v = b.inputNames.map w) ∧
    (∀ v, a.Sat I v → ∃ w, b.Sat I w ∧ v a.output = w b.output ∧
      a.inputNames.map v = b.inputNames.map w) := by
  obtain ⟨f, rfl, hinj⟩ := C37_equal_partial a b ha hb hid hin hc
  have hin : ∀ g : Name → V, (a.renameAll f).inputNames.map g = a.inputNames.map fun n => g (f n) := by
    intro g; simp [Entity.renameAll, Entity.inputNames, List.map_map, Function.comp_def]
  constructor
  · intro w hw'
    exact ⟨fun n => w (f n), (renameAll_sat I f a w).1 hw', rfl, (hin w).symm⟩
  · intro v hv
    classical
    let w : Name → V := fun y =>
      if h : ∃ x, x ∈ a.inputNames ++ a.defs ∧ f x = y then v h.choose else default
    have hwf : ∀ x, x ∈ a.inputNames ++ a.defs → w (f x) = v x := by
      intro x hx
      have h : ∃ z, z ∈ a.inputNames ++ a.defs ∧ f z = f x := ⟨x, hx, rfl⟩
      simp only [w, h, dif_pos]
      rw [hinj _ _ h.choose_spec.1 hx h.choose_spec.2]
    refine ⟨w, (renameAll_sat I f a w).2 ?_, (hwf _ ?_).symm, ?_⟩
    · intro s hs
      refine (Stmt.sat_congr I s fun n hn => ?_).1 (hv s hs)
      exact (hwf n (List.mem_append.2 (hcl n (Or.inl (List.mem_flatMap.2 ⟨s, hs, hn⟩))))).symm
    · exact List.mem_append.2 (hcl _ (Or.inr rfl))
    · rw [hin]
      exact List.map_congr_left fun x hx => (hwf x (List.mem_append_left _ hx)).symm

/-! ## Renamed units compare as equal -/

/-- `f` may change numbers but keeps the text of a variable. -/
def SameText (f : Name → Name) : Prop :=
  (∀ i s, ∃ j, f (.named i s) = .named j s) ∧ ∀ i, ∃ j, f (.expr i) = .expr j

theorem tryUpdate_some {f : Name → Name} (hf : SameText f) (m : VarMap) (x : Name) :
    ∃ m', m.tryUpdate x (f x) = some m' := by
  cases x with
  | named i s =>
    obtain ⟨j, hj⟩ := hf.1 i s
    rw [hj]; exact ⟨_, by simp only [VarMap.tryUpdate, if_true]; rfl⟩
  | expr i =>
    obtain ⟨j, hj⟩ := hf.2 i
    rw [hj]; exact ⟨_, rfl⟩

theorem compareInputs_some {f : Name → Name} (hf : SameText f) : ∀ (as : List (Input Ty)) (m : VarMap),
    ∃ m', compareInputs m as (as.map fun i => { i with valName := f i.valName }) = some m'
  | [], m => ⟨m, rfl⟩
  | a :: as, m => by
    obtain ⟨m1, h1⟩ := tryUpdate_some hf m a.valName
    obtain ⟨m2, h2⟩ := compareInputs_some hf as m1
    exact ⟨m2, by simp [compareInputs, h1, h2]⟩

theorem populate_some {f : Name → Name} (hf : SameText f) : ∀ (as : List (Stmt Op Ty C Ini)) (m : VarMap),
    Stmt.error ∉ as → ∃ m', populate m as (as.map (Stmt.rename f)) = some m'
  | [], m, _ => ⟨m, rfl⟩
  | a :: as, m, he => by
    simp only [List.mem_cons, not_or] at he
    cases a with
    | binding b =>
      obtain ⟨m1, h1⟩ := tryUpdate_some hf m b.name
      obtain ⟨m2, h2⟩ := populate_some hf as m1 he.2
      exact ⟨m2, by simp [populate, Stmt.rename, h1, h2]⟩
    | register b =>
      obtain ⟨m1, h1⟩ := tryUpdate_some hf m b.name
      obtain ⟨m2, h2⟩ := populate_some hf as m1 he.2
      exact ⟨m2, by simp [populate, Stmt.rename, h1, h2]⟩
    | constant n t c =>
      obtain ⟨m1, h1⟩ := tryUpdate_some hf m n
      obtain ⟨m2, h2⟩ := populate_some hf as m1 he.2
      exact ⟨m2, by simp [populate, Stmt.rename, h1, h2]⟩
    | assert n =>
      obtain ⟨m2, h2⟩ := populate_some hf as m he.2
      exact ⟨m2, by simp [populate, Stmt.rename, h2]⟩
    | set n x =>
      obtain ⟨m2, h2⟩ := populate_some hf as m he.2
      exact ⟨m2, by simp [populate, Stmt.rename, h2]⟩
    | error => exact (he.1 rfl).elim

theorem compareVals_complete {f : Name → Name} (hf : SameText f) {Ns : List Name} {m : VarMap}
    (h : Explains (Ns.map fun x => (x, f x)) m)
    (hid : ∀ i s t, .named i s ∈ Ns → .named i t ∈ Ns → s = t) {x : Name} (hx : x ∈ Ns) :
    m.compareVals x (f x) = true := by
  have hm : (x, f x) ∈ Ns.map fun x => (x, f x) := List.mem_map.2 ⟨x, hx, rfl⟩
  cases x with
  | named i s =>
    obtain ⟨j, hj⟩ := hf.1 i s
    obtain ⟨h1, -⟩ := h.hasName i s _ hm
    obtain ⟨j', hj'⟩ := Option.isSome_iff_exists.1 h1
    obtain ⟨t, ht⟩ := h.names i j' hj'
    obtain ⟨y, hy, hy'⟩ := List.mem_map.1 ht
    simp only [Prod.mk.injEq] at hy'
    obtain ⟨rfl, hy'⟩ := hy'
    have := hid i s t hx hy
    subst this
    rw [hj] at hy'
    cases hy'
    simp [VarMap.compareVals, hj, hj']
  | expr i =>
    obtain ⟨j, hj⟩ := hf.2 i
    obtain ⟨h1, -⟩ := h.hasExpr i _ hm
    obtain ⟨j', hj'⟩ := Option.isSome_iff_exists.1 h1
    obtain ⟨y, hy, hy'⟩ := List.mem_map.1 (h.exprs i j' hj')
    simp only [Prod.mk.injEq] at hy'
    obtain ⟨rfl, hy'⟩ := hy'
    rw [hj] at hy'
    cases hy'
    simp [VarMap.compareVals, hj, hj']

theorem compareAll_complete {f : Name → Name} {m : VarMap} : ∀ {as : List Name},
    (∀ x ∈ as, m.compareVals x (f x) = true) → m.compareAll as (as.map f) = true
  | [], _ => rfl
  | a :: as, h => by
    simp only [List.map_cons, VarMap.compareAll, Bool.and_eq_true]
    exact ⟨h a (by simp), compareAll_complete fun x hx => h x (List.mem_cons_of_mem _ hx)⟩

theorem compareStmts_complete {f : Name → Name} {m : VarMap} {s : Stmt Op Ty C Ini}
    (he : s ≠ .error) (h : ∀ x ∈ s.names, m.compareVals x (f x) = true) :
    compareStmts m s (s.rename f) = true := by
  cases s with
  | binding b =>
    simp only [compareStmts, Stmt.rename, List.length_map, decide_true, Bool.true_and]
    exact compareAll_complete fun x hx => h x (List.mem_cons_of_mem _ hx)
  | register r =>
    rcases r with ⟨n, t, clk, rst, ini, val⟩
    have h1 := h val (by simp [Stmt.names])
    have h2 := h clk (by simp [Stmt.names])
    cases rst with
    | none => simp [compareStmts, Stmt.rename, h1, h2]
    | some p =>
      have h3 := h p.1 (by simp [Stmt.names])
      have h4 := h p.2 (by simp [Stmt.names])
      simp [compareStmts, Stmt.rename, h1, h2, h3, h4]
  | constant n t c => simp [compareStmts, Stmt.rename]
  | assert n => simp [compareStmts, Stmt.rename, h n (by simp [Stmt.names])]
  | set n x =>
    simp [compareStmts, Stmt.rename, h n (by simp [Stmt.names]), h x (by simp [Stmt.names])]
  | error => exact (he rfl).elim

theorem compareAllStmts_complete {f : Name → Name} {m : VarMap} : ∀ {as : List (Stmt Op Ty C Ini)},
    Stmt.error ∉ as → (∀ s ∈ as, ∀ x ∈ s.names, m.compareVals x (f x) = true) →
    compareAllStmts m as (as.map (Stmt.rename f)) = true
  | [], _, _ => rfl
  | a :: as, he, h => by
    simp only [List.mem_cons, not_or] at he
    simp only [List.map_cons, compareAllStmts, Bool.and_eq_true]
    exact ⟨compareStmts_complete (fun h => he.1 h.symm) (h a (by simp)),
      compareAllStmts_complete he.2 fun s hs => h s (List.mem_cons_of_mem _ hs)⟩

theorem zip_map_right (f : Name → Name) (l : List Name) : l.zip (l.map f) = l.map fun x => (x, f x) := by
  induction l with
  | nil => rfl
  | cons a l ih => simp [ih]

/-- **C37.** The comparison does not depend on the numbers: a unit compares as equal to every version of
itself in which variables and expressions are numbered differently. -/
theorem C37_renumbered (a : Entity Op Ty C Ini) (hcl : a.Closed) (hid : a.IdsUnique)
    (he : Stmt.error ∉ a.stmts) (f : Name → Name) (hf : SameText f) :
    compareEntity a (a.renameAll f) = true := by
  obtain ⟨m1, h1⟩ := compareInputs_some hf a.inputs .empty
  obtain ⟨m2, h2⟩ := populate_some hf a.stmts m1 he
  obtain ⟨e1, -⟩ := compareInputs_spec .empty (by simp) h1
  obtain ⟨e2, -⟩ := populate_spec e1 (by simp) h2
  have hzip : [] ++ (a.inputs.map (·.valName)).zip ((a.inputs.map fun i => { i with valName := f i.valName }).map
      (·.valName)) ++ (a.stmts.filterMap Stmt.defines).zip
        ((a.stmts.map (Stmt.rename f)).filterMap Stmt.defines) =
      (a.inputNames ++ a.defs).map fun x => (x, f x) := by
    have h3 : (a.inputs.map fun i => { i with valName := f i.valName }).map (·.valName) =
        (a.inputs.map (·.valName)).map f := by simp [List.map_map, Function.comp_def]
    have h4 : (a.stmts.map (Stmt.rename f)).filterMap Stmt.defines =
        (a.stmts.filterMap Stmt.defines).map f := by
      simp only [List.filterMap_map, List.map_filterMap]
      congr 1; funext s; simp [Stmt.defines_rename]
    rw [h3, h4, zip_map_right, zip_map_right]
    simp [Entity.inputNames, Entity.defs]
  rw [hzip] at e2
  have hdn : ∀ n ∈ a.inputNames ++ a.defs, n ∈ a.allNames := by
    intro n hn
    rcases List.mem_append.1 hn with hn | hn
    · simp [Entity.allNames, hn]
    · obtain ⟨s, hs, hd⟩ := List.mem_filterMap.1 hn
      have : n ∈ a.names := by
        refine List.mem_flatMap.2 ⟨s, hs, ?_⟩
        cases s <;> simp only [Stmt.defines, Option.some.injEq, reduceCtorEq] at hd <;>
          (subst hd; simp [Stmt.names])
      simp [Entity.allNames, this]
  have cv : ∀ x, x ∈ a.names ∨ x = a.output → m2.compareVals x (f x) = true := fun x hx =>
    compareVals_complete hf e2 (fun i s t hs ht => hid i s t (hdn _ hs) (hdn _ ht))
      (List.mem_append.2 (hcl x hx))
  have h5 := compareAllStmts_complete (m := m2) (f := f) he
    (fun s hs x hx => cv x (Or.inl (List.mem_flatMap.2 ⟨s, hs, hx⟩)))
  simp [compareEntity, Entity.renameAll, h1, h2, h5, cv _ (Or.inr rfl)]

/-! ## Where the comparison is wrong -/

/-- **C37, counterexample.** A unit with one input compares as equal to a unit with two. -/
theorem C37_counterexample_inputs :
    let a : Entity Nat Nat Nat Nat :=
      ⟨"t", [⟨"x", .named 0 "x", 8, false⟩], .named 0 "x", 8, []⟩
    let b : Entity Nat Nat Nat Nat :=
      ⟨"t", [⟨"x", .named 0 "x", 8, false⟩, ⟨"y", .named 1 "y", 8, false⟩], .named 0 "x", 8, []⟩
    a.WellNamed ∧ b.WellNamed ∧ a.Closed ∧ b.Closed ∧ a.IdsUnique ∧ b.IdsUnique ∧
      compareEntity a b = true ∧ ¬ ∃ f, b = a.renameAll f := by
  intro a b
  refine ⟨?_, ?_, ?_, ?_, ?_, ?_, rfl, ?_⟩
  · exact ⟨by decide, by simp [Entity.SingleDefs, Entity.defs, a]⟩
  · exact ⟨by decide, by simp [Entity.SingleDefs, Entity.defs, b]⟩
  · intro n; simp [Entity.names, Entity.inputNames, a, Entity.defs]
  · intro n; simp +contextual [Entity.names, Entity.inputNames, b, Entity.defs]
  · intro i s t; simp +contextual [Entity.allNames, Entity.names, Entity.inputNames, a]
  · intro i s t; simp [Entity.allNames, Entity.names, Entity.inputNames, b]; grind
  · rintro ⟨f, h⟩
    have := congrArg (fun e => e.inputs.length) h
    simp [Entity.renameAll, a, b] at this

/-- **C37, counterexample.** With numbers that restart for every text, as they do after names have been
made predictable, units that compute different things compare as equal. -/
theorem C37_counterexample_ids :
    let a : Entity Nat Nat Nat Nat :=
      ⟨"t", [⟨"p", .named 1 "a", 8, false⟩, ⟨"q", .named 1 "b", 8, false⟩, ⟨"r", .named 5 "a", 8, false⟩],
        .named 1 "a", 8, []⟩
    let b : Entity Nat Nat Nat Nat :=
      ⟨"t", [⟨"p", .named 2 "a", 8, false⟩, ⟨"q", .named 3 "b", 8, false⟩, ⟨"r", .named 3 "a", 8, false⟩],
        .named 3 "a", 8, []⟩
    a.WellNamed ∧ b.WellNamed ∧ a.Closed ∧ b.Closed ∧ compareEntity a b = true ∧
      ¬ ∃ f, b = a.renameAll f := by
  intro a b
  refine ⟨?_, ?_, ?_, ?_, rfl, ?_⟩
  · exact ⟨by decide, by simp [Entity.SingleDefs, Entity.defs, a]⟩
  · exact ⟨by decide, by simp [Entity.SingleDefs, Entity.defs, b]⟩
  · intro n; simp +contextual [Entity.names, Entity.inputNames, a, Entity.defs]
  · intro n; simp +contextual [Entity.names, Entity.inputNames, b, Entity.defs]
  · rintro ⟨f, h⟩
    simp only [Entity.renameAll, a, b, Entity.mk.injEq, List.map_cons, List.cons.injEq, Input.mk.injEq] at h
    have h1 := h.2.1.1.2.1
    have h2 := h.2.2.1
    rw [← h1] at h2
    cases h2

/-- A register with reset, an operator, a constant, an assertion and a wire, in two numberings. -/
example :
    let a : Entity Nat Nat Nat Nat :=
      ⟨"t", [⟨"clk", .named 0 "clk", 1, false⟩, ⟨"rst", .named 1 "rst", 1, false⟩], .named 3 "r", 8,
        [.constant (.expr 0) 8 4,
         .binding ⟨.expr 1, .other 7, [.named 3 "r", .expr 0], 8⟩,
         .register ⟨.named 3 "r", 8, .named 0 "clk", some (.named 1 "rst", .expr 0), none, .expr 1⟩,
         .assert (.named 1 "rst"), .set (.expr 1) (.expr 0)]⟩
    let b : Entity Nat Nat Nat Nat :=
      ⟨"t", [⟨"clk", .named 9 "clk", 1, false⟩, ⟨"rst", .named 8 "rst", 1, false⟩], .named 3 "r", 8,
        [.constant (.expr 5) 8 4,
         .binding ⟨.expr 2, .other 7, [.named 3 "r", .expr 5], 8⟩,
         .register ⟨.named 3 "r", 8, .named 9 "clk", some (.named 8 "rst", .expr 5), none, .expr 2⟩,
         .assert (.named 8 "rst"), .set (.expr 2) (.expr 5)]⟩
    a.WellNamed ∧ b.WellNamed ∧ a.Closed ∧ a.IdsUnique ∧ a.inputs.length = b.inputs.length ∧
      Stmt.error ∉ a.stmts ∧ compareEntity a b = true := by
  intro a b
  refine ⟨?_, ?_, ?_, ?_, rfl, ?_, rfl⟩
  · exact ⟨by decide, by simp [Entity.SingleDefs, Entity.defs, Entity.inputNames, Stmt.defines, a]; decide⟩
  · exact ⟨by decide, by simp [Entity.SingleDefs, Entity.defs, Entity.inputNames, Stmt.defines, b]; decide⟩
  · intro n; simp [Entity.names, Entity.inputNames, Stmt.names, Stmt.defines, a, Entity.defs]; grind
  · intro i s t; simp [Entity.allNames, Entity.names, Stmt.names, Entity.inputNames, a]; grind
  · simp [a]

end Spade.Mir

import Verif.Inline.Lemmas
/-! C33: inlining does not change the possible values of the signals. -/
namespace Spade.Inline

open Spade.Mir

variable {Op Ty C Ini V : Type}

/-- The items are those of the statements. -/
inductive Built (D : Design Op Ty C Ini) : List (Stmt Op Ty C Ini) → List (Item Op Ty C Ini) → Prop where
  | nil : Built D [] []
  | normal {cur ss items} : (∀ s ∈ cur, D.inlined s = none) → Built D ss items →
      Built D (cur ++ ss) (.normal cur :: items)
  | call {s ss r e ty os target items nameMap tk} : D.inlined s = some (r, e, ty, os) →
      Built D e.stmts target → (∀ n ∈ e.defs, n ∈ nameMap.keys) → Built D ss items →
      Built D (s :: ss) (.call r e.output ty target nameMap (e.inputNames.zip os) tk :: items)

/-- What is assumed about the design: names stand for units of that name, units to be inlined only
use names that they define or that are inputs, and are given as many operands as they have inputs. -/
structure Design.Ok (D : Design Op Ty C Ini) : Prop where
  named : ∀ n u, D.unit n = some u → u.entity.name = n
  inputs : ∀ n u, D.unit n = some u → u.inline = true → u.entity.inputNames.Nodup ∧
    ∀ i ∈ u.entity.inputNames, i ∉ u.entity.defs
  closed : ∀ n u, D.unit n = some u → u.inline = true →
    (∀ s ∈ u.entity.stmts, ∀ m ∈ s.names, m ∈ u.entity.inputNames ∨ m ∈ u.entity.defs) ∧
    (u.entity.output ∈ u.entity.inputNames ∨ u.entity.output ∈ u.entity.defs)
  arity : ∀ n u, D.unit n = some u → ∀ s ∈ u.entity.stmts, ∀ r e ty os,
    D.inlined s = some (r, e, ty, os) → os.length = e.inputNames.length

theorem inlined_spec {D : Design Op Ty C Ini} {s : Stmt Op Ty C Ini} {r : Name} {e : Entity Op Ty C Ini}
    {ty : Ty} {os : List Name} (h : D.inlined s = some (r, e, ty, os)) :
    ∃ op n u, s = .binding ⟨r, .other op, os, ty⟩ ∧ D.callee op = some n ∧ D.unit n = some u ∧
      u.inline = true ∧ u.entity = e := by
  cases s with
  | binding b =>
    obtain ⟨b1, b2, b3, b4⟩ := b
    cases b2 with
    | alias => simp [Design.inlined] at h
    | other op =>
      simp only [Design.inlined] at h
      cases hc : D.callee op with
      | none => simp [hc] at h
      | some n =>
        cases hu : D.unit n with
        | none => simp [hc, hu] at h
        | some u =>
          simp only [hc, hu, Option.bind_some] at h
          split at h
          · rename_i hi
            simp only [Option.some.injEq, Prod.mk.injEq] at h
            obtain ⟨rfl, rfl, rfl, rfl⟩ := h
            exact ⟨op, n, u, rfl, hc, hu, hi, rfl⟩
          · cases h
  | _ => simp [Design.inlined] at h

/-- All calls in the statements have as many operands as the callee has inputs. -/
def Arity (D : Design Op Ty C Ini) (ss : List (Stmt Op Ty C Ini)) : Prop :=
  ∀ s ∈ ss, ∀ r e ty os, D.inlined s = some (r, e, ty, os) → os.length = e.inputNames.length

theorem zip_map_fst {α β : Type} {l : List α} {l' : List β} (h : l'.length = l.length) :
    (l.zip l').map (·.1) = l := List.map_fst_zip (by omega)

/-- The values of the result of inlining are possible in the design. -/
theorem sound {D : Design Op Ty C Ini} (hD : D.Ok) (I : Interp Op Ty C Ini V) (v : Name → V)
    {ss : List (Stmt Op Ty C Ini)} {items : List (Item Op Ty C Ini)} (h : Built D ss items) :
    ∀ (m : NMap) (ids : Ids) (out : List (Stmt Op Ty C Ini)) (ids' : Ids), Arity D ss →
    finalizeItems m ids items = some (out, ids') → (∀ s ∈ out, s.Sat I v) →
    Possible D I (fun n => v (finalName m n)) ss := by
  induction h with
  | nil => intros; exact .nil
  | @normal cur ss items hcur _ ih =>
    intro m ids out ids' har hf hv
    simp only [finalizeItems, finalizeItem, Option.bind_eq_bind, Option.bind_some,
      Option.bind_eq_some_iff] at hf
    obtain ⟨⟨rest, ids2⟩, hr, he⟩ := hf
    simp only [Option.some.injEq, Prod.mk.injEq] at he
    obtain ⟨rfl, rfl⟩ := he
    have hrest := ih m ids rest ids2 (fun s hs => har s (by simp [hs])) hr
      (fun s hs => hv s (List.mem_append_right _ hs))
    have hcs : ∀ s ∈ cur, s.Sat I (fun n => v (finalName m n)) := by
      intro s hs
      have := hv (s.rename (finalName m)) (List.mem_append_left _ (List.mem_map_of_mem hs))
      exact (Stmt.sat_rename I v (finalName m) s).mp this
    clear hv hr
    induction cur with
    | nil => simpa using hrest
    | cons s cur ih2 =>
      refine .plain (hcur s (by simp)) (hcs s (by simp)) ?_
      exact ih2 (fun s hs => hcur s (by simp [hs])) (fun s hs => har s (by
        rcases List.mem_append.mp hs with h | h <;> simp [h])) (fun s hs => hcs s (by simp [hs]))
  | @call s ss r e ty os target items nameMap tk hin _ _ _ ih1 ih2 =>
    intro m ids out ids' har hf hv
    simp only [finalizeItems, finalizeItem, Option.bind_eq_bind, Option.bind_eq_some_iff] at hf
    obtain ⟨⟨out1, ids1⟩, ⟨res, hres, ⟨body, ids1'⟩, hb, e1⟩, ⟨rest, ids2⟩, hr, e2⟩ := hf
    simp only [Option.some.injEq, Prod.mk.injEq] at e1 e2
    obtain ⟨rfl, rfl⟩ := e1
    obtain ⟨rfl, rfl⟩ := e2
    obtain ⟨op, n, u, rfl, _, hu, hi, rfl⟩ := inlined_spec hin
    have hlen := har _ (by simp) _ _ _ _ hin
    refine .instance _ hin (ih1 _ _ _ _ (hD.arity n u hu) hb
      (fun s hs => hv s (by simp [hs]))) ?_ ?_ ?_
    · -- the inputs carry the values of the operands
      have hnd : ((u.entity.inputNames.zip os).map (fun e => (e.1, finalName m e.2))).map (·.1)
          = u.entity.inputNames := by
        rw [List.map_map]
        exact zip_map_fst hlen
      have hnd' := (hD.inputs n u hu hi).1
      apply List.ext_getElem
      · simp [hlen]
      · intro i h1 h2
        simp only [List.length_map] at h1 h2
        simp only [List.getElem_map]
        have hmem : (u.entity.inputNames[i], finalName m os[i]) ∈
            (u.entity.inputNames.zip os).map (fun e => (e.1, finalName m e.2)) := by
          refine List.mem_map.mpr ⟨(u.entity.inputNames[i], os[i]), ?_, rfl⟩
          rw [List.mem_iff_getElem]
          exact ⟨i, by simp; omega, by simp⟩
        have := newMap_input (drawn := (freshAll ids (nameMap.keys ++ m.keys ++ tk)).1)
          (by rw [hnd]; exact hnd') hmem
        rw [finalName, this]; rfl
    · have := hv (.binding ⟨finalName m r, .alias, [res], ty⟩) (by simp)
      simp only [Stmt.Sat, List.head?_cons, Option.some.injEq, forall_eq'] at this
      rw [this]
      congr 1
      rw [finalName, hres]; rfl
    · exact ih2 m _ _ _ (fun s hs => har s (by simp [hs])) hr (fun s hs => hv s (by simp [hs]))

/-- Values that are possible in the design are possible after inlining. -/
theorem complete {D : Design Op Ty C Ini} (hD : D.Ok) (I : Interp Op Ty C Ini V)
    {ss : List (Stmt Op Ty C Ini)} {items : List (Item Op Ty C Ini)} (h : Built D ss items) :
    ∀ (m : NMap) (ids : Ids) (v u : Name → V), Arity D ss →
    (∀ s ∈ ss, ∀ n ∈ s.names, v (finalName m n) = u n ∧ Below ids (finalName m n)) →
    Possible D I u ss →
    ∃ out ids', finalizeItems m ids items = some (out, ids') ∧ ids.le ids' ∧
      (∀ s ∈ out, ∀ n ∈ s.names, Below ids' n) ∧
      ∃ v', (∀ n, Below ids n → v' n = v n) ∧ ∀ s ∈ out, s.Sat I v' := by
  induction h with
  | nil =>
    intro m ids v u _ _ _
    exact ⟨[], ids, rfl, ids.le_refl, by simp, v, by simp, by simp⟩
  | @normal cur ss items hcur _ ih =>
    intro m ids v u har hn hp
    have hsplit : (∀ s ∈ cur, s.Sat I u) ∧ Possible D I u ss := by
      clear har hn ih
      induction cur with
      | nil => exact ⟨by simp, hp⟩
      | cons s cur ih2 =>
        cases hp with
        | plain _ hs hp =>
          obtain ⟨h1, h2⟩ := ih2 (fun s hs => hcur s (by simp [hs])) hp
          exact ⟨by
            intro t ht
            rcases List.mem_cons.mp ht with rfl | ht
            · exact hs
            · exact h1 t ht, h2⟩
        | «instance» w hin _ _ _ _ => rw [hcur s (by simp)] at hin; cases hin
    obtain ⟨out, ids', hf, hle, hb, v', hv', hsat⟩ :=
      ih m ids v u (fun s hs => har s (by simp [hs])) (fun s hs => hn s (by simp [hs])) hsplit.2
    refine ⟨cur.map (Stmt.rename (finalName m)) ++ out, ids', ?_, hle, ?_, v', hv', ?_⟩
    · simp [finalizeItems, finalizeItem, hf]
    · intro s hs n hnn
      rcases List.mem_append.mp hs with hs | hs
      · obtain ⟨t, ht, rfl⟩ := List.mem_map.mp hs
        obtain ⟨k, hk, rfl⟩ := (Stmt.mem_names_rename _ _ _).mp hnn
        exact ((hn t (by simp [ht]) k hk).2).mono hle
      · exact hb s hs n hnn
    · intro s hs
      rcases List.mem_append.mp hs with hs | hs
      · obtain ⟨t, ht, rfl⟩ := List.mem_map.mp hs
        rw [Stmt.sat_rename]
        refine (Stmt.sat_congr I t ?_).mp (hsplit.1 t ht)
        intro k hk
        obtain ⟨h1, h2⟩ := hn t (by simp [ht]) k hk
        rw [hv' _ h2, h1]
      · exact hsat s hs
  | @call s ss r e ty os target items nameMap tk hin _ hkeys _ ih1 ih2 =>
    intro m ids v u har hn hp
    cases hp with
    | plain hin' _ _ => rw [hin] at hin'; cases hin'
    | «instance» w hin' hpw hins hout hp =>
      rw [hin] at hin'
      simp only [Option.some.injEq, Prod.mk.injEq] at hin'
      obtain ⟨rfl, rfl, rfl, rfl⟩ := hin'
      obtain ⟨op, n0, un, rfl, _, hu, hi, rfl⟩ := inlined_spec hin
      have hlen := har _ (by simp) _ _ _ _ hin
      have hnames : ∀ x ∈ r :: os, v (finalName m x) = u x ∧ Below ids (finalName m x) :=
        fun x hx => hn (.binding ⟨r, .other op, os, ty⟩) (List.mem_cons_self ..) x hx
      obtain ⟨hle1, hfst, hnew, hnodup⟩ := freshAll_spec (nameMap.keys ++ m.keys ++ tk) ids
      -- the new names get the values in the callee
      let keys := nameMap.keys ++ m.keys ++ tk
      let drawn := (freshAll ids keys).1
      let ids1 := (freshAll ids keys).2
      let ins := (un.entity.inputNames.zip os).map (fun e => (e.1, finalName m e.2))
      let newMap := NMap.collect (drawn ++ ins)
      let v1 : Name → V := fun n => match drawn.find? (fun p => p.2 = n) with
        | some p => w p.1
        | none => v n
      have hv1_old : ∀ n, Below ids n → v1 n = v n := by
        intro n hb
        have : drawn.find? (fun p => p.2 = n) = none := by
          rw [List.find?_eq_none]
          intro p hp he
          simp only [decide_eq_true_eq] at he
          exact (hnew p hp).1 (by rw [he]; exact hb)
        simp only [v1, this]
      have hv1_new : ∀ k n, (k, n) ∈ drawn → v1 n = w k := by
        intro k n hm
        have : drawn.find? (fun p => p.2 = n) = some (k, n) := by
          clear hv1_old
          have hnd := hnodup
          change (drawn.map (·.2)).Nodup at hnd
          clear_value drawn
          induction drawn with
          | nil => simp at hm
          | cons p l ihl =>
            rw [List.map_cons, List.nodup_cons] at hnd
            rcases List.mem_cons.mp hm with rfl | hm
            · simp
            · have hne : p.2 ≠ n := by
                intro he
                exact hnd.1 (List.mem_map.mpr ⟨_, hm, he.symm⟩)
              simp [List.find?_cons, hne, ihl hm hnd.2]
        simp only [v1, this]
      have hinfst : ins.map (·.1) = un.entity.inputNames := by
        simp only [ins]; rw [List.map_map]; exact zip_map_fst hlen
      have hinnd := (hD.inputs n0 un hu hi).1
      -- names of the callee
      have hcal : ∀ n, n ∈ un.entity.inputNames ∨ n ∈ un.entity.defs →
          v1 (finalName newMap n) = w n ∧ Below ids1 (finalName newMap n) ∧ (newMap.get n).isSome := by
        intro n hnn
        by_cases hni : n ∈ un.entity.inputNames
        · obtain ⟨i, hi', rfl⟩ := List.mem_iff_getElem.mp hni
          have hio : i < os.length := by omega
          have hmem : (un.entity.inputNames[i], finalName m os[i]) ∈ ins := by
            refine List.mem_map.mpr ⟨(un.entity.inputNames[i], os[i]), ?_, rfl⟩
            rw [List.mem_iff_getElem]
            exact ⟨i, by simp; omega, by simp⟩
          have hget := newMap_input (drawn := drawn) (by rw [hinfst]; exact hinnd) hmem
          have hfin : finalName newMap un.entity.inputNames[i] = finalName m os[i] := by
            simp only [finalName, newMap]; rw [hget]; rfl
          obtain ⟨h1, h2⟩ := hnames os[i] (by simp)
          refine ⟨?_, by rw [hfin]; exact h2.mono hle1, by simp only [newMap]; rw [hget]; rfl⟩
          rw [hfin, hv1_old _ h2, h1]
          have := congrArg (·[i]?) hins
          simp only [List.getElem?_map, List.getElem?_eq_getElem hi', List.getElem?_eq_getElem hio,
            Option.map_some, Option.some.injEq] at this
          exact this.symm
        · have hnd := hnn.resolve_left hni
          obtain ⟨f, hf, hfd⟩ := newMap_other (drawn := drawn) (ins := ins) (k := n)
            (by rw [hinfst]; exact hni)
            (by
              show n ∈ List.map (·.1) (freshAll ids keys).1
              rw [hfst]
              simp [hkeys n hnd])
          have hfin : finalName newMap n = f := by simp only [finalName, newMap]; rw [hf]; rfl
          exact ⟨by rw [hfin]; exact hv1_new n f hfd, by rw [hfin]; exact (hnew _ hfd).2,
            by simp only [newMap]; rw [hf]; rfl⟩
      obtain ⟨hcl, hclo⟩ := hD.closed n0 un hu hi
      obtain ⟨body, ids2, hf1, hle2, hb1, v2, hv2, hsat1⟩ := ih1 newMap ids1 v1 w (hD.arity n0 un hu)
        (fun s hs n hnn => ⟨(hcal n (hcl s hs n hnn)).1, (hcal n (hcl s hs n hnn)).2.1⟩) hpw
      have hv2_old : ∀ n, Below ids n → v2 n = v n := by
        intro n hb; rw [hv2 n (hb.mono hle1), hv1_old n hb]
      obtain ⟨rest, ids3, hf2, hle3, hb2, v3, hv3, hsat2⟩ := ih2 m ids2 v2 u
        (fun s hs => har s (by simp [hs]))
        (fun s hs n hnn => by
          obtain ⟨h1, h2⟩ := hn s (by simp [hs]) n hnn
          exact ⟨by rw [hv2_old _ h2, h1], h2.mono (hle1.trans hle2)⟩) hp
      obtain ⟨ho1, ho2, ho3⟩ := hcal _ hclo
      obtain ⟨res, hres⟩ := Option.isSome_iff_exists.mp ho3
      have hfinres : finalName newMap un.entity.output = res := by rw [finalName, hres]; rfl
      rw [hfinres] at ho1 ho2
      obtain ⟨hr1, hr2⟩ := hnames r (by simp)
      refine ⟨(body ++ [.binding ⟨finalName m r, .alias, [res], ty⟩]) ++ rest, ids3, ?_,
        hle1.trans (hle2.trans hle3), ?_, v3, ?_, ?_⟩
      · simp only [finalizeItems, finalizeItem, Option.bind_eq_bind]
        have e1 : (NMap.collect ((freshAll ids (nameMap.keys ++ m.keys ++ tk)).1 ++
            (un.entity.inputNames.zip os).map (fun e => (e.1, finalName m e.2)))).get un.entity.output
            = some res := hres
        have e2 : finalizeItems (NMap.collect ((freshAll ids (nameMap.keys ++ m.keys ++ tk)).1 ++
            (un.entity.inputNames.zip os).map (fun e => (e.1, finalName m e.2))))
            (freshAll ids (nameMap.keys ++ m.keys ++ tk)).2 target = some (body, ids2) := hf1
        rw [e1]
        simp only [Option.bind_some, e2, hf2]
      · intro s hs n hnn
        simp only [List.mem_append, List.mem_singleton] at hs
        rcases hs with (hs | rfl) | hs
        · exact (hb1 s hs n hnn).mono hle3
        · simp only [Stmt.names, List.mem_cons, List.not_mem_nil, or_false] at hnn
          rcases hnn with rfl | rfl
          · exact hr2.mono (hle1.trans (hle2.trans hle3))
          · exact ho2.mono (hle2.trans hle3)
        · exact hb2 s hs n hnn
      · intro n hb
        rw [hv3 n (hb.mono (hle1.trans hle2)), hv2_old n hb]
      · intro s hs
        simp only [List.mem_append, List.mem_singleton] at hs
        rcases hs with (hs | rfl) | hs
        · refine (Stmt.sat_congr I s ?_).mp (hsat1 s hs)
          intro n hnn
          exact (hv3 n (hb1 s hs n hnn)).symm
        · simp only [Stmt.Sat, List.head?_cons, Option.some.injEq, forall_eq']
          rw [hv3 _ (hr2.mono (hle1.trans hle2)), hv2_old _ hr2, hr1,
            hv3 _ (ho2.mono hle2), hv2 _ ho2, ho1, hout]
        · exact hsat2 s hs

/-! ## Collecting the statements -/

/-- Everything in the cache was made from the unit of that name. -/
def CacheOk (D : Design Op Ty C Ini) (cache : Cache Op Ty C Ini) : Prop :=
  ∀ n items u, cache.lookup n = some items → D.unit n = some u → Built D u.entity.stmts items

theorem Built.append_normal {D : Design Op Ty C Ini} {cur ss : List (Stmt Op Ty C Ini)}
    {items : List (Item Op Ty C Ini)} (h : ∀ s ∈ cur, D.inlined s = none) (hb : Built D ss items) :
    Built D (cur ++ ss) (.normal cur :: items) := .normal h hb

theorem perform_built {D : Design Op Ty C Ini} (hD : D.Ok) (typed : Typed) : ∀ fuel,
    (∀ name ids cache items ids' cache', perform D typed fuel name ids cache = some (items, ids', cache') →
      CacheOk D cache → CacheOk D cache' ∧ ids.le ids' ∧
        ∀ u, D.unit name = some u → Built D u.entity.stmts items) ∧
    (∀ ss cur ids cache items ids' cache',
      performStmts D typed fuel ss cur ids cache = some (items, ids', cache') →
      CacheOk D cache → (∀ s ∈ cur, D.inlined s = none) →
      CacheOk D cache' ∧ ids.le ids' ∧ Built D (cur ++ ss) items) := by
  intro fuel
  induction fuel with
  | zero => exact ⟨by intros; simp_all [perform], by intros; simp_all [performStmts]⟩
  | succ fuel ih =>
    obtain ⟨ih1, ih2⟩ := ih
    constructor
    · intro name ids cache items ids' cache' h hc
      simp only [perform] at h
      cases hl : cache.lookup name with
      | some its =>
        simp only [hl, Option.some.injEq, Prod.mk.injEq] at h
        obtain ⟨rfl, rfl, rfl⟩ := h
        exact ⟨hc, ids.le_refl, fun u hu => hc name its u hl hu⟩
      | none =>
        simp only [hl] at h
        cases hu : D.unit name with
        | none => simp [hu] at h
        | some u =>
          simp only [hu, Option.bind_eq_bind, Option.bind_eq_some_iff] at h
          obtain ⟨⟨its, ids1, cache1⟩, hp, he⟩ := h
          simp only [Option.some.injEq, Prod.mk.injEq] at he
          obtain ⟨rfl, rfl, rfl⟩ := he
          obtain ⟨h1, h2, h3⟩ := ih2 _ _ _ _ _ _ _ hp hc (by simp)
          simp only [List.nil_append] at h3
          refine ⟨?_, h2, fun u' hu' => by cases hu'; exact h3⟩
          intro n its' u' hn hu'
          simp only [List.lookup_cons] at hn
          split at hn
          · rename_i hk
            have : n = name := by simpa using hk
            subst this
            rw [hu] at hu'
            cases hu'; cases hn
            exact h3
          · exact h1 n its' u' hn hu'
    · intro ss cur ids cache items ids' cache' h hc hcur
      cases ss with
      | nil =>
        simp only [performStmts, Option.some.injEq, Prod.mk.injEq] at h
        obtain ⟨rfl, rfl, rfl⟩ := h
        exact ⟨hc, ids.le_refl, .normal hcur .nil⟩
      | cons s ss =>
        simp only [performStmts] at h
        cases hin : D.inlined s with
        | none =>
          simp only [hin] at h
          obtain ⟨h1, h2, h3⟩ := ih2 _ _ _ _ _ _ _ h hc (by
            intro t ht
            rcases List.mem_append.mp ht with ht | ht
            · exact hcur t ht
            · simp only [List.mem_singleton] at ht; subst ht; exact hin)
          exact ⟨h1, h2, by simpa using h3⟩
        | some p =>
          obtain ⟨r, e, ty, os⟩ := p
          simp only [hin, Option.bind_eq_bind, Option.bind_eq_some_iff] at h
          obtain ⟨⟨target, ids1, cache1⟩, hp1, ⟨rest, ids2, cache2⟩, hp2, he⟩ := h
          simp only [Option.some.injEq, Prod.mk.injEq] at he
          obtain ⟨rfl, rfl, rfl⟩ := he
          obtain ⟨op, n, u, rfl, _, hu, hi, rfl⟩ := inlined_spec hin
          have hfr := freshAll_spec (definedNames u.entity.stmts) ids
          obtain ⟨a1, a2, a3⟩ := ih1 _ _ _ _ _ _ hp1 hc
          obtain ⟨b1, b2, b3⟩ := ih2 _ _ _ _ _ _ _ hp2 a1 (by simp)
          have htar := a3 u (by rw [hD.named n u hu]; exact hu)
          refine ⟨b1, hfr.1.trans (a2.trans b2), .normal hcur (.call hin htar ?_ (by simpa using b3))⟩
          intro m hm
          rw [NMap.mem_keys_collect, hfr.2.1, definedNames_eq]
          exact hm

/-! ## The whole pass -/

/-- Inlining `e'` from `e`: the possible values of the signals are the same. -/
def SameValues (D : Design Op Ty C Ini) (I : Interp Op Ty C Ini V) (known : Name → Prop)
    (e e' : Entity Op Ty C Ini) : Prop :=
  (∀ v, e'.Sat I v → Possible D I v e.stmts) ∧
  (∀ u, Possible D I u e.stmts → ∃ v, e'.Sat I v ∧ ∀ n, known n → v n = u n)

theorem finalName_nil (n : Name) : finalName [] n = n := rfl

mutual
theorem finalizeItem_le : ∀ (i : Item Op Ty C Ini) (m : NMap) (ids : Ids) (out : List (Stmt Op Ty C Ini))
    (ids' : Ids), finalizeItem m ids i = some (out, ids') → ids.le ids'
  | .normal ss, m, ids, out, ids', h => by
    simp only [finalizeItem, Option.some.injEq, Prod.mk.injEq] at h
    rw [← h.2]; exact ids.le_refl
  | .call outer inner ty target nameMap inputs typeKeys, m, ids, out, ids', h => by
    simp only [finalizeItem, Option.bind_eq_bind, Option.bind_eq_some_iff] at h
    obtain ⟨res, _, ⟨body, ids1⟩, hb, he⟩ := h
    simp only [Option.some.injEq, Prod.mk.injEq] at he
    rw [← he.2]
    exact (freshAll_spec _ ids).1.trans (finalizeItems_le target _ _ _ _ hb)
theorem finalizeItems_le : ∀ (is : List (Item Op Ty C Ini)) (m : NMap) (ids : Ids)
    (out : List (Stmt Op Ty C Ini)) (ids' : Ids), finalizeItems m ids is = some (out, ids') → ids.le ids'
  | [], m, ids, out, ids', h => by
    simp only [finalizeItems, Option.some.injEq, Prod.mk.injEq] at h
    rw [← h.2]; exact ids.le_refl
  | i :: is, m, ids, out, ids', h => by
    simp only [finalizeItems, Option.bind_eq_bind, Option.bind_eq_some_iff] at h
    obtain ⟨⟨o1, ids1⟩, h1, ⟨o2, ids2⟩, h2, he⟩ := h
    simp only [Option.some.injEq, Prod.mk.injEq] at he
    rw [← he.2]
    exact (finalizeItem_le i m ids o1 ids1 h1).trans (finalizeItems_le is m ids1 o2 ids2 h2)
end

/-- What inlining one unit guarantees. -/
structure Inlined (D : Design Op Ty C Ini) (I : Interp Op Ty C Ini V) (known : Name → Prop)
    (e e' : Entity Op Ty C Ini) : Prop where
  head : e'.name = e.name ∧ e'.inputs = e.inputs ∧ e'.output = e.output ∧ e'.outputTy = e.outputTy
  values : SameValues D I known e e'

theorem finalizeAll_spec {D : Design Op Ty C Ini} (hD : D.Ok) (I : Interp Op Ty C Ini V) (start : Ids) :
    ∀ (all : List (Entity Op Ty C Ini × List (Item Op Ty C Ini))) (ids : Ids)
      (es : List (Entity Op Ty C Ini)), finalizeAll all ids = some es → start.le ids →
    (∀ p ∈ all, Built D p.1.stmts p.2 ∧ Arity D p.1.stmts ∧ ∀ s ∈ p.1.stmts, ∀ n ∈ s.names, Below start n) →
    Each (Inlined D I (Below start)) (all.map (·.1)) es := by
  intro all
  induction all with
  | nil => intro ids es h _ _; simp only [finalizeAll, Option.some.injEq] at h; subst h; exact .nil
  | cons p all ih =>
    intro ids es h hle hall
    obtain ⟨e, items⟩ := p
    simp only [finalizeAll, Option.bind_eq_bind, Option.bind_eq_some_iff] at h
    obtain ⟨⟨stmts, ids1⟩, h1, es', h2, he⟩ := h
    simp only [Option.some.injEq] at he
    subst he
    obtain ⟨hb, ha, hn⟩ := hall _ (List.mem_cons_self ..)
    refine .cons ⟨⟨rfl, rfl, rfl, rfl⟩, ?_, ?_⟩ (ih ids1 es' h2
      (hle.trans (finalizeItems_le items _ _ _ _ h1)) (fun p hp => hall p (List.mem_cons_of_mem _ hp)))
    · intro v hv
      exact sound hD I v hb [] ids stmts ids1 ha h1 hv
    · intro u hu
      obtain ⟨out, ids', hf, _, _, v', hv', hsat⟩ := complete hD I hb [] ids u u ha
        (fun s hs n hnn => ⟨rfl, (hn s hs n hnn).mono hle⟩) hu
      rw [h1] at hf
      simp only [Option.some.injEq, Prod.mk.injEq] at hf
      obtain ⟨rfl, rfl⟩ := hf
      exact ⟨v', hsat, fun n hnn => hv' n (hnn.mono hle)⟩

theorem performAll_spec {D : Design Op Ty C Ini} (hD : D.Ok) (typed : Typed) (fuel : Nat) :
    ∀ (names : List String) (ids : Ids) (cache : Cache Op Ty C Ini) all ids', CacheOk D cache →
      performAll D typed fuel names ids cache = some (all, ids') →
      ids.le ids' ∧ (∀ p ∈ all, Built D p.1.stmts p.2) ∧
      Each (fun n p => ∃ u, D.unit n = some u ∧ u.entity = p) names (all.map (·.1)) := by
  intro names
  induction names with
  | nil =>
    intro ids cache all ids' _ h
    simp only [performAll, Option.some.injEq, Prod.mk.injEq] at h
    obtain ⟨rfl, rfl⟩ := h
    exact ⟨ids.le_refl, by simp, .nil⟩
  | cons name names ih =>
    intro ids cache all ids' hc h
    simp only [performAll, Option.bind_eq_bind, Option.bind_eq_some_iff] at h
    obtain ⟨u, hu, ⟨items, ids1, cache1⟩, hp, ⟨rest, ids2⟩, hr, he⟩ := h
    simp only [Option.some.injEq, Prod.mk.injEq] at he
    obtain ⟨rfl, rfl⟩ := he
    obtain ⟨h1, h2, h3⟩ := (perform_built hD typed fuel).1 _ _ _ _ _ _ hp hc
    obtain ⟨i1, i2, i3⟩ := ih ids1 cache1 rest ids2 h1 hr
    refine ⟨h2.trans i1, ?_, .cons ⟨u, hu, rfl⟩ i3⟩
    intro p hp
    rcases List.mem_cons.mp hp with rfl | hp
    · exact h3 u hu
    · exact i2 p hp

/-- **C33.**  If inlining succeeds then every unit it yields has the name, inputs and output of the
unit it was made from, every valuation that satisfies it is possible for the signals of that unit in
the design, and for every valuation that is possible there, the result has a satisfying one that
agrees on all names the unit had.

The trackers that new names are drawn from must have passed all names of the units that are not
inlined; see `C33_counterexample_tracker` for what happens otherwise. -/
theorem C33_inlining_partial (D : Design Op Ty C Ini) (hD : D.Ok) (I : Interp Op Ty C Ini V) (typed : Typed)
    (fuel : Nat) (names : List String) (ids : Ids) (es : List (Entity Op Ty C Ini))
    (hbelow : ∀ n ∈ names, ∀ u, D.unit n = some u → ∀ s ∈ u.entity.stmts, ∀ x ∈ s.names, Below ids x)
    (h : doInlining D typed fuel names ids = some es) :
    Each (fun n e' => ∃ u, D.unit n = some u ∧
      e'.name = u.entity.name ∧ e'.inputs = u.entity.inputs ∧ e'.output = u.entity.output ∧
      e'.outputTy = u.entity.outputTy ∧
      (∀ v, e'.Sat I v → Possible D I v u.entity.stmts) ∧
      (∀ v, Possible D I v u.entity.stmts → ∃ v', e'.Sat I v' ∧ ∀ x, Below ids x → v' x = v x)) names es := by
  simp only [doInlining, Option.bind_eq_bind, Option.bind_eq_some_iff] at h
  obtain ⟨⟨all, ids1⟩, hp, hf⟩ := h
  obtain ⟨h1, h2, h3⟩ := performAll_spec hD typed fuel names ids [] all ids1
    (by intro n items u hl; simp at hl) hp
  have hsrc : ∀ p ∈ all, ∃ n ∈ names, ∃ u, D.unit n = some u ∧ u.entity = p.1 := by
    have : ∀ (names : List String) (l : List (Entity Op Ty C Ini)),
        Each (fun n p => ∃ u, D.unit n = some u ∧ u.entity = p) names l →
        ∀ e ∈ l, ∃ n ∈ names, ∃ u, D.unit n = some u ∧ u.entity = e := by
      intro names l hl
      induction hl with
      | nil => simp
      | cons hr _ ih =>
        intro e he
        rcases List.mem_cons.mp he with rfl | he
        · exact ⟨_, List.mem_cons_self .., hr⟩
        · obtain ⟨n, hn, hu⟩ := ih e he
          exact ⟨n, List.mem_cons_of_mem _ hn, hu⟩
    intro p hp
    exact this names _ h3 p.1 (List.mem_map_of_mem hp)
  have hfin := finalizeAll_spec hD I ids all ids1 es hf h1 (by
    intro p hp
    obtain ⟨n, hn, u, hu, he⟩ := hsrc p hp
    refine ⟨h2 p hp, ?_, ?_⟩
    · rw [← he]; exact hD.arity n u hu
    · rw [← he]; exact hbelow n hn u hu)
  have := h3.comp hfin
  refine this.imp ?_
  rintro n e' ⟨e, ⟨u, hu, rfl⟩, hin⟩
  exact ⟨u, hu, hin.head.1, hin.head.2.1, hin.head.2.2.1, hin.head.2.2.2, hin.values.1, hin.values.2⟩

end Spade.Inline

import Verif.Hier.Model
import Verif.Mir.VerilogNames

/-!
# Signals of a waveform (C74): lemmas
-/

namespace Spade.Hier

open Spade.Mir
open Spec (Dir Signal Carries HasInstance Leads instantiated)

variable {Op Ty C Ini : Type}

/-! Maps -/

theorem mem_of_get {α β : Type} [BEq α] [LawfulBEq α] {m : List (α × β)} {k : α} {v : β}
    (h : get m k = some v) : (k, v) ∈ m := by
  unfold get at h
  have : ∀ l : List (α × β), l.lookup k = some v → (k, v) ∈ l := by
    intro l
    induction l with
    | nil => intro h; simp at h
    | cons a l ih =>
      intro h
      obtain ⟨x, y⟩ := a
      rw [List.lookup_cons] at h
      by_cases hx : k == x
      · simp only [hx] at h
        rw [eq_of_beq hx]
        cases h
        exact List.mem_cons_self
      · simp only [hx] at h
        exact List.mem_cons_of_mem _ (ih h)
  exact List.mem_reverse.1 (this _ h)

theorem get_isSome {α β : Type} [BEq α] [LawfulBEq α] {m : List (α × β)} {k : α} {v : β}
    (h : (k, v) ∈ m) : ∃ w, get m k = some w := by
  unfold get
  have : ∀ l : List (α × β), (k, v) ∈ l → ∃ w, l.lookup k = some w := by
    intro l
    induction l with
    | nil => intro h; cases h
    | cons a l ih =>
      intro h
      obtain ⟨x, y⟩ := a
      rw [List.lookup_cons]
      by_cases hx : k == x
      · exact ⟨y, by simp only [hx]⟩
      · simp only [hx]
        rcases List.mem_cons.1 h with h | h
        · cases h
          simp at hx
        · exact ih h
  exact this _ (List.mem_reverse.2 h)

theorem get_unique {α β : Type} [BEq α] [LawfulBEq α] {m : List (α × β)} {k : α} {v : β}
    (h : (k, v) ∈ m) (hu : ∀ w, (k, w) ∈ m → w = v) : get m k = some v := by
  obtain ⟨w, hw⟩ := get_isSome h
  rw [hw, hu w (mem_of_get hw)]

theorem get_none_or {α β : Type} [BEq α] [LawfulBEq α] {m : List (α × β)} {k : α} {v : β}
    (hu : ∀ w, (k, w) ∈ m → w = v) : get m k = none ∨ get m k = some v := by
  cases h : get m k with
  | none => exact .inl rfl
  | some w => exact .inr (by rw [hu w (mem_of_get h)])

theorem fst_unique {α β : Type} : ∀ {l : List (α × β)}, (l.map (·.1)).Nodup → ∀ {k : α} {v w : β},
    (k, v) ∈ l → (k, w) ∈ l → v = w
  | [], _, _, _, _, h, _ => by cases h
  | (x, y) :: l, hn, k, v, w, h1, h2 => by
    rw [List.map_cons, List.nodup_cons] at hn
    rcases List.mem_cons.1 h1 with h1 | h1 <;> rcases List.mem_cons.1 h2 with h2 | h2
    · rw [Prod.mk.injEq] at h1 h2
      rw [h1.2, h2.2]
    · cases h1
      exact absurd (List.mem_map.2 ⟨_, h2, rfl⟩) hn.1
    · cases h2
      exact absurd (List.mem_map.2 ⟨_, h1, rfl⟩) hn.1
    · exact fst_unique hn.2 h1 h2

/-! What the identifiers of a module are for -/

/-- The identifiers of an input, with what they carry. -/
def inputFacts (X : NameCtx Op Ty) (f : Name → Name) (i : Input Ty) : List (Role × Source) :=
  (if X.fwd i.ty ≠ 0 then
    (if i.noMangle then [(.fwd (f i.valName), (.forward, i.valName))]
      else [(.pin i.name, (.forward, i.valName)), (.fwd (f i.valName), (.forward, i.valName))]) else []) ++
  (if X.bwd i.ty ≠ 0 then
    [(if i.noMangle then .fwd (f i.valName) else .pout i.name, (.backward, i.valName)),
     (.bwd (f i.valName), (.backward, i.valName))] else [])

/-- The identifiers of a statement, with what they carry. -/
def stmtFacts (X : NameCtx Op Ty) (f : Name → Name) : Stmt Op Ty C Ini → List (Role × Source)
  | .binding b =>
    (if X.fwd b.ty ≠ 0 then [(.fwd (f b.name), (.forward, b.name))] else []) ++
    (if X.bwd b.ty ≠ 0 then [(.bwd (f b.name), (.backward, b.name))] else [])
  | .register r => if X.fwd r.ty ≠ 0 then [(.fwd (f r.name), (.forward, r.name))] else []
  | .constant n t _ => if X.fwd t ≠ 0 then [(.fwd (f n), (.forward, n))] else []
  | _ => []

/-- The identifiers of a module other than instances, with what they carry. -/
def facts (X : NameCtx Op Ty) (f : Name → Name) (e : Entity Op Ty C Ini) : List (Role × Source) :=
  e.inputs.flatMap (inputFacts X f) ++ (e.stmts.flatMap (stmtFacts X f) ++
  ((if X.fwd e.outputTy ≠ 0 then [(.out, (.forward, e.output))] else []) ++
  (if X.bwd e.outputTy ≠ 0 then [(.inp, (.backward, e.output))] else [])))

theorem facts_roles (X : NameCtx Op Ty) (f : Name → Name) (e : Entity Op Ty C Ini) :
    ∃ rest, moduleRoles X (e.renameAll f) = (facts X f e).map (·.1) ++ rest := by
  have h1 : ∀ i : Input Ty, (inputFacts X f i).map (·.1) = inputRoles X { i with valName := f i.valName } := by
    intro i
    simp only [inputFacts, inputRoles, List.map_append]
    congr 1
    · by_cases h : X.fwd i.ty ≠ 0
      · rw [if_pos h, if_pos h]; cases i.noMangle <;> rfl
      · rw [if_neg h, if_neg h]; rfl
    · by_cases h : X.bwd i.ty ≠ 0
      · rw [if_pos h, if_pos h]; rfl
      · rw [if_neg h, if_neg h]; rfl
  have h2 : ∀ s : Stmt Op Ty C Ini, (stmtFacts X f s).map (·.1) = stmtRoles X (s.rename f) := by
    intro s
    cases s with
    | binding b =>
      simp only [stmtFacts, Stmt.rename, stmtRoles, List.map_append]
      congr 1 <;> split <;> rfl
    | register r => simp only [stmtFacts, Stmt.rename, stmtRoles]; split <;> rfl
    | constant n t c => simp only [stmtFacts, Stmt.rename, stmtRoles]; split <;> rfl
    | _ => rfl
  refine ⟨instanceRoles [] (requested X (e.renameAll f).stmts), ?_⟩
  simp only [moduleRoles, facts, Entity.renameAll, List.map_append, List.map_flatMap, List.flatMap_map,
    h1, h2, List.append_assoc]
  congr 1
  congr 1
  congr 1
  · by_cases h : X.fwd e.outputTy ≠ 0
    · exact (if_pos h).trans (by rw [if_pos h]; rfl)
    · exact (if_neg h).trans (by rw [if_neg h]; rfl)
  · congr 1
    by_cases h : X.bwd e.outputTy ≠ 0
    · exact (if_pos h).trans (by rw [if_pos h]; rfl)
    · exact (if_neg h).trans (by rw [if_neg h]; rfl)

/-- The renaming does not merge names. -/
theorem rename_inj {e : Entity Op Ty C Ini} (hw : e.WellNamed) {x y : Name}
    (hx : x ∈ e.inputNames ++ e.defs) (hy : y ∈ e.inputNames ++ e.defs)
    (h : (collectNames e).get x = (collectNames e).get y) : x = y := by
  rw [collect_lookup hw.nodup, collect_lookup hw.nodup, if_pos hx, if_pos hy] at h
  exact predicted_inj hx hy h

/-- What is assumed of a unit: the conditions under which identifiers are unique (C14), and that
constants have no backward part. -/
structure Fine (X : NameCtx Op Ty) (e : Entity Op Ty C Ini) : Prop where
  named : e.WellNamed
  inputs : InputsOk X e
  clash : NoClash X (makeNamesPredictable e)
  underscore : "_e" ∉ requested X e.stmts
  constants : ∀ n t c, .constant n t c ∈ e.stmts → X.bwd t = 0

theorem requested_rename (X : NameCtx Op Ty) (e : Entity Op Ty C Ini) :
    requested X (makeNamesPredictable e).stmts = requested X e.stmts := by
  unfold requested makeNamesPredictable Entity.renameAll
  rw [List.filterMap_map]
  congr 1
  funext s
  cases s with
  | binding b => rcases b with ⟨n, op, os, ty⟩; cases op <;> rfl
  | _ => rfl

variable {X : NameCtx Op Ty} {e : Entity Op Ty C Ini}

theorem Fine.unique (h : Fine X e) {r : Role} {s s' : Source}
    (h1 : (r, s) ∈ facts X (collectNames e).get e) (h2 : (r, s') ∈ facts X (collectNames e).get e) :
    s = s' := by
  have hn := moduleRoles_nodup (predictable_wellNamed h.named) (predictable_inputs h.named h.inputs)
  obtain ⟨rest, hr⟩ := facts_roles X (collectNames e).get e
  rw [makeNamesPredictable, hr, List.nodup_append] at hn
  exact fst_unique hn.1 h1 h2

theorem fact_role {r : Role} {s : Source} (h : (r, s) ∈ facts X (collectNames e).get e) :
    r ∈ moduleRoles X (makeNamesPredictable e) := by
  obtain ⟨rest, hr⟩ := facts_roles X (collectNames e).get e
  rw [makeNamesPredictable, hr]
  exact List.mem_append_left _ (List.mem_map.2 ⟨_, h, rfl⟩)

theorem Fine.role_inj (h : Fine X e) {r q : Role} (hr : r ∈ moduleRoles X (makeNamesPredictable e))
    (hq : q ∈ moduleRoles X (makeNamesPredictable e)) (he : r.ident.chars = q.ident.chars) : r = q :=
  Mir.role_inj h.clash (by rw [requested_rename]; exact h.underscore) hr hq he

theorem Fine.val (h : Fine X e) {i : Input Ty} (hi : i ∈ e.inputs) :
    (collectNames e).get i.valName = .named 0 i.name := by
  have := predictable_inputs h.named h.inputs { i with valName := (collectNames e).get i.valName }
    (List.mem_map.2 ⟨i, hi, rfl⟩)
  exact this.text

theorem Fine.plain (h : Fine X e) {i : Input Ty} (hi : i ∈ e.inputs) (hm : i.noMangle = true) :
    (identFwd ((collectNames e).get i.valName)).chars = i.name.toList := by
  rw [h.val hi, chars_identFwd, fwdName, if_pos ⟨rfl, h.inputs.new i hi hm⟩]

theorem mem_inputs {k : Nat} {i : Input Ty} (h : e.inputs[k]? = some i) : i ∈ e.inputs :=
  List.mem_of_getElem? h

theorem input_fact {f : Name → Name} {i : Input Ty} (hi : i ∈ e.inputs) {x : Role × Source}
    (hx : x ∈ inputFacts X f i) : x ∈ facts X f e :=
  List.mem_append_left _ (List.mem_flatMap.2 ⟨i, hi, hx⟩)

theorem stmt_fact {f : Name → Name} {s : Stmt Op Ty C Ini} (hs : s ∈ e.stmts) {x : Role × Source}
    (hx : x ∈ stmtFacts X f s) : x ∈ facts X f e :=
  List.mem_append_right _ (List.mem_append_left _ (List.mem_flatMap.2 ⟨s, hs, hx⟩))

/-- Every entry of the map is for an identifier of the module, or for the name of an input. -/
theorem Fine.entry (h : Fine X e) {v : List Char} {s : Source} (hv : (v, s) ∈ nameEntries X e) :
    (∃ r, (r, s) ∈ facts X (collectNames e).get e ∧ r.ident.chars = v) ∨
    (∃ i ∈ e.inputs, v = i.name.toList ∧
      (X.fwd i.ty ≠ 0 ∧ s = (.forward, i.valName) ∨ X.bwd i.ty ≠ 0 ∧ s = (.backward, i.valName))) := by
  simp only [nameEntries, List.mem_append, List.mem_flatMap] at hv
  rcases hv with (⟨i, hi, hv⟩ | hv) | ⟨st, hs, hv⟩
  · simp only [inputEntries, List.mem_append] at hv
    rcases hv with ((hv | hv) | hv) | hv
    · by_cases hf : X.fwd i.ty ≠ 0
      · rw [if_pos hf, List.mem_singleton, Prod.mk.injEq] at hv
        exact .inr ⟨i, hi, hv.1, .inl ⟨hf, hv.2⟩⟩
      · rw [if_neg hf] at hv; cases hv
    · by_cases hf : X.bwd i.ty ≠ 0
      · rw [if_pos hf, List.mem_singleton, Prod.mk.injEq] at hv
        exact .inr ⟨i, hi, hv.1, .inr ⟨hf, hv.2⟩⟩
      · rw [if_neg hf] at hv; cases hv
    · by_cases hf : X.fwd i.ty ≠ 0
      · rw [if_pos hf, List.mem_singleton, Prod.mk.injEq] at hv
        left
        cases hm : i.noMangle with
        | true =>
          refine ⟨.fwd ((collectNames e).get i.valName), input_fact hi ?_, ?_⟩
          · simp [inputFacts, hf, hm, hv.2]
          · rw [hv.1, mangleInput, hm]
            exact h.plain hi hm
        | false =>
          refine ⟨.pin i.name, input_fact hi ?_, ?_⟩
          · simp [inputFacts, hf, hm, hv.2]
          · rw [hv.1, mangleInput, hm]
            rfl
      · rw [if_neg hf] at hv; cases hv
    · by_cases hf : X.bwd i.ty ≠ 0
      · rw [if_pos hf, List.mem_singleton, Prod.mk.injEq] at hv
        left
        cases hm : i.noMangle with
        | true =>
          refine ⟨.fwd ((collectNames e).get i.valName), input_fact hi ?_, ?_⟩
          · simp [inputFacts, hf, hm, hv.2]
          · rw [hv.1, mangleOutput, hm]
            exact h.plain hi hm
        | false =>
          refine ⟨.pout i.name, input_fact hi ?_, ?_⟩
          · simp [inputFacts, hf, hm, hv.2]
          · rw [hv.1, mangleOutput, hm]
            rfl
      · rw [if_neg hf] at hv; cases hv
  · left
    by_cases hf : X.fwd e.outputTy ≠ 0
    · rw [if_pos hf, List.mem_singleton, Prod.mk.injEq] at hv
      refine ⟨.out, ?_, ?_⟩
      · simp only [facts, List.mem_append]
        exact .inr (.inr (.inl (by rw [if_pos hf, hv.2]; exact List.mem_singleton.2 rfl)))
      · rw [hv.1]; rfl
    · rw [if_neg hf] at hv; cases hv
  · left
    cases st with
    | binding b =>
      simp only [stmtEntries, addToNameMap, List.mem_append] at hv
      rcases hv with hv | hv
      · by_cases hf : X.fwd b.ty ≠ 0
        · rw [if_pos hf, List.mem_singleton, Prod.mk.injEq] at hv
          refine ⟨.fwd ((collectNames e).get b.name), stmt_fact hs (by simp [stmtFacts, hf, hv.2]), ?_⟩
          rw [hv.1]; exact chars_identFwd _
        · rw [if_neg hf] at hv; cases hv
      · by_cases hf : X.bwd b.ty ≠ 0
        · rw [if_pos hf, List.mem_singleton, Prod.mk.injEq] at hv
          refine ⟨.bwd ((collectNames e).get b.name), stmt_fact hs (by simp [stmtFacts, hf, hv.2]), ?_⟩
          rw [hv.1]; exact chars_identBwd _
        · rw [if_neg hf] at hv; cases hv
    | register r =>
      simp only [stmtEntries] at hv
      by_cases hf : X.fwd r.ty ≠ 0
      · rw [if_pos hf, List.mem_singleton, Prod.mk.injEq] at hv
        refine ⟨.fwd ((collectNames e).get r.name), stmt_fact hs (by simp [stmtFacts, hf, hv.2]), ?_⟩
        rw [hv.1]; exact chars_identFwd _
      · rw [if_neg hf] at hv; cases hv
    | constant n t c =>
      simp only [stmtEntries, addToNameMap, List.mem_append, h.constants n t c hs] at hv
      rcases hv with hv | hv
      · by_cases hf : X.fwd t ≠ 0
        · rw [if_pos hf, List.mem_singleton, Prod.mk.injEq] at hv
          refine ⟨.fwd ((collectNames e).get n), stmt_fact hs (by simp [stmtFacts, hf, hv.2]), ?_⟩
          rw [hv.1]; exact chars_identFwd _
        · rw [if_neg hf] at hv; cases hv
      · simp at hv
    | assert n => cases hv
    | set t v => cases hv
    | error => cases hv

theorem stmt_defs {s : Stmt Op Ty C Ini} {n : Name} (hs : s ∈ e.stmts) (hd : s.defines = some n) :
    n ∈ e.defs := List.mem_filterMap.2 ⟨s, hs, hd⟩

/-- A port with a mangled name and without forward part has no forward wire. -/
theorem Fine.no_wire (h : Fine X e) {i : Input Ty} (hi : i ∈ e.inputs) (hf : X.fwd i.ty = 0)
    (hm : i.noMangle = false) {s : Source} :
    (.fwd ((collectNames e).get i.valName), s) ∉ facts X (collectNames e).get e := by
  intro hx
  have hin : i.valName ∈ e.inputNames := List.mem_map.2 ⟨i, hi, rfl⟩
  simp only [facts, List.mem_append, List.mem_flatMap] at hx
  rcases hx with ⟨j, hj, hx⟩ | ⟨st, hs, hx⟩ | hx | hx
  · have hjn : j.valName ∈ e.inputNames := List.mem_map.2 ⟨j, hj, rfl⟩
    have key : (collectNames e).get i.valName = (collectNames e).get j.valName → i = j := by
      intro he
      have hv := rename_inj h.named (List.mem_append_left _ hin) (List.mem_append_left _ hjn) he
      have hni : (e.inputs.map (fun i => (i.valName, i))).map (·.1) = e.inputNames := by
        rw [List.map_map]; rfl
      have hnd : ((e.inputs.map (fun i => (i.valName, i))).map (·.1)).Nodup := by
        rw [hni]; exact (List.nodup_append.1 h.named.nodup).1
      exact fst_unique hnd (List.mem_map.2 ⟨i, hi, rfl⟩) (List.mem_map.2 ⟨j, hj, by rw [hv]⟩)
    simp only [inputFacts, List.mem_append] at hx
    rcases hx with hx | hx
    · by_cases hf' : X.fwd j.ty ≠ 0
      · rw [if_pos hf'] at hx
        have : i = j := by
          cases hm' : j.noMangle <;> simp [hm'] at hx <;> exact key hx.1
        exact hf' (this ▸ hf)
      · rw [if_neg hf'] at hx; cases hx
    · by_cases hf' : X.bwd j.ty ≠ 0
      · rw [if_pos hf'] at hx
        cases hm' : j.noMangle with
        | true =>
          simp [hm'] at hx
          rw [key hx.1, hm'] at hm
          cases hm
        | false => simp [hm'] at hx
      · rw [if_neg hf'] at hx; cases hx
  · have key : ∀ n, st.defines = some n → (collectNames e).get i.valName ≠ (collectNames e).get n := by
      intro n hd he
      have hdn := stmt_defs hs hd
      have hv := rename_inj h.named (List.mem_append_left _ hin) (List.mem_append_right _ hdn) he
      exact (List.nodup_append.1 h.named.nodup).2.2 _ hin _ hdn hv
    cases st with
    | binding b =>
      simp only [stmtFacts, List.mem_append] at hx
      rcases hx with hx | hx <;> split at hx <;> simp at hx
      exact key _ rfl hx.1
    | register r =>
      simp only [stmtFacts] at hx
      split at hx <;> simp at hx
      exact key _ rfl hx.1
    | constant n t c =>
      simp only [stmtFacts] at hx
      split at hx <;> simp at hx
      exact key _ rfl hx.1
    | assert n => cases hx
    | set t v => cases hx
    | error => cases hx
  · split at hx <;> simp at hx
  · split at hx <;> simp at hx

/-- All entries of the map for an identifier of the module agree with what it carries, unless it is the
name of an input of two directions. -/
theorem Fine.agree (h : Fine X e) {r : Role} {s s' : Source}
    (hr : (r, s) ∈ facts X (collectNames e).get e)
    (hmix : ∀ i ∈ e.inputs, X.fwd i.ty ≠ 0 → X.bwd i.ty ≠ 0 → r.ident.chars ≠ i.name.toList)
    (hv : (r.ident.chars, s') ∈ nameEntries X e) : s' = s := by
  rcases h.entry hv with ⟨q, hq, hc⟩ | ⟨i, hi, hn, hs⟩
  · have := h.role_inj (fact_role hq) (fact_role hr) hc
    subst this
    exact h.unique hq hr
  · have hval := h.val hi
    have huser : i.name ∈ userNames (makeNamesPredictable e) := by
      refine mem_userNames (i := 0) ?_
      rw [← hval]
      exact List.mem_append_left _ (List.mem_map.2 ⟨{ i with valName := (collectNames e).get i.valName },
        List.mem_map.2 ⟨i, hi, rfl⟩, rfl⟩)
    have hrole : r = .fwd ((collectNames e).get i.valName) := by
      have hm := fact_role hr
      cases hid : r.ident with
      | gen t seg =>
        rw [hid] at hn
        exact absurd (hn ▸ role_gen hm hid) (h.clash _ huser)
      | user t =>
        rw [hid] at hn
        have ht : t = i.name := String.toList_inj.1 hn
        subst ht
        rcases mem_moduleRoles hm with ⟨n, _, rfl | rfl⟩ | ⟨j, _, rfl | rfl⟩ | rfl | rfl |
          ⟨u, k, _, rfl, _⟩
        · rw [hval, user_of_fwd hid]
        all_goals cases hid
    subst hrole
    by_cases hf : X.fwd i.ty ≠ 0
    · have hfact : (Role.fwd ((collectNames e).get i.valName), ((.forward, i.valName) : Source))
          ∈ facts X (collectNames e).get e := by
        refine input_fact hi ?_
        cases hm : i.noMangle <;> simp [inputFacts, hf, hm]
      rw [h.unique hr hfact]
      rcases hs with ⟨_, hs⟩ | ⟨hb, _⟩
      · exact hs
      · exact absurd hn (hmix i hi hf hb)
    · have hf0 : X.fwd i.ty = 0 := Decidable.not_not.1 hf
      rcases hs with ⟨hf', _⟩ | ⟨hb, hs⟩
      · exact absurd hf' hf
      · cases hm : i.noMangle with
        | false => exact absurd hr (h.no_wire hi hf0 hm)
        | true =>
          have hfact : (Role.fwd ((collectNames e).get i.valName), ((.backward, i.valName) : Source))
              ∈ facts X (collectNames e).get e := by
            refine input_fact hi ?_
            simp [inputFacts, hf0, hm, hb]
          rw [h.unique hr hfact]
          exact hs

theorem rename_input {k : Nat} {i i' : Input Ty} (h : e.inputs[k]? = some i)
    (h' : (makeNamesPredictable e).inputs[k]? = some i') :
    i'.valName = (collectNames e).get i.valName := by
  simp only [makeNamesPredictable, Entity.renameAll, List.getElem?_map, h, Option.map_some,
    Option.some.injEq] at h'
  rw [← h']

theorem rename_stmt {k : Nat} {s s' : Stmt Op Ty C Ini} (h : e.stmts[k]? = some s)
    (h' : (makeNamesPredictable e).stmts[k]? = some s') : s' = s.rename (collectNames e).get := by
  simp only [makeNamesPredictable, Entity.renameAll, List.getElem?_map, h, Option.map_some,
    Option.some.injEq] at h'
  exact h'.symm

/-- What a signal carries is one of the facts. -/
theorem Fine.carried (h : Fine X e) {g : Signal} {v : List Char} {d : Dir} {n : Name}
    (hc : Carries X e (makeNamesPredictable e) g v d n) :
    ∃ r, (r, (d, n)) ∈ facts X (collectNames e).get e ∧ r.ident.chars = v := by
  cases hc with
  | @inPort k i hi hf =>
    cases hm : i.noMangle with
    | true =>
      exact ⟨.fwd ((collectNames e).get i.valName),
        input_fact (mem_inputs hi) (by simp [inputFacts, hf, hm]), h.plain (mem_inputs hi) hm⟩
    | false => exact ⟨.pin i.name, input_fact (mem_inputs hi) (by simp [inputFacts, hf, hm]), rfl⟩
  | @inWire k i i' hi hi' hf hm =>
    refine ⟨.fwd ((collectNames e).get i.valName),
      input_fact (mem_inputs hi) (by simp [inputFacts, hf, hm]), ?_⟩
    rw [rename_input hi hi']; exact chars_identFwd _
  | @outPort k i hi hf =>
    cases hm : i.noMangle with
    | true =>
      exact ⟨.fwd ((collectNames e).get i.valName),
        input_fact (mem_inputs hi) (by simp [inputFacts, hf, hm]), h.plain (mem_inputs hi) hm⟩
    | false => exact ⟨.pout i.name, input_fact (mem_inputs hi) (by simp [inputFacts, hf, hm]), rfl⟩
  | @backWire k i i' hi hi' hf =>
    refine ⟨.bwd ((collectNames e).get i.valName),
      input_fact (mem_inputs hi) (by simp [inputFacts, hf]), ?_⟩
    rw [rename_input hi hi']; exact chars_identBwd _
  | @result k s s' n n' t hs hs' hd hd' ht hf =>
    have hn : n' = (collectNames e).get n := by
      rw [rename_stmt hs hs', Stmt.defines_rename, hd] at hd'
      exact (Option.some.inj hd').symm
    subst hn
    refine ⟨.fwd ((collectNames e).get n), stmt_fact (List.mem_of_getElem? hs) ?_, chars_identFwd _⟩
    cases s with
    | binding b => cases hd; cases ht; simp [stmtFacts, hf]
    | register r => cases hd; cases ht; simp [stmtFacts, hf]
    | constant m t' c => cases hd; cases ht; simp [stmtFacts, hf]
    | assert m => cases hd
    | set m m' => cases hd
    | error => cases hd
  | @resultBack k b b' hs hs' hf =>
    have := rename_stmt hs hs'
    simp only [Stmt.rename, Stmt.binding.injEq] at this
    subst this
    exact ⟨.bwd ((collectNames e).get b.name),
      stmt_fact (List.mem_of_getElem? hs) (by simp [stmtFacts, hf]), chars_identBwd _⟩
  | output hf =>
    refine ⟨.out, ?_, rfl⟩
    simp only [facts, List.mem_append]
    exact .inr (.inr (.inl (by rw [if_pos hf]; exact List.mem_singleton.2 rfl)))
  | input hf =>
    refine ⟨.inp, ?_, rfl⟩
    simp only [facts, List.mem_append]
    exact .inr (.inr (.inr (by rw [if_pos hf]; exact List.mem_singleton.2 rfl)))

/-! Instances -/

theorem instanceEntries_zip (X : NameCtx Op Ty) (target : Op → Nat) (m : List (String × Nat))
    (ss : List (Stmt Op Ty C Ini)) :
    instanceEntries X target m ss =
      (instanceNames m (requested X ss)).zip ((instantiated X ss).map target) := by
  induction ss generalizing m with
  | nil => rfl
  | cons s ss ih =>
    match s with
    | .binding ⟨n, .other op, os, ty⟩ =>
      rw [instanceEntries]
      cases hx : X.inst op with
      | none => simp [requested, instantiated, hx] at ih ⊢; exact ih m
      | some t =>
        simp [requested, instantiated, hx, instanceNames] at ih ⊢
        exact ih _
    | .binding ⟨n, .alias, os, ty⟩ => simp [instanceEntries, requested, instantiated] at ih ⊢; exact ih m
    | .register r => simp [instanceEntries, requested, instantiated] at ih ⊢; exact ih m
    | .constant n t c => simp [instanceEntries, requested, instantiated] at ih ⊢; exact ih m
    | .assert n => simp [instanceEntries, requested, instantiated] at ih ⊢; exact ih m
    | .set t v => simp [instanceEntries, requested, instantiated] at ih ⊢; exact ih m
    | .error => simp [instanceEntries, requested, instantiated] at ih ⊢; exact ih m

theorem mem_instanceEntries {X : NameCtx Op Ty} {target : Op → Nat} {e : Entity Op Ty C Ini}
    {x : List Char} {t : Nat} :
    (x, t) ∈ instanceEntries X target [] e.stmts ↔ HasInstance X target e x t := by
  rw [instanceEntries_zip, List.mem_iff_getElem?]
  simp only [List.getElem?_zip_eq_some, List.getElem?_map, Option.map_eq_some_iff, HasInstance]
  constructor
  · rintro ⟨k, h1, op, h2, h3⟩
    exact ⟨k, op, h2, h1, h3⟩
  · rintro ⟨k, op, h2, h1, h3⟩
    exact ⟨k, h1, op, h2, h3⟩

theorem nodup_getElem? {α : Type} {l : List α} (h : l.Nodup) {i j : Nat} {x : α}
    (hi : l[i]? = some x) (hj : l[j]? = some x) : i = j := by
  obtain ⟨hi', rfl⟩ := List.getElem?_eq_some_iff.1 hi
  obtain ⟨hj', h2⟩ := List.getElem?_eq_some_iff.1 hj
  exact ((List.getElem_inj h).1 h2.symm)

theorem hasInstance_unique {X : NameCtx Op Ty} {target : Op → Nat} {e : Entity Op Ty C Ini}
    {x : List Char} {t t' : Nat} (h : HasInstance X target e x t) (h' : HasInstance X target e x t') :
    t = t' := by
  obtain ⟨k, op, h1, h2, h3⟩ := h
  obtain ⟨k', op', h1', h2', h3'⟩ := h'
  have hk : k = k' := nodup_getElem? (C14_instances _) h2 h2'
  subst hk
  rw [h1] at h1'
  cases h1'
  rw [← h3, ← h3']

theorem get_instances {X : NameCtx Op Ty} {target : Op → Nat} {e : Entity Op Ty C Ini}
    {x : List Char} {t : Nat} :
    get (instanceEntries X target [] e.stmts) x = some t ↔ HasInstance X target e x t := by
  constructor
  · intro h
    exact mem_instanceEntries.1 (mem_of_get h)
  · intro h
    exact get_unique (mem_instanceEntries.2 h) fun w hw =>
      hasInstance_unique (mem_instanceEntries.1 hw) h

theorem get_map {X : NameCtx Op Ty} {target : Op → Nat} {prog : List (Nat × Entity Op Ty C Ini)}
    (hp : (prog.map (·.1)).Nodup) {u : Nat} {here : List (List Char × Nat)} :
    get (instanceMap X target prog) u = some here ↔
      ∃ e, (u, e) ∈ prog ∧ here = instanceEntries X target [] e.stmts ∧ here ≠ [] := by
  have hmem : ∀ here, (u, here) ∈ instanceMap X target prog ↔
      ∃ e, (u, e) ∈ prog ∧ here = instanceEntries X target [] e.stmts ∧ here ≠ [] := by
    intro here
    simp only [instanceMap, List.mem_filterMap]
    constructor
    · rintro ⟨⟨w, e⟩, hm, he⟩
      by_cases hz : (instanceEntries X target [] e.stmts).isEmpty
      · simp [hz] at he
      · simp only [hz] at he
        simp only [Bool.false_eq_true, if_false, Option.some.injEq, Prod.mk.injEq] at he
        obtain ⟨rfl, rfl⟩ := he
        exact ⟨e, hm, rfl, by simpa using hz⟩
    · rintro ⟨e, hm, rfl, hne⟩
      refine ⟨(u, e), hm, ?_⟩
      have : (instanceEntries X target [] e.stmts).isEmpty = false := by
        cases hx : instanceEntries X target [] e.stmts with
        | nil => exact absurd hx hne
        | cons a l => rfl
      simp [this]
  constructor
  · intro h
    exact (hmem here).1 (mem_of_get h)
  · intro h
    refine get_unique ((hmem here).2 h) fun w hw => ?_
    obtain ⟨e, h1, h2, _⟩ := h
    obtain ⟨e', h1', h2', _⟩ := (hmem w).1 hw
    have := fst_unique hp h1 h1'
    subst this
    rw [h2, h2']

theorem walk_iff {X : NameCtx Op Ty} {target : Op → Nat} {prog : List (Nat × Entity Op Ty C Ini)}
    (hp : (prog.map (·.1)).Nodup) {u t : Nat} {path : List (List Char)} :
    walk (instanceMap X target prog) u path = some t ↔ Leads X target prog u path t := by
  induction path generalizing u with
  | nil =>
    simp only [walk, Option.some.injEq]
    constructor
    · rintro rfl; exact .here
    · intro h; cases h; rfl
  | cons x path ih =>
    simp only [walk, Option.bind_eq_some_iff]
    constructor
    · rintro ⟨here, h1, w, h2, h3⟩
      obtain ⟨e, hm, rfl, _⟩ := (get_map hp).1 h1
      exact .step hm (get_instances.1 h2) (ih.1 h3)
    · intro h
      cases h with
      | @step _ w _ e _ _ hm hi hl =>
        have hg := get_instances.2 hi
        refine ⟨_, (get_map hp).2 ⟨e, hm, rfl, ?_⟩, w, hg, ih.2 hl⟩
        intro he
        rw [he] at hg
        simp [get] at hg

end Spade.Hier

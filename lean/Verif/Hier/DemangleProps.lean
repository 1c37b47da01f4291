import Verif.Hier.Demangle
import Verif.Hier.Examples

/-!
# Descriptions of signals (C75): theorems
-/

namespace Spade.Hier

open Spade.Mir
open Spec (Dir Signal Carries)

variable {Op Ty C Ini : Type}

/-! Specification -/

/-- What a statement is for, as the compiler was told when the statement was added. -/
inductive MadeFor : Build Op Ty C Ini → Stmt Op Ty C Ini → NamedValue → Prop where
  | primary {b : Build Op Ty C Ini} {s : Stmt Op Ty C Ini} {source : NameSource} :
      MadeFor (.push b (.primary s source)) s (.primary source)
  | secondary {b : Build Op Ty C Ini} {s : Stmt Op Ty C Ini} {source : NameSource} {d : Text} :
      MadeFor (.push b (.secondary s source d)) s (.secondary source d)
  | many {b : Build Op Ty C Ini} {other : List (Stmt Op Ty C Ini)} {s : Stmt Op Ty C Ini}
      {source : NameSource} {d : Text} : s ∈ other →
      MadeFor (.secondary b other source d) s (.secondary source d)
  | before {b : Build Op Ty C Ini} {p : Push Op Ty C Ini} {s : Stmt Op Ty C Ini} {v : NamedValue} :
      MadeFor b s v → MadeFor (.push b p) s v
  | beforeMany {b : Build Op Ty C Ini} {other : List (Stmt Op Ty C Ini)} {s : Stmt Op Ty C Ini}
      {source : NameSource} {d : Text} {v : NamedValue} :
      MadeFor b s v → MadeFor (.secondary b other source d) s v
  | left {b c : Build Op Ty C Ini} {s : Stmt Op Ty C Ini} {v : NamedValue} :
      MadeFor b s v → MadeFor (.append b c) s v
  | right {b c : Build Op Ty C Ini} {s : Stmt Op Ty C Ini} {v : NamedValue} :
      MadeFor c s v → MadeFor (.append b c) s v

/-- The text that describes a value: the name, or the text of the expression, with the description. -/
def Describes (code : List Text) : NamedValue → Text → Prop
  | .primary (.name t), r => r = t
  | .secondary (.name t) d, r => r = t ++ " (".toUTF8.toList ++ d ++ ")".toUTF8.toList
  | .primary (.expr f a b), r => ∃ text pre mid post, code[f]? = some text ∧ text = pre ++ mid ++ post ∧
      pre.length = a ∧ (pre ++ mid).length = b ∧ r = "(id) ".toUTF8.toList ++ mid
  | .secondary (.expr f a b) d, r => ∃ text pre mid post, code[f]? = some text ∧
      text = pre ++ mid ++ post ∧ pre.length = a ∧ (pre ++ mid).length = b ∧
      r = "(id) ".toUTF8.toList ++ mid ++ " (".toUTF8.toList ++ d ++ ")".toUTF8.toList

/-- The place of an expression is in its file. -/
def Placed (code : List Text) : NamedValue → Prop
  | .primary (.expr f a b) | .secondary (.expr f a b) _ =>
    ∃ text, code[f]? = some text ∧ a ≤ b ∧ b ≤ text.length
  | _ => True

/-- `inner` is the map that results of the insertions `h`, with its entries in some order. -/
structure MapOf (h inner : List (Name × NamedValue)) : Prop where
  nodup : (inner.map (·.1)).Nodup
  same : ∀ n v, (n, v) ∈ inner ↔ get h n = some v

/-! Recording -/

theorem record_eq (s : Stmt Op Ty C Ini) (v : NamedValue) (names : List (Name × NamedValue)) :
    record s v names = names ++ (s.defines.toList.map fun n => (n, v)) := by
  cases s <;> simp [record, Stmt.defines]

theorem appendSecondary_eq (l : StatementList Op Ty C Ini) (other : List (Stmt Op Ty C Ini))
    (source : NameSource) (d : Text) :
    appendSecondary l other source d = ⟨l.stmts ++ other,
      l.names ++ (other.filterMap Stmt.defines).map fun n => (n, .secondary source d)⟩ := by
  unfold appendSecondary
  induction other generalizing l with
  | nil => simp
  | cons s other ih =>
    rw [List.foldl_cons, ih]
    simp only [push, record_eq]
    cases hd : s.defines <;> simp [hd]

/-- Everything that is recorded belongs to a statement that was made for it. -/
theorem mem_names {b : Build Op Ty C Ini} {n : Name} {v : NamedValue} :
    (n, v) ∈ b.run.names ↔ ∃ s, MadeFor b s v ∧ s.defines = some n := by
  induction b with
  | empty =>
    simp only [Build.run, List.not_mem_nil, false_iff]
    rintro ⟨s, h, _⟩
    cases h
  | push b p ih =>
    constructor
    · intro h
      cases p with
      | anonymous s =>
        obtain ⟨s', h1, h2⟩ := ih.1 h
        exact ⟨s', .before h1, h2⟩
      | primary s source =>
        simp only [Build.run, push, record_eq, List.mem_append] at h
        rcases h with h | h
        · obtain ⟨s', h1, h2⟩ := ih.1 h
          exact ⟨s', .before h1, h2⟩
        · simp at h
          obtain ⟨m, h1, rfl, rfl⟩ := h
          exact ⟨s, .primary, h1⟩
      | secondary s source d =>
        simp only [Build.run, push, record_eq, List.mem_append] at h
        rcases h with h | h
        · obtain ⟨s', h1, h2⟩ := ih.1 h
          exact ⟨s', .before h1, h2⟩
        · simp at h
          obtain ⟨m, h1, rfl, rfl⟩ := h
          exact ⟨s, .secondary, h1⟩
    · rintro ⟨s, h, hd⟩
      cases h with
      | primary => simp [Build.run, push, record_eq, hd]
      | secondary => simp [Build.run, push, record_eq, hd]
      | before h =>
        have := ih.2 ⟨s, h, hd⟩
        cases p with
        | anonymous s => exact this
        | primary s source =>
          simp only [Build.run, push, record_eq, List.mem_append]
          exact .inl this
        | secondary s source d =>
          simp only [Build.run, push, record_eq, List.mem_append]
          exact .inl this
  | append b c ih1 ih2 =>
    simp only [Build.run, append, List.mem_append, ih1, ih2]
    constructor
    · rintro (⟨s, h, hd⟩ | ⟨s, h, hd⟩)
      · exact ⟨s, .left h, hd⟩
      · exact ⟨s, .right h, hd⟩
    · rintro ⟨s, h, hd⟩
      cases h with
      | left h => exact .inl ⟨s, h, hd⟩
      | right h => exact .inr ⟨s, h, hd⟩
  | secondary b other source d ih =>
    simp only [Build.run, appendSecondary_eq, List.mem_append, ih]
    constructor
    · rintro (⟨s, h, hd⟩ | h)
      · exact ⟨s, .beforeMany h, hd⟩
      · simp only [List.mem_map, List.mem_filterMap] at h
        obtain ⟨m, ⟨s, hs, hd⟩, he⟩ := h
        cases he
        exact ⟨s, .many hs, hd⟩
    · rintro ⟨s, h, hd⟩
      cases h with
      | many hs =>
        right
        simp only [List.mem_map, List.mem_filterMap]
        exact ⟨n, ⟨s, hs, hd⟩, rfl⟩
      | beforeMany h => exact .inl ⟨s, h, hd⟩

/-- The recorded names are among those that are defined, in the same order. -/
theorem names_sublist (b : Build Op Ty C Ini) :
    (b.run.names.map (·.1)).Sublist (b.run.stmts.filterMap Stmt.defines) := by
  induction b with
  | empty => exact .slnil
  | push b p ih =>
    cases p with
    | anonymous s =>
      simp only [Build.run, push, List.filterMap_append]
      exact ih.trans (List.sublist_append_left _ _)
    | primary s source =>
      simp only [Build.run, push, record_eq, List.map_append, List.filterMap_append]
      refine ih.append ?_
      cases hd : s.defines <;> simp [hd]
    | secondary s source d =>
      simp only [Build.run, push, record_eq, List.map_append, List.filterMap_append]
      refine ih.append ?_
      cases hd : s.defines <;> simp [hd]
  | append b c ih1 ih2 =>
    simp only [Build.run, append, List.map_append, List.filterMap_append]
    exact ih1.append ih2
  | secondary b other source d ih =>
    simp only [Build.run, appendSecondary_eq, List.map_append, List.filterMap_append, List.map_map]
    refine ih.append ?_
    have : (((fun x => x.1) : Name × NamedValue → Name) ∘ fun n => (n, NamedValue.secondary source d))
        = id := rfl
    rw [this, List.map_id]
    exact List.Sublist.refl _

/-- The statements of a unit are recorded with what they were made for, and nothing else is. -/
theorem C75_recorded {b : Build Op Ty C Ini} (hd : (b.run.stmts.filterMap Stmt.defines).Nodup)
    {n : Name} {v : NamedValue} :
    get b.run.names n = some v ↔ ∃ s, MadeFor b s v ∧ s.defines = some n := by
  rw [← mem_names]
  exact ⟨mem_of_get, fun h => get_unique h fun w hw =>
    fst_unique (hd.sublist (names_sublist b)) hw h⟩

/-! Descriptions -/

theorem describes (code : List Text) (inner : List (Name × NamedValue)) (x : List Char)
    {v : NamedValue} (hg : get (stringMap inner) x = some v) (hp : Placed code v) :
    ∃ r, demangleString code inner x = some r ∧ Describes code v r := by
  have hid : "(id) ".toUTF8.toList = [40, 105, 100, 41, 32] := by decide +kernel
  have hopen : " (".toUTF8.toList = [32, 40] := by decide +kernel
  have hclose : ")".toUTF8.toList = [41] := by decide +kernel
  rw [demangleString, hg, Option.bind_some]
  have hslice : ∀ (text : Text) (a b : Nat), a ≤ b → b ≤ text.length →
      text = text.take a ++ (text.take b).drop a ++ text.drop b ∧ (text.take a).length = a ∧
        (text.take a ++ (text.take b).drop a).length = b := by
    intro text a b hab hb
    have h1 : text.take a ++ (text.take b).drop a = text.take b := by
      have := List.take_append_drop a (text.take b)
      rw [List.take_take, Nat.min_eq_left hab] at this
      exact this
    refine ⟨?_, ?_, ?_⟩
    · rw [h1, List.take_append_drop]
    · rw [List.length_take]; omega
    · rw [h1, List.length_take]; omega
  match v, hp with
  | .primary (.name t), _ => exact ⟨_, rfl, rfl⟩
  | .secondary (.name t) d, _ => exact ⟨_, rfl, by rw [Describes, hopen, hclose]⟩
  | .primary (.expr f a b), ⟨text, ht, hab, hb⟩ =>
    refine ⟨[40, 105, 100, 41, 32] ++ (text.take b).drop a, ?_, ?_⟩
    · simp [demangleNameSource, ht]
    · obtain ⟨h1, h2, h3⟩ := hslice text a b hab hb
      exact ⟨text, _, _, _, ht, h1, h2, h3, by rw [hid]⟩
  | .secondary (.expr f a b) d, ⟨text, ht, hab, hb⟩ =>
    refine ⟨[40, 105, 100, 41, 32] ++ (text.take b).drop a ++ [32, 40] ++ d ++ [41], ?_, ?_⟩
    · simp [demangleNameSource, ht]
    · obtain ⟨h1, h2, h3⟩ := hslice text a b hab hb
      exact ⟨text, _, _, _, ht, h1, h2, h3, by rw [hid, hopen, hclose]⟩

theorem fwd_key {n : Name} {i : Nat} (hn : ∀ s, n ≠ .named 0 s) (h : fwdName n = fwdName (.expr i)) :
    n = .expr i := by
  refine identFwd_inj (Ident.chars_inj (ok_identFwd _) (ok_identFwd _)
    (by rw [chars_identFwd, chars_identFwd, h]) ?_)
  rintro s t seg (⟨h1, _⟩ | ⟨h1, _⟩) _
  · exact hn s (user_of_fwd h1)
  · cases user_of_fwd h1

theorem identBwd_ok (n : Name) : (identBwd n).Ok := Role.ok (.bwd n)

theorem fwd_ne_bwd {n m : Name} (hn : ∀ s, n ≠ .named 0 s) : fwdName n ≠ bwdName m := by
  intro h
  have hid : identFwd n = identBwd m := by
    refine Ident.chars_inj (ok_identFwd _) (identBwd_ok _)
      (by rw [chars_identFwd, chars_identBwd, h]) ?_
    rintro s t seg (⟨h1, _⟩ | ⟨h1, _⟩) _
    · exact hn s (user_of_fwd h1)
    · cases h1
  cases n with
  | named i s =>
    simp only [identFwd, identBwd] at hid
    split at hid
    · cases hid
    · simp at hid
  | expr i =>
    simp only [identFwd, identBwd, Ident.gen.injEq] at hid
    exact digits_ne_cons (c := 'm') (by decide) hid.2

theorem bwd_fwd (n : Name) (hn : ∀ s, n ≠ .named 0 s) : bwdName n = fwdName n ++ "_mut".toList := by
  cases n with
  | named i s =>
    have hi : i ≠ 0 := by rintro rfl; exact hn s rfl
    simp [bwdName, fwdName, hi]
  | expr i => rfl

theorem bwd_key {n : Name} {i : Nat} (hn : ∀ s, n ≠ .named 0 s) (h : bwdName n = bwdName (.expr i)) :
    n = .expr i := by
  rw [bwd_fwd n hn, bwd_fwd (.expr i) (by intro s h; cases h)] at h
  exact fwd_key hn (List.append_cancel_right h)

theorem mem_stringMap {inner : List (Name × NamedValue)} {x : List Char} {v : NamedValue} :
    (x, v) ∈ stringMap inner ↔ ∃ n, (n, v) ∈ inner ∧ (x = fwdName n ∨ x = bwdName n) := by
  simp only [stringMap, List.mem_flatMap]
  constructor
  · rintro ⟨⟨n, w⟩, hm, h⟩
    simp at h
    rcases h with ⟨h, rfl⟩ | ⟨h, rfl⟩
    · exact ⟨n, hm, .inl h⟩
    · exact ⟨n, hm, .inr h⟩
  · rintro ⟨n, hm, h⟩
    exact ⟨(n, v), hm, by rcases h with h | h <;> simp [h]⟩

theorem result_name {X : NameCtx Op Ty} {e : Entity Op Ty C Ini} {k : Nat} {g : Signal}
    (hg : g = .result k ∨ g = .resultBack k) {x : List Char} {d : Dir} {n : Name}
    (hc : Carries X e (makeNamesPredictable e) g x d n) :
    x = fwdName ((collectNames e).get n) ∨ x = bwdName ((collectNames e).get n) := by
  cases hc with
  | @result k s s' n n' t hs hs' hd hd' ht hf =>
    rw [rename_stmt hs hs', Stmt.defines_rename, hd] at hd'
    have hn : (collectNames e).get n = n' := Option.some.inj hd'
    exact .inl (by rw [hn])
  | @resultBack k b b' hs hs' hf =>
    have := rename_stmt hs hs'
    simp only [Stmt.rename, Stmt.binding.injEq] at this
    subst this
    exact .inr rfl
  | _ => rcases hg with hg | hg <;> cases hg

/-- The signals of the results of expressions, as the generated Verilog has them, are described by
what was recorded for them, whatever the order of the hash map and whichever units they are in.
Missing: the signals of variables, which are not found (`C75_variables`), and ports. -/
theorem C75_expression_partial {X : NameCtx Op Ty} {e : Entity Op Ty C Ini} {code : List Text}
    {h inner : List (Name × NamedValue)} (hw : e.WellNamed) (hm : MapOf h inner)
    (hid : ∀ s v, (.named 0 s, v) ∉ h) {k : Nat} {g : Signal} (hg : g = .result k ∨ g = .resultBack k) {x : List Char} {d : Dir} {i : Nat}
    (hc : Carries X e (makeNamesPredictable e) g x d (.expr i))
    {v : NamedValue} (hv : get h (.expr i) = some v) (hp : Placed code v) :
    ∃ r, demangleString code inner x = some r ∧ Describes code v r := by
  have hren : (collectNames e).get (.expr i) = .expr i := by
    rw [collect_lookup hw.nodup]
    split <;> rfl
  have hx : x = fwdName (.expr i) ∨ x = bwdName (.expr i) := by
    have := result_name hg hc
    rwa [hren] at this
  refine describes code inner x (get_unique (mem_stringMap.2 ⟨.expr i, (hm.same _ _).2 hv, hx⟩) ?_) hp
  intro w hw
  obtain ⟨n, hn, hxn⟩ := mem_stringMap.1 hw
  have hn0 : ∀ s, n ≠ .named 0 s := by
    rintro s rfl
    exact hid s w (mem_of_get ((hm.same _ _).1 hn))
  have hne : n = .expr i := by
    rcases hx with hx | hx <;> rcases hxn with hxn | hxn
    · exact fwd_key hn0 (hxn.symm.trans hx)
    · exact absurd (hx.symm.trans hxn) (fwd_ne_bwd (by intro s h; cases h))
    · exact absurd (hxn.symm.trans hx) (fwd_ne_bwd hn0)
    · exact bwd_key hn0 (hxn.symm.trans hx)
  subst hne
  exact fst_unique hm.nodup hn ((hm.same _ _).2 hv)

/-- An identifier without an underscore is never found. These are the signals of the first variable
of each name, if the name has no underscore. -/
theorem C75_variables {code : List Text} {h inner : List (Name × NamedValue)} (hm : MapOf h inner)
    (hid : ∀ s v, (.named 0 s, v) ∉ h) {x : List Char} (hx : '_' ∉ x) :
    demangleString code inner x = none := by
  have : get (stringMap inner) x = none := by
    cases hg : get (stringMap inner) x with
    | none => rfl
    | some w =>
      exfalso
      obtain ⟨n, hn, hxn⟩ := mem_stringMap.1 (mem_of_get hg)
      have hn0 : ∀ s, n ≠ .named 0 s := by
        rintro s rfl
        exact hid s w (mem_of_get ((hm.same _ _).1 hn))
      have hf : '_' ∈ fwdName n := by
        cases n with
        | named i s =>
          have hi : i ≠ 0 := by rintro rfl; exact hn0 s rfl
          simp [fwdName, hi]
        | expr i => simp [fwdName]
      rcases hxn with rfl | rfl
      · exact hx hf
      · rw [bwd_fwd n hn0] at hx
        exact hx (List.mem_append_left _ hf)
  rw [demangleString, this]
  rfl

end Spade.Hier

import Verif.Hir.ParamUtil
/-!
# C25 argument matching
-/
namespace Spade.Hir

variable {Ty T : Type}

/-! ## Specification -/

/-- What a parameter receives, when the call binds names as `b` says: the bound value, or else the
default; nothing if there is neither. -/
def chosen (b : Ident → Option (ArgKind × T)) (p : Param Ty T) : Option (Arg Ty T) :=
  match b p.name with
  | some (k, v) => some ⟨p.name, v, p.ty, k⟩
  | none => p.default.map fun d => ⟨p.name, d, p.ty, .default⟩

/-- The value a list of named arguments gives to a name. -/
def boundTo (args : List (NamedArg T)) (n : Ident) : Option (ArgKind × T) :=
  (args.find? fun a => a.name = n).map fun a => (if a.short then .shortNamed else .named, a.value)

/-- The result lists the parameters in order, each with what it receives; `b` may depend on the
position of the parameter. -/
def Receives (params : List (Param Ty T)) (b : Nat → Ident → Option (ArgKind × T))
    (r : List (Arg Ty T)) : Prop :=
  r.length = params.length ∧
    ∀ (i : Nat) (p : Param Ty T), params[i]? = some p → ∃ a, chosen (b i) p = some a ∧ r[i]? = some a

/-- What parameter number `i` receives in a positional call. -/
def positionalTo (args : List T) (i : Nat) : Ident → Option (ArgKind × T) :=
  fun _ => args[i]?.map fun v => (.positional, v)

/-! ## Lookups -/

theorem tryGet_some {params : List (Param Ty T)} (hn : (params.map (·.name)).Nodup) {i : Nat}
    {p : Param Ty T} (h : params[i]? = some p) : tryGetArgType params p.name = some p.ty ∧
      argIndex params p.name = some i ∧ argDefault params p.name = some p.default := by
  induction params generalizing i with
  | nil => simp at h
  | cons q qs ih =>
    simp only [List.map_cons, List.nodup_cons] at hn
    cases i with
    | zero =>
      simp only [List.getElem?_cons_zero, Option.some.injEq] at h; subst h
      simp [tryGetArgType, argIndex, argDefault, List.findIdx?_cons]
    | succ i =>
      simp only [List.getElem?_cons_succ] at h
      have hne : q.name ≠ p.name := by
        intro hc; apply hn.1; rw [hc]; exact List.mem_map_of_mem (List.mem_of_getElem? h)
      have := ih hn.2 h
      simp only [tryGetArgType, argIndex, argDefault] at this ⊢
      simp [hne, List.findIdx?_cons, this]

theorem tryGet_none {params : List (Param Ty T)} {n : Ident} (h : n ∉ params.map (·.name)) :
    tryGetArgType params n = none := by
  simp only [tryGetArgType, List.findSome?_eq_none_iff]
  intro p hp
  rw [if_neg]
  intro hc; exact h (hc ▸ List.mem_map_of_mem hp)

theorem mem_names {params : List (Param Ty T)} {n : Ident} (h : n ∈ params.map (·.name)) :
    ∃ (i : Nat) (p : Param Ty T), params[i]? = some p ∧ p.name = n := by
  obtain ⟨p, hp, rfl⟩ := List.mem_map.1 h
  obtain ⟨i, hi⟩ := List.getElem?_of_mem hp
  exact ⟨i, p, hi, rfl⟩

/-! ## Named arguments -/

/-- The entry of a named argument. -/
def entry (params : List (Param Ty T)) (a : NamedArg T) : Option (Nat × Arg Ty T) := do
  let t ← tryGetArgType params a.name
  let i ← argIndex params a.name
  some (i, ⟨a.name, a.value, t, if a.short then .shortNamed else .named⟩)

theorem bindNamed_ok {params : List (Param Ty T)} (hn : (params.map (·.name)).Nodup) :
    ∀ (args : List (NamedArg T)) (bound unbound : List Ident),
    (args.map (·.name)).Nodup → (∀ a ∈ args, a.name ∉ bound) →
    (∀ a ∈ args, a.name ∈ params.map (·.name)) →
    bindNamed params args bound unbound =
      .ok (args.filterMap (entry params), unbound.filter fun n => n ∉ args.map (·.name))
  | [], _, unbound, _, _, _ => by simp [bindNamed]; exact (List.filter_eq_self.2 (by simp)).symm
  | a :: as, bound, unbound, h1, h2, h3 => by
    simp only [List.map_cons, List.nodup_cons] at h1
    simp only [List.mem_cons, forall_eq_or_imp] at h2 h3
    obtain ⟨i, p, hp, hpn⟩ := mem_names h3.1
    obtain ⟨e1, e2, _⟩ := tryGet_some hn hp
    rw [hpn] at e1 e2
    have hrec := bindNamed_ok hn as (a.name :: bound) (unbound.filter (· ≠ a.name)) h1.2
      (by
        intro b hb hc
        rcases List.mem_cons.1 hc with h | h
        · exact h1.1 (h ▸ List.mem_map_of_mem hb)
        · exact h2.2 b hb h) h3.2
    simp only [bindNamed, h2.1, if_false, e1, e2, hrec]
    have : entry params a =
        some (i, ⟨a.name, a.value, p.ty, if a.short then .shortNamed else .named⟩) := by
      simp [entry, e1, e2]
    simp only [List.filterMap_cons, this]
    simp only [bind, Except.bind, List.filter_filter]
    congr 3
    funext n
    rw [List.map_cons]
    by_cases h1 : n = a.name <;> simp [h1]

/-- Errors of the loop over named arguments are justified, and otherwise the names are distinct
and known. -/
theorem bindNamed_error {params : List (Param Ty T)} :
    ∀ (args : List (NamedArg T)) (bound unbound : List Ident) (e : ArgError),
    (params.map (·.name)).Nodup → bindNamed params args bound unbound = .error e →
    (∃ n, e = .duplicate n ∧ n ∈ args.map (·.name) ∧
      (n ∈ bound ∨ ∃ i j : Nat, i < j ∧ (args.map (·.name))[i]? = some n ∧
        (args.map (·.name))[j]? = some n)) ∨
    (∃ n, e = .noSuch n ∧ n ∈ args.map (·.name) ∧ n ∉ params.map (·.name))
  | [], _, _, e, _, h => by simp [bindNamed] at h
  | a :: as, bound, unbound, e, hn, h => by
    simp only [bindNamed] at h
    by_cases hb : a.name ∈ bound
    · simp only [hb, if_true] at h; cases h
      exact Or.inl ⟨a.name, rfl, by simp, Or.inl hb⟩
    · simp only [hb, if_false] at h
      by_cases hp : a.name ∈ params.map (·.name)
      · obtain ⟨i, p, hp', hpn⟩ := mem_names hp
        obtain ⟨e1, e2, _⟩ := tryGet_some hn hp'
        rw [hpn] at e1 e2
        simp only [e1, e2] at h
        cases hr : bindNamed params as (a.name :: bound) (unbound.filter (· ≠ a.name)) with
        | ok r => rw [hr] at h; simp [bind, Except.bind] at h
        | error e' =>
          rw [hr] at h
          simp only [bind, Except.bind, Except.error.injEq] at h; subst h
          rcases bindNamed_error as _ _ _ hn hr with ⟨n, h1, h2, h3⟩ | ⟨n, h1, h2, h3⟩
          · refine Or.inl ⟨n, h1, by simp only [List.map_cons, List.mem_cons]; exact Or.inr h2, ?_⟩
            rcases h3 with h3 | ⟨i, j, hij, hi, hj⟩
            · rcases List.mem_cons.1 h3 with h4 | h4
              · right
                obtain ⟨k, hk⟩ := List.getElem?_of_mem h2
                exact ⟨0, k + 1, by omega, by simp [h4], by simpa using hk⟩
              · exact Or.inl h4
            · exact Or.inr ⟨i + 1, j + 1, by omega, by simpa using hi, by simpa using hj⟩
          · exact Or.inr ⟨n, h1, by simp only [List.map_cons, List.mem_cons]; exact Or.inr h2, h3⟩
      · rw [tryGet_none hp] at h
        cases h
        exact Or.inr ⟨a.name, rfl, by simp, hp⟩

theorem bindNamed_ok_iff {params : List (Param Ty T)} (hn : (params.map (·.name)).Nodup) :
    ∀ (args : List (NamedArg T)) (bound unbound : List Ident) (r),
    bindNamed params args bound unbound = .ok r →
    (args.map (·.name)).Nodup ∧ (∀ a ∈ args, a.name ∉ bound) ∧
    (∀ a ∈ args, a.name ∈ params.map (·.name))
  | [], _, _, _, _ => by simp
  | a :: as, bound, unbound, r, h => by
    simp only [bindNamed] at h
    by_cases hb : a.name ∈ bound
    · simp [hb] at h
    · simp only [hb, if_false] at h
      by_cases hp : a.name ∈ params.map (·.name)
      · obtain ⟨i, p, hp', hpn⟩ := mem_names hp
        obtain ⟨e1, e2, _⟩ := tryGet_some hn hp'
        rw [hpn] at e1 e2
        simp only [e1, e2] at h
        cases hr : bindNamed params as (a.name :: bound) (unbound.filter (· ≠ a.name)) with
        | error e => rw [hr] at h; simp [bind, Except.bind] at h
        | ok r' =>
          obtain ⟨i1, i2, i3⟩ := bindNamed_ok_iff hn as _ _ _ hr
          refine ⟨?_, ?_, ?_⟩
          · simp only [List.map_cons, List.nodup_cons]
            refine ⟨fun hc => ?_, i1⟩
            obtain ⟨b, hb1, hb2⟩ := List.mem_map.1 hc
            exact i2 b hb1 (by simp [hb2])
          · simp only [List.mem_cons, forall_eq_or_imp]
            exact ⟨hb, fun b hb1 hc => i2 b hb1 (List.mem_cons_of_mem _ hc)⟩
          · simp only [List.mem_cons, forall_eq_or_imp]
            exact ⟨hp, i3⟩
      · rw [tryGet_none hp] at h; cases h

/-- The entry of a parameter that takes its default. -/
def dflt (params : List (Param Ty T)) (n : Ident) : Option (Nat × Arg Ty T) := do
  let d ← argDefault params n
  let d ← d
  let i ← argIndex params n
  let t ← tryGetArgType params n
  some (i, ⟨n, d, t, .default⟩)

theorem addDefaults_ok {params : List (Param Ty T)} (hn : (params.map (·.name)).Nodup) :
    ∀ (ns : List Ident) (result : List (Nat × Arg Ty T)) (unbound : List Ident),
    (∀ n ∈ ns, n ∈ params.map (·.name)) →
    addDefaults params ns result unbound = .ok (result ++ ns.filterMap (dflt params),
      unbound.filter fun n => ¬ (n ∈ ns ∧ (dflt params n).isSome))
  | [], result, unbound, _ => by
    simp [addDefaults]; exact (List.filter_eq_self.2 (by simp)).symm
  | n :: ns, result, unbound, h => by
    simp only [List.mem_cons, forall_eq_or_imp] at h
    obtain ⟨i, p, hp, hpn⟩ := mem_names h.1
    obtain ⟨e1, e2, e3⟩ := tryGet_some hn hp
    rw [hpn] at e1 e2 e3
    simp only [addDefaults, e3]
    cases hd : p.default with
    | none =>
      have hdn : dflt params n = none := by simp [dflt, e3, hd]
      simp only [hd]
      rw [addDefaults_ok hn ns result unbound h.2]
      simp only [List.filterMap_cons, hdn, Except.ok.injEq, Prod.mk.injEq, true_and]
      apply List.filter_congr
      intro m _
      by_cases hm : m = n
      · subst hm; simp [hdn]
      · simp [hm]
    | some d =>
      have hdn : dflt params n = some (i, ⟨n, d, p.ty, .default⟩) := by
        simp [dflt, e3, hd, e1, e2]
      simp only [hd, e1, e2]
      rw [addDefaults_ok hn ns _ _ h.2]
      simp only [List.filterMap_cons, hdn, List.append_assoc, List.singleton_append,
        Except.ok.injEq, Prod.mk.injEq, true_and, List.filter_filter]
      apply List.filter_congr
      intro m _
      by_cases hm : m = n
      · subst hm; simp [hdn]
      · simp [hm]

theorem nodup_eraseDups_eq : ∀ {l : List Ident}, l.Nodup → l.eraseDups = l
  | [], _ => rfl
  | a :: l, h => by
    simp only [List.nodup_cons] at h
    rw [List.eraseDups_cons, List.filter_eq_self.2, nodup_eraseDups_eq h.2]
    intro b hb
    simp only [Bool.not_eq_true', beq_eq_false_iff_ne]
    intro hc; exact h.1 (hc ▸ hb)

theorem entry_some {params : List (Param Ty T)} (hn : (params.map (·.name)).Nodup) {a : NamedArg T}
    {x : Nat × Arg Ty T} : entry params a = some x ↔ ∃ p : Param Ty T, params[x.1]? = some p ∧
      p.name = a.name ∧
      x.2 = ⟨p.name, a.value, p.ty, if a.short then .shortNamed else .named⟩ := by
  by_cases hm : a.name ∈ params.map (·.name)
  · obtain ⟨i, p, hp, hpn⟩ := mem_names hm
    obtain ⟨e1, e2, _⟩ := tryGet_some hn hp
    rw [hpn] at e1 e2
    simp only [entry, e1, e2, Option.bind_eq_bind, Option.bind_some, Option.some.injEq]
    constructor
    · rintro rfl; exact ⟨p, hp, hpn, by simp [hpn]⟩
    · rintro ⟨q, hq, hqn, hx⟩
      have he := (tryGet_some hn hq).2.1
      rw [hqn, e2] at he
      simp only [Option.some.injEq] at he
      obtain ⟨j, y⟩ := x
      simp only at he hq hx
      subst he
      rw [hp] at hq; cases hq
      rw [hx, hqn]
  · rw [entry, tryGet_none hm]
    simp only [Option.bind_eq_bind, Option.bind_none, reduceCtorEq, false_iff]
    rintro ⟨p, hp, hpn, _⟩
    exact hm (hpn ▸ List.mem_map_of_mem (List.mem_of_getElem? hp))

theorem dflt_some {params : List (Param Ty T)} (hn : (params.map (·.name)).Nodup) {n : Ident}
    (hm : n ∈ params.map (·.name)) {x : Nat × Arg Ty T} : dflt params n = some x ↔
      ∃ (p : Param Ty T) (d : T), params[x.1]? = some p ∧ p.name = n ∧ p.default = some d ∧
      x.2 = ⟨p.name, d, p.ty, .default⟩ := by
  obtain ⟨i, p, hp, hpn⟩ := mem_names hm
  obtain ⟨e1, e2, e3⟩ := tryGet_some hn hp
  rw [hpn] at e1 e2 e3
  simp only [dflt, e1, e2, e3, Option.bind_eq_bind, Option.bind_some]
  constructor
  · intro h
    rw [Option.bind_eq_some_iff] at h
    obtain ⟨d, hd, h⟩ := h
    simp only [Option.some.injEq] at h; subst h
    exact ⟨p, d, hp, hpn, hd, by simp [hpn]⟩
  · rintro ⟨q, d, hq, hqn, hd, hx⟩
    have he := (tryGet_some hn hq).2.1
    rw [hqn, e2] at he
    simp only [Option.some.injEq] at he
    obtain ⟨j, y⟩ := x
    simp only at he hq hx
    subst he
    rw [hp] at hq; cases hq
    rw [hd, hx, hqn]; rfl

theorem boundTo_mem {args : List (NamedArg T)} (h : (args.map (·.name)).Nodup) {a : NamedArg T}
    (ha : a ∈ args) :
    boundTo args a.name = some (if a.short then .shortNamed else .named, a.value) := by
  induction args with
  | nil => cases ha
  | cons b bs ih =>
    simp only [List.map_cons, List.nodup_cons] at h
    rcases List.mem_cons.1 ha with rfl | hb
    · simp [boundTo]
    · have hne : b.name ≠ a.name := fun hc => h.1 (hc ▸ List.mem_map_of_mem hb)
      have := ih h.2 hb
      simp only [boundTo, List.find?_cons, hne, decide_false] at this ⊢
      exact this

theorem boundTo_none {args : List (NamedArg T)} {n : Ident} :
    boundTo args n = none ↔ n ∉ args.map (·.name) := by
  simp [boundTo]

theorem boundTo_some {args : List (NamedArg T)} {n : Ident} {kv : ArgKind × T}
    (h : boundTo args n = some kv) : ∃ a ∈ args, a.name = n ∧
      kv = (if a.short then .shortNamed else .named, a.value) := by
  simp only [boundTo, Option.map_eq_some_iff] at h
  obtain ⟨a, ha, rfl⟩ := h
  exact ⟨a, List.mem_of_find?_eq_some ha, by simpa using List.find?_some ha, rfl⟩

/-- All entries, bound or default. -/
def entries (params : List (Param Ty T)) (args : List (NamedArg T)) (u : List Ident) :
    List (Nat × Arg Ty T) :=
  args.filterMap (entry params) ++ u.filterMap (dflt params)

theorem mem_entries {params : List (Param Ty T)} (hn : (params.map (·.name)).Nodup)
    {args : List (NamedArg T)} (ha : (args.map (·.name)).Nodup) {u : List Ident}
    (hu : ∀ n, n ∈ u ↔ n ∈ params.map (·.name) ∧ n ∉ args.map (·.name))
    {x : Nat × Arg Ty T} : x ∈ entries params args u ↔
      ∃ p : Param Ty T, params[x.1]? = some p ∧ chosen (boundTo args) p = some x.2 := by
  simp only [entries, List.mem_append, List.mem_filterMap]
  constructor
  · rintro (⟨a, ha1, ha2⟩ | ⟨n, hn1, hn2⟩)
    · obtain ⟨p, hp, hpn, hx⟩ := (entry_some hn).1 ha2
      refine ⟨p, hp, ?_⟩
      rw [chosen, hpn, boundTo_mem ha ha1, hx, hpn]
    · obtain ⟨p, d, hp, hpn, hd, hx⟩ := (dflt_some hn ((hu n).1 hn1).1).1 hn2
      refine ⟨p, hp, ?_⟩
      rw [chosen, hpn, boundTo_none.2 ((hu n).1 hn1).2, hx, hd, hpn]; rfl
  · rintro ⟨p, hp, hc⟩
    have hmem : p.name ∈ params.map (·.name) := List.mem_map_of_mem (List.mem_of_getElem? hp)
    cases hb : boundTo args p.name with
    | some kv =>
      obtain ⟨a, ha1, ha2, rfl⟩ := boundTo_some hb
      rw [chosen, hb] at hc
      simp only [Option.some.injEq] at hc
      exact Or.inl ⟨a, ha1, (entry_some hn).2 ⟨p, hp, ha2.symm, hc.symm⟩⟩
    | none =>
      rw [chosen, hb] at hc
      simp only [Option.map_eq_some_iff] at hc
      obtain ⟨d, hd, hx⟩ := hc
      exact Or.inr ⟨p.name, (hu _).2 ⟨hmem, boundTo_none.1 hb⟩,
        (dflt_some hn hmem).2 ⟨p, d, hp, rfl, hd, hx.symm⟩⟩

theorem entries_keys {params : List (Param Ty T)} (hn : (params.map (·.name)).Nodup)
    {args : List (NamedArg T)} (ha : (args.map (·.name)).Nodup) {u : List Ident} (hud : u.Nodup)
    (hu : ∀ n, n ∈ u ↔ n ∈ params.map (·.name) ∧ n ∉ args.map (·.name)) :
    (entries params args u).Pairwise fun x y => x.1 ≠ y.1 := by
  simp only [entries, List.pairwise_append, List.pairwise_filterMap]
  refine ⟨?_, ?_, ?_⟩
  · refine (List.pairwise_map.1 ha).imp ?_
    intro a b hab x hx y hy hc
    obtain ⟨p, hp, hpn, _⟩ := (entry_some hn).1 hx
    obtain ⟨q, hq, hqn, _⟩ := (entry_some hn).1 hy
    rw [hc, hq] at hp; cases hp
    exact hab (by rw [← hpn, ← hqn])
  · refine List.Pairwise.imp_of_mem ?_ hud
    intro a b ha hb hab x hx y hy hc
    obtain ⟨p, _, hp, hpn, _⟩ := (dflt_some hn ((hu a).1 ha).1).1 hx
    obtain ⟨q, _, hq, hqn, _⟩ := (dflt_some hn ((hu b).1 hb).1).1 hy
    rw [hc, hq] at hp; cases hp
    exact hab (by rw [← hpn, ← hqn])
  · intro x hx y hy hc
    obtain ⟨a, ha1, hx⟩ := List.mem_filterMap.1 hx
    obtain ⟨n, hn1, hy⟩ := List.mem_filterMap.1 hy
    obtain ⟨p, hp, hpn, _⟩ := (entry_some hn).1 hx
    obtain ⟨q, _, hq, hqn, _⟩ := (dflt_some hn ((hu n).1 hn1).1).1 hy
    rw [hc, hq] at hp; cases hp
    apply ((hu n).1 hn1).2
    rw [← hqn, hpn]; exact List.mem_map_of_mem ha1

/-- The entries in parameter order. -/
def target (params : List (Param Ty T)) (b : Ident → Option (ArgKind × T)) :
    List (Nat × Arg Ty T) :=
  params.zipIdx.filterMap fun pi => (chosen b pi.1).map fun a => (pi.2, a)

theorem mem_target {params : List (Param Ty T)} {b : Ident → Option (ArgKind × T)}
    {x : Nat × Arg Ty T} : x ∈ target params b ↔
      ∃ p : Param Ty T, params[x.1]? = some p ∧ chosen b p = some x.2 := by
  obtain ⟨i, a⟩ := x
  simp only [target, List.mem_filterMap, Option.map_eq_some_iff, Prod.mk.injEq, Prod.exists]
  constructor
  · rintro ⟨p, j, hp, y, hy, rfl, rfl⟩
    exact ⟨p, List.mem_zipIdx_iff_getElem?.1 hp, hy⟩
  · rintro ⟨p, hp, hc⟩
    exact ⟨p, i, List.mem_zipIdx_iff_getElem?.2 hp, a, hc, rfl, rfl⟩

theorem zipIdx_lt {α : Type} (l : List α) (k : Nat) :
    (l.zipIdx k).Pairwise fun x y => x.2 < y.2 := by
  induction l generalizing k with
  | nil => simp
  | cons a l ih =>
    simp only [List.zipIdx_cons, List.pairwise_cons]
    refine ⟨fun x hx => ?_, ih _⟩
    have := List.le_snd_of_mem_zipIdx hx
    omega

theorem target_sorted (params : List (Param Ty T)) (b : Ident → Option (ArgKind × T)) :
    (target params b).Pairwise fun x y => x.1 < y.1 := by
  simp only [target, List.pairwise_filterMap]
  refine (zipIdx_lt params 0).imp ?_
  intro p q hpq x hx y hy
  simp only [Option.map_eq_some_iff] at hx hy
  obtain ⟨_, _, rfl⟩ := hx
  obtain ⟨_, _, rfl⟩ := hy
  exact hpq

theorem sort_entries {params : List (Param Ty T)} (hn : (params.map (·.name)).Nodup)
    {args : List (NamedArg T)} (ha : (args.map (·.name)).Nodup) {u : List Ident} (hud : u.Nodup)
    (hu : ∀ n, n ∈ u ↔ n ∈ params.map (·.name) ∧ n ∉ args.map (·.name)) :
    ((entries params args u).mergeSort fun a b => decide (a.1 ≤ b.1)) =
      target params (boundTo args) := by
  have hkeys := entries_keys hn ha hud hu
  have hts := target_sorted params (boundTo args)
  have hperm : (entries params args u).Perm (target params (boundTo args)) := by
    rw [List.perm_ext_iff_of_nodup]
    · intro x; rw [mem_entries hn ha hu, mem_target]
    · exact hkeys.imp fun h hc => h (by rw [hc])
    · exact hts.imp fun h hc => by rw [hc] at h; omega
  have hsorted := List.pairwise_mergeSort (le := fun a b : Nat × Arg Ty T => decide (a.1 ≤ b.1))
    (by intro a b c h1 h2; simp only [decide_eq_true_eq] at *; omega)
    (by intro a b; simp only [Bool.or_eq_true, decide_eq_true_eq]; omega) (entries params args u)
  refine List.Perm.eq_of_pairwise (le := fun a b => a.1 ≤ b.1) ?_ ?_ ?_
    ((List.mergeSort_perm _ _).trans hperm)
  · intro x y hx hy h1 h2
    have hx' := mem_target.1 (hperm.mem_iff.1 (List.mem_mergeSort.1 hx))
    have hy' := mem_target.1 hy
    obtain ⟨p, hp, hcp⟩ := hx'
    obtain ⟨q, hq, hcq⟩ := hy'
    have he : x.1 = y.1 := by omega
    rw [he, hq] at hp; cases hp
    rw [hcq] at hcp
    exact Prod.ext he (Option.some.inj hcp).symm
  · exact hsorted.imp fun h => by simpa using h
  · exact hts.imp fun h => Nat.le_of_lt h

theorem target_values {params : List (Param Ty T)} {b : Ident → Option (ArgKind × T)}
    {r : List (Arg Ty T)} : params.map (chosen b) = r.map some ↔
      (∀ p ∈ params, chosen b p ≠ none) ∧ (target params b).map (·.2) = r := by
  have hmap : (target params b).map (·.2) = params.filterMap (chosen b) := by
    simp only [target, List.map_filterMap, Option.map_map, Function.comp_def, Option.map_id']
    have := List.filterMap_map (f := Prod.fst) (g := chosen b) (l := params.zipIdx)
    rw [List.zipIdx_map_fst] at this
    rw [this]; rfl
  rw [hmap]
  clear hmap
  induction params generalizing r with
  | nil => cases r <;> simp
  | cons p ps ih =>
    cases hc : chosen b p with
    | none => simp [hc]; intro h; cases r <;> simp at h
    | some a =>
      cases r with
      | nil => simp [hc]
      | cons x r =>
        simp only [List.map_cons, hc, List.cons.injEq, Option.some.injEq, ih, List.mem_cons,
          forall_eq_or_imp, ne_eq, reduceCtorEq, not_false_eq_true, true_and,
          List.filterMap_cons]
        constructor
        · rintro ⟨h1, h2, h3⟩; exact ⟨h2, h1, h3⟩
        · rintro ⟨h2, h1, h3⟩; exact ⟨h1, h2, h3⟩

/-- The named branch, once names are distinct and known. -/
theorem matchNamed_eq {ord : List Ident → List Ident} (hord : ∀ l, (ord l).Perm l)
    {params : List (Param Ty T)} (hn : (params.map (·.name)).Nodup)
    {args : List (NamedArg T)} (ha : (args.map (·.name)).Nodup)
    (hk : ∀ a ∈ args, a.name ∈ params.map (·.name)) :
    ∃ u : List Ident, u.Nodup ∧ (∀ n, n ∈ u ↔ ∃ p ∈ params, p.name = n ∧
        chosen (boundTo args) p = none) ∧
      matchNamed ord params args = if u ≠ [] then .error (.missing u)
        else .ok ((target params (boundTo args)).map (·.2)) := by
  have hb := bindNamed_ok hn args [] (params.map (·.name)) ha (by simp) hk
  generalize hu0 : (params.map (·.name)).filter (fun n => n ∉ args.map (·.name)) = u0 at hb
  have hmem0 : ∀ n, n ∈ u0 ↔ n ∈ params.map (·.name) ∧ n ∉ args.map (·.name) := by
    intro n; rw [← hu0]; simp
  have hmem : ∀ n, n ∈ ord u0 ↔ n ∈ params.map (·.name) ∧ n ∉ args.map (·.name) := by
    intro n; rw [(hord u0).mem_iff, hmem0]
  have hnd0 : u0.Nodup := by rw [← hu0]; exact hn.filter _
  have hd := addDefaults_ok hn (ord u0) (args.filterMap (entry params)) u0
    (fun n hn' => ((hmem n).1 hn').1)
  have hs := sort_entries hn ha ((hord u0).symm.nodup hnd0) hmem
  simp only [entries] at hs
  refine ⟨u0.filter fun n => ¬ (n ∈ ord u0 ∧ (dflt params n).isSome), hnd0.filter _, ?_, ?_⟩
  · intro n
    simp only [List.mem_filter, decide_eq_true_eq, not_and, Bool.not_eq_true,
      Option.isSome_eq_false_iff, Option.isNone_iff_eq_none]
    constructor
    · rintro ⟨h1, h2⟩
      have h3 := h2 ((hord u0).mem_iff.2 h1)
      obtain ⟨hp1, hp2⟩ := (hmem0 n).1 h1
      obtain ⟨i, p, hp, hpn⟩ := mem_names hp1
      refine ⟨p, List.mem_of_getElem? hp, hpn, ?_⟩
      rw [chosen, hpn, boundTo_none.2 hp2]
      cases hd : p.default with
      | none => rfl
      | some d =>
        rw [(dflt_some hn hp1 (x := (i, ⟨p.name, d, p.ty, .default⟩))).2
          ⟨p, d, hp, hpn, hd, rfl⟩] at h3
        cases h3
    · rintro ⟨p, hp, hpn, hc⟩
      have hp1 : n ∈ params.map (·.name) := hpn ▸ List.mem_map_of_mem hp
      rw [chosen, hpn] at hc
      cases hb : boundTo args n with
      | some kv => rw [hb] at hc; cases hc
      | none =>
        rw [hb] at hc
        simp only [Option.map_eq_none_iff] at hc
        refine ⟨(hmem0 n).2 ⟨hp1, boundTo_none.1 hb⟩, fun _ => ?_⟩
        cases hd : dflt params n with
        | none => rfl
        | some x =>
          obtain ⟨q, d, hq, hqn, hqd, _⟩ := (dflt_some hn hp1).1 hd
          obtain ⟨j, hj⟩ := List.getElem?_of_mem hp
          have e1 := (tryGet_some hn hj).2.2
          have e2 := (tryGet_some hn hq).2.2
          rw [hpn] at e1; rw [hqn, e1] at e2
          rw [hc, hqd] at e2; cases e2
  · simp only [matchNamed, nodup_eraseDups_eq hn, hb, bind, Except.bind, hd, hs]

theorem receives_iff {params : List (Param Ty T)} {b : Ident → Option (ArgKind × T)}
    {r : List (Arg Ty T)} : Receives params (fun _ => b) r ↔ params.map (chosen b) = r.map some := by
  constructor
  · rintro ⟨hl, h⟩
    apply List.ext_getElem?
    intro i
    simp only [List.getElem?_map]
    cases hp : params[i]? with
    | none =>
      have : r[i]? = none := by
        rw [List.getElem?_eq_none_iff] at hp ⊢; omega
      simp [this]
    | some p =>
      obtain ⟨a, h1, h2⟩ := h i p hp
      simp [h1, h2]
  · intro h
    refine ⟨by simpa using (congrArg List.length h).symm, fun i p hp => ?_⟩
    have := congrArg (·[i]?) h
    simp only [List.getElem?_map, hp, Option.map_some] at this
    cases hr : r[i]? with
    | none => rw [hr] at this; simp at this
    | some a => rw [hr] at this; simp at this; exact ⟨a, this, rfl⟩

/-! ## Theorems -/

/-- C25, named calls: a call is accepted exactly when no name is bound twice, every name is a
parameter, and every parameter is bound or has a default; the result lists the parameters in order,
each with its bound value or its default. -/
theorem C25_named (ord : List Ident → List Ident) (hord : ∀ l, (ord l).Perm l)
    (params : List (Param Ty T)) (hn : (params.map (·.name)).Nodup) (args : List (NamedArg T))
    (m : Bool) (r : List (Arg Ty T)) :
    matchArgs ord params (.named args) m = .ok r ↔
      (args.map (·.name)).Nodup ∧ (∀ a ∈ args, a.name ∈ params.map (·.name)) ∧
      Receives params (fun _ => boundTo args) r := by
  simp only [matchArgs]
  constructor
  · intro h
    have hpre : (args.map (·.name)).Nodup ∧ (∀ a ∈ args, a.name ∈ params.map (·.name)) := by
      cases hb : bindNamed params args [] (params.map (·.name)).eraseDups with
      | error e => simp [matchNamed, hb, bind, Except.bind] at h
      | ok x =>
        have := bindNamed_ok_iff hn _ _ _ _ hb
        exact ⟨this.1, this.2.2⟩
    obtain ⟨u, _, hu, he⟩ := matchNamed_eq hord hn hpre.1 hpre.2
    rw [he] at h
    refine ⟨hpre.1, hpre.2, ?_⟩
    by_cases hnil : u = []
    · simp only [hnil, ne_eq, not_true_eq_false, if_false, Except.ok.injEq] at h
      rw [receives_iff, target_values]
      refine ⟨fun p hp hc => ?_, h⟩
      have := (hu p.name).2 ⟨p, hp, rfl, hc⟩
      rw [hnil] at this; cases this
    · simp [hnil] at h
  · rintro ⟨h1, h2, h3⟩
    obtain ⟨u, _, hu, he⟩ := matchNamed_eq hord hn h1 h2
    rw [receives_iff, target_values] at h3
    have hnil : u = [] := by
      cases u with
      | nil => rfl
      | cons n u =>
        obtain ⟨p, hp, _, hc⟩ := (hu n).1 (by simp)
        exact (h3.1 p hp hc).elim
    rw [he, hnil]; simp [h3.2]

theorem positional_ok {all : List (Param Ty T)} {given m : Nat} :
    ∀ (ps : List (Param Ty T)) (i : Nat) (as : List T) (r : List (Arg Ty T)),
    matchPositional all given m i as ps = .ok r ↔
      as.length ≤ ps.length ∧ Receives ps (positionalTo as) r
  | [], i, [], r => by
    simp only [matchPositional, Except.ok.injEq, Receives]
    cases r <;> simp
  | [], i, a :: as, r => by simp [matchPositional]
  | p :: ps, i, a :: as, r => by
    simp only [matchPositional, bind, Except.bind]
    have ih := positional_ok (all := all) (given := given) (m := m) ps (i + 1) as
    constructor
    · intro h
      cases hr : matchPositional all given m (i + 1) as ps with
      | error e => rw [hr] at h; simp at h
      | ok r' =>
        rw [hr] at h
        simp only [Except.ok.injEq] at h; subst h
        obtain ⟨h1, h2, h3⟩ := (ih r').1 hr
        refine ⟨by simpa using h1, by simpa using h2, fun j q hq => ?_⟩
        cases j with
        | zero =>
          simp only [List.getElem?_cons_zero, Option.some.injEq] at hq; subst hq
          exact ⟨_, by simp only [chosen, positionalTo, List.getElem?_cons_zero]; rfl, rfl⟩
        | succ j =>
          obtain ⟨x, hx1, hx2⟩ := h3 j q (by simpa using hq)
          exact ⟨x, by simpa [chosen, positionalTo] using hx1, by simpa using hx2⟩
    · rintro ⟨h1, h2, h3⟩
      cases r with
      | nil => simp at h2
      | cons x r =>
        have : matchPositional all given m (i + 1) as ps = .ok r := by
          rw [ih]
          refine ⟨by simpa using h1, by simpa using h2, fun j q hq => ?_⟩
          obtain ⟨y, hy1, hy2⟩ := h3 (j + 1) q (by simpa using hq)
          exact ⟨y, by simpa [chosen, positionalTo] using hy1, by simpa using hy2⟩
        rw [this]
        obtain ⟨y, hy1, hy2⟩ := h3 0 p (by simp)
        simp [chosen, positionalTo] at hy1 hy2
        simp [hy2, ← hy1]
  | p :: ps, i, [], r => by
    simp only [matchPositional, bind, Except.bind]
    have ih := positional_ok (all := all) (given := given) (m := m) ps (i + 1) []
    have hpos : ∀ j j' : Nat, positionalTo ([] : List T) j = positionalTo [] j' := by
      intro j j'; funext n; simp [positionalTo]
    cases hd : p.default with
    | none =>
      simp only [hd, reduceCtorEq, false_iff]
      rintro ⟨_, _, h3⟩
      obtain ⟨y, hy1, _⟩ := h3 0 p (by simp)
      simp [chosen, positionalTo, hd] at hy1
    | some d =>
      simp only [hd]
      constructor
      · intro h
        cases hr : matchPositional all given m (i + 1) [] ps with
        | error e => rw [hr] at h; simp at h
        | ok r' =>
          rw [hr] at h
          simp only [Except.ok.injEq] at h; subst h
          obtain ⟨h1, h2, h3⟩ := (ih r').1 hr
          refine ⟨by simp, by simpa using h2, fun j q hq => ?_⟩
          cases j with
          | zero =>
            simp only [List.getElem?_cons_zero, Option.some.injEq] at hq; subst hq
            exact ⟨_, by simp only [chosen, positionalTo, List.getElem?_nil, hd]; rfl, rfl⟩
          | succ j =>
            obtain ⟨x, hx1, hx2⟩ := h3 j q (by simpa using hq)
            rw [hpos j (j + 1)] at hx1
            exact ⟨x, hx1, by simpa using hx2⟩
      · rintro ⟨h1, h2, h3⟩
        cases r with
        | nil => simp at h2
        | cons x r =>
          have : matchPositional all given m (i + 1) [] ps = .ok r := by
            rw [ih]
            refine ⟨by simp, by simpa using h2, fun j q hq => ?_⟩
            obtain ⟨y, hy1, hy2⟩ := h3 (j + 1) q (by simpa using hq)
            rw [hpos (j + 1) j] at hy1
            exact ⟨y, hy1, by simpa using hy2⟩
          rw [this]
          obtain ⟨y, hy1, hy2⟩ := h3 0 p (by simp)
          simp [chosen, positionalTo, hd] at hy1 hy2
          simp [hy2, ← hy1]

/-- C25, positional calls: a call is accepted exactly when there are not more arguments than
parameters and every parameter without an argument has a default; the result lists the parameters
in order, each with its argument or its default. -/
theorem C25_positional (ord : List Ident → List Ident) (params : List (Param Ty T)) (args : List T)
    (m : Bool) (r : List (Arg Ty T)) :
    matchArgs ord params (.positional args) m = .ok r ↔
      args.length ≤ params.length ∧ Receives params (positionalTo args) r :=
  positional_ok params 0 args r

/-- Target, value and type of an argument, without the syntax used. -/
def Arg.binding (a : Arg Ty T) : Ident × T × Ty := (a.target, a.value, a.ty)

theorem receives_binding {params : List (Param Ty T)} {b b' : Nat → Ident → Option (ArgKind × T)}
    (hb : ∀ i (p : Param Ty T), params[i]? = some p →
      (b i p.name).map (·.2) = (b' i p.name).map (·.2))
    {r : List (Arg Ty T)} (h : Receives params b r) :
    ∃ r', Receives params b' r' ∧ r'.map Arg.binding = r.map Arg.binding := by
  induction params generalizing b b' r with
  | nil =>
    have : r = [] := List.length_eq_zero_iff.1 (by simpa using h.1)
    subst this
    exact ⟨[], ⟨rfl, by simp⟩, rfl⟩
  | cons p ps ih =>
    cases r with
    | nil => simp [Receives] at h
    | cons x r =>
      obtain ⟨r', hr', he⟩ := ih (b := fun i => b (i + 1)) (b' := fun i => b' (i + 1)) (r := r)
        (fun i q hq => hb (i + 1) q (by simpa using hq))
        ⟨by simpa using h.1, fun i q hq => by
          have := h.2 (i + 1) q (by simpa using hq); simpa using this⟩
      obtain ⟨y, hy1, hy2⟩ := h.2 0 p (by simp)
      simp only [List.getElem?_cons_zero, Option.some.injEq] at hy2; subst hy2
      have h0 := hb 0 p (by simp)
      have : ∃ z, chosen (b' 0) p = some z ∧ z.binding = x.binding := by
        unfold chosen at hy1 ⊢
        cases h1 : b 0 p.name with
        | none =>
          rw [h1] at h0 hy1
          cases h2 : b' 0 p.name with
          | none => exact ⟨x, hy1, rfl⟩
          | some kv => rw [h2] at h0; simp at h0
        | some kv =>
          rw [h1] at h0 hy1
          cases h2 : b' 0 p.name with
          | none => rw [h2] at h0; simp at h0
          | some kv' =>
            rw [h2] at h0
            simp only [Option.map_some, Option.some.injEq] at h0 hy1
            exact ⟨_, rfl, by rw [← hy1]; simp [Arg.binding, h0]⟩
      obtain ⟨z, hz1, hz2⟩ := this
      refine ⟨z :: r', ⟨by simpa using hr'.1, fun i q hq => ?_⟩, by simp [hz2, he]⟩
      cases i with
      | zero =>
        simp only [List.getElem?_cons_zero, Option.some.injEq] at hq; subst hq
        exact ⟨z, hz1, rfl⟩
      | succ i =>
        have := hr'.2 i q (by simpa using hq); simpa using this

/-- C25: a named call that binds the leading parameters to the same values, in any order, gives the
same bindings as the positional call. -/
theorem C25_same_bindings (ord : List Ident → List Ident) (hord : ∀ l, (ord l).Perm l)
    (params : List (Param Ty T)) (hn : (params.map (·.name)).Nodup) (args : List T)
    (nargs : List (NamedArg T)) (hlen : args.length ≤ params.length)
    (hsame : (nargs.map fun a => (a.name, a.value)).Perm ((params.map (·.name)).zip args))
    (m m' : Bool) (s : List (Ident × T × Ty)) :
    (∃ r, matchArgs ord params (.named nargs) m = .ok r ∧ r.map Arg.binding = s) ↔
    (∃ r, matchArgs ord params (.positional args) m' = .ok r ∧ r.map Arg.binding = s) := by
  have hnames : (nargs.map (·.name)).Perm ((params.map (·.name)).take args.length) := by
    have := hsame.map Prod.fst
    rw [List.map_map, List.zip_eq_zip_take_min, List.map_fst_zip (by simp),
      List.length_map, Nat.min_eq_right hlen] at this
    simpa [Function.comp_def] using this
  have hnd : (nargs.map (·.name)).Nodup :=
    hnames.symm.nodup (hn.sublist (List.take_sublist _ _))
  have hk : ∀ a ∈ nargs, a.name ∈ params.map (·.name) := fun a ha =>
    List.mem_of_mem_take (hnames.mem_iff.1 (List.mem_map_of_mem ha))
  have hb : ∀ (i : Nat) (p : Param Ty T), params[i]? = some p →
      (boundTo nargs p.name).map (·.2) = (positionalTo args i p.name).map (·.2) := by
    intro i p hp
    have hpi : (params.map (·.name))[i]? = some p.name := by simp [hp]
    cases ha : args[i]? with
    | some v =>
      have hz : (p.name, v) ∈ (params.map (·.name)).zip args := by
        apply List.mem_of_getElem? (i := i)
        rw [List.getElem?_zip_eq_some]; exact ⟨hpi, ha⟩
      obtain ⟨a, ha1, ha2⟩ := List.mem_map.1 (hsame.mem_iff.2 hz)
      simp only [Prod.mk.injEq] at ha2
      rw [← ha2.1, boundTo_mem hnd ha1]
      simp [positionalTo, ha, ha2.2]
    | none =>
      have : p.name ∉ nargs.map (·.name) := by
        intro hc
        have hc := hnames.mem_iff.1 hc
        obtain ⟨j, hj⟩ := List.getElem?_of_mem hc
        rw [List.getElem?_take] at hj
        split at hj
        · have hij : j = i := by
            have h1 : j < (params.map (·.name)).length := by
              rcases Nat.lt_or_ge j (params.map (·.name)).length with h | h
              · exact h
              · rw [List.getElem?_eq_none h] at hj; cases hj
            exact (List.getElem?_inj h1 hn).1 (by rw [hj, hpi])
          rw [List.getElem?_eq_none_iff] at ha
          omega
        · cases hj
      rw [boundTo_none.2 this]
      simp [positionalTo, ha]
  constructor
  · rintro ⟨r, hr, rfl⟩
    rw [C25_named ord hord params hn] at hr
    obtain ⟨r', h1, h2⟩ := receives_binding hb hr.2.2
    exact ⟨r', (C25_positional ord params args m' r').2 ⟨hlen, h1⟩, h2⟩
  · rintro ⟨r, hr, rfl⟩
    rw [C25_positional] at hr
    obtain ⟨r', h1, h2⟩ := receives_binding (fun i p hp => (hb i p hp).symm) hr.2
    exact ⟨r', (C25_named ord hord params hn nargs m r').2 ⟨hnd, hk, h1⟩, h2⟩

/-- C25, errors of named calls name the offending argument or exactly the missing parameters. -/
theorem C25_named_errors (ord : List Ident → List Ident) (hord : ∀ l, (ord l).Perm l)
    (params : List (Param Ty T)) (hn : (params.map (·.name)).Nodup) (args : List (NamedArg T))
    (m : Bool) (e : ArgError) (h : matchArgs ord params (.named args) m = .error e) :
    (∃ n, e = .duplicate n ∧ ∃ i j : Nat, i < j ∧ (args.map (·.name))[i]? = some n ∧
      (args.map (·.name))[j]? = some n) ∨
    (∃ n, e = .noSuch n ∧ n ∈ args.map (·.name) ∧ n ∉ params.map (·.name)) ∨
    (∃ ns, e = .missing ns ∧ ns ≠ [] ∧ ns.Nodup ∧ ∀ n, n ∈ ns ↔
      ∃ p ∈ params, p.name = n ∧ p.default.isNone ∧ n ∉ args.map (·.name)) := by
  simp only [matchArgs] at h
  cases hb : bindNamed params args [] (params.map (·.name)).eraseDups with
  | error e' =>
    simp only [matchNamed, hb, bind, Except.bind, Except.error.injEq] at h; subst h
    rcases bindNamed_error _ _ _ _ hn hb with ⟨n, h1, _, h3⟩ | h
    · left; refine ⟨n, h1, ?_⟩
      rcases h3 with h3 | h3
      · cases h3
      · exact h3
    · exact Or.inr (Or.inl h)
  | ok x =>
    have hpre := bindNamed_ok_iff hn _ _ _ _ hb
    obtain ⟨u, hnd, hu, he⟩ := matchNamed_eq hord hn hpre.1 hpre.2.2
    rw [he] at h
    split at h
    · rename_i hnil
      cases h
      refine Or.inr (Or.inr ⟨u, rfl, hnil, hnd, fun n => ?_⟩)
      rw [hu]
      constructor
      · rintro ⟨p, hp, rfl, hc⟩
        refine ⟨p, hp, rfl, ?_⟩
        unfold chosen at hc
        cases hb : boundTo args p.name with
        | some kv => rw [hb] at hc; cases hc
        | none =>
          rw [hb] at hc
          simp only [Option.map_eq_none_iff] at hc
          exact ⟨by simp [hc], boundTo_none.1 hb⟩
      · rintro ⟨p, hp, rfl, hd, hn'⟩
        refine ⟨p, hp, rfl, ?_⟩
        rw [chosen, boundTo_none.2 hn']
        simpa using hd
    · cases h

/-- C25, errors of positional calls: too many arguments iff there are more arguments than
parameters; otherwise too few, and then a parameter without default is not reached. -/
theorem C25_positional_errors (ord : List Ident → List Ident) (params : List (Param Ty T))
    (args : List T) (m : Bool) (e : ArgError)
    (h : matchArgs ord params (.positional args) m = .error e) :
    (params.length < args.length ∧ ∃ g x, e = .tooMany g x) ∨
    (args.length ≤ params.length ∧ (∃ p ∈ params.drop args.length, p.default.isNone) ∧
      ∃ g x, e = .tooFew g x ((params.drop args.length).map (·.name))) := by
  simp only [matchArgs] at h
  generalize (if m then 1 else 0) = k at h
  have key : ∀ (ps : List (Param Ty T)) (i : Nat) (as : List T),
      matchPositional params args.length k i as ps = .error e →
      (ps.length < as.length ∧ ∃ g x, e = .tooMany g x) ∨
      (as.length ≤ ps.length ∧ (∃ p ∈ ps.drop as.length, p.default.isNone) ∧
        ∃ g x, e = .tooFew g x ((params.drop args.length).map (·.name))) := by
    intro ps
    induction ps with
    | nil =>
      intro i as h
      cases as with
      | nil => simp [matchPositional] at h
      | cons a as => simp only [matchPositional, Except.error.injEq] at h
                     left; exact ⟨by simp, _, _, h.symm⟩
    | cons p ps ih =>
      intro i as h
      cases as with
      | cons a as =>
        simp only [matchPositional, bind, Except.bind] at h
        cases hr : matchPositional params args.length k (i + 1) as ps with
        | ok r => rw [hr] at h; cases h
        | error e' =>
          rw [hr] at h
          simp only [Except.error.injEq] at h; subst h
          simpa using ih _ _ hr
      | nil =>
        right
        simp only [matchPositional, bind, Except.bind] at h
        cases hd : p.default with
        | none =>
          simp only [hd, Except.error.injEq] at h
          exact ⟨by simp, ⟨p, by simp, by simp [hd]⟩, _, _, h.symm⟩
        | some d =>
          simp only [hd] at h
          cases hr : matchPositional params args.length k (i + 1) [] ps with
          | ok r => rw [hr] at h; cases h
          | error e' =>
            rw [hr] at h
            simp only [Except.error.injEq] at h; subst h
            rcases ih _ _ hr with ⟨h1, _⟩ | ⟨_, ⟨q, hq, hqd⟩, h3⟩
            · simp at h1
            · exact ⟨by simp, ⟨q, by simp at hq ⊢; exact Or.inr hq, hqd⟩, h3⟩
  exact key params 0 args h

/-- The hypotheses of the C25 theorems are met: parameters `a`, `b`, `c = 7` called with `b: 5, a: 4`
and with `4, 5`. -/
example :
    let params : List (Param Unit Nat) := [⟨0, (), none⟩, ⟨1, (), none⟩, ⟨2, (), some 7⟩]
    (params.map (·.name)).Nodup ∧
    (([⟨false, 1, 5⟩, ⟨false, 0, 4⟩] : List (NamedArg Nat)).map fun a => (a.name, a.value)).Perm
      ((params.map (·.name)).zip [4, 5]) ∧
    (match matchArgs id params (.positional [4, 5]) false with
      | .ok r => r.map Arg.binding | .error _ => []) = [(0, 4, ()), (1, 5, ()), (2, 7, ())] := by
  refine ⟨by decide, ?_, by decide⟩
  exact List.Perm.swap _ _ _

end Spade.Hir

import Verif.Symtab.Restore
/-! C24: name lookup respects scopes. -/
namespace Spade.Symtab

theorem extractPrefix_plain {s : Seg} (hs : ¬ Keyword s) (rest : Path) :
    extractPrefix (s :: rest) = (.none, s :: rest) := by
  simp only [Keyword, not_or] at hs
  obtain ⟨h1, h2, h3⟩ := hs
  unfold extractPrefix
  split
  · simp_all
  · simp_all
  · simp_all
  · simp_all
  · rfl

theorem start_plain {t : Table} {s : Seg} (hs : ¬ Keyword s) (rest ns : Path) :
    start t (s :: rest) ns = match findScope (ns ++ [s]) t.scopes with
      | some o => .ok (o, ns, s :: rest)
      | none => .ok (t.scopes.length - 1, [], s :: rest) := by
  simp only [start, extractPrefix_plain hs]
  cases findScope (ns ++ [s]) t.scopes <;> rfl

/-- A plain name is looked up where `start` says, if what is found there is no alias. -/
theorem lookup_at {t : Table} {check : Bool} {s : Seg} {ns : Path} {off : Nat} {q : Path}
    (hstart : start t [s] ns = .ok (off, q, [s])) {scope : Scope} (hsc : t.scopes[off]? = some scope)
    (fuel : Nat) :
    (get scope (q ++ [s]) = none → lookup (fuel + 4) t check [s] ns = some (.error .noSuchSymbol)) ∧
    (∀ id, get scope (q ++ [s]) = some id → (check = true → get t.vis id = none) →
      ((get t.types id).isSome = true ∨ ∀ p n, get t.things id ≠ some (.alias p n)) →
      lookup (fuel + 4) t check [s] ns = some (.ok id)) := by
  constructor
  · intro hg
    simp [lookup, canon, hstart, walk, step, hsc, hg]
  · intro id hg hv hp
    have hcv : checkVis t check id (q ++ [s]) ns = .ok () := by
      unfold checkVis
      split
      · rename_i hc; rw [hv hc]
      · rfl
    have hstep : step (fuel + 2) t check [] [] ns off (q ++ [s]) [] = .ok off (q ++ [s]) := by
      simp only [step, hsc, hg, List.not_mem_nil, ↓reduceIte, hcv, List.isEmpty_nil, Bool.and_true]
      split
      · rfl
      · rename_i hty
        rcases hp with hp | hp
        · simp [hp] at hty
        · split
          · rename_i p n hth; exact (hp p n hth).elim
          · rfl
    have : canon (fuel + 4) t check [] [s] ns = .ok off (q ++ [s]) := by
      simp only [canon, hstart, walk, hstep]
    simp [lookup, this, hsc, hg]

/-- **C24, visible declarations.**  After any history of scopes and declarations, looking up a plain
name finds exactly the item the history says it means: the innermost declaration in force in the
current namespace, and the latest one in its scope; if there is none, the root item of that name.
`hplain` leaves out names that mean an alias, and names with a visibility (C41). -/
theorem C24_innermost (evs : List Ev) (t : Table) (hrun : run evs = some t) (s : Seg)
    (hs : ¬ Keyword s) (check : Bool)
    (hplain : ∀ id, Means evs s id → ∀ d, Described evs id d →
      (d.isType = true ∨ ∀ p n, d.thing ≠ some (.alias p n)) ∧ (check = true → d.vis = none))
    (fuel : Nat) (hf : 4 ≤ fuel) (id : Nat) :
    lookupId fuel t check [s] = some (.ok id) ↔ Means evs s id := by
  obtain ⟨fuel, rfl⟩ : ∃ n, fuel = n + 4 := ⟨fuel - 4, by omega⟩
  obtain ⟨hlen, hns, _, _, hpos⟩ := run_facts evs t hrun
  obtain ⟨hd1, hd2, hd3, hd4, hd5⟩ := run_described evs t hrun
  have hq : nsOf evs ++ [s] ≠ [] := by simp
  -- the tables say what `hplain` says
  have stored : ∀ (o : Nat) scope q i, t.scopes[o]? = some scope → get scope q = some i →
      Means evs s i → (check = true → get t.vis i = none) ∧
      ((get t.types i).isSome = true ∨ ∀ p n, get t.things i ≠ some (.alias p n)) := by
    intro o scope q i hsc hg hm
    by_cases h0 : i = 0
    · subst h0
      exact ⟨fun _ => (hd2 0 (Or.inr rfl)).2, Or.inr (by rw [hd4]; simp)⟩
    · obtain ⟨d, hd⟩ := hd5 i (by omega) (ids_below evs t hrun o scope q i hsc hg)
      obtain ⟨f1, f2, f3⟩ := hd1 i d hd
      obtain ⟨p1, p2⟩ := hplain i hm d hd
      rw [f1, f2, f3]
      exact ⟨p2, p1⟩
  simp only [lookupId, hns]
  cases hfind : findScope (nsOf evs ++ [s]) t.scopes with
  | some o =>
    have hstart : start t [s] (nsOf evs) = .ok (o, nsOf evs, [s]) := by
      rw [start_plain hs, hfind]
    obtain ⟨⟨scope, hsc, hgne⟩, _⟩ := findScope_some.mp hfind
    obtain ⟨i, hg⟩ := Option.ne_none_iff_exists'.mp hgne
    have hin : Innermost evs (nsOf evs ++ [s]) i :=
      (find_iff_innermost hrun hq i).mp ⟨o, scope, hfind, hsc, hg⟩
    obtain ⟨st1, st2⟩ := stored o scope _ i hsc hg (Or.inl hin)
    rw [(lookup_at hstart hsc fuel).2 i hg st1 st2]
    constructor
    · intro h; simp at h; subst h; exact Or.inl hin
    · rintro (h | ⟨h, _⟩)
      · obtain ⟨o', scope', hf', hsc', hg'⟩ := (find_iff_innermost hrun hq id).mpr h
        rw [hfind] at hf'; cases hf'
        rw [hsc] at hsc'; cases hsc'
        rw [hg] at hg'; cases hg'
        rfl
      · rw [← find_none_iff hrun hq, hfind] at h; cases h
  | none =>
    have hnone := (find_none_iff hrun hq).mp hfind
    have hstart : start t [s] (nsOf evs) = .ok (t.scopes.length - 1, [], [s]) := by
      rw [start_plain hs, hfind]
    have hlt : t.scopes.length - 1 < t.scopes.length := by omega
    have hsc := List.getElem?_eq_getElem hlt
    generalize hscope : t.scopes[t.scopes.length - 1] = scope at hsc
    have key := get_iff_latest evs t hrun 0 hpos [s] (by simp)
    have hi : depthOf evs - 1 - 0 = t.scopes.length - 1 := by omega
    rw [hi, hsc] at key
    simp only [Option.bind_some] at key
    cases hg : get scope ([] ++ [s]) with
    | some i =>
      have hm : Means evs s i := Or.inr ⟨hnone, (key i).mp hg⟩
      obtain ⟨st1, st2⟩ := stored _ scope _ i hsc hg hm
      rw [(lookup_at hstart hsc fuel).2 i hg st1 st2]
      constructor
      · intro h; simp at h; subst h; exact hm
      · rintro (⟨level, ⟨k, hk, _⟩, _⟩ | ⟨_, h⟩)
        · exact (hnone ⟨_, _, _, hk⟩).elim
        · have := (key id).mpr h
          simp only [List.nil_append] at hg
          rw [hg] at this; cases this; rfl
    | none =>
      rw [(lookup_at hstart hsc fuel).1 hg]
      constructor
      · intro h; simp at h
      · rintro (⟨level, ⟨k, hk, _⟩, _⟩ | ⟨_, h⟩)
        · exact (hnone ⟨_, _, _, hk⟩).elim
        · have := (key id).mpr h
          simp only [List.nil_append] at hg
          rw [hg] at this; cases this

/-- **C24, unknown names.**  A plain name that means nothing is reported as missing. -/
theorem C24_unknown (evs : List Ev) (t : Table) (hrun : run evs = some t) (s : Seg)
    (hs : ¬ Keyword s) (check : Bool) (h : ¬ ∃ id, Means evs s id) (fuel : Nat) (hf : 4 ≤ fuel) :
    lookupId fuel t check [s] = some (.error .noSuchSymbol) := by
  obtain ⟨fuel, rfl⟩ : ∃ n, fuel = n + 4 := ⟨fuel - 4, by omega⟩
  obtain ⟨hlen, hns, _, _, hpos⟩ := run_facts evs t hrun
  have hq : nsOf evs ++ [s] ≠ [] := by simp
  simp only [lookupId, hns]
  cases hfind : findScope (nsOf evs ++ [s]) t.scopes with
  | some o =>
    obtain ⟨⟨scope, hsc, hgne⟩, _⟩ := findScope_some.mp hfind
    obtain ⟨i, hg⟩ := Option.ne_none_iff_exists'.mp hgne
    exact (h ⟨i, Or.inl ((find_iff_innermost hrun hq i).mp ⟨o, scope, hfind, hsc, hg⟩)⟩).elim
  | none =>
    have hnone := (find_none_iff hrun hq).mp hfind
    have hstart : start t [s] (nsOf evs) = .ok (t.scopes.length - 1, [], [s]) := by
      rw [start_plain hs, hfind]
    have hlt : t.scopes.length - 1 < t.scopes.length := by omega
    have hsc := List.getElem?_eq_getElem hlt
    generalize hscope : t.scopes[t.scopes.length - 1] = scope at hsc
    have key := get_iff_latest evs t hrun 0 hpos [s] (by simp)
    have hi : depthOf evs - 1 - 0 = t.scopes.length - 1 := by omega
    rw [hi, hsc] at key
    simp only [Option.bind_some] at key
    refine (lookup_at hstart hsc fuel).1 ?_
    cases hg : get scope ([] ++ [s]) with
    | none => rfl
    | some i => exact (h ⟨i, Or.inr ⟨hnone, (key i).mp hg⟩⟩).elim

/-! A case that meets the hypotheses: in `fn f(x) { let y; { let x; … } … }`, the inner `x` is found
inside the block and the outer one after it. -/

/-- `mod m`, `fn f` in it, and the parameter `x` and variable `y` of `f`. -/
def exampleHistory : List Ev :=
  [.declare 0 [.named "m"] ⟨false, some .item, some .pub⟩, .pushNs (.named "m"),
   .declare 0 [.named "f"] ⟨false, some .item, some .pub⟩, .pushNs (.named "f"), .openScope,
   .declare 0 [.named "x"] ⟨false, some .item, none⟩,
   .declare 0 [.named "y"] ⟨false, some .item, none⟩]

/-- The block declares `x` again. -/
def exampleInner : List Ev := [.declare 0 [.named "x"] ⟨false, some .item, none⟩]

example : (run exampleHistory).bind (lookupId 4 · true [.named "x"]) = some (.ok 3) := by
  decide +kernel

example : (run (exampleHistory ++ [.openScope] ++ exampleInner)).bind
    (lookupId 4 · true [.named "x"]) = some (.ok 5) := by
  decide +kernel

/-- The hypotheses of `C24_scope_restored` hold for the block. -/
example : ∀ t t', run exampleHistory = some t →
    run (exampleHistory ++ [.openScope] ++ exampleInner ++ [.closeScope]) = some t' →
    ∀ fuel check path ns, lookup fuel t' check path ns = lookup fuel t check path ns := by
  intro t t' h h'
  refine C24_scope_restored exampleHistory exampleInner t t' h h' ?_ (by decide) ?_ (by decide)
    (by decide)
  · intro j hj
    have hj : j ≤ 1 := hj
    match j, hj with
    | 0, _ => decide
    | 1, _ => decide
  · intro j o n e hj
    match j with
    | 0 => simp [exampleInner] at hj; obtain ⟨rfl, _⟩ := hj; decide
    | j + 1 => simp [exampleInner] at hj

/-- The hypotheses of `C24_innermost` hold for `y` inside the block, which is found in the scope
around it. -/
example : Means (exampleHistory ++ [.openScope] ++ exampleInner) (.named "y") 4 := by
  have hf : ∀ k level id, InForce (exampleHistory ++ [.openScope] ++ exampleInner) k
      (nsOf (exampleHistory ++ [.openScope] ++ exampleInner) ++ [.named "y"]) level id →
      k = 6 ∧ level = 1 ∧ id = 4 := by
    rintro k level id ⟨hd, _⟩
    have hk := declares_lt hd
    have hk : k < 9 := hk
    rcases hd with ⟨o, n, e, h1, h2, h3, h4⟩ | ⟨s, h1, _⟩
    · match k, hk with
      | 0, _ => simp [exampleHistory, exampleInner] at h1; obtain ⟨_, rfl, _⟩ := h1; exact absurd h2 (by decide)
      | 1, _ => simp [exampleHistory, exampleInner] at h1
      | 2, _ => simp [exampleHistory, exampleInner] at h1; obtain ⟨_, rfl, _⟩ := h1; exact absurd h2 (by decide)
      | 3, _ => simp [exampleHistory, exampleInner] at h1
      | 4, _ => simp [exampleHistory, exampleInner] at h1
      | 5, _ => simp [exampleHistory, exampleInner] at h1; obtain ⟨_, rfl, _⟩ := h1; exact absurd h2 (by decide)
      | 6, _ =>
        simp [exampleHistory, exampleInner] at h1
        obtain ⟨rfl, _, _⟩ := h1
        have h3 : level + 0 + 1 = 2 := h3
        exact ⟨rfl, by omega, h4⟩
      | 7, _ => simp [exampleHistory, exampleInner] at h1
      | 8, _ => simp [exampleHistory, exampleInner] at h1; obtain ⟨_, rfl, _⟩ := h1; exact absurd h2 (by decide)
    · match k, hk with
      | 0, _ | 1, _ | 2, _ | 3, _ | 4, _ | 5, _ | 6, _ | 7, _ | 8, _ =>
        simp [exampleHistory, exampleInner] at h1
  refine Or.inl ⟨1, ⟨6, ⟨Or.inl ⟨0, [.named "y"], _, rfl, by decide, by decide, by decide⟩, ?_⟩,
    fun k' id' h' => ?_⟩, fun k' l' id' h' => ?_⟩
  · intro j h1 h2
    have h2 : j ≤ 9 := h2
    match j, h1, h2 with
    | 6, _, _ | 7, _, _ | 8, _, _ | 9, _, _ => decide
  · have := hf _ _ _ h'; omega
  · have := hf _ _ _ h'; omega

end Spade.Symtab

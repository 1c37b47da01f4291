import Verif.Symtab.Paths
/-! C41: paths and visibility. -/
namespace Spade.Symtab

theorem covers_iff {p q : Path} : covers p q = true ↔ p <+: q := by
  induction p generalizing q with
  | nil => simp [covers]
  | cons a p ih =>
    cases q with
    | nil => simp [covers]
    | cons b q => simp [covers, ih, List.cons_prefix_cons]

theorem prelude_snoc (p : Path) (s : Seg) : prelude (p ++ [s]) = some p := by simp [prelude]

theorem prelude_eq {p m : Path} : prelude p = some m ↔ ∃ s, p = m ++ [s] := by
  rcases List.eq_nil_or_concat p with rfl | ⟨m', s, rfl⟩
  · simp [prelude]
  · simp only [List.concat_eq_append, prelude_snoc, Option.some.injEq]
    constructor
    · rintro rfl; exact ⟨s, rfl⟩
    · rintro ⟨s', h⟩; exact (List.append_inj' h rfl).1

/-- The check of one item is the rule of the visibility markers, except that `pub(lib)` is taken to
mean the library that is being compiled. -/
theorem passes_iff {t : Table} {ns : Path} {id : Nat} {q : Path}
    (hlib : get t.vis id = some .atLib → t.base <+: q) :
    Passes t true ns id q ↔ (worldOf t).Allowed ns id q := by
  unfold Passes checkVis World.Allowed
  simp only [↓reduceIte, worldOf]
  cases hv : get t.vis id with
  | none => simp
  | some v =>
    simp only [Option.some.injEq, forall_eq']
    have key : ∀ (o : Option Path) (A : Prop), (A ↔ ∃ m, o = some m ∧ m <+: ns) →
        ((match o with
          | none => (.error .panic : Except Err Unit)
          | some p => if covers p ns = true then .ok () else .error .notVisible) = .ok () ↔ A) := by
      intro o A hA
      rw [hA]
      cases o with
      | none => simp
      | some p =>
        by_cases h : covers p ns = true
        · simp [h, covers_iff.mp h]
        · have h' : ¬ p <+: ns := fun h' => h (covers_iff.mpr h')
          simp [h, h']
    apply key
    cases v with
    | pub => simp [visPath, Admits]
    | atLib => simp [visPath, Admits, hlib hv]
    | implicit | atSelf =>
      simp only [visPath, Admits, prelude_eq]
      constructor
      · rintro ⟨m, s, h1, h2⟩; exact ⟨m, ⟨s, h1⟩, h2⟩
      · rintro ⟨m, ⟨s, h1⟩, h2⟩; exact ⟨m, s, h1, h2⟩
    | atSuper =>
      simp only [visPath, Admits, Option.bind_eq_some_iff, prelude_eq]
      constructor
      · rintro ⟨m, a, s, h1, h2⟩; exact ⟨m, ⟨m ++ [a], ⟨s, by simp [h1]⟩, ⟨a, rfl⟩⟩, h2⟩
      · rintro ⟨m, ⟨p, ⟨s, h1⟩, ⟨a, rfl⟩⟩, h2⟩; exact ⟨m, a, s, by simp [h1], h2⟩
    | atSuperSuper =>
      simp only [visPath, Admits, Option.bind_eq_some_iff, prelude_eq]
      constructor
      · rintro ⟨m, a, b, s, h1, h2⟩
        exact ⟨m, ⟨m ++ [a], ⟨m ++ [a] ++ [b], ⟨s, by simp [h1]⟩, ⟨b, rfl⟩⟩, ⟨a, rfl⟩⟩, h2⟩
      · rintro ⟨m, ⟨p, ⟨p', ⟨s, h1⟩, ⟨b, rfl⟩⟩, ⟨a, rfl⟩⟩, h2⟩
        exact ⟨m, a, b, s, by simp [h1], h2⟩

mutual
theorem Denotes.imp {w : World} {V V' : Path → Nat → Path → Prop}
    (himp : ∀ ns off id q, w.entry off q = some id → V ns id q → V' ns id q) {above : List Nat}
    {ns path : Path} {off : Nat} {q : Path} (h : Denotes w V above ns path off q) :
    Denotes w V' above ns path off q :=
  match h with
  | .mk hb hw => .mk hb (hw.imp himp)
theorem Walks.imp {w : World} {V V' : Path → Nat → Path → Prop}
    (himp : ∀ ns off id q, w.entry off q = some id → V ns id q → V' ns id q) {above : List Nat}
    {ns : Path} {off : Nat} {q segs : Path} {off' : Nat} {q' : Path}
    (h : Walks w V above ns off q segs off' q') : Walks w V' above ns off q segs off' q' :=
  match h with
  | .nil => .nil
  | .cons hs hw => .cons (hs.imp himp) (hw.imp himp)
theorem Stands.imp {w : World} {V V' : Path → Nat → Path → Prop}
    (himp : ∀ ns off id q, w.entry off q = some id → V ns id q → V' ns id q)
    {above loc : List Nat} {ns : Path} {off : Nat} {q segs : Path} {off' : Nat} {q' : Path}
    (h : Stands w V above loc ns off q segs off' q') : Stands w V' above loc ns off q segs off' q' :=
  match h with
  | .itself he ha hv hc => .itself he ha (himp _ _ _ _ he hv) hc
  | .member he ha hv hal hd h1 h2 => .member he ha (himp _ _ _ _ he hv) hal (hd.imp himp) h1 h2
  | .follow he ha hv ht hal hd h1 hs =>
    .follow he ha (himp _ _ _ _ he hv) ht hal (hd.imp himp) h1 (hs.imp himp)
end

theorem lookup_of_canon {t : Table} {check : Bool} {path ns : Path} {fuel : Nat} {off : Nat}
    {q : Path} (h : canon fuel t check [] path ns = .ok off q) {id : Nat} :
    lookup fuel t check path ns = some (.ok id) ↔ (worldOf t).entry off q = some id := by
  simp only [lookup, h, worldOf]
  cases t.scopes[off]?.bind (get · q) <;> simp

/-- Every successful lookup follows the walk, and every walk is found. -/
theorem lookup_iff {t : Table} (ht : t.scopes ≠ []) (check : Bool) (path ns : Path) (id : Nat) :
    (∃ fuel, lookup fuel t check path ns = some (.ok id)) ↔
      ∃ off q, Denotes (worldOf t) (Passes t check) [] ns path off q ∧
        (worldOf t).entry off q = some id := by
  constructor
  · rintro ⟨fuel, h⟩
    have h' := h
    simp only [lookup] at h
    cases hc : canon fuel t check [] path ns with
    | fuel => simp [hc] at h
    | err e => simp [hc] at h
    | ok off q => exact ⟨off, q, (sound t check fuel).1 _ _ _ _ _ hc, (lookup_of_canon hc).mp h'⟩
  · rintro ⟨off, q, hd, he⟩
    obtain ⟨fuel, hc⟩ := complete ht hd
    exact ⟨fuel, (lookup_of_canon hc).mpr he⟩

/-- **C41, module-relative paths.**  With visibility checks on, looking up `path` in namespace `ns`
gives item `id` exactly if the walk that `lib`, `super`, `self` or the first segment prescribes leads
to `id`, and the visibility markers of all items on the way admit their use.  `hlib` is what is
missing: a `pub(lib)` item of another library (see `C41_counterexample_lib_visible`). -/
theorem C41_lookup_partial {t : Table} (ht : t.scopes ≠ [])
    (hlib : ∀ off q id, (worldOf t).entry off q = some id → (worldOf t).vis id = some .atLib →
      t.base <+: q) (path ns : Path) (id : Nat) :
    (∃ fuel, lookup fuel t true path ns = some (.ok id)) ↔
      ∃ off q, Denotes (worldOf t) (worldOf t).Allowed [] ns path off q ∧
        (worldOf t).entry off q = some id := by
  rw [lookup_iff ht]
  constructor
  · rintro ⟨off, q, hd, he⟩
    exact ⟨off, q, hd.imp (fun ns off id q he hp => (passes_iff (hlib off q id he)).mp hp), he⟩
  · rintro ⟨off, q, hd, he⟩
    exact ⟨off, q, hd.imp (fun ns off id q he hp => (passes_iff (hlib off q id he)).mpr hp), he⟩

/-- Without visibility checks, the walk alone decides. -/
theorem C41_lookup_unchecked {t : Table} (ht : t.scopes ≠ []) (path ns : Path) (id : Nat) :
    (∃ fuel, lookup fuel t false path ns = some (.ok id)) ↔
      ∃ off q, Denotes (worldOf t) (fun _ _ _ => True) [] ns path off q ∧
        (worldOf t).entry off q = some id := by
  rw [lookup_iff ht]
  constructor
  · rintro ⟨off, q, hd, he⟩
    exact ⟨off, q, hd.imp (fun _ _ _ _ _ _ => trivial), he⟩
  · rintro ⟨off, q, hd, he⟩
    exact ⟨off, q, hd.imp (fun _ _ _ _ _ _ => by simp [Passes, checkVis]), he⟩

/-- A path has at most one meaning. -/
theorem C41_unique {t : Table} (ht : t.scopes ≠ []) {path ns : Path} {off off' : Nat} {q q' : Path}
    (h : Denotes (worldOf t) (fun _ _ _ => True) [] ns path off q)
    (h' : Denotes (worldOf t) (fun _ _ _ => True) [] ns path off' q') : off = off' ∧ q = q' := by
  obtain ⟨f, hf⟩ := complete ht (check := false) (h.imp (fun _ _ _ _ _ _ => by simp [Passes, checkVis]))
  obtain ⟨f', hf'⟩ := complete ht (check := false) (h'.imp (fun _ _ _ _ _ _ => by simp [Passes, checkVis]))
  have e1 := canon_mono hf (by simp) (Nat.le_max_left f f')
  have e2 := canon_mono hf' (by simp) (Nat.le_max_right f f')
  rw [e1] at e2
  simpa using e2

/-- The tree that the table stands for is made of the declarations in force: what is found at `q` in
a scope is the latest declaration of `q` in that scope. -/
theorem C41_world {evs : List Ev} {t : Table} (hrun : run evs = some t) {off : Nat}
    (hoff : off < depthOf evs) {q : Path} (hq : q ≠ []) (id : Nat) :
    (worldOf t).entry off q = some id ↔ Latest evs q (depthOf evs - 1 - off) id := by
  have := get_iff_latest evs t hrun (depthOf evs - 1 - off) (by omega) q hq id
  rwa [show depthOf evs - 1 - (depthOf evs - 1 - off) = off by omega] at this

/-! ## The simple case: no aliases on the way -/

theorem walks_plain {w : World} {V : Path → Nat → Path → Prop} {ns : Path} {off : Nat} :
    ∀ (segs q : Path), (∀ i, i < segs.length → ∃ id, w.entry off (q ++ segs.take (i + 1)) = some id ∧
      w.alias id = none ∧ V ns id (q ++ segs.take (i + 1))) →
    Walks w V [] ns off q segs off (q ++ segs)
  | [], q, _ => by rw [List.append_nil]; exact .nil
  | s :: segs, q, h => by
    obtain ⟨id, h1, h2, h3⟩ := h 0 (by simp)
    simp only [Nat.zero_add, List.take_succ_cons, List.take_zero] at h1 h3
    have ih := walks_plain (w := w) (V := V) (ns := ns) (off := off) segs (q ++ [s]) (by
      intro i hi
      have := h (i + 1) (by simp; omega)
      simpa using this)
    rw [List.append_assoc] at ih
    exact .cons (.itself h1 (by simp) h3 (Or.inl h2)) ih

/-- **C41, the obvious walk.**  `lib::a::b` is the item `base::a::b`, `super::a::b` the item `a::b`
of the module around the current one, `self::a::b` that of the current one: a path that begins at
`q` and goes on with `segs` is found at `q::segs`, if there is an item for every prefix, none of them
an alias and all of them allowed. -/
theorem C41_obvious_walk_partial {t : Table} (ht : t.scopes ≠ []) {ns path : Path} {off : Nat}
    {q segs : Path} (hb : Begins (worldOf t) ns path off q segs) (hsegs : segs ≠ [])
    (hw : ∀ i, i < segs.length → ∃ id, (worldOf t).entry off (q ++ segs.take (i + 1)) = some id ∧
      (worldOf t).alias id = none ∧ (worldOf t).Allowed ns id (q ++ segs.take (i + 1)) ∧
      ((worldOf t).vis id = some .atLib → t.base <+: q ++ segs.take (i + 1))) :
    ∃ id, (worldOf t).entry off (q ++ segs) = some id ∧
      ∃ fuel, lookup fuel t true path ns = some (.ok id) := by
  have hpos := List.length_pos_iff.mpr hsegs
  obtain ⟨id, h1, _⟩ := hw (segs.length - 1) (by omega)
  have hfull : segs.take (segs.length - 1 + 1) = segs := by
    rw [show segs.length - 1 + 1 = segs.length by omega, List.take_length]
  rw [hfull] at h1
  refine ⟨id, h1, (lookup_iff ht true path ns id).mpr ⟨off, q ++ segs, .mk hb ?_, h1⟩⟩
  apply walks_plain
  intro i hi
  obtain ⟨id', g1, g2, g3, g4⟩ := hw i hi
  exact ⟨id', g1, g2, (passes_iff g4).mpr g3⟩

/-! ## Resolution ends -/

/-- The namespaces that aliases lead to with nothing but `lib`, `self` or `super` are modules, not
aliases. -/
def ModulesNotAliases (w : World) : Prop :=
  ∀ id target ns off q i, w.alias id = some (target, ns) → Begins w ns target off q [] →
    w.entry off q = some i → w.alias i = none

/-- The number of items that may still be followed. -/
def unvisited (t : Table) (above : List Nat) : Nat :=
  ((t.things.map (·.1)).filter (fun i => decide (i ∉ above))).length

theorem get_mem {α β : Type} [DecidableEq α] {m : List (α × β)} {k : α} {v : β}
    (h : get m k = some v) : k ∈ m.map (·.1) := by
  induction m with
  | nil => simp [get] at h
  | cons x m ih =>
    obtain ⟨k', v'⟩ := x
    simp only [get] at h
    split at h
    · rename_i hk; simp [hk]
    · simp only [List.map_cons, List.mem_cons]; exact Or.inr (ih h)

theorem filter_length_lt {l : List Nat} {p p' : Nat → Bool} {x : Nat} (hx : x ∈ l)
    (hp : p x = true) (hp' : p' x = false) (h : ∀ y, p' y = true → p y = true) :
    (l.filter p').length < (l.filter p).length := by
  induction l with
  | nil => simp at hx
  | cons y l ih =>
    have hle : (l.filter p').length ≤ (l.filter p).length := by
      clear ih hx
      induction l with
      | nil => simp
      | cons z l ih =>
        simp only [List.filter_cons]
        by_cases hz : p' z = true
        · simp [hz, h z hz]; exact ih
        · simp only [hz, Bool.false_eq_true, ↓reduceIte]
          split
          · simp; omega
          · exact ih
    simp only [List.filter_cons]
    rcases List.mem_cons.mp hx with rfl | hx
    · simp [hp, hp']; omega
    · have := ih hx
      by_cases hy : p' y = true
      · simp [hy, h y hy]; exact this
      · simp only [hy, Bool.false_eq_true, ↓reduceIte]
        split
        · simp; omega
        · exact this

theorem unvisited_lt {t : Table} {loc : List Nat} {id : Nat} {th : Thing}
    (hth : get t.things id = some th) (hnot : id ∉ loc) :
    unvisited t (id :: loc) < unvisited t loc := by
  refine filter_length_lt (get_mem hth) (by simpa using hnot) (by simp) ?_
  intro y hy
  simp only [List.mem_cons, not_or, decide_eq_true_eq] at hy ⊢
  exact hy.2

theorem unvisited_mono {t : Table} {a b : List Nat} (h : ∀ x ∈ a, x ∈ b) :
    unvisited t b ≤ unvisited t a := by
  unfold unvisited
  generalize t.things.map (·.1) = l
  induction l with
  | nil => simp
  | cons x l ih =>
    simp only [List.filter_cons, decide_eq_true_eq]
    by_cases hb : x ∉ b
    · have ha : x ∉ a := fun hx => hb (h x hx)
      simp only [hb, ha, not_false_eq_true, ↓reduceIte, List.length_cons]; omega
    · simp only [hb, ↓reduceIte]
      split
      · simp only [List.length_cons]; omega
      · exact ih

theorem stands_fresh {w : World} {V : Path → Nat → Path → Prop} {above loc : List Nat} {ns : Path}
    {off : Nat} {q segs : Path} {off' : Nat} {q' : Path}
    (h : Stands w V above loc ns off q segs off' q') :
    ∃ id, w.entry off' q' = some id ∧ id ∉ above :=
  match h with
  | .itself he ha _ _ => ⟨_, he, ha⟩
  | .member he ha _ _ _ _ _ => ⟨_, he, ha⟩
  | .follow _ _ _ _ _ _ _ hs => stands_fresh hs

theorem walks_fresh {w : World} {V : Path → Nat → Path → Prop} {above : List Nat} {ns : Path}
    {off : Nat} {q segs : Path} {off' : Nat} {q' : Path}
    (h : Walks w V above ns off q segs off' q') (hs : segs ≠ []) :
    ∃ id, w.entry off' q' = some id ∧ id ∉ above :=
  match h with
  | .nil => (hs rfl).elim
  | .cons (segs := []) h1 .nil => stands_fresh h1
  | .cons (segs := _ :: _) _ hw => walks_fresh hw (by simp)

theorem walk_ends {t : Table} {check : Bool} {above : List Nat} {ns : Path}
    (hstep : ∀ off q segs, ∃ fuel, step fuel t check above above ns off q segs ≠ .fuel) :
    ∀ segs off q, ∃ fuel, walk fuel t check above ns off q segs ≠ .fuel
  | [], off, q => ⟨1, by simp [walk]⟩
  | s :: segs, off, q => by
    obtain ⟨f1, h1⟩ := hstep off (q ++ [s]) segs
    cases hr : step f1 t check above above ns off (q ++ [s]) segs with
    | fuel => exact (h1 hr).elim
    | err e => exact ⟨f1 + 1, by rw [walk, hr]; simp⟩
    | ok off' q' =>
      obtain ⟨f2, h2⟩ := walk_ends hstep segs off' q'
      refine ⟨max f1 f2 + 1, ?_⟩
      rw [walk, step_mono hr (by simp) (Nat.le_max_left f1 f2)]
      simp only
      rw [walk_mono rfl h2 (Nat.le_max_right f1 f2)]
      exact h2

/-- The loop that follows aliases ends, if resolution of the targets does. -/
theorem step_ends {t : Table} {check : Bool} (hmod : ModulesNotAliases (worldOf t))
    {above : List Nat} {ns : Path}
    (hcanon : ∀ above', unvisited t above' < unvisited t above → ∀ path ns,
      ∃ fuel, canon fuel t check above' path ns ≠ .fuel) :
    ∀ n loc, (∀ x ∈ above, x ∈ loc) → unvisited t loc ≤ n → ∀ off q segs,
      (∀ id, (worldOf t).entry off q = some id → (worldOf t).alias id ≠ none →
        id ∉ loc ∨ id ∈ above) →
      ∃ fuel, step fuel t check above loc ns off q segs ≠ .fuel := by
  intro n
  induction n with
  | zero =>
    intro loc hsub hn off q segs hfresh
    refine ⟨1, ?_⟩
    rw [step]
    cases hsc : t.scopes[off]? with
    | none => simp
    | some scope =>
    simp only
    cases hg : get scope q with
    | none => simp
    | some id =>
    simp only
    split
    · simp
    · rename_i hna
      cases hv : checkVis t check id q ns with
      | error e => simp
      | ok _ =>
      simp only
      split
      · simp
      · split
        · rename_i p m hth
          have hid := hfresh id (by rw [entry_of hsc, hg]) (by rw [alias_of hth]; simp)
          have := unvisited_lt hth (hid.resolve_right hna)
          omega
        · simp
  | succ n ih =>
    intro loc hsub hn off q segs hfresh
    cases hsc : t.scopes[off]? with
    | none => exact ⟨1, by rw [step, hsc]; simp⟩
    | some scope =>
    cases hg : get scope q with
    | none => exact ⟨1, by rw [step, hsc]; simp [hg]⟩
    | some id =>
    by_cases hna : id ∈ above
    · exact ⟨1, by rw [step, hsc]; simp [hg, hna]⟩
    · cases hv : checkVis t check id q ns with
      | error e => exact ⟨1, by rw [step, hsc]; simp [hg, hna, hv]⟩
      | ok u =>
      by_cases hty : ((get t.types id).isSome && segs.isEmpty) = true
      · exact ⟨1, by rw [step, hsc]; simp only [hg, hna, hv, hty, ↓reduceIte]; simp⟩
      · cases hth : get t.things id with
        | none => exact ⟨1, by rw [step, hsc]; simp only [hg, hna, hv, hty, hth, ↓reduceIte]; simp⟩
        | some th =>
        cases th with
        | item => exact ⟨1, by rw [step, hsc]; simp only [hg, hna, hv, hty, hth, ↓reduceIte]; simp⟩
        | alias target tns =>
        have hid := (hfresh id (by rw [entry_of hsc, hg]) (by rw [alias_of hth]; simp)).resolve_right hna
        have hlt := unvisited_lt hth hid
        have hle := unvisited_mono (t := t) hsub
        obtain ⟨f1, h1⟩ := hcanon (id :: loc) (by omega) target tns
        cases hc : canon f1 t check (id :: loc) target tns with
        | fuel => exact (h1 hc).elim
        | err e => exact ⟨f1 + 1, by rw [step, hsc]; simp only [hg, hna, hv, hty, hth, hc, ↓reduceIte]; simp⟩
        | ok aoff aq =>
        -- the loop goes on with an item that has not been followed yet
        have hnext : ∀ i, (worldOf t).entry aoff aq = some i → (worldOf t).alias i ≠ none →
            i ∉ id :: loc ∨ i ∈ above := by
          intro i hi hal
          cases (sound t check f1).1 _ _ _ _ _ hc with
          | mk hb hw =>
            rename_i off0 q0 segs0
            by_cases hs0 : segs0 = []
            · subst hs0
              cases hw
              exact (hal (hmod id target tns _ _ i (alias_of hth) hb hi)).elim
            · obtain ⟨i', hi', hn'⟩ := walks_fresh hw hs0
              rw [hi] at hi'; cases hi'
              exact Or.inl hn'
        obtain ⟨f2, h2⟩ := ih (id :: loc) (fun x hx => List.mem_cons_of_mem _ (hsub x hx)) (by omega)
          aoff aq segs hnext
        refine ⟨max f1 f2 + 1, ?_⟩
        have hc' := canon_mono hc (by simp) (Nat.le_max_left f1 f2)
        have hs' := step_mono rfl h2 (Nat.le_max_right f1 f2)
        rw [step, hsc]
        simp only [hg, hna, hv, hty, hth, hc', ↓reduceIte]
        cases segs with
        | nil => simp only; simpa [hs'] using h2
        | cons s segs =>
          simp only
          cases t.scopes[aoff]? with
          | none => simp
          | some ascope =>
            simp only
            cases (get ascope (aq ++ [s])).isSome <;> cases (get scope (q ++ [s])).isSome <;>
              simp [hs', h2]

/-- **C41, resolution ends.**  Looking up any path, from any namespace, gives an item or an error
after finitely many steps, also if aliases refer to each other in a circle. -/
theorem C41_terminates {t : Table} (hmod : ModulesNotAliases (worldOf t)) (check : Bool)
    (path ns : Path) : ∃ fuel r, ∀ fuel', fuel ≤ fuel' → lookup fuel' t check path ns = some r := by
  have canon_ends : ∀ n above, unvisited t above ≤ n → ∀ path ns,
      ∃ fuel, canon fuel t check above path ns ≠ .fuel := by
    intro n
    induction n with
    | zero =>
      intro above hn path ns
      cases hst : start t path ns with
      | error e => exact ⟨1, by rw [canon, hst]; simp⟩
      | ok r =>
        obtain ⟨off, q, segs⟩ := r
        obtain ⟨f, hf⟩ := walk_ends (t := t) (check := check) (above := above) (ns := ns)
          (fun off q segs => step_ends hmod (fun above' h => by omega) _ above (fun _ h => h)
            (Nat.le_refl _) off q segs (fun id _ _ => by by_cases h : id ∈ above <;> simp [h]))
          segs off q
        exact ⟨f + 1, by rw [canon, hst]; exact hf⟩
    | succ n ih =>
      intro above hn path ns
      cases hst : start t path ns with
      | error e => exact ⟨1, by rw [canon, hst]; simp⟩
      | ok r =>
        obtain ⟨off, q, segs⟩ := r
        obtain ⟨f, hf⟩ := walk_ends (t := t) (check := check) (above := above) (ns := ns)
          (fun off q segs => step_ends hmod (fun above' h => ih above' (by omega)) _ above
            (fun _ h => h) (Nat.le_refl _) off q segs
            (fun id _ _ => by by_cases h : id ∈ above <;> simp [h]))
          segs off q
        exact ⟨f + 1, by rw [canon, hst]; exact hf⟩
  obtain ⟨f, hf⟩ := canon_ends _ [] (Nat.le_refl _) path ns
  cases hc : canon f t check [] path ns with
  | fuel => exact (hf hc).elim
  | err e =>
    exact ⟨f, .error e, fun f' hle => by simp [lookup, canon_mono hc (by simp) hle]⟩
  | ok off q =>
    cases he : t.scopes[off]?.bind (get · q) with
    | none =>
      exact ⟨f, .error .panic, fun f' hle => by
        simp only [lookup, canon_mono hc (by simp) hle, he]⟩
    | some id =>
      exact ⟨f, .ok id, fun f' hle => by
        simp only [lookup, canon_mono hc (by simp) hle, he]⟩

end Spade.Symtab

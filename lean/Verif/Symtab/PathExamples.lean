import Verif.Symtab.PathProps
/-! Cases that meet the hypotheses of the C41 theorems, and cases where the code departs from the
property. -/
namespace Spade.Symtab

/-- A public module or item. -/
def pubItem : Entry := ⟨false, some .item, some .pub⟩

/-- A library `p` with modules `a` and `a::b`, an item `a::x` visible in `p::a` only, an item
`a::b::y` with `pub(super)`, and in `a::b` the alias `use super::x as z`. -/
def tree : List Ev :=
  [.declare 0 [.named "p"] pubItem, .setBase [.named "p"], .pushNs (.named "p"),
   .declare 0 [.named "a"] pubItem, .pushNs (.named "a"),
   .declare 0 [.named "x"] ⟨false, some .item, some .implicit⟩,
   .declare 0 [.named "b"] pubItem, .pushNs (.named "b"),
   .declare 0 [.named "y"] ⟨false, some .item, some .atSuper⟩,
   .declare 0 [.named "z"] ⟨false, some (.alias [.named "super", .named "x"]
     [.named "p", .named "a", .named "b"]), some .pub⟩]

/-- In `p::a::b`, the paths `lib::a::x`, `super::x` and `z` are all the item `p::a::x`. -/
example : (run tree).bind (lookupId 20 · true [.named "lib", .named "a", .named "x"]) =
    some (.ok 3) := by decide +kernel
example : (run tree).bind (lookupId 20 · true [.named "super", .named "x"]) = some (.ok 3) := by
  decide +kernel
example : (run tree).bind (lookupId 20 · true [.named "z"]) = some (.ok 3) := by decide +kernel
/-- From `p::a`, the item `b::y` is visible; from `p` it is not, and neither is `a::x`. -/
example : (run tree).bind (lookup 20 · true [.named "b", .named "y"] [.named "p", .named "a"]) =
    some (.ok 5) := by decide +kernel
example : (run tree).bind (lookup 20 · true [.named "a", .named "b", .named "y"] [.named "p"]) =
    some (.error .notVisible) := by decide +kernel
example : (run tree).bind (lookup 20 · true [.named "a", .named "x"] [.named "p"]) =
    some (.error .notVisible) := by decide +kernel

/-- The hypotheses of `C41_lookup_partial` hold for this tree: there is no `pub(lib)` item. -/
example : ∀ t, run tree = some t → ∃ off q,
    Denotes (worldOf t) (worldOf t).Allowed [] [.named "p", .named "a", .named "b"] [.named "z"] off q ∧
      (worldOf t).entry off q = some 3 := by
  intro t ht
  have hs : t.scopes ≠ [] := by
    have := run_facts tree t ht
    intro h
    rw [h] at this
    exact absurd this.1 (by decide)
  refine (C41_lookup_partial hs ?_ [.named "z"] [.named "p", .named "a", .named "b"] 3).mp ⟨20, ?_⟩
  · intro off q id _ hv
    exfalso
    have : ∀ v, (∃ x ∈ t.vis, x.2 = v) → v ≠ .atLib := by
      have hr : (run tree).map (·.vis) = some t.vis := by rw [ht]; rfl
      have hl : t.vis = [(6, .pub), (5, .atSuper), (4, .pub), (3, .implicit), (2, .pub), (1, .pub)] := by
        have : (run tree).map (·.vis) =
          some [(6, .pub), (5, .atSuper), (4, .pub), (3, .implicit), (2, .pub), (1, .pub)] := by
            decide +kernel
        rw [this] at hr; simpa using hr.symm
      rw [hl]
      rintro v ⟨x, hx, rfl⟩
      simp only [List.mem_cons, List.not_mem_nil, or_false] at hx
      rcases hx with rfl | rfl | rfl | rfl | rfl | rfl <;> decide
    exact this .atLib (by
      have : ∀ (l : List (Nat × Vis)), get l id = some .atLib → ∃ x ∈ l, x.2 = Vis.atLib := by
        intro l
        induction l with
        | nil => simp [get]
        | cons y l ih =>
          intro h
          simp only [get] at h
          split at h
          · exact ⟨y, by simp, by simpa using h⟩
          · obtain ⟨x, hx, he⟩ := ih h
            exact ⟨x, by simp [hx], he⟩
      exact this _ hv) rfl
  · have h : (run tree).bind (lookup 20 · true [.named "z"] [.named "p", .named "a", .named "b"]) =
        some (.ok 3) := by decide +kernel
    rw [ht] at h
    exact h

/-- Two aliases that refer to each other: `use lib::v as u; use lib::u as v;`. -/
def circle : List Ev :=
  [.declare 0 [.named "u"] ⟨false, some (.alias [.named "lib", .named "v"] []), some .pub⟩,
   .declare 0 [.named "v"] ⟨false, some (.alias [.named "lib", .named "u"] []), some .pub⟩]

/-- The lookup ends, with an error. -/
example : (run circle).bind (lookupId 20 · true [.named "u"]) = some (.error .noSuchSymbol) := by
  decide +kernel

/-- The hypothesis of `C41_terminates` holds for it. -/
example : ∀ t, run circle = some t → ModulesNotAliases (worldOf t) := by
  intro t ht id target ns off q i hal hb _
  exfalso
  have hl : t.things = [(2, .alias [.named "lib", .named "u"] []),
      (1, .alias [.named "lib", .named "v"] []), (0, .item)] := by
    have : (run circle).map (·.things) = some [(2, .alias [.named "lib", .named "u"] []),
      (1, .alias [.named "lib", .named "v"] []), (0, .item)] := by decide +kernel
    rw [ht] at this; simpa using this
  have hth := thing_of hal
  rw [hl] at hth
  have : ∃ s, target = [.named "lib", .named s] := by
    simp only [get] at hth
    split at hth
    · simp at hth; exact ⟨_, hth.1.symm⟩
    · split at hth
      · simp at hth; exact ⟨_, hth.1.symm⟩
      · split at hth <;> simp at hth
  obtain ⟨s, rfl⟩ := this
  have h := start_of_begins hb
  simp [start, extractPrefix] at h

/-- The hypotheses of `C41_obvious_walk_partial` hold for `lib::a` in `tree`. -/
example : ∀ t, run tree = some t → ∃ id, (worldOf t).entry 0 [.named "p", .named "a"] = some id ∧
    ∃ fuel, lookup fuel t true [.named "lib", .named "a"] [.named "p", .named "a", .named "b"] =
      some (.ok id) := by
  intro t ht
  have hs : (run tree).map (·.scopes.length) = some 1 := by decide +kernel
  have hb : (run tree).map (·.base) = some [.named "p"] := by decide +kernel
  have he : (run tree).bind (fun t => t.scopes[0]?.bind (get · [.named "p", .named "a"])) = some 2 := by
    decide +kernel
  have hv : (run tree).bind (fun t => get t.vis 2) = some .pub := by decide +kernel
  have hth : (run tree).bind (fun t => get t.things 2) = some .item := by decide +kernel
  simp only [ht, Option.map_some, Option.some.injEq, Option.bind_some] at hs hb he hv hth
  refine C41_obvious_walk_partial (q := [.named "p"]) (segs := [.named "a"]) (off := 0)
    (fun h => by simp [h] at hs) ?_ (by simp) ?_
  · have := Begins.lib (w := worldOf t) (ns := [.named "p", .named "a", .named "b"]) [.named "a"]
    simpa [worldOf, hs, hb] using this
  · intro i hi
    have : i = 0 := by simpa using hi
    subst this
    exact ⟨2, he, by simp [worldOf, hth], fun v h => by
      simp only [worldOf, hv, Option.some.injEq] at h; subst h; trivial, fun h => by
      simp [worldOf, hv] at h⟩

/-! ## Departures -/

/-- A library `dep` with the items `f` (`pub(lib)`) and `foo`, and the aliases `pub use self::f as g`
and `pub use lib::foo as bar`; then the project `p` with an item `foo` of its own. -/
def twoLibraries : List Ev :=
  [.declare 0 [.named "dep"] pubItem, .setBase [.named "dep"], .pushNs (.named "dep"),
   .declare 0 [.named "f"] ⟨false, some .item, some .atLib⟩,
   .declare 0 [.named "foo"] pubItem,
   .declare 0 [.named "g"] ⟨false, some (.alias [.named "self", .named "f"] [.named "dep"]), some .pub⟩,
   .declare 0 [.named "bar"] ⟨false, some (.alias [.named "lib", .named "foo"] [.named "dep"]), some .pub⟩,
   .popNs, .declare 0 [.named "p"] pubItem, .setBase [.named "p"], .pushNs (.named "p"),
   .declare 0 [.named "foo"] pubItem]

/-- **Departure from C41.**  `dep::f` is visible only inside `dep`, but the project `p` can use it:
the check compares with the library that is being compiled, not with that of the item
(symbol_table.rs:1409). -/
theorem C41_counterexample_lib_visible :
    (run twoLibraries).bind (lookupId 20 · true [.named "dep", .named "f"]) = some (.ok 2) ∧
    ¬ Admits [.named "dep"] [.named "dep", .named "f"] [.named "p"] .atLib := by
  refine ⟨by decide +kernel, ?_⟩
  rintro ⟨_, h⟩
  simp at h

/-- **Departure from C41.**  `dep::g` is a public alias in `dep` of the item `dep::f`, which may be
used in `dep`; from `p` it is rejected, again because the check compares with `p`. -/
theorem C41_counterexample_lib_reexport :
    (run twoLibraries).bind (lookupId 20 · true [.named "dep", .named "g"]) =
      some (.error .notVisible) ∧
    Admits [.named "dep"] [.named "dep", .named "f"] [.named "dep"] .atLib := by
  refine ⟨by decide +kernel, ?_, ?_⟩ <;> simp

/-- **Departure from C41.**  `dep::bar` is an alias of `dep::foo` (item 3), but used in `p` it is the
item `p::foo` (item 7): aliases are stored unresolved, and `lib` is taken to be the library that is
being compiled (symbol_table.rs:1303-1308,1476). -/
theorem C41_counterexample_lib_alias :
    (run twoLibraries).bind (lookupId 20 · true [.named "dep", .named "bar"]) = some (.ok 7) ∧
    ((run twoLibraries).map (setBase · [.named "dep"])).bind
      (lookup 20 · true [.named "bar"] [.named "dep"]) = some (.ok 3) := by
  constructor <;> decide +kernel

/-- **Departure from C41.**  Using an item with `pub(super)` at the root of a program that is
compiled without a library name makes the compiler panic, in `Path::prelude` (name.rs:249). -/
theorem C41_counterexample_super_panics :
    (run [.declare 0 [.named "x"] ⟨false, some .item, some .atSuper⟩]).bind
      (lookupId 20 · true [.named "x"]) = some (.error .panic) := by
  decide +kernel

end Spade.Symtab

import Verif.Units.Lemmas
/-!
# C72: instances name the module of what they instantiate
-/
namespace Spade.Units

open Spade.Mono Spade.Mono.Spec

variable {P : Type} [DecidableEq P]

theorem withID_has {p : List Seg} {m : Nat} {t : Str} (h : (UnitName.withID m p).text = t) : '[' ∈ t :=
  h ▸ withID_bracket p m

/-- What the name of a unit says about the unit. -/
theorem unitName_cases {ds : List Decl} (hc : NoClash ds) {d : Decl} (hd : d ∈ ds) {u : UnitName}
    (h : unitName d = some u) :
    (u = .withID d.id d.path) ∨ (u = .fullPath d.id d.path ∧ d.params = 0 ∧ d.branch = false) ∨
      (u = .unmangled d.name d.id d.path ∧ d.params = 0 ∧ d.branch = false ∧ d.noMangle = true) := by
  simp only [unitName] at h
  cases hb : d.branch with
  | true => rw [hb] at h; cases h; exact .inl rfl
  | false =>
    rw [hb] at h
    simp only [Bool.false_eq_true, if_false] at h
    cases hm : d.noMangle with
    | true =>
      rw [hm] at h
      simp only [if_true] at h
      cases ho : d.own with
      | some n => rw [ho] at h; cases h
      | none =>
        cases hs : d.scope with
        | some n => rw [ho, hs] at h; cases h
        | none =>
          rw [ho, hs] at h
          cases h
          exact .inr (.inr ⟨rfl, by simp [Decl.params, ho, hs, (hc d hd hm hb).1], rfl, rfl⟩)
    | false =>
      rw [hm] at h
      simp only [Bool.false_eq_true, if_false] at h
      split at h
      · rename_i hp; cases h; exact .inr (.inl ⟨rfl, hp, rfl⟩)
      · cases h; exact .inl rfl

/-- A unit without parameters is only compiled without parameters. -/
theorem key_of_plain {pg : Prog P} {ds : List Decl} (hp : Program pg ds) {k : Key P} (hk : Requested pg k)
    {d : Decl} (hd : d ∈ ds) (h0 : d.params = 0) (hs : k.source = d.id) : k = ⟨d.id, []⟩ := by
  cases hk with
  | root h => simp only at hs; rw [hs]
  | use _ hu =>
    obtain ⟨e, he, h1, h2⟩ := hp.uses _ _ hu
    have : e = d := by
      have h3 := find_self hp.ids he
      rw [h1, hs, find_self hp.ids hd] at h3
      exact (Option.some.inj h3).symm
    rw [this] at h2
    exact absurd h0 h2

theorem not_root {pg : Prog P} {ds : List Decl} (hp : Program pg ds) :
    ∀ k, ∀ k' ∈ pg.uses k, k'.source ∉ pg.roots := by
  intro k k' hk hr
  obtain ⟨e, he, h1, h2⟩ := hp.uses _ _ hk
  obtain ⟨d, hd, h3, h4⟩ := (hp.roots _).1 hr
  have : e = d := by
    have h5 := find_self hp.ids he
    rw [h1, ← h3, find_self hp.ids hd] at h5
    exact (Option.some.inj h5).symm
  rw [this] at h2
  exact h2 h4

/-- Two items with modules of the same name have the same key or the same number. -/
theorem same_module {pg : Prog P} {ds : List Decl} (hp : Program pg ds) (hn : Named ds) (hc : NoClash ds)
    {i j : Item P} (hi : Requested pg i.key) (hj : Requested pg j.key) {m : Str}
    (h1 : moduleName ds i = some m) (h2 : moduleName ds j = some m) : i.key = j.key ∨ i.name = j.name := by
  have open_ : ∀ {i : Item P}, moduleName ds i = some m → ∃ d u, d ∈ ds ∧ d.id = i.key.source ∧
      unitName d = some u ∧ (renamed i.name u).text = m := by
    intro i h
    simp only [moduleName, Option.bind_eq_bind, Option.bind_eq_some_iff, Option.some.injEq] at h
    obtain ⟨d, hd, u, hu, rfl⟩ := h
    exact ⟨d, u, (find_mem hd).1, (find_mem hd).2, hu, rfl⟩
  obtain ⟨d, u, hd, hdi, hu, hm⟩ := open_ h1
  obtain ⟨e, v, he, hej, hv, hm'⟩ := open_ h2
  rw [← hm'] at hm
  have hpd := hn.path d hd
  have hpe := hn.path e he
  have plain : d = e → d.params = 0 → i.key = j.key := fun hde h0 => by
    subst hde
    rw [key_of_plain hp hi hd h0 hdi.symm, key_of_plain hp hj hd h0 hej.symm]
  have mangle : ∀ {d e : Decl}, d ∈ ds → e ∈ ds → d.branch = false → d.noMangle = true →
      e.branch = false → join e.path = d.name → e = d := by
    intro d e hd he hb hmn hb' ht
    refine Classical.byContradiction fun hne => ?_
    refine ((hc d hd hmn hb).2 e he hb' hne).2 ?_
    have hcl := hn.name d hd
    have hpe := hn.path e he
    refine join_inj hpe.2 (fun s hs => ?_) hpe.1 (by simp) ?_
    · simp only [List.mem_singleton, Seg.named.injEq] at hs
      rw [hs]; exact hcl
    · rw [ht]; simp [join, joinRest, Seg.text]
  rcases unitName_cases hc hd hu with rfl | ⟨rfl, h3, h4⟩ | ⟨rfl, h3, h4, h5⟩ <;>
    rcases unitName_cases hc he hv with rfl | ⟨rfl, h6, h7⟩ | ⟨rfl, h6, h7, h8⟩ <;>
    simp only [renamed] at hm
  · exact .inr (withID_inj hpd.2 hpe.2 hm)
  · exact absurd (withID_has hm) (join_bracket hpe.2)
  · exact absurd (withID_has hm) (hn.name e he).2.2.1
  · exact absurd (withID_has hm.symm) (join_bracket hpd.2)
  · exact .inl (plain (hn.distinct d hd e he h4 h7 (join_inj hpd.2 hpe.2 hpd.1 hpe.1 hm)) h3)
  · exact .inl (plain (mangle he hd h7 h8 h4 hm) h3)
  · exact absurd (withID_has hm.symm) (hn.name d hd).2.2.1
  · exact .inl (plain (mangle hd he h4 h5 h7 hm.symm).symm h3)
  · refine .inl (plain (Classical.byContradiction fun hne => ?_) h3)
    exact ((hc e he h8 h7).2 d hd h4 hne).1 h5 hm

/-- C72, partial: in the Verilog that any run of the compiler gives, no module is defined twice, and
every instance names the module that was made of the unit and the parameters that it instantiates.
Missing: `#[no_mangle]` on a unit with `impl Trait` in its inputs
(`C72_counterexample_hidden_parameter`), and two units whose names become the same by `#[no_mangle]`
(`C72_counterexample_same_name`). -/
theorem C72_linked_partial {pg : Prog P} {ds : List Decl} (hp : Program pg ds) (hn : Named ds)
    (hc : NoClash ds) {s : State P} (hr : Reachable pg s) (hf : Final s) :
    Linked (modules ds s) (Instance ds s) := by
  have hid : ∀ r ∈ pg.roots, r < pg.firstId := fun r hr => by
    obtain ⟨d, hd, rfl, _⟩ := (hp.roots r).1 hr
    exact hp.old d hd
  have hinv := inv_reachable hid hr
  have hperm := results_entries hid hr hf
  have hreq : ∀ i ∈ s.results, Requested pg i.key := fun i hi =>
    ((C32_compiled_exactly_once pg hid s hr hf).1 i.key).1 ⟨i, hi, rfl⟩
  have hkeys : s.results.Pairwise fun i j => i.key ≠ j.key :=
    List.pairwise_map.1 (C32_compiled_exactly_once pg hid s hr hf).2
  have hnames : s.results.Pairwise fun i j => i.name ≠ j.name := by
    have := (hperm.map Prod.snd).nodup_iff.2 hinv.names
    rw [List.map_map] at this
    exact List.pairwise_map.1 this
  have hmem : ∀ {i : Item P}, i ∈ s.results → ∀ {m}, moduleName ds i = some m →
      (i.key, m) ∈ modules ds s := fun {i} hi {m} hm =>
    List.mem_filterMap.2 ⟨i, hi, by rw [hm]; rfl⟩
  constructor
  · rw [modules, List.map_filterMap]
    refine List.Pairwise.filterMap (R := fun i j : Item P => (i ∈ s.results ∧ j ∈ s.results) ∧
      i.key ≠ j.key ∧ i.name ≠ j.name) _ ?_ ?_
    · rintro i j ⟨⟨hi, hj⟩, h1, h2⟩ m hm m' hm' rfl
      simp only [Option.mem_def, Option.map_map, Option.map_eq_some_iff, Function.comp_apply] at hm hm'
      obtain ⟨a, ha, rfl⟩ := hm
      obtain ⟨b, hb, hab⟩ := hm'
      rw [hab] at hb
      rcases same_module hp hn hc (hreq i hi) (hreq j hj) ha hb with h | h
      · exact h1 h
      · exact h2 h
    · exact (hkeys.and hnames).imp_of_mem fun hi hj h => ⟨⟨hi, hj⟩, h⟩
  · intro k m hinst
    cases hinst with
    | @generic d u k n hd h0 hu hk hl =>
      have hit := C32_requests_are_served pg hid s hr hf hl
      refine hmem hit ?_
      simp only [moduleName]
      rw [hk, find_self hp.ids hd]
      rcases unitName_cases hc hd hu with rfl | ⟨rfl, h3, _⟩ | ⟨rfl, h3, _⟩
      · simp [hu, renamed, instanceName, h0]
      · exact absurd h3 h0
      · exact absurd h3 h0
    | @plain d u n hd h0 hu =>
      have hroot : d.id ∈ pg.roots := (hp.roots _).2 ⟨d, hd, rfl, h0⟩
      obtain ⟨i, hi, hik⟩ := ((C32_compiled_exactly_once pg hid s hr hf).1 ⟨d.id, []⟩).2 (.root hroot)
      have hname := root_names hid (not_root hp) hr (i.key, i.name)
        (hperm.mem_iff.1 (List.mem_map.2 ⟨i, hi, rfl⟩)) (by rw [hik]; exact hroot)
      rw [← hik]
      refine hmem hi ?_
      simp only at hname
      simp only [moduleName]
      rw [hname, hik]
      simp only
      rw [find_self hp.ids hd]
      rcases unitName_cases hc hd hu with rfl | ⟨rfl, _, _⟩ | ⟨rfl, _, _⟩ <;>
        simp [hu, renamed, instanceName, h0, UnitName.text]

end Spade.Units

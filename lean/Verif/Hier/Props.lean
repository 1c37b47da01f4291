import Verif.Hier.Lemmas

/-!
# Signals of a waveform (C74): theorems
-/

namespace Spade.Hier

open Spade.Mir
open Spec (Dir Signal Carries HasInstance Leads)

variable {Op Ty C Ini : Type}

/-- The signal is one of those that the map is made for: not the wire for the backward part of an
input, nor `input__`, nor the wire of an input called `new`. -/
def Listed (e : Entity Op Ty C Ini) : Signal → Prop
  | .backWire _ => False
  | .input => False
  | .inWire k => ∀ i, e.inputs[k]? = some i → i.name ≠ "new"
  | _ => True

/-- `v` is not the name of an input whose type has parts in both directions. -/
def OneWay (X : NameCtx Op Ty) (e : Entity Op Ty C Ini) (v : List Char) : Prop :=
  ∀ i ∈ e.inputs, X.fwd i.ty ≠ 0 → X.bwd i.ty ≠ 0 → v ≠ i.name.toList

variable {X : NameCtx Op Ty} {e : Entity Op Ty C Ini}

/-- A listed signal has an entry. -/
theorem Fine.listed (h : Fine X e) {g : Signal} {v : List Char} {d : Dir} {n : Name}
    (hc : Carries X e (makeNamesPredictable e) g v d n) (hl : Listed e g) :
    (v, (d, n)) ∈ nameEntries X e := by
  have hin : ∀ {i : Input Ty} {x : List Char × Source}, i ∈ e.inputs → x ∈ inputEntries X i →
      x ∈ nameEntries X e := fun hi hx =>
    List.mem_append_left _ (List.mem_append_left _ (List.mem_flatMap.2 ⟨_, hi, hx⟩))
  have hst : ∀ {s : Stmt Op Ty C Ini} {x : List Char × Source}, s ∈ e.stmts →
      x ∈ stmtEntries X (collectNames e).get s → x ∈ nameEntries X e := fun hs hx =>
    List.mem_append_right _ (List.mem_flatMap.2 ⟨_, hs, hx⟩)
  cases hc with
  | @inPort k i hi hf => exact hin (mem_inputs hi) (by simp [inputEntries, hf])
  | @inWire k i i' hi hi' hf hm =>
    refine hin (mem_inputs hi) ?_
    rw [rename_input hi hi', h.val (mem_inputs hi), fwdName, if_pos ⟨rfl, hl i hi⟩]
    simp [inputEntries, hf]
  | @outPort k i hi hf => exact hin (mem_inputs hi) (by simp [inputEntries, hf])
  | backWire _ _ _ => exact hl.elim
  | @result k s s' n n' t hs hs' hd hd' ht hf =>
    have hn : n' = (collectNames e).get n := by
      rw [rename_stmt hs hs', Stmt.defines_rename, hd] at hd'
      exact (Option.some.inj hd').symm
    subst hn
    refine hst (List.mem_of_getElem? hs) ?_
    cases s with
    | binding b => cases hd; cases ht; simp [stmtEntries, addToNameMap, hf]
    | register r => cases hd; cases ht; simp [stmtEntries, hf]
    | constant m t' c => cases hd; cases ht; simp [stmtEntries, addToNameMap, hf]
    | assert m => cases hd
    | set m m' => cases hd
    | error => cases hd
  | @resultBack k b b' hs hs' hf =>
    have := rename_stmt hs hs'
    simp only [Stmt.rename, Stmt.binding.injEq] at this
    subst this
    exact hst (List.mem_of_getElem? hs) (by simp [stmtEntries, addToNameMap, hf])
  | output hf =>
    refine List.mem_append_left _ (List.mem_append_right _ ?_)
    rw [if_pos hf]; exact List.mem_singleton.2 rfl
  | input _ => exact hl.elim

/-- A signal of a module is never taken for another value than the one it carries: it is either
unknown or found with its value and its direction. Missing: the name of an input whose type has parts
in both directions (`C74_counterexample_two_ways`). -/
theorem C74_never_wrong_partial (h : Fine X e) {g : Signal} {v : List Char} {d : Dir} {n : Name}
    (hc : Carries X e (makeNamesPredictable e) g v d n) (hv : OneWay X e v) :
    lookupName X e v = none ∨ lookupName X e v = some (d, n) := by
  obtain ⟨r, hr, rfl⟩ := h.carried hc
  exact get_none_or fun w hw => h.agree hr hv hw

/-- The signals of a module are found with the value they carry and its direction. Missing: the
wires for the backward part of inputs, `input__` and the wire of an input called `new`, which are
unknown, and the name of an input whose type has parts in both directions. -/
theorem C74_signal_partial (h : Fine X e) {g : Signal} {v : List Char} {d : Dir} {n : Name}
    (hc : Carries X e (makeNamesPredictable e) g v d n) (hl : Listed e g) (hv : OneWay X e v) :
    lookupName X e v = some (d, n) := by
  have hm := h.listed hc hl
  obtain ⟨r, hr, rfl⟩ := h.carried hc
  exact get_unique hm fun w hw => h.agree hr hv hw

/-- The instances of a path are followed as they are in the generated Verilog: the walk ends at a unit
exactly if the path leads to it. -/
theorem C74_path {target : Op → Nat} {prog : List (Nat × Entity Op Ty C Ini)}
    (hp : (prog.map (·.1)).Nodup) {top t : Nat} {path : List (List Char)} :
    walk (instanceMap X target prog) top path = some t ↔ Leads X target prog top path t :=
  walk_iff hp

theorem getUnit {prog : List (Nat × Entity Op Ty C Ini)} (hp : (prog.map (·.1)).Nodup) {u : Nat} :
    get prog u = some e ↔ (u, e) ∈ prog :=
  ⟨mem_of_get, fun h => get_unique h fun _ hw => fst_unique hp hw h⟩

theorem sourceOf_iff {target : Op → Nat} {prog : List (Nat × Entity Op Ty C Ini)}
    (hp : (prog.map (·.1)).Nodup) {top u : Nat} {path : List (List Char)} {v : List Char} {s : Source} :
    sourceOf X target prog top (path ++ [v]) = some (u, s) ↔
      ∃ e, Leads X target prog top path u ∧ (u, e) ∈ prog ∧ lookupName X e v = some s := by
  simp only [sourceOf, List.getLast?_append, List.getLast?_singleton, Option.some_or, Option.bind_some,
    List.dropLast_concat, Option.bind_eq_some_iff, Option.map_eq_some_iff, walk_iff hp, getUnit hp]
  constructor
  · rintro ⟨w, hw, e, he, s', hs, heq⟩
    cases heq
    exact ⟨e, hw, he, hs⟩
  · rintro ⟨e, hw, he, hs⟩
    exact ⟨u, hw, e, he, s, hs, rfl⟩

/-- A path of instances and a signal of the module at its end is the value which the signal carries,
of the unit of that module. Missing: the signals that `C74_signal_partial` misses. -/
theorem C74_source_partial {target : Op → Nat} {prog : List (Nat × Entity Op Ty C Ini)}
    (hp : (prog.map (·.1)).Nodup) (hf : ∀ u e, (u, e) ∈ prog → Fine X e)
    {top u : Nat} {path : List (List Char)} (hl : Leads X target prog top path u)
    (he : (u, e) ∈ prog) {g : Signal} {v : List Char} {d : Dir} {n : Name}
    (hc : Carries X e (makeNamesPredictable e) g v d n) (hg : Listed e g) (hv : OneWay X e v) :
    sourceOf X target prog top (path ++ [v]) = some (u, (d, n)) :=
  (sourceOf_iff hp).2 ⟨e, hl, he, C74_signal_partial (hf u e he) hc hg hv⟩

/-- The type of a signal is the type of the value it carries, for signals that carry the forward part;
others are refused. -/
theorem C74_type_partial {T : Type} {target : Op → Nat} {prog : List (Nat × Entity Op Ty C Ini)}
    (types : Nat → Name → Option T) (hp : (prog.map (·.1)).Nodup)
    (hf : ∀ u e, (u, e) ∈ prog → Fine X e)
    {top u : Nat} {path : List (List Char)} (hl : Leads X target prog top path u)
    (he : (u, e) ∈ prog) {g : Signal} {v : List Char} {d : Dir} {n : Name}
    (hc : Carries X e (makeNamesPredictable e) g v d n) (hg : Listed e g) (hv : OneWay X e v) :
    typeOf X target prog types top (path ++ [v]) = if d = .forward then types u n else none := by
  rw [typeOf, C74_source_partial hp hf hl he hc hg hv]
  cases d <;> rfl

/-- Whatever is found is in the unit that the instances lead to; in particular nothing is found if
there are no such instances. -/
theorem C74_unit {target : Op → Nat} {prog : List (Nat × Entity Op Ty C Ini)}
    (hp : (prog.map (·.1)).Nodup) {top u : Nat} {path : List (List Char)} {v : List Char} {s : Source}
    (h : sourceOf X target prog top (path ++ [v]) = some (u, s)) :
    Leads X target prog top path u := by
  obtain ⟨_, hl, _⟩ := (sourceOf_iff hp).1 h
  exact hl

end Spade.Hier

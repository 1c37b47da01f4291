import Verif.Stream.Props
import Verif.Entity.Examples
import Verif.Std.OpsExamples
/-! # A program with windows, chunks and edge detectors -/
namespace Spade.Stream
open Spade.Verilog Spade.Codegen Spade.Lower Spade.Expr Spade.Std Spade.Entity
open Spade.Match (Val HasTy)

abbrev u8 : MTy := .uint 8

/-- The functions that the entities use. -/
def keys : List Key := [
  .shiftFront u8 2,
  .pushFront u8 2,
  .concat u8 1 2,
  .op (.isSome u8),
  .op (.eq (.uint 3)),
  .concat u8 1 1,
  .op (.logic .and),
  .op .not]

def which : Key → Nat
  | .pushFront _ _ => 1
  | .concat _ _ 2 => 2
  | _ => 0

noncomputable abbrev num : Key → Nat := numOf 0 keys
noncomputable abbrev prog : Prog := progOf [] keys

theorem num_push : num (.pushFront u8 2) = 1 := by
  refine (numOf_eq (i := 1) rfl fun j hj => ?_)
  have hl : j < 8 := (List.getElem?_eq_some_iff.1 hj).1
  have h : (keys.map which)[j]? = some 1 := by rw [List.getElem?_map, hj]; rfl
  have all : ∀ j, j < 8 → (keys.map which)[j]? = some 1 → j = 1 := by decide
  exact all j hl h

theorem num_cat : num (.concat u8 1 2) = 2 := by
  refine (numOf_eq (i := 2) rfl fun j hj => ?_)
  have hl : j < 8 := (List.getElem?_eq_some_iff.1 hj).1
  have h : (keys.map which)[j]? = some 2 := by rw [List.getElem?_map, hj]; rfl
  have all : ∀ j, j < 8 → (keys.map which)[j]? = some 2 → j = 2 := by decide
  exact all j hl h

local macro "listed" : tactic =>
  `(tactic| (unfold keys; repeat (first | exact List.mem_cons_self | apply List.mem_cons_of_mem)))

theorem lib : Lib prog num := by
  refine lib_of (os := []) (by simp) ?_
  intro k hk c hc
  simp only [keys, List.mem_cons, List.not_mem_nil, or_false] at hk
  rcases hk with rfl | rfl | rfl | rfl | rfl | rfl | rfl | rfl
  all_goals
    simp only [std, ops, lowBits, Expr.calls, Stms.calls, Exprs.calls, Arms.calls, cat, List.mem_append, List.mem_cons,
      List.not_mem_nil, or_false, List.append_nil, List.nil_append, lit] at hc
  · subst hc; exact .inr ⟨_, by listed, rfl⟩
  · subst hc; exact .inr ⟨_, by listed, rfl⟩

theorem has {k : Key} (h : k ∈ keys) : (prog (num k)).isSome := by
  rw [show prog (num k) = _ from progOf_num (os := []) h]; rfl

/-- The functions of the program. -/
theorem prog_cases {u : Nat} {f : Fn} (h : prog u = some f) : ∃ k, keys[u]? = some k ∧ f = std num k := by
  unfold prog progOf at h
  simp only [List.length_nil, Nat.not_lt_zero, if_false, Nat.sub_zero, Option.map_eq_some_iff] at h
  obtain ⟨k, hk, rfl⟩ := h
  exact ⟨k, hk, rfl⟩

theorem prog_ok : prog.Ok := by
  refine C58_accepted lib fun u f hu => ?_
  obtain ⟨k, hk, rfl⟩ := prog_cases hu
  refine .inl ⟨k, rfl, ?_⟩
  have hk := List.mem_of_getElem? hk
  simp only [keys, List.mem_cons, List.not_mem_nil, or_false] at hk
  rcases hk with rfl | rfl | rfl | rfl | rfl | rfl | rfl | rfl
  all_goals simp [Good, OpGood, MTy.size, sizes, option, u8]
  · decide
  · exact exact_types.2.1 3

/-- `[0, 0]`. -/
def zeros : Expr := .rep 41 (.array u8 2) (.int 42 u8 0) 2

def zeroIds : List (Nat × MTy) := [(41, .array u8 2), (42, u8)]

/-- The entities. -/
noncomputable def ents : Ents
  | 0 => some (window num u8 2)
  | 1 => some (chunks num u8 2 zeros zeroIds)
  | 2 => some (risingEdge num)
  | 3 => some (fallingEdge num)
  | _ => none

theorem ents_ok : ents.Ok prog := by
  refine C67_accepted lib fun u E hu => ?_
  match u with
  | 0 =>
    cases hu
    exact .inl ⟨u8, 2, rfl, has (by listed), has (by listed), by decide +kernel, by decide +kernel⟩
  | 1 =>
    cases hu
    exact .inr (.inl ⟨u8, 2, zeros, zeroIds, rfl, has (by listed), has (by listed), has (by listed), has (by listed),
      by decide, by decide +kernel, by decide +kernel, by decide +kernel, ⟨⟨8, .inr rfl⟩, by decide⟩, by decide, rfl, rfl,
      inRange_zero⟩)
  | 2 =>
    cases hu
    exact .inr (.inr (.inl ⟨.inl rfl, has (by listed), has (by listed)⟩))
  | 3 =>
    cases hu
    exact .inr (.inr (.inl ⟨.inr rfl, has (by listed), has (by listed)⟩))

/-- The stream of the documentation (option.spade:191-194): nothing, 1, 2, nothing, 3, 4.  Each takes two
instants, in the second of which the clock is high.  There is a reset first. -/
def sample : Stream where
  clk t := t % 2 == 1
  rst t := t < 2
  item t := ([none, none, some 1, some 2, none, some 3, some 4] : List (Option Int))[t / 2]?.join.map .int

/-- The inputs. -/
def inputs : Inputs := fun t k => match k with
  | 0 => some (item (sample.item t))
  | 1 => some (.bool (sample.clk t))
  | 2 => some (.bool (sample.rst t))
  | 3 => some (.int 0)
  | _ => none

theorem feeds : Feeds inputs sample u8 := by
  refine ⟨fun _ => rfl, fun _ => rfl, fun _ => rfl, ?_⟩
  intro t v hv
  simp only [sample, Option.map_eq_some_iff, Option.join_eq_some_iff] at hv
  obtain ⟨x, hx, rfl⟩ := hv
  have := List.mem_of_getElem? hx
  simp only [List.mem_cons, List.not_mem_nil, or_false, reduceCtorEq, false_or, Option.some.injEq] at this
  refine is_u8 ?_
  omega

/-- The windows of the documentation. -/
theorem example_window :
    Gives prog ents 0 inputs 2 (window num u8 2).result (.variant 0 []) ∧
    Gives prog ents 0 inputs 4 (window num u8 2).result (.variant 1 [.tup [.int 1, .int 0]]) ∧
    Gives prog ents 0 inputs 6 (window num u8 2).result (.variant 1 [.tup [.int 2, .int 1]]) ∧
    Gives prog ents 0 inputs 8 (window num u8 2).result (.variant 0 []) ∧
    Gives prog ents 0 inputs 10 (window num u8 2).result (.variant 1 [.tup [.int 3, .int 2]]) := by
  have h := fun t h => C67_window lib 0 u8 2 sample inputs (fun _ => .int 0) t 0 (has (by listed))
    (has (by listed)) (by decide) (D := ents) rfl feeds (fun _ => rfl) (fun _ => is_u8 (by decide)) h
  exact ⟨h 2 rfl, h 4 rfl, h 6 rfl, h 8 rfl, h 10 rfl⟩

/-- The chunks of the documentation. -/
theorem example_chunks :
    Gives prog ents 1 inputs 2 (chunks num u8 2 zeros zeroIds).result (.variant 0 []) ∧
    Gives prog ents 1 inputs 4 (chunks num u8 2 zeros zeroIds).result (.variant 0 []) ∧
    Gives prog ents 1 inputs 6 (chunks num u8 2 zeros zeroIds).result (.variant 1 [.tup [.int 1, .int 2]]) ∧
    Gives prog ents 1 inputs 8 (chunks num u8 2 zeros zeroIds).result (.variant 0 []) ∧
    Gives prog ents 1 inputs 10 (chunks num u8 2 zeros zeroIds).result (.variant 0 []) ∧
    Gives prog ents 1 inputs 12 (chunks num u8 2 zeros zeroIds).result (.variant 1 [.tup [.int 3, .int 4]]) := by
  have h := fun t h => C67_chunks_partial lib 1 u8 2 sample inputs zeros zeroIds [.int 0, .int 0] t 0 (has (by listed))
    (has (by listed)) (has (by listed)) (has (by listed)) (by decide) (D := ents) rfl feeds
    (.rep (n := 2) .int) (is_array.2 ⟨rfl, by simp [AllIs]; exact is_u8 (by decide)⟩) h
  exact ⟨h 2 rfl, h 4 rfl, h 6 rfl, h 8 rfl, h 10 rfl, h 12 rfl⟩

example : sample.chunksSeen 2 13 = [[.int 1, .int 2], [.int 3, .int 4]] := rfl

/-- A signal that changes in the first half of every second cycle. -/
def pulses : Inputs := fun t k => match k with
  | 0 => some (.bool (t % 2 == 1))
  | 1 => some (.bool (t / 2 % 4 < 2))
  | _ => none

theorem example_edges :
    Gives prog ents 2 pulses 2 (risingEdge num).result (.bool false) ∧
    Gives prog ents 3 pulses 4 (fallingEdge num).result (.bool true) ∧
    Gives prog ents 3 pulses 5 (fallingEdge num).result (.bool false) ∧
    Gives prog ents 2 pulses 8 (risingEdge num).result (.bool true) := by
  have r := fun t b h => rising_gives (t := t) (b := b) (clk := fun t => t % 2 == 1)
    (value := fun t => t / 2 % 4 < 2) lib (has (by listed)) (has (by listed)) (D := ents) (u := 2) rfl
    (ins := pulses) (fun _ => rfl) (fun _ => rfl) h
  have f := fun t b h => falling_gives (t := t) (b := b) (clk := fun t => t % 2 == 1)
    (value := fun t => t / 2 % 4 < 2) lib (has (by listed)) (has (by listed)) (D := ents) (u := 3) rfl
    (ins := pulses) (fun _ => rfl) (fun _ => rfl) h
  exact ⟨r 2 true rfl, f 4 true rfl, f 5 false rfl, r 8 false rfl⟩

/-! ## The hardware exists -/

theorem prog_acyclic : prog.Acyclic := by
  refine ⟨fun u => 8 - u, fun u f hu v hv => ?_⟩
  obtain ⟨k, hk, rfl⟩ := prog_cases hu
  match u, hk with
  | 0, hk =>
    cases hk
    simp only [std, Expr.calls, Exprs.calls, List.append_nil, List.mem_cons, List.not_mem_nil, or_false] at hv
    rw [hv, num_push]
    decide
  | 1, hk =>
    cases hk
    simp only [std, cat, Expr.calls, Exprs.calls, List.append_nil, List.mem_cons, List.not_mem_nil, or_false] at hv
    rw [hv, num_cat]
    decide
  | 2, hk | 3, hk | 4, hk | 5, hk | 6, hk | 7, hk =>
    cases hk
    simp [std, ops, Expr.calls, Exprs.calls, Arms.calls, lit] at hv

theorem prog_resolved : ∀ u f, prog u = some f → f.Resolved 50 := by
  intro u f hu
  obtain ⟨k, hk, rfl⟩ := prog_cases hu
  match u, hk with
  | 0, hk | 1, hk | 2, hk | 3, hk | 4, hk | 5, hk | 6, hk | 7, hk =>
    cases hk
    refine ⟨?_, ?_, ?_, ?_⟩
    all_goals simp [std, ops, cat, lit, Expr.names, Exprs.names, Arms.names, patNames, subnames, namesAll, LPat.name, Expr.Scoped,
      Exprs.Scoped, Arms.Scoped, Expr.Armed, Exprs.Armed, Arms.Armed, scope, patVars, patsVars]

theorem prog_typed : ∀ u f, prog u = some f →
    ∃ h, lowerFn f 50 = some h ∧ ∀ i ∈ h.items, i.Typed h.types := by
  intro u f hu
  obtain ⟨k, hk, rfl⟩ := prog_cases hu
  match u, hk with
  | 0, hk | 1, hk | 2, hk | 3, hk | 4, hk | 5, hk | 6, hk | 7, hk =>
    cases hk
    refine ⟨_, rfl, ?_⟩
    simp [std, ops, cat, lit, Item.Typed, target, LPat.name, LPat.ty, tys, List.lookup,
      condition, conditions, allConditions, andAll, Expr.variable]

theorem ents_resolved : ∀ u E, ents u = some E → E.Resolved 50 := by
  intro u E hu
  match u, hu with
  | 0, hu | 1, hu | 2, hu | 3, hu =>
    cases hu
    refine ⟨?_, ?_, ?_, ?_⟩
    all_goals simp [window, windowReg, windowNext, chunks, countReg, countNext, chunkReg, chunkNext, isLast, zeros, zeroIds,
      risingEdge, fallingEdge, oldReg, cat, Ent.names, EStm.names, Stms.names, Expr.names, Exprs.names, Arms.names,
      patNames, subnames, namesAll, LPat.name, EStm.Scoped, Stms.Scoped, Expr.Scoped, Exprs.Scoped, Arms.Scoped,
      Ent.InScope, EStm.vars, EStm.Armed, Stms.Armed, Expr.Armed, Exprs.Armed, Arms.Armed, scope, patVars, patsVars]

theorem ents_ordered : ∀ u E, u ≠ 0 → ents u = some E → E.Ordered := by
  intro u E h0 hu
  match u, hu with
  | 0, hu => exact (h0 rfl).elim
  | 1, hu | 2, hu | 3, hu =>
    cases hu
    refine ⟨?_, ?_, ?_⟩
    · intro r hr
      simp only [window, chunks, risingEdge, fallingEdge, List.mem_cons, List.not_mem_nil, or_false, reduceCtorEq,
        false_or, EStm.reg.injEq] at hr
      first
        | (rcases hr with rfl | rfl <;> exact ⟨_, .bool, rfl, by simp [window, chunks, risingEdge, fallingEdge]⟩)
        | (subst hr; exact ⟨_, .bool, rfl, by simp [window, chunks, risingEdge, fallingEdge]⟩)
    · intro m hm
      simp [window, chunks, risingEdge, fallingEdge] at hm
    · simp [window, windowReg, windowNext, chunks, countReg, countNext, chunkReg, chunkNext, isLast, zeros, zeroIds,
        risingEdge, fallingEdge, oldReg, cat, InOrder, EStm.Scoped, Stms.Scoped, Expr.Scoped, Exprs.Scoped,
        Arms.Scoped, EStm.regVars, EStm.vars, scope, patVars, patsVars]

/-- An order of the signals of the window, whose register is written before what it is assigned. -/
def windowRank (n : Nat) : Nat :=
  if n ≤ 3 then 0 else if n = 7 then 3 else if n = 5 then 4 else if n = 14 then 5 else if n = 12 then 6
  else if n = 10 ∨ n = 53 then 2 else 1

theorem accepted : Entity.Accepted prog ents (fun _ => 50) (fun _ => 50) where
  progOk := prog_ok
  progAcyclic := prog_acyclic
  progResolved := prog_resolved
  entsOk := ents_ok
  entsAcyclic := by
    refine ⟨id, ?_⟩
    intro u E hu
    match u, hu with
    | 0, hu | 1, hu | 2, hu | 3, hu =>
      cases hu
      simp [window, chunks, risingEdge, fallingEdge, EStm.insts]
  entsResolved := ents_resolved

theorem generated : Generated prog ents (fun _ => 50) (fun _ => 50) where
  units := prog_typed
  entities := by
    intro u E hu
    have ho := ents_ordered u E
    have hr := ents_resolved u E hu
    match u, hu with
    | 0, hu =>
      cases hu
      refine ⟨_, rfl, ?_, windowRank, ?_⟩
      · simp [window, windowReg, windowNext, chunks, countReg, countNext, chunkReg, chunkNext, isLast, zeros, zeroIds,
        risingEdge, fallingEdge, oldReg, cat, EItem.Typed, Item.Typed, target, LPat.name, LPat.ty, tys, List.lookup,
        condition, conditions, allConditions, andAll, Expr.variable]
      · simp [window, windowReg, windowNext, EItem.now, EItem.defs, Item.reads, Item.defs, windowRank, fwd, target,
          LPat.name, LPat.ty, condition, conditions, allConditions, andAll, Expr.variable]
    | 1, hu | 2, hu | 3, hu =>
      cases hu
      refine ⟨_, rfl, ?_, C48_no_loops _ 50 _ hr (ho (by decide) rfl) rfl⟩
      simp [window, windowReg, windowNext, chunks, countReg, countNext, chunkReg, chunkNext, isLast, zeros, zeroIds,
        risingEdge, fallingEdge, oldReg, cat, EItem.Typed, Item.Typed, target, LPat.name, LPat.ty, tys, List.lookup,
        condition, conditions, allConditions, andAll, Expr.variable]

/-- The bits of an optional number. -/
def itemBits : Option Val → Bits
  | some (.int x) => ofNat 1 1 ++ [ofInt 8 x].flatten ++ []
  | _ => ofNat 1 0 ++ [].flatten ++ List.replicate 8 false

theorem item_enc {t : Nat} : Enc (option u8) (item (sample.item t)) (itemBits (sample.item t)) := by
  have e : tagSize ([[], [u8]] : List (List MTy)).length = 1 := by decide +kernel
  cases h : sample.item t with
  | none =>
    have k := Enc.enum (opts := [[], [u8]]) (i := 0) (pad := List.replicate 8 false) rfl .nil rfl
    rw [e] at k
    exact k
  | some v =>
    have hx := h
    simp only [sample, Option.map_eq_some_iff] at hx
    obtain ⟨x, hx, rfl⟩ := hx
    have hb : InRange (.uint 8) x := by
      rw [Option.join_eq_some_iff] at hx
      have := List.mem_of_getElem? hx
      simp only [List.mem_cons, List.not_mem_nil, or_false, reduceCtorEq, false_or, Option.some.injEq] at this
      simp only [InRange]
      omega
    have k := Enc.enum (opts := [[], [u8]]) (i := 1) (pad := []) rfl (.cons (.uint hb) .nil) rfl
    rw [e] at k
    exact k

/-- The bits of the inputs of the window. -/
def windowBits : Nat → List Bits := fun t =>
  [itemBits (sample.item t), [sample.clk t], [sample.rst t], ofInt 8 0]

/-- All hypotheses of `C67_window_hardware_partial` hold: the hardware of the window has a history for
these inputs, and in every one of them the window at instant 10 is `Some([3, 2])`. -/
theorem example_window_hardware :
    (∃ out, EProduces (lowerProg prog fun _ => 50) (lowerEnts ents fun _ => 50) 0 windowBits out) ∧
    ∀ out, EProduces (lowerProg prog fun _ => 50) (lowerEnts ents fun _ => 50) 0 windowBits out →
      Enc (option (.array u8 2)) (.variant 1 [.tup [.int 3, .int 2]]) (out 10) := by
  have hin : InputsEncode (window num u8 2).params inputs windowBits := by
    intro t k v p b hv hp hb
    match k, hv, hp, hb with
    | 0, hv, hp, hb => cases hv; cases hp; cases hb; exact item_enc
    | 1, hv, hp, hb => cases hv; cases hp; cases hb; exact .bool
    | 2, hv, hp, hb => cases hv; cases hp; cases hb; exact .bool
    | 3, hv, hp, hb => cases hv; cases hp; cases hb; exact .uint (by simp [InRange])
  have hfit : InputsFit (window num u8 2).params windowBits := by
    intro t
    have hl : (itemBits (sample.item t)).length = 9 := by
      unfold itemBits
      split <;> simp [Verilog.ofNat, ofInt]
    simp [windowBits, window, MTy.size, hl, ofInt, u8, option, sizes, maxSize, tagSize]
    decide +kernel
  obtain ⟨h1, _⟩ := C48_entity_runs prog ents (fun _ => 50) (fun _ => 50) accepted generated 0 _ rfl inputs
    windowBits hfit hin
  exact ⟨h1, fun out ho => C67_window_hardware_partial lib prog_ok ents_ok (fun _ => 50) (fun _ => 50) 0 u8 2 sample
    inputs (fun _ => .int 0) 10 0 windowBits out (has (by listed)) (has (by listed)) (by decide) rfl feeds
    (fun _ => rfl) (fun _ => is_u8 (by decide)) rfl hin ho⟩

/-- The same for the chunks. -/
theorem example_chunks_hardware :
    (∃ out, EProduces (lowerProg prog fun _ => 50) (lowerEnts ents fun _ => 50) 1 (fun t => (windowBits t).take 3) out) ∧
    ∀ out, EProduces (lowerProg prog fun _ => 50) (lowerEnts ents fun _ => 50) 1 (fun t => (windowBits t).take 3) out →
      Enc (option (.array u8 2)) (.variant 1 [.tup [.int 3, .int 4]]) (out 12) := by
  have hin : InputsEncode (chunks num u8 2 zeros zeroIds).params inputs (fun t => (windowBits t).take 3) := by
    intro t k v p b hv hp hb
    match k, hv, hp, hb with
    | 0, hv, hp, hb => cases hv; cases hp; cases hb; exact item_enc
    | 1, hv, hp, hb => cases hv; cases hp; cases hb; exact .bool
    | 2, hv, hp, hb => cases hv; cases hp; cases hb; exact .bool
    | 3, hv, hp, hb => cases hp
  have hfit : InputsFit (chunks num u8 2 zeros zeroIds).params (fun t => (windowBits t).take 3) := by
    intro t
    have hl : (itemBits (sample.item t)).length = 9 := by
      unfold itemBits
      split <;> simp [Verilog.ofNat, ofInt]
    simp [windowBits, chunks, MTy.size, hl, ofInt, u8, option, sizes, maxSize, tagSize]
    decide +kernel
  obtain ⟨h1, _⟩ := C48_entity_runs prog ents (fun _ => 50) (fun _ => 50) accepted generated 1 _ rfl inputs
    _ hfit hin
  exact ⟨h1, fun out ho => C67_chunks_hardware_partial lib prog_ok ents_ok (fun _ => 50) (fun _ => 50) 1 u8 2 sample
    inputs zeros zeroIds [.int 0, .int 0] 12 0 _ out (has (by listed)) (has (by listed)) (has (by listed))
    (has (by listed)) (by decide) rfl feeds (.rep (n := 2) .int)
    (is_array.2 ⟨rfl, by simp [AllIs]; exact is_u8 (by decide)⟩) rfl hin ho⟩

end Spade.Stream

import Verif.Elab.ExpSound
import Verif.Check.Props
import Verif.Expr.Exists

/-!
# From type inference to hardware (C62)

What type inference accepts is what the theorems on lowering ask for (C45, C46): together they say that
the hardware generated for a unit whose types were inferred computes the unit's values.
-/

namespace Spade.Elab

open Spade.Infer.Spec (Kind Base GT TExpr)
open Spade.Check
open Spade.Codegen (MTy)
open Spade.Verilog (Bits)

theorem inputs_mirs {X : Ctx} {Γ : Typing} {T : Nat → MTy} : ∀ {is : List (Nat × TSpec)} {ps : List (Nat × MTy)}
    {us : List GT}, Declared X Γ T → elabInputs X Γ is = some ps → us.map some = (is.map fun i => Γ.name i.1) →
    X.mirs us = some (ps.map (·.2)) ∧ ∀ p ∈ ps, T p.1 = p.2
  | [], ps, us, hT, h, hu => by
    simp only [elabInputs, Option.some.injEq] at h
    subst h
    simp only [List.map_nil, List.map_eq_nil_iff] at hu
    subst hu
    simp [Ctx.mirs]
  | i :: is, ps, us, hT, h, hu => by
    simp only [elabInputs, Option.bind_eq_bind, Option.bind_eq_some_iff, Option.pure_def,
      Option.some.injEq] at h
    obtain ⟨m, hm, ps, hps, rfl⟩ := h
    cases us with
    | nil => simp at hu
    | cons u us =>
      simp only [List.map_cons, List.cons.injEq] at hu
      obtain ⟨h1, h2⟩ := inputs_mirs hT hps hu.2
      simp only [Ctx.nameTy, Option.bind_eq_some_iff] at hm
      obtain ⟨t, ht, hm⟩ := hm
      rw [← hu.1] at ht
      cases ht
      refine ⟨by simp [Ctx.mirs, hm, h1], fun p hp => ?_⟩
      rcases List.mem_cons.1 hp with rfl | hp
      · exact declared_at hT hu.1.symm hm
      · exact h2 p hp

theorem sigOk {X : Ctx} {Δ : Decls} (hX : Coherent X Δ) {insts : Nat → Option Inst}
    (hC : Compiled X Δ insts) : SigOk X Δ (elabProg X insts).sig := by
  intro f h θ as u us ms t m hi hh ha hu hus hms ht hm
  obtain ⟨i, h1, rfl, rfl⟩ := hC.requested f as u hu
  have hI := hC.ok u i h1
  obtain ⟨fn, h2, _⟩ := hC.elaborated u i h1
  obtain ⟨ws, sp, h3⟩ := hI.head
  cases some_det hh h3
  have hag := callArgs_agree ha hI.args
  obtain ⟨_, hin, hbody, t', ht', hout⟩ := hI.typed
  obtain ⟨us', h4, h5⟩ := are_of_mem hin
  cases specs_det hag _ hI.inputs hus h4
  cases out_det hag hI.output ht hout
  have h2' := h2
  simp only [Inst.fn, elabUnit, Option.bind_eq_bind, Option.bind_eq_some_iff, Option.pure_def,
    Option.some.injEq] at h2'
  obtain ⟨ps, h6, b, h7, rfl⟩ := h2'
  have h8 := (inputs_mirs hI.declared h6 h5).1
  cases some_det hms h8
  cases some_det hm (elabE_at hX hbody h7 ht')
  simp [Expr.Prog.sig, elabProg, h1, h2]

/-- C62 (what holds of it). When type inference and lowering see the same declarations, every instance of
a unit is well typed at its generic arguments, and every type in it is a hardware type, then the program
that lowering sees is well typed, with the hardware types of the inferred types: what C45 and C46 ask for.
-/
theorem C62_program_well_typed_partial (X : Ctx) (Δ : Decls) (insts : Nat → Option Inst)
    (hX : Coherent X Δ) (hC : Compiled X Δ insts) : (elabProg X insts).Ok := by
  intro u fn hu
  have hS := sigOk hX hC
  simp only [elabProg, Option.bind_eq_some_iff] at hu
  obtain ⟨i, h1, h2⟩ := hu
  have hI := hC.ok u i h1
  obtain ⟨fn', h3, hz⟩ := hC.elaborated u i h1
  cases some_det h2 h3
  obtain ⟨_, hin, hbody, t', ht', hout⟩ := hI.typed
  obtain ⟨us', h4, h5⟩ := are_of_mem hin
  simp only [Inst.fn, elabUnit, Option.bind_eq_bind, Option.bind_eq_some_iff, Option.pure_def,
    Option.some.injEq] at h2
  obtain ⟨ps, h6, b, h7, rfl⟩ := h2
  exact ⟨(inputs_mirs hI.declared h6 h5).2, elabE_ok hX hS hI.declared _ hbody h7 hz⟩

/-- Type inference accepted the instance: of the unit, for its generic arguments, with nothing left
over; `w` are types for the type variables nobody needs. -/
def Accepted (Δ : Decls) (i : Inst) : Prop :=
  i.args.length = i.unit.params.length ∧
  ∃ fuel gl S w n, inferUnit Δ fuel ((i.unit.params.map (·.1)).zip i.args) i.unit = .ok gl S ∧
    Settled Δ S w (n + 1) ∧ i.types = reported S w (n + 1) gl

/-- What an instance has to be besides being accepted by type inference. -/
structure Listed (X : Ctx) (Δ : Decls) (i : Inst) : Prop where
  item : X.items i.name = some .unit
  head : ∃ ws sp, Δ.heads i.name =
    some ⟨i.unit.params, ws, i.unit.inputs.map (·.2), i.unit.output, sp⟩
  inputs : TFixeds i.types.gen (i.unit.params.map (·.1)) (i.unit.inputs.map (·.2))
  output : OutFixed i.types.gen (i.unit.params.map (·.1)) i.unit.output
  declared : Declared X i.types i.signals

theorem callArgs_of_mono {θ : Generics} : ∀ {ps : List (String × Kind)} {as : List GT},
    as.length = ps.length → (∀ p ∈ (ps.map (·.1)).zip as, θ p.1 = some p.2) →
    callArgs ps θ = some as
  | [], [], _, _ => rfl
  | [], _ :: _, h, _ => by simp at h
  | _ :: _, [], h, _ => by simp at h
  | p :: ps, a :: as, h, hp => by
    have h1 := hp (p.1, a) (by simp)
    have h2 := callArgs_of_mono (θ := θ) (ps := ps) (as := as) (by simpa using h)
      fun q hq => hp q (by simp only [List.map_cons, List.zip_cons_cons]; exact List.mem_cons_of_mem _ hq)
    simp only at h1
    simp [callArgs, h1, h2]

/-- C62 with C51. Instances that type inference accepts are well typed at their generic arguments. -/
theorem instOk_of_accepted {X : Ctx} {Δ : Decls} (hn : Δ.NumbersOk) {i : Inst} (ha : Accepted Δ i)
    (hl : Listed X Δ i) : InstOk X Δ i := by
  obtain ⟨hlen, fuel, gl, S, w, n, h1, h2, h3⟩ := ha
  obtain ⟨h4, h5⟩ := C51_well_typed_partial Δ hn fuel _ i.unit gl S h1 w n h2
  exact ⟨hl.item, hl.head, by rw [h3]; exact h4, by rw [h3]; exact callArgs_of_mono hlen h5, hl.inputs,
    hl.output, hl.declared⟩

/-- C62 with C51, C45 and C46. Take instances of units each of which type inference accepts at its generic
arguments, in which every type is a hardware type, no function calls itself, names are resolved, and which
are lowered to units that declare signals with the types of the statements that drive them. When a
function has a value for some arguments, its hardware produces an output for the bits of the arguments,
and any output it produces are the bits of the value. -/
theorem C62_inferred_function_computes_partial (X : Ctx) (Δ : Decls) (insts : Nat → Option Inst)
    (nids : Nat → Nat) (hX : Coherent X Δ) (hn : Δ.NumbersOk)
    (hacc : ∀ u i, insts u = some i → Accepted Δ i ∧ Listed X Δ i)
    (hel : ∀ u i, insts u = some i → ∃ f, i.fn X = some f ∧ Sized f.body ∧
      f.Resolved (nids u) ∧
      ∃ h, Expr.lowerFn f (nids u) = some h ∧ ∀ j ∈ h.items, j.Typed h.types)
    (hreq : ∀ f as u, X.inst f as = some u → ∃ i, insts u = some i ∧ i.name = f ∧ i.args = as)
    (hA : (elabProg X insts).Acyclic)
    (u : Nat) (f : Expr.Fn) (hu : elabProg X insts u = some f) (vs : List Match.Val) (v : Match.Val)
    (ins : List Bits) (hev : Expr.Ev (elabProg X insts) (Expr.callVars f.params vs) f.body v)
    (hins : Lower.EncAll (f.params.map (·.2)) vs ins) :
    (∃ out, Expr.Produces (Expr.lowerProg (elabProg X insts) nids) u ins out) ∧
    ∀ out, Expr.Produces (Expr.lowerProg (elabProg X insts) nids) u ins out →
      Lower.Enc f.body.ty v out := by
  have hC : Compiled X Δ insts :=
    ⟨fun u i h => instOk_of_accepted hn (hacc u i h).1 (hacc u i h).2,
      fun u i h => by
        obtain ⟨f, a, b, _⟩ := hel u i h
        exact ⟨f, a, b⟩, hreq⟩
  have key : ∀ u f, elabProg X insts u = some f → f.Resolved (nids u) ∧
      ∃ h, Expr.lowerFn f (nids u) = some h ∧ ∀ j ∈ h.items, j.Typed h.types := by
    intro u f hu
    simp only [elabProg, Option.bind_eq_some_iff] at hu
    obtain ⟨i, h1, h2⟩ := hu
    obtain ⟨f', h3, _, h4, h5⟩ := hel u i h1
    cases some_det h2 h3
    exact ⟨h4, h5⟩
  exact Expr.C46_function_computes _ nids (C62_program_well_typed_partial X Δ insts hX hC) hA
    (fun u f h => (key u f h).1) (fun u f h => (key u f h).2) u f hu vs v ins hev hins

/-- C62, types. The inferred type of an expression and the type of the hardware that computes it agree. -/
theorem C62_types_agree (X : Ctx) (Δ : Decls) (Γ : Typing) (hX : Coherent X Δ) (e : Exp)
    (x : Expr.Expr) (t : GT) (he : e.Ok Δ Γ) (ht : Γ.id e.id = some t) (h : elabE X Γ e = some x) :
    X.mir t = some x.ty := elabE_at hX he h ht

end Spade.Elab

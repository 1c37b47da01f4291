import Verif.Pass.Checked
import Verif.Elab.Compile
/-!
# C62 with C68 and C69: from source to hardware, without assuming that hardware is generated
-/
namespace Spade.Pass
open Spade.Elab (Ctx Inst Coherent Accepted Listed elabProg Translatable)
open Spade.Check (Decls)
open Spade.Codegen (MTy)

/-- C62 with C51, C68 and C69 (what holds of it).  Hardware is generated for every instance that type
inference and the check of operands accept and whose source has only literal powers of two as divisors
and no `[]` patterns. -/
theorem C62_hardware_generated_partial (X : Ctx) (Δ : Decls) (insts : Nat → Option Inst)
    (nids : Nat → Nat) (hX : Coherent X Δ) (hn : Δ.NumbersOk)
    (hacc : ∀ u i, insts u = some i → Accepted Δ i ∧ Listed X Δ i)
    (hchk : ∀ u i, insts u = some i →
      applyUnit (zeroSize (X.idTy i.types)) (unitOf i.unit) = some (unitOf i.unit))
    (hel : ∀ u i, insts u = some i → ∃ f, i.fn X = some f ∧ Widths f.body)
    (htr : ∀ u i, insts u = some i → Translatable X i.types i.unit.body)
    (hreq : ∀ f as u, X.inst f as = some u ↔ ∃ i, insts u = some i ∧ i.name = f ∧ i.args = as)
    (u : Nat) (i : Inst) (hu : insts u = some i) :
    ∃ f h, i.fn X = some f ∧ Expr.lowerFn f (nids u) = some h := by
  have hok := fun k j hk => Elab.instOk_of_accepted hn (hacc k j hk).1 (hacc k j hk).2
  have hP : (elabProg X insts).Ok := by
    refine Elab.C62_program_well_typed_partial X Δ insts hX ⟨hok, fun k j hk => ?_, fun f as u h =>
      (hreq f as u).1 h⟩
    obtain ⟨f, h1, h2⟩ := hel k j hk
    refine ⟨f, h1, ?_⟩
    simp only [Inst.fn, Elab.elabUnit, Option.bind_eq_bind, Option.bind_eq_some_iff, Option.pure_def,
      Option.some.injEq] at h1
    obtain ⟨ps, hps, b, hb, rfl⟩ := h1
    refine sized_of hX _ (hok k j hk).typed.2.2.1 hb (allE_of _ fun x hx => ?_) h2
    exact (sizeOk_iff x).2 (((C68_zero_size _ _ _).1 (hchk k j hk)).2 x hx)
  obtain ⟨f, h1, _⟩ := hel u i hu
  have hf : elabProg X insts u = some f := by simp [elabProg, hu, h1]
  obtain ⟨h, hl⟩ := (Expr.C69_lowered_iff _ hP u f hf (nids u)).2 (by
    simp only [Inst.fn, Elab.elabUnit, Option.bind_eq_bind, Option.bind_eq_some_iff, Option.pure_def,
      Option.some.injEq] at h1
    obtain ⟨ps, hps, b, hb, rfl⟩ := h1
    exact Elab.compiles_of hX _ (hok u i hu).typed.2.2.1 hb (htr u i hu))
  exact ⟨f, h, h1, hl⟩

/-- C62 with C51, C68 and C69 (what holds of it).  Take instances that type inference and the check of
operands accept, each of them the one its name and arguments refer to, with hardware types, resolved names
and no function that calls itself, whose sources have only literal powers of two as divisors and no `[]`
patterns.  Signals have the types that code generation finds for them.  When a function has the value `v`
for the arguments `vs`, its hardware produces an output for the bits of the arguments at the hardware types
of its inputs, and any output it produces are the bits of `v` at the hardware type of the result. -/
theorem C62_translated_function_computes_partial (X : Ctx) (Δ : Decls) (insts : Nat → Option Inst)
    (nids : Nat → Nat) (hX : Coherent X Δ) (hn : Δ.NumbersOk)
    (hacc : ∀ u i, insts u = some i → Accepted Δ i ∧ Listed X Δ i)
    (hchk : ∀ u i, insts u = some i →
      applyUnit (zeroSize (X.idTy i.types)) (unitOf i.unit) = some (unitOf i.unit))
    (hel : ∀ u i, insts u = some i → ∃ f, i.fn X = some f ∧ Widths f.body ∧ f.Resolved (nids u))
    (htr : ∀ u i, insts u = some i → Translatable X i.types i.unit.body)
    (hty : ∀ u i f h, insts u = some i → i.fn X = some f → Expr.lowerFn f (nids u) = some h →
      ∀ n t, Expr.typeList h n = some t → i.signals n = t)
    (hreq : ∀ f as u, X.inst f as = some u ↔ ∃ i, insts u = some i ∧ i.name = f ∧ i.args = as)
    (hA : (elabProg X insts).Acyclic)
    (u : Nat) (i : Inst) (hu : insts u = some i) (vs : List Match.Val) (v : Match.Val)
    (hv : Elab.Value X Δ insts i.types (Elab.inputScope i.unit vs) i.unit.body v)
    (ms : List MTy) (hms : ms.map some = i.unit.inputs.map fun p => X.nameTy i.types p.1)
    (ins : List Verilog.Bits) (hins : Lower.EncAll ms vs ins) :
    (∃ out, Expr.Produces (Expr.lowerProg (elabProg X insts) nids) u ins out) ∧
    ∀ out, Expr.Produces (Expr.lowerProg (elabProg X insts) nids) u ins out →
      ∃ m, X.idTy i.types i.unit.body.id = some m ∧ Lower.Enc m v out := by
  refine C62_checked_function_computes_partial X Δ insts nids hX hn hacc hchk (fun k j hk => ?_) hreq hA u i
    hu vs v hv ms hms ins hins
  obtain ⟨f, h1, h2, h3⟩ := hel k j hk
  obtain ⟨f', h, h4, h5⟩ := C62_hardware_generated_partial X Δ insts nids hX hn hacc hchk
    (fun k j hk => (hel k j hk).imp fun f h => ⟨h.1, h.2.1⟩) htr hreq k j hk
  cases h1.symm.trans h4
  refine ⟨f, h1, h2, h3, h, h5, Expr.typed_of_list h3 h5 ?_⟩
  have e : h.types = j.signals := by
    simp only [Expr.lowerFn, Option.bind_eq_bind, Option.bind_eq_some_iff, Option.some.injEq] at h5
    obtain ⟨r, _, rfl⟩ := h5
    simp only [Inst.fn, Elab.elabUnit, Option.bind_eq_bind, Option.bind_eq_some_iff, Option.pure_def,
      Option.some.injEq] at h1
    obtain ⟨ps, hps, b, hb, rfl⟩ := h1
    rfl
  rw [e]
  exact hty k j f h hk h1 h5

end Spade.Pass

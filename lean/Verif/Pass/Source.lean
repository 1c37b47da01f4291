import Verif.Pass.Compiled
import Verif.Elab.Resolved
/-!
# C62 with names resolved in the source
-/
namespace Spade.Pass
open Spade.Elab (Ctx Inst Coherent Accepted Listed elabProg Translatable SourceResolved)
open Spade.Check (Decls)
open Spade.Codegen (MTy)

/-- C62 with C51, C68 and C69 (what holds of it).  The same as `C62_translated_function_computes_partial`,
where what is asked of names is asked of the source: ids and names are all different, variables are used
where they are in scope, and every `match` has an arm. -/
theorem C62_source_computes_partial (X : Ctx) (Δ : Decls) (insts : Nat → Option Inst)
    (nids : Nat → Nat) (hX : Coherent X Δ) (hn : Δ.NumbersOk)
    (hacc : ∀ u i, insts u = some i → Accepted Δ i ∧ Listed X Δ i)
    (hchk : ∀ u i, insts u = some i →
      applyUnit (zeroSize (X.idTy i.types)) (unitOf i.unit) = some (unitOf i.unit))
    (hel : ∀ u i, insts u = some i → ∃ f, i.fn X = some f ∧ Widths f.body)
    (hres : ∀ u i, insts u = some i → SourceResolved i.unit (nids u))
    (htr : ∀ u i, insts u = some i → Translatable X i.types i.unit.body)
    (hty : ∀ u i f h, insts u = some i → i.fn X = some f → Expr.lowerFn f (nids u) = some h →
      ∀ n t, Expr.typeList h n = some t → i.signals n = t)
    (hreq : ∀ f as u, X.inst f as = some u ↔ ∃ i, insts u = some i ∧ i.name = f ∧ i.args = as)
    (hA : (elabProg X insts).Acyclic)
    (u : Nat) (i : Inst) (hu : insts u = some i) (vs : List Match.Val) (v : Match.Val)
    (hv : Elab.Value X Δ insts i.types (Elab.inputScope i.unit vs) i.unit.body v)
    (ms : List MTy) (hms : ms.map some = i.unit.inputs.map fun p => X.nameTy i.types p.1)
    (ins : List Verilog.Bits) (hins : Lower.EncAll ms vs ins) :
    (∃ out, Expr.Produces (Expr.lowerProg (elabProg X insts) nids) u ins out) ∧
    ∀ out, Expr.Produces (Expr.lowerProg (elabProg X insts) nids) u ins out →
      ∃ m, X.idTy i.types i.unit.body.id = some m ∧ Lower.Enc m v out := by
  refine C62_translated_function_computes_partial X Δ insts nids hX hn hacc hchk (fun k j hk => ?_) htr hty
    hreq hA u i hu vs v hv ms hms ins hins
  obtain ⟨f, h1, h2⟩ := hel k j hk
  exact ⟨f, h1, h2, Elab.C62_resolved j f _ h1 (hres k j hk)⟩

end Spade.Pass

import Verif.Pass.Compiled
import Verif.Pass.Examples
/-!
# The program of C62 meets the conditions on the source
-/
namespace Spade.Pass
open Spade.Elab
open Spade.Check hiding exDecls
open Spade.Codegen (MTy)

theorem ex_translatable : ∀ u i, exInsts u = some i → Translatable exCtx i.types i.unit.body := by
  refine ex_insts ?_ ?_
  · simp [orInst, exOr, Translatable, TranslatableStms, TranslatableArms, PatFilled, PatsFilled]
  · simp [mainInst, exMain, Translatable, Translatables, TranslatableStms, PatFilled, exCtx]

/-- Hardware is generated for both functions, from any next ids. -/
theorem ex_generated (nids : Nat → Nat) (u : Nat) (i : Inst) (hu : exInsts u = some i) :
    ∃ f h, i.fn exCtx = some f ∧ Expr.lowerFn f (nids u) = some h :=
  C62_hardware_generated_partial exCtx Elab.exDecls exInsts nids exCoherent exNumbers
    (ex_insts ⟨or_accepted, or_listed⟩ ⟨main_accepted, main_listed⟩)
    (ex_insts or_zeroSize main_zeroSize)
    (ex_insts ⟨_, orFn_eq, or_widths _⟩ ⟨_, mainFn_eq, main_widths _⟩) ex_translatable ex_inst_iff u i hu

theorem ex_signals : ∀ u i, exInsts u = some i → ∀ f h, i.fn exCtx = some f → Expr.lowerFn f 1000 = some h →
    ∀ n t, Expr.typeList h n = some t → i.signals n = t := by
  have h0 := table or_names 1 gO (by simp)
  have h0' := table or_names 2 gU8 (by simp)
  have h4 := table main_names 4 gO (by simp)
  refine ex_insts ?_ ?_
  · intro f h hf hl
    cases hf.symm.trans orFn_eq
    obtain ⟨h', hl', ht⟩ := or_lowered
    cases hl.symm.trans hl'
    have e : h.types = orInst.signals ∧ h.inputs = (orFn orTypes).params := by
      simp only [Expr.lowerFn, Option.bind_eq_bind, Option.bind_eq_some_iff, Option.some.injEq] at hl
      obtain ⟨r, _, rfl⟩ := hl
      exact ⟨rfl, rfl⟩
    rw [← e.1]
    refine Expr.list_of_typed (or_resolved _) hl ?_ ht
    rw [e.1, e.2]
    simp [orFn, orInst, withNames, Ctx.nameTy, h0, h0', gU8_mir, gO_mir]
  · intro f h hf hl
    cases hf.symm.trans mainFn_eq
    obtain ⟨h', hl', ht⟩ := main_lowered
    cases hl.symm.trans hl'
    have e : h.types = mainInst.signals ∧ h.inputs = (mainFn mainTypes).params := by
      simp only [Expr.lowerFn, Option.bind_eq_bind, Option.bind_eq_some_iff, Option.some.injEq] at hl
      obtain ⟨r, _, rfl⟩ := hl
      exact ⟨rfl, rfl⟩
    rw [← e.1]
    refine Expr.list_of_typed (main_resolved _) hl ?_ ht
    rw [e.1, e.2]
    simp [mainFn, mainInst, withNames, Ctx.nameTy, h4, gO_mir]

/-- `unwrap_or(Some(x), d)` is `x`: the hypotheses of `C62_translated_function_computes_partial` hold. -/
example (x d : Int) (ins : List Verilog.Bits)
    (hins : Lower.EncAll [exO, .uint 8] [.variant 1 [.int x], .int d] ins) :
    ∃ out, Expr.Produces (Expr.lowerProg (elabProg exCtx exInsts) fun _ => 1000) 0 ins out ∧
      ∃ m, exCtx.idTy orTypes 100 = some m ∧ Lower.Enc m (.int x) out := by
  have h0 := table or_names 1 gO (by simp)
  have h0' := table or_names 2 gU8 (by simp)
  obtain ⟨⟨out, h1⟩, h2⟩ := C62_translated_function_computes_partial exCtx Elab.exDecls exInsts (fun _ => 1000)
    exCoherent exNumbers (ex_insts ⟨or_accepted, or_listed⟩ ⟨main_accepted, main_listed⟩)
    (ex_insts or_zeroSize main_zeroSize)
    (ex_insts ⟨_, orFn_eq, or_widths _, or_resolved _⟩ ⟨_, mainFn_eq, main_widths _, main_resolved _⟩)
    ex_translatable (fun u i f h hu hf hl => ex_signals u i hu f h hf hl) ex_inst_iff exProg_acyclic
    0 orInst rfl [.variant 1 [.int x], .int d] (.int x)
    (.block .nil (.mtch (.var rfl) (.plain (bs := [(3, .int x)]) rfl (.var rfl)))) [exO, .uint 8]
    (by simp [orInst, exOr, Ctx.nameTy, h0, h0', gO_mir, gU8_mir]) ins hins
  exact ⟨out, h1, h2 out h1⟩

end Spade.Pass

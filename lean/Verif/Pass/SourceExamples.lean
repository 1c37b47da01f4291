import Verif.Pass.Source
import Verif.Pass.CompiledExamples
/-!
# The program of C62 has its names resolved
-/
namespace Spade.Pass
open Spade.Elab
open Spade.Check hiding exDecls
open Spade.Codegen (MTy)

theorem ex_source : ∀ u i, exInsts u = some i → SourceResolved i.unit 1000 := by
  refine ex_insts ⟨by decide +kernel, by decide +kernel, ?_, ?_⟩
    ⟨by decide +kernel, by decide +kernel, ?_, ?_⟩
  · simp [orInst, exOr, InScope, StmsInScope, ArmsInScope, boundBy, boundBys, scopeAfter]
  · simp [orInst, exOr, HasArms, StmsHaveArms, ArmsHaveArms]
  · simp [mainInst, exMain, InScope, InScopes, StmsInScope, boundBy, boundBys, scopeAfter]
  · simp [mainInst, exMain, HasArms, HaveArms, StmsHaveArms]

/-- `unwrap_or(Some(x), d)` is `x`: the hypotheses of `C62_source_computes_partial` hold. -/
example (x d : Int) (ins : List Verilog.Bits)
    (hins : Lower.EncAll [exO, .uint 8] [.variant 1 [.int x], .int d] ins) :
    ∃ out, Expr.Produces (Expr.lowerProg (elabProg exCtx exInsts) fun _ => 1000) 0 ins out ∧
      ∃ m, exCtx.idTy orTypes 100 = some m ∧ Lower.Enc m (.int x) out := by
  have h0 := table or_names 1 gO (by simp)
  have h0' := table or_names 2 gU8 (by simp)
  obtain ⟨⟨out, h1⟩, h2⟩ := C62_source_computes_partial exCtx Elab.exDecls exInsts (fun _ => 1000)
    exCoherent exNumbers (ex_insts ⟨or_accepted, or_listed⟩ ⟨main_accepted, main_listed⟩)
    (ex_insts or_zeroSize main_zeroSize)
    (ex_insts ⟨_, orFn_eq, or_widths _⟩ ⟨_, mainFn_eq, main_widths _⟩) ex_source
    ex_translatable (fun u i f h hu hf hl => ex_signals u i hu f h hf hl) ex_inst_iff exProg_acyclic
    0 orInst rfl [.variant 1 [.int x], .int d] (.int x)
    (.block .nil (.mtch (.var rfl) (.plain (bs := [(3, .int x)]) rfl (.var rfl)))) [exO, .uint 8]
    (by simp [orInst, exOr, Ctx.nameTy, h0, h0', gO_mir, gU8_mir]) ins hins
  exact ⟨out, h1, h2 out h1⟩

end Spade.Pass

import Verif.Pass.Checked
import Verif.Elab.Examples
import Verif.Codegen.ArithProps
/-!
# Passes over typed units: examples and counterexamples
-/
namespace Spade.Pass
open Spade.Codegen (MTy)

/-! ## Empty operands -/

/-- `fn f(a: uint<4>, b: uint<0>) -> uint<5> { reg(clk) x reset (r: i) = match y { _ if b == c => a + a }; x }`, roughly: a
sum in the arm of a `match` in the value of a register.  The sum has the operands `l` and `r`. -/
def exSum (l r : Nat) : Unit :=
  ⟨[], .block 0 [.reg (.name 1 10) (.leaf 2) (.some (.leaf 3)) (.some (.leaf 4)) .none
    (.mtch 5 (.leaf 6) [.mk (.other 7) (.some (.leaf 8)) (.bin 9 .add (.leaf l) (.leaf r))])]
    (.some (.leaf 13))⟩

/-- Types: 11 and 12 have bits, 14 has none. -/
def exTy : Nat → Option MTy
  | 9 => some (.uint 5)
  | 11 => some (.uint 4)
  | 12 => some (.uint 4)
  | 14 => some (.uint 0)
  | _ => none

example : applyUnit (zeroSize exTy) (exSum 11 12) = some (exSum 11 12) := by rfl
example : applyUnit (zeroSize exTy) (exSum 11 14) = none := by rfl
example : applyUnit (zeroSize exTy) (exSum 14 11) = none := by rfl

/-- The sum is inside of the unit, so that the check is about it. -/
example : (exSum 11 14).body.Has (.bin 9 .add (.leaf 11) (.leaf 14)) :=
  .stm (.head _) .value (.arm (.head _) .self)

/-- **C68 counterexample, calls.**  Arguments of functions the compiler generates code for itself are not checked:
`zext(x)` with `x: uint<0>` is accepted wherever it is, and the code for it refers to a variable that is
not declared, so that it has no value. -/
theorem C68_counterexample_empty_argument (ty : Nat → Option MTy) (zext : Nat) :
    let u : Unit := ⟨[⟨0, 0, false⟩], .block 1 [] (.some (.many 2 (.call zext) [.leaf 3]))⟩
    applyUnit (zeroSize ty) u = some u ∧
    ∀ (Γ : Nat → MTy) (ρ : Verilog.Env) (xs : Nat → Bool), Γ 0 = .uint 0 → Codegen.Fits Γ ρ 0 →
      Codegen.runOp Γ (.uint 4) .zeroExtend [0] ρ xs = none :=
  ⟨rfl, fun Γ ρ xs h hf => Codegen.C43_counterexample_zext Γ ρ xs h hf⟩

/-! ## Repeated registers -/

/-- `pipeline(4) p(clk, a) { let x = a; reg*3; 'here let y = x; reg; y }`. -/
def exPipe : Unit :=
  ⟨[], .block 0 [.bind (.name 1 10) (.leaf 2), .stages 3, .label 11, .bind (.name 4 12) (.leaf 5), .stage]
    (.some (.leaf 6))⟩

/-- The type of the count is 3. -/
def exNum : Nat → Option Int
  | 3 => some 3
  | _ => none

example : applyUnit (flattenRegs exNum) exPipe =
    some ⟨[], .block 0 [.bind (.name 1 10) (.leaf 2), .stage, .stage, .stage, .label 11,
      .bind (.name 4 12) (.leaf 5), .stage] (.some (.leaf 6))⟩ := by rfl

example : applyUnit (flattenRegs fun _ => some (-1)) exPipe = none := by rfl
example : applyUnit (flattenRegs fun _ => none) exPipe = none := by rfl

/-- `reg*0` disappears. -/
example : applyUnit (flattenRegs fun _ => some 0) exPipe =
    some ⟨[], .block 0 [.bind (.name 1 10) (.leaf 2), .label 11,
      .bind (.name 4 12) (.leaf 5), .stage] (.some (.leaf 6))⟩ := by rfl

/-- The label is in stage 3, `y` too, and the last stage is 4. -/
example : (staged (fun _ => 3) 0 [.bind (.name 1 10) (.leaf 2), .stages 3, .label 11,
      .bind (.name 4 12) (.leaf 5), .stage]) =
    [(0, .bind (.name 1 10) (.leaf 2)), (3, .label 11), (3, .bind (.name 4 12) (.leaf 5))] ∧
    depth (fun _ => 3) 0 [.bind (.name 1 10) (.leaf 2), .stages 3, .label 11,
      .bind (.name 4 12) (.leaf 5), .stage] = 4 := ⟨rfl, rfl⟩

/-! ## Bidirectional wires -/

/-- Types: 1 is `inout<bool>`, 2 is `(inout<bool>, bool)`. -/
def exInout : Nat → Option MTy
  | 1 => some (.inout .bool)
  | 2 => some (.tuple [.inout .bool, .bool])
  | 5 => some .bool
  | _ => none

/-- An entity that hands its marked `inout` on, `{ let x = inst e(pin); x }`. -/
def exPass : Unit :=
  ⟨[⟨10, 1, true⟩], .block 5 [.bind (.name 6 11) (.many 7 (.call 0) [.leaf 1])] (.some (.leaf 8))⟩

example : applyUnit (inoutChecks exInout) exPass = some exPass := by rfl
/-- Without the mark it is rejected. -/
example : applyUnit (inoutChecks exInout) { exPass with inputs := [⟨10, 1, false⟩] } = none := by rfl
/-- `let x = pin;` is rejected. -/
example : applyUnit (inoutChecks exInout) ⟨[⟨10, 1, true⟩], .block 5 [.bind (.name 1 11) (.leaf 1)] .none⟩ =
    none := by rfl

/-- The hypotheses of `C68_inout_partial` hold for it. -/
example : InoutOk exInout exPass := by
  have hb : ∀ p, exPass.Binds p → p = .name 6 11 := by
    rintro p (⟨e, id, ss, r, h, hs⟩ | ⟨c, t, r', i, v, id, ss, r, h, hs⟩)
    · cases h with
      | self => simpa using congrArg (fun s => s) (by simpa using hs : p = .name 6 11 ∧ _).1
      | stm hm hh hx =>
        simp only [List.mem_singleton] at hm
        subst hm
        cases hh
        cases hx with
        | many hm hx => simp only [List.mem_singleton] at hm; subst hm; cases hx
      | result hx => cases hx
    · cases h with
      | self => simp at hs
      | stm hm hh hx =>
        simp only [List.mem_singleton] at hm
        subst hm
        cases hh
        cases hx with
        | many hm hx => simp only [List.mem_singleton] at hm; subst hm; cases hx
      | result hx => cases hx
  refine C68_inout_partial exInout exPass exPass rfl (fun p h i x hx => ?_) fun id e arms p g v h _ => ?_
  · rw [hb p h] at hx ⊢
    cases hx
    rfl
  · exfalso
    cases h with
    | stm hm hh hx =>
      simp only [List.mem_singleton] at hm
      subst hm
      cases hh
      cases hx with
      | many hm hx => simp only [List.mem_singleton] at hm; subst hm; cases hx
    | result hx => cases hx

/-- `entity e(p: (inout<bool>, bool)) -> bool { let (a, b) = p; b }`. -/
def exTuple : Unit :=
  ⟨[⟨10, 2, false⟩], .block 5 [.bind (.node 2 [.name 1 11, .name 5 12]) (.leaf 2)] (.some (.leaf 5))⟩

/-- **C68 counterexample, tuples.**  Only types that are `inout` themselves are looked at.  An input of type
`(inout<bool>, bool)` need not be marked, and `let (a, b) = p` gives the `inout` in it a name. -/
theorem C68_counterexample_inout_in_tuple :
    applyUnit (inoutChecks exInout) exTuple = some exTuple ∧ exTuple.Names 1 11 ∧ IsInout exInout 1 ∧
      ¬ InoutOk exInout exTuple := by
  have hn : exTuple.Names 1 11 :=
    .inl ⟨_, .inl ⟨_, 5, _, _, .self, .head _⟩, .node (.head _) .name⟩
  have hi : IsInout exInout 1 := ⟨_, rfl⟩
  exact ⟨rfl, hn, hi, fun h => h.names _ _ hn hi⟩

/-- `entity e(#[no_mangle] p: inout<bool>) -> bool { match p { a => .. } }`. -/
def exArm : Unit :=
  ⟨[⟨10, 1, true⟩], .block 5 [] (.some (.mtch 5 (.leaf 1) [.mk (.name 1 11) .none (.leaf 5)]))⟩

/-- **C68 counterexample, `match`.**  Patterns of arms are not looked at: `match p { a => .. }` gives an `inout` a
name. -/
theorem C68_counterexample_inout_in_match :
    applyUnit (inoutChecks exInout) exArm = some exArm ∧ exArm.Names 1 11 ∧ IsInout exInout 1 ∧
      ¬ InoutOk exInout exArm := by
  have hn : exArm.Names 1 11 :=
    .inr ⟨5, _, _, _, _, _, .result .self, .head _, .name⟩
  have hi : IsInout exInout 1 := ⟨_, rfl⟩
  exact ⟨rfl, hn, hi, fun h => h.names _ _ hn hi⟩

/-! ## With type inference -/

section
open Spade.Elab
open Spade.Check hiding exDecls
open Spade.Infer.Spec (GT)

theorem main_zeroSize : applyUnit (zeroSize (exCtx.idTy mainTypes)) (unitOf exMain) = some (unitOf exMain) := by
  have h6 := table main_types 207 gU8 (by simp [mainIds])
  have h7 := table main_types 208 gU8 (by simp [mainIds])
  simp [unitOf, exMain, treeOf, treesOf, treeStms, applyUnit, zeroSize, apply, applys, applyStms, applyStm, applyOpt, sizeOk, full,
    Pass.Exp.id, Ctx.idTy, h6, h7, gU8_mir, MTy.size]

theorem or_zeroSize : applyUnit (zeroSize (exCtx.idTy orTypes)) (unitOf exOr) = some (unitOf exOr) := by
  have h6 := table or_types 105 gU8 (by simp [orIds])
  simp [unitOf, exOr, treeOf, treeArms, treeStms, applyUnit, zeroSize, apply, applyArms, applyStms, applyOpt, sizeOk, full,
    Pass.Exp.id, Ctx.idTy, h6, gU8_mir, MTy.size]

theorem or_widths (Γ : Typing) : Widths (orFn Γ).body := by
  simp [orFn, Widths, WidthsStms, WidthsArms, PatSized, ZeroLits, ZeroLitss, Expr.Expr.ty, Lower.LPat.ty,
    exO_size, Lower.LPat.Readable, Lower.Readables, MTy.size]

theorem main_widths (Γ : Typing) : Widths (mainFn Γ).body := by
  simp [mainFn, Widths, WidthsStms, Widthss, PatSized, ZeroLits, IntrSide, Expr.Expr.ty, Lower.LPat.ty,
    Lower.LPat.Readable, MTy.size]

/-- `main` of the example of C62, in which a sum is truncated, passes the check, and all of C62 applies. -/
example (x : Int) (ins : List Verilog.Bits) (hins : Lower.EncAll [exO] [.variant 1 [.int x]] ins) :
    (∃ out, Expr.Produces (Expr.lowerProg (elabProg exCtx exInsts) fun _ => 1000) 1 ins out) ∧
    ∀ out, Expr.Produces (Expr.lowerProg (elabProg exCtx exInsts) fun _ => 1000) 1 ins out →
      ∃ m, exCtx.idTy mainTypes 200 = some m ∧ Lower.Enc m (.int ((x + 1) % 512 % 256)) out := by
  have h0 := table main_names 4 gO (by simp)
  have h206 := table main_types 206 (tNum false 9) (by simp [mainIds])
  have h205 := table main_types 205 gU8 (by simp [mainIds])
  have hc := isGT_eq main_call
  refine C62_checked_function_computes_partial exCtx Elab.exDecls exInsts (fun _ => 1000) exCoherent exNumbers
    (ex_insts ⟨or_accepted, or_listed⟩ ⟨main_accepted, main_listed⟩)
    (ex_insts or_zeroSize main_zeroSize)
    (ex_insts ⟨_, orFn_eq, or_widths _, or_resolved _, or_lowered⟩
      ⟨_, mainFn_eq, main_widths _, main_resolved _, main_lowered⟩)
    ex_inst_iff exProg_acyclic 1 mainInst rfl [.variant 1 [.int x]] _ ?_ [exO]
    (by simp [mainInst, exMain, Ctx.nameTy, h0, gO_mir]) ins hins
  refine .block (.bind (v := .int x) (bs := [(5, .int x)]) (.unit (vs := [.variant 1 [.int x], .int 3])
    (h := ⟨[("N", .uint)], [], [.declared 10 [.spec sUintN], sUintN], some sUintN, none⟩) (k := 0)
    (i := orInst) (as := [tNat 8]) rfl rfl (by simp [mainInst, hc]) rfl rfl rfl
    (.cons (.var rfl) (.cons .int .nil)) ?_) rfl .nil)
    (.intr (us := [tNum false 9]) (ms := [.uint 9]) (t := gU8) (m := .uint 8) rfl
      (.cons (.bin (s := false) (n := 9) (.var rfl) .int ?_ rfl) .nil) ?_ (by simp [gU9_mir]) ?_ gU8_mir .trunc)
  · exact .block .nil (.mtch (.var rfl) (.plain (bs := [(3, .int x)]) rfl (.var rfl)))
  · exact h206
  · simp [Exp.id, Check.Exp.id, mainInst, h206]
  · exact h205

end
end Spade.Pass

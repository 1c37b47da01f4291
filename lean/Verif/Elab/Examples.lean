import Verif.Elab.EvalSound
import Verif.Check.Examples

/-!
# From type inference to hardware: an example (C62)
-/

namespace Spade.Elab

open Spade.Infer.Spec (Kind Base GT TExpr)
open Spade.Check
open Spade.Codegen (MTy)

/-- `uint<N>` -/
def sUintN : TSpec := .declared 2 [.spec (.generic "N")]

/-- `enum Option<T> { None, Some(v: T) }` (10, 20, 21), `trunc` (40), and the heads of the units below (50,
51). -/
def exDecls : Decls where
  impls := [numberImpl true, numberImpl false]
  heads
    | 20 => some ⟨[("T", .type)], [], [], some (selfSpec 10 [("T", .type)]), none⟩
    | 21 => some ⟨[("T", .type)], [], [.generic "T"], some (selfSpec 10 [("T", .type)]), none⟩
    | 40 => some (intrHead .trunc)
    | 50 => some ⟨[("N", .uint)], [], [.declared 10 [.spec sUintN], sUintN], some sUintN, none⟩
    | 51 => some ⟨[], [], [.declared 10 [.spec (sUint 8)]], some (sUint 8), none⟩
    | _ => none
  variants
    | 20 => some ⟨[("T", .type)], [], selfSpec 10 [("T", .type)], []⟩
    | 21 => some ⟨[("T", .type)], [], selfSpec 10 [("T", .type)], [.generic "T"]⟩
    | _ => none
  structs _ := none

/-- `fn unwrap_or<#uint N>(o: Option<uint<N>>, d: uint<N>) -> uint<N> { match o { Some(x) => x, None => d } }`
-/
def exOr : Check.Unit where
  params := [("N", .uint)]
  wheres := []
  inputs := [(1, .declared 10 [.spec sUintN]), (2, sUintN)]
  output := some sUintN
  body := .block 100 [] (some (.mtch 101 (.var 102 1) [
    .mk (.type 103 21 [.bound 104 3 false none]) none (.var 105 3),
    .mk (.type 106 20 []) none (.var 107 2)]))

/-- `fn main(a: Option<uint<8>>) -> uint<8> { let y = unwrap_or(a, 3); trunc(y + 1) }` -/
def exMain : Check.Unit where
  params := []
  wheres := []
  inputs := [(4, .declared 10 [.spec (sUint 8)])]
  output := some (sUint 8)
  body := .block 200 [
    .bind (.bound 201 5 false none) none (.call 202 50 [] [.var 203 4, .int 204 3 .unsized])]
    (some (.call 205 40 [] [.bin 206 .add (.var 207 5) (.int 208 1 .unsized)]))

/-- What lowering sees of this program. -/
def exCtx : Ctx where
  types
    | 0 => some ⟨[], .prim .bool⟩
    | 1 => some ⟨["N"], .prim .int⟩
    | 2 => some ⟨["N"], .prim .uint⟩
    | 3 => some ⟨[], .prim .clock⟩
    | 10 => some ⟨["T"], .enum [[], [.generic "T"]]⟩
    | _ => none
  depth := 5
  items
    | 20 => some (.variant 10 0)
    | 21 => some (.variant 10 1)
    | 40 => some (.intr .trunc)
    | 50 => some .unit
    | 51 => some .unit
    | _ => none
  heads := exDecls.heads
  inst f as :=
    match f, as with
    | 50, [.node (.int 8) []] => some 0
    | 51, [] => some 1
    | _, _ => none

theorem exCoherent : Coherent exCtx exDecls where
  bool := rfl
  int := ⟨_, rfl⟩
  uint := ⟨_, rfl⟩
  clock := rfl
  structs n gs fs h := by simp [exDecls] at h
  depth := by decide
  heads := rfl
  items f i h := by
    simp only [exCtx] at h
    split at h <;> cases h
    · exact ⟨[("T", .type)], [], _, [], rfl, rfl, rfl, rfl⟩
    · exact ⟨[("T", .type)], [], _, [.generic "T"], rfl, rfl, rfl, rfl⟩
    · rfl
    · trivial
    · trivial

theorem exNumbers : exDecls.NumbersOk := by
  intro i hi ht
  simp only [exDecls, List.mem_cons, List.not_mem_nil, or_false] at hi
  rcases hi with rfl | rfl
  · exact ⟨true, rfl⟩
  · exact ⟨false, rfl⟩

/-- The types inference reports for a unit. -/
def inferred (u : Check.Unit) (mono : List (String × GT)) : Typing :=
  match inferUnit exDecls 50 mono u with
  | .ok gl S => reported S (someTypes S) 10 gl
  | _ => ⟨fun _ => none, fun _ => none, fun _ => none, fun _ _ => none⟩

theorem inferred_ok {u : Check.Unit} {mono : List (String × GT)}
    (h : acceptB (inferUnit exDecls 50 mono u) 10 = true) :
    ∃ fuel gl S w n, inferUnit exDecls fuel mono u = .ok gl S ∧
    Settled exDecls S w (n + 1) ∧ inferred u mono = reported S w (n + 1) gl := by
  obtain ⟨gl, S, h1, h2⟩ := accept_of h
  exact ⟨50, gl, S, someTypes S, 9, h1, settled_of (by simp [exDecls]) h2, by simp [inferred, h1]⟩

/-- `Option<uint<8>>` in hardware. -/
def exO : MTy := .enum [[], [.uint 8]]

/-- The types of signals: those of variables are the types of the variables. -/
def withNames (Γ : Typing) (T : Nat → MTy) (n : Nat) : MTy :=
  if n % 2 = 1 then (exCtx.nameTy Γ (n / 2)).getD .bool else T n

theorem declared_withNames (Γ : Typing) (T : Nat → MTy) : Declared exCtx Γ (withNames Γ T) := by
  intro x m h
  have h1 : sigName x % 2 = 1 := by simp only [sigName]; omega
  have h2 : sigName x / 2 = x := by simp only [sigName]; omega
  simp [withNames, h1, h2, h]

/-- The types of the other signals of `unwrap_or`. -/
def orSignals : Nat → MTy
  | 206 => exO
  | 212 => exO
  | 202 => .uint 8
  | _ => .bool

/-- The types of the other signals of `main`. -/
def mainSignals : Nat → MTy
  | 412 => .uint 9
  | _ => .uint 8

/-- The types of `unwrap_or` for 8 bits. -/
@[irreducible] def orTypes : Typing := inferred exOr [("N", tNat 8)]

/-- The types of `main`. -/
@[irreducible] def mainTypes : Typing := inferred exMain []

/-- `unwrap_or` for 8 bits. -/
def orInst : Inst := ⟨50, [tNat 8], exOr, orTypes, withNames orTypes orSignals⟩

/-- `main`. -/
def mainInst : Inst := ⟨51, [], exMain, mainTypes, withNames mainTypes mainSignals⟩

/-- The instances. -/
def exInsts : Nat → Option Inst
  | 0 => some orInst
  | 1 => some mainInst
  | _ => none

/-- `unwrap_or` for 8 bits with its types. -/
def orFn (Γ : Typing) : Expr.Fn where
  params := [(3, exO), (5, .uint 8)]
  body := .block 200 [] (.match 202 (.uint 8) (.var 3 exO) [
    .plain (.variant 206 exO 1 [.bound 7 (.uint 8)]) (.var 7 (.uint 8)),
    .plain (.variant 212 exO 0 []) (.var 5 (.uint 8))])
  types := withNames Γ orSignals

/-- `main` with its types. -/
def mainFn (Γ : Typing) : Expr.Fn where
  params := [(9, exO)]
  body := .block 400 [.bind (.bound 11 (.uint 8)) (.call 404 (.uint 8) (.unit 0) [.var 9 exO, .int 408 (.uint 8) 3])]
    (.call 410 (.uint 8) (.intr .trunc) [.bin 412 (.uint 9) .add (.var 11 (.uint 8)) (.int 416 (.uint 8) 1)])
  types := withNames Γ mainSignals

mutual
/-- Equality of ground types. -/
def gtB : GT → GT → Bool
  | .node a as, .node b bs => decide (a = b) && gtsB as bs
/-- Pointwise. -/
def gtsB : List GT → List GT → Bool
  | [], [] => true
  | a :: as, b :: bs => gtB a b && gtsB as bs
  | _, _ => false
end

mutual
theorem gtB_eq : ∀ {a b : GT}, gtB a b = true → a = b
  | .node a as, .node b bs, h => by
    simp only [gtB, Bool.and_eq_true, decide_eq_true_eq] at h
    rw [h.1, gtsB_eq h.2]
theorem gtsB_eq : ∀ {as bs : List GT}, gtsB as bs = true → as = bs
  | [], [], _ => rfl
  | a :: as, b :: bs, h => by
    simp only [gtsB, Bool.and_eq_true] at h
    rw [gtB_eq h.1, gtsB_eq h.2]
  | [], _ :: _, h => by simp [gtsB] at h
  | _ :: _, [], h => by simp [gtsB] at h
end

/-- Something is reported, and it is this. -/
def isGT (o : Option GT) (t : GT) : Bool := o.any (gtB t)

theorem isGT_eq {o : Option GT} {t : GT} (h : isGT o t = true) : o = some t := by
  cases o with
  | none => simp [isGT] at h
  | some s => simp only [isGT, Option.any_some] at h; rw [gtB_eq h]

/-- `uint<8>` -/
def gU8 : GT := tNum false 8
/-- `Option<uint<8>>` -/
def gO : GT := .node (.named 10) [gU8]

theorem gU8_mir : exCtx.mir gU8 = some (.uint 8) := by rfl
theorem gO_mir : exCtx.mir gO = some exO := by rfl

theorem table {f : Nat → Option GT} {l : List (Nat × GT)}
    (h : l.all (fun p => isGT (f p.1) p.2) = true) : ∀ i t, (i, t) ∈ l → f i = some t := fun i t hm =>
  isGT_eq (List.all_eq_true.mp h (i, t) hm)

/-- The types of the ids of `unwrap_or`. -/
def orIds : List (Nat × GT) :=
  [(101, gU8), (102, gO), (103, gO), (104, gU8), (105, gU8), (106, gO), (107, gU8)]

/-- The types of the ids of `main`. -/
def mainIds : List (Nat × GT) :=
  [(201, gU8), (202, gU8), (203, gO), (204, gU8), (205, gU8), (206, tNum false 9), (207, gU8),
    (208, gU8)]

theorem or_types : orIds.all (fun p => isGT (orTypes.id p.1) p.2) = true := by
  decide +kernel

theorem or_names : [(1, gO), (2, gU8), (3, gU8)].all
    (fun p => isGT (orTypes.name p.1) p.2) = true := by
  decide +kernel

theorem main_types : mainIds.all (fun p => isGT (mainTypes.id p.1) p.2) = true := by
  decide +kernel

theorem main_names : [(4, gO), (5, gU8)].all
    (fun p => isGT (mainTypes.name p.1) p.2) = true := by
  decide +kernel

theorem main_call : isGT (mainTypes.call 202 "N") (tNat 8) = true := by
  decide +kernel

theorem orFn_of {Γ : Typing} (hi : ∀ i t, (i, t) ∈ orIds → Γ.id i = some t)
    (hn : ∀ i t, (i, t) ∈ [(1, gO), (2, gU8), (3, gU8)] → Γ.name i = some t) :
    elabUnit exCtx Γ (withNames Γ orSignals) exOr = some (orFn Γ) := by
  have h1 := hi 101 gU8 (by simp [orIds])
  have h2 := hi 102 gO (by simp [orIds])
  have h3 := hi 103 gO (by simp [orIds])
  have h4 := hi 104 gU8 (by simp [orIds])
  have h5 := hi 105 gU8 (by simp [orIds])
  have h6 := hi 106 gO (by simp [orIds])
  have h7 := hi 107 gU8 (by simp [orIds])
  have h8 := hn 1 gO (by simp)
  have h9 := hn 2 gU8 (by simp)
  simp only [elabUnit, exOr, elabInputs, elabE, elabArms, elabStms, elabPat, elabPats, Ctx.nameTy,
    Ctx.idTy, h1, h2, h3, h4, h5, h6, h7, h8, h9, gU8_mir, gO_mir, Option.bind_some, bind, pure]
  rfl

theorem gU9_mir : exCtx.mir (tNum false 9) = some (.uint 9) := by rfl

theorem mainFn_of {Γ : Typing} (hi : ∀ i t, (i, t) ∈ mainIds → Γ.id i = some t)
    (hn : ∀ i t, (i, t) ∈ [(4, gO), (5, gU8)] → Γ.name i = some t)
    (hc : Γ.call 202 "N" = some (tNat 8)) :
    elabUnit exCtx Γ (withNames Γ mainSignals) exMain = some (mainFn Γ) := by
  have h1 := hi 201 gU8 (by simp [mainIds])
  have h2 := hi 202 gU8 (by simp [mainIds])
  have h3 := hi 203 gO (by simp [mainIds])
  have h4 := hi 204 gU8 (by simp [mainIds])
  have h5 := hi 205 gU8 (by simp [mainIds])
  have h6 := hi 206 (tNum false 9) (by simp [mainIds])
  have h7 := hi 207 gU8 (by simp [mainIds])
  have h7' := hi 208 gU8 (by simp [mainIds])
  have h8 := hn 4 gO (by simp)
  have hc1 : callee exCtx Γ 202 50 = some (.unit 0) := by
    simp only [callee, exCtx, exDecls, callArgs, hc, Option.bind_some, bind, pure]
    rfl
  have hc2 : callee exCtx Γ 205 40 = some (.intr .trunc) := rfl
  simp only [elabUnit, exMain, elabInputs, elabE, elabs, elabStms, elabPat, Ctx.nameTy,
    Ctx.idTy, h1, h2, h3, h4, h5, h6, h7, h7', h8, hc1, hc2, gU8_mir, gU9_mir, gO_mir,
    Option.bind_some, bind, pure]
  rfl

theorem orFn_eq : elabUnit exCtx orTypes (withNames orTypes orSignals) exOr = some (orFn orTypes) :=
  orFn_of (table or_types) (table or_names)

theorem mainFn_eq :
    elabUnit exCtx mainTypes (withNames mainTypes mainSignals) exMain = some (mainFn mainTypes) :=
  mainFn_of (table main_types) (table main_names) (isGT_eq main_call)

theorem exProg_0 : elabProg exCtx exInsts 0 = some (orFn orTypes) := by
  simp only [elabProg, exInsts, Option.bind_some, Inst.fn, orInst, orFn_eq]

theorem exProg_1 : elabProg exCtx exInsts 1 = some (mainFn mainTypes) := by
  simp only [elabProg, exInsts, Option.bind_some, Inst.fn, mainInst, mainFn_eq]

theorem accepted_of {i : Inst} {u : Check.Unit} {mono : List (String × GT)} (hu : i.unit = u)
    (hm : (u.params.map (·.1)).zip i.args = mono) (hl : i.args.length = u.params.length)
    (ht : i.types = inferred u mono) (h : acceptB (inferUnit exDecls 50 mono u) 10 = true) :
    Accepted exDecls i := by
  subst hu hm
  obtain ⟨fuel, gl, S, w, n, h1, h2, h3⟩ := inferred_ok h
  exact ⟨hl, fuel, gl, S, w, n, h1, h2, ht.trans h3⟩

theorem or_accepts : acceptB (inferUnit exDecls 50 [("N", tNat 8)] exOr) 10 = true := by decide +kernel

theorem main_accepts : acceptB (inferUnit exDecls 50 [] exMain) 10 = true := by decide +kernel

theorem orTypes_eq : orTypes = inferred exOr [("N", tNat 8)] := by unfold orTypes; with_reducible rfl

theorem mainTypes_eq : mainTypes = inferred exMain [] := by unfold mainTypes; with_reducible rfl

theorem or_accepted : Accepted exDecls orInst :=
  accepted_of (u := exOr) (mono := [("N", tNat 8)]) rfl rfl rfl orTypes_eq or_accepts

theorem main_accepted : Accepted exDecls mainInst :=
  accepted_of (u := exMain) (mono := []) rfl rfl rfl mainTypes_eq main_accepts

theorem or_listed : Listed exCtx exDecls orInst where
  item := rfl
  head := ⟨_, _, rfl⟩
  inputs := by simp [orInst, exOr, sUintN, TFixed, TFixeds, EFixed, EFixeds]
  output := by simp [orInst, exOr, OutFixed, sUintN, TFixed, EFixed, EFixeds]
  declared := declared_withNames _ _

theorem main_listed :
    Listed exCtx exDecls mainInst where
  item := rfl
  head := ⟨_, _, rfl⟩
  inputs := by simp [mainInst, exMain, sUint, TFixed, TFixeds, EFixed, EFixeds]
  output := by simp [mainInst, exMain, OutFixed, sUint, TFixed, EFixed, EFixeds]
  declared := declared_withNames _ _

theorem exO_size : exO.size = 9 := by decide +kernel

theorem or_sized (Γ : Typing) : Sized (orFn Γ).body := by
  simp [orFn, Sized, SizedStms, SizedArms, PatSized, ZeroLits, ZeroLitss, Expr.Expr.ty, Lower.LPat.ty,
    exO_size, Lower.LPat.Readable, Lower.Readables, MTy.size]

theorem main_sized (Γ : Typing) : Sized (mainFn Γ).body := by
  simp [mainFn, Sized, SizedStms, Sizeds, PatSized, ZeroLits, IntrSide, Expr.Expr.ty, Lower.LPat.ty,
    Lower.LPat.Readable, MTy.size]

theorem or_resolved (Γ : Typing) : (orFn Γ).Resolved 1000 := by
  refine ⟨by simp [orFn, Expr.Expr.names, Expr.Stms.names, Expr.Arms.names, Expr.patNames, Expr.subnames,
    Expr.namesAll, Lower.LPat.name], by simp [orFn, Expr.Expr.names, Expr.Stms.names, Expr.Arms.names, Expr.patNames, Expr.subnames, Expr.namesAll, Lower.LPat.name], ?_, ?_⟩
  · simp [orFn, Expr.Expr.Scoped, Expr.Stms.Scoped, Expr.Arms.Scoped, Expr.scope, Expr.patVars, Expr.patsVars]
  · simp [orFn, Expr.Expr.Armed, Expr.Stms.Armed, Expr.Arms.Armed]

theorem main_resolved (Γ : Typing) : (mainFn Γ).Resolved 1000 := by
  refine ⟨by simp [mainFn, Expr.Expr.names, Expr.Exprs.names, Expr.Stms.names, Expr.patNames, Expr.subnames,
    Lower.LPat.name], by simp [mainFn, Expr.Expr.names, Expr.Exprs.names, Expr.Stms.names, Expr.patNames,
    Expr.subnames, Lower.LPat.name], ?_, ?_⟩
  · simp [mainFn, Expr.Expr.Scoped, Expr.Exprs.Scoped, Expr.Stms.Scoped, Expr.scope, Expr.patVars]
  · simp [mainFn, Expr.Expr.Armed, Expr.Exprs.Armed, Expr.Stms.Armed]

theorem or_no_names : ((orTypes.name 500).isNone && (orTypes.name 501).isNone && (orTypes.name 502).isNone) = true := by
  decide +kernel

theorem or_lowered :
    ∃ h, Expr.lowerFn (orFn orTypes) 1000 = some h ∧ ∀ j ∈ h.items, j.Typed h.types := by
  have h0 := or_no_names
  simp only [Bool.and_eq_true, Option.isNone_iff_eq_none] at h0
  have h1 := table or_names 3 gU8 (by simp)
  refine ⟨_, rfl, ?_⟩
  simp [orFn, Expr.Item.Typed, Expr.target, Lower.LPat.name, Lower.LPat.ty, Lower.condition,
    Lower.conditions, Lower.allConditions, Lower.andAll, Expr.Expr.variable, withNames, orSignals,
    Ctx.nameTy, h0, h1, gU8_mir]

theorem main_lowered :
    ∃ h, Expr.lowerFn (mainFn mainTypes) 1000 = some h ∧ ∀ j ∈ h.items, j.Typed h.types := by
  have h1 := table main_names 5 gU8 (by simp)
  refine ⟨_, rfl, ?_⟩
  simp [mainFn, Expr.Item.Typed, Expr.target, Lower.LPat.name, Lower.LPat.ty, withNames, mainSignals,
    Ctx.nameTy, h1, gU8_mir]

theorem exProg_acyclic : (elabProg exCtx exInsts).Acyclic := by
  refine ⟨id, ?_⟩
  intro u f hf
  match u with
  | 0 =>
    rw [exProg_0] at hf
    cases hf
    simp [orFn, Expr.Expr.calls, Expr.Stms.calls, Expr.Arms.calls]
  | 1 =>
    rw [exProg_1] at hf
    cases hf
    simp [mainFn, Expr.Expr.calls, Expr.Exprs.calls, Expr.Stms.calls]

theorem ex_requested (f : Nat) (as : List GT) (u : Nat) (h : exCtx.inst f as = some u) :
    ∃ i, exInsts u = some i ∧ i.name = f ∧ i.args = as := by
  simp only [exCtx] at h
  split at h <;> cases h
  · exact ⟨orInst, rfl, rfl, rfl⟩
  · exact ⟨mainInst, rfl, rfl, rfl⟩

theorem ex_inst_iff (f : Nat) (as : List GT) (u : Nat) :
    exCtx.inst f as = some u ↔ ∃ i, exInsts u = some i ∧ i.name = f ∧ i.args = as := by
  refine ⟨ex_requested f as u, ?_⟩
  rintro ⟨i, hi, rfl, rfl⟩
  match u with
  | 0 => cases hi; rfl
  | 1 => cases hi; rfl

theorem ex_insts {P : Nat → Inst → Prop} (h0 : P 0 orInst) (h1 : P 1 mainInst) :
    ∀ u i, exInsts u = some i → P u i := by
  intro u i h
  match u with
  | 0 => cases h; exact h0
  | 1 => cases h; exact h1

/-- The program with `unwrap_or` and `main` meets the hypotheses of
`C62_inferred_function_computes_partial`: `main(Some(x))` is `x + 1`, with the width of `x`, and that is what
the hardware generated from the inferred types puts out. -/
theorem example_main (x : Int) (ins : List Verilog.Bits)
    (hins : Lower.EncAll [exO] [.variant 1 [.int x]] ins) :
    (∃ out, Expr.Produces (Expr.lowerProg (elabProg exCtx exInsts) fun _ => 1000) 1 ins out) ∧
    ∀ out, Expr.Produces (Expr.lowerProg (elabProg exCtx exInsts) fun _ => 1000) 1 ins out →
      Lower.Enc (.uint 8) (.int ((x + 1) % 512 % 256)) out := by
  refine C62_inferred_function_computes_partial exCtx exDecls exInsts (fun _ => 1000) exCoherent exNumbers
    (ex_insts ⟨or_accepted, or_listed⟩ ⟨main_accepted, main_listed⟩)
    (ex_insts ⟨_, orFn_eq, or_sized _, or_resolved _, or_lowered⟩
      ⟨_, mainFn_eq, main_sized _, main_resolved _, main_lowered⟩)
    ex_requested exProg_acyclic 1 _ exProg_1 [.variant 1 [.int x]] _ ins ?_ hins
  refine .block (.bind (v := .int x) (.unit (vs := [.variant 1 [.int x], .int 3]) exProg_0
    (.cons (.var rfl) (.cons .int .nil)) ?_) ?_ .nil) (.intr (.cons (.bin (.var rfl) .int rfl) .nil) .trunc)
  · refine .block .nil (.match (.var rfl) (.plain ?_ (.var rfl)))
    simp [Match.Matches, Match.MatchesAll, Lower.LPat.src, Lower.srcs]
  · simp [Match.Matches, Lower.LPat.src]

/-- The same for the value of the source: `main(Some(x))`, `let y = unwrap_or(a, 3); trunc(y + 1)`. -/
theorem example_source (x : Int) (ins : List Verilog.Bits)
    (hins : Lower.EncAll [exO] [.variant 1 [.int x]] ins) :
    (∃ out, Expr.Produces (Expr.lowerProg (elabProg exCtx exInsts) fun _ => 1000) 1 ins out) ∧
    ∀ out, Expr.Produces (Expr.lowerProg (elabProg exCtx exInsts) fun _ => 1000) 1 ins out →
      ∃ m, exCtx.idTy mainTypes 200 = some m ∧ Lower.Enc m (.int ((x + 1) % 512 % 256)) out := by
  have h0 := table main_names 4 gO (by simp)
  have h206 := table main_types 206 (tNum false 9) (by simp [mainIds])
  have h205 := table main_types 205 gU8 (by simp [mainIds])
  have hc := isGT_eq main_call
  refine C62_source_function_computes_partial exCtx exDecls exInsts (fun _ => 1000) exCoherent exNumbers
    (ex_insts ⟨or_accepted, or_listed⟩ ⟨main_accepted, main_listed⟩)
    (ex_insts ⟨_, orFn_eq, or_sized _, or_resolved _, or_lowered⟩
      ⟨_, mainFn_eq, main_sized _, main_resolved _, main_lowered⟩)
    ex_inst_iff exProg_acyclic 1 mainInst rfl [.variant 1 [.int x]] _ ?_ [exO]
    (by simp [mainInst, exMain, Ctx.nameTy, h0, gO_mir]) ins hins
  refine .block (.bind (v := .int x) (bs := [(5, .int x)]) (.unit (vs := [.variant 1 [.int x], .int 3])
    (h := ⟨[("N", .uint)], [], [.declared 10 [.spec sUintN], sUintN], some sUintN, none⟩) (k := 0)
    (i := orInst) (as := [tNat 8]) rfl rfl (by simp [mainInst, hc]) rfl rfl rfl
    (.cons (.var rfl) (.cons .int .nil)) ?_) rfl .nil)
    (.intr (us := [tNum false 9]) (ms := [.uint 9]) (t := gU8) (m := .uint 8) rfl
      (.cons (.bin (s := false) (n := 9) (.var rfl) .int ?_ rfl) .nil) ?_ (by simp [gU9_mir]) ?_ gU8_mir .trunc)
  · exact .block .nil (.mtch (.var rfl) (.plain (bs := [(3, .int x)]) rfl (.var rfl)))
  · exact h206
  · simp [Exp.id, mainInst, h206]
  · exact h205

/-- There are bits for `Some(200)`. -/
example : Lower.EncAll [exO] [.variant 1 [.int 200]]
    [[true, true, true, false, false, true, false, false, false]] := by
  have h : [true, true, true, false, false, true, false, false, false] =
      Verilog.ofNat (Codegen.tagSize 2) 1 ++ [Verilog.ofInt 8 200].flatten ++ [] := by decide +kernel
  rw [h]
  exact .cons (.enum (opts := [[], [.uint 8]]) (ts := [.uint 8]) rfl
    (.cons (.uint (by simp [Codegen.InRange])) .nil) (by decide +kernel)) .nil

end Spade.Elab

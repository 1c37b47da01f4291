import Verif.Pass.Props
import Verif.Elab.EvalSound
/-!
# Units that pass the check of operands compute their values

The check `DisallowZeroSize` gives some of the conditions on widths of C62.
-/
namespace Spade.Pass
open Spade.Codegen (MTy)
open Spade.Check (Typing Decls)
open Spade.Elab (Ctx Coherent elabE elabs elabArms elabStms)
open Spade.Elab (IntrSide PatSized Sized Sizeds SizedArms SizedStms Inst elabProg Accepted Listed)

/-! ## The tree the passes see -/

/-- Binary operators. -/
def binOf : Check.BinOp → BinOp
  | .add => .add | .sub => .sub | .mul => .mul | .div => .div | .mod => .mod
  | .shl => .shl | .shr => .shr | .ashr => .ashr

/-- Unary operators. -/
def unOf : Check.UnOp → UnOp
  | .neg => .neg | .bitNot => .bitNot | .not => .not | .deref => .deref | .ref => .ref

mutual
/-- A pattern as the passes see it. -/
def patOf : Check.Pat → Pat
  | .int id _ => .other id
  | .bool id _ => .other id
  | .bound id x _ none => .name id x
  | .bound id x _ (some p) => .node id [.name id x, patOf p]
  | .tuple id ps => .node id (patsOf ps)
  | .array id ps => .node id (patsOf ps)
  | .type id _ ps => .node id (patsOf ps)
/-- Pointwise. -/
def patsOf : List Check.Pat → List Pat
  | [] => []
  | p :: ps => patOf p :: patsOf ps
end

mutual
/-- An expression of the source, as type inference sees it, as the passes see it. -/
def treeOf : Check.Exp → Exp
  | .var id _ | .tlBool id _ | .tlInt id _ | .int id _ _ | .bool id _ => .leaf id
  | .tuple id es => .many id .tuple (treesOf es)
  | .proj id e _ => .one id .proj (treeOf e)
  | .field id e _ => .one id .field (treeOf e)
  | .cast id e _ => .one id .cast (treeOf e)
  | .array id es => .many id .array (treesOf es)
  | .rep id e _ _ => .one id .rep (treeOf e)
  | .elem id a i => .index id (treeOf a) (treeOf i)
  | .range id a _ _ => .one id .range (treeOf a)
  | .block id ss none => .block id (treeStms ss) .none
  | .block id ss (some r) => .block id (treeStms ss) (.some (treeOf r))
  | .ite id c a b => .ite id (treeOf c) (treeOf a) (treeOf b)
  | .genIf id _ _ a b => .genIf id (treeOf a) (treeOf b)
  | .mtch id c arms => .mtch id (treeOf c) (treeArms arms)
  | .bin id op a b => .bin id (binOf op) (treeOf a) (treeOf b)
  | .un id op a => .un id (unOf op) (treeOf a)
  | .call id f _ as => .many id (.call f) (treesOf as)
/-- Pointwise. -/
def treesOf : List Check.Exp → List Exp
  | [] => []
  | e :: es => treeOf e :: treesOf es
/-- Pointwise. -/
def treeArms : List Check.Arm → List Arm
  | [] => []
  | .mk p none e :: as => .mk (patOf p) .none (treeOf e) :: treeArms as
  | .mk p (some g) e :: as => .mk (patOf p) (.some (treeOf g)) (treeOf e) :: treeArms as
/-- Pointwise. -/
def treeStms : List Check.Stmt → List Stm
  | [] => []
  | .bind p _ e :: ss => .bind (patOf p) (treeOf e) :: treeStms ss
  | .expr e :: ss => .expr (treeOf e) :: treeStms ss
  | .assert e :: ss => .assert (treeOf e) :: treeStms ss
  | .decl _ :: ss => .decl :: treeStms ss
  | .set a b :: ss => .set (treeOf a) (treeOf b) :: treeStms ss
  | .reg p _ c none none v :: ss => .reg (patOf p) (treeOf c) .none .none .none (treeOf v) :: treeStms ss
  | .reg p _ c none (some i) v :: ss =>
    .reg (patOf p) (treeOf c) .none .none (.some (treeOf i)) (treeOf v) :: treeStms ss
  | .reg p _ c (some (t, r)) none v :: ss =>
    .reg (patOf p) (treeOf c) (.some (treeOf t)) (.some (treeOf r)) .none (treeOf v) :: treeStms ss
  | .reg p _ c (some (t, r)) (some i) v :: ss =>
    .reg (patOf p) (treeOf c) (.some (treeOf t)) (.some (treeOf r)) (.some (treeOf i)) (treeOf v) ::
      treeStms ss
end

/-- The unit as the passes see it; the ids of the inputs do not matter here. -/
def unitOf (u : Check.Unit) : Unit := ⟨u.inputs.map fun i => ⟨i.1, i.1, false⟩, treeOf u.body⟩

/-! ## The other conditions on widths -/

mutual
/-- The conditions on widths of C62 (`Elab.Sized`) that nothing checks: that of the functions the compiler
generates code for itself, that vectors that are indexed have at most 2 ^ 32 bits, and that no literal
`-1` has width 0. -/
def Widths : Expr.Expr → Prop
  | .var _ _ | .bool _ _ => True
  | .int _ ty z => ty.size = 0 → z = 0
  | .bin _ _ _ l r => Widths l ∧ Widths r
  | .un _ _ _ e => Widths e
  | .tuple _ _ es | .array _ _ es => Widthss es
  | .proj _ _ e _ | .field _ _ e _ _ => e.ty.size ≤ 2 ^ 32 ∧ Widths e
  | .cast _ _ e | .rep _ _ e _ => Widths e
  | .elem _ _ a i => a.ty.size ≤ 2 ^ 32 ∧ Widths a ∧ Widths i
  | .range _ _ a _ _ => a.ty.size ≤ 2 ^ 32 ∧ Widths a
  | .block _ ss e => WidthsStms ss ∧ Widths e
  | .unitBlock _ ss => WidthsStms ss
  | .ite _ _ c a b => Widths c ∧ Widths a ∧ Widths b
  | .match _ _ e arms => e.ty.size ≤ 2 ^ 32 ∧ Widths e ∧ WidthsArms arms
  | .call _ ty (.intr i) args => IntrSide i (args.map Expr.Expr.ty) ty ∧ Widthss args
  | .call _ _ _ args => Widthss args
/-- All of them. -/
def Widthss : List Expr.Expr → Prop
  | [] => True
  | e :: es => Widths e ∧ Widthss es
/-- All of them. -/
def WidthsStms : List Expr.Stm → Prop
  | [] => True
  | .bind p e :: ss => PatSized p ∧ Widths e ∧ WidthsStms ss
  | .expr e :: ss | .assert e :: ss => Widths e ∧ WidthsStms ss
  | .decl :: ss => WidthsStms ss
/-- All of them. -/
def WidthsArms : List Expr.Arm → Prop
  | [] => True
  | .plain p e :: as => PatSized p ∧ Widths e ∧ WidthsArms as
  | .guarded p g e :: as => PatSized p ∧ Widths g ∧ Widths e ∧ WidthsArms as
end

theorem treeOf_id : ∀ e, (treeOf e).id = e.id := by
  intro e
  cases e with
  | block id ss r => cases r <;> simp [treeOf, Exp.id, Check.Exp.id]
  | _ => simp [treeOf, Exp.id, Check.Exp.id]

section
variable {X : Ctx} {Δ : Decls} {Γ : Typing}

theorem full_ne (hX : Coherent X Δ) {a : Check.Exp} {x : Expr.Expr} (ha : a.Ok Δ Γ)
    (hx : elabE X Γ a = some x) (h : full (X.idTy Γ) (treeOf a) = true) : x.ty.size ≠ 0 := by
  obtain ⟨t, h1, h2⟩ := full_iff.1 h
  rw [treeOf_id] at h1
  obtain ⟨t', h3, h4⟩ := Elab.idTy_some h1
  have := Elab.elabE_at hX ha hx h3
  rw [h4] at this
  cases this
  exact h2

mutual
theorem sized_of (hX : Coherent X Δ) : ∀ (e : Check.Exp) {x : Expr.Expr}, e.Ok Δ Γ → elabE X Γ e = some x →
    allE (sizeOk (X.idTy Γ)) (treeOf e) = true → Widths x → Sized x
  | .var id y, x, he, h, hp, hw => by
    simp only [elabE, Option.bind_eq_bind, Option.bind_eq_some_iff, Option.pure_def, Option.some.injEq] at h
    obtain ⟨m, hm, rfl⟩ := h
    simp only [Sized]
  | .tlBool id g, x, he, h, hp, hw => by
    simp only [elabE, Option.bind_eq_bind, Option.bind_eq_some_iff, Option.pure_def, Option.some.injEq] at h
    obtain ⟨m, hm, rfl⟩ := h
    simp only [Sized]
  | .tlInt id g, x, he, h, hp, hw => by
    simp only [elabE, Option.bind_eq_bind, Option.bind_eq_some_iff, Option.pure_def, Option.some.injEq] at h
    obtain ⟨m, hm, z, hg, rfl⟩ := h
    simpa only [Sized, Widths] using hw
  | .int id v k, x, he, h, hp, hw => by
    simp only [elabE, Option.bind_eq_bind, Option.bind_eq_some_iff, Option.pure_def, Option.some.injEq] at h
    obtain ⟨m, hm, rfl⟩ := h
    simpa only [Sized, Widths] using hw
  | .bool id b, x, he, h, hp, hw => by
    simp only [elabE, Option.some.injEq] at h
    subst h
    simp only [Sized]
  | .tuple id es, x, he, h, hp, hw => by
    simp only [elabE, Option.bind_eq_bind, Option.bind_eq_some_iff, Option.pure_def, Option.some.injEq] at h
    obtain ⟨m, hm, xs, hxs, rfl⟩ := h
    simp only [Check.Exp.Ok] at he
    obtain ⟨ts, _, he⟩ := he
    simp only [treeOf, allE, Bool.and_eq_true] at hp
    simp only [Widths] at hw
    simp only [Sized]
    exact sizeds_of hX es he hxs hp.1 hw
  | .proj id e k, x, he, h, hp, hw => by
    simp only [elabE, Option.bind_eq_bind, Option.bind_eq_some_iff, Option.pure_def, Option.some.injEq] at h
    obtain ⟨m, hm, y, hy, rfl⟩ := h
    simp only [Check.Exp.Ok] at he
    simp only [treeOf, allE, Bool.and_eq_true] at hp
    simp only [Widths] at hw
    simp only [Sized]
    exact ⟨hw.1, sized_of hX e he.1 hy hp.1 hw.2⟩
  | .field id e f, x, he, h, hp, hw => by
    simp only [elabE, Option.bind_eq_bind, Option.bind_eq_some_iff, Option.pure_def, Option.some.injEq] at h
    obtain ⟨m, hm, y, hy, s, hs, fs, hfs, rfl⟩ := h
    simp only [Check.Exp.Ok] at he
    simp only [treeOf, allE, Bool.and_eq_true] at hp
    simp only [Widths] at hw
    simp only [Sized]
    exact ⟨hw.1, sized_of hX e he.1 hy hp.1 hw.2⟩
  | .cast id e t, x, he, h, hp, hw => by
    simp only [elabE, Option.bind_eq_bind, Option.bind_eq_some_iff, Option.pure_def, Option.some.injEq] at h
    obtain ⟨m, hm, y, hy, rfl⟩ := h
    simp only [Check.Exp.Ok] at he
    simp only [treeOf, allE, Bool.and_eq_true] at hp
    simp only [Widths] at hw
    simp only [Sized]
    exact sized_of hX e he.1 hy hp.1 hw
  | .array id es, x, he, h, hp, hw => by
    simp only [elabE, Option.bind_eq_bind, Option.bind_eq_some_iff, Option.pure_def, Option.some.injEq] at h
    obtain ⟨m, hm, xs, hxs, rfl⟩ := h
    simp only [Check.Exp.Ok] at he
    obtain ⟨t, _, _, he⟩ := he
    simp only [treeOf, allE, Bool.and_eq_true] at hp
    simp only [Widths] at hw
    simp only [Sized]
    exact sizeds_of hX es he hxs hp.1 hw
  | .rep id e nid n, x, he, h, hp, hw => by
    simp only [elabE, Option.bind_eq_bind, Option.bind_eq_some_iff, Option.pure_def, Option.some.injEq] at h
    obtain ⟨m, hm, y, hy, k, hk, rfl⟩ := h
    simp only [Check.Exp.Ok] at he
    simp only [treeOf, allE, Bool.and_eq_true] at hp
    simp only [Widths] at hw
    simp only [Sized]
    exact sized_of hX e he.1 hy hp.1 hw
  | .elem id a i, x, he, h, hp, hw => by
    simp only [elabE, Option.bind_eq_bind, Option.bind_eq_some_iff, Option.pure_def, Option.some.injEq] at h
    obtain ⟨m, hm, y, hy, z, hz, rfl⟩ := h
    simp only [Check.Exp.Ok] at he
    simp only [treeOf, allE, Bool.and_eq_true] at hp
    simp only [Widths] at hw
    simp only [Sized]
    exact ⟨hw.1, sized_of hX a he.1 hy hp.1.1 hw.2.1, sized_of hX i he.2.1 hz hp.1.2 hw.2.2⟩
  | .range id a lo hi, x, he, h, hp, hw => by
    simp only [elabE, Option.bind_eq_bind, Option.bind_eq_some_iff, Option.pure_def, Option.some.injEq] at h
    obtain ⟨m, hm, y, hy, s, hs, t, ht, rfl⟩ := h
    simp only [Check.Exp.Ok] at he
    simp only [treeOf, allE, Bool.and_eq_true] at hp
    simp only [Widths] at hw
    simp only [Sized]
    exact ⟨hw.1, sized_of hX a he.1 hy hp.1 hw.2⟩
  | .block id ss none, x, he, h, hp, hw => by
    simp only [elabE, Option.bind_eq_bind, Option.bind_eq_some_iff, Option.pure_def, Option.some.injEq] at h
    obtain ⟨ts, hts, rfl⟩ := h
    simp only [Check.Exp.Ok] at he
    simp only [treeOf, allE, Bool.and_eq_true] at hp
    simp only [Widths] at hw
    simp only [Sized]
    exact sizedStms_of hX ss he.1 hts hp.1.1 hw
  | .block id ss (some r), x, he, h, hp, hw => by
    simp only [elabE, Option.bind_eq_bind, Option.bind_eq_some_iff, Option.pure_def, Option.some.injEq] at h
    obtain ⟨ts, hts, y, hy, rfl⟩ := h
    simp only [Check.Exp.Ok] at he
    simp only [treeOf, allE, allOpt, Bool.and_eq_true] at hp
    simp only [Widths] at hw
    simp only [Sized]
    exact ⟨sizedStms_of hX ss he.1 hts hp.1.1 hw.1, sized_of hX r he.2.1 hy hp.1.2 hw.2⟩
  | .ite id c a b, x, he, h, hp, hw => by
    simp only [elabE, Option.bind_eq_bind, Option.bind_eq_some_iff, Option.pure_def, Option.some.injEq] at h
    obtain ⟨m, hm, x1, h1, x2, h2, x3, h3, rfl⟩ := h
    simp only [Check.Exp.Ok] at he
    simp only [treeOf, allE, Bool.and_eq_true] at hp
    simp only [Widths] at hw
    simp only [Sized]
    exact ⟨sized_of hX c he.1 h1 hp.1.1.1 hw.1, sized_of hX a he.2.1 h2 hp.1.1.2 hw.2.1,
      sized_of hX b he.2.2.1 h3 hp.1.2 hw.2.2⟩
  | .genIf .., x, he, h, hp, hw => by simp [elabE] at h
  | .mtch id c arms, x, he, h, hp, hw => by
    simp only [elabE, Option.bind_eq_bind, Option.bind_eq_some_iff, Option.pure_def, Option.some.injEq] at h
    obtain ⟨m, hm, y, hy, as, has, rfl⟩ := h
    simp only [Check.Exp.Ok] at he
    obtain ⟨h1, _, tc, t, _, _, h2⟩ := he
    simp only [treeOf, allE, Bool.and_eq_true] at hp
    simp only [Widths] at hw
    simp only [Sized]
    exact ⟨hw.1, sized_of hX c h1 hy hp.1.1 hw.2.1, sizedArms_of hX arms h2 has hp.1.2 hw.2.2⟩
  | .bin id op a b, x, he, h, hp, hw => by
    simp only [elabE, Option.bind_eq_bind, Option.bind_eq_some_iff, Option.pure_def, Option.some.injEq] at h
    obtain ⟨m, hm, y, hy, z, hz, rfl⟩ := h
    simp only [Check.Exp.Ok] at he
    simp only [treeOf, allE, Bool.and_eq_true, sizeOk] at hp
    simp only [Widths] at hw
    simp only [Sized]
    exact ⟨full_ne hX he.1 hy hp.2.1, full_ne hX he.2.1 hz hp.2.2, sized_of hX a he.1 hy hp.1.1 hw.1,
      sized_of hX b he.2.1 hz hp.1.2 hw.2⟩
  | .un id op a, x, he, h, hp, hw => by
    simp only [elabE, Option.bind_eq_bind, Option.bind_eq_some_iff, Option.pure_def, Option.some.injEq] at h
    obtain ⟨m, hm, y, hy, rfl⟩ := h
    simp only [Check.Exp.Ok] at he
    simp only [treeOf, allE, Bool.and_eq_true] at hp
    simp only [Widths] at hw
    have ih := sized_of hX a he.1 hy hp.1 hw
    cases op with
    | neg => simp only [Elab.unOp, Sized]; exact ⟨full_ne hX he.1 hy hp.2, ih⟩
    | bitNot => simp only [Elab.unOp, Sized]; exact ⟨full_ne hX he.1 hy hp.2, ih⟩
    | not => simpa only [Elab.unOp, Sized] using ih
    | deref => simpa only [Elab.unOp, Sized] using ih
    | ref => simpa only [Elab.unOp, Sized] using ih
  | .call id f ts as, x, he, h, hp, hw => by
    simp only [elabE, Option.bind_eq_bind, Option.bind_eq_some_iff, Option.pure_def, Option.some.injEq] at h
    obtain ⟨m, hm, xs, hxs, c, hc, rfl⟩ := h
    simp only [Check.Exp.Ok] at he
    obtain ⟨hd, us, t, _, _, _, he, _⟩ := he
    simp only [treeOf, allE, Bool.and_eq_true] at hp
    cases c with
    | intr i =>
      simp only [Widths] at hw
      simp only [Sized]
      exact ⟨hw.1, sizeds_of hX as he hxs hp.1 hw.2⟩
    | variant i =>
      simp only [Widths] at hw
      simp only [Sized]
      exact sizeds_of hX as he hxs hp.1 hw
    | struct =>
      simp only [Widths] at hw
      simp only [Sized]
      exact sizeds_of hX as he hxs hp.1 hw
    | unit u =>
      simp only [Widths] at hw
      simp only [Sized]
      exact sizeds_of hX as he hxs hp.1 hw
theorem sizeds_of (hX : Coherent X Δ) : ∀ (es : List Check.Exp) {xs : List Expr.Expr} {us : List Infer.Spec.GT},
    Check.Exp.Oks Δ Γ es us → elabs X Γ es = some xs → allEs (sizeOk (X.idTy Γ)) (treesOf es) = true →
    Widthss xs → Sizeds xs
  | [], xs, us, he, h, hp, hw => by
    simp only [elabs, Option.some.injEq] at h
    subst h
    simp only [Sizeds]
  | e :: es, xs, us, he, h, hp, hw => by
    simp only [elabs, Option.bind_eq_bind, Option.bind_eq_some_iff, Option.pure_def, Option.some.injEq] at h
    obtain ⟨x, hx, xs, hxs, rfl⟩ := h
    simp only [Check.Exp.Oks] at he
    obtain ⟨u, us, rfl, _, h1, h2⟩ := he
    simp only [treesOf, allEs, Bool.and_eq_true] at hp
    simp only [Widthss] at hw
    simp only [Sizeds]
    exact ⟨sized_of hX e h1 hx hp.1 hw.1, sizeds_of hX es h2 hxs hp.2 hw.2⟩
theorem sizedArms_of (hX : Coherent X Δ) : ∀ (as : List Check.Arm) {xs : List Expr.Arm} {tc t : Infer.Spec.GT},
    Check.Arm.Oks Δ Γ tc t as → elabArms X Γ as = some xs →
    allArms (sizeOk (X.idTy Γ)) (treeArms as) = true → WidthsArms xs → SizedArms xs
  | [], xs, tc, t, he, h, hp, hw => by
    simp only [elabArms, Option.some.injEq] at h
    subst h
    simp only [SizedArms]
  | .mk p none e :: as, xs, tc, t, he, h, hp, hw => by
    simp only [elabArms, Option.bind_eq_bind, Option.bind_eq_some_iff, Option.pure_def, Option.some.injEq] at h
    obtain ⟨q, hq, x, hx, xs, hxs, rfl⟩ := h
    simp only [Check.Arm.Oks] at he
    simp only [treeArms, allArms, Bool.and_eq_true] at hp
    simp only [WidthsArms] at hw
    simp only [SizedArms]
    exact ⟨hw.1, sized_of hX e he.1.2.2.1 hx hp.1.2 hw.2.1, sizedArms_of hX as he.2 hxs hp.2 hw.2.2⟩
  | .mk p (some g) e :: as, xs, tc, t, he, h, hp, hw => by
    simp only [elabArms, Option.bind_eq_bind, Option.bind_eq_some_iff, Option.pure_def, Option.some.injEq] at h
    obtain ⟨q, hq, y, hy, x, hx, xs, hxs, rfl⟩ := h
    simp only [Check.Arm.Oks] at he
    simp only [treeArms, allArms, allOpt, Bool.and_eq_true] at hp
    simp only [WidthsArms] at hw
    simp only [SizedArms]
    exact ⟨hw.1, sized_of hX g he.1.2.2.1.1 hy hp.1.1 hw.2.1, sized_of hX e he.1.2.2.2.1 hx hp.1.2 hw.2.2.1,
      sizedArms_of hX as he.2 hxs hp.2 hw.2.2.2⟩
theorem sizedStms_of (hX : Coherent X Δ) : ∀ (ss : List Check.Stmt) {xs : List Expr.Stm},
    Check.Stmt.Oks Δ Γ ss → elabStms X Γ ss = some xs →
    allStms (sizeOk (X.idTy Γ)) (treeStms ss) = true → WidthsStms xs → SizedStms xs
  | [], xs, he, h, hp, hw => by
    simp only [elabStms, Option.some.injEq] at h
    subst h
    simp only [SizedStms]
  | .bind p ty e :: ss, xs, he, h, hp, hw => by
    simp only [elabStms, Option.bind_eq_bind, Option.bind_eq_some_iff, Option.pure_def, Option.some.injEq] at h
    obtain ⟨q, hq, x, hx, xs, hxs, rfl⟩ := h
    simp only [Check.Stmt.Oks, Check.Stmt.Ok] at he
    simp only [treeStms, allStms, allStm, Bool.and_eq_true] at hp
    simp only [WidthsStms] at hw
    simp only [SizedStms]
    exact ⟨hw.1, sized_of hX e he.1.1 hx hp.1 hw.2.1, sizedStms_of hX ss he.2 hxs hp.2 hw.2.2⟩
  | .expr e :: ss, xs, he, h, hp, hw => by
    simp only [elabStms, Option.bind_eq_bind, Option.bind_eq_some_iff, Option.pure_def, Option.some.injEq] at h
    obtain ⟨x, hx, xs, hxs, rfl⟩ := h
    simp only [Check.Stmt.Oks, Check.Stmt.Ok] at he
    simp only [treeStms, allStms, allStm, Bool.and_eq_true] at hp
    simp only [WidthsStms] at hw
    simp only [SizedStms]
    exact ⟨sized_of hX e he.1 hx hp.1 hw.1, sizedStms_of hX ss he.2 hxs hp.2 hw.2⟩
  | .assert e :: ss, xs, he, h, hp, hw => by
    simp only [elabStms, Option.bind_eq_bind, Option.bind_eq_some_iff, Option.pure_def, Option.some.injEq] at h
    obtain ⟨x, hx, xs, hxs, rfl⟩ := h
    simp only [Check.Stmt.Oks, Check.Stmt.Ok] at he
    simp only [treeStms, allStms, allStm, Bool.and_eq_true] at hp
    simp only [WidthsStms] at hw
    simp only [SizedStms]
    exact ⟨sized_of hX e he.1.1 hx hp.1 hw.1, sizedStms_of hX ss he.2 hxs hp.2 hw.2⟩
  | .decl _ :: ss, xs, he, h, hp, hw => by
    simp only [elabStms, Option.bind_eq_bind, Option.bind_eq_some_iff, Option.pure_def, Option.some.injEq] at h
    obtain ⟨xs, hxs, rfl⟩ := h
    simp only [Check.Stmt.Oks] at he
    simp only [treeStms, allStms, allStm, Bool.and_eq_true] at hp
    simp only [WidthsStms] at hw
    simp only [SizedStms]
    exact sizedStms_of hX ss he.2 hxs hp.2 hw
  | .set .. :: ss, xs, he, h, hp, hw => by simp [elabStms] at h
  | .reg .. :: ss, xs, he, h, hp, hw => by simp [elabStms] at h
end
end

/-- C62 with C68 (what holds of it).  The conditions on operands that `C62_source_function_computes_partial` assumes follow
from the check: instances that type inference and the check of operands accept compute the values of the
source. -/
theorem C62_checked_function_computes_partial (X : Ctx) (Δ : Decls) (insts : Nat → Option Inst)
    (nids : Nat → Nat) (hX : Coherent X Δ) (hn : Δ.NumbersOk)
    (hacc : ∀ u i, insts u = some i → Accepted Δ i ∧ Listed X Δ i)
    (hchk : ∀ u i, insts u = some i →
      applyUnit (zeroSize (X.idTy i.types)) (unitOf i.unit) = some (unitOf i.unit))
    (hel : ∀ u i, insts u = some i → ∃ f, i.fn X = some f ∧ Widths f.body ∧ f.Resolved (nids u) ∧
      ∃ h, Expr.lowerFn f (nids u) = some h ∧ ∀ j ∈ h.items, j.Typed h.types)
    (hreq : ∀ f as u, X.inst f as = some u ↔ ∃ i, insts u = some i ∧ i.name = f ∧ i.args = as)
    (hA : (elabProg X insts).Acyclic)
    (u : Nat) (i : Inst) (hu : insts u = some i) (vs : List Match.Val) (v : Match.Val)
    (hv : Elab.Value X Δ insts i.types (Elab.inputScope i.unit vs) i.unit.body v)
    (ms : List MTy) (hms : ms.map some = i.unit.inputs.map fun p => X.nameTy i.types p.1)
    (ins : List Verilog.Bits) (hins : Lower.EncAll ms vs ins) :
    (∃ out, Expr.Produces (Expr.lowerProg (elabProg X insts) nids) u ins out) ∧
    ∀ out, Expr.Produces (Expr.lowerProg (elabProg X insts) nids) u ins out →
      ∃ m, X.idTy i.types i.unit.body.id = some m ∧ Lower.Enc m v out := by
  refine Elab.C62_source_function_computes_partial X Δ insts nids hX hn hacc (fun k j hk => ?_) hreq hA u i hu
    vs v hv ms hms ins hins
  obtain ⟨f, h1, h2, h3⟩ := hel k j hk
  refine ⟨f, h1, ?_, h3⟩
  have hok := (Elab.instOk_of_accepted hn (hacc k j hk).1 (hacc k j hk).2).typed
  simp only [Inst.fn, Elab.elabUnit, Option.bind_eq_bind, Option.bind_eq_some_iff, Option.pure_def,
    Option.some.injEq] at h1
  obtain ⟨ps, hps, b, hb, rfl⟩ := h1
  refine sized_of hX _ hok.2.2.1 hb (allE_of _ fun x hx => ?_) h2
  exact (sizeOk_iff x).2 (((C68_zero_size _ _ _).1 (hchk k j hk)).2 x hx)

end Spade.Pass

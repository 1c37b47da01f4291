import Verif.Elab.Intr

/-!
# From types to hardware types: well-typed units become well-typed expressions (expressions)
-/

namespace Spade.Elab

open Spade.Infer.Spec (Kind Base GT TExpr Val Value LeastInt LeastUint)
open Spade.Check
open Spade.Codegen (MTy IsNum InRange SrcBin BinTy)
open Spade.Lower (LPat)

/-- Calls of units go to units with the signature of the call. -/
def SigOk (X : Ctx) (Δ : Decls) (sig : Nat → Option (List MTy × MTy)) : Prop :=
  ∀ f h θ as u us ms t m, X.items f = some .unit → Δ.heads f = some h → callArgs h.params θ = some as →
    X.inst f as = some u → TSpec.Are θ h.inputs us → X.mirs us = some ms → OutIs θ h.output t →
    X.mir t = some m → sig u = some (ms, m)

theorem natAt_of {Γ : Typing} {id : Nat} {v : Int} {n : Nat} (h : Γ.id id = some (.node (.int v) []))
    (hn : natAt Γ id = some n) : v = n := by
  simp only [natAt, h] at hn
  split at hn
  next hv => cases hn; omega
  next => exact nomatch hn

theorem bound_of {Γ : Typing} {b : Option (Nat × TExpr)} {d : Nat} {v : Int} {o : Option Nat}
    (h : BoundIs Γ b d v) (ho : boundAt Γ b = some o) : v = (o.getD d : Nat) := by
  cases b with
  | none =>
    simp only [boundAt, Option.some.injEq] at ho
    subst ho
    simpa [BoundIs] using h
  | some p =>
    obtain ⟨id, e⟩ := p
    simp only [boundAt, Option.map_eq_some_iff] at ho
    obtain ⟨n, hn, rfl⟩ := ho
    simp only [BoundIs] at h
    exact natAt_of h.1 hn

theorem least_width {n w : Nat} (h1 : 1 ≤ n) (h : LeastUint ((n : Int) - 1) w) : n = 1 ∨ w ≠ 0 := by
  rcases Nat.eq_zero_or_pos w with rfl | hw
  · obtain ⟨⟨b, hb⟩, _⟩ := h
    have := b.isLt
    simp only [Nat.pow_zero] at this
    left; omega
  · right; omega

theorem sized_un {id : Nat} {ty : MTy} {op : UnOp} {e : Expr.Expr} (h : Sized (.un id ty (unOp op) e)) :
    (op = .neg ∨ op = .bitNot → e.ty.size ≠ 0) ∧ Sized e := by
  cases op <;> simp only [unOp, Sized] at h
  · exact ⟨fun _ => h.1, h.2⟩
  · exact ⟨fun _ => h.1, h.2⟩
  all_goals exact ⟨by simp, h⟩

section
variable {X : Ctx} {Δ : Decls} {Γ : Typing} {sig : Nat → Option (List MTy × MTy)} {T : Nat → MTy}

/-- The type of an elaborated expression is that of its id. -/
theorem elabE_at (hX : Coherent X Δ) {e : Exp} {x : Expr.Expr} {t : GT} (he : e.Ok Δ Γ)
    (h : elabE X Γ e = some x) (ht : Γ.id e.id = some t) : X.mir t = some x.ty := by
  obtain ⟨t', h1, h2⟩ := elabE_ty hX e he h
  cases some_det ht h1
  exact h2

theorem elabPat_at (hX : Coherent X Δ) {p : Pat} {q : LPat} {t : GT} (hp : p.Ok Δ Γ)
    (h : elabPat X Γ p = some q) (ht : Γ.id p.id = some t) : X.mir t = some q.ty := by
  obtain ⟨t', h1, h2⟩ := elabPat_ty hX hp h
  cases some_det ht h1
  exact h2

theorem idTy_at {id : Nat} {m : MTy} {t : GT} (h : X.idTy Γ id = some m) (ht : Γ.id id = some t) :
    X.mir t = some m := by
  obtain ⟨t', h1, h2⟩ := idTy_some h
  cases some_det ht h1
  exact h2

theorem declared_at (hT : Declared X Γ T) {x : Nat} {t : GT} {m : MTy}
    (h : Γ.name x = some t) (hm : X.mir t = some m) : T (sigName x) = m :=
  hT x m (by simp [Ctx.nameTy, h, hm])

mutual
theorem elabE_ok (hX : Coherent X Δ) (hS : SigOk X Δ sig) (hT : Declared X Γ T) : ∀ (e : Exp) {x : Expr.Expr},
    e.Ok Δ Γ → elabE X Γ e = some x → Sized x → x.Ok sig T
  | .var id y, x, he, h, hz => by
    simp only [elabE, Option.bind_eq_bind, Option.bind_eq_some_iff, Option.pure_def,
      Option.some.injEq] at h
    obtain ⟨m, hm, rfl⟩ := h
    simp only [Exp.Ok] at he
    obtain ⟨t, h1, _, h2⟩ := he
    simp only [Expr.Expr.Ok]
    exact declared_at hT h2 (idTy_at hm h1)
  | .tlBool id g, x, he, h, hz => by
    simp only [elabE, Option.bind_eq_bind, Option.bind_eq_some_iff, Option.pure_def,
      Option.some.injEq] at h
    obtain ⟨b, _, rfl⟩ := h
    simp only [Expr.Expr.Ok]
  | .tlInt id g, x, he, h, hz => by
    simp only [elabE, Option.bind_eq_bind, Option.bind_eq_some_iff, Option.pure_def,
      Option.some.injEq] at h
    obtain ⟨m, hm, z, hg, rfl⟩ := h
    simp only [Exp.Ok] at he
    obtain ⟨t, v, h1, h2, h3⟩ := he
    simp only [intGen, h2, Option.some.injEq] at hg
    subst hg
    simp only [Sized] at hz
    simp only [Expr.Expr.Ok]
    exact litOk_inRange hX h3 (idTy_at hm h1) hz
  | .int id v k, x, he, h, hz => by
    simp only [elabE, Option.bind_eq_bind, Option.bind_eq_some_iff, Option.pure_def,
      Option.some.injEq] at h
    obtain ⟨m, hm, rfl⟩ := h
    simp only [Exp.Ok] at he
    obtain ⟨t, h1, h3, _⟩ := he
    simp only [Sized] at hz
    simp only [Expr.Expr.Ok]
    exact litOk_inRange hX h3 (idTy_at hm h1) hz
  | .bool id b, x, he, h, hz => by
    simp only [elabE, Option.some.injEq] at h
    subst h
    simp only [Expr.Expr.Ok]
  | .tuple id es, x, he, h, hz => by
    simp only [elabE, Option.bind_eq_bind, Option.bind_eq_some_iff, Option.pure_def,
      Option.some.injEq] at h
    obtain ⟨m, hm, xs, hxs, rfl⟩ := h
    simp only [Exp.Ok] at he
    obtain ⟨ts, h1, h2⟩ := he
    simp only [Sized] at hz
    obtain ⟨h3, h4⟩ := elabs_ok hX hS hT es h2 hxs hz
    obtain ⟨ms, h5, rfl⟩ := mir_tup (idTy_at hm h1)
    cases some_det h4 h5
    simp only [Expr.Expr.Ok]
    exact ⟨trivial, h3⟩
  | .proj id e k, x, he, h, hz => by
    simp only [elabE, Option.bind_eq_bind, Option.bind_eq_some_iff, Option.pure_def,
      Option.some.injEq] at h
    obtain ⟨m, hm, y, hy, rfl⟩ := h
    simp only [Exp.Ok] at he
    obtain ⟨he, t, u, h1, h2, h3⟩ := he
    simp only [Sized] at hz
    simp only [Expr.Expr.Ok]
    obtain ⟨ts, a, h4, h5, h6⟩ := mir_elem h3 (elabE_at hX he hy h1)
    exact ⟨⟨ts, a, h4, h5, some_det (idTy_at hm h2) h6⟩, hz.1, elabE_ok hX hS hT e he hy hz.2⟩
  | .field id e f, x, he, h, hz => by
    simp only [elabE, Option.bind_eq_bind, Option.bind_eq_some_iff, Option.pure_def,
      Option.some.injEq] at h
    obtain ⟨m, hm, y, hy, s, ⟨t', ht', hs⟩, fs, hfs, rfl⟩ := h
    simp only [Exp.Ok] at he
    obtain ⟨he, t, u, h1, h2, _, h3⟩ := he
    cases some_det h1 ht'
    simp only [Sized] at hz
    simp only [Expr.Expr.Ok]
    obtain ⟨ts, h4, h5, h6⟩ := mir_field hX h3 (elabE_at hX he hy h1) hs hfs
    exact ⟨⟨ts, h4, h5, fun k a hk ha => some_det (idTy_at hm h2) (h6 k a hk ha)⟩, hz.1,
      elabE_ok hX hS hT e he hy hz.2⟩
  | .cast id e s, x, he, h, hz => by
    simp only [elabE, Option.bind_eq_bind, Option.bind_eq_some_iff, Option.pure_def,
      Option.some.injEq] at h
    obtain ⟨m, hm, y, hy, rfl⟩ := h
    simp only [Exp.Ok] at he
    obtain ⟨he, t, h1, h2, _⟩ := he
    simp only [Sized] at hz
    simp only [Expr.Expr.Ok]
    exact ⟨some_det (idTy_at hm h2) (elabE_at hX he hy h1), elabE_ok hX hS hT e he hy hz⟩
  | .array id es, x, he, h, hz => by
    simp only [elabE, Option.bind_eq_bind, Option.bind_eq_some_iff, Option.pure_def,
      Option.some.injEq] at h
    obtain ⟨m, hm, xs, hxs, rfl⟩ := h
    simp only [Exp.Ok] at he
    obtain ⟨t, h1, _, h2⟩ := he
    simp only [Sized] at hz
    obtain ⟨h3, h4⟩ := elabs_ok hX hS hT es h2 hxs hz
    obtain ⟨a, h5, rfl⟩ := mir_arr (idTy_at hm h1)
    have h6 := mirs_replicate h5 h4
    have h7 : xs.length = es.length := by
      have := congrArg List.length h6
      simpa using this
    simp only [Expr.Expr.Ok, h7]
    refine ⟨⟨a, rfl, fun y hy => ?_⟩, h3⟩
    have : y.ty ∈ xs.map Expr.Expr.ty := List.mem_map.2 ⟨y, hy, rfl⟩
    rw [h6] at this
    exact List.eq_of_mem_replicate this
  | .rep id e nid n, x, he, h, hz => by
    simp only [elabE, Option.bind_eq_bind, Option.bind_eq_some_iff, Option.pure_def,
      Option.some.injEq] at h
    obtain ⟨m, hm, y, hy, k', hk', rfl⟩ := h
    simp only [Exp.Ok] at he
    obtain ⟨he, t, k, h1, h2, h3, _⟩ := he
    simp only [Sized] at hz
    simp only [Expr.Expr.Ok]
    obtain ⟨a, h5, rfl⟩ := mir_arr (idTy_at hm h2)
    have h6 := natAt_of h3 hk'
    have h6 : k = k' := by omega
    subst h6
    cases some_det h5 (elabE_at hX he hy h1)
    exact ⟨rfl, elabE_ok hX hS hT e he hy hz⟩
  | .elem id a i, x, he, h, hz => by
    simp only [elabE, Option.bind_eq_bind, Option.bind_eq_some_iff, Option.pure_def,
      Option.some.injEq] at h
    obtain ⟨m, hm, y, hy, z, hzz, rfl⟩ := h
    simp only [Exp.Ok] at he
    obtain ⟨ha, hi, t, n, w, h1, h2, h3, h4, h5⟩ := he
    simp only [Sized] at hz
    simp only [Expr.Expr.Ok]
    obtain ⟨b, h6, h7⟩ := mir_arr (elabE_at hX ha hy h1)
    cases some_det h6 (idTy_at hm h2)
    have h8 := mir_num hX (elabE_at hX hi hzz h3)
    simp only [Bool.false_eq_true, if_false] at h8
    exact ⟨⟨n, w, h7, h8, least_width h4 h5⟩, hz.1, elabE_ok hX hS hT a ha hy hz.2.1,
      elabE_ok hX hS hT i hi hzz hz.2.2⟩
  | .range id a lo hi, x, he, h, hz => by
    simp only [elabE, Option.bind_eq_bind, Option.bind_eq_some_iff, Option.pure_def,
      Option.some.injEq] at h
    obtain ⟨m, hm, y, hy, s', hs', e', he', rfl⟩ := h
    simp only [Exp.Ok] at he
    obtain ⟨ha, t, n, k, s, e, h1, h2, h3, h4, h5, h6, h7⟩ := he
    simp only [Sized] at hz
    simp only [Expr.Expr.Ok]
    obtain ⟨b, h8, h9⟩ := mir_arr (elabE_at hX ha hy h1)
    obtain ⟨b', h10, rfl⟩ := mir_arr (idTy_at hm h2)
    cases some_det h8 h10
    have hs := bound_of (d := 0) h3 hs'
    have hE := bound_of h4 he'
    refine ⟨⟨b, n, h9, by omega, by omega, ?_⟩, hz.1, elabE_ok hX hS hT a ha hy hz.2⟩
    have : k = e'.getD n - s'.getD 0 := by omega
    rw [this]
  | .block id ss none, x, he, h, hz => by
    simp only [elabE, Option.bind_eq_bind, Option.bind_eq_some_iff, Option.pure_def,
      Option.some.injEq] at h
    obtain ⟨ts, hts, rfl⟩ := h
    simp only [Exp.Ok] at he
    simp only [Sized] at hz
    simp only [Expr.Expr.Ok]
    exact elabStms_ok hX hS hT ss he.1 hts hz
  | .block id ss (some r), x, he, h, hz => by
    simp only [elabE, Option.bind_eq_bind, Option.bind_eq_some_iff, Option.pure_def,
      Option.some.injEq] at h
    obtain ⟨ts, hts, y, hy, rfl⟩ := h
    simp only [Exp.Ok] at he
    simp only [Sized] at hz
    simp only [Expr.Expr.Ok]
    exact ⟨elabStms_ok hX hS hT ss he.1 hts hz.1, elabE_ok hX hS hT r he.2.1 hy hz.2⟩
  | .ite id c a b, x, he, h, hz => by
    simp only [elabE, Option.bind_eq_bind, Option.bind_eq_some_iff, Option.pure_def,
      Option.some.injEq] at h
    obtain ⟨m, hm, x1, hx1, x2, hx2, x3, hx3, rfl⟩ := h
    simp only [Exp.Ok] at he
    obtain ⟨h1, h2, h3, h4, t, h5, h6, h7⟩ := he
    simp only [Sized] at hz
    simp only [Expr.Expr.Ok]
    exact ⟨mir_bool hX (elabE_at hX h1 hx1 h4), some_det (elabE_at hX h2 hx2 h5) (idTy_at hm h7),
      some_det (elabE_at hX h3 hx3 h6) (idTy_at hm h7), elabE_ok hX hS hT c h1 hx1 hz.1,
      elabE_ok hX hS hT a h2 hx2 hz.2.1, elabE_ok hX hS hT b h3 hx3 hz.2.2⟩
  | .genIf .., x, he, h, hz => by simp [elabE] at h
  | .mtch id c arms, x, he, h, hz => by
    simp only [elabE, Option.bind_eq_bind, Option.bind_eq_some_iff, Option.pure_def,
      Option.some.injEq] at h
    obtain ⟨m, hm, x1, hx1, as, has, rfl⟩ := h
    simp only [Exp.Ok] at he
    obtain ⟨h1, _, tc, t, h2, h3, h4⟩ := he
    simp only [Sized] at hz
    simp only [Expr.Expr.Ok]
    exact ⟨elabE_ok hX hS hT c h1 hx1 hz.2.1, hz.1,
      elabArms_ok hX hS hT arms h4 has hz.2.2 (elabE_at hX h1 hx1 h2) (idTy_at hm h3)⟩
  | .bin id op a b, x, he, h, hz => by
    simp only [elabE, Option.bind_eq_bind, Option.bind_eq_some_iff, Option.pure_def,
      Option.some.injEq] at h
    obtain ⟨m, hm, x1, hx1, x2, hx2, rfl⟩ := h
    simp only [Exp.Ok] at he
    obtain ⟨h1, h2, ta, tb, t, h3, h4, h5, h6⟩ := he
    simp only [Sized] at hz
    simp only [Expr.Expr.Ok]
    exact ⟨bin_ok hX h6 (elabE_at hX h1 hx1 h3) (elabE_at hX h2 hx2 h4) (idTy_at hm h5), hz.1, hz.2.1,
      elabE_ok hX hS hT a h1 hx1 hz.2.2.1, elabE_ok hX hS hT b h2 hx2 hz.2.2.2⟩
  | .un id op a, x, he, h, hz => by
    simp only [elabE, Option.bind_eq_bind, Option.bind_eq_some_iff, Option.pure_def,
      Option.some.injEq] at h
    obtain ⟨m, hm, x1, hx1, rfl⟩ := h
    simp only [Exp.Ok] at he
    obtain ⟨h1, ta, t, h3, h5, h6⟩ := he
    obtain ⟨z1, z2⟩ := sized_un hz
    simp only [Expr.Expr.Ok]
    exact ⟨un_ok hX h6 (elabE_at hX h1 hx1 h3) (idTy_at hm h5) z1, elabE_ok hX hS hT a h1 hx1 z2⟩
  | .call id f ts as, x, he, h, hz => by
    simp only [elabE, Option.bind_eq_bind, Option.bind_eq_some_iff, Option.pure_def,
      Option.some.injEq] at h
    obtain ⟨m, hm, xs, hxs, c, hc, rfl⟩ := h
    simp only [Exp.Ok] at he
    obtain ⟨hd, us, t, h1, h2, h3, h4, h5, h6, h7⟩ := he
    have hmt := idTy_at hm h5
    unfold callee at hc
    split at hc
    next i hi =>
      cases hc
      simp only [Sized] at hz
      obtain ⟨h8, h9⟩ := elabs_ok hX hS hT as h4 hxs hz.2
      have := hX.items _ _ hi
      simp only [ItemOk] at this
      cases some_det h1 this
      simp only [Expr.Expr.Ok]
      exact ⟨intr_ok hX i h2.2.2 h3 h6 h7 h9 hmt hz.1, h8⟩
    next n i hi =>
      cases hc
      simp only [Sized] at hz
      obtain ⟨h8, h9⟩ := elabs_ok hX hS hT as h4 hxs hz
      obtain ⟨ps', ws, os, fs, a1, a2, a3, a4⟩ := hX.items _ _ hi
      cases some_det h1 a3
      obtain ⟨opts, ms, rfl, h10, h11⟩ := mir_variant a1 a2 h6 h3 hmt
      cases some_det h9 h10
      simp only [Expr.Expr.Ok]
      exact ⟨⟨opts, rfl, h11⟩, h8⟩
    next n hi =>
      cases hc
      simp only [Sized] at hz
      obtain ⟨h8, h9⟩ := elabs_ok hX hS hT as h4 hxs hz
      obtain ⟨ps', ws, fs, a1, a3, a4⟩ := hX.items _ _ hi
      cases some_det h1 a3
      obtain ⟨ms, rfl, h10⟩ := mir_struct a1 h6 h3 hmt
      cases some_det h9 h10
      simp only [Expr.Expr.Ok]
      exact ⟨trivial, h8⟩
    next hd' hi hh =>
      simp only [Option.bind_eq_bind, Option.bind_eq_some_iff, Option.pure_def, Option.some.injEq] at hc
      obtain ⟨gs, hgs, u, hu, rfl⟩ := hc
      simp only [Sized] at hz
      obtain ⟨h8, h9⟩ := elabs_ok hX hS hT as h4 hxs hz
      rw [hX.heads] at hh
      cases some_det h1 hh
      simp only [Expr.Expr.Ok]
      exact ⟨hS f hd _ gs u us _ t m hi h1 hgs hu h3 h9 h6 hmt, h8⟩
    next => exact nomatch hc
theorem elabs_ok (hX : Coherent X Δ) (hS : SigOk X Δ sig) (hT : Declared X Γ T) : ∀ (es : List Exp) {xs : List Expr.Expr}
    {us : List GT}, Exp.Oks Δ Γ es us → elabs X Γ es = some xs → Sizeds xs →
    Expr.Exprs.Ok sig T xs ∧ X.mirs us = some (xs.map Expr.Expr.ty)
  | [], xs, us, he, h, hz => by
    simp only [elabs, Option.some.injEq] at h
    simp only [Exp.Oks] at he
    subst h he
    exact ⟨by simp only [Expr.Exprs.Ok], by simp [Ctx.mirs]⟩
  | e :: es, xs, us, he, h, hz => by
    simp only [elabs, Option.bind_eq_bind, Option.bind_eq_some_iff, Option.pure_def,
      Option.some.injEq] at h
    obtain ⟨x, hx, xs, hxs, rfl⟩ := h
    simp only [Exp.Oks] at he
    obtain ⟨u, us, rfl, hu, he, hes⟩ := he
    simp only [Sizeds] at hz
    obtain ⟨h1, h2⟩ := elabs_ok hX hS hT es hes hxs hz.2
    exact ⟨by simp only [Expr.Exprs.Ok]; exact ⟨elabE_ok hX hS hT e he hx hz.1, h1⟩,
      by simp [Ctx.mirs, elabE_at hX he hx hu, h2]⟩
theorem elabArms_ok (hX : Coherent X Δ) (hS : SigOk X Δ sig) (hT : Declared X Γ T) : ∀ (as : List Arm)
    {xs : List Expr.Arm} {tc t : GT} {mc m : MTy}, Arm.Oks Δ Γ tc t as → elabArms X Γ as = some xs →
    SizedArms xs → X.mir tc = some mc → X.mir t = some m →
    Expr.Arms.Ok sig T mc m xs
  | [], xs, tc, t, mc, m, he, h, hz, hc, hm => by
    simp only [elabArms, Option.some.injEq] at h
    subst h
    simp only [Expr.Arms.Ok]
  | .mk p none e :: as, xs, tc, t, mc, m, he, h, hz, hc, hm => by
    simp only [elabArms, Option.bind_eq_bind, Option.bind_eq_some_iff, Option.pure_def,
      Option.some.injEq] at h
    obtain ⟨q, hq, x, hx, xs, hxs, rfl⟩ := h
    simp only [Arm.Oks] at he
    obtain ⟨⟨h1, h2, h3, h4⟩, h5⟩ := he
    simp only [SizedArms] at hz
    simp only [Expr.Arms.Ok]
    exact ⟨some_det (elabPat_at hX h1 hq h2) hc, patOk hX h1 hq hz.1,
      some_det (elabE_at hX h3 hx h4) hm, elabE_ok hX hS hT e h3 hx hz.2.1,
      elabArms_ok hX hS hT as h5 hxs hz.2.2 hc hm⟩
  | .mk p (some g) e :: as, xs, tc, t, mc, m, he, h, hz, hc, hm => by
    simp only [elabArms, Option.bind_eq_bind, Option.bind_eq_some_iff, Option.pure_def,
      Option.some.injEq] at h
    obtain ⟨q, hq, y, hy, x, hx, xs, hxs, rfl⟩ := h
    simp only [Arm.Oks] at he
    obtain ⟨⟨h1, h2, ⟨h6, h7⟩, h3, h4⟩, h5⟩ := he
    simp only [SizedArms] at hz
    simp only [Expr.Arms.Ok]
    exact ⟨some_det (elabPat_at hX h1 hq h2) hc, patOk hX h1 hq hz.1,
      mir_bool hX (elabE_at hX h6 hy h7), elabE_ok hX hS hT g h6 hy hz.2.1,
      some_det (elabE_at hX h3 hx h4) hm, elabE_ok hX hS hT e h3 hx hz.2.2.1,
      elabArms_ok hX hS hT as h5 hxs hz.2.2.2 hc hm⟩
theorem elabStms_ok (hX : Coherent X Δ) (hS : SigOk X Δ sig) (hT : Declared X Γ T) : ∀ (ss : List Stmt)
    {xs : List Expr.Stm}, Stmt.Oks Δ Γ ss → elabStms X Γ ss = some xs → SizedStms xs →
    Expr.Stms.Ok sig T xs
  | [], xs, he, h, hz => by
    simp only [elabStms, Option.some.injEq] at h
    subst h
    simp only [Expr.Stms.Ok]
  | .bind p ty e :: ss, xs, he, h, hz => by
    simp only [elabStms, Option.bind_eq_bind, Option.bind_eq_some_iff, Option.pure_def,
      Option.some.injEq] at h
    obtain ⟨q, hq, x, hx, xs, hxs, rfl⟩ := h
    simp only [Stmt.Oks, Stmt.Ok] at he
    obtain ⟨⟨h1, h2, t, h3, h4, _⟩, h5⟩ := he
    simp only [SizedStms] at hz
    simp only [Expr.Stms.Ok]
    exact ⟨some_det (elabPat_at hX h2 hq h3) (elabE_at hX h1 hx h4), patOk hX h2 hq hz.1,
      elabE_ok hX hS hT e h1 hx hz.2.1, elabStms_ok hX hS hT ss h5 hxs hz.2.2⟩
  | .expr e :: ss, xs, he, h, hz => by
    simp only [elabStms, Option.bind_eq_bind, Option.bind_eq_some_iff, Option.pure_def,
      Option.some.injEq] at h
    obtain ⟨x, hx, xs, hxs, rfl⟩ := h
    simp only [Stmt.Oks, Stmt.Ok] at he
    simp only [SizedStms] at hz
    simp only [Expr.Stms.Ok]
    exact ⟨elabE_ok hX hS hT e he.1 hx hz.1, elabStms_ok hX hS hT ss he.2 hxs hz.2⟩
  | .assert e :: ss, xs, he, h, hz => by
    simp only [elabStms, Option.bind_eq_bind, Option.bind_eq_some_iff, Option.pure_def,
      Option.some.injEq] at h
    obtain ⟨x, hx, xs, hxs, rfl⟩ := h
    simp only [Stmt.Oks, Stmt.Ok] at he
    simp only [SizedStms] at hz
    simp only [Expr.Stms.Ok]
    exact ⟨mir_bool hX (elabE_at hX he.1.1 hx he.1.2), elabE_ok hX hS hT e he.1.1 hx hz.1,
      elabStms_ok hX hS hT ss he.2 hxs hz.2⟩
  | .decl _ :: ss, xs, he, h, hz => by
    simp only [elabStms, Option.bind_eq_bind, Option.bind_eq_some_iff, Option.pure_def,
      Option.some.injEq] at h
    obtain ⟨xs, hxs, rfl⟩ := h
    simp only [Stmt.Oks] at he
    simp only [SizedStms] at hz
    simp only [Expr.Stms.Ok]
    exact elabStms_ok hX hS hT ss he.2 hxs hz
  | .set .. :: ss, xs, he, h, hz => by simp [elabStms] at h
  | .reg .. :: ss, xs, he, h, hz => by simp [elabStms] at h
end
end

end Spade.Elab

import Verif.Elab.Det

/-!
# From types to hardware types: well-typed units become well-typed expressions
-/

namespace Spade.Elab

open Spade.Infer.Spec (Kind Base GT TExpr Val Value LeastInt LeastUint)
open Spade.Check
open Spade.Codegen (MTy IsNum InRange SrcBin BinTy)
open Spade.Lower (LPat)

theorem idTy_some {X : Ctx} {Γ : Typing} {id : Nat} {m : MTy} (h : X.idTy Γ id = some m) :
    ∃ t, Γ.id id = some t ∧ X.mir t = some m := by
  simpa only [Ctx.idTy, Option.bind_eq_some_iff] using h

theorem mir_tBool {X : Ctx} {Δ : Decls} (hX : Coherent X Δ) : X.mir tBool = some .bool := by
  apply mir_of_ground
  simp only [tBool, groundConc, groundConcs, Option.bind_some]
  have := hX.depth
  cases h : X.depth with
  | zero => exact absurd h this
  | succ k => simp [declConc, hX.bool, defConc, primTy]

theorem litOk_inRange {X : Ctx} {Δ : Decls} (hX : Coherent X Δ) {t : GT} {v : Int} {m : MTy}
    (h : LitOk t v) (hm : X.mir t = some m) (hz : m.size = 0 → v = 0) : InRange m v := by
  obtain ⟨n, h⟩ := h
  rcases h with ⟨rfl, b, rfl⟩ | ⟨rfl, h⟩
  · have := mir_num hX hm
    simp only [Bool.false_eq_true, if_false] at this
    subst this
    refine ⟨by omega, ?_⟩
    have := b.isLt
    exact_mod_cast this
  · have := mir_num hX hm
    simp only [if_true] at this
    subst this
    simp only [Codegen.MTy.size] at hz
    rcases Nat.eq_zero_or_pos n with hn | hn
    · exact .inl ⟨hn, hz hn⟩
    · refine .inr ⟨hn, ?_⟩
      rcases h with ⟨b, rfl⟩ | ⟨h, _⟩
      · exact ⟨BitVec.le_toInt b, BitVec.toInt_lt⟩
      · omega

/-! ## Patterns -/

theorem elabPat_ty {X : Ctx} {Δ : Decls} {Γ : Typing} (hX : Coherent X Δ) {p : Pat} {q : LPat}
    (hp : p.Ok Δ Γ) (h : elabPat X Γ p = some q) : ∃ t, Γ.id p.id = some t ∧ X.mir t = some q.ty := by
  cases p with
  | int id v =>
    simp only [elabPat, Option.bind_eq_bind, Option.bind_eq_some_iff, Option.pure_def,
      Option.some.injEq] at h
    obtain ⟨m, hm, rfl⟩ := h
    exact idTy_some hm
  | bool id b =>
    simp only [elabPat, Option.some.injEq] at h
    subst h
    simp only [Pat.Ok] at hp
    exact ⟨_, hp, mir_tBool hX⟩
  | bound id x pd inner =>
    cases inner with
    | none =>
      simp only [elabPat, Option.bind_eq_bind, Option.bind_eq_some_iff, Option.pure_def,
        Option.some.injEq] at h
      obtain ⟨m, hm, rfl⟩ := h
      exact idTy_some hm
    | some p =>
      simp only [elabPat, Option.bind_eq_bind, Option.bind_eq_some_iff, Option.pure_def,
        Option.some.injEq] at h
      obtain ⟨m, hm, q, _, rfl⟩ := h
      exact idTy_some hm
  | tuple id ps =>
    simp only [elabPat, Option.bind_eq_bind, Option.bind_eq_some_iff, Option.pure_def,
      Option.some.injEq] at h
    obtain ⟨m, hm, q, _, rfl⟩ := h
    exact idTy_some hm
  | array id ps =>
    simp only [elabPat, Option.bind_eq_bind, Option.bind_eq_some_iff, Option.pure_def,
      Option.some.injEq] at h
    obtain ⟨m, hm, q, _, rfl⟩ := h
    exact idTy_some hm
  | type id v ps =>
    simp only [elabPat, Option.bind_eq_bind, Option.bind_eq_some_iff, Option.pure_def] at h
    obtain ⟨m, hm, q, _, h⟩ := h
    split at h
    · cases h; exact idTy_some hm
    · cases h; exact idTy_some hm
    · exact nomatch h

theorem some_det {α : Type} {a : Option α} {x y : α} (h : a = some x) (h' : a = some y) : x = y :=
  Option.some.inj (h.symm.trans h')

mutual
theorem elabPat_ok {X : Ctx} {Δ : Decls} {Γ : Typing} (hX : Coherent X Δ) : ∀ (p : Pat) {q : LPat},
    p.Ok Δ Γ → elabPat X Γ p = some q → ZeroLits q → q.Ok
  | .int id v, q, hp, h, hz => by
    simp only [elabPat, Option.bind_eq_bind, Option.bind_eq_some_iff, Option.pure_def,
      Option.some.injEq] at h
    obtain ⟨m, hm, rfl⟩ := h
    simp only [Pat.Ok] at hp
    obtain ⟨t, ht, hl⟩ := hp
    obtain ⟨t', ht', hm⟩ := idTy_some hm
    cases some_det ht ht'
    simp only [ZeroLits] at hz
    simp only [Lower.LPat.Ok]
    exact litOk_inRange hX hl hm hz
  | .bool id b, q, hp, h, hz => by
    simp only [elabPat, Option.some.injEq] at h
    subst h
    simp only [Lower.LPat.Ok]
  | .bound id x pd none, q, hp, h, hz => by
    simp only [elabPat, Option.bind_eq_bind, Option.bind_eq_some_iff, Option.pure_def,
      Option.some.injEq] at h
    obtain ⟨m, hm, rfl⟩ := h
    simp only [Lower.LPat.Ok]
  | .bound id x pd (some p), q, hp, h, hz => by
    simp only [elabPat, Option.bind_eq_bind, Option.bind_eq_some_iff, Option.pure_def,
      Option.some.injEq] at h
    obtain ⟨m, hm, q, hq, rfl⟩ := h
    simp only [Pat.Ok] at hp
    obtain ⟨t, ht, _, _, hpt, hp⟩ := hp
    simp only [ZeroLits] at hz
    simp only [Lower.LPat.Ok]
    refine ⟨?_, elabPat_ok hX p hp hq hz⟩
    obtain ⟨t1, ht1, hm1⟩ := idTy_some hm
    obtain ⟨t2, ht2, hm2⟩ := elabPat_ty hX hp hq
    cases some_det ht ht1
    cases some_det hpt ht2
    exact some_det hm2 hm1
  | .tuple id ps, q, hp, h, hz => by
    simp only [elabPat, Option.bind_eq_bind, Option.bind_eq_some_iff, Option.pure_def,
      Option.some.injEq] at h
    obtain ⟨m, hm, qs, hqs, rfl⟩ := h
    simp only [Pat.Ok] at hp
    obtain ⟨ts, ht, hps⟩ := hp
    obtain ⟨t1, ht1, hm1⟩ := idTy_some hm
    cases some_det ht ht1
    simp only [ZeroLits] at hz
    obtain ⟨h1, h2⟩ := elabPats_ok hX ps hps hqs hz
    obtain ⟨ms, h3, rfl⟩ := mir_tup hm1
    simp only [Lower.LPat.Ok]
    cases some_det h2 h3
    exact ⟨rfl, h1⟩
  | .array id ps, q, hp, h, hz => by
    simp only [elabPat, Option.bind_eq_bind, Option.bind_eq_some_iff, Option.pure_def,
      Option.some.injEq] at h
    obtain ⟨m, hm, qs, hqs, rfl⟩ := h
    simp only [Pat.Ok] at hp
    obtain ⟨t, ht, _, hps⟩ := hp
    obtain ⟨t1, ht1, hm1⟩ := idTy_some hm
    cases some_det ht ht1
    simp only [ZeroLits] at hz
    obtain ⟨h1, h2⟩ := elabPats_ok hX ps hps hqs hz
    obtain ⟨e, h3, rfl⟩ := mir_arr hm1
    have h4 := mirs_replicate h3 h2
    have h5 : qs.length = ps.length := by
      have := congrArg List.length h4
      simpa using this
    simp only [Lower.LPat.Ok, h5]
    exact ⟨⟨e, rfl, h4⟩, h1⟩
  | .type id v ps, q, hp, h, hz => by
    simp only [elabPat, Option.bind_eq_bind, Option.bind_eq_some_iff, Option.pure_def] at h
    obtain ⟨m, hm, qs, hqs, h⟩ := h
    simp only [Pat.Ok] at hp
    obtain ⟨V, θ, t, us, hV, ht, _, hself, hus, hps⟩ := hp
    obtain ⟨t1, ht1, hm1⟩ := idTy_some hm
    cases some_det ht ht1
    split at h
    next n i hi =>
      cases h
      simp only [ZeroLits] at hz
      obtain ⟨h1, h2⟩ := elabPats_ok hX ps hps hqs hz
      obtain ⟨ps', ws, os, fs, a1, a2, a3, a4⟩ := hX.items _ _ hi
      cases some_det hV a4
      obtain ⟨opts, ms, rfl, h3, h4⟩ := mir_variant a1 a2 hself hus hm1
      cases some_det h2 h3
      simp only [Lower.LPat.Ok]
      exact ⟨⟨opts, rfl, h4⟩, h1⟩
    next n hi =>
      cases h
      simp only [ZeroLits] at hz
      obtain ⟨h1, h2⟩ := elabPats_ok hX ps hps hqs hz
      obtain ⟨ps', ws, fs, a1, a3, a4⟩ := hX.items _ _ hi
      cases some_det hV a4
      obtain ⟨ms, rfl, h3⟩ := mir_struct a1 hself hus hm1
      cases some_det h2 h3
      simp only [Lower.LPat.Ok]
      exact ⟨trivial, h1⟩
    next => exact nomatch h
theorem elabPats_ok {X : Ctx} {Δ : Decls} {Γ : Typing} (hX : Coherent X Δ) :
    ∀ (ps : List Pat) {qs : List LPat} {us : List GT},
    Pat.Oks Δ Γ ps us → elabPats X Γ ps = some qs → ZeroLitss qs →
    Lower.Oks qs ∧ X.mirs us = some (qs.map LPat.ty)
  | [], qs, us, hp, h, hz => by
    simp only [elabPats, Option.some.injEq] at h
    simp only [Pat.Oks] at hp
    subst h hp
    exact ⟨by simp only [Lower.Oks], by simp [Ctx.mirs]⟩
  | p :: ps, qs, us, hp, h, hz => by
    simp only [elabPats, Option.bind_eq_bind, Option.bind_eq_some_iff, Option.pure_def,
      Option.some.injEq] at h
    obtain ⟨q, hq, qs, hqs, rfl⟩ := h
    simp only [Pat.Oks] at hp
    obtain ⟨u, us, rfl, hu, hp, hps⟩ := hp
    simp only [ZeroLitss] at hz
    obtain ⟨h1, h2⟩ := elabPats_ok hX ps hps hqs hz.2
    obtain ⟨t, ht, hm⟩ := elabPat_ty hX hp hq
    cases some_det hu ht
    exact ⟨by simp only [Lower.Oks]; exact ⟨elabPat_ok hX p hp hq hz.1, h1⟩,
      by simp [Ctx.mirs, hm, h2]⟩
end

theorem patOk {X : Ctx} {Δ : Decls} {Γ : Typing} (hX : Coherent X Δ) {p : Pat} {q : LPat}
    (hp : p.Ok Δ Γ) (h : elabPat X Γ p = some q) (hz : PatSized q) : Expr.PatOk q :=
  ⟨elabPat_ok hX p hp h hz.2.2, hz.1, hz.2.1⟩

/-! ## Expressions -/

theorem elabE_ty {X : Ctx} {Δ : Decls} {Γ : Typing} (hX : Coherent X Δ) : ∀ (e : Exp) {x : Expr.Expr},
    e.Ok Δ Γ → elabE X Γ e = some x → ∃ t, Γ.id e.id = some t ∧ X.mir t = some x.ty
  | .bool id b, x, he, h => by
    simp only [elabE, Option.some.injEq] at h
    subst h
    simp only [Exp.Ok] at he
    exact ⟨_, he, mir_tBool hX⟩
  | .tlBool id g, x, he, h => by
    simp only [elabE, Option.bind_eq_bind, Option.bind_eq_some_iff, Option.pure_def,
      Option.some.injEq] at h
    obtain ⟨b, _, rfl⟩ := h
    simp only [Exp.Ok] at he
    exact ⟨_, he, mir_tBool hX⟩
  | .block id ss none, x, he, h => by
    simp only [elabE, Option.bind_eq_bind, Option.bind_eq_some_iff, Option.pure_def,
      Option.some.injEq] at h
    obtain ⟨ts, _, rfl⟩ := h
    simp only [Exp.Ok] at he
    exact ⟨_, he.2, by simp [Ctx.mir, tTup, groundConc, groundConcs, concTys, Conc.mty, Expr.Expr.ty]⟩
  | .block id ss (some r), x, he, h => by
    simp only [elabE, Option.bind_eq_bind, Option.bind_eq_some_iff, Option.pure_def,
      Option.some.injEq] at h
    obtain ⟨ts, _, y, hy, rfl⟩ := h
    simp only [Exp.Ok] at he
    obtain ⟨_, hr, t, h1, h2⟩ := he
    obtain ⟨t', h3, h4⟩ := elabE_ty hX r hr hy
    cases some_det h1 h3
    exact ⟨t, h2, h4⟩
  | .genIf .., x, he, h => by simp [elabE] at h
  | .var .., x, he, h | .tlInt .., x, he, h | .int .., x, he, h | .tuple .., x, he, h
  | .proj .., x, he, h | .field .., x, he, h | .cast .., x, he, h | .array .., x, he, h
  | .rep .., x, he, h | .elem .., x, he, h | .range .., x, he, h | .ite .., x, he, h
  | .mtch .., x, he, h | .bin .., x, he, h | .un .., x, he, h | .call .., x, he, h => by
    simp only [elabE, Option.bind_eq_bind, Option.pure_def] at h
    rw [Option.bind_eq_some_iff] at h
    obtain ⟨m, hm, h⟩ := h
    have hm := idTy_some hm
    simp only [Option.bind_eq_some_iff, Option.some.injEq] at h
    first
      | (obtain rfl := h; exact hm)
      | (obtain ⟨_, _, rfl⟩ := h; exact hm)
      | (obtain ⟨_, _, _, _, rfl⟩ := h; exact hm)
      | (obtain ⟨_, _, _, _, _, _, rfl⟩ := h; exact hm)

theorem tNum_mir {X : Ctx} {Δ : Decls} (hX : Coherent X Δ) {s : Bool} {n : Nat} {m : MTy}
    (h : X.mir (tNum s n) = some m) : (s = true ∧ m = .int n) ∨ (s = false ∧ m = .uint n) := by
  have := mir_num hX h
  cases s <;> simp_all

theorem bin_ok {X : Ctx} {Δ : Decls} (hX : Coherent X Δ) {op : BinOp} {a b r : GT} {ma mb mr : MTy}
    (h : op.Ok a b r) (ha : X.mir a = some ma) (hb : X.mir b = some mb) (hr : X.mir r = some mr) :
    BinTy (binOp op) ma mb mr := by
  cases op with
  | add | sub =>
    obtain ⟨s, n, rfl, rfl, rfl⟩ := h
    rcases tNum_mir hX ha with ⟨rfl, rfl⟩ | ⟨rfl, rfl⟩ <;>
    · have h1 := mir_num hX hb
      have h2 := mir_num hX hr
      simp only [if_true, Bool.false_eq_true, if_false] at h1 h2
      subst h1 h2
      constructor
  | mul =>
    obtain ⟨s, n, k, rfl, rfl, rfl⟩ := h
    rcases tNum_mir hX ha with ⟨rfl, rfl⟩ | ⟨rfl, rfl⟩ <;>
    · have h1 := mir_num hX hb
      have h2 := mir_num hX hr
      simp only [if_true, Bool.false_eq_true, if_false] at h1 h2
      subst h1 h2
      constructor
  | _ =>
    obtain ⟨s, n, rfl, rfl, rfl⟩ := h
    rcases tNum_mir hX ha with ⟨rfl, rfl⟩ | ⟨rfl, rfl⟩ <;>
    · have h1 := mir_num hX hb
      have h2 := mir_num hX hr
      simp only [if_true, Bool.false_eq_true, if_false] at h1 h2
      subst h1 h2
      constructor

theorem un_ok {X : Ctx} {Δ : Decls} (hX : Coherent X Δ) {op : UnOp} {a r : GT} {ma mr : MTy}
    (h : op.Ok Δ a r) (ha : X.mir a = some ma) (hr : X.mir r = some mr)
    (hz : op = .neg ∨ op = .bitNot → ma.size ≠ 0) : Expr.UnTy (unOp op) ma mr := by
  cases op with
  | neg =>
    obtain ⟨n, rfl, rfl⟩ := h
    have h1 := mir_num hX ha
    have h2 := mir_num hX hr
    simp only [if_true] at h1 h2
    subst h1 h2
    have := hz (.inl rfl)
    simp only [Codegen.MTy.size] at this
    obtain ⟨k, rfl⟩ := Nat.exists_eq_succ_of_ne_zero this
    exact .neg
  | bitNot =>
    obtain ⟨s, n, rfl, rfl⟩ := h
    cases some_det ha hr
    refine .bitNot ?_ (hz (.inr rfl))
    rcases tNum_mir hX ha with ⟨_, rfl⟩ | ⟨_, rfl⟩ <;> trivial
  | not =>
    obtain ⟨rfl, rfl⟩ := h
    have h1 := mir_bool hX ha
    have h2 := mir_bool hX hr
    subst h1 h2
    exact .not
  | deref =>
    obtain ⟨rfl, _⟩ := h
    obtain ⟨e, h1, rfl⟩ := mir_view ha
    cases some_det h1 hr
    exact .deref
  | ref =>
    simp only [UnOp.Ok] at h
    subst h
    obtain ⟨e, h1, rfl⟩ := mir_view hr
    cases some_det h1 ha
    exact .ref

end Spade.Elab

import Verif.Elab.CompileSpec
import Verif.Elab.EvalSound
import Verif.Expr.Compile
/-!
# Hardware is generated for units of the source that type inference accepts
-/
namespace Spade.Elab
open Spade.Check
open Spade.Codegen (MTy)
open Spade.Lower (LPat)
open Spade.Infer.Spec (GT)

section
variable {X : Ctx} {Δ : Decls} {Γ : Typing}

mutual
theorem filled_of : ∀ (p : Pat) {q : LPat}, elabPat X Γ p = some q → PatFilled p → Expr.NoEmptyArray q
  | .int id v, q, h, hp => by
    simp only [elabPat, Option.bind_eq_bind, Option.bind_eq_some_iff, Option.pure_def, Option.some.injEq] at h
    obtain ⟨_, _, rfl⟩ := h
    simp only [Expr.NoEmptyArray]
  | .bool id b, q, h, hp => by
    simp only [elabPat, Option.some.injEq] at h
    subst h
    simp only [Expr.NoEmptyArray]
  | .bound id x w none, q, h, hp => by
    simp only [elabPat, Option.bind_eq_bind, Option.bind_eq_some_iff, Option.pure_def, Option.some.injEq] at h
    obtain ⟨_, _, rfl⟩ := h
    simp only [Expr.NoEmptyArray]
  | .bound id x w (some p), q, h, hp => by
    simp only [elabPat, Option.bind_eq_bind, Option.bind_eq_some_iff, Option.pure_def, Option.some.injEq] at h
    obtain ⟨_, _, q, hq, rfl⟩ := h
    simp only [PatFilled] at hp
    simp only [Expr.NoEmptyArray]
    exact filled_of p hq hp
  | .tuple id ps, q, h, hp => by
    simp only [elabPat, Option.bind_eq_bind, Option.bind_eq_some_iff, Option.pure_def, Option.some.injEq] at h
    obtain ⟨_, _, qs, hq, rfl⟩ := h
    simp only [PatFilled] at hp
    simp only [Expr.NoEmptyArray]
    exact (filleds_of ps hq hp).1
  | .array id ps, q, h, hp => by
    simp only [elabPat, Option.bind_eq_bind, Option.bind_eq_some_iff, Option.pure_def, Option.some.injEq] at h
    obtain ⟨_, _, qs, hq, rfl⟩ := h
    simp only [PatFilled] at hp
    simp only [Expr.NoEmptyArray]
    obtain ⟨h1, h2⟩ := filleds_of ps hq hp.2
    exact ⟨fun hn => hp.1 (h2 hn), h1⟩
  | .type id v ps, q, h, hp => by
    simp only [elabPat, Option.bind_eq_bind, Option.bind_eq_some_iff] at h
    obtain ⟨_, _, qs, hq, h⟩ := h
    simp only [PatFilled] at hp
    split at h
    · cases h
      simp only [Expr.NoEmptyArray]
      exact (filleds_of ps hq hp).1
    · cases h
      simp only [Expr.NoEmptyArray]
      exact (filleds_of ps hq hp).1
    · cases h
theorem filleds_of : ∀ (ps : List Pat) {qs : List LPat}, elabPats X Γ ps = some qs → PatsFilled ps →
    Expr.NoEmptyArrays qs ∧ (qs = [] → ps = [])
  | [], qs, h, hp => by
    simp only [elabPats, Option.some.injEq] at h
    subst h
    simp [Expr.NoEmptyArrays]
  | p :: ps, qs, h, hp => by
    simp only [elabPats, Option.bind_eq_bind, Option.bind_eq_some_iff, Option.pure_def, Option.some.injEq] at h
    obtain ⟨q, hq, qs, hqs, rfl⟩ := h
    simp only [PatsFilled] at hp
    simp only [Expr.NoEmptyArrays]
    exact ⟨⟨filled_of p hq hp.1, (filleds_of ps hqs hp.2).1⟩, by simp⟩
end

theorem field_unique (hX : Coherent X Δ) {t u : GT} {f : String} {m : MTy} (h : FieldTy Δ t f u) :
    X.mir t = some m → ∀ {s : Nat} {fs : List String}, structOf t = some s → fieldNames X s = some fs →
    ∃ k, fs[k]? = some f ∧ ∀ j : Nat, fs[j]? = some f → j = k := by
  induction h generalizing m with
  | @plain t s args gs fs f spec u hs hd hf hu =>
    intro hm s' fs' h1 h2
    obtain ⟨rfl, _⟩ := structTy_named hs hm
    simp only [structOf, Option.some.injEq] at h1
    subst h1
    obtain ⟨hT, hn⟩ := hX.structs _ _ _ hd
    simp only [fieldNames, hT, Option.some.injEq] at h2
    subst h2
    have hmem : f ∈ fs.map (·.1) := by
      clear hn hT hd
      induction fs with
      | nil => simp at hf
      | cons p fs ih =>
        obtain ⟨a, b⟩ := p
        by_cases he : f = a
        · simp [he]
        · have : (f == a) = false := by simpa using he
          simp only [List.lookup, this] at hf
          exact List.mem_cons_of_mem _ (ih hf)
    obtain ⟨k, hk⟩ := List.getElem?_of_mem hmem
    refine ⟨k, hk, fun j hj => ?_⟩
    obtain ⟨h3, h4⟩ := List.getElem?_eq_some_iff.1 hk
    obtain ⟨h5, h6⟩ := List.getElem?_eq_some_iff.1 hj
    exact (List.getElem_inj hn).1 (h6.trans h4.symm)
  | flipped hs _ _ _ _ =>
    intro hm
    exact nomatch (structTy_named hs hm).2
  | @view t f u h ih =>
    intro hm s' fs' h1 h2
    obtain ⟨e, he, rfl⟩ := mir_view hm
    exact ih he (by simpa [structOf, tView] using h1) h2

theorem elab_power {e : Exp} {x : Expr.Expr} (h : elabE X Γ e = some x) (hp : PowerLit e) :
    Expr.LiteralPower x := by
  obtain ⟨id, k, kind, rfl, hk⟩ := hp
  simp only [elabE, Option.bind_eq_bind, Option.bind_eq_some_iff, Option.pure_def, Option.some.injEq] at h
  obtain ⟨t, _, rfl⟩ := h
  exact ⟨_, _, k, rfl, hk⟩

theorem binOp_div {op : BinOp} : (binOp op = .div ∨ binOp op = .mod) → (op = .div ∨ op = .mod) := by
  cases op <;> simp [binOp]

theorem callee_transmute {id f : Nat} (h : callee X Γ id f = some (.intr .transmute)) :
    X.items f = some (.intr .transmute) := by
  unfold callee at h
  split at h
  · rename_i i _ hi
    simp only [Option.some.injEq, Expr.Callee.intr.injEq] at h
    rw [hi, h]
  · simp at h
  · simp at h
  · simp only [Option.bind_eq_bind, Option.bind_eq_some_iff, Option.pure_def, Option.some.injEq] at h
    obtain ⟨_, _, _, _, h⟩ := h
    cases h
  · simp at h

mutual
theorem compiles_of (hX : Coherent X Δ) : ∀ (e : Exp) {x : Expr.Expr}, e.Ok Δ Γ → elabE X Γ e = some x →
    Translatable X Γ e → x.Compiles
  | .var id y, x, he, h, ht => by
    simp only [elabE, Option.bind_eq_bind, Option.bind_eq_some_iff, Option.pure_def, Option.some.injEq] at h
    obtain ⟨_, _, rfl⟩ := h
    simp only [Expr.Expr.Compiles]
  | .tlBool id g, x, he, h, ht => by
    simp only [elabE, Option.bind_eq_bind, Option.bind_eq_some_iff, Option.pure_def, Option.some.injEq] at h
    obtain ⟨_, _, rfl⟩ := h
    simp only [Expr.Expr.Compiles]
  | .tlInt id g, x, he, h, ht => by
    simp only [elabE, Option.bind_eq_bind, Option.bind_eq_some_iff, Option.pure_def, Option.some.injEq] at h
    obtain ⟨_, _, _, _, rfl⟩ := h
    simp only [Expr.Expr.Compiles]
  | .int id v k, x, he, h, ht => by
    simp only [elabE, Option.bind_eq_bind, Option.bind_eq_some_iff, Option.pure_def, Option.some.injEq] at h
    obtain ⟨_, _, rfl⟩ := h
    simp only [Expr.Expr.Compiles]
  | .bool id b, x, he, h, ht => by
    simp only [elabE, Option.some.injEq] at h
    subst h
    simp only [Expr.Expr.Compiles]
  | .tuple id es, x, he, h, ht => by
    simp only [elabE, Option.bind_eq_bind, Option.bind_eq_some_iff, Option.pure_def, Option.some.injEq] at h
    obtain ⟨m, hm, xs, hxs, rfl⟩ := h
    simp only [Exp.Ok] at he
    obtain ⟨us, _, he⟩ := he
    simp only [Translatable] at ht
    simp only [Expr.Expr.Compiles]
    exact compile_all hX es he hxs ht
  | .proj id e k, x, he, h, ht => by
    simp only [elabE, Option.bind_eq_bind, Option.bind_eq_some_iff, Option.pure_def, Option.some.injEq] at h
    obtain ⟨m, hm, y, hy, rfl⟩ := h
    simp only [Exp.Ok] at he
    simp only [Translatable] at ht
    simp only [Expr.Expr.Compiles]
    exact compiles_of hX e he.1 hy ht
  | .field id e f, x, he, h, ht => by
    simp only [elabE, Option.bind_eq_bind, Option.bind_eq_some_iff, Option.pure_def, Option.some.injEq] at h
    obtain ⟨m, hm, y, hy, s, ⟨t', ht', hs⟩, fs, hfs, rfl⟩ := h
    simp only [Exp.Ok] at he
    obtain ⟨he, t, u, h1, h2, _, h3⟩ := he
    cases some_det h1 ht'
    simp only [Translatable] at ht
    simp only [Expr.Expr.Compiles]
    exact ⟨compiles_of hX e he hy ht, field_unique hX h3 (elabE_at hX he hy h1) hs hfs⟩
  | .cast id e s, x, he, h, ht => by
    simp only [elabE, Option.bind_eq_bind, Option.bind_eq_some_iff, Option.pure_def, Option.some.injEq] at h
    obtain ⟨m, hm, y, hy, rfl⟩ := h
    simp only [Exp.Ok] at he
    simp only [Translatable] at ht
    simp only [Expr.Expr.Compiles]
    exact compiles_of hX e he.1 hy ht
  | .array id es, x, he, h, ht => by
    simp only [elabE, Option.bind_eq_bind, Option.bind_eq_some_iff, Option.pure_def, Option.some.injEq] at h
    obtain ⟨m, hm, xs, hxs, rfl⟩ := h
    simp only [Exp.Ok] at he
    obtain ⟨t, _, _, he⟩ := he
    simp only [Translatable] at ht
    simp only [Expr.Expr.Compiles]
    exact compile_all hX es he hxs ht
  | .rep id e nid n, x, he, h, ht => by
    simp only [elabE, Option.bind_eq_bind, Option.bind_eq_some_iff, Option.pure_def, Option.some.injEq] at h
    obtain ⟨m, hm, y, hy, k, hk, rfl⟩ := h
    simp only [Exp.Ok] at he
    simp only [Translatable] at ht
    simp only [Expr.Expr.Compiles]
    exact compiles_of hX e he.1 hy ht
  | .elem id a i, x, he, h, ht => by
    simp only [elabE, Option.bind_eq_bind, Option.bind_eq_some_iff, Option.pure_def, Option.some.injEq] at h
    obtain ⟨m, hm, y, hy, z, hz, rfl⟩ := h
    simp only [Exp.Ok] at he
    simp only [Translatable] at ht
    simp only [Expr.Expr.Compiles]
    exact ⟨compiles_of hX a he.1 hy ht.1, compiles_of hX i he.2.1 hz ht.2⟩
  | .range id a lo hi, x, he, h, ht => by
    simp only [elabE, Option.bind_eq_bind, Option.bind_eq_some_iff, Option.pure_def, Option.some.injEq] at h
    obtain ⟨m, hm, y, hy, s, hs, t, _, rfl⟩ := h
    simp only [Exp.Ok] at he
    simp only [Translatable] at ht
    simp only [Expr.Expr.Compiles]
    exact compiles_of hX a he.1 hy ht
  | .block id ss none, x, he, h, ht => by
    simp only [elabE, Option.bind_eq_bind, Option.bind_eq_some_iff, Option.pure_def, Option.some.injEq] at h
    obtain ⟨ts, hts, rfl⟩ := h
    simp only [Exp.Ok] at he
    simp only [Translatable] at ht
    simp only [Expr.Expr.Compiles]
    exact compile_stms hX ss he.1 hts ht
  | .block id ss (some r), x, he, h, ht => by
    simp only [elabE, Option.bind_eq_bind, Option.bind_eq_some_iff, Option.pure_def, Option.some.injEq] at h
    obtain ⟨ts, hts, y, hy, rfl⟩ := h
    simp only [Exp.Ok] at he
    simp only [Translatable] at ht
    simp only [Expr.Expr.Compiles]
    exact ⟨compile_stms hX ss he.1 hts ht.1, compiles_of hX r he.2.1 hy ht.2⟩
  | .ite id c a b, x, he, h, ht => by
    simp only [elabE, Option.bind_eq_bind, Option.bind_eq_some_iff, Option.pure_def, Option.some.injEq] at h
    obtain ⟨m, hm, x1, h1, x2, h2, x3, h3, rfl⟩ := h
    simp only [Exp.Ok] at he
    simp only [Translatable] at ht
    simp only [Expr.Expr.Compiles]
    exact ⟨compiles_of hX c he.1 h1 ht.1, compiles_of hX a he.2.1 h2 ht.2.1,
      compiles_of hX b he.2.2.1 h3 ht.2.2⟩
  | .genIf .., x, he, h, ht => by simp [elabE] at h
  | .mtch id c arms, x, he, h, ht => by
    simp only [elabE, Option.bind_eq_bind, Option.bind_eq_some_iff, Option.pure_def, Option.some.injEq] at h
    obtain ⟨m, hm, y, hy, as, has, rfl⟩ := h
    simp only [Exp.Ok] at he
    obtain ⟨h1, _, tc, t, _, _, h2⟩ := he
    simp only [Translatable] at ht
    simp only [Expr.Expr.Compiles]
    exact ⟨compiles_of hX c h1 hy ht.1, compile_arms hX arms h2 has ht.2⟩
  | .bin id op a b, x, he, h, ht => by
    simp only [elabE, Option.bind_eq_bind, Option.bind_eq_some_iff, Option.pure_def, Option.some.injEq] at h
    obtain ⟨m, hm, y, hy, z, hz, rfl⟩ := h
    simp only [Exp.Ok] at he
    simp only [Translatable] at ht
    simp only [Expr.Expr.Compiles]
    exact ⟨compiles_of hX a he.1 hy ht.1, compiles_of hX b he.2.1 hz ht.2.1,
      fun ho => elab_power hz (ht.2.2 (binOp_div ho))⟩
  | .un id op a, x, he, h, ht => by
    simp only [elabE, Option.bind_eq_bind, Option.bind_eq_some_iff, Option.pure_def, Option.some.injEq] at h
    obtain ⟨m, hm, y, hy, rfl⟩ := h
    simp only [Exp.Ok] at he
    simp only [Translatable] at ht
    simp only [Expr.Expr.Compiles]
    exact compiles_of hX a he.1 hy ht
  | .call id f ts as, x, he, h, ht => by
    simp only [elabE, Option.bind_eq_bind, Option.bind_eq_some_iff, Option.pure_def, Option.some.injEq] at h
    obtain ⟨m, hm, xs, hxs, c, hc, rfl⟩ := h
    simp only [Exp.Ok] at he
    obtain ⟨hd, us, t, _, _, _, he, _⟩ := he
    simp only [Translatable] at ht
    simp only [Expr.Expr.Compiles]
    refine ⟨compile_all hX as he hxs ht.1, ?_⟩
    rintro rfl u hu
    have htr := ht.2 (callee_transmute hc)
    match as, he, hxs, htr with
    | [], _, hxs, _ => simp [elabs] at hxs; subst hxs; simp at hu
    | [a], he, hxs, htr =>
      simp only [elabs, Option.bind_eq_bind, Option.bind_eq_some_iff, Option.pure_def, Option.some.injEq] at hxs
      obtain ⟨y, hy, _, rfl, rfl⟩ := hxs
      simp only [List.map_cons, List.map_nil, List.cons.injEq, and_true] at hu
      subst hu
      simp only [Exp.Oks] at he
      obtain ⟨v, vs, _, hv, h1, _⟩ := he
      exact htr a y.ty m rfl (by simp [Ctx.idTy, hv, elabE_at hX h1 hy hv]) hm
    | a :: b :: as, _, hxs, _ =>
      simp only [elabs, Option.bind_eq_bind, Option.bind_eq_some_iff, Option.pure_def, Option.some.injEq] at hxs
      obtain ⟨_, _, _, ⟨_, _, _, _, rfl⟩, rfl⟩ := hxs
      simp at hu
theorem compile_all (hX : Coherent X Δ) : ∀ (es : List Exp) {xs : List Expr.Expr} {us : List GT},
    Exp.Oks Δ Γ es us → elabs X Γ es = some xs → Translatables X Γ es → Expr.Exprs.Compile xs
  | [], xs, us, he, h, ht => by
    simp only [elabs, Option.some.injEq] at h
    subst h
    simp only [Expr.Exprs.Compile]
  | e :: es, xs, us, he, h, ht => by
    simp only [elabs, Option.bind_eq_bind, Option.bind_eq_some_iff, Option.pure_def, Option.some.injEq] at h
    obtain ⟨x, hx, xs, hxs, rfl⟩ := h
    simp only [Exp.Oks] at he
    obtain ⟨u, us, rfl, _, h1, h2⟩ := he
    simp only [Translatables] at ht
    simp only [Expr.Exprs.Compile]
    exact ⟨compiles_of hX e h1 hx ht.1, compile_all hX es h2 hxs ht.2⟩
theorem compile_arms (hX : Coherent X Δ) : ∀ (as : List Arm) {xs : List Expr.Arm} {tc t : GT},
    Arm.Oks Δ Γ tc t as → elabArms X Γ as = some xs → TranslatableArms X Γ as → Expr.Arms.Compile xs
  | [], xs, tc, t, he, h, ht => by
    simp only [elabArms, Option.some.injEq] at h
    subst h
    simp only [Expr.Arms.Compile]
  | .mk p none e :: as, xs, tc, t, he, h, ht => by
    simp only [elabArms, Option.bind_eq_bind, Option.bind_eq_some_iff, Option.pure_def, Option.some.injEq] at h
    obtain ⟨q, hq, x, hx, xs, hxs, rfl⟩ := h
    simp only [Arm.Oks] at he
    simp only [TranslatableArms] at ht
    simp only [Expr.Arms.Compile]
    exact ⟨filled_of p hq ht.1, compiles_of hX e he.1.2.2.1 hx ht.2.1, compile_arms hX as he.2 hxs ht.2.2⟩
  | .mk p (some g) e :: as, xs, tc, t, he, h, ht => by
    simp only [elabArms, Option.bind_eq_bind, Option.bind_eq_some_iff, Option.pure_def, Option.some.injEq] at h
    obtain ⟨q, hq, y, hy, x, hx, xs, hxs, rfl⟩ := h
    simp only [Arm.Oks] at he
    simp only [TranslatableArms] at ht
    simp only [Expr.Arms.Compile]
    exact ⟨filled_of p hq ht.1, compiles_of hX g he.1.2.2.1.1 hy ht.2.1,
      compiles_of hX e he.1.2.2.2.1 hx ht.2.2.1, compile_arms hX as he.2 hxs ht.2.2.2⟩
theorem compile_stms (hX : Coherent X Δ) : ∀ (ss : List Stmt) {xs : List Expr.Stm},
    Stmt.Oks Δ Γ ss → elabStms X Γ ss = some xs → TranslatableStms X Γ ss → Expr.Stms.Compile xs
  | [], xs, he, h, ht => by
    simp only [elabStms, Option.some.injEq] at h
    subst h
    simp only [Expr.Stms.Compile]
  | .bind p ty e :: ss, xs, he, h, ht => by
    simp only [elabStms, Option.bind_eq_bind, Option.bind_eq_some_iff, Option.pure_def, Option.some.injEq] at h
    obtain ⟨q, hq, x, hx, xs, hxs, rfl⟩ := h
    simp only [Stmt.Oks, Stmt.Ok] at he
    simp only [TranslatableStms] at ht
    simp only [Expr.Stms.Compile]
    exact ⟨filled_of p hq ht.1, compiles_of hX e he.1.1 hx ht.2.1, compile_stms hX ss he.2 hxs ht.2.2⟩
  | .expr e :: ss, xs, he, h, ht => by
    simp only [elabStms, Option.bind_eq_bind, Option.bind_eq_some_iff, Option.pure_def, Option.some.injEq] at h
    obtain ⟨x, hx, xs, hxs, rfl⟩ := h
    simp only [Stmt.Oks, Stmt.Ok] at he
    simp only [TranslatableStms] at ht
    simp only [Expr.Stms.Compile]
    exact ⟨compiles_of hX e he.1 hx ht.1, compile_stms hX ss he.2 hxs ht.2⟩
  | .assert e :: ss, xs, he, h, ht => by
    simp only [elabStms, Option.bind_eq_bind, Option.bind_eq_some_iff, Option.pure_def, Option.some.injEq] at h
    obtain ⟨x, hx, xs, hxs, rfl⟩ := h
    simp only [Stmt.Oks, Stmt.Ok] at he
    simp only [TranslatableStms] at ht
    simp only [Expr.Stms.Compile]
    exact ⟨compiles_of hX e he.1.1 hx ht.1, compile_stms hX ss he.2 hxs ht.2⟩
  | .decl _ :: ss, xs, he, h, ht => by
    simp only [elabStms, Option.bind_eq_bind, Option.bind_eq_some_iff, Option.pure_def, Option.some.injEq] at h
    obtain ⟨xs, hxs, rfl⟩ := h
    simp only [Stmt.Oks] at he
    simp only [TranslatableStms] at ht
    simp only [Expr.Stms.Compile]
    exact compile_stms hX ss he.2 hxs ht
  | .set .. :: ss, xs, he, h, ht => by simp [elabStms] at h
  | .reg .. :: ss, xs, he, h, ht => by simp [elabStms] at h
end
end

end Spade.Elab

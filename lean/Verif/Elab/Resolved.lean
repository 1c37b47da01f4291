import Verif.Elab.ResolvedSpec
import Verif.Elab.Compile
/-!
# Names are resolved after elaboration if they are in the source
-/
namespace Spade.Elab
open Spade.Check
open Spade.Codegen (MTy)
open Spade.Lower (LPat)

theorem signal_inj : ∀ {a b : Sig}, a.signal = b.signal → a = b
  | .id a, .id b, h => by simp only [Sig.signal, sigId] at h; rw [show a = b by omega]
  | .name a, .name b, h => by simp only [Sig.signal, sigName] at h; rw [show a = b by omega]
  | .id a, .name b, h => by simp only [Sig.signal, sigId, sigName] at h; omega
  | .name a, .id b, h => by simp only [Sig.signal, sigId, sigName] at h; omega

section
variable {X : Ctx} {Γ : Typing}

/-- The signals and variables of a pattern before and after elaboration. -/
def ResPat (p : Pat) (q : LPat) : Prop :=
  q.name = (patSig p).signal ∧ Expr.subnames q = (subSigs p).map Sig.signal ∧
  ∀ x ∈ boundBy p, sigName x ∈ Expr.patVars q

mutual
theorem resPat : ∀ (p : Pat) {q : LPat}, elabPat X Γ p = some q → ResPat p q
  | .int id v, q, h => by
    simp only [elabPat, Option.bind_eq_bind, Option.bind_eq_some_iff, Option.pure_def, Option.some.injEq] at h
    obtain ⟨_, _, rfl⟩ := h
    simp [ResPat, LPat.name, patSig, Sig.signal, Expr.subnames, subSigs, boundBy]
  | .bool id b, q, h => by
    simp only [elabPat, Option.some.injEq] at h
    subst h
    simp [ResPat, LPat.name, patSig, Sig.signal, Expr.subnames, subSigs, boundBy]
  | .bound id x w none, q, h => by
    simp only [elabPat, Option.bind_eq_bind, Option.bind_eq_some_iff, Option.pure_def, Option.some.injEq] at h
    obtain ⟨_, _, rfl⟩ := h
    simp [ResPat, LPat.name, patSig, Sig.signal, Expr.subnames, subSigs, boundBy, Expr.patVars]
  | .bound id x w (some p), q, h => by
    simp only [elabPat, Option.bind_eq_bind, Option.bind_eq_some_iff, Option.pure_def, Option.some.injEq] at h
    obtain ⟨_, _, q, hq, rfl⟩ := h
    obtain ⟨h1, h2, h3⟩ := resPat p hq
    refine ⟨rfl, by simp [Expr.subnames, subSigs, h1, h2], fun y hy => ?_⟩
    simp only [boundBy, List.mem_cons] at hy
    simp only [Expr.patVars, List.mem_cons]
    exact hy.imp (fun e => by rw [e]) (h3 y)
  | .tuple id ps, q, h => by
    simp only [elabPat, Option.bind_eq_bind, Option.bind_eq_some_iff, Option.pure_def, Option.some.injEq] at h
    obtain ⟨_, _, qs, hq, rfl⟩ := h
    obtain ⟨h1, h2⟩ := resPats ps hq
    exact ⟨rfl, by simpa only [Expr.subnames, subSigs] using h1, by simpa only [boundBy, Expr.patVars] using h2⟩
  | .array id ps, q, h => by
    simp only [elabPat, Option.bind_eq_bind, Option.bind_eq_some_iff, Option.pure_def, Option.some.injEq] at h
    obtain ⟨_, _, qs, hq, rfl⟩ := h
    obtain ⟨h1, h2⟩ := resPats ps hq
    exact ⟨rfl, by simpa only [Expr.subnames, subSigs] using h1, by simpa only [boundBy, Expr.patVars] using h2⟩
  | .type id v ps, q, h => by
    simp only [elabPat, Option.bind_eq_bind, Option.bind_eq_some_iff] at h
    obtain ⟨_, _, qs, hq, h⟩ := h
    obtain ⟨h1, h2⟩ := resPats ps hq
    split at h
    · cases h
      exact ⟨rfl, by simpa only [Expr.subnames, subSigs] using h1, by simpa only [boundBy, Expr.patVars] using h2⟩
    · cases h
      exact ⟨rfl, by simpa only [Expr.subnames, subSigs] using h1, by simpa only [boundBy, Expr.patVars] using h2⟩
    · cases h
theorem resPats : ∀ (ps : List Pat) {qs : List LPat}, elabPats X Γ ps = some qs →
    Expr.namesAll qs = (subSigss ps).map Sig.signal ∧ ∀ x ∈ boundBys ps, sigName x ∈ Expr.patsVars qs
  | [], qs, h => by
    simp only [elabPats, Option.some.injEq] at h
    subst h
    simp [Expr.namesAll, subSigss, boundBys]
  | p :: ps, qs, h => by
    simp only [elabPats, Option.bind_eq_bind, Option.bind_eq_some_iff, Option.pure_def, Option.some.injEq] at h
    obtain ⟨q, hq, qs, hqs, rfl⟩ := h
    obtain ⟨h1, h2, h3⟩ := resPat p hq
    obtain ⟨h4, h5⟩ := resPats ps hqs
    refine ⟨by simp [Expr.namesAll, subSigss, h1, h2, h4], fun y hy => ?_⟩
    simp only [boundBys, List.mem_append] at hy
    simp only [Expr.patsVars, List.mem_append]
    exact hy.imp (h3 y) (h5 y)
end

/-- Scopes before and after elaboration. -/
def Covers (S S' : Nat → Prop) : Prop := ∀ x, S x → S' (sigName x)

theorem covers_pat {S S' : Nat → Prop} {p : Pat} {q : LPat} (h : Covers S S')
    (hp : ∀ x ∈ boundBy p, sigName x ∈ Expr.patVars q) :
    Covers (fun x => S x ∨ x ∈ boundBy p) (fun n => S' n ∨ n ∈ Expr.patVars q) :=
  fun x hx => hx.imp (h x) (hp x)

theorem covers_scope : ∀ (ss : List Stmt) {xs : List Expr.Stm} {S S' : Nat → Prop},
    elabStms X Γ ss = some xs → Covers S S' → Covers (scopeAfter S ss) (Expr.scope S' xs)
  | [], xs, S, S', h, hc => by
    simp only [elabStms, Option.some.injEq] at h
    subst h
    exact hc
  | .bind p ty e :: ss, xs, S, S', h, hc => by
    simp only [elabStms, Option.bind_eq_bind, Option.bind_eq_some_iff, Option.pure_def, Option.some.injEq] at h
    obtain ⟨q, hq, x, hx, xs, hxs, rfl⟩ := h
    simp only [scopeAfter, Expr.scope]
    exact covers_scope ss hxs (covers_pat hc (resPat p hq).2.2)
  | .expr e :: ss, xs, S, S', h, hc => by
    simp only [elabStms, Option.bind_eq_bind, Option.bind_eq_some_iff, Option.pure_def, Option.some.injEq] at h
    obtain ⟨x, hx, xs, hxs, rfl⟩ := h
    simp only [scopeAfter, Expr.scope]
    exact covers_scope ss hxs hc
  | .assert e :: ss, xs, S, S', h, hc => by
    simp only [elabStms, Option.bind_eq_bind, Option.bind_eq_some_iff, Option.pure_def, Option.some.injEq] at h
    obtain ⟨x, hx, xs, hxs, rfl⟩ := h
    simp only [scopeAfter, Expr.scope]
    exact covers_scope ss hxs hc
  | .decl _ :: ss, xs, S, S', h, hc => by
    simp only [elabStms, Option.bind_eq_bind, Option.bind_eq_some_iff, Option.pure_def, Option.some.injEq] at h
    obtain ⟨xs, hxs, rfl⟩ := h
    simp only [scopeAfter, Expr.scope]
    exact covers_scope ss hxs hc
  | .set .. :: ss, xs, S, S', h, hc => by simp [elabStms] at h
  | .reg .. :: ss, xs, S, S', h, hc => by simp [elabStms] at h

mutual
theorem res : ∀ (e : Exp) {x : Expr.Expr}, elabE X Γ e = some x →
    x.names = (sigs e).map Sig.signal ∧
    (∀ S S', Covers S S' → InScope S e → x.Scoped S') ∧ (HasArms e → x.Armed)
  | .var id y, x, h => by
    simp only [elabE, Option.bind_eq_bind, Option.bind_eq_some_iff, Option.pure_def, Option.some.injEq] at h
    obtain ⟨_, _, rfl⟩ := h
    refine ⟨rfl, fun S S' hS hs => ?_, fun _ => ?_⟩
    · simp only [InScope] at hs
      simp only [Expr.Expr.Scoped]
      exact hS y hs
    · simp only [Expr.Expr.Armed]
  | .tlBool id g, x, h => by
    simp only [elabE, Option.bind_eq_bind, Option.bind_eq_some_iff, Option.pure_def, Option.some.injEq] at h
    obtain ⟨_, _, rfl⟩ := h
    simp [Expr.Expr.names, sigs, Sig.signal, Expr.Expr.Scoped, Expr.Expr.Armed]
  | .tlInt id g, x, h => by
    simp only [elabE, Option.bind_eq_bind, Option.bind_eq_some_iff, Option.pure_def, Option.some.injEq] at h
    obtain ⟨_, _, _, _, rfl⟩ := h
    simp [Expr.Expr.names, sigs, Sig.signal, Expr.Expr.Scoped, Expr.Expr.Armed]
  | .int id v k, x, h => by
    simp only [elabE, Option.bind_eq_bind, Option.bind_eq_some_iff, Option.pure_def, Option.some.injEq] at h
    obtain ⟨_, _, rfl⟩ := h
    simp [Expr.Expr.names, sigs, Sig.signal, Expr.Expr.Scoped, Expr.Expr.Armed]
  | .bool id b, x, h => by
    simp only [elabE, Option.some.injEq] at h
    subst h
    simp [Expr.Expr.names, sigs, Sig.signal, Expr.Expr.Scoped, Expr.Expr.Armed]
  | .tuple id es, x, h => by
    simp only [elabE, Option.bind_eq_bind, Option.bind_eq_some_iff, Option.pure_def, Option.some.injEq] at h
    obtain ⟨m, hm, xs, hxs, rfl⟩ := h
    obtain ⟨n1, s1, a1⟩ := ress es hxs
    refine ⟨by simp [Expr.Expr.names, sigs, Sig.signal, n1], fun S S' hS hs => ?_, fun ha => ?_⟩
    · simp only [InScope] at hs
      simp only [Expr.Expr.Scoped]
      exact s1 S S' hS hs
    · simp only [HasArms] at ha
      simp only [Expr.Expr.Armed]
      exact a1 ha
  | .array id es, x, h => by
    simp only [elabE, Option.bind_eq_bind, Option.bind_eq_some_iff, Option.pure_def, Option.some.injEq] at h
    obtain ⟨m, hm, xs, hxs, rfl⟩ := h
    obtain ⟨n1, s1, a1⟩ := ress es hxs
    refine ⟨by simp [Expr.Expr.names, sigs, Sig.signal, n1], fun S S' hS hs => ?_, fun ha => ?_⟩
    · simp only [InScope] at hs
      simp only [Expr.Expr.Scoped]
      exact s1 S S' hS hs
    · simp only [HasArms] at ha
      simp only [Expr.Expr.Armed]
      exact a1 ha
  | .call id f ts es, x, h => by
    simp only [elabE, Option.bind_eq_bind, Option.bind_eq_some_iff, Option.pure_def, Option.some.injEq] at h
    obtain ⟨m, hm, xs, hxs, c, hc, rfl⟩ := h
    obtain ⟨n1, s1, a1⟩ := ress es hxs
    refine ⟨by simp [Expr.Expr.names, sigs, Sig.signal, n1], fun S S' hS hs => ?_, fun ha => ?_⟩
    · simp only [InScope] at hs
      simp only [Expr.Expr.Scoped]
      exact s1 S S' hS hs
    · simp only [HasArms] at ha
      simp only [Expr.Expr.Armed]
      exact a1 ha
  | .proj id e k, x, h => by
    simp only [elabE, Option.bind_eq_bind, Option.bind_eq_some_iff, Option.pure_def, Option.some.injEq] at h
    obtain ⟨m, hm, y, hy, rfl⟩ := h
    obtain ⟨n1, s1, a1⟩ := res e hy
    refine ⟨by simp [Expr.Expr.names, sigs, Sig.signal, n1], fun S S' hS hs => ?_, fun ha => ?_⟩
    · simp only [InScope] at hs
      simp only [Expr.Expr.Scoped]
      exact s1 S S' hS hs
    · simp only [HasArms] at ha
      simp only [Expr.Expr.Armed]
      exact a1 ha
  | .field id e f, x, h => by
    simp only [elabE, Option.bind_eq_bind, Option.bind_eq_some_iff, Option.pure_def, Option.some.injEq] at h
    obtain ⟨m, hm, y, hy, s, _, fs, hfs, rfl⟩ := h
    obtain ⟨n1, s1, a1⟩ := res e hy
    refine ⟨by simp [Expr.Expr.names, sigs, Sig.signal, n1], fun S S' hS hs => ?_, fun ha => ?_⟩
    · simp only [InScope] at hs
      simp only [Expr.Expr.Scoped]
      exact s1 S S' hS hs
    · simp only [HasArms] at ha
      simp only [Expr.Expr.Armed]
      exact a1 ha
  | .cast id e t, x, h => by
    simp only [elabE, Option.bind_eq_bind, Option.bind_eq_some_iff, Option.pure_def, Option.some.injEq] at h
    obtain ⟨m, hm, y, hy, rfl⟩ := h
    obtain ⟨n1, s1, a1⟩ := res e hy
    refine ⟨by simp [Expr.Expr.names, sigs, Sig.signal, n1], fun S S' hS hs => ?_, fun ha => ?_⟩
    · simp only [InScope] at hs
      simp only [Expr.Expr.Scoped]
      exact s1 S S' hS hs
    · simp only [HasArms] at ha
      simp only [Expr.Expr.Armed]
      exact a1 ha
  | .rep id e nid n, x, h => by
    simp only [elabE, Option.bind_eq_bind, Option.bind_eq_some_iff, Option.pure_def, Option.some.injEq] at h
    obtain ⟨m, hm, y, hy, k, hk, rfl⟩ := h
    obtain ⟨n1, s1, a1⟩ := res e hy
    refine ⟨by simp [Expr.Expr.names, sigs, Sig.signal, n1], fun S S' hS hs => ?_, fun ha => ?_⟩
    · simp only [InScope] at hs
      simp only [Expr.Expr.Scoped]
      exact s1 S S' hS hs
    · simp only [HasArms] at ha
      simp only [Expr.Expr.Armed]
      exact a1 ha
  | .range id e lo hi, x, h => by
    simp only [elabE, Option.bind_eq_bind, Option.bind_eq_some_iff, Option.pure_def, Option.some.injEq] at h
    obtain ⟨m, hm, y, hy, s, hs, t, ht, rfl⟩ := h
    obtain ⟨n1, s1, a1⟩ := res e hy
    refine ⟨by simp [Expr.Expr.names, sigs, Sig.signal, n1], fun S S' hS hs => ?_, fun ha => ?_⟩
    · simp only [InScope] at hs
      simp only [Expr.Expr.Scoped]
      exact s1 S S' hS hs
    · simp only [HasArms] at ha
      simp only [Expr.Expr.Armed]
      exact a1 ha
  | .un id op e, x, h => by
    simp only [elabE, Option.bind_eq_bind, Option.bind_eq_some_iff, Option.pure_def, Option.some.injEq] at h
    obtain ⟨m, hm, y, hy, rfl⟩ := h
    obtain ⟨n1, s1, a1⟩ := res e hy
    refine ⟨by simp [Expr.Expr.names, sigs, Sig.signal, n1], fun S S' hS hs => ?_, fun ha => ?_⟩
    · simp only [InScope] at hs
      simp only [Expr.Expr.Scoped]
      exact s1 S S' hS hs
    · simp only [HasArms] at ha
      simp only [Expr.Expr.Armed]
      exact a1 ha
  | .block id ss none, x, h => by
    simp only [elabE, Option.bind_eq_bind, Option.bind_eq_some_iff, Option.pure_def, Option.some.injEq] at h
    obtain ⟨ts, hts, rfl⟩ := h
    obtain ⟨n1, s1, a1⟩ := resStms ss hts
    refine ⟨by simp [Expr.Expr.names, sigs, Sig.signal, n1], fun S S' hS hs => ?_, fun ha => ?_⟩
    · simp only [InScope] at hs
      simp only [Expr.Expr.Scoped]
      exact s1 S S' hS hs
    · simp only [HasArms] at ha
      simp only [Expr.Expr.Armed]
      exact a1 ha
  | .elem id a i, x, h => by
    simp only [elabE, Option.bind_eq_bind, Option.bind_eq_some_iff, Option.pure_def, Option.some.injEq] at h
    obtain ⟨m, hm, y, hy, z, hz, rfl⟩ := h
    obtain ⟨n1, s1, a1⟩ := res a hy
    obtain ⟨n2, s2, a2⟩ := res i hz
    refine ⟨by simp [Expr.Expr.names, sigs, Sig.signal, n1, n2], fun S S' hS hs => ?_, fun ha => ?_⟩
    · simp only [InScope] at hs
      simp only [Expr.Expr.Scoped]
      exact ⟨s1 S S' hS hs.1, s2 S S' hS hs.2⟩
    · simp only [HasArms] at ha
      simp only [Expr.Expr.Armed]
      exact ⟨a1 ha.1, a2 ha.2⟩
  | .bin id op a b, x, h => by
    simp only [elabE, Option.bind_eq_bind, Option.bind_eq_some_iff, Option.pure_def, Option.some.injEq] at h
    obtain ⟨m, hm, y, hy, z, hz, rfl⟩ := h
    obtain ⟨n1, s1, a1⟩ := res a hy
    obtain ⟨n2, s2, a2⟩ := res b hz
    refine ⟨by simp [Expr.Expr.names, sigs, Sig.signal, n1, n2], fun S S' hS hs => ?_, fun ha => ?_⟩
    · simp only [InScope] at hs
      simp only [Expr.Expr.Scoped]
      exact ⟨s1 S S' hS hs.1, s2 S S' hS hs.2⟩
    · simp only [HasArms] at ha
      simp only [Expr.Expr.Armed]
      exact ⟨a1 ha.1, a2 ha.2⟩
  | .block id ss (some r), x, h => by
    simp only [elabE, Option.bind_eq_bind, Option.bind_eq_some_iff, Option.pure_def, Option.some.injEq] at h
    obtain ⟨ts, hts, y, hy, rfl⟩ := h
    obtain ⟨n1, s1, a1⟩ := resStms ss hts
    obtain ⟨n2, s2, a2⟩ := res r hy
    refine ⟨by simp [Expr.Expr.names, sigs, n1, n2], fun S S' hS hs => ?_, fun ha => ?_⟩
    · simp only [InScope] at hs
      simp only [Expr.Expr.Scoped]
      exact ⟨s1 S S' hS hs.1, s2 _ _ (covers_scope ss hts hS) hs.2⟩
    · simp only [HasArms] at ha
      simp only [Expr.Expr.Armed]
      exact ⟨a1 ha.1, a2 ha.2⟩
  | .ite id c a b, x, h => by
    simp only [elabE, Option.bind_eq_bind, Option.bind_eq_some_iff, Option.pure_def, Option.some.injEq] at h
    obtain ⟨m, hm, x1, h1, x2, h2, x3, h3, rfl⟩ := h
    obtain ⟨n1, s1, a1⟩ := res c h1
    obtain ⟨n2, s2, a2⟩ := res a h2
    obtain ⟨n3, s3, a3⟩ := res b h3
    refine ⟨by simp [Expr.Expr.names, sigs, Sig.signal, n1, n2, n3], fun S S' hS hs => ?_, fun ha => ?_⟩
    · simp only [InScope] at hs
      simp only [Expr.Expr.Scoped]
      exact ⟨s1 S S' hS hs.1, s2 S S' hS hs.2.1, s3 S S' hS hs.2.2⟩
    · simp only [HasArms] at ha
      simp only [Expr.Expr.Armed]
      exact ⟨a1 ha.1, a2 ha.2.1, a3 ha.2.2⟩
  | .genIf .., x, h => by simp [elabE] at h
  | .mtch id c arms, x, h => by
    simp only [elabE, Option.bind_eq_bind, Option.bind_eq_some_iff, Option.pure_def, Option.some.injEq] at h
    obtain ⟨m, hm, y, hy, as, has, rfl⟩ := h
    obtain ⟨n1, s1, a1⟩ := res c hy
    obtain ⟨n2, s2, a2, a3⟩ := resArms arms has
    refine ⟨by simp [Expr.Expr.names, sigs, Sig.signal, n1, n2], fun S S' hS hs => ?_, fun ha => ?_⟩
    · simp only [InScope] at hs
      simp only [Expr.Expr.Scoped]
      exact ⟨s1 S S' hS hs.1, s2 S S' hS hs.2⟩
    · simp only [HasArms] at ha
      simp only [Expr.Expr.Armed]
      exact ⟨fun hn => ha.1 (a3 hn), a1 ha.2.1, a2 ha.2.2⟩
theorem ress : ∀ (es : List Exp) {xs : List Expr.Expr}, elabs X Γ es = some xs →
    Expr.Exprs.names xs = (sigss es).map Sig.signal ∧
    (∀ S S', Covers S S' → InScopes S es → Expr.Exprs.Scoped S' xs) ∧ (HaveArms es → Expr.Exprs.Armed xs)
  | [], xs, h => by
    simp only [elabs, Option.some.injEq] at h
    subst h
    simp [Expr.Exprs.names, sigss, Expr.Exprs.Scoped, Expr.Exprs.Armed]
  | e :: es, xs, h => by
    simp only [elabs, Option.bind_eq_bind, Option.bind_eq_some_iff, Option.pure_def, Option.some.injEq] at h
    obtain ⟨x, hx, xs, hxs, rfl⟩ := h
    obtain ⟨n1, s1, a1⟩ := res e hx
    obtain ⟨n2, s2, a2⟩ := ress es hxs
    refine ⟨by simp [Expr.Exprs.names, sigss, n1, n2], fun S S' hS hs => ?_, fun ha => ?_⟩
    · simp only [InScopes] at hs
      simp only [Expr.Exprs.Scoped]
      exact ⟨s1 S S' hS hs.1, s2 S S' hS hs.2⟩
    · simp only [HaveArms] at ha
      simp only [Expr.Exprs.Armed]
      exact ⟨a1 ha.1, a2 ha.2⟩
theorem resArms : ∀ (as : List Arm) {xs : List Expr.Arm}, elabArms X Γ as = some xs →
    Expr.Arms.names xs = (armSigs as).map Sig.signal ∧
    (∀ S S', Covers S S' → ArmsInScope S as → Expr.Arms.Scoped S' xs) ∧
    (ArmsHaveArms as → Expr.Arms.Armed xs) ∧ (xs = [] → as = [])
  | [], xs, h => by
    simp only [elabArms, Option.some.injEq] at h
    subst h
    simp [Expr.Arms.names, armSigs, Expr.Arms.Scoped, Expr.Arms.Armed]
  | .mk p none e :: as, xs, h => by
    simp only [elabArms, Option.bind_eq_bind, Option.bind_eq_some_iff, Option.pure_def, Option.some.injEq] at h
    obtain ⟨q, hq, x, hx, xs, hxs, rfl⟩ := h
    obtain ⟨p1, p2, p3⟩ := resPat p hq
    obtain ⟨n1, s1, a1⟩ := res e hx
    obtain ⟨n2, s2, a2, _⟩ := resArms as hxs
    refine ⟨by simp [Expr.Arms.names, Expr.patNames, armSigs, p1, p2, n1, n2], fun S S' hS hs => ?_, fun ha => ?_, by simp⟩
    · simp only [ArmsInScope] at hs
      simp only [Expr.Arms.Scoped]
      exact ⟨s1 _ _ (covers_pat hS p3) hs.1, s2 S S' hS hs.2⟩
    · simp only [ArmsHaveArms] at ha
      simp only [Expr.Arms.Armed]
      exact ⟨a1 ha.1, a2 ha.2⟩
  | .mk p (some g) e :: as, xs, h => by
    simp only [elabArms, Option.bind_eq_bind, Option.bind_eq_some_iff, Option.pure_def, Option.some.injEq] at h
    obtain ⟨q, hq, y, hy, x, hx, xs, hxs, rfl⟩ := h
    obtain ⟨p1, p2, p3⟩ := resPat p hq
    obtain ⟨n0, s0, a0⟩ := res g hy
    obtain ⟨n1, s1, a1⟩ := res e hx
    obtain ⟨n2, s2, a2, _⟩ := resArms as hxs
    refine ⟨by simp [Expr.Arms.names, Expr.patNames, armSigs, p1, p2, n0, n1, n2], fun S S' hS hs => ?_, fun ha => ?_, by simp⟩
    · simp only [ArmsInScope] at hs
      simp only [Expr.Arms.Scoped]
      exact ⟨s0 _ _ (covers_pat hS p3) hs.1, s1 _ _ (covers_pat hS p3) hs.2.1, s2 S S' hS hs.2.2⟩
    · simp only [ArmsHaveArms] at ha
      simp only [Expr.Arms.Armed]
      exact ⟨a0 ha.1, a1 ha.2.1, a2 ha.2.2⟩
theorem resStms : ∀ (ss : List Stmt) {xs : List Expr.Stm}, elabStms X Γ ss = some xs →
    Expr.Stms.names xs = (stmSigs ss).map Sig.signal ∧
    (∀ S S', Covers S S' → StmsInScope S ss → Expr.Stms.Scoped S' xs) ∧ (StmsHaveArms ss → Expr.Stms.Armed xs)
  | [], xs, h => by
    simp only [elabStms, Option.some.injEq] at h
    subst h
    simp [Expr.Stms.names, stmSigs, Expr.Stms.Scoped, Expr.Stms.Armed]
  | .bind p ty e :: ss, xs, h => by
    simp only [elabStms, Option.bind_eq_bind, Option.bind_eq_some_iff, Option.pure_def, Option.some.injEq] at h
    obtain ⟨q, hq, x, hx, xs, hxs, rfl⟩ := h
    obtain ⟨p1, p2, p3⟩ := resPat p hq
    obtain ⟨n1, s1, a1⟩ := res e hx
    obtain ⟨n2, s2, a2⟩ := resStms ss hxs
    refine ⟨by simp [Expr.Stms.names, Expr.patNames, stmSigs, p1, p2, n1, n2], fun S S' hS hs => ?_, fun ha => ?_⟩
    · simp only [StmsInScope] at hs
      simp only [Expr.Stms.Scoped]
      exact ⟨s1 S S' hS hs.1, s2 _ _ (covers_pat hS p3) hs.2⟩
    · simp only [StmsHaveArms] at ha
      simp only [Expr.Stms.Armed]
      exact ⟨a1 ha.1, a2 ha.2⟩
  | .expr e :: ss, xs, h => by
    simp only [elabStms, Option.bind_eq_bind, Option.bind_eq_some_iff, Option.pure_def, Option.some.injEq] at h
    obtain ⟨x, hx, xs, hxs, rfl⟩ := h
    obtain ⟨n1, s1, a1⟩ := res e hx
    obtain ⟨n2, s2, a2⟩ := resStms ss hxs
    refine ⟨by simp [Expr.Stms.names, stmSigs, n1, n2], fun S S' hS hs => ?_, fun ha => ?_⟩
    · simp only [StmsInScope] at hs
      simp only [Expr.Stms.Scoped]
      exact ⟨s1 S S' hS hs.1, s2 S S' hS hs.2⟩
    · simp only [StmsHaveArms] at ha
      simp only [Expr.Stms.Armed]
      exact ⟨a1 ha.1, a2 ha.2⟩
  | .assert e :: ss, xs, h => by
    simp only [elabStms, Option.bind_eq_bind, Option.bind_eq_some_iff, Option.pure_def, Option.some.injEq] at h
    obtain ⟨x, hx, xs, hxs, rfl⟩ := h
    obtain ⟨n1, s1, a1⟩ := res e hx
    obtain ⟨n2, s2, a2⟩ := resStms ss hxs
    refine ⟨by simp [Expr.Stms.names, stmSigs, n1, n2], fun S S' hS hs => ?_, fun ha => ?_⟩
    · simp only [StmsInScope] at hs
      simp only [Expr.Stms.Scoped]
      exact ⟨s1 S S' hS hs.1, s2 S S' hS hs.2⟩
    · simp only [StmsHaveArms] at ha
      simp only [Expr.Stms.Armed]
      exact ⟨a1 ha.1, a2 ha.2⟩
  | .decl _ :: ss, xs, h => by
    simp only [elabStms, Option.bind_eq_bind, Option.bind_eq_some_iff, Option.pure_def, Option.some.injEq] at h
    obtain ⟨xs, hxs, rfl⟩ := h
    obtain ⟨n2, s2, a2⟩ := resStms ss hxs
    refine ⟨by simp [Expr.Stms.names, stmSigs, n2], fun S S' hS hs => ?_, fun ha => ?_⟩
    · simp only [StmsInScope] at hs
      simp only [Expr.Stms.Scoped]
      exact s2 S S' hS hs
    · simp only [StmsHaveArms] at ha
      simp only [Expr.Stms.Armed]
      exact a2 ha
  | .set .. :: ss, xs, h => by simp [elabStms] at h
  | .reg .. :: ss, xs, h => by simp [elabStms] at h
end
end

theorem input_names {X : Ctx} {Γ : Typing} : ∀ {is : List (Nat × TSpec)} {ps : List (Nat × MTy)},
    elabInputs X Γ is = some ps → ps.map (·.1) = is.map fun i => sigName i.1
  | [], ps, h => by simp only [elabInputs, Option.some.injEq] at h; subst h; rfl
  | i :: is, ps, h => by
    simp only [elabInputs, Option.bind_eq_bind, Option.bind_eq_some_iff, Option.pure_def, Option.some.injEq] at h
    obtain ⟨t, _, ts, hts, rfl⟩ := h
    simp [input_names hts]

/-- C62.  If names are resolved in the source of a unit, they are in the function that lowering sees. -/
theorem C62_resolved {X : Ctx} (i : Inst) (f : Expr.Fn) (next : Nat) (hf : i.fn X = some f)
    (hr : SourceResolved i.unit next) : f.Resolved next := by
  simp only [Inst.fn, elabUnit, Option.bind_eq_bind, Option.bind_eq_some_iff, Option.pure_def,
    Option.some.injEq] at hf
  obtain ⟨ps, hps, b, hb, rfl⟩ := hf
  obtain ⟨h1, h2, h3⟩ := res i.unit.body hb
  have hn : ps.map (·.1) ++ b.names =
      (i.unit.inputs.map (fun i => Sig.name i.1) ++ sigs i.unit.body).map Sig.signal := by
    simp [input_names hps, h1, Sig.signal]
  refine ⟨?_, ?_, h2 _ _ ?_ hr.inScope, h3 hr.armed⟩
  · simp only
    rw [hn]
    exact List.pairwise_map.2 (hr.distinct.imp fun hne h => hne (signal_inj h))
  · simp only
    rw [hn]
    intro n hm
    obtain ⟨s, hs, rfl⟩ := List.mem_map.1 hm
    exact hr.given s hs
  · intro x hx
    simp only [input_names hps]
    obtain ⟨p, hp, rfl⟩ := List.mem_map.1 hx
    exact List.mem_map.2 ⟨p, hp, rfl⟩

end Spade.Elab

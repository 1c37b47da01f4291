import Verif.Elab.Eval
import Verif.Elab.ExpSound
import Verif.Elab.Props

/-!
# The values of source programs are those of the programs that lowering sees (C62)
-/

namespace Spade.Elab

open Spade.Infer.Spec (Kind Base GT TExpr)
open Spade.Check
open Spade.Codegen (MTy)
open Spade.Match (Val Matches MatchesAll)
open Spade.Lower (LPat srcs bindsAll)
open Spade.Expr (Ev Evs EvStms EvArms Vars callVars)

/-! ## Patterns -/

/-- The bindings of an elaborated pattern are those of the source pattern. -/
def SameBinds (bs : List (Nat × Val)) (cs : List (Nat × MTy × Val)) : Prop :=
  cs.map (fun c => (c.1, c.2.2)) = bs.map (fun b => (sigName b.1, b.2))

theorem SameBinds.append {bs bs' : List (Nat × Val)} {cs cs' : List (Nat × MTy × Val)}
    (h : SameBinds bs cs) (h' : SameBinds bs' cs') : SameBinds (bs ++ bs') (cs ++ cs') := by
  simp only [SameBinds, List.map_append] at h h' ⊢
  rw [h, h']

mutual
theorem elabPat_binds {X : Ctx} {Γ : Typing} : ∀ (p : Pat) {q : LPat}, elabPat X Γ p = some q → ∀ v,
    (∀ bs, patBinds X.items p v = some bs → Matches q.src v ∧ SameBinds bs (q.binds v)) ∧
    (patBinds X.items p v = none → ¬ Matches q.src v)
  | .int id z, q, h, v => by
    simp only [elabPat, Option.bind_eq_bind, Option.bind_eq_some_iff, Option.pure_def,
      Option.some.injEq] at h
    obtain ⟨m, hm, rfl⟩ := h
    cases v <;> simp [patBinds, LPat.src, Matches, LPat.binds, SameBinds]
  | .bool id b, q, h, v => by
    simp only [elabPat, Option.some.injEq] at h
    subst h
    cases v <;> simp [patBinds, LPat.src, Matches, LPat.binds, SameBinds]
  | .bound id x pd none, q, h, v => by
    simp only [elabPat, Option.bind_eq_bind, Option.bind_eq_some_iff, Option.pure_def,
      Option.some.injEq] at h
    obtain ⟨m, hm, rfl⟩ := h
    simp [patBinds, LPat.src, Matches, LPat.binds, SameBinds]
  | .bound id x pd (some p), q, h, v => by
    simp only [elabPat, Option.bind_eq_bind, Option.bind_eq_some_iff, Option.pure_def,
      Option.some.injEq] at h
    obtain ⟨m, hm, q, hq, rfl⟩ := h
    obtain ⟨h1, h2⟩ := elabPat_binds p hq v
    simp only [patBinds, LPat.src, Matches, Option.map_eq_none_iff, Option.map_eq_some_iff]
    refine ⟨?_, h2⟩
    rintro bs ⟨cs, hcs, rfl⟩
    obtain ⟨h3, h4⟩ := h1 cs hcs
    refine ⟨h3, ?_⟩
    simp only [SameBinds] at h4
    simp [SameBinds, LPat.binds, h4]
  | .tuple id ps, q, h, v => by
    simp only [elabPat, Option.bind_eq_bind, Option.bind_eq_some_iff, Option.pure_def,
      Option.some.injEq] at h
    obtain ⟨m, hm, qs, hqs, rfl⟩ := h
    cases v with
    | tup vs =>
      obtain ⟨h1, h2⟩ := elabPats_binds ps hqs vs
      simpa only [patBinds, LPat.src, Matches, LPat.binds] using ⟨h1, h2⟩
    | _ => simp [patBinds, LPat.src, Matches]
  | .array id ps, q, h, v => by
    simp only [elabPat, Option.bind_eq_bind, Option.bind_eq_some_iff, Option.pure_def,
      Option.some.injEq] at h
    obtain ⟨m, hm, qs, hqs, rfl⟩ := h
    cases v with
    | tup vs =>
      obtain ⟨h1, h2⟩ := elabPats_binds ps hqs vs
      simpa only [patBinds, LPat.src, Matches, LPat.binds] using ⟨h1, h2⟩
    | _ => simp [patBinds, LPat.src, Matches]
  | .type id c ps, q, h, v => by
    simp only [elabPat, Option.bind_eq_bind, Option.bind_eq_some_iff, Option.pure_def] at h
    obtain ⟨m, hm, qs, hqs, h⟩ := h
    split at h
    next n i hi =>
      cases h
      cases v with
      | variant j vs =>
        obtain ⟨h1, h2⟩ := elabPats_binds ps hqs vs
        simp only [patBinds, hi, LPat.src, Matches, LPat.binds]
        by_cases hj : j = i
        · simpa [hj] using ⟨h1, h2⟩
        · simp [hj]
      | _ => simp [patBinds, LPat.src, Matches, hi]
    next n hi =>
      cases h
      cases v with
      | tup vs =>
        obtain ⟨h1, h2⟩ := elabPats_binds ps hqs vs
        simpa only [patBinds, hi, LPat.src, Matches, LPat.binds] using ⟨h1, h2⟩
      | _ => simp [patBinds, LPat.src, Matches, hi]
    next => exact nomatch h
theorem elabPats_binds {X : Ctx} {Γ : Typing} : ∀ (ps : List Pat) {qs : List LPat},
    elabPats X Γ ps = some qs → ∀ vs,
    (∀ bs, patsBinds X.items ps vs = some bs → MatchesAll (srcs qs) vs ∧ SameBinds bs (bindsAll qs vs)) ∧
    (patsBinds X.items ps vs = none → ¬ MatchesAll (srcs qs) vs)
  | [], qs, h, vs => by
    simp only [elabPats, Option.some.injEq] at h
    subst h
    cases vs <;> simp [patsBinds, srcs, MatchesAll, bindsAll, SameBinds]
  | p :: ps, qs, h, vs => by
    simp only [elabPats, Option.bind_eq_bind, Option.bind_eq_some_iff, Option.pure_def,
      Option.some.injEq] at h
    obtain ⟨q, hq, qs, hqs, rfl⟩ := h
    cases vs with
    | nil => simp [patsBinds, srcs, MatchesAll]
    | cons v vs =>
      obtain ⟨h1, h2⟩ := elabPat_binds p hq v
      obtain ⟨h3, h4⟩ := elabPats_binds ps hqs vs
      simp only [patsBinds, srcs, MatchesAll, bindsAll]
      cases ha : patBinds X.items p v with
      | none => exact ⟨by simp, fun _ h => h2 ha h.1⟩
      | some a =>
        cases hb : patsBinds X.items ps vs with
        | none => exact ⟨by simp, fun _ h => h4 hb h.2⟩
        | some b =>
          refine ⟨?_, by simp⟩
          intro bs hbs
          simp only [Option.some.injEq] at hbs
          subst hbs
          exact ⟨⟨(h1 a ha).1, (h3 b hb).1⟩, (h1 a ha).2.append (h3 b hb).2⟩
end

/-! ## Variables -/

/-- The signals of variables have the values of the variables. -/
def ScopeOk (env : Scope) (ρ : Vars) : Prop := ∀ x v, env x = some v → ρ (sigName x) = some v

theorem sigName_inj {x y : Nat} (h : sigName x = sigName y) : x = y := by
  simp only [sigName] at h
  omega

theorem scope_add {env : Scope} {ρ : Vars} (h : ScopeOk env ρ) : ∀ {bs : List (Nat × Val)}
    {cs : List (Nat × MTy × Val)}, SameBinds bs cs → ScopeOk (env.add bs) (ρ.extend cs)
  | [], [], _ => by
    intro x v hx
    simp only [Scope.add, List.lookup_nil, Option.none_or] at hx
    simpa [Vars.extend] using h x v hx
  | [], _ :: _, hs => by simp [SameBinds] at hs
  | _ :: _, [], hs => by simp [SameBinds] at hs
  | (y, w) :: bs, (n, t, w') :: cs, hs => by
    simp only [SameBinds, List.map_cons, List.cons.injEq, Prod.mk.injEq] at hs
    obtain ⟨⟨rfl, rfl⟩, hs⟩ := hs
    have ih := scope_add h (bs := bs) (cs := cs) hs
    intro x v hx
    simp only [Scope.add, List.lookup_cons] at hx
    by_cases hxy : x = y
    · subst hxy
      simp only [beq_self_eq_true, Option.some_or, Option.some.injEq] at hx
      simp [Vars.extend, hx]
    · have : (x == y) = false := by simp [hxy]
      simp only [this] at hx
      have h1 := ih x v hx
      have h2 : (sigName y == sigName x) = false := by
        simp only [beq_eq_false_iff_ne]
        exact fun e => hxy (sigName_inj e).symm
      simp only [Vars.extend, List.find?_cons, h2] at h1 ⊢
      exact h1

theorem scope_inputs {X : Ctx} {Γ : Typing} : ∀ {is : List (Nat × TSpec)} {ps : List (Nat × MTy)},
    elabInputs X Γ is = some ps → ∀ vs : List Val,
    ScopeOk (fun x => ((is.map (·.1)).zip vs).lookup x) (callVars ps vs)
  | [], ps, h, vs => by intro x v hx; simp at hx
  | i :: is, ps, h, [] => by intro x v hx; simp at hx
  | i :: is, ps, h, w :: vs => by
    simp only [elabInputs, Option.bind_eq_bind, Option.bind_eq_some_iff, Option.pure_def,
      Option.some.injEq] at h
    obtain ⟨m, hm, ps, hps, rfl⟩ := h
    have ih := scope_inputs hps vs
    intro x v hx
    simp only [List.map_cons, List.zip_cons_cons, List.lookup_cons] at hx
    simp only [callVars]
    by_cases hxy : x = i.1
    · subst hxy
      simpa using hx
    · have h1 : (x == i.1) = false := by simp [hxy]
      simp only [h1] at hx
      rw [if_neg (fun e => hxy (sigName_inj e))]
      exact ih x v hx

/-! ## Operators -/

theorem wrap_num {X : Ctx} {Δ : Decls} (hX : Coherent X Δ) {s : Bool} {n : Nat} {m : MTy}
    (h : X.mir (tNum s n) = some m) (z : Int) : Expr.wrap m z = fit s n z ∧ m.size = n := by
  rcases tNum_mir hX h with ⟨rfl, rfl⟩ | ⟨rfl, rfl⟩ <;> simp [Expr.wrap, fit, MTy.size]

theorem bin_value {X : Ctx} {Δ : Decls} (hX : Coherent X Δ) {s : Bool} {n : Nat} {m : MTy}
    (h : X.mir (tNum s n) = some m) (op : BinOp) (x y : Int) :
    Expr.binVal (binOp op) m x y = opValue s n op x y := by
  have hw := fun z => (wrap_num hX h z).1
  have hs := (wrap_num hX h 0).2
  cases op <;> simp [binOp, Expr.binVal, opValue, hw, Expr.unsigned, Expr.signed, asBits, hs]

/-! ## Expressions -/

theorem callArgs_of_map {θ : Generics} : ∀ {ps : List (String × Kind)} {as : List GT},
    as.map some = ps.map (fun p => θ p.1) → callArgs ps θ = some as
  | [], as, h => by
    simp only [List.map_nil, List.map_eq_nil_iff] at h
    subst h; rfl
  | p :: ps, [], h => by simp at h
  | p :: ps, a :: as, h => by
    simp only [List.map_cons, List.cons.injEq] at h
    simp [callArgs, ← h.1, callArgs_of_map h.2]

theorem natAt_nat {Γ : Typing} {id n : Nat} (h : Γ.id id = some (tNat n)) : natAt Γ id = some n := by
  simp [natAt, h, tNat]

theorem boundAt_of {Γ : Typing} {b : Option (Nat × TExpr)} {o : Option Nat} (h : RangeBound Γ b o) :
    boundAt Γ b = some o := by
  cases h with
  | none => rfl
  | some h => simp [boundAt, natAt_nat h]

theorem structOf_of {t : GT} {n : Nat} (h : StructBelow t n) : structOf t = some n := by
  induction h with
  | here => rfl
  | view _ ih => simpa [structOf] using ih

theorem elabs_tys {X : Ctx} {Δ : Decls} {Γ : Typing} (hX : Coherent X Δ) : ∀ {es : List Exp}
    {xs : List Expr.Expr} {us ts : List GT} {ms : List MTy}, Exp.Oks Δ Γ es ts →
    elabs X Γ es = some xs → us.map some = es.map (fun e => Γ.id e.id) → ms.map some = us.map X.mir →
    xs.map Expr.Expr.ty = ms
  | [], xs, us, ts, ms, _, h, hu, hm => by
    simp only [elabs, Option.some.injEq] at h
    subst h
    simp only [List.map_nil, List.map_eq_nil_iff] at hu
    subst hu
    simpa using hm.symm
  | e :: es, xs, [], ts, ms, _, h, hu, hm => by simp at hu
  | e :: es, xs, u :: us, ts, [], _, h, hu, hm => by simp at hm
  | e :: es, xs, u :: us, ts, m :: ms, he, h, hu, hm => by
    simp only [elabs, Option.bind_eq_bind, Option.bind_eq_some_iff, Option.pure_def,
      Option.some.injEq] at h
    obtain ⟨x, hx, xs, hxs, rfl⟩ := h
    simp only [Exp.Oks] at he
    obtain ⟨t, ts, rfl, ht, he, hes⟩ := he
    simp only [List.map_cons, List.cons.injEq] at hu hm ⊢
    refine ⟨?_, elabs_tys hX hes hxs hu.2 hm.2⟩
    have := elabE_at hX he hx hu.1.symm
    rw [← hm.1] at this
    exact (Option.some.inj this).symm

/-- The value of an expression of the source is the value of the expression that lowering sees. -/
theorem value_ev {X : Ctx} {Δ : Decls} {insts : Nat → Option Inst} (hX : Coherent X Δ)
    (hI : ∀ k i, insts k = some i → UnitOk Δ i.types i.unit ∧ ∃ fn, i.fn X = some fn)
    (hnum : ∀ k i, insts k = some i → X.inst i.name i.args = some k)
    {Γ : Typing} {env : Scope} {e : Exp} {v : Val} (h : Value X Δ insts Γ env e v) :
    e.Ok Δ Γ → ∀ x ρ, elabE X Γ e = some x → ScopeOk env ρ → Ev (elabProg X insts) ρ x v := by
  refine Value.rec
    (motive_1 := fun Γ env e v _ => e.Ok Δ Γ → ∀ x ρ, elabE X Γ e = some x → ScopeOk env ρ →
      Ev (elabProg X insts) ρ x v)
    (motive_2 := fun Γ env es vs _ => ∀ ts, Exp.Oks Δ Γ es ts → ∀ xs ρ, elabs X Γ es = some xs →
      ScopeOk env ρ → Evs (elabProg X insts) ρ xs vs)
    (motive_3 := fun Γ env ss env' _ => Stmt.Oks Δ Γ ss → ∀ xs ρ, elabStms X Γ ss = some xs →
      ScopeOk env ρ → ∃ ρ', EvStms (elabProg X insts) ρ xs ρ' ∧ ScopeOk env' ρ')
    (motive_4 := fun Γ env arms v w _ => ∀ tc t, Arm.Oks Δ Γ tc t arms → ∀ xs ρ,
      elabArms X Γ arms = some xs → ScopeOk env ρ → EvArms (elabProg X insts) ρ xs v w)
    ?_ ?_ ?_ ?_ ?_ ?_ ?_ ?_ ?_ ?_ ?_ ?_ ?_ ?_ ?_ ?_ ?_ ?_ ?_ ?_ ?_ ?_ ?_ ?_ ?_ ?_ ?_ ?_ ?_ ?_ ?_ ?_ ?_ ?_ ?_ ?_ ?_ ?_ ?_ h
  · intro Γ env id y v h hok x ρ hx hs
    simp only [elabE, Option.bind_eq_bind, Option.bind_eq_some_iff, Option.pure_def, Option.some.injEq] at hx
    obtain ⟨m, hm, rfl⟩ := hx
    exact .var (hs _ _ h)
  · intro Γ env id g b as h hok x ρ hx hs
    simp only [elabE, Option.bind_eq_bind, Option.bind_eq_some_iff, Option.pure_def, Option.some.injEq] at hx
    obtain ⟨b', hb, rfl⟩ := hx
    simp only [boolGen, h, Option.some.injEq] at hb
    subst hb
    exact .bool
  · intro Γ env id g z as h hok x ρ hx hs
    simp only [elabE, Option.bind_eq_bind, Option.bind_eq_some_iff, Option.pure_def, Option.some.injEq] at hx
    obtain ⟨m, hm, z', hz, rfl⟩ := hx
    simp only [intGen, h, Option.some.injEq] at hz
    subst hz
    exact .int
  · intro Γ env id z k hok x ρ hx hs
    simp only [elabE, Option.bind_eq_bind, Option.bind_eq_some_iff, Option.pure_def, Option.some.injEq] at hx
    obtain ⟨m, hm, rfl⟩ := hx
    exact .int
  · intro Γ env id b hok x ρ hx hs
    simp only [elabE, Option.some.injEq] at hx
    subst hx
    exact .bool
  · intro Γ env id es vs _ ih hok x ρ hx hs
    simp only [elabE, Option.bind_eq_bind, Option.bind_eq_some_iff, Option.pure_def, Option.some.injEq] at hx
    obtain ⟨m, hm, xs, hxs, rfl⟩ := hx
    simp only [Exp.Ok] at hok
    obtain ⟨ts, _, hes⟩ := hok
    exact .tuple (ih ts hes xs ρ hxs hs)
  · intro Γ env id e k v w _ hmem ih hok x ρ hx hs
    simp only [elabE, Option.bind_eq_bind, Option.bind_eq_some_iff, Option.pure_def, Option.some.injEq] at hx
    obtain ⟨m, hm, x, hx, rfl⟩ := hx
    simp only [Exp.Ok] at hok
    exact .proj (ih hok.1 x ρ hx hs) hmem
  · intro Γ env id e f k t n gs fs v w _ ht hb hst hk hmem ih hok x ρ hx hs
    simp only [elabE, Option.bind_eq_bind, Option.bind_eq_some_iff, Option.pure_def, Option.some.injEq] at hx
    obtain ⟨m, hm, x, hx, s, hst', fs', hfs', rfl⟩ := hx
    simp only [Exp.Ok] at hok
    obtain ⟨h1, h2⟩ := hX.structs n gs fs hst
    obtain ⟨t', ht', hst'⟩ := hst'
    cases some_det ht ht'
    cases some_det hst' (structOf_of hb)
    simp only [fieldNames, h1, Option.some.injEq] at hfs'
    subst hfs'
    refine .field (k := k) (ih hok.1 x ρ hx hs) ⟨hk, fun j hj => ?_⟩ hmem
    exact (List.getElem?_inj (List.getElem?_eq_some_iff.mp hj).1 h2).mp (hj.trans hk.symm)
  · intro Γ env id e t v _ ih hok x ρ hx hs
    simp only [elabE, Option.bind_eq_bind, Option.bind_eq_some_iff, Option.pure_def, Option.some.injEq] at hx
    obtain ⟨m, hm, x, hx, rfl⟩ := hx
    simp only [Exp.Ok] at hok
    exact .cast (ih hok.1 x ρ hx hs)
  · intro Γ env id es vs _ ih hok x ρ hx hs
    simp only [elabE, Option.bind_eq_bind, Option.bind_eq_some_iff, Option.pure_def, Option.some.injEq] at hx
    obtain ⟨m, hm, xs, hxs, rfl⟩ := hx
    simp only [Exp.Ok] at hok
    obtain ⟨t, _, _, hes⟩ := hok
    exact .array (ih _ hes xs ρ hxs hs)
  · intro Γ env id e nid c n v _ hn ih hok x ρ hx hs
    simp only [elabE, Option.bind_eq_bind, Option.bind_eq_some_iff, Option.pure_def, Option.some.injEq] at hx
    obtain ⟨m, hm, x, hx, n', hn', rfl⟩ := hx
    simp only [Exp.Ok] at hok
    cases some_det hn' (natAt_nat hn)
    exact .rep (ih hok.1 x ρ hx hs)
  · intro Γ env id a i vs k v _ _ hk iha ihi hok x ρ hx hs
    simp only [elabE, Option.bind_eq_bind, Option.bind_eq_some_iff, Option.pure_def, Option.some.injEq] at hx
    obtain ⟨m, hm, x, hx, y, hy, rfl⟩ := hx
    simp only [Exp.Ok] at hok
    exact .elem (iha hok.1 x ρ hx hs) (ihi hok.2.1 y ρ hy hs) hk
  · intro Γ env id a lo hi s e vs _ hlo hhi ih hok x ρ hx hs
    simp only [elabE, Option.bind_eq_bind, Option.bind_eq_some_iff, Option.pure_def, Option.some.injEq] at hx
    obtain ⟨m, hm, x, hx, s', hs', e', he', rfl⟩ := hx
    simp only [Exp.Ok] at hok
    cases some_det hs' (boundAt_of hlo)
    cases some_det he' (boundAt_of hhi)
    exact .range (ih hok.1 x ρ hx hs)
  · intro Γ env env' id ss r v _ _ ihs ihr hok x ρ hx hs
    simp only [elabE, Option.bind_eq_bind, Option.bind_eq_some_iff, Option.pure_def, Option.some.injEq] at hx
    obtain ⟨xs, hxs, x, hx, rfl⟩ := hx
    simp only [Exp.Ok] at hok
    obtain ⟨ρ', h1, h2⟩ := ihs hok.1 xs ρ hxs hs
    exact .block h1 (ihr hok.2.1 x ρ' hx h2)
  · intro Γ env env' id ss _ ihs hok x ρ hx hs
    simp only [elabE, Option.bind_eq_bind, Option.bind_eq_some_iff, Option.pure_def, Option.some.injEq] at hx
    obtain ⟨xs, hxs, rfl⟩ := hx
    simp only [Exp.Ok] at hok
    obtain ⟨ρ', h1, h2⟩ := ihs hok.1 xs ρ hxs hs
    exact .unitBlock h1
  · intro Γ env id c a b v _ _ ihc iha hok x ρ hx hs
    simp only [elabE, Option.bind_eq_bind, Option.bind_eq_some_iff, Option.pure_def, Option.some.injEq] at hx
    obtain ⟨m, hm, x, hx, y, hy, z, hz, rfl⟩ := hx
    simp only [Exp.Ok] at hok
    exact .iteTrue (ihc hok.1 x ρ hx hs) (iha hok.2.1 y ρ hy hs)
  · intro Γ env id c a b v _ _ ihc iha hok x ρ hx hs
    simp only [elabE, Option.bind_eq_bind, Option.bind_eq_some_iff, Option.pure_def, Option.some.injEq] at hx
    obtain ⟨m, hm, x, hx, y, hy, z, hz, rfl⟩ := hx
    simp only [Exp.Ok] at hok
    exact .iteFalse (ihc hok.1 x ρ hx hs) (iha hok.2.2.1 z ρ hz hs)
  · intro Γ env id c arms v w _ _ ihc iha hok x ρ hx hs
    simp only [elabE, Option.bind_eq_bind, Option.bind_eq_some_iff, Option.pure_def, Option.some.injEq] at hx
    obtain ⟨m, hm, x, hx, as, has, rfl⟩ := hx
    simp only [Exp.Ok] at hok
    obtain ⟨h1, _, tc, t, _, _, h2⟩ := hok
    exact .match (ihc h1 x ρ hx hs) (iha tc t h2 as ρ has hs)
  · intro Γ env id op a b p q z s n _ _ ht hop iha ihb hok x ρ hx hs
    simp only [elabE, Option.bind_eq_bind, Option.bind_eq_some_iff, Option.pure_def, Option.some.injEq] at hx
    obtain ⟨m, hm, x, hx, y, hy, rfl⟩ := hx
    simp only [Exp.Ok] at hok
    obtain ⟨t', ht', hm⟩ := idTy_some hm
    cases some_det ht ht'
    exact .bin (iha hok.1 x ρ hx hs) (ihb hok.2.1 y ρ hy hs) ((bin_value hX hm op p q).trans hop)
  · intro Γ env id a p s n _ ht ih hok x ρ hx hs
    simp only [elabE, Option.bind_eq_bind, Option.bind_eq_some_iff, Option.pure_def, Option.some.injEq] at hx
    obtain ⟨m, hm, x, hx, rfl⟩ := hx
    simp only [Exp.Ok] at hok
    obtain ⟨t', ht', hm⟩ := idTy_some hm
    cases some_det ht ht'
    rw [← (wrap_num hX hm _).1]
    exact .un (ih hok.1 x ρ hx hs) .neg
  · intro Γ env id a p s n _ ht ih hok x ρ hx hs
    simp only [elabE, Option.bind_eq_bind, Option.bind_eq_some_iff, Option.pure_def, Option.some.injEq] at hx
    obtain ⟨m, hm, x, hx, rfl⟩ := hx
    simp only [Exp.Ok] at hok
    obtain ⟨t', ht', hm⟩ := idTy_some hm
    cases some_det ht ht'
    rw [← (wrap_num hX hm _).1]
    exact .un (ih hok.1 x ρ hx hs) .bitNot
  · intro Γ env id a b _ ih hok x ρ hx hs
    simp only [elabE, Option.bind_eq_bind, Option.bind_eq_some_iff, Option.pure_def, Option.some.injEq] at hx
    obtain ⟨m, hm, x, hx, rfl⟩ := hx
    simp only [Exp.Ok] at hok
    exact .un (ih hok.1 x ρ hx hs) .not
  · intro Γ env id a v _ ih hok x ρ hx hs
    simp only [elabE, Option.bind_eq_bind, Option.bind_eq_some_iff, Option.pure_def, Option.some.injEq] at hx
    obtain ⟨m, hm, x, hx, rfl⟩ := hx
    simp only [Exp.Ok] at hok
    exact .un (ih hok.1 x ρ hx hs) .deref
  · intro Γ env id a v _ ih hok x ρ hx hs
    simp only [elabE, Option.bind_eq_bind, Option.bind_eq_some_iff, Option.pure_def, Option.some.injEq] at hx
    obtain ⟨m, hm, x, hx, rfl⟩ := hx
    simp only [Exp.Ok] at hok
    exact .un (ih hok.1 x ρ hx hs) .ref
  · intro Γ env id f ts es vs n i hi _ ih hok x ρ hx hs
    simp only [elabE, Option.bind_eq_bind, Option.bind_eq_some_iff, Option.pure_def, Option.some.injEq] at hx
    obtain ⟨m, hm, xs, hxs, c, hc, rfl⟩ := hx
    simp only [Exp.Ok] at hok
    obtain ⟨h, us', t', hh, hg, hus, hes, ht', hout, _⟩ := hok
    simp only [callee, hi, Option.some.injEq] at hc
    subst hc
    exact .variant (ih _ hes xs ρ hxs hs)
  · intro Γ env id f ts es vs n hi _ ih hok x ρ hx hs
    simp only [elabE, Option.bind_eq_bind, Option.bind_eq_some_iff, Option.pure_def, Option.some.injEq] at hx
    obtain ⟨m, hm, xs, hxs, c, hc, rfl⟩ := hx
    simp only [Exp.Ok] at hok
    obtain ⟨h, us', t', hh, hg, hus, hes, ht', hout, _⟩ := hok
    simp only [callee, hi, Option.some.injEq] at hc
    subst hc
    exact .struct (ih _ hes xs ρ hxs hs)
  · intro Γ env id f ts es vs i t m' w us ms hi _ hus' hms ht hm' hval ih hok x ρ hx hs
    simp only [elabE, Option.bind_eq_bind, Option.bind_eq_some_iff, Option.pure_def, Option.some.injEq] at hx
    obtain ⟨m, hm, xs, hxs, c, hc, rfl⟩ := hx
    simp only [Exp.Ok] at hok
    obtain ⟨h, us', t', hh, hg, hus, hes, ht', hout, _⟩ := hok
    simp only [callee, hi, Option.some.injEq] at hc
    subst hc
    obtain ⟨t'', ht'', hm⟩ := idTy_some hm
    cases some_det ht ht''
    cases some_det hm hm'
    refine .intr (ih _ hes xs ρ hxs hs) ?_
    rw [elabs_tys hX hes hxs hus' hms]
    exact hval
  · intro Γ env id f ts es vs h' k i w as hi hh' has hk hname hargs _ _ ih ihb hok x ρ hx hs
    simp only [elabE, Option.bind_eq_bind, Option.bind_eq_some_iff, Option.pure_def, Option.some.injEq] at hx
    obtain ⟨m, hm, xs, hxs, c, hc, rfl⟩ := hx
    simp only [Exp.Ok] at hok
    obtain ⟨h, us', t', hh, hg, hus, hes, ht', hout, _⟩ := hok
    subst hname hargs
    cases some_det hh hh'
    obtain ⟨hU, fn, hfn⟩ := hI k i hk
    have hfn' := hfn
    simp only [Inst.fn, elabUnit, Option.bind_eq_bind, Option.bind_eq_some_iff, Option.pure_def,
      Option.some.injEq] at hfn'
    obtain ⟨ps, hps, b, hb, rfl⟩ := hfn'
    have hc' : callee X Γ id i.name = some (.unit k) := by
      simp [callee, hi, hX.heads, hh, callArgs_of_map has, hnum k i hk]
    cases some_det hc hc'
    exact .unit (f := ⟨ps, b, i.signals⟩) (by simp [elabProg, hk, hfn]) (ih _ hes xs ρ hxs hs)
      (ihb hU.2.2.1 b _ hb (scope_inputs hps vs))
  · intro Γ env ts hes xs ρ hxs hs
    simp only [elabs, Option.some.injEq] at hxs
    subst hxs
    exact .nil
  · intro Γ env e es v vs _ _ ih ihs ts hes xs ρ hxs hs
    simp only [elabs, Option.bind_eq_bind, Option.bind_eq_some_iff, Option.pure_def, Option.some.injEq] at hxs
    obtain ⟨x, hx, xs, hxs, rfl⟩ := hxs
    simp only [Exp.Oks] at hes
    obtain ⟨t, ts, rfl, ht, he, hes⟩ := hes
    exact .cons (ih he x ρ hx hs) (ihs ts hes xs ρ hxs hs)
  · intro Γ env hok xs ρ hxs hs
    simp only [elabStms, Option.some.injEq] at hxs
    subst hxs
    exact ⟨ρ, .nil, hs⟩
  · intro Γ env env' p ty e v bs ss _ hbs _ ih ihs hok xs ρ hxs hs
    simp only [elabStms, Option.bind_eq_bind, Option.bind_eq_some_iff, Option.pure_def, Option.some.injEq] at hxs
    obtain ⟨q, hq, x, hx, xs, hxs, rfl⟩ := hxs
    simp only [Stmt.Oks, Stmt.Ok] at hok
    obtain ⟨h1, h2⟩ := (elabPat_binds p hq v).1 bs hbs
    obtain ⟨ρ', h3, h4⟩ := ihs hok.2 xs _ hxs (scope_add hs h2)
    exact ⟨ρ', .bind (ih hok.1.1 x ρ hx hs) h1 h3, h4⟩
  · intro Γ env env' e ss _ ihs hok xs ρ hxs hs
    simp only [elabStms, Option.bind_eq_bind, Option.bind_eq_some_iff, Option.pure_def, Option.some.injEq] at hxs
    obtain ⟨x, hx, xs, hxs, rfl⟩ := hxs
    simp only [Stmt.Oks, Stmt.Ok] at hok
    obtain ⟨ρ', h3, h4⟩ := ihs hok.2 xs _ hxs hs
    exact ⟨ρ', .expr h3, h4⟩
  · intro Γ env env' e ss _ ihs hok xs ρ hxs hs
    simp only [elabStms, Option.bind_eq_bind, Option.bind_eq_some_iff, Option.pure_def, Option.some.injEq] at hxs
    obtain ⟨x, hx, xs, hxs, rfl⟩ := hxs
    simp only [Stmt.Oks, Stmt.Ok] at hok
    obtain ⟨ρ', h3, h4⟩ := ihs hok.2 xs _ hxs hs
    exact ⟨ρ', .assert h3, h4⟩
  · intro Γ env env' ns ss _ ihs hok xs ρ hxs hs
    simp only [elabStms, Option.bind_eq_bind, Option.bind_eq_some_iff, Option.pure_def, Option.some.injEq] at hxs
    obtain ⟨xs, hxs, rfl⟩ := hxs
    simp only [Stmt.Oks, Stmt.Ok] at hok
    obtain ⟨ρ', h3, h4⟩ := ihs hok.2 xs _ hxs hs
    exact ⟨ρ', .decl h3, h4⟩
  · intro Γ env p e arms v w bs hbs _ ih tc t hok xs ρ hxs hs
    simp only [elabArms, Option.bind_eq_bind, Option.bind_eq_some_iff, Option.pure_def, Option.some.injEq] at hxs
    obtain ⟨q, hq, x, hx, xs, hxs, rfl⟩ := hxs
    simp only [Arm.Oks] at hok
    obtain ⟨h1, h2⟩ := (elabPat_binds p hq v).1 bs hbs
    exact .plain h1 (ih hok.1.2.2.1 x _ hx (scope_add hs h2))
  · intro Γ env p g e arms v w bs hbs _ _ ihg ih tc t hok xs ρ hxs hs
    simp only [elabArms, Option.bind_eq_bind, Option.bind_eq_some_iff, Option.pure_def, Option.some.injEq] at hxs
    obtain ⟨q, hq, y, hy, x, hx, xs, hxs, rfl⟩ := hxs
    simp only [Arm.Oks] at hok
    obtain ⟨h1, h2⟩ := (elabPat_binds p hq v).1 bs hbs
    exact .guarded h1 (ihg hok.1.2.2.1.1 y _ hy (scope_add hs h2)) (ih hok.1.2.2.2.1 x _ hx (scope_add hs h2))
  · intro Γ env p g e arms v w hbs _ ih tc t hok xs ρ hxs hs
    cases g with
    | none =>
      simp only [elabArms, Option.bind_eq_bind, Option.bind_eq_some_iff, Option.pure_def, Option.some.injEq] at hxs
      obtain ⟨q, hq, x, hx, xs, hxs, rfl⟩ := hxs
      simp only [Arm.Oks] at hok
      exact .next ((elabPat_binds p hq v).2 hbs) (ih tc t hok.2 xs ρ hxs hs)
    | some g =>
      simp only [elabArms, Option.bind_eq_bind, Option.bind_eq_some_iff, Option.pure_def, Option.some.injEq] at hxs
      obtain ⟨q, hq, y, hy, x, hx, xs, hxs, rfl⟩ := hxs
      simp only [Arm.Oks] at hok
      exact .next ((elabPat_binds p hq v).2 hbs) (ih tc t hok.2 xs ρ hxs hs)
  · intro Γ env p g e arms v w bs hbs _ _ ihg ih tc t hok xs ρ hxs hs
    simp only [elabArms, Option.bind_eq_bind, Option.bind_eq_some_iff, Option.pure_def, Option.some.injEq] at hxs
    obtain ⟨q, hq, y, hy, x, hx, xs, hxs, rfl⟩ := hxs
    simp only [Arm.Oks] at hok
    obtain ⟨h1, h2⟩ := (elabPat_binds p hq v).1 bs hbs
    exact .nextGuard h1 (ihg hok.1.2.2.1.1 y _ hy (scope_add hs h2)) (ih tc t hok.2 xs ρ hxs hs)

/-! ## Hardware -/

theorem inputs_of_names {X : Ctx} {Γ : Typing} : ∀ {is : List (Nat × TSpec)} {ps : List (Nat × MTy)}
    {ms : List MTy}, elabInputs X Γ is = some ps → ms.map some = (is.map fun i => X.nameTy Γ i.1) →
    ps.map (·.2) = ms
  | [], ps, ms, h, hm => by
    simp only [elabInputs, Option.some.injEq] at h
    subst h
    simpa using hm.symm
  | i :: is, ps, [], h, hm => by simp at hm
  | i :: is, ps, m :: ms, h, hm => by
    simp only [elabInputs, Option.bind_eq_bind, Option.bind_eq_some_iff, Option.pure_def,
      Option.some.injEq] at h
    obtain ⟨m', hm', ps, hps, rfl⟩ := h
    simp only [List.map_cons, List.cons.injEq] at hm ⊢
    rw [← hm.1] at hm'
    exact ⟨(Option.some.inj hm').symm, inputs_of_names hps hm.2⟩

/-- C62 with C51, C45 and C46, for the values of the source (what holds of it). Take instances of units
each of which type inference accepts at its generic arguments, each of them the one its name and arguments
refer to, in which every type is a hardware type, no function calls itself, names are resolved, and which are
lowered to units that declare signals with the types of the statements that drive them. When a function has
the value `v` for the arguments `vs`, its hardware produces an output for the bits of the arguments at the
hardware types of its inputs, and any output it produces are the bits of `v` at the hardware type of the
result. -/
theorem C62_source_function_computes_partial (X : Ctx) (Δ : Decls) (insts : Nat → Option Inst)
    (nids : Nat → Nat) (hX : Coherent X Δ) (hn : Δ.NumbersOk)
    (hacc : ∀ u i, insts u = some i → Accepted Δ i ∧ Listed X Δ i)
    (hel : ∀ u i, insts u = some i → ∃ f, i.fn X = some f ∧ Sized f.body ∧
      f.Resolved (nids u) ∧
      ∃ h, Expr.lowerFn f (nids u) = some h ∧ ∀ j ∈ h.items, j.Typed h.types)
    (hreq : ∀ f as u, X.inst f as = some u ↔ ∃ i, insts u = some i ∧ i.name = f ∧ i.args = as)
    (hA : (elabProg X insts).Acyclic)
    (u : Nat) (i : Inst) (hu : insts u = some i) (vs : List Val) (v : Val)
    (hv : Value X Δ insts i.types (inputScope i.unit vs) i.unit.body v)
    (ms : List MTy) (hms : ms.map some = i.unit.inputs.map fun p => X.nameTy i.types p.1)
    (ins : List Verilog.Bits) (hins : Lower.EncAll ms vs ins) :
    (∃ out, Expr.Produces (Expr.lowerProg (elabProg X insts) nids) u ins out) ∧
    ∀ out, Expr.Produces (Expr.lowerProg (elabProg X insts) nids) u ins out →
      ∃ m, X.idTy i.types i.unit.body.id = some m ∧ Lower.Enc m v out := by
  have hI : ∀ k i, insts k = some i → UnitOk Δ i.types i.unit ∧ ∃ fn, i.fn X = some fn := by
    intro k i hk
    obtain ⟨fn, h1, _⟩ := hel k i hk
    exact ⟨(instOk_of_accepted hn (hacc k i hk).1 (hacc k i hk).2).typed, fn, h1⟩
  have hnum : ∀ k i, insts k = some i → X.inst i.name i.args = some k := fun k i hk =>
    (hreq _ _ _).2 ⟨i, hk, rfl, rfl⟩
  obtain ⟨hU, fn, hfn⟩ := hI u i hu
  have hfn' := hfn
  simp only [Inst.fn, elabUnit, Option.bind_eq_bind, Option.bind_eq_some_iff, Option.pure_def,
    Option.some.injEq] at hfn'
  obtain ⟨ps, hps, b, hb, rfl⟩ := hfn'
  have hev := value_ev hX hI hnum hv hU.2.2.1 b _ hb (scope_inputs hps vs)
  obtain ⟨t, ht, hm⟩ := elabE_ty hX _ hU.2.2.1 hb
  obtain ⟨h1, h2⟩ := C62_inferred_function_computes_partial X Δ insts nids hX hn hacc hel
    (fun f as u h => (hreq f as u).1 h) hA u ⟨ps, b, i.signals⟩ (by simp [elabProg, hu, hfn]) vs v ins hev
    (by simpa only [inputs_of_names hps hms] using hins)
  exact ⟨h1, fun out ho => ⟨b.ty, by simp [Ctx.idTy, ht, hm], h2 out ho⟩⟩

end Spade.Elab

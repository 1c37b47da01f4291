import Verif.Elab.Spec

/-!
# From types to hardware types: lemmas on types
-/

namespace Spade.Elab

open Spade.Infer.Spec (Kind Base GT TExpr Val Value LeastInt LeastUint)
open Spade.Check
open Spade.Codegen (MTy IsNum)

/-! ## Monotonicity -/

abbrev DeclFn := Nat → List Conc → Option Conc

/-- `D'` agrees with `D` where `D` is defined. -/
def Below (D D' : DeclFn) : Prop := ∀ n args c, D n args = some c → D' n args = some c

mutual
theorem specConc_mono {D D' : DeclFn} (h : Below D D') (σ : String → Option Conc) :
    ∀ (s : TSpec) {c : Conc}, specConc D σ s = some c → specConc D' σ s = some c
  | .declared n ps, c, hc => by
    simp only [specConc, Option.bind_eq_some_iff] at hc ⊢
    obtain ⟨cs, h1, h2⟩ := hc
    exact ⟨cs, expConcs_mono h σ ps h1, h _ _ _ h2⟩
  | .generic g, c, hc => by simpa only [specConc] using hc
  | .tuple ts, c, hc => by
    simp only [specConc, Option.bind_eq_bind, Option.bind_eq_some_iff, Option.pure_def] at hc ⊢
    obtain ⟨cs, h1, h2⟩ := hc
    exact ⟨cs, specConcs_mono h σ ts h1, h2⟩
  | .array t n, c, hc => by
    simp only [specConc, Option.bind_eq_bind, Option.bind_eq_some_iff] at hc ⊢
    obtain ⟨a, h1, b, h2, h3⟩ := hc
    exact ⟨a, specConc_mono h σ t h1, b, expConc_mono h σ n h2, h3⟩
  | .copyView t, c, hc => by
    simp only [specConc, Option.bind_eq_bind, Option.bind_eq_some_iff] at hc ⊢
    obtain ⟨a, h1, h2⟩ := hc
    exact ⟨a, specConc_mono h σ t h1, h2⟩
  | .inverted t, c, hc => by simp [specConc] at hc
  | .wildcard, c, hc => by simp [specConc] at hc
theorem specConcs_mono {D D' : DeclFn} (h : Below D D') (σ : String → Option Conc) :
    ∀ (s : List TSpec) {c : List Conc}, specConcs D σ s = some c → specConcs D' σ s = some c
  | [], c, hc => by simpa only [specConcs] using hc
  | t :: ts, c, hc => by
    simp only [specConcs, Option.bind_eq_bind, Option.bind_eq_some_iff] at hc ⊢
    obtain ⟨a, h1, b, h2, h3⟩ := hc
    exact ⟨a, specConc_mono h σ t h1, b, specConcs_mono h σ ts h2, h3⟩
theorem expConc_mono {D D' : DeclFn} (h : Below D D') (σ : String → Option Conc) :
    ∀ (s : TExp) {c : Conc}, expConc D σ s = some c → expConc D' σ s = some c
  | .bool _, c, hc => by simpa only [expConc] using hc
  | .int _, c, hc => by simpa only [expConc] using hc
  | .str _, c, hc => by simpa only [expConc] using hc
  | .spec t, c, hc => by
    simp only [expConc] at hc ⊢
    exact specConc_mono h σ t hc
  | .const _, c, hc => by simp [expConc] at hc
theorem expConcs_mono {D D' : DeclFn} (h : Below D D') (σ : String → Option Conc) :
    ∀ (s : List TExp) {c : List Conc}, expConcs D σ s = some c → expConcs D' σ s = some c
  | [], c, hc => by simpa only [expConcs] using hc
  | t :: ts, c, hc => by
    simp only [expConcs, Option.bind_eq_bind, Option.bind_eq_some_iff] at hc ⊢
    obtain ⟨a, h1, b, h2, h3⟩ := hc
    exact ⟨a, expConc_mono h σ t h1, b, expConcs_mono h σ ts h2, h3⟩
end

theorem specTyss_mono {f g : List TSpec → Option (List Conc)}
    (h : ∀ s c, f s = some c → g s = some c) :
    ∀ {os : List (List TSpec)} {r : List (List MTy)}, specTyss f os = some r → specTyss g os = some r
  | [], r, hr => by simpa only [specTyss] using hr
  | o :: os, r, hr => by
    simp only [specTyss, Option.bind_eq_bind, Option.bind_eq_some_iff] at hr ⊢
    obtain ⟨a, h1, b, h2, c, h3, h4⟩ := hr
    exact ⟨a, h _ _ h1, b, h2, c, specTyss_mono h h3, h4⟩

theorem defConc_mono {D D' : DeclFn} (h : Below D D') (σ : String → Option Conc) (args : List Conc) :
    ∀ (d : TDef) {c : Conc}, defConc D σ args d = some c → defConc D' σ args d = some c
  | .prim p, c, hc => by simpa only [defConc] using hc
  | .struct fs, c, hc => by
    simp only [defConc, Option.bind_eq_bind, Option.bind_eq_some_iff] at hc ⊢
    obtain ⟨a, h1, h2⟩ := hc
    exact ⟨a, specConcs_mono h σ _ h1, h2⟩
  | .enum os, c, hc => by
    simp only [defConc, Option.bind_eq_bind, Option.bind_eq_some_iff] at hc ⊢
    obtain ⟨a, h1, h2⟩ := hc
    exact ⟨a, specTyss_mono (fun s c => specConcs_mono h σ s) h1, h2⟩

theorem declConc_step (T : Nat → Option TDecl) : ∀ k, Below (declConc T k) (declConc T (k + 1))
  | 0, n, args, c, h => by simp [declConc] at h
  | k + 1, n, args, c, h => by
    rw [declConc] at h ⊢
    cases hT : T n with
    | none => simp [hT] at h
    | some d =>
      simp only [hT] at h ⊢
      split at h
      next hl =>
        rw [if_pos hl]
        exact defConc_mono (declConc_step T k) _ _ _ h
      next => exact nomatch h

/-- What a declaration says, at the same depth. -/
theorem declConc_def {T : Nat → Option TDecl} {k n : Nat} {args : List Conc} {c : Conc} {d : TDecl}
    (h : declConc T k n args = some c) (hT : T n = some d) : args.length = d.params.length ∧
    defConc (declConc T k) (fun g => (d.params.zip args).lookup g) args d.dfn = some c := by
  cases k with
  | zero => simp [declConc] at h
  | succ k =>
    rw [declConc] at h
    simp only [hT] at h
    split at h
    next hl => exact ⟨hl, defConc_mono (declConc_step T k) _ _ _ h⟩
    next => exact nomatch h

/-! ## Types as written and ground types -/

mutual
/-- A type as written and a ground type it stands for are the same hardware type. -/
theorem spec_ground {D : DeclFn} {σ : String → Option Conc} {θ : Generics}
    (h : ∀ g t c, θ g = some t → σ g = some c → groundConc D t = some c) :
    ∀ (s : TSpec) {u : GT} {c : Conc}, s.Is θ u → specConc D σ s = some c → groundConc D u = some c
  | .declared n ps, u, c, hu, hc => by
    simp only [TSpec.Is] at hu
    obtain ⟨args, rfl, ha⟩ := hu
    simp only [specConc, Option.bind_eq_some_iff] at hc
    obtain ⟨cs, h1, h2⟩ := hc
    simp only [groundConc, Option.bind_eq_some_iff]
    exact ⟨cs, exps_ground h ps ha h1, h2⟩
  | .generic g, u, c, hu, hc => by
    simp only [TSpec.Is] at hu
    simp only [specConc] at hc
    exact h _ _ _ hu hc
  | .tuple ts, u, c, hu, hc => by
    simp only [TSpec.Is, tTup] at hu
    obtain ⟨args, rfl, ha⟩ := hu
    simp only [specConc, Option.bind_eq_bind, Option.bind_eq_some_iff] at hc
    obtain ⟨cs, h1, h2⟩ := hc
    simp only [groundConc, Option.bind_eq_bind, Option.bind_eq_some_iff]
    exact ⟨cs, specs_ground h ts ha h1, h2⟩
  | .array t n, u, c, hu, hc => by
    simp only [TSpec.Is] at hu
    obtain ⟨a, k, rfl, ha, hk⟩ := hu
    simp only [specConc, Option.bind_eq_bind, Option.bind_eq_some_iff] at hc
    obtain ⟨x, h1, y, h2, h3⟩ := hc
    simp only [groundConc, groundConcs, spec_ground h t ha h1, exp_ground h n hk h2, Option.bind_eq_bind,
      Option.bind_some, Option.pure_def]
    exact h3
  | .copyView t, u, c, hu, hc => by
    simp only [TSpec.Is, tView] at hu
    obtain ⟨a, rfl, ha⟩ := hu
    simp only [specConc, Option.bind_eq_bind, Option.bind_eq_some_iff] at hc
    obtain ⟨x, h1, m, h2, h3⟩ := hc
    simp only [groundConc, groundConcs, spec_ground h t ha h1, Option.bind_eq_bind,
      Option.bind_some, Option.pure_def]
    cases x <;> simp_all [Conc.mty]
  | .inverted t, u, c, hu, hc => by simp [specConc] at hc
  | .wildcard, u, c, hu, hc => by simp [specConc] at hc
theorem specs_ground {D : DeclFn} {σ : String → Option Conc} {θ : Generics}
    (h : ∀ g t c, θ g = some t → σ g = some c → groundConc D t = some c) :
    ∀ (s : List TSpec) {u : List GT} {c : List Conc}, TSpec.Are θ s u → specConcs D σ s = some c →
      groundConcs D u = some c
  | [], u, c, hu, hc => by
    simp only [TSpec.Are] at hu
    subst hu
    simpa only [specConcs, groundConcs] using hc
  | t :: ts, u, c, hu, hc => by
    simp only [TSpec.Are] at hu
    obtain ⟨a, as, rfl, ha, has⟩ := hu
    simp only [specConcs, Option.bind_eq_bind, Option.bind_eq_some_iff] at hc
    obtain ⟨x, h1, y, h2, h3⟩ := hc
    simp only [groundConcs, spec_ground h t ha h1, specs_ground h ts has h2, Option.bind_eq_bind,
      Option.bind_some]
    exact h3
theorem exp_ground {D : DeclFn} {σ : String → Option Conc} {θ : Generics}
    (h : ∀ g t c, θ g = some t → σ g = some c → groundConc D t = some c) :
    ∀ (s : TExp) {u : GT} {c : Conc}, s.Is θ u → expConc D σ s = some c → groundConc D u = some c
  | .bool _, u, c, hu, hc => by
    simp only [TExp.Is] at hu
    subst hu
    simpa only [expConc, groundConc] using hc
  | .int _, u, c, hu, hc => by
    simp only [TExp.Is] at hu
    subst hu
    simpa only [expConc, groundConc] using hc
  | .str _, u, c, hu, hc => by
    simp only [TExp.Is] at hu
    subst hu
    simpa only [expConc, groundConc] using hc
  | .spec t, u, c, hu, hc => by
    simp only [TExp.Is] at hu
    simp only [expConc] at hc
    exact spec_ground h t hu hc
  | .const _, u, c, hu, hc => by simp [expConc] at hc
theorem exps_ground {D : DeclFn} {σ : String → Option Conc} {θ : Generics}
    (h : ∀ g t c, θ g = some t → σ g = some c → groundConc D t = some c) :
    ∀ (s : List TExp) {u : List GT} {c : List Conc}, TExp.Are θ s u → expConcs D σ s = some c →
      groundConcs D u = some c
  | [], u, c, hu, hc => by
    simp only [TExp.Are] at hu
    subst hu
    simpa only [expConcs, groundConcs] using hc
  | t :: ts, u, c, hu, hc => by
    simp only [TExp.Are] at hu
    obtain ⟨a, as, rfl, ha, has⟩ := hu
    simp only [expConcs, Option.bind_eq_bind, Option.bind_eq_some_iff] at hc
    obtain ⟨x, h1, y, h2, h3⟩ := hc
    simp only [groundConcs, exp_ground h t ha h1, exps_ground h ts has h2, Option.bind_eq_bind,
      Option.bind_some]
    exact h3
end

/-- Looking up a parameter in the ground arguments and in the hardware arguments. -/
theorem zip_ground {D : DeclFn} {g : String} {t : GT} {c : Conc} :
    ∀ {ps : List String} {as : List GT} {cs : List Conc}, groundConcs D as = some cs →
      (ps.zip as).lookup g = some t → (ps.zip cs).lookup g = some c → groundConc D t = some c
  | [], _, _, _, h, _ => by simp at h
  | _ :: _, [], _, _, h, _ => by simp at h
  | p :: ps, a :: as, cs, hc, h1, h2 => by
    simp only [groundConcs, Option.bind_eq_bind, Option.bind_eq_some_iff, Option.pure_def,
      Option.some.injEq] at hc
    obtain ⟨x, hx, xs, hxs, rfl⟩ := hc
    simp only [List.zip_cons_cons, List.lookup_cons] at h1 h2
    split at h1
    next hg =>
      simp only [hg, Option.some.injEq] at h2
      cases h1; cases h2
      exact hx
    next hg =>
      simp only [hg] at h2
      exact zip_ground hxs h1 h2

/-! ## The arguments of a constructor -/

theorem self_args {θ : Generics} : ∀ {ps : List (String × Kind)} {as : List GT},
    TExp.Are θ (ps.map fun p => .spec (.generic p.1)) as →
    ∀ g c D cs t, groundConcs D as = some cs → θ g = some t →
      ((ps.map (·.1)).zip cs).lookup g = some c → groundConc D t = some c
  | [], _, _, _, _, _, _, _, _, _, h => by simp at h
  | p :: ps, as, h, g, c, D, cs, t, hcs, ht, hg => by
    simp only [List.map_cons, TExp.Are, TExp.Is, TSpec.Is] at h
    obtain ⟨a, as, rfl, ha, has⟩ := h
    simp only [groundConcs, Option.bind_eq_bind, Option.bind_eq_some_iff, Option.pure_def,
      Option.some.injEq] at hcs
    obtain ⟨x, hx, xs, hxs, rfl⟩ := hcs
    simp only [List.map_cons, List.zip_cons_cons, List.lookup_cons] at hg
    split at hg
    next he =>
      cases hg
      rw [beq_iff_eq] at he
      subst he
      rw [ha] at ht
      cases ht
      exact hx
    next he => exact self_args has g c D xs t hxs ht hg

theorem specTyss_at {f : List TSpec → Option (List Conc)} :
    ∀ {os : List (List TSpec)} {r : List (List MTy)} {i : Nat} {o : List TSpec},
      specTyss f os = some r → os[i]? = some o → ∃ cs ts, f o = some cs ∧ concTys cs = some ts ∧
        r[i]? = some ts
  | [], _, _, _, _, h => by simp at h
  | o :: os, r, i, o', hr, h => by
    simp only [specTyss, Option.bind_eq_bind, Option.bind_eq_some_iff, Option.pure_def,
      Option.some.injEq] at hr
    obtain ⟨a, h1, b, h2, c, h3, rfl⟩ := hr
    cases i with
    | zero =>
      simp only [List.getElem?_cons_zero, Option.some.injEq] at h
      subst h
      exact ⟨a, b, h1, h2, rfl⟩
    | succ i =>
      rw [List.getElem?_cons_succ] at h ⊢
      exact specTyss_at h3 h

/-! ## Types in a context -/

/-- The hardware types of ground types. -/
def Ctx.mirs (X : Ctx) : List GT → Option (List MTy)
  | [] => some []
  | t :: ts => do
    let m ← X.mir t
    let ms ← X.mirs ts
    pure (m :: ms)

theorem mirs_of_ground {X : Ctx} : ∀ {us : List GT} {cs : List Conc} {ms : List MTy},
    groundConcs (declConc X.types X.depth) us = some cs → concTys cs = some ms → X.mirs us = some ms
  | [], cs, ms, h, h1 => by
    simp only [groundConcs, Option.some.injEq] at h
    subst h
    simpa only [concTys, Ctx.mirs] using h1
  | u :: us, cs, ms, h, h1 => by
    simp only [groundConcs, Option.bind_eq_bind, Option.bind_eq_some_iff, Option.pure_def,
      Option.some.injEq] at h
    obtain ⟨x, hx, xs, hxs, rfl⟩ := h
    simp only [concTys, Option.bind_eq_bind, Option.bind_eq_some_iff, Option.pure_def,
      Option.some.injEq] at h1
    obtain ⟨m, hm, ms', hms, rfl⟩ := h1
    simp [Ctx.mirs, Ctx.mir, hx, hm, mirs_of_ground hxs hms]

theorem ground_of_mir {X : Ctx} {u : GT} {m : MTy} (h : X.mir u = some m) :
    groundConc (declConc X.types X.depth) u = some (.ty m) := by
  simp only [Ctx.mir, Option.bind_eq_some_iff] at h
  obtain ⟨c, h1, h2⟩ := h
  cases c <;> simp_all [Conc.mty]

theorem mir_of_ground {X : Ctx} {u : GT} {m : MTy}
    (h : groundConc (declConc X.types X.depth) u = some (.ty m)) : X.mir u = some m := by
  simp [Ctx.mir, h, Conc.mty]

theorem mir_bool {X : Ctx} {Δ : Decls} (hX : Coherent X Δ) {m : MTy} (h : X.mir tBool = some m) :
    m = .bool := by
  have := ground_of_mir h
  simp only [tBool, groundConc, groundConcs, Option.bind_some] at this
  have := (declConc_def this hX.bool).2
  simp only [defConc, primTy, Option.map_some, Option.some.injEq, Conc.ty.injEq] at this
  exact this.symm

theorem mir_num {X : Ctx} {Δ : Decls} (hX : Coherent X Δ) {s : Bool} {n : Nat} {m : MTy}
    (h : X.mir (tNum s n) = some m) : m = if s then .int n else .uint n := by
  have := ground_of_mir h
  cases s with
  | true =>
    obtain ⟨g, hg⟩ := hX.int
    simp only [tNum, tNat, groundConc, groundConcs, if_true, Option.bind_eq_bind, Option.bind_some,
      Option.pure_def] at this
    have := (declConc_def this hg).2
    simp [defConc, primTy] at this
    simp [this]
  | false =>
    obtain ⟨g, hg⟩ := hX.uint
    simp only [tNum, tNat, groundConc, groundConcs, Option.bind_eq_bind, Option.bind_some,
      Option.pure_def, Bool.false_eq_true, if_false] at this
    have := (declConc_def this hg).2
    simp [defConc, primTy] at this
    simp [this]

theorem mir_arr {X : Ctx} {t : GT} {n : Nat} {m : MTy} (h : X.mir (tArr t n) = some m) :
    ∃ e, X.mir t = some e ∧ m = .array e n := by
  have := ground_of_mir h
  simp only [tArr, tNat, groundConc, groundConcs, Option.bind_eq_bind, Option.bind_some, Option.pure_def,
    Option.bind_eq_some_iff] at this
  obtain ⟨cs, ⟨x, hx, hcs⟩, hm⟩ := this
  cases hcs
  cases x <;> simp [arrayTy] at hm
  exact ⟨_, mir_of_ground hx, hm.symm⟩

theorem mirs_of_concTys {X : Ctx} : ∀ {us : List GT} {cs : List Conc} {ms : List MTy},
    groundConcs (declConc X.types X.depth) us = some cs → concTys cs = some ms →
    X.mirs us = some ms := mirs_of_ground

theorem mir_tup {X : Ctx} {ts : List GT} {m : MTy} (h : X.mir (tTup ts) = some m) :
    ∃ ms, X.mirs ts = some ms ∧ m = .tuple ms := by
  have := ground_of_mir h
  simp only [tTup, groundConc, Option.bind_eq_bind, Option.bind_eq_some_iff, Option.pure_def,
    Option.some.injEq, Conc.ty.injEq] at this
  obtain ⟨cs, h1, ms, h2, h3⟩ := this
  exact ⟨ms, mirs_of_ground h1 h2, h3.symm⟩

theorem mir_view {X : Ctx} {t : GT} {m : MTy} (h : X.mir (tView t) = some m) :
    ∃ e, X.mir t = some e ∧ m = .copyView e := by
  have := ground_of_mir h
  simp only [tView, groundConc, groundConcs, Option.bind_eq_bind, Option.bind_some, Option.pure_def,
    Option.bind_eq_some_iff] at this
  obtain ⟨cs, ⟨x, hx, hcs⟩, hm⟩ := this
  cases hcs
  cases x <;> simp at hm
  exact ⟨_, mir_of_ground hx, hm.symm⟩

theorem mir_inv {X : Ctx} {t : GT} : X.mir (tInv t) = none := by
  simp [Ctx.mir, tInv, groundConc]

theorem mirs_at {X : Ctx} : ∀ {ts : List GT} {ms : List MTy} {i : Nat} {t : GT},
    X.mirs ts = some ms → ts[i]? = some t → ∃ m, X.mir t = some m ∧ ms[i]? = some m
  | [], _, _, _, _, h => by simp at h
  | u :: us, ms, i, t, h, hi => by
    simp only [Ctx.mirs, Option.bind_eq_bind, Option.bind_eq_some_iff, Option.pure_def,
      Option.some.injEq] at h
    obtain ⟨m, hm, ms', hms, rfl⟩ := h
    cases i with
    | zero =>
      simp only [List.getElem?_cons_zero, Option.some.injEq] at hi
      subst hi
      exact ⟨m, hm, rfl⟩
    | succ i =>
      rw [List.getElem?_cons_succ] at hi ⊢
      exact mirs_at hms hi

theorem mirs_length {X : Ctx} : ∀ {ts : List GT} {ms : List MTy},
    X.mirs ts = some ms → ms.length = ts.length
  | [], _, h => by simp only [Ctx.mirs, Option.some.injEq] at h; subst h; rfl
  | u :: us, ms, h => by
    simp only [Ctx.mirs, Option.bind_eq_bind, Option.bind_eq_some_iff, Option.pure_def,
      Option.some.injEq] at h
    obtain ⟨m, hm, ms', hms, rfl⟩ := h
    simp [mirs_length hms]

theorem mirs_replicate {X : Ctx} {t : GT} {m : MTy} (h : X.mir t = some m) : ∀ {n : Nat} {ms : List MTy},
    X.mirs (List.replicate n t) = some ms → ms = List.replicate n m
  | 0, _, h' => by simpa [Ctx.mirs] using h'.symm
  | n + 1, _, h' => by
    simp only [List.replicate_succ, Ctx.mirs, h, Option.bind_eq_bind, Option.bind_some,
      Option.bind_eq_some_iff, Option.pure_def, Option.some.injEq] at h'
    obtain ⟨ms, hms, rfl⟩ := h'
    rw [mirs_replicate h hms, List.replicate_succ]

/-- A constructor of an enum: the hardware type has a variant with the types of the fields. -/
theorem mir_variant {X : Ctx} {n i : Nat} {ps : List (String × Kind)} {os : List (List TSpec)}
    {fs : List TSpec} {θ : Generics} {t : GT} {us : List GT} {m : MTy}
    (hT : X.types n = some ⟨ps.map (·.1), .enum os⟩) (ho : os[i]? = some fs)
    (hself : (selfSpec n ps).Is θ t) (hus : TSpec.Are θ fs us) (hm : X.mir t = some m) :
    ∃ opts ms, m = .enum opts ∧ X.mirs us = some ms ∧ opts[i]? = some ms := by
  simp only [selfSpec, TSpec.Is] at hself
  obtain ⟨args, rfl, ha⟩ := hself
  have hg := ground_of_mir hm
  simp only [groundConc, Option.bind_eq_some_iff] at hg
  obtain ⟨cs, hcs, hd⟩ := hg
  have hd := (declConc_def hd hT).2
  simp only [defConc, Option.bind_eq_bind, Option.bind_eq_some_iff, Option.pure_def,
    Option.some.injEq, Conc.ty.injEq] at hd
  obtain ⟨tss, h1, rfl⟩ := hd
  obtain ⟨ds, ts, h2, h3, h4⟩ := specTyss_at h1 ho
  have := specs_ground (fun g t c ht hc => self_args ha g c _ cs t hcs ht hc) fs hus h2
  exact ⟨tss, ts, rfl, mirs_of_ground this h3, h4⟩

/-- The constructor of a struct. -/
theorem mir_struct {X : Ctx} {n : Nat} {ps : List (String × Kind)} {fs : List (String × TSpec)}
    {θ : Generics} {t : GT} {us : List GT} {m : MTy}
    (hT : X.types n = some ⟨ps.map (·.1), .struct fs⟩)
    (hself : (selfSpec n ps).Is θ t) (hus : TSpec.Are θ (fs.map (·.2)) us) (hm : X.mir t = some m) :
    ∃ ms, m = .struct ms ∧ X.mirs us = some ms := by
  simp only [selfSpec, TSpec.Is] at hself
  obtain ⟨args, rfl, ha⟩ := hself
  have hg := ground_of_mir hm
  simp only [groundConc, Option.bind_eq_some_iff] at hg
  obtain ⟨cs, hcs, hd⟩ := hg
  have hd := (declConc_def hd hT).2
  simp only [defConc, Option.bind_eq_bind, Option.bind_eq_some_iff, Option.pure_def,
    Option.some.injEq, Conc.ty.injEq] at hd
  obtain ⟨ds, h1, ts, h2, rfl⟩ := hd
  have := specs_ground (fun g t c ht hc => self_args ha g c _ cs t hcs ht hc) _ hus h1
  exact ⟨ts, rfl, mirs_of_ground this h2⟩

theorem field_at {D : DeclFn} {σ : String → Option Conc} {f : String} {spec : TSpec} :
    ∀ {fs : List (String × TSpec)} {cs : List Conc} {ts : List MTy} {k : Nat} {m : MTy},
      (fs.map (·.1)).Nodup → specConcs D σ (fs.map (·.2)) = some cs → concTys cs = some ts →
      fs.lookup f = some spec → (fs.map (·.1))[k]? = some f → ts[k]? = some m →
      specConc D σ spec = some (.ty m)
  | [], _, _, _, _, _, _, _, h, _, _ => by simp at h
  | (g, s) :: fs, cs, ts, k, m, hn, hc, ht, hl, hk, hm => by
    simp only [List.map_cons, specConcs, Option.bind_eq_bind, Option.bind_eq_some_iff, Option.pure_def,
      Option.some.injEq] at hc
    obtain ⟨x, hx, xs, hxs, rfl⟩ := hc
    simp only [concTys, Option.bind_eq_bind, Option.bind_eq_some_iff, Option.pure_def,
      Option.some.injEq] at ht
    obtain ⟨y, hy, ys, hys, rfl⟩ := ht
    simp only [List.map_cons, List.nodup_cons] at hn
    simp only [List.lookup_cons] at hl
    cases k with
    | zero =>
      simp only [List.map_cons, List.getElem?_cons_zero, Option.some.injEq] at hk hm
      subst hk hm
      simp only [beq_self_eq_true, Option.some.injEq] at hl
      subst hl
      cases x <;> simp_all [Conc.mty]
    | succ k =>
      simp only [List.map_cons, List.getElem?_cons_succ] at hk hm
      have hne : f ≠ g := by
        rintro rfl
        exact hn.1 (List.mem_of_getElem? hk)
      have : (f == g) = false := by simpa using hne
      simp only [this] at hl
      exact field_at hn.2 hxs hys hl hk hm

theorem concTys_length : ∀ {cs : List Conc} {ts : List MTy}, concTys cs = some ts →
    ts.length = cs.length
  | [], _, h => by simp only [concTys, Option.some.injEq] at h; subst h; rfl
  | c :: cs, _, h => by
    simp only [concTys, Option.bind_eq_bind, Option.bind_eq_some_iff, Option.pure_def,
      Option.some.injEq] at h
    obtain ⟨y, hy, ys, hys, rfl⟩ := h
    simp [concTys_length hys]

theorem specConcs_length {D : DeclFn} {σ : String → Option Conc} :
    ∀ {ss : List TSpec} {cs : List Conc}, specConcs D σ ss = some cs → cs.length = ss.length
  | [], _, h => by simp only [specConcs, Option.some.injEq] at h; subst h; rfl
  | c :: cs, _, h => by
    simp only [specConcs, Option.bind_eq_bind, Option.bind_eq_some_iff, Option.pure_def,
      Option.some.injEq] at h
    obtain ⟨y, hy, ys, hys, rfl⟩ := h
    simp [specConcs_length hys]

theorem structTy_named {X : Ctx} {t : GT} {b : Bool} {s : Nat} {args : List GT} {m : MTy}
    (h : StructTy t b s args) (hm : X.mir t = some m) : t = .node (.named s) args ∧ b = false := by
  cases h with
  | named => exact ⟨rfl, rfl⟩
  | inv _ => simp [mir_inv] at hm

/-- A field of a struct, or of a view of one. -/
theorem mir_field {X : Ctx} {Δ : Decls} (hX : Coherent X Δ) {t u : GT} {f : String} {m : MTy}
    (h : FieldTy Δ t f u) : X.mir t = some m → ∀ {s : Nat} {fs : List String},
    structOf t = some s → fieldNames X s = some fs →
    ∃ ts, Expr.unview m = .struct ts ∧ ts.length = fs.length ∧
      ∀ (k : Nat) e, fs[k]? = some f → ts[k]? = some e → X.mir u = some (Expr.review m e) := by
  induction h generalizing m with
  | @plain t s args gs fs f spec u hs hd hf hu =>
    intro hm s' fs' h1 h2
    obtain ⟨rfl, _⟩ := structTy_named hs hm
    simp only [structOf, Option.some.injEq] at h1
    subst h1
    obtain ⟨hT, hn⟩ := hX.structs _ _ _ hd
    simp only [fieldNames, hT, Option.some.injEq] at h2
    subst h2
    have hg := ground_of_mir hm
    simp only [groundConc, Option.bind_eq_some_iff] at hg
    obtain ⟨cs, hcs, hdc⟩ := hg
    have hdc := (declConc_def hdc hT).2
    simp only [defConc, Option.bind_eq_bind, Option.bind_eq_some_iff, Option.pure_def,
      Option.some.injEq, Conc.ty.injEq] at hdc
    obtain ⟨ds, h3, ts, h4, rfl⟩ := hdc
    refine ⟨ts, rfl, ?_, fun k e hk he => ?_⟩
    · rw [concTys_length h4, specConcs_length h3]; simp
    · have := field_at hn h3 h4 hf hk he
      exact mir_of_ground (spec_ground (fun g t c ht hc => zip_ground hcs ht hc) spec hu this)
  | flipped hs _ _ _ _ =>
    intro hm
    exact nomatch (structTy_named hs hm).2
  | @view t f u h ih =>
    intro hm s' fs' h1 h2
    obtain ⟨e, he, rfl⟩ := mir_view hm
    simp only [tView, structOf] at h1
    obtain ⟨ts, a, b, c⟩ := ih he h1 h2
    refine ⟨ts, a, b, fun k e' hk he' => ?_⟩
    have := ground_of_mir (c k e' hk he')
    exact mir_of_ground (by simp [tView, groundConc, groundConcs, this, Expr.review])

/-- An element of a tuple, or of a view of one. -/
theorem mir_elem {X : Ctx} {t u : GT} {i : Nat} {m : MTy} (h : ElemTy t i u) :
    X.mir t = some m → ∃ ts e, Expr.unview m = .tuple ts ∧ ts[i]? = some e ∧
      X.mir u = some (Expr.review m e) := by
  induction h generalizing m with
  | tuple hi =>
    intro hm
    obtain ⟨ms, h1, rfl⟩ := mir_tup hm
    obtain ⟨e, h2, h3⟩ := mirs_at h1 hi
    exact ⟨ms, e, rfl, h3, h2⟩
  | view h ih =>
    intro hm
    obtain ⟨e, he, rfl⟩ := mir_view hm
    obtain ⟨ts, a, b, c, d⟩ := ih he
    exact ⟨ts, a, b, c, mir_of_ground (by
      simp [tView, groundConc, groundConcs, ground_of_mir d, Expr.review])⟩

end Spade.Elab

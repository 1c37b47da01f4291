import Verif.Check.ExpSound

/-!
# Units that are accepted are well typed (C51)
-/

namespace Spade.Check

open Spade.Infer.Spec (Kind Base GT Val TExpr)
open Spade.Infer (CE VState Proper groundSeen Satisfies)

/-- C51, in terms of solutions: when inference accepts a unit, every assignment of ground types to
type variables that solves the final state (respects what is known about each variable, its kind and
trait bounds, and the constraints and requirements left over) makes the unit well typed, and gives
its generic parameters the types it is monomorphised for. -/
theorem C51_solutions_well_typed_partial (Δ : Decls) (hn : Δ.NumbersOk) (fuel : Nat)
    (mono : List (String × GT)) (u : Unit) (gl : GL) (S : St) (h : inferUnit Δ fuel mono u = .ok gl S)
    (F : Asg) (hF : Fin Δ F S) :
    UnitOk Δ (F.typing gl) u ∧ ∀ p ∈ mono, (F.typing gl).gen p.1 = some p.2 :=
  ((visitUnit_snd ⟨Δ, fuel, u.params⟩ hn mono u) _ _ _ empty_wf h).back [] F (fun _ h => nomatch h) hF
    |>.2

/-! ## Reading off the types -/

/-- Applies a partial function to a list. -/
def mapAll (f : Nat → Option GT) : List Nat → Option (List GT)
  | [] => some []
  | v :: vs =>
    match f v, mapAll f vs with
    | some t, some ts => some (t :: ts)
    | _, _ => none

/-- The ground type of a variable in a state of inference: what it is known to be, all the way down,
where `w` gives the types of variables that are still unknown (by their representatives). Models
`inner_ungenerify_type`, `spade-typeinference/src/mir_type_lowering.rs:276-348`, before the type's
declaration is looked up. There an unknown variable has no type, and it is an error if it is needed;
with `w` one can also speak about generic units that are not monomorphised. -/
def groundOf (S : St) (w : Nat → GT) : Nat → Nat → Option GT
  | 0, _ => none
  | n + 1, id =>
    match S.get id with
    | none => some (tTup [])
    | some (.known b ps) => (mapAll (groundOf S w n) ps).map (.node b)
    | some (.unknown _ _) => some (w (S.res id))

/-- Inference is done: no constraint or requirement is left over, every type variable has a ground
type (`n` is more than the depth of all types), and `w` gives the variables that are still unknown
types of their kinds which satisfy their trait bounds. (`lost` is not part of the code, see
`Verif/Check/Unify.lean`.) -/
structure Settled (Δ : Decls) (S : St) (w : Nat → GT) (n : Nat) : Prop where
  cons : S.cons = []
  reqs : S.reqs = []
  lost : S.lost = false
  ground : ∀ id, id < S.vars.length → (groundOf S w n id).isSome
  lit : ∀ id b args, w id = .node b args → isValue b = true → args = []
  bounds : ∀ id k ts, id < S.vars.length → S.get id = some (.unknown k ts) →
    k.Holds (w (S.res id)).head.val ∧ ∀ tr ∈ ts, ∃ as, mapAll (groundOf S w n) tr.2 = some as ∧
      Implements Δ.impls (w (S.res id)) tr.1 as

/-- The types inference reports. -/
def reported (S : St) (w : Nat → GT) (n : Nat) (gl : GL) : Typing where
  id i := (S.ids i).bind (groundOf S w n)
  name i := (S.names i).bind (groundOf S w n)
  gen g := (gl.var g).bind (groundOf S w n)
  call i g := ((S.calls i).bind (·.lookup g)).bind (groundOf S w n)

theorem mapAll_mono {f g : Nat → Option GT} (h : ∀ v t, f v = some t → g v = some t) :
    ∀ {vs : List Nat} {ts : List GT}, mapAll f vs = some ts → mapAll g vs = some ts
  | [], ts, h1 => h1
  | v :: vs, ts, h1 => by
    simp only [mapAll] at h1 ⊢
    cases hv : f v with
    | none => rw [hv] at h1; exact nomatch h1
    | some t =>
      cases hvs : mapAll f vs with
      | none => rw [hv, hvs] at h1; exact nomatch h1
      | some us =>
        rw [hv, hvs] at h1
        rw [h v t hv, mapAll_mono h hvs]
        exact h1

theorem mapAll_map {f : Nat → Option GT} {V : Nat → GT} (h : ∀ v t, f v = some t → V v = t) :
    ∀ {vs : List Nat} {ts : List GT}, mapAll f vs = some ts → vs.map V = ts
  | [], ts, h1 => by simp only [mapAll, Option.some.injEq] at h1; subst h1; rfl
  | v :: vs, ts, h1 => by
    simp only [mapAll] at h1
    cases hv : f v with
    | none => rw [hv] at h1; exact nomatch h1
    | some t =>
      cases hvs : mapAll f vs with
      | none => rw [hv, hvs] at h1; exact nomatch h1
      | some us =>
        rw [hv, hvs] at h1
        simp only [Option.some.injEq] at h1
        subst h1
        simp only [List.map_cons, h v t hv, mapAll_map h hvs]

theorem groundOf_succ (S : St) (w : Nat → GT) : ∀ (n id : Nat) (t : GT), groundOf S w n id = some t →
    groundOf S w (n + 1) id = some t
  | 0, id, t, h => nomatch h
  | n + 1, id, t, h => by
    unfold groundOf at h ⊢
    split
    next hg => simpa [hg] using h
    next b ps hg =>
      simp only [hg] at h
      cases hm : mapAll (groundOf S w n) ps with
      | none => rw [hm] at h; exact nomatch h
      | some ts =>
        rw [mapAll_mono (groundOf_succ S w n) hm]
        rw [hm] at h
        exact h
    next k ts hg => simpa [hg] using h

/-- The assignment read off a state. -/
def asgOf (S : St) (w : Nat → GT) (n : Nat) : Asg where
  V id := (groundOf S w n id).getD (tTup [])
  I i := (S.ids i).map (fun v => (groundOf S w n v).getD (tTup []))
  N i := (S.names i).map (fun v => (groundOf S w n v).getD (tTup []))
  C i g := ((S.calls i).bind (·.lookup g)).map (fun v => (groundOf S w n v).getD (tTup []))

theorem get_res {S : St} (hw : WF S) (id : Nat) : S.get (S.res id) = S.get id := by
  unfold St.get
  rw [hw.root]

theorem groundOf_res {S : St} (hw : WF S) (w : Nat → GT) (n id : Nat) :
    groundOf S w n (S.res id) = groundOf S w n id := by
  cases n with
  | zero => rfl
  | succ n => unfold groundOf; rw [get_res hw, hw.root]

theorem get_lt {S : St} (hw : WF S) {id : Nat} {tv : TV} (h : S.get id = some tv) :
    id < S.vars.length := by
  by_cases hl : id < S.vars.length
  · exact hl
  · unfold St.get at h
    rw [hw.out id (by omega), List.getElem?_eq_none (by omega)] at h
    exact nomatch h

theorem groundOf_all {Δ : Decls} {S : St} {w : Nat → GT} {n : Nat} (hw : WF S)
    (hs : Settled Δ S w (n + 1)) (id : Nat) : (groundOf S w (n + 1) id).isSome := by
  by_cases h : id < S.vars.length
  · exact hs.ground id h
  · unfold groundOf St.get
    rw [hw.out id (by omega), List.getElem?_eq_none (by omega)]
    rfl

theorem isValue_of_val {b : Base} (h : ∀ l, b.val ≠ .type l) : isValue b = true := by
  cases b <;> first | rfl | exact absurd rfl (h _)

theorem fin_of_settled {Δ : Decls} {S : St} {w : Nat → GT} {n : Nat} (hw : WF S)
    (hs : Settled Δ S w (n + 1)) : Fin Δ (asgOf S w (n + 1)) S := by
  have val : ∀ id t, groundOf S w (n + 1) id = some t → (asgOf S w (n + 1)).V id = t := by
    intro id t h
    simp [asgOf, h]
  have known : ∀ id b ps, S.get id = some (TV.known b ps) →
      (asgOf S w (n + 1)).V id = .node b (ps.map (asgOf S w (n + 1)).V) := by
    intro id b ps hg
    obtain ⟨t, ht⟩ := Option.isSome_iff_exists.1 (groundOf_all hw hs id)
    rw [val id t ht]
    unfold groundOf at ht
    simp only [hg] at ht
    cases hm : mapAll (groundOf S w n) ps with
    | none => rw [hm] at ht; exact nomatch ht
    | some ts =>
      rw [hm] at ht
      simp only [Option.map_some, Option.some.injEq] at ht
      subst ht
      rw [mapAll_map (fun v t hv => val v t (groundOf_succ S w n v t hv)) hm]
  have unk : ∀ id k ts, S.get id = some (TV.unknown k ts) →
      (asgOf S w (n + 1)).V id = w (S.res id) := by
    intro id k ts hg
    exact val id _ (by unfold groundOf; simp only [hg])
  refine ⟨?_, ?_, ?_, ?_, ?_, ?_, ?_, ?_, hs.lost⟩
  · intro id b args h hb
    cases hg : S.get id with
    | none =>
      have : (asgOf S w (n + 1)).V id = tTup [] := val id _ (by unfold groundOf; rw [hg])
      rw [this] at h
      cases h
      rfl
    | some tv =>
      cases tv with
      | known b' ps =>
        rw [known id b' ps hg] at h
        injection h with h1 h2
        subst h1
        have : ps = [] := hw.lit _ b' ps hg (isValue_of_val hb)
        rw [this] at h2
        exact h2.symm
      | unknown k ts =>
        rw [unk id k ts hg] at h
        exact hs.lit _ b args h (isValue_of_val hb)
  · intro id
    show (groundOf S w _ id).getD _ = (groundOf S w _ (S.res id)).getD _
    rw [groundOf_res hw]
  · intro id tv _ hg
    cases tv with
    | known b ps => exact known id b ps hg
    | unknown k ts =>
      rw [unk id k ts hg]
      obtain ⟨h1, h2⟩ := hs.bounds id k ts (get_lt hw hg) hg
      refine ⟨h1, fun tr htr => ?_⟩
      obtain ⟨as, h3, h4⟩ := h2 tr htr
      rw [mapAll_map val h3]
      exact h4
  · rw [hs.cons]; exact fun _ h => nomatch h
  · rw [hs.reqs]; exact fun _ h => nomatch h
  · intro i v h; simp [asgOf, h]
  · intro i v h; simp [asgOf, h]
  · intro i gl h; simp [asgOf, h]

theorem reported_eq {Δ : Decls} {S : St} {w : Nat → GT} {n : Nat} (hw : WF S)
    (hs : Settled Δ S w (n + 1)) (gl : GL) :
    reported S w (n + 1) gl = (asgOf S w (n + 1)).typing gl := by
  have key : ∀ o : Option Nat, o.bind (groundOf S w (n + 1)) =
      o.map (fun v => (groundOf S w (n + 1) v).getD (tTup [])) := by
    intro o
    cases o with
    | none => rfl
    | some v =>
      obtain ⟨t, ht⟩ := Option.isSome_iff_exists.1 (groundOf_all hw hs v)
      simp [ht]
  unfold reported Asg.typing asgOf GL.vals
  simp only [Typing.mk.injEq]
  exact ⟨funext fun _ => key _, funext fun _ => key _, funext fun _ => key _,
    funext fun _ => funext fun _ => key _⟩

/-- C51 (what holds of it): when type inference accepts a unit and nothing is left over, the unit is
well typed with the types it reports, whatever types of the right kinds with the right trait
implementations stand for the type variables that are still unknown (for a monomorphised unit these
are ones nobody needs; for a generic unit, its generic parameters). Every expression, pattern and
name then has one ground type; operators, literals, indices, ranges, conditionals, `match`,
registers, `set` and calls relate these types as the language says; generic arguments have the kinds
their parameters ask for and satisfy the callee's trait bounds and `where` clauses; types written by
the user are respected; and for a monomorphised unit the generic parameters are what it is
monomorphised for. -/
theorem C51_well_typed_partial (Δ : Decls) (hn : Δ.NumbersOk) (fuel : Nat) (mono : List (String × GT))
    (u : Unit) (gl : GL) (S : St) (h : inferUnit Δ fuel mono u = .ok gl S) (w : Nat → GT) (n : Nat)
    (hs : Settled Δ S w (n + 1)) :
    UnitOk Δ (reported S w (n + 1) gl) u ∧
    ∀ p ∈ mono, (reported S w (n + 1) gl).gen p.1 = some p.2 := by
  have hw : WF S := ((visitUnit_snd ⟨Δ, fuel, u.params⟩ hn mono u) _ _ _ empty_wf h).wf
  rw [reported_eq hw hs gl]
  exact C51_solutions_well_typed_partial Δ hn fuel mono u gl S h _ (fin_of_settled hw hs)

end Spade.Check

import Verif.Check.Sound

/-!
# Visiting expressions and units is sound (C51)
-/

namespace Spade.Check

open Spade.Infer.Spec (Kind Base GT Val TExpr Value LeastUint)
open Spade.Infer (CE VState Proper groundSeen Satisfies evalVal evaluate)

/-- The id has a type, as opposed to a type-level value. -/
def Typed (F : Asg) (i : Nat) : Prop := ∃ t, F.I i = some t ∧ IsType t

/-- What visiting an expression achieves. -/
abbrev ExpQ (Δ : Decls) (gl : GL) (e : Exp) (F : Asg) : Prop := e.Ok Δ (F.typing gl) ∧ Typed F e.id

/-- The id of the result of the first branch. -/
def firstId : List Arm → Option Nat
  | [] => none
  | .mk _ _ e :: _ => some e.id

theorem constInt {θ : Generics} {e : TExpr} {t : GT} (h : ConstIs θ e t) {i : Int}
    (ht : t = .node (.int i) []) : ConstIs θ e (.node (.int i) []) := ht ▸ h

section

theorem rep_size {θ : Generics} {e : TExpr} {t : GT} (h : ConstIs θ e t) {n : Nat} (ht : t = tNat n) :
    ConstIs θ e (tNat n) := ht ▸ h

theorem bool_of_holds {t : GT} {θ : Generics} {e : TExpr} (hc : ConstIs θ e t)
    (h : Kind.bool.Holds t.head.val) : ∃ v, ConstIs θ e (.node (.bool v) []) := by
  obtain ⟨w, h1, h2, h3⟩ := hc
  obtain ⟨b, hb⟩ := h
  cases w with
  | bool v => exact ⟨v, _, rfl, h2, h3⟩
  | int i => rw [h1] at hb; exact nomatch hb
  | str i => rw [h1] at hb; exact nomatch hb
  | type l => exact absurd rfl (h2 l)

mutual
theorem visitExp_snd (c : Cfg) (hn : c.Δ.NumbersOk) (gl : GL) : ∀ e : Exp,
    Snd c.Δ (visitExp c gl e) (fun _ F => ExpQ c.Δ gl e F)
  | .var id x => by
    unfold visitExp
    refine (newExp_snd id).bind (fun t => (nameTy_snd x).bind (fun n => (uni_snd c t n).mono
      (fun _ F h1 h2 h3 => ⟨?_, _, h3⟩)))
    simp only [Exp.Ok]
    exact ⟨_, h3.1, h3.2, by show F.N x = _; rw [h2, h1]⟩
  | .tlBool id _ => by
    unfold visitExp
    refine (newExp_snd id).bind (fun t => newBool_snd.bind (fun b => (uni_snd c t b).mono
      (fun _ F h1 h2 h3 => ⟨?_, _, h3⟩)))
    simp only [Exp.Ok]
    show F.I id = _
    rw [h3.1, h1, h2]
  | .bool id _ => by
    unfold visitExp
    refine (newExp_snd id).bind (fun t => newBool_snd.bind (fun b => (uni_snd c t b).mono
      (fun _ F h1 h2 h3 => ⟨?_, _, h3⟩)))
    simp only [Exp.Ok]
    show F.I id = _
    rw [h3.1, h1, h2]
  | .tlInt id g => by
    unfold visitExp
    refine (newExp_snd id).bind (fun t => (newNumber_snd hn).bind (fun n => (uni_snd c n.1 t).bind
      (fun _ => ?_)))
    cases hg : gl.var g with
    | none => exact Snd.err
    | some v =>
      refine (checkOrAdd_snd c _).mono (fun _ F h1 h2 h3 h4 => ⟨?_, _, h4⟩)
      simp only [Exp.Ok]
      obtain ⟨i, h5, h6⟩ := h1
      refine ⟨F.V t, i, h4.1, ?_, ?_⟩
      · show gl.vals F.V g = _
        simp [GL.vals, hg, h5]
      · rw [← h2]; exact h6
  | .int id v k => by
    unfold visitExp
    refine (newExp_snd id).bind (fun t => (litVar_snd c k).bind (fun n => (uni_snd c n t).bind
      (fun _ => (checkOrAdd_snd c _).mono (fun _ F h1 h2 h3 h4 => ⟨?_, _, h4⟩))))
    simp only [Exp.Ok]
    refine ⟨F.V t, h4.1, ?_, ?_⟩
    · rw [← h2]; exact h1
    · rw [← h2]; exact h3 v h1
  | .tuple id es => by
    unfold visitExp
    refine (newExp_snd id).bind (fun t => (visitExps_snd c hn gl es).bind (fun _ =>
      (typesOf_snd _).bind (fun ts => (addVar_snd _).bind (fun u => (uni_snd c t u).mono
        (fun _ F h1 h2 h3 h4 h5 => ⟨?_, _, h5⟩)))))
    simp only [Exp.Ok]
    obtain ⟨us, h6, _⟩ := h4
    refine ⟨us, ?_, h6⟩
    show F.I id = _
    rw [h5.1, h1, h2, map_some_inj (h6.types.symm.trans h3)]
    rfl
  | .proj id e i => by
    unfold visitExp
    refine (newExp_snd id).bind (fun t => (visitExp_snd c hn gl e).bind (fun _ =>
      (typeOf_snd e.id).bind (fun te => (peel_snd c.fuel te).bind (fun r => (getVar_snd r.2).bind
        (fun tv => (tupleElem_snd r.1 i tv).bind (fun u => (uni_snd c t u).mono
          (fun _ F h1 h2 h3 h4 h5 h6 h7 => ⟨?_, _, h7⟩)))))))
    simp only [Exp.Ok]
    refine ⟨h6.1, F.V te, F.V t, h5, h7.1, ?_⟩
    rw [h1, h4]
    exact h2 _ h3
  | .field id e f => by
    unfold visitExp
    refine (newExp_snd id).bind (fun t => (visitExp_snd c hn gl e).bind (fun _ =>
      (typeOf_snd e.id).bind (fun te => (checkOrAdd_snd c _).mono
          (fun _ F h1 h2 h3 h4 => ⟨?_, _, h4⟩))))
    simp only [Exp.Ok]
    exact ⟨h3.1, F.V te, F.V t, h2, h4.1, h4.2, h1⟩
  | .cast id e s => by
    unfold visitExp
    refine (newExp_snd id).bind (fun t => (visitExp_snd c hn gl e).bind (fun _ =>
      (expVar_snd gl s).bind (fun v => (typeOf_snd e.id).bind (fun te => (uni_snd c te v).bind
        (fun _ => (uni_snd c t v).mono (fun _ F h1 h2 h3 h4 h5 h6 => ⟨?_, _, h6⟩))))))
    simp only [Exp.Ok]
    exact ⟨h5.1, F.V v, by show F.I e.id = _; rw [h3, h2], by show F.I id = _; rw [h6.1, h1], h4⟩
  | .array id es => by
    unfold visitExp
    refine (newExp_snd id).bind (fun t => (visitExps_snd c hn gl es).bind (fun _ =>
      (uniChain_snd c _).bind (fun _ => (elemVar_snd _).bind (fun e => (newInt_snd _).bind (fun n =>
        (addVar_snd _).bind (fun u => (uni_snd c t u).mono
          (fun _ F h1 h2 h3 h4 h5 h6 h7 => ⟨?_, _, h7⟩)))))))
    simp only [Exp.Ok]
    obtain ⟨us, h8, h9⟩ := h6
    have hsame : us = List.replicate es.length (F.V e) := by
      have := all_same (t := F.V e) h8.types (fun i hi => by
        cases hl : es.map Exp.id with
        | nil => rw [hl] at hi; exact nomatch hi
        | cons j js => exact h5 j js _ hl (h4.2 j js hl) i hi)
      simpa using this
    refine ⟨F.V e, ?_, ?_, ?_⟩
    · show F.I id = _
      rw [h7.1, h1, h2]
      simp only [List.map_cons, List.map_nil, h3]
      rfl
    · cases es with
      | nil => exact h4.1 rfl
      | cons e' es => exact h9 _ (by rw [hsame]; simp [List.replicate])
    · rw [← hsame]; exact h8
  | .rep id e nid n => by
    unfold visitExp
    refine (newExp_snd id).bind (fun t => (visitExp_snd c hn gl e).bind (fun _ =>
      (typeOf_snd e.id).bind (fun te => (constVar_snd c gl nid n).bind (fun k => newUint_snd.bind
        (fun ku => (uni_snd c k ku).bind (fun _ => (addVar_snd _).bind (fun u => (uni_snd c t u).mono
          (fun _ F h1 h2 h3 h4 h5 h6 h7 h8 => ⟨?_, _, h8⟩))))))))
    simp only [Exp.Ok]
    obtain ⟨m, h9⟩ := h4
    rw [← h3] at h9
    refine ⟨h7.1, F.V te, m, h6, ?_, ?_, rep_size h5.2 h9⟩
    · show F.I id = _
      rw [h8.1, h1, h2]
      simp only [List.map_cons, List.map_nil, h9]
      rfl
    · show F.I nid = _
      rw [h5.1, h9]
  | .elem id a i => by
    unfold visitExp
    refine (newExp_snd id).bind (fun t => (visitExp_snd c hn gl a).bind (fun _ =>
      (visitExp_snd c hn gl i).bind (fun _ => newType_snd.bind (fun x => (uni_snd c t x).bind (fun _ =>
        newUint_snd.bind (fun n => (addVar_snd _).bind (fun size => (addVar_snd _).bind (fun it =>
          (addrCon_snd size n).bind (fun _ => (typeOf_snd i.id).bind (fun ti => (uni_snd c ti it).bind
            (fun _ => (typeOf_snd id).bind (fun t' => (addVar_snd _).bind (fun arr =>
              (checkOrAdd_snd c _).bind (fun _ => (typeOf_snd a.id).bind (fun ta =>
                (uni_snd c ta arr).mono (fun _ F h1 h2 h3 h4 h5 h6 h7 h8 h9 _ h10 _ _ h11 h12 h13 =>
                  ⟨?_, _, h13⟩))))))))))))))))
    simp only [Exp.Ok]
    obtain ⟨m, hm⟩ := h10
    obtain ⟨z, hz, hz0⟩ := h3
    obtain ⟨k, hk, hs⟩ := h8
    have e1 : k = m := by rw [hm] at hk; simp only [tNat, GT.node.injEq, Base.int.injEq, and_true] at hk; exact hk.symm
    have e2 : z = m := by rw [hm] at hz; simp only [tNat, GT.node.injEq, Base.int.injEq, and_true] at hz; exact hz.symm
    subst e1 e2
    refine ⟨h12.1, h11.1, F.V t', m, Infer.bigBits ((m : Int) - 1), ?_, h5, ?_, by omega,
      Infer.C20_uint_bits_least_partial _ (by omega)⟩
    · show F.I a.id = _
      rw [h2, h1, h4]
      simp only [List.map_cons, List.map_nil, hm]
      rfl
    · show F.I i.id = _
      rw [h7, h6, h9]
      simp only [List.map_cons, List.map_nil, hs]
      rfl
  | .range id a lo hi => by
    unfold visitExp
    refine (newExp_snd id).bind (fun t => (visitExp_snd c hn gl a).bind (fun _ =>
      newType_snd.bind (fun x => newUint_snd.bind (fun n => (addVar_snd _).bind (fun inA =>
        newUint_snd.bind (fun m => (addVar_snd _).bind (fun outA =>
          (rangeBound_snd c gl lo _ _ (newInt_snd 0)).bind (fun s =>
            (rangeBound_snd c gl hi _ (fun v _ => v = n) (Snd.pure (fun _ => rfl))).bind (fun e =>
              (addCon_snd _ _).bind (fun _ => (checkOrAdd_snd c _).bind (fun _ =>
                (checkOrAdd_snd c _).bind (fun _ => (uni_snd c t outA).bind (fun _ =>
                  (typeOf_snd a.id).bind (fun ta => (uni_snd c ta inA).mono
                    (fun _ F h1 h2 h3 h4 h5 h6 h7 h8 h9 h10 h11 h12 _ h13 h14 =>
                      ⟨?_, _, h14⟩)))))))))))))))
    simp only [Exp.Ok]
    obtain ⟨n', hn'⟩ := h12
    obtain ⟨m', hm'⟩ := h10
    obtain ⟨x1, y1, k1, k2, k3⟩ := h5
    obtain ⟨x2, y2, k4, k5, k6⟩ := h4
    have e1 : y1 = x2 := by
      rw [k2] at k4; simpa only [GT.node.injEq, Base.int.injEq, and_true] using k4
    have e2 : y2 = n' := by
      rw [k5] at hn'; simpa only [tNat, GT.node.injEq, Base.int.injEq, and_true] using hn'
    subst e1 e2
    have hsize : F.V m = .node (.int (y1 + -x1)) [] := by
      obtain ⟨hp, w, hw1, hw2⟩ := h6
      refine con_int hp hw1 hw2 ?_
      rw [Infer.evalVal_bin, seen_int k2, evalVal_sub, seen_int k1]
      rfl
    have e3 : (m' : Int) = y1 + -x1 := by
      rw [hm'] at hsize; simpa only [tNat, GT.node.injEq, Base.int.injEq, and_true] using hsize
    refine ⟨h13.1, F.V x, n', m', x1, y1, ?_, ?_, ?_, ?_, k3, k6, by omega⟩
    · show F.I a.id = _
      rw [h2, h1, h11]
      simp only [List.map_cons, List.map_nil, hn']
      rfl
    · show F.I id = _
      rw [h14.1, h3, h9]
      simp only [List.map_cons, List.map_nil, hm']
      rfl
    · cases lo with
      | none =>
        have := h8.1 rfl
        rw [k1] at this
        simpa only [BoundIs, GT.node.injEq, Base.int.injEq, and_true] using this
      | some p =>
        refine ⟨?_, constInt (h8.2 p.1 p.2 rfl).2 k1⟩
        rw [← k1]
        exact (h8.2 p.1 p.2 rfl).1
    · cases hi with
      | none =>
        have := h7.1 rfl
        subst this
        rw [k2] at hn'
        simpa only [BoundIs, tNat, GT.node.injEq, Base.int.injEq, and_true] using hn'
      | some p =>
        refine ⟨?_, constInt (h7.2 p.1 p.2 rfl).2 k2⟩
        rw [← k2]
        exact (h7.2 p.1 p.2 rfl).1
  | .block id ss none => by
    unfold visitExp
    refine (newExp_snd id).bind (fun t => (visitStmts_snd c hn gl ss).bind (fun _ =>
      (addVar_snd _).bind (fun u => (uni_snd c t u).mono (fun _ F h1 h2 h3 h4 => ⟨?_, _, h4⟩))))
    simp only [Exp.Ok]
    refine ⟨h3, ?_⟩
    show F.I id = _
    rw [h4.1, h1, h2]
    rfl
  | .block id ss (some r) => by
    unfold visitExp
    refine (newExp_snd id).bind (fun t => (visitStmts_snd c hn gl ss).bind (fun _ =>
      (visitExp_snd c hn gl r).bind (fun _ => (typeOf_snd r.id).bind (fun tr => (uni_snd c t tr).mono
        (fun _ F h1 h2 h3 h4 h5 => ⟨?_, _, h5⟩)))))
    simp only [Exp.Ok]
    exact ⟨h4, h3.1, F.V tr, h2, by show F.I id = _; rw [h5.1, h1]⟩
  | .ite id cond a b => by
    unfold visitExp
    refine (newExp_snd id).bind (fun t => (visitExp_snd c hn gl cond).bind (fun _ =>
      (visitExp_snd c hn gl a).bind (fun _ => (visitExp_snd c hn gl b).bind (fun _ =>
        (uniBool_snd c cond.id).bind (fun _ => (uniId_snd c b.id a.id).bind (fun _ =>
          (typeOf_snd b.id).bind (fun tb => (uni_snd c t tb).mono
            (fun _ F h1 h2 h3 h4 h5 h6 h7 h8 => ⟨?_, _, h8⟩))))))))
    simp only [Exp.Ok]
    exact ⟨h7.1, h6.1, h5.1, h4, F.V tb, by show F.I a.id = _; rw [← h3, h2], h2,
      by show F.I id = _; rw [h8.1, h1]⟩
  | .genIf id cid cond a b => by
    unfold visitExp
    refine (newExp_snd id).bind (fun t => (constVar_snd c gl cid cond).bind (fun k =>
      (addVar_snd _).bind (fun kb => (uni_snd c k kb).bind (fun _ => (visitExp_snd c hn gl a).bind
        (fun _ => (visitExp_snd c hn gl b).bind (fun _ => (typeOf_snd a.id).bind (fun ta =>
          (uni_snd c t ta).bind (fun _ => (typeOf_snd b.id).bind (fun tb => (uni_snd c t tb).mono
            (fun _ F h1 h2 h3 h4 h5 h6 h7 h8 h9 h10 => ⟨?_, _, h10⟩))))))))))
    simp only [Exp.Ok]
    refine ⟨h6.1, h5.1, bool_of_holds h9.2 (by rw [h7]; exact h8.1), F.V t, ?_, ?_, h10.1⟩
    · show F.I a.id = _
      rw [h4, h3]
    · show F.I b.id = _
      rw [h2, h1]
  | .mtch id cond arms => by
    unfold visitExp
    refine (newExp_snd id).bind (fun t => (visitExp_snd c hn gl cond).bind (fun _ =>
      (visitArms_snd c hn gl cond.id arms none).bind (fun _ => ?_)))
    cases arms with
    | nil => exact Snd.stuck
    | cons a as =>
      obtain ⟨p, g, e⟩ := a
      simp only
      refine (typeOf_snd e.id).bind (fun te => (uni_snd c te t).mono
        (fun _ F h1 h2 h3 h4 h5 => ⟨?_, _, h5⟩))
      simp only [Exp.Ok]
      obtain ⟨tc, h6, _⟩ := h4.2
      refine ⟨h4.1, by simp, tc, F.V t, h6, h5.1, h3 tc (F.V t) h6 ?_⟩
      intro f hf
      cases hf
      rw [h2, h1]
  | .bin id op a b => by
    unfold visitExp
    refine (newExp_snd id).bind (fun t => (visitExp_snd c hn gl a).bind (fun _ =>
      (visitExp_snd c hn gl b).bind (fun _ => (typeOf_snd a.id).bind (fun ta =>
        (typeOf_snd b.id).bind (fun tb => (binVars_snd c hn ta tb t op).mono
          (fun _ F h1 h2 h3 h4 h5 h6 => ⟨?_, _, h6⟩))))))
    simp only [Exp.Ok]
    exact ⟨h5.1, h4.1, F.V ta, F.V tb, F.V t, h3, h2, h6.1, h1⟩
  | .un id op a => by
    unfold visitExp
    refine (newExp_snd id).bind (fun t => (visitExp_snd c hn gl a).bind (fun _ =>
      (typeOf_snd a.id).bind (fun ta => (unVars_snd c hn ta t op).mono
          (fun _ F h1 h2 h3 h4 => ⟨?_, _, h4⟩))))
    simp only [Exp.Ok]
    exact ⟨h3.1, F.V ta, F.V t, h2, h4.1, h1⟩
  | .call id f ts args => by
    unfold visitExp
    refine (newExp_snd id).bind (fun t => ?_)
    cases hf : c.Δ.heads f with
    | none => exact Snd.stuck
    | some h =>
      simp only
      refine (createGenericList_snd c gl h.params h.wheres ts).bind (fun hgl =>
        (addList_snd id hgl).bind (fun _ =>
        (visitExps_snd c hn gl args).bind (fun _ => (finishCall_snd c hn hgl h t _).mono
          (fun _ F h1 h2 hc h3 h4 => ⟨?_, _, h4⟩))))
      simp only [Exp.Ok]
      obtain ⟨us, h5, _⟩ := h2
      obtain ⟨h6, h7, h8⟩ := h1 us h5.types
      rw [show (F.typing gl).call id = hgl.vals F.V from hc]
      exact ⟨h, us, F.V t, hf, h3, h6, h5, h4.1, h7, h8⟩
theorem visitExps_snd (c : Cfg) (hn : c.Δ.NumbersOk) (gl : GL) : ∀ es : List Exp,
    Snd c.Δ (visitExps c gl es) (fun _ F => ∃ us, Exp.Oks c.Δ (F.typing gl) es us ∧
      ∀ u ∈ us, IsType u)
  | [] => by
    unfold visitExps
    exact Snd.pure (fun F => ⟨[], by simp only [Exp.Oks], fun u h => (nomatch h)⟩)
  | e :: es => by
    unfold visitExps
    refine (visitExp_snd c hn gl e).bind (fun _ => (visitExps_snd c hn gl es).mono
      (fun _ F h1 h2 => ?_))
    obtain ⟨us, h3, h4⟩ := h1
    obtain ⟨h5, t, h6, h7⟩ := h2
    refine ⟨t :: us, ?_, ?_⟩
    · simp only [Exp.Oks]
      exact ⟨t, us, rfl, h6, h5, h3⟩
    · intro u hu
      rcases List.mem_cons.1 hu with rfl | hu
      · exact h7
      · exact h4 u hu
theorem visitArms_snd (c : Cfg) (hn : c.Δ.NumbersOk) (gl : GL) (cond : Nat) :
    ∀ (arms : List Arm) (first : Option Nat),
    Snd c.Δ (visitArms c gl cond first arms) (fun _ F => ∀ tc t, F.I cond = some tc →
      (∀ f, (first.or (firstId arms)) = some f → F.I f = some t) →
      Arm.Oks c.Δ (F.typing gl) tc t arms)
  | [], first => by
    unfold visitArms
    exact Snd.pure (fun F tc t _ _ => by simp only [Arm.Oks])
  | .mk p none e :: as, first => by
    unfold visitArms
    refine (visitPat_snd c hn p).bind (fun _ => (uniId_snd c p.id cond).bind (fun _ =>
      (visitExp_snd c hn gl e).bind (fun _ => ?_)))
    cases first with
    | none =>
      simp only
      refine Snd.bind (Q := fun _ _ => True) (Snd.pure (fun _ => trivial)) (fun _ =>
        (visitArms_snd c hn gl cond as _).mono (fun _ F h1 _ h2 h3 h4 tc t htc hf => ?_))
      simp only [Arm.Oks]
      have he : F.I e.id = some t := hf e.id rfl
      refine ⟨⟨h4.1 _, by show F.I p.id = _; rw [h3, htc], h2.1, he⟩, h1 tc t htc ?_⟩
      intro f hf'
      cases hf'
      exact he
    | some g =>
      simp only
      refine (uniId_snd c g e.id).bind (fun _ =>
        (visitArms_snd c hn gl cond as _).mono (fun _ F h1 h5 h2 h3 h4 tc t htc hf => ?_))
      simp only [Arm.Oks]
      have hg : F.I g = some t := hf g rfl
      refine ⟨⟨h4.1 _, by show F.I p.id = _; rw [h3, htc], h2.1,
        by show F.I e.id = _; rw [← h5, hg]⟩, h1 tc t htc ?_⟩
      intro f hf'
      cases hf'
      exact hg
  | .mk p (some gd) e :: as, first => by
    unfold visitArms
    refine (visitPat_snd c hn p).bind (fun _ => (uniId_snd c p.id cond).bind (fun _ =>
      (visitExp_snd c hn gl gd).bind (fun _ => (uniBool_snd c gd.id).bind (fun _ =>
        (visitExp_snd c hn gl e).bind (fun _ => ?_)))))
    cases first with
    | none =>
      simp only
      refine Snd.bind (Q := fun _ _ => True) (Snd.pure (fun _ => trivial)) (fun _ =>
        (visitArms_snd c hn gl cond as _).mono (fun _ F h1 _ h2 g1 g2 h3 h4 tc t htc hf => ?_))
      simp only [Arm.Oks]
      have he : F.I e.id = some t := hf e.id rfl
      refine ⟨⟨h4.1 _, by show F.I p.id = _; rw [h3, htc], ⟨g2.1, g1⟩, h2.1, he⟩, h1 tc t htc ?_⟩
      intro f hf'
      cases hf'
      exact he
    | some g =>
      simp only
      refine (uniId_snd c g e.id).bind (fun _ =>
        (visitArms_snd c hn gl cond as _).mono (fun _ F h1 h5 h2 g1 g2 h3 h4 tc t htc hf => ?_))
      simp only [Arm.Oks]
      have hg : F.I g = some t := hf g rfl
      refine ⟨⟨h4.1 _, by show F.I p.id = _; rw [h3, htc], ⟨g2.1, g1⟩, h2.1,
        by show F.I e.id = _; rw [← h5, hg]⟩, h1 tc t htc ?_⟩
      intro f hf'
      cases hf'
      exact hg
theorem visitStmt_snd (c : Cfg) (hn : c.Δ.NumbersOk) (gl : GL) : ∀ s : Stmt,
    Snd c.Δ (visitStmt c gl s) (fun _ F => s.Ok c.Δ (F.typing gl))
  | .bind p ty e => by
    unfold visitStmt
    refine (visitExp_snd c hn gl e).bind (fun _ => (visitPat_snd c hn p).bind (fun _ =>
      (uniId_snd c p.id e.id).bind (fun _ => (optVar_snd gl ty).bind (fun v =>
        (uniSpec_snd c p.id v).mono (fun _ F h1 h2 h3 h4 h5 => ?_)))))
    simp only [Stmt.Ok]
    obtain ⟨h6, t, h7, _⟩ := h5
    refine ⟨h6, h4.1 _, t, by show F.I p.id = _; rw [h3, h7], h7, ?_⟩
    intro s hs
    obtain ⟨w, h8, h9⟩ := h2 s hs
    have h10 := h1 w h8
    rw [h3, h7] at h10
    cases h10
    exact h9
  | .expr e => by
    unfold visitStmt
    refine (visitExp_snd c hn gl e).mono (fun _ F h => ?_)
    simp only [Stmt.Ok]
    exact h.1
  | .assert e => by
    unfold visitStmt
    refine (visitExp_snd c hn gl e).bind (fun _ => (uniBool_snd c e.id).mono (fun _ F h1 h2 => ?_))
    simp only [Stmt.Ok]
    exact ⟨h2.1, h1⟩
  | .decl xs => by
    unfold visitStmt
    refine (declAll_snd xs).mono (fun _ F h => ?_)
    simp only [Stmt.Ok]
    exact h
  | .set a b => by
    unfold visitStmt
    refine (visitExp_snd c hn gl a).bind (fun _ => (visitExp_snd c hn gl b).bind (fun _ =>
      newType_snd.bind (fun x => (addVar_snd _).bind (fun o => (uniSpec_snd c a.id _).bind (fun _ =>
        (uniSpec_snd c b.id _).mono (fun _ F h1 h2 h3 _ h4 h5 => ?_))))))
    simp only [Stmt.Ok]
    refine ⟨h5.1, h4.1, F.V x, ?_, h1 x rfl⟩
    show F.I a.id = _
    rw [h2 o rfl, h3]
    rfl
  | .reg p ty clk reset initial value => by
    unfold visitStmt
    refine (visitPat_snd c hn p).bind (fun _ => (optVar_snd gl ty).bind (fun v =>
      (uniSpec_snd c p.id v).bind (fun _ => (visitExp_snd c hn gl clk).bind (fun _ =>
        (visitExp_snd c hn gl value).bind (fun _ => (uniSpec_snd c value.id v).bind (fun _ =>
          (visitReset_snd c hn gl value.id reset).bind (fun _ =>
            (visitInitial_snd c hn gl value.id initial).bind (fun _ => (addVar_snd _).bind (fun k =>
              (uniSpec_snd c clk.id _).bind (fun _ => (uniId_snd c p.id value.id).mono
                (fun _ F h1 h2 h3 h4 h5 h6 h7 h8 h9 h10 h11 => ?_)))))))))))
    have hclk : F.I clk.id = some tClock := by rw [h2 k rfl, h3]; rfl
    obtain ⟨hv, t, h12, _⟩ := h7
    have hp : F.I p.id = some t := by rw [h1, h12]
    have hty : OptIs (gl.vals F.V) ty t := by
      intro s hs
      obtain ⟨w, k1, k2⟩ := h10 s hs
      have k3 := h9 w k1
      rw [hp] at k3
      cases k3
      exact k2
    cases reset with
    | none =>
      cases initial with
      | none =>
        simp only [Stmt.Ok]
        exact ⟨h11.1 _, h8.1, hv, hclk, t, hp, h12, hty⟩
      | some i =>
        simp only [Stmt.Ok]
        obtain ⟨i1, i2⟩ := h4 i rfl
        exact ⟨h11.1 _, h8.1, hv, i1, hclk, t, hp, h12, by show F.I i.id = _; rw [i2, h12], hty⟩
    | some cr =>
      obtain ⟨cc, r⟩ := cr
      obtain ⟨r1, r2, r3, r4⟩ := h5 cc r rfl
      cases initial with
      | none =>
        simp only [Stmt.Ok]
        exact ⟨h11.1 _, h8.1, hv, r1, r2, hclk, r3, t, hp, h12, by show F.I r.id = _; rw [r4, h12], hty⟩
      | some i =>
        simp only [Stmt.Ok]
        obtain ⟨i1, i2⟩ := h4 i rfl
        exact ⟨h11.1 _, h8.1, hv, r1, r2, i1, hclk, r3, t, hp, h12,
          by show F.I r.id = _; rw [r4, h12], by show F.I i.id = _; rw [i2, h12], hty⟩
theorem visitReset_snd (c : Cfg) (hn : c.Δ.NumbersOk) (gl : GL) (value : Nat) :
    ∀ o : Option (Exp × Exp), Snd c.Δ (visitReset c gl value o) (fun _ F => ∀ cc r, o = some (cc, r) →
      cc.Ok c.Δ (F.typing gl) ∧ r.Ok c.Δ (F.typing gl) ∧ F.I cc.id = some tBool ∧ F.I r.id = F.I value)
  | none => by
    unfold visitReset
    exact Snd.pure (fun F cc r h => nomatch h)
  | some (cond, v) => by
    unfold visitReset
    refine (visitExp_snd c hn gl cond).bind (fun _ => (visitExp_snd c hn gl v).bind (fun _ =>
      (uniBool_snd c cond.id).bind (fun _ => (uniId_snd c v.id value).mono
        (fun _ F h1 h2 h3 h4 cc r h => ?_))))
    cases h
    exact ⟨h4.1, h3.1, h2, h1⟩
theorem visitInitial_snd (c : Cfg) (hn : c.Δ.NumbersOk) (gl : GL) (value : Nat) :
    ∀ o : Option Exp, Snd c.Δ (visitInitial c gl value o) (fun _ F => ∀ i, o = some i →
      i.Ok c.Δ (F.typing gl) ∧ F.I i.id = F.I value)
  | none => by
    unfold visitInitial
    exact Snd.pure (fun F i h => nomatch h)
  | some i => by
    unfold visitInitial
    refine (visitExp_snd c hn gl i).bind (fun _ => (uniId_snd c i.id value).mono
      (fun _ F h1 h2 j h => ?_))
    cases h
    exact ⟨h2.1, h1⟩
theorem visitStmts_snd (c : Cfg) (hn : c.Δ.NumbersOk) (gl : GL) : ∀ ss : List Stmt,
    Snd c.Δ (visitStmts c gl ss) (fun _ F => Stmt.Oks c.Δ (F.typing gl) ss)
  | [] => by
    unfold visitStmts
    exact Snd.pure (fun F => by simp only [Stmt.Oks])
  | s :: ss => by
    unfold visitStmts
    refine (visitStmt_snd c hn gl s).bind (fun _ => (visitStmts_snd c hn gl ss).mono
      (fun _ F h1 h2 => ?_))
    simp only [Stmt.Oks]
    exact ⟨h2, h1⟩
end

/-! ## Units -/

variable {Δ : Decls}

mutual
theorem groundVar_snd : ∀ t : GT, Snd Δ (groundVar t) (fun v F => F.V v = t)
  | .node b as => by
    unfold groundVar
    refine (groundVars_snd as).bind (fun vs => (addVar_snd _).mono (fun v F h1 h2 => ?_))
    rw [h1, h2]
theorem groundVars_snd : ∀ ts : List GT, Snd Δ (groundVars ts) (fun vs F => vs.map F.V = ts)
  | [] => by
    unfold groundVars
    exact Snd.pure (fun F => rfl)
  | t :: ts => by
    unfold groundVars
    exact (groundVar_snd t).bind (fun v => (groundVars_snd ts).bind (fun vs =>
      Snd.pure (fun F h1 h2 => by simp only [List.map_cons, h1, h2])))
end

theorem monoParams_snd (c : Cfg) (gl : GL) : ∀ ps : List (String × GT),
    Snd c.Δ (monoParams c gl ps) (fun _ F => ∀ p ∈ ps, gl.vals F.V p.1 = some p.2)
  | [] => by
    unfold monoParams
    exact Snd.pure (fun F p h => (nomatch h))
  | (g, t) :: ps => by
    unfold monoParams
    cases hg : gl.var g with
    | none => exact Snd.err
    | some v =>
      simp only
      refine (groundVar_snd t).bind (fun o => (uni_snd c v o).bind (fun _ =>
        (monoParams_snd c gl ps).mono (fun _ F h1 h2 h3 p hp => ?_)))
      rcases List.mem_cons.1 hp with rfl | hp
      · simp [GL.vals, hg, h2, h3]
      · exact h1 p hp

theorem visitInputs_snd (gl : GL) : ∀ is : List (Nat × TSpec),
    Snd Δ (visitInputs gl is) (fun _ F => ∀ i ∈ is, ∃ t, F.N i.1 = some t ∧ i.2.Is (gl.vals F.V) t)
  | [] => by
    unfold visitInputs
    exact Snd.pure (fun F p h => (nomatch h))
  | (x, s) :: is => by
    unfold visitInputs
    refine (specVar_snd gl s).bind (fun v => (addName_snd x v).bind (fun _ =>
        (visitInputs_snd gl is).mono (fun _ F h1 h2 h3 p hp => ?_)))
    rcases List.mem_cons.1 hp with rfl | hp
    · exact ⟨_, h2, h3⟩
    · exact h1 p hp

theorem visitUnit_snd (c : Cfg) (hn : c.Δ.NumbersOk) (mono : List (String × GT)) (u : Unit) :
    Snd c.Δ (visitUnit c mono u) (fun gl F => UnitOk c.Δ (F.typing gl) u ∧
      ∀ p ∈ mono, gl.vals F.V p.1 = some p.2) := by
  unfold visitUnit
  refine (createGenericList_snd c [] u.params u.wheres []).bind (fun gl =>
    (monoParams_snd c gl mono).bind (fun _ => (visitInputs_snd gl u.inputs).bind (fun _ =>
      (visitExp_snd c hn gl u.body).bind (fun _ => (outVar_snd gl u.output).bind (fun o =>
        (typeOf_snd u.body.id).bind (fun t => (uni_snd c t o).bind (fun _ =>
          (checkRequirements_snd c c.fuel).bind (fun _ => Snd.pure
            (fun F _ h1 h2 h3 h4 h5 h6 h7 => ⟨⟨?_, h5, h4.1, F.V t, h2, ?_⟩, h6⟩)))))))))
  · refine ⟨h7.1, ?_, h7.2.2⟩
    intro p te hm
    simp at hm
  · rw [h1]; exact h3

theorem empty_wf : WF St.empty where
  root _ := rfl
  out _ _ := rfl
  lit id b ps h := by simp [St.empty] at h
  traits id k ts h := by simp [St.empty] at h
  busy x h := by simp [St.empty] at h

end

end Spade.Check

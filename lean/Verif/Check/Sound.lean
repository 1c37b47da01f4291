import Verif.Check.Reqs

/-!
# Visiting patterns, expressions and statements is sound (C51)
-/

namespace Spade.Check

open Spade.Infer.Spec (Kind Base GT Val TExpr Value LeastUint)
open Spade.Infer (CE VState Proper groundSeen Satisfies evalVal evaluate)

section
variable {Δ : Decls}

/-! ## Lists of ids -/

theorem typesOf_snd : ∀ ids : List Nat,
    Snd Δ (typesOf ids) (fun ts F => ids.map F.I = (ts.map F.V).map some)
  | [] => Snd.pure (fun _ => rfl)
  | i :: ids => by
    unfold typesOf
    exact (typeOf_snd i).bind (fun t => (typesOf_snd ids).bind (fun ts =>
      Snd.pure (fun F h1 h2 => by simp only [List.map_cons, h1, h2])))

theorem map_some_inj {α : Type} {as bs : List α} (h : as.map some = bs.map some) : as = bs := by
  induction as generalizing bs with
  | nil => cases bs with
    | nil => rfl
    | cons => exact nomatch h
  | cons a as ih =>
    cases bs with
    | nil => exact nomatch h
    | cons b bs =>
      simp only [List.map_cons, List.cons.injEq, Option.some.injEq] at h
      rw [h.1, ih h.2]

theorem Pat.Oks.types {Γ : Typing} : ∀ {ps : List Pat} {us : List GT}, Pat.Oks Δ Γ ps us →
    (ps.map Pat.id).map Γ.id = us.map some
  | [], us, h => by simp only [Pat.Oks] at h; subst h; rfl
  | p :: ps, us, h => by
    simp only [Pat.Oks] at h
    obtain ⟨u, us', rfl, h1, _, h2⟩ := h
    simp only [List.map_cons, h1, Pat.Oks.types h2]

theorem Exp.Oks.types {Γ : Typing} : ∀ {es : List Exp} {us : List GT}, Exp.Oks Δ Γ es us →
    (es.map Exp.id).map Γ.id = us.map some
  | [], us, h => by simp only [Exp.Oks] at h; subst h; rfl
  | e :: es, us, h => by
    simp only [Exp.Oks] at h
    obtain ⟨u, us', rfl, h1, _, h2⟩ := h
    simp only [List.map_cons, h1, Exp.Oks.types h2]

theorem uniIds_snd (c : Cfg) (v : Nat) : ∀ ids : List Nat,
    Snd c.Δ (uniIds c v ids) (fun _ F => ∀ i ∈ ids, F.I i = some (F.V v))
  | [] => Snd.pure (fun _ i h => (nomatch h))
  | i :: ids => by
    unfold uniIds
    refine (typeOf_snd i).bind (fun t => (uni_snd c t v).bind (fun _ => (uniIds_snd c v ids).mono
      (fun _ F h1 h2 h3 j hj => ?_)))
    rcases List.mem_cons.1 hj with rfl | hj
    · rw [h3, h2]
    · exact h1 j hj

theorem all_same {α : Type} {ids : List Nat} {I : Nat → Option α} {us : List α} {t : α}
    (h : ids.map I = us.map some) (ht : ∀ i ∈ ids, I i = some t) : us = List.replicate ids.length t := by
  induction ids generalizing us with
  | nil => cases us with
    | nil => rfl
    | cons => exact nomatch h
  | cons i ids ih =>
    cases us with
    | nil => exact nomatch h
    | cons u us =>
      simp only [List.map_cons, List.cons.injEq] at h
      have h1 := ht i (by simp)
      rw [h1] at h
      rw [ih h.2 (fun j hj => ht j (List.mem_cons_of_mem _ hj))]
      cases h.1
      rfl

theorem uniChain_snd (c : Cfg) : ∀ ids : List Nat, Snd c.Δ (uniChain c ids) (fun _ F =>
    ∀ i is t, ids = i :: is → F.I i = some t → ∀ j ∈ ids, F.I j = some t)
  | [] => Snd.pure (fun _ i is t h => (nomatch h))
  | [i] => Snd.pure (fun _ j js t h hi k hk => by
      cases h
      simp only [List.mem_singleton] at hk
      rw [hk, hi])
  | l :: r :: rest => by
    unfold uniChain
    refine (typeOf_snd r).bind (fun tr => (typeOf_snd l).bind (fun tl => (uni_snd c tr tl).bind
      (fun _ => (uniChain_snd c (r :: rest)).mono (fun _ F h1 h2 h3 h4 i is t hl hi j hj => ?_))))
    cases hl
    rcases List.mem_cons.1 hj with rfl | hj
    · exact hi
    · refine h1 r rest t rfl ?_ j hj
      rw [h4, h2, ← h3, hi]

theorem bindName_snd (x : Nat) (pre : Bool) (t : Nat) :
    Snd Δ (bindName x pre t) (fun _ F => pre = false → F.N x = some (F.V t)) := by
  unfold bindName
  split
  next h => exact Snd.pure (fun F h' => by rw [h] at h'; exact nomatch h')
  · exact (addName_snd x t).mono (fun _ _ h _ => h)

theorem isType_iff {t : GT} : IsType t ↔ ∃ l, t.head.val = .type l := Iff.rfl

/-! ## Patterns -/

/-- What visiting a pattern achieves. -/
abbrev PatQ (Δ : Decls) (p : Pat) (F : Asg) : Prop := ∀ θ : Generics, p.Ok Δ ⟨F.I, F.N, θ, F.C⟩

mutual
theorem visitPat_snd (c : Cfg) (hn : c.Δ.NumbersOk) : ∀ p : Pat,
    Snd c.Δ (visitPat c p) (fun _ F => PatQ c.Δ p F ∧ ∃ t, F.I p.id = some t ∧ IsType t)
  | .int id v => by
    unfold visitPat
    refine (newExp_snd id).bind (fun t => (newNumber_snd hn).bind (fun n => (addReq_snd _).bind
      (fun _ => (uni_snd c t n.1).mono (fun _ F h1 h2 h3 h4 => ⟨fun θ => ?_, _, h4⟩))))
    simp only [Pat.Ok]
    refine ⟨_, h4.1, ?_⟩
    rw [h1]
    exact h2
  | .bool id _ => by
    unfold visitPat
    refine (newExp_snd id).bind (fun t => newBool_snd.bind
      (fun b => (uni_snd c t b).mono (fun _ F h1 h2 h3 => ⟨fun θ => ?_, _, h3⟩)))
    simp only [Pat.Ok]
    rw [h3.1, h1, h2]
  | .bound id x pre none => by
    unfold visitPat
    refine (newExp_snd id).bind (fun t => (bindName_snd x pre t).bind (fun _ => (nameTy_snd x).bind
      (fun n => (uni_snd c t n).mono (fun _ F h1 h2 h3 h4 => ⟨fun θ => ?_, _, h4⟩))))
    simp only [Pat.Ok]
    exact ⟨_, h4.1, h4.2, by rw [h2, h1]⟩
  | .bound id x pre (some p) => by
    unfold visitPat
    refine (newExp_snd id).bind (fun t => (visitPat_snd c hn p).bind (fun _ => (typeOf_snd p.id).bind
      (fun tp => (bindName_snd x pre tp).bind (fun _ => (setLost_snd pre).bind (fun _ =>
        (nameTy_snd x).bind (fun n => (uni_snd c t n).mono
          (fun _ F h1 h2 h3 h4 h5 h6 h7 => ⟨fun θ => ?_, _, h7⟩)))))))
    simp only [Pat.Ok]
    have e := h4 h3
    rw [h2] at e
    injection e with e
    exact ⟨_, h7.1, h7.2, by rw [h2, h1], by rw [h5, ← e, h1], h6.1 θ⟩
  | .tuple id ps => by
    unfold visitPat
    refine (newExp_snd id).bind (fun t => (visitPats_snd c hn ps).bind (fun _ => (typesOf_snd _).bind
      (fun ts => (addVar_snd _).bind (fun u => (uni_snd c t u).mono
        (fun _ F h1 h2 h3 h4 h5 => ⟨fun θ => ?_, _, h5⟩)))))
    simp only [Pat.Ok]
    obtain ⟨us, h6⟩ := h4
    have h7 := (h6 θ).types
    refine ⟨us, ?_, h6 θ⟩
    rw [h5.1, h1, h2, map_some_inj (h7.symm.trans h3)]
    rfl
  | .array id ps => by
    unfold visitPat
    refine (newExp_snd id).bind (fun t => (visitPats_snd c hn ps).bind (fun _ => ?_))
    cases ps with
    | nil => exact Snd.err
    | cons p ps =>
      simp only [List.map_cons]
      refine (typeOf_snd p.id).bind (fun e => (uniIds_snd c e (ps.map Pat.id)).bind (fun _ =>
        (newInt_snd _).bind (fun n => (addVar_snd _).bind (fun u => (uni_snd c t u).mono
          (fun _ F h1 h2 h3 h4 h5 h6 h7 => ⟨fun θ => ?_, _, h7⟩)))))
      simp only [Pat.Ok]
      obtain ⟨us, h8⟩ := h6
      have h9 := (h8 θ).types
      have h10 := all_same (t := F.V e) h9 (fun i hi => by
        rcases List.mem_cons.1 hi with rfl | hi
        · exact h5
        · exact h4 i hi)
      refine ⟨F.V e, ?_, by simp, ?_⟩
      · rw [h7.1, h1, h2]
        simp only [List.map_cons, List.map_nil, h3]
        rfl
      · rw [h10] at h8
        simpa using h8 θ
  | .type id v ps => by
    unfold visitPat
    refine (newExp_snd id).bind (fun t => ?_)
    cases hv : c.Δ.variants v with
    | none => exact Snd.stuck
    | some V =>
      simp only
      refine (createGenericList_snd c [] V.params V.wheres []).bind (fun gl =>
        (specVar_snd gl V.self).bind (fun u => (uni_snd c t u).bind (fun _ =>
          (visitFields_snd c hn gl ps V.fields).mono
            (fun _ F h1 h2 h3 h4 h5 => ⟨fun θ => ?_, _, h5⟩))))
      simp only [Pat.Ok]
      obtain ⟨us, h6, h7⟩ := h1
      refine ⟨V, gl.vals F.V, F.V t, us, hv, h5.1, ⟨h4.1, ?_, h4.2.2⟩, ?_, h6, h7 θ⟩
      · intro p te hm
        simp at hm
      · rw [h2]; exact h3
theorem visitPats_snd (c : Cfg) (hn : c.Δ.NumbersOk) : ∀ ps : List Pat,
    Snd c.Δ (visitPats c ps) (fun _ F => ∃ us, ∀ θ : Generics, Pat.Oks c.Δ ⟨F.I, F.N, θ, F.C⟩ ps us)
  | [] => by
    unfold visitPats
    exact Snd.pure (fun F => ⟨[], fun θ => by simp only [Pat.Oks]⟩)
  | p :: ps => by
    unfold visitPats
    refine (visitPat_snd c hn p).bind (fun _ => (visitPats_snd c hn ps).mono (fun _ F h1 h2 => ?_))
    obtain ⟨us, h3⟩ := h1
    obtain ⟨h4, t, h5, _⟩ := h2
    refine ⟨t :: us, fun θ => ?_⟩
    simp only [Pat.Oks]
    exact ⟨t, us, rfl, h5, h4 θ, h3 θ⟩
theorem visitFields_snd (c : Cfg) (hn : c.Δ.NumbersOk) (gl : GL) : ∀ (ps : List Pat) (ss : List TSpec),
    Snd c.Δ (visitFields c gl ps ss) (fun _ F => ∃ us, TSpec.Are (gl.vals F.V) ss us ∧
      ∀ θ : Generics, Pat.Oks c.Δ ⟨F.I, F.N, θ, F.C⟩ ps us)
  | [], [] => by
    unfold visitFields
    exact Snd.pure (fun F => ⟨[], by simp only [TSpec.Are], fun θ => by simp only [Pat.Oks]⟩)
  | p :: ps, s :: ss => by
    unfold visitFields
    refine (visitPat_snd c hn p).bind (fun _ => (specVar_snd gl s).bind (fun u =>
      (typeOf_snd p.id).bind (fun t => (uni_snd c t u).bind (fun _ =>
        (visitFields_snd c hn gl ps ss).mono (fun _ F h1 h2 h3 h4 h5 => ?_)))))
    obtain ⟨us, h6, h7⟩ := h1
    refine ⟨F.V u :: us, ?_, fun θ => ?_⟩
    · simp only [TSpec.Are]
      exact ⟨_, us, rfl, h4, h6⟩
    · simp only [Pat.Oks]
      exact ⟨_, us, rfl, by rw [h3, h2], h5.1 θ, h7 θ⟩
  | [], _ :: _ => by unfold visitFields; exact Snd.stuck
  | _ :: _, [] => by unfold visitFields; exact Snd.stuck
end

/-! ## Sizes -/

theorem tNum_head {s s' : Bool} {n n' : Nat} (h : (tNum s n).head = (tNum s' n').head) : s = s' := by
  cases s <;> cases s' <;> simp [tNum, GT.head] at h ⊢

theorem tNat_inj {n m : Nat} (h : tNat n = tNat m) : n = m := by
  simp only [tNat, GT.node.injEq, Base.int.injEq, and_true] at h
  omega

theorem addCon_plus (r a : Nat) (k : Int) : Snd Δ (addCon r (.bin .sum (.var a) (.int k)))
    (fun _ F => ∀ n : Int, F.V a = .node (.int n) [] → F.V r = .node (.int (n + k)) []) := by
  refine (addCon_snd _ _).mono (fun _ F h n ha => ?_)
  obtain ⟨hp, w, h1, h2⟩ := h
  refine con_int hp h1 h2 ?_
  rw [Infer.evalVal_bin, seen_int ha, evalVal_int]
  rfl

theorem addSum_snd (r a b : Nat) : Snd Δ (addSum r a b) (fun _ F =>
    ∀ n m : Nat, F.V a = tNat n → F.V b = tNat m → F.V r = tNat (n + m)) := by
  unfold addSum
  refine (addCon_snd _ _).bind (fun _ => (addCon_snd _ _).bind (fun _ => (addCon_snd _ _).mono
    (fun _ F _ _ h n m ha hb => ?_)))
  obtain ⟨hp, w, h1, h2⟩ := h
  have := con_int (i := (n : Int) + m) hp h1 h2 (by
    rw [Infer.evalVal_bin, seen_int ha, seen_int hb]
    rfl)
  rw [this]
  simp [tNat]

theorem evalVal_var {V : Nat → GT} (hp : Proper V) {v : Nat} {i : Int}
    (h : evalVal (groundSeen V) (.var v) = some (.int i)) : V v = .node (.int i) [] := by
  refine (Infer.groundSeen_eq (w := .int i) hp (by simp)).1 ?_
  simp only [evalVal, evaluate] at h
  cases hs : groundSeen V v <;> simp [hs, Infer.solved] at h
  subst h
  rfl

theorem addrCon_snd (size n : Nat) : Snd Δ (addrCon size n) (fun _ F => ∃ k : Int,
    F.V n = .node (.int k) [] ∧ F.V size = tNat (Infer.bigBits (k - 1))) := by
  unfold addrCon
  refine (addCon_snd _ _).mono (fun _ F h => ?_)
  obtain ⟨hp, w, h1, h2⟩ := h
  have h3 := h2
  rw [Infer.evalVal_uintBits, Infer.evalVal_bin] at h3
  cases hv : evalVal (groundSeen F.V) (.var n) with
  | none => rw [hv] at h3; exact nomatch h3
  | some x =>
    rw [hv] at h3
    cases x with
    | int k =>
      refine ⟨k, evalVal_var hp hv, ?_⟩
      refine con_int hp h1 h2 ?_
      rw [Infer.evalVal_uintBits, Infer.evalVal_bin, hv, evalVal_sub, evalVal_int]
      simp [Infer.opVal, Int.sub_eq_add_neg]
    | _ => rw [evalVal_sub, evalVal_int] at h3; exact nomatch h3

theorem addrWidth_ok {V : Nat → GT} {size n : Nat} (h : ∃ k : Int,
    V n = .node (.int k) [] ∧ V size = tNat (Infer.bigBits (k - 1))) : AddrWidth (V n) (V size) := by
  obtain ⟨k, h1, h2⟩ := h
  exact ⟨k, _, h1, h2, fun hk => Infer.C20_uint_bits_least_partial (k - 1) (by omega)⟩

/-! ## Operators and literals -/

theorem binVars_snd (c : Cfg) (hn : c.Δ.NumbersOk) (a b t : Nat) (op : BinOp) :
    Snd c.Δ (binVars c a b t op) (fun _ F => op.Ok (F.V a) (F.V b) (F.V t)) := by
  have plus : Snd c.Δ (binVars c a b t .add) (fun _ F => BinOp.Ok .add (F.V a) (F.V b) (F.V t)) := by
    unfold binVars
    refine (newNumber_snd hn).bind (fun i => (newNumber_snd hn).bind (fun r =>
      (addCon_plus _ _ _).bind (fun _ => (addCon_snd _ _).bind (fun _ => (uni_snd c a i.1).bind
        (fun _ => (uni_snd c a b).bind (fun _ => (uni_snd c t r.1).bind (fun _ =>
          (addReq_snd _).mono (fun _ F h1 h2 h3 h4 _ h5 h6 h7 => ?_))))))))
    obtain ⟨s, n, h8, h9⟩ := h7
    obtain ⟨s', m, h10, h11⟩ := h6
    have h12 := h5 n h9
    obtain ⟨B, h13⟩ := h1
    have h14 := (h13 i.1 (by simp)).trans (h13 r.1 (by simp)).symm
    rw [h8, h10] at h14
    have hs := tNum_head h14
    subst hs
    rw [h11] at h12
    have : m = n + 1 := tNat_inj (h12.trans (by simp [tNat]))
    subst this
    exact ⟨s, n, by rw [h4, h8], by rw [← h3, h4, h8], by rw [h2, h10]⟩
  have same : Snd c.Δ (binVars c a b t .div) (fun _ F => BinOp.Ok .div (F.V a) (F.V b) (F.V t)) := by
    unfold binVars
    refine (newNumber_snd hn).bind (fun i => (uni_snd c a i.1).bind (fun _ => (uni_snd c a b).bind
      (fun _ => (uni_snd c t b).mono (fun _ F h1 h2 h3 h4 => ?_))))
    obtain ⟨s, n, h5, _⟩ := h4
    exact ⟨s, n, by rw [h3, h5], by rw [← h2, h3, h5], by rw [h1, ← h2, h3, h5]⟩
  cases op with
  | add => exact plus
  | sub => exact plus
  | div => exact same
  | mod => exact same
  | shl => exact same
  | shr => exact same
  | ashr => exact same
  | mul =>
    unfold binVars
    refine (newNumber_snd hn).bind (fun l => (newNumber_snd hn).bind (fun r =>
      (newNumber_snd hn).bind (fun o => (addSum_snd _ _ _).bind (fun _ => (uni_snd c a l.1).bind
        (fun _ => (uni_snd c b r.1).bind (fun _ => (uni_snd c t o.1).bind (fun _ =>
          (addReq_snd _).mono (fun _ F h1 h2 h3 h4 h5 h6 h7 h8 => ?_))))))))
    obtain ⟨s, n, h9, h10⟩ := h8
    obtain ⟨s', m, h11, h12⟩ := h7
    obtain ⟨s'', k, h13, h14⟩ := h6
    obtain ⟨B, h15⟩ := h1
    have h16 := (h15 l.1 (by simp)).trans (h15 r.1 (by simp)).symm
    have h17 := (h15 l.1 (by simp)).trans (h15 o.1 (by simp)).symm
    rw [h9, h11] at h16
    rw [h9, h13] at h17
    have e1 := tNum_head h16
    have e2 := tNum_head h17
    subst e1 e2
    have e3 := tNat_inj (h14.symm.trans (h5 n m h10 h12))
    subst e3
    exact ⟨s, n, m, by rw [h4, h9], by rw [h3, h11], by rw [h2, h13]⟩

theorem unVars_snd (c : Cfg) (hn : c.Δ.NumbersOk) (a t : Nat) (op : UnOp) :
    Snd c.Δ (unVars c a t op) (fun _ F => op.Ok c.Δ (F.V a) (F.V t)) := by
  cases op with
  | neg =>
    unfold unVars
    refine newUint_snd.bind (fun size => (addVar_snd _).bind (fun n => (uni_snd c a n).bind
      (fun _ => (uni_snd c t n).mono (fun _ F h1 h2 h3 h4 => ?_))))
    obtain ⟨k, h5⟩ := h4
    have h6 : F.V n = tNum true k := by rw [h3]; simp only [List.map_cons, List.map_nil, h5]; rfl
    exact ⟨k, by rw [h2, h6], by rw [h1, h6]⟩
  | bitNot =>
    unfold unVars
    refine (newNumber_snd hn).bind (fun n => (uni_snd c a n.1).bind
      (fun _ => (uni_snd c t n.1).mono (fun _ F h1 h2 h3 => ?_)))
    obtain ⟨s, k, h4, _⟩ := h3
    exact ⟨s, k, by rw [h2, h4], by rw [h1, h4]⟩
  | not =>
    unfold unVars
    refine newBool_snd.bind (fun b => (uni_snd c a b).bind
      (fun _ => (uni_snd c t b).mono (fun _ F h1 h2 h3 => ?_)))
    exact ⟨by rw [h2, h3], by rw [h1, h3]⟩
  | deref =>
    unfold unVars
    refine (addVar_snd _).bind (fun i => (addVar_snd _).bind (fun v => (uni_snd c t i).bind
      (fun _ => (uni_snd c a v).mono (fun _ F h1 h2 h3 h4 => ?_))))
    refine ⟨?_, ?_⟩
    · rw [h1, h2, h3]; rfl
    · rw [h2]; exact h4.2 (trCopy, []) (by simp)
  | ref =>
    unfold unVars
    refine newType_snd.bind (fun i => (addVar_snd _).bind (fun v => (uni_snd c t v).bind
      (fun _ => (uni_snd c a i).mono (fun _ F h1 h2 h3 h4 => ?_))))
    show F.V t = _
    rw [h2, h3, h1]; rfl

theorem litSize_snd (c : Cfg) (size : Nat) (o : Option Nat) :
    Snd c.Δ (litVar.litSize c size o) (fun _ F => ∀ n, o = some n → F.V size = tNat n) := by
  cases o with
  | none => exact Snd.pure (fun _ n h => nomatch h)
  | some k =>
    unfold litVar.litSize
    refine (newInt_snd _).bind (fun v => (uni_snd c size v).mono (fun _ F h1 h2 n hn => ?_))
    injection hn with hn
    subst hn
    rw [h1, h2]
    rfl

/-- The suffix of a literal is respected, given that its type is a number. -/
def SuffixOk (k : LitKind) (t : GT) : Prop := ∀ v, LitOk t v → k.Ok t

theorem litOk_num {t : GT} {v : Int} (h : LitOk t v) : ∃ s n, t = tNum s n := by
  obtain ⟨n, h | h⟩ := h
  · exact ⟨_, _, h.1⟩
  · exact ⟨_, _, h.1⟩

theorem suffix_ok {s : Bool} {size : Option Nat} {t u : GT}
    (h1 : t = .node (.named (if s then 1 else 2)) [u]) (h2 : ∀ n, size = some n → u = tNat n) :
    SuffixOk (if s then .signed size else .unsigned size) t := by
  intro v hv
  obtain ⟨s', n, h3⟩ := litOk_num hv
  have hs : s = s' := by
    rw [h1] at h3
    cases s <;> cases s' <;> simp [tNum] at h3 ⊢
  subst hs
  have hu : u = tNat n := by
    rw [h1] at h3
    simpa [tNum] using h3
  cases size with
  | none => cases s <;> exact ⟨n, h3⟩
  | some m =>
    have := tNat_inj (hu.symm.trans (h2 m rfl))
    subst this
    cases s <;> exact h3

theorem litVar_snd (c : Cfg) (k : LitKind) :
    Snd c.Δ (litVar c k) (fun v F => SuffixOk k (F.V v)) := by
  cases k with
  | unsized =>
    unfold litVar newNumber
    refine Snd.bind (Q := fun _ _ => True) ?_ (fun n => Snd.pure (fun F _ v _ => trivial))
    exact (addVar_snd _).bind (fun _ => (addVar_snd _).bind (fun _ => Snd.pure (fun _ _ _ => trivial)))
  | signed sz =>
    unfold litVar
    refine (addVar_snd _).bind (fun size => (addVar_snd _).bind (fun t => (litSize_snd c size sz).bind
      (fun _ => Snd.pure (fun F h1 h2 h3 => ?_))))
    exact suffix_ok (s := true) h2 h1
  | unsigned sz =>
    unfold litVar
    refine (addVar_snd _).bind (fun size => (addVar_snd _).bind (fun t => (litSize_snd c size sz).bind
      (fun _ => Snd.pure (fun F h1 h2 h3 => ?_))))
    exact suffix_ok (s := false) h2 h1

theorem views_elem {t u : GT} {i : Nat} (h : ElemTy t i u) : ∀ n, ElemTy (views n t) i (views n u)
  | 0 => h
  | n + 1 => .view (views_elem h n)

theorem tupleElem_snd (layers i : Nat) (tv : TV) : Snd Δ (tupleElem layers i tv) (fun v F =>
    ∀ t, tv.Holds Δ.impls F.V t → ElemTy (views layers t) i (F.V v)) := by
  unfold tupleElem
  split
  next ts =>
    cases h : ts[i]? with
    | none => exact Snd.err
    | some w =>
      refine (wrapViews_snd layers w).mono (fun v F h1 t ht => ?_)
      rw [h1, ht]
      exact views_elem (.tuple (by simp [h])) layers
  · exact Snd.err

/-! ## Calls -/

theorem genericArg_snd (gl : GL) (ps : List (String × Kind)) (i : Nat) :
    Snd Δ (genericArg gl ps i) (fun v F => argAt ps (gl.vals F.V) i = some (F.V v)) := by
  unfold genericArg
  cases h : (ps[i]?).bind (fun p => gl.var p.1) with
  | none => exact Snd.stuck
  | some v =>
    refine Snd.pure (fun F => ?_)
    unfold argAt GL.vals
    cases hp : ps[i]? with
    | none => rw [hp] at h; exact nomatch h
    | some p =>
      rw [hp] at h
      simp only [Option.bind_some] at h ⊢
      rw [h]
      rfl

theorem visitSpecial_snd (c : Cfg) (hn : c.Δ.NumbersOk) (gl : GL) (ps : List (String × Kind))
    (args : List Nat) (o : Option Special) : Snd c.Δ (visitSpecial c gl ps args o) (fun _ F =>
      ∀ sp us, o = some sp → args.map F.I = us.map some → sp.Ok ps (gl.vals F.V) us) := by
  cases o with
  | none => exact Snd.pure (fun F sp us h => nomatch h)
  | some sp =>
    cases sp with
    | concat =>
      unfold visitSpecial
      refine (genericArg_snd gl ps 0).bind (fun a => (genericArg_snd gl ps 1).bind (fun b =>
        (genericArg_snd gl ps 2).bind (fun r => (newNumber_snd hn).bind (fun l =>
          (newNumber_snd hn).bind (fun q => (newNumber_snd hn).bind (fun o => (uni_snd c a l.1).bind
            (fun _ => (uni_snd c b q.1).bind (fun _ => (uni_snd c r o.1).bind (fun _ =>
              (addSum_snd _ _ _).bind (fun _ => (addReq_snd _).mono
                (fun _ F h1 h2 h3 h4 h5 h6 h7 h8 h9 h10 h11 sp us hsp hus => ?_)))))))))))
      cases hsp
      obtain ⟨s, n, k1, k2⟩ := h8
      obtain ⟨s', m, k3, k4⟩ := h7
      obtain ⟨s'', k, k5, k6⟩ := h6
      obtain ⟨B, hB⟩ := h1
      have e1 := (hB l.1 (by simp)).trans (hB q.1 (by simp)).symm
      have e2 := (hB l.1 (by simp)).trans (hB o.1 (by simp)).symm
      rw [k1, k3] at e1
      rw [k1, k5] at e2
      have e3 := tNum_head e1
      have e4 := tNum_head e2
      subst e3 e4
      have e5 := tNat_inj (k6.symm.trans (h2 n m k2 k4))
      subst e5
      exact ⟨s, n, m, by rw [h11, h5, k1], by rw [h10, h4, k3], by rw [h9, h3, k5]⟩
    | trunc =>
      unfold visitSpecial
      refine (genericArg_snd gl ps 0).bind (fun a => (genericArg_snd gl ps 1).bind (fun r =>
        (newNumber_snd hn).bind (fun i => (newNumber_snd hn).bind (fun o => (uni_snd c a i.1).bind
          (fun _ => (uni_snd c r o.1).bind (fun _ => (addReq_snd _).mono
            (fun _ F h1 h2 h3 h4 h5 h6 h7 sp us hsp hus => ?_)))))))
      cases hsp
      obtain ⟨s, n, k1, k2⟩ := h5
      obtain ⟨s', m, k3, k4⟩ := h4
      obtain ⟨B, hB⟩ := h1
      have e1 := (hB i.1 (by simp)).trans (hB o.1 (by simp)).symm
      rw [k1, k3] at e1
      have e3 := tNum_head e1
      subst e3
      exact ⟨s, n, m, by rw [h7, h3, k1], by rw [h6, h2, k3]⟩
    | divMod =>
      unfold visitSpecial
      refine (genericArg_snd gl ps 0).bind (fun a => (newNumber_snd hn).bind (fun n =>
        (uni_snd c a n.1).mono (fun _ F h1 h2 h3 sp us hsp hus => ?_)))
      cases hsp
      obtain ⟨s, k, h4, _⟩ := h2
      exact ⟨s, k, by rw [h3, h1, h4]⟩
    | clockedMemory =>
      unfold visitSpecial
      refine (genericArg_snd gl ps 0).bind (fun n => (genericArg_snd gl ps 2).bind (fun w =>
        newUint_snd.bind (fun size => (addVar_snd _).bind (fun addr => newType_snd.bind (fun x =>
          newType_snd.bind (fun y => (addVar_snd _).bind (fun tup => newUint_snd.bind (fun k =>
            (addVar_snd _).bind (fun port => (addrCon_snd size n).bind (fun _ =>
              (uni_snd c size w).bind (fun _ => ?_)))))))))))
      cases ha : args[1]? with
      | none => exact Snd.stuck
      | some i =>
        simp only
        refine (typeOf_snd i).bind (fun t => (uni_snd c t port).mono
          (fun _ F h1 h2 h3 h4 h5 h6 h7 _ _ h8 h9 h10 h11 sp us hsp hus => ?_))
        cases hsp
        have hw := addrWidth_ok h4
        rw [h3] at hw
        obtain ⟨k', hk⟩ := h6
        obtain ⟨j, hj⟩ := h9
        refine ⟨F.V n, F.V w, h11, h10, hw, F.V x, F.V y, k', j, ?_, by rw [← h3, hj]⟩
        have hu : (args.map F.I)[1]? = (us.map some)[1]? := by rw [hus]
        simp only [List.getElem?_map, ha, Option.map_some, h2] at hu
        cases hui : us[1]? with
        | none => rw [hui] at hu; exact nomatch hu
        | some u =>
          rw [hui] at hu
          simp only [Option.map_some, Option.some.injEq] at hu
          rw [← hu, h1, h5]
          simp only [TV.Holds, List.map_cons, List.map_nil] at h7 h8
          simp only [List.map_cons, List.map_nil, hk, h7, h8, hj]
          rfl
    | readMemory =>
      unfold visitSpecial
      refine (genericArg_snd gl ps 0).bind (fun w => (genericArg_snd gl ps 2).bind (fun n =>
        newUint_snd.bind (fun size => (addVar_snd _).bind (fun addr => (addrCon_snd size n).bind
          (fun _ => (uni_snd c size w).mono (fun _ F h1 h2 _ _ h3 h4 sp us hsp hus => ?_))))))
      cases hsp
      have hw := addrWidth_ok h2
      rw [h1] at hw
      exact ⟨F.V n, F.V w, h3, h4, hw⟩

theorem checkArgs_snd (c : Cfg) (gl : GL) : ∀ (ids : List Nat) (ss : List TSpec),
    Snd c.Δ (checkArgs c gl ids ss) (fun _ F => ∃ us, ids.map F.I = us.map some ∧
      TSpec.Are (gl.vals F.V) ss us)
  | [], [] => by
    unfold checkArgs
    exact Snd.pure (fun F => ⟨[], rfl, by simp only [TSpec.Are]⟩)
  | i :: is, s :: ss => by
    unfold checkArgs
    refine (specVar_snd gl s).bind (fun u => (typeOf_snd i).bind (fun t => (uni_snd c t u).bind
      (fun _ => (checkArgs_snd c gl is ss).mono (fun _ F h1 h2 h3 h4 => ?_))))
    obtain ⟨us, h5, h6⟩ := h1
    refine ⟨F.V u :: us, by simp only [List.map_cons, h3, h2, h5], ?_⟩
    simp only [TSpec.Are]
    exact ⟨_, us, rfl, h4, h6⟩
  | [], _ :: _ => by unfold checkArgs; exact Snd.err
  | _ :: _, [] => by unfold checkArgs; exact Snd.err

theorem outVar_snd (gl : GL) (o : Option TSpec) :
    Snd Δ (outVar gl o) (fun v F => OutIs (gl.vals F.V) o (F.V v)) := by
  cases o with
  | none => exact addVar_snd _
  | some s => exact specVar_snd gl s

theorem finishCall_snd (c : Cfg) (hn : c.Δ.NumbersOk) (gl : GL) (h : Head) (t : Nat)
    (args : List Nat) : Snd c.Δ (finishCall c gl h t args) (fun _ F => ∀ us,
      args.map F.I = us.map some → TSpec.Are (gl.vals F.V) h.inputs us ∧
      OutIs (gl.vals F.V) h.output (F.V t) ∧
      ∀ sp, h.special = some sp → sp.Ok h.params (gl.vals F.V) us) := by
  unfold finishCall
  refine (visitSpecial_snd c hn gl h.params args h.special).bind (fun _ =>
    (checkArgs_snd c gl args h.inputs).bind (fun _ => (outVar_snd gl h.output).bind (fun o =>
      (uni_snd c t o).mono (fun _ F h1 h2 h3 h4 us hus => ?_))))
  obtain ⟨us', h5, h6⟩ := h3
  have := map_some_inj (hus.symm.trans h5)
  subst this
  exact ⟨h6, by rw [h1]; exact h2, fun sp hsp => h4 sp us hsp hus⟩

theorem uniId_snd (c : Cfg) (i j : Nat) :
    Snd c.Δ (uniId c i j) (fun _ F => F.I i = F.I j) :=
  (typeOf_snd i).bind (fun a => (typeOf_snd j).bind (fun b => (uni_snd c a b).mono
    (fun _ F h1 h2 h3 => by rw [h3, h2, h1])))

theorem uniBool_snd (c : Cfg) (i : Nat) :
    Snd c.Δ (uniBool c i) (fun _ F => F.I i = some tBool) :=
  (typeOf_snd i).bind (fun a => newBool_snd.bind (fun b => (uni_snd c a b).mono
    (fun _ F h1 h2 h3 => by rw [h3, h1, h2])))

theorem uniSpec_snd (c : Cfg) (id : Nat) (o : Option Nat) :
    Snd c.Δ (uniSpec c id o) (fun _ F => ∀ v, o = some v → F.I id = some (F.V v)) := by
  cases o with
  | none => exact Snd.pure (fun F v h => nomatch h)
  | some w =>
    refine (typeOf_snd id).bind (fun t => (uni_snd c t w).mono (fun _ F h1 h2 v hv => ?_))
    cases hv
    rw [h2, h1]

theorem optVar_snd (gl : GL) (o : Option TSpec) : Snd Δ (optVar gl o) (fun r F =>
    ∀ s, o = some s → ∃ v, r = some v ∧ s.Is (gl.vals F.V) (F.V v)) := by
  cases o with
  | none => exact Snd.pure (fun F s h => nomatch h)
  | some s =>
    refine (specVar_snd gl s).bind (fun v => Snd.pure (fun F h s' hs => ?_))
    cases hs
    exact ⟨v, rfl, h⟩

theorem declAll_snd : ∀ xs : List Nat,
    Snd Δ (declAll xs) (fun _ F => ∀ x ∈ xs, ∃ t, F.N x = some t ∧ IsType t)
  | [] => Snd.pure (fun F x h => (nomatch h))
  | x :: xs => by
    unfold declAll
    refine newType_snd.bind (fun t => (addName_snd x t).bind (fun _ => (declAll_snd xs).mono
      (fun _ F h1 h2 h3 y hy => ?_)))
    rcases List.mem_cons.1 hy with rfl | hy
    · exact ⟨_, h2, h3⟩
    · exact h1 y hy

theorem elemVar_snd (ids : List Nat) : Snd Δ (elemVar ids) (fun v F =>
    (ids = [] → IsType (F.V v)) ∧ ∀ i is, ids = i :: is → F.I i = some (F.V v)) := by
  cases ids with
  | nil => exact newType_snd.mono (fun v F h => ⟨fun _ => h, fun i is h => nomatch h⟩)
  | cons i is =>
    exact (typeOf_snd i).mono (fun v F h => ⟨fun h' => (nomatch h'), fun j js hj => by cases hj; exact h⟩)

theorem rangeBound_snd (c : Cfg) (gl : GL) (b : Option (Nat × TExpr)) (d : M Nat) (D : Nat → Asg → Prop)
    (hd : Snd Δ d D) : Snd Δ (rangeBound c gl d b) (fun v F =>
      (b = none → D v F) ∧ ∀ i e, b = some (i, e) → F.I i = some (F.V v) ∧
        ConstIs (gl.vals F.V) e (F.V v)) := by
  cases b with
  | none => exact hd.mono (fun v F h => ⟨fun _ => h, fun i e h => nomatch h⟩)
  | some p =>
    obtain ⟨i, e⟩ := p
    refine (constVar_snd c gl i e).mono (fun v F h => ⟨fun h => (nomatch h), fun j e' hj => ?_⟩)
    cases hj
    exact h

end

end Spade.Check

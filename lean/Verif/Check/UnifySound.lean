import Verif.Check.Unify
import Verif.Infer.Require

/-!
# Unification is sound (C51)

An assignment of ground types to type variables that solves the state after a step also solves the
state before it, and satisfies what the step was for. The final state of inference therefore answers
for every step taken on the way.
-/

namespace Spade.Check

open Spade.Infer.Spec (Kind Base GT Val)
open Spade.Infer (CE VState Proper groundSeen Satisfies)

/-- An assignment of ground types to type variables, to ids, to names and to the generic parameters of
callees. -/
structure Asg where
  V : Nat → GT
  I : Nat → Option GT
  N : Nat → Option GT
  C : Nat → Generics

/-- The ground type is as described by the type variable. -/
def TV.Holds (impls : List Impl) (V : Nat → GT) (t : GT) : TV → Prop
  | .known b ps => t = .node b (ps.map V)
  | .unknown k ts => k.Holds t.head.val ∧ ∀ tr ∈ ts, Implements impls t tr.1 (tr.2.map V)

/-- What a requirement demands. -/
def Req.Holds (Δ : Decls) (V : Nat → GT) : Req → Prop
  | .field t f e => FieldTy Δ (V t) f (V e)
  | .fits (.lit v) t => LitOk (V t) v
  | .fits (.generic g) t => ∃ v, V g = .node (.int v) [] ∧ LitOk (V t) v
  | .endAfterStart s e => ∃ x y, V s = .node (.int x) [] ∧ V e = .node (.int y) [] ∧ x ≤ y
  | .inArray i n => ∃ x y, V i = .node (.int x) [] ∧ V n = .node (.int y) [] ∧ x ≤ y
  | .nonZero n => ∃ x, V n = .node (.int x) [] ∧ x ≠ 0
  | .whereCmp k l r => ∃ x y, V l = .node (.int x) [] ∧ V r = .node (.int y) [] ∧ k.Holds x y
  | .sharedBase ts => ∃ b, ∀ t ∈ ts, (V t).head = b

/-- The assignment solves the state, except perhaps for the variables `X`: it respects replacements,
known types, kinds, trait bounds, constraints, requirements and equations. -/
structure FinX (Δ : Decls) (X : List Nat) (F : Asg) (S : St) : Prop where
  proper : Proper F.V
  eq : ∀ id, F.V id = F.V (S.res id)
  root : ∀ id tv, S.res id ∉ X → S.get id = some tv → tv.Holds Δ.impls F.V (F.V id)
  cons : Satisfies (groundSeen F.V) S.cons
  reqs : ∀ r ∈ S.reqs, r.Holds Δ F.V
  ids : ∀ i v, S.ids i = some v → F.I i = some (F.V v)
  names : ∀ i v, S.names i = some v → F.N i = some (F.V v)
  calls : ∀ i gl, S.calls i = some gl → F.C i = fun g => (gl.lookup g).map F.V
  lost : S.lost = false

/-- The assignment solves the state. -/
abbrev Fin (Δ : Decls) (F : Asg) (S : St) : Prop := FinX Δ [] F S

/-- What holds of every state. -/
structure WF (S : St) : Prop where
  root : ∀ id, S.res (S.res id) = S.res id
  out : ∀ id, S.vars.length ≤ id → S.res id = id
  lit : ∀ (id : Nat) b ps, S.vars[id]? = some (TV.known b ps) → isValue b = true → ps = []
  traits : ∀ (id : Nat) k ts, S.vars[id]? = some (TV.unknown k ts) → ts ≠ [] → k = .type
  busy : ∀ x ∈ S.busy, ∃ k ts, S.vars[x]? = some (TV.unknown k ts)

/-- Type variables are only added. -/
def Grows (S S' : St) : Prop := ∃ l, S'.vars = S.vars ++ l

theorem Grows.refl (S : St) : Grows S S := ⟨[], by simp⟩

theorem Grows.trans {S S' S'' : St} (h : Grows S S') (h' : Grows S' S'') : Grows S S'' := by
  obtain ⟨l, hl⟩ := h
  obtain ⟨l', hl'⟩ := h'
  exact ⟨l ++ l', by rw [hl', hl, List.append_assoc]⟩

theorem Grows.get {S S' : St} (h : Grows S S') {i : Nat} {tv : TV} (hg : S.vars[i]? = some tv) :
    S'.vars[i]? = some tv := by
  obtain ⟨l, hl⟩ := h
  rw [hl, List.getElem?_append_left (List.getElem?_eq_some_iff.1 hg).1]
  exact hg

/-- What a sound step from `S` to `S'` achieves: solutions of the state after it solve the state
before it and satisfy `Q`. -/
structure Post (Δ : Decls) (S S' : St) (Q : Asg → Prop) : Prop where
  wf : WF S'
  grows : Grows S S'
  busy : S'.busy = S.busy
  back : ∀ X F, (∀ x ∈ X, x ∈ S.busy) → FinX Δ X F S' → FinX Δ X F S ∧ Q F

/-- A step is sound. -/
def Snd (Δ : Decls) {α : Type} (m : M α) (Q : α → Asg → Prop) : Prop :=
  ∀ S a S', WF S → m S = .ok a S' → Post Δ S S' (Q a)

section
variable {Δ : Decls} {α β : Type}

theorem Post.refl {S : St} {Q : Asg → Prop} (hw : WF S) (h : ∀ F, Q F) : Post Δ S S Q :=
  ⟨hw, .refl _, rfl, fun _ F _ hF => ⟨hF, h F⟩⟩

theorem Post.trans {S S1 S2 : St} {Q R : Asg → Prop} (h : Post Δ S S1 Q) (h' : Post Δ S1 S2 R) :
    Post Δ S S2 (fun F => Q F ∧ R F) where
  wf := h'.wf
  grows := h.grows.trans h'.grows
  busy := h'.busy.trans h.busy
  back X F hX hF := by
    obtain ⟨h1, h2⟩ := h'.back X F (by rw [h.busy]; exact hX) hF
    obtain ⟨h3, h4⟩ := h.back X F hX h1
    exact ⟨h3, h4, h2⟩

theorem Post.mono {S S1 : St} {Q R : Asg → Prop} (h : Post Δ S S1 Q) (hi : ∀ F, Q F → R F) :
    Post Δ S S1 R where
  wf := h.wf
  grows := h.grows
  busy := h.busy
  back X F hX hF := ⟨(h.back X F hX hF).1, hi F (h.back X F hX hF).2⟩

theorem bind_eq_ok {m : M α} {f : α → M β} {S : St} {b : β} {S' : St} :
    (m >>= f) S = .ok b S' ↔ ∃ a S1, m S = .ok a S1 ∧ f a S1 = .ok b S' := by
  show (match m S with
    | .ok a S' => f a S'
    | .err => .err
    | .stuck => .stuck) = _ ↔ _
  cases m S with
  | ok a S1 =>
    simp only
    constructor
    · intro h; exact ⟨a, S1, rfl, h⟩
    · rintro ⟨a', S1', h1, h2⟩
      injection h1 with h3 h4
      subst h3 h4
      exact h2
  | err => simp
  | stuck => simp

theorem pure_eq_ok {a b : α} {S S' : St} : (pure a : M α) S = .ok b S' ↔ a = b ∧ S = S' := by
  show (Out.ok a S) = _ ↔ _
  simp

theorem Snd.pure {a : α} {Q : α → Asg → Prop} (h : ∀ F, Q a F) : Snd Δ (pure a) Q := by
  intro S b S' hw he
  obtain ⟨rfl, rfl⟩ := pure_eq_ok.1 he
  exact .refl hw h

theorem Snd.err {Q : α → Asg → Prop} : Snd Δ M.err Q := by
  intro S b S' hw he; exact nomatch he

theorem Snd.stuck {Q : α → Asg → Prop} : Snd Δ M.stuck Q := by
  intro S b S' hw he; exact nomatch he

theorem Snd.bind {m : M α} {f : α → M β} {Q : α → Asg → Prop} {R : β → Asg → Prop}
    (hm : Snd Δ m Q) (hf : ∀ a, Snd Δ (f a) (fun b F => Q a F → R b F)) : Snd Δ (m >>= f) R := by
  intro S b S' hw he
  obtain ⟨a, S1, h1, h2⟩ := bind_eq_ok.1 he
  have p1 := hm S a S1 hw h1
  exact (p1.trans (hf a S1 b S' p1.wf h2)).mono (fun F h => h.2 h.1)

theorem Snd.mono {m : M α} {Q R : α → Asg → Prop} (hm : Snd Δ m Q) (h : ∀ a F, Q a F → R a F) :
    Snd Δ m R := fun S b S' hw he => (hm S b S' hw he).mono (h b)

/-- A solution is known to be proper. -/
theorem Snd.proper {m : M α} {Q : α → Asg → Prop} (hm : Snd Δ m Q) :
    Snd Δ m (fun a F => Q a F ∧ Proper F.V) := by
  intro S b S' hw he
  have p := hm S b S' hw he
  exact ⟨p.wf, p.grows, p.busy, fun X F hX hF =>
    ⟨(p.back X F hX hF).1, (p.back X F hX hF).2, hF.proper⟩⟩

theorem find_snd (id : Nat) : Snd Δ (find id) (fun r F => F.V r = F.V id) := by
  intro S b S' hw he
  unfold find at he
  injection he with h1 h2
  subst h1 h2
  exact ⟨hw, .refl _, rfl, fun X F _ hF => ⟨hF, (hF.eq id).symm⟩⟩

theorem getVar_eq {id : Nat} {S S' : St} {tv : TV} (h : getVar id S = .ok tv S') :
    S' = S ∧ S.get id = some tv ∧ S.res id ∉ S.busy := by
  unfold getVar at h
  split at h
  next => exact nomatch h
  next hb =>
    cases hg : S.get id with
    | none => simp [hg] at h
    | some tv' =>
      simp only [hg] at h
      injection h with h1 h2
      exact ⟨h2.symm, by rw [h1], hb⟩

theorem getVar_snd (id : Nat) : Snd Δ (getVar id) (fun tv F => tv.Holds Δ.impls F.V (F.V id)) := by
  intro S b S' hw he
  obtain ⟨rfl, hg, hb⟩ := getVar_eq he
  exact ⟨hw, .refl _, rfl, fun X F hX hF => ⟨hF, hF.root id _ (fun h => hb (hX _ h)) hg⟩⟩

theorem WF.setBusy {S : St} {l : List Nat} (h : WF S)
    (hl : ∀ x ∈ l, ∃ k ts, S.vars[x]? = some (TV.unknown k ts)) : WF { S with busy := l } :=
  ⟨h.root, h.out, h.lit, h.traits, hl⟩

theorem FinX.setBusy {X : List Nat} {F : Asg} {S : St} {l : List Nat} (h : FinX Δ X F S) :
    FinX Δ X F { S with busy := l } :=
  ⟨h.proper, h.eq, h.root, h.cons, h.reqs, h.ids, h.names, h.calls, h.lost⟩

/-- What a step achieves that is taken with more variables being worked on. -/
theorem withBusy_ok {m : M α} {Q : α → Asg → Prop} (hm : Snd Δ m Q) {vs : List Nat} {S S' : St}
    {a : α} (hw : WF S) (hv : ∀ x ∈ vs, ∃ k ts, S.vars[x]? = some (TV.unknown k ts))
    (he : withBusy vs m S = .ok a S') :
    WF S' ∧ Grows S S' ∧ S'.busy = S.busy ∧ ∀ X F, (∀ x ∈ X, x ∈ vs ++ S.busy) →
      FinX Δ X F S' → FinX Δ X F S ∧ Q a F := by
  unfold withBusy at he
  split at he
  next a' S1 h1 =>
    injection he with h2 h3
    subst h2 h3
    have p := hm _ _ _ (hw.setBusy (l := vs ++ S.busy) (fun x hx => by
      rcases List.mem_append.1 hx with h | h
      · exact hv x h
      · exact hw.busy x h)) h1
    have hg : Grows S S1 := p.grows
    refine ⟨p.wf.setBusy (fun x hx => ?_), hg, rfl, fun X F hX hF => ?_⟩
    · obtain ⟨k, ts, h⟩ := hw.busy x hx
      exact ⟨k, ts, hg.get h⟩
    · have hb : S1.busy = vs ++ S.busy := p.busy
      obtain ⟨h4, h5⟩ := p.back X F hX (hF.setBusy (l := S1.busy))
      exact ⟨h4.setBusy (l := S.busy), h5⟩
  next => exact nomatch he
  next => exact nomatch he

theorem addVar_eq {tv : TV} {S S' : St} {v : Nat} (h : addVar tv S = .ok v S') :
    tv.fits S.vars.length = true ∧ v = S.vars.length ∧ S' = { S with vars := S.vars ++ [tv] } := by
  unfold addVar at h
  split at h
  next hf =>
    injection h with h1 h2
    exact ⟨hf, h1.symm, h2.symm⟩
  next => exact nomatch h

theorem addVar_wf {tv : TV} {S : St} (hw : WF S) (hf : tv.fits S.vars.length = true) :
    WF { S with vars := S.vars ++ [tv] } where
  root := hw.root
  out id h := hw.out id (by simp at h; omega)
  lit id b ps h hv := by
    simp only at h
    rw [List.getElem?_append] at h
    split at h
    · exact hw.lit id b ps h hv
    next hlt =>
      cases hi : id - S.vars.length with
      | succ n => rw [hi] at h; simp at h
      | zero =>
        rw [hi] at h
        simp only [List.getElem?_cons_zero, Option.some.injEq] at h
        subst h
        simp only [TV.fits, Bool.and_eq_true, Bool.or_eq_true, List.isEmpty_iff] at hf
        rcases hf.2 with h | h
        · exact h
        · cases b <;> simp_all [isValue]
  traits id k ts h hv := by
    simp only at h
    rw [List.getElem?_append] at h
    split at h
    · exact hw.traits id k ts h hv
    next hlt =>
      cases hi : id - S.vars.length with
      | succ n => rw [hi] at h; simp at h
      | zero =>
        rw [hi] at h
        simp only [List.getElem?_cons_zero, Option.some.injEq] at h
        subst h
        simp only [TV.fits, Bool.and_eq_true, Bool.or_eq_true, List.isEmpty_iff, beq_iff_eq] at hf
        rcases hf.2 with h | h
        · exact absurd h hv
        · exact h
  busy x hx := by
    obtain ⟨k, ts, h⟩ := hw.busy x hx
    exact ⟨k, ts, Grows.get (S := S) ⟨[tv], rfl⟩ h⟩

theorem addVar_snd (tv : TV) : Snd Δ (addVar tv) (fun v F => tv.Holds Δ.impls F.V (F.V v)) := by
  intro S v S' hw he
  obtain ⟨hf, rfl, rfl⟩ := addVar_eq he
  refine ⟨addVar_wf hw hf, ⟨[tv], rfl⟩, rfl, fun X F hX hF => ⟨?_, ?_⟩⟩
  · refine ⟨hF.proper, hF.eq, ?_, hF.cons, hF.reqs, hF.ids, hF.names, hF.calls, hF.lost⟩
    intro id tv' hn hg
    refine hF.root id tv' hn ?_
    unfold St.get at hg ⊢
    simp only
    rw [List.getElem?_append_left (List.getElem?_eq_some_iff.1 hg).1]
    exact hg
  · have hr := hw.out S.vars.length (Nat.le_refl _)
    refine hF.root S.vars.length tv ?_ ?_
    · intro h
      simp only [hr] at h
      obtain ⟨k, ts, h'⟩ := hw.busy _ (hX _ h)
      simp at h'
    · unfold St.get
      simp only
      rw [hr]
      simp

/-! ## Replacing a variable -/

theorem replaceVar_eq {v new : Nat} {S S' : St} {x : PUnit} (h : replaceVar v new S = .ok x S') :
    S.res v ≠ S.res new ∧ S.res v < S.vars.length ∧ S' = S.bind (S.res v) new := by
  unfold replaceVar at h
  split at h
  next hc =>
    simp only at h
    split at h
    · exact nomatch h
    · exact nomatch h
    · injection h with _ h2; exact ⟨hc.1, hc.2, h2.symm⟩
  next => exact nomatch h

theorem isRoot_eq {v : Nat} {S S' : St} {x : PUnit} (h : isRoot v S = .ok x S') :
    S.res v = v ∧ S' = S := by
  unfold isRoot at h
  split at h
  next hc => injection h with _ h2; exact ⟨hc, h2.symm⟩
  next => exact nomatch h

theorem bind_wf {S : St} {src new : Nat} (hw : WF S) (hl : src < S.vars.length) :
    WF (S.bind src new) where
  root id := by
    simp only [St.bind]
    by_cases h1 : S.res id = src
    · rw [if_pos h1]
      by_cases h2 : S.res (S.res new) = src
      · rw [if_pos h2]
      · rw [if_neg h2]; exact hw.root new
    · rw [if_neg h1, hw.root id, if_neg h1]
  out id hid := by
    simp only [St.bind] at hid ⊢
    rw [hw.out id hid, if_neg (by omega)]
  lit := hw.lit
  traits := hw.traits
  busy := hw.busy

theorem bind_grows {S : St} {src new : Nat} : Grows S (S.bind src new) := ⟨[], by simp [St.bind]⟩

theorem bind_fin {S : St} {src new : Nat} {X : List Nat} {F : Asg}
    (hr : S.res src = src) (hF : FinX Δ X F (S.bind src new)) :
    FinX Δ (src :: X) F S ∧ F.V src = F.V new := by
  have e1 : F.V src = F.V (S.res new) := by
    have := hF.eq src
    simp only [St.bind, if_pos hr] at this
    exact this
  have e2 : F.V new = F.V (S.res new) := by
    have := hF.eq new
    simp only [St.bind] at this
    split at this
    · exact this
    · exact this
  refine ⟨⟨hF.proper, ?_, ?_, hF.cons, hF.reqs, hF.ids, hF.names, hF.calls, hF.lost⟩, e1.trans e2.symm⟩
  · intro id
    by_cases h1 : S.res id = src
    · have := hF.eq id
      simp only [St.bind, if_pos h1] at this
      rw [h1, e1]; exact this
    · have := hF.eq id
      simp only [St.bind, if_neg h1] at this
      exact this
  · intro id tv hn hg
    have h1 : S.res id ≠ src := fun h => hn (h ▸ List.mem_cons_self ..)
    refine hF.root id tv ?_ ?_
    · simp only [St.bind, if_neg h1]
      exact fun h => hn (List.mem_cons_of_mem _ h)
    · unfold St.get at hg ⊢
      simp only [St.bind, if_neg h1]
      exact hg

/-- A variable that is as described need not be left out. -/
theorem FinX.drop {S : St} {x : Nat} {X : List Nat} {F : Asg} (h : FinX Δ (x :: X) F S)
    (hx : ∀ tv, S.vars[x]? = some tv → tv.Holds Δ.impls F.V (F.V x)) : FinX Δ X F S := by
  refine ⟨h.proper, h.eq, ?_, h.cons, h.reqs, h.ids, h.names, h.calls, h.lost⟩
  intro id tv hn hg
  by_cases h1 : S.res id = x
  · rw [h.eq id, h1]
    refine hx tv ?_
    unfold St.get at hg
    rwa [h1] at hg
  · refine h.root id tv ?_ hg
    intro hm
    rcases List.mem_cons.1 hm with h2 | h2
    · exact h1 h2
    · exact hn h2

theorem replaceBoth_ok {a b new : Nat} {S S' : St} {x : PUnit} (hw : WF S)
    (h : replaceBoth a b new S = .ok x S') :
    WF S' ∧ Grows S S' ∧ S'.busy = S.busy ∧ ∀ X F, FinX Δ X F S' →
      (a = b ∧ FinX Δ X F S) ∨
      (FinX Δ (a :: b :: X) F S ∧ F.V a = F.V new ∧ F.V b = F.V new) := by
  unfold replaceBoth at h
  split at h
  next hne =>
    obtain ⟨_, S0, h0, k0⟩ := bind_eq_ok.1 h
    obtain ⟨r1, rfl⟩ := isRoot_eq h0
    obtain ⟨_, S1, h1, k1⟩ := bind_eq_ok.1 k0
    obtain ⟨n1, l1, rfl⟩ := replaceVar_eq h1
    obtain ⟨_, S2, h2, k2⟩ := bind_eq_ok.1 k1
    obtain ⟨r2, rfl⟩ := isRoot_eq h2
    obtain ⟨n2, l2, rfl⟩ := replaceVar_eq k2
    have w1 := bind_wf (new := new) hw l1
    refine ⟨bind_wf w1 l2, bind_grows.trans bind_grows, rfl, fun X F hF => Or.inr ?_⟩
    obtain ⟨f2, e2⟩ := bind_fin (w1.root b) hF
    obtain ⟨f1, e1⟩ := bind_fin (hw.root a) f2
    rw [r1] at f1 e1
    rw [r1] at r2
    rw [r2] at f1
    rw [r1, r2] at e2
    exact ⟨f1, e1, e2⟩
  next he =>
    obtain ⟨_, rfl⟩ := pure_eq_ok.1 h
    exact ⟨hw, .refl _, rfl, fun X F hF => Or.inl ⟨Decidable.not_not.1 he, hF⟩⟩

theorem allSame_map {f : Nat → Nat → Bool} {V : Nat → GT} (h : ∀ p q, f p q = true → V p = V q) :
    ∀ {ps qs : List Nat}, allSame f ps qs = true → ps.map V = qs.map V
  | [], [], _ => rfl
  | p :: ps, q :: qs, hs => by
    simp only [allSame, Bool.and_eq_true] at hs
    simp only [List.map_cons, h p q hs.1, allSame_map h hs.2]
  | [], _ :: _, hs => by simp [allSame] at hs
  | _ :: _, [], hs => by simp [allSame] at hs

theorem sameVar_eq {S : St} {X Y : List Nat} {F : Asg} (hF : FinX Δ X F S) (hX : ∀ x ∈ X, x ∈ Y) :
    ∀ (n p q : Nat), sameVar S Y n p q = true → F.V p = F.V q
  | 0, p, q, h => by simp [sameVar] at h
  | n + 1, p, q, h => by
    simp only [sameVar, Bool.or_eq_true, Bool.and_eq_true, decide_eq_true_eq] at h
    rcases h with h | ⟨⟨h1, h2⟩, h3⟩
    · rw [hF.eq p, h, ← hF.eq q]
    · split at h3
      next b ps c qs hp hq =>
        simp only [Bool.and_eq_true, decide_eq_true_eq] at h3
        have e1 := hF.root p _ (fun h => h1 (hX _ h)) hp
        have e2 := hF.root q _ (fun h => h2 (hX _ h)) hq
        simp only [TV.Holds] at e1 e2
        rw [e1, e2, h3.1, allSame_map (sameVar_eq hF hX n) h3.2]
      next => exact absurd h3 (by simp)

theorem replaceKnown_ok {a b new : Nat} {S S' : St} {x : PUnit} (hw : WF S)
    (h : replaceKnown a b new S = .ok x S') :
    WF S' ∧ Grows S S' ∧ S'.busy = S.busy ∧ ∀ X F, (∀ x ∈ X, x ∈ S.busy) → FinX Δ X F S' →
      FinX Δ (b :: X) F S ∧ F.V a = F.V new ∧ F.V b = F.V new := by
  unfold replaceKnown at h
  obtain ⟨_, S0, h0', k0⟩ := bind_eq_ok.1 h
  unfold checkSame at h0'
  injection h0' with _ h0
  obtain ⟨_, S1, h1, k1⟩ := bind_eq_ok.1 k0
  obtain ⟨n1, l1, rfl⟩ := replaceVar_eq h1
  obtain ⟨_, S2, h2, k2⟩ := bind_eq_ok.1 k1
  obtain ⟨r2, rfl⟩ := isRoot_eq h2
  obtain ⟨n2, l2, rfl⟩ := replaceVar_eq k2
  have w0 : WF S0 := by subst h0; exact ⟨hw.root, hw.out, hw.lit, hw.traits, hw.busy⟩
  have w1 := bind_wf (new := new) w0 l1
  refine ⟨bind_wf w1 l2, ?_, ?_, fun X F hX hF => ?_⟩
  · subst h0; exact (bind_grows.trans bind_grows : Grows _ _)
  · subst h0; rfl
  obtain ⟨f2, e2⟩ := bind_fin (w1.root b) hF
  obtain ⟨f1, e1⟩ := bind_fin (w0.root a) f2
  rw [r2] at f1 e2
  have ea : F.V a = F.V new := (f1.eq a).trans e1
  have hlost := f1.lost
  have hr : S0.res = S.res := by subst h0; rfl
  have hs : S.sameAs a b new = true := by
    subst h0
    simp only [Bool.or_eq_false_iff, Bool.not_eq_false'] at hlost
    exact hlost.2
  have f : FinX Δ (S.res a :: b :: X) F S := by
    have hl : S.lost = false := by
      subst h0
      simp only [Bool.or_eq_false_iff] at hlost
      exact hlost.1
    subst h0
    exact ⟨f1.proper, f1.eq, f1.root, f1.cons, f1.reqs, f1.ids, f1.names, f1.calls, hl⟩
  refine ⟨f.drop (fun tv htv => ?_), ea, e2⟩
  unfold St.sameAs at hs
  simp only [Bool.and_eq_true, decide_eq_true_eq] at hs
  obtain ⟨hs1, hs2⟩ := hs
  have hin : ∀ x ∈ S.res a :: b :: X, x ∈ S.res a :: b :: S.busy := by
    intro x hx
    rcases List.mem_cons.1 hx with rfl | hx
    · exact List.mem_cons_self ..
    · rcases List.mem_cons.1 hx with rfl | hx
      · exact List.mem_cons_of_mem _ (List.mem_cons_self ..)
      · exact List.mem_cons_of_mem _ (List.mem_cons_of_mem _ (hX x hx))
  split at hs2
  next c ps d qs hp hq =>
    simp only [Bool.and_eq_true, decide_eq_true_eq] at hs2
    have e3 := f.root new _ (fun h => hs1 (hin _ h)) hq
    have hp' : S.vars[S.res a]? = some (TV.known c ps) := hp
    rw [hp', Option.some.injEq] at htv
    subst htv
    simp only [TV.Holds] at e3 ⊢
    rw [← f.eq a, ea, e3, hs2.1, allSame_map (sameVar_eq f hin _) hs2.2]
  next => exact absurd hs2 (by simp)

/-! ## Unification as a parameter -/

/-- What is required of a unification function: solutions of the state after it solve the state
before it and give both variables the same type, and give the resulting variable that type unless
the two were already the same unknown variable. -/
def USpec (Δ : Decls) (u : Nat → Nat → M Nat) : Prop :=
  ∀ a b S r S', WF S → u a b S = .ok r S' → Post Δ S S' (fun F => F.V a = F.V b ∧
      (F.V r = F.V a ∨ (S.res a = S.res b ∧ ∃ k ts, S.get a = some (TV.unknown k ts))))

variable {u : Nat → Nat → M Nat}

theorem USpec.snd (h : USpec Δ u) (a b : Nat) : Snd Δ (u a b) (fun _ F => F.V a = F.V b) :=
  fun S r S' hw he => (h a b S r S' hw he).mono (fun _ h => h.1)

theorem FinX.setLost {X : List Nat} {F : Asg} {S : St} {b : Bool}
    (h : FinX Δ X F { S with lost := S.lost || b }) : FinX Δ X F S ∧ b = false := by
  have hl := h.lost
  simp only [Bool.or_eq_false_iff] at hl
  exact ⟨⟨h.proper, h.eq, h.root, h.cons, h.reqs, h.ids, h.names, h.calls, hl.1⟩, hl.2⟩

theorem WF.setLost {S : St} {b : Bool} (h : WF S) : WF { S with lost := b } :=
  ⟨h.root, h.out, h.lit, h.traits, h.busy⟩

theorem useUnify_snd (h : USpec Δ u) (a b : Nat) :
    Snd Δ (useUnify u a b) (fun r F => F.V a = F.V b ∧ F.V r = F.V a) := by
  intro S r S' hw he
  unfold useUnify at he
  simp only at he
  have p := h a b _ r S' hw.setLost he
  refine ⟨p.wf, p.grows, p.busy, fun X F hX hF => ?_⟩
  obtain ⟨f1, f2, f3⟩ := p.back X F hX hF
  obtain ⟨f4, f5⟩ := f1.setLost
  refine ⟨f4, f2, ?_⟩
  rcases f3 with f3 | ⟨f3, k, ts, f6⟩
  · exact f3
  · exfalso
    have f6' : S.get a = some (TV.unknown k ts) := f6
    simp only at f3
    simp [f3, f6'] at f5

theorem unifyAll_snd (h : USpec Δ u) : ∀ as bs : List Nat,
    Snd Δ (unifyAll u as bs) (fun _ F => as.map F.V = bs.map F.V)
  | [], [] => Snd.pure (fun _ => rfl)
  | a :: as, b :: bs => by
    refine (h.snd a b).bind (fun _ => (unifyAll_snd h as bs).mono (fun _ F h1 h2 => ?_))
    simp only [List.map_cons, h1, h2]
  | [], _ :: _ => Snd.err
  | _ :: _, [] => Snd.err

/-- What is required of unification when its result is used. -/
def WSpec (Δ : Decls) (w : Nat → Nat → M Nat) : Prop :=
  ∀ a b, Snd Δ (w a b) (fun r F => F.V a = F.V b ∧ F.V r = F.V a)

variable {w : Nat → Nat → M Nat}

theorem useAll_snd (h : WSpec Δ w) : ∀ as bs : List Nat,
    Snd Δ (useAll w as bs) (fun rs F => as.map F.V = bs.map F.V ∧ rs.map F.V = as.map F.V)
  | [], [] => Snd.pure (fun _ => ⟨rfl, rfl⟩)
  | a :: as, b :: bs => by
    refine (h a b).bind (fun r => (useAll_snd h as bs).bind
      (fun rs => Snd.pure (fun F h1 h2 => ?_)))
    simp only [List.map_cons, h1.1, h1.2, h2.1, h2.2, and_self]
  | [], _ :: _ => Snd.stuck
  | _ :: _, [] => Snd.stuck

/-! ## Merging bounds -/

theorem mergeOne_snd (h : WSpec Δ w) (t1 t2 : Traits) (n : Nat) :
    Snd Δ (mergeOne w t1 t2 n) (fun ps F =>
      (∀ p, t1.lookup n = some p → ps.map F.V = p.map F.V) ∧
      (∀ p, t2.lookup n = some p → ps.map F.V = p.map F.V)) := by
  unfold mergeOne
  cases h1 : t1.lookup n with
  | none =>
    cases h2 : t2.lookup n with
    | none => exact Snd.stuck
    | some q => exact Snd.pure (fun F => ⟨fun _ h => (nomatch h), fun p h => by cases h; rfl⟩)
  | some p =>
    cases h2 : t2.lookup n with
    | none => exact Snd.pure (fun F => ⟨fun p h => by cases h; rfl, fun _ h => (nomatch h)⟩)
    | some q =>
      refine (useAll_snd h p q).mono (fun rs F hq => ⟨fun p' h => ?_, fun p' h => ?_⟩)
      · cases h; exact hq.2
      · cases h; exact hq.2.trans hq.1

theorem mergeNames_snd (h : WSpec Δ w) (t1 t2 : Traits) : ∀ ns : List Nat,
    Snd Δ (mergeNames w t1 t2 ns) (fun ts F => ∀ n ∈ ns, ∃ ps, (n, ps) ∈ ts ∧
      (∀ p, t1.lookup n = some p → ps.map F.V = p.map F.V) ∧
      (∀ p, t2.lookup n = some p → ps.map F.V = p.map F.V))
  | [] => Snd.pure (fun _ n hn => (nomatch hn))
  | n :: ns => by
    refine (mergeOne_snd h t1 t2 n).bind (fun ps => (mergeNames_snd h t1 t2 ns).bind
      (fun rest => Snd.pure (fun F h1 h2 m hm => ?_)))
    rcases List.mem_cons.1 hm with rfl | hm
    · exact ⟨ps, List.mem_cons_self .., h2⟩
    · obtain ⟨q, hq1, hq2⟩ := h1 m hm
      exact ⟨q, List.mem_cons_of_mem _ hq1, hq2⟩

theorem setLost_snd (b : Bool) : Snd Δ (setLost b) (fun _ _ => b = false) := by
  intro S x S' hw he
  unfold setLost at he
  injection he with _ h2
  subst h2
  exact ⟨hw.setLost, ⟨[], by simp⟩, rfl, fun X F _ hF => hF.setLost⟩

theorem mem_dedup {n : Nat} : ∀ {l : List Nat}, n ∈ l → n ∈ dedup l
  | m :: l, h => by
    unfold dedup
    rcases List.mem_cons.1 h with rfl | h
    · split
      next hm => exact mem_dedup hm
      next => exact List.mem_cons_self ..
    · split
      next => exact mem_dedup h
      next => exact List.mem_cons_of_mem _ (mem_dedup h)

theorem lookup_of_mem {ts : Traits} (hr : repeats (ts.map (·.1)) = false) {n : Nat} {ps : List Nat}
    (h : (n, ps) ∈ ts) : ts.lookup n = some ps := by
  induction ts with
  | nil => exact nomatch h
  | cons t ts ih =>
    obtain ⟨m, qs⟩ := t
    simp only [List.map_cons, repeats, Bool.or_eq_false_iff, decide_eq_false_iff_not] at hr
    rcases List.mem_cons.1 h with he | h'
    · cases he; simp
    · have hne : n ≠ m := by
        rintro rfl
        exact hr.1 (List.mem_map.2 ⟨(n, ps), h', rfl⟩)
      simp only [List.lookup_cons, beq_eq_false_iff_ne.2 hne]
      exact ih hr.2 h'

theorem mergeTraits_snd (h : WSpec Δ w) (t1 t2 : Traits) :
    Snd Δ (mergeTraits w t1 t2) (fun ts F =>
      (∀ t ∈ t1, ∃ ps, (t.1, ps) ∈ ts ∧ ps.map F.V = t.2.map F.V) ∧
      (∀ t ∈ t2, ∃ ps, (t.1, ps) ∈ ts ∧ ps.map F.V = t.2.map F.V)) := by
  refine (setLost_snd _).bind (fun _ => (mergeNames_snd h t1 t2 _).mono (fun ts F hq hl => ?_))
  simp only [Bool.or_eq_false_iff] at hl
  constructor
  · rintro ⟨n, p⟩ hm
    obtain ⟨ps, h1, h2, _⟩ := hq n (mem_dedup (List.mem_map.2 ⟨((n, p) : Nat × List Nat),
      List.mem_append_left _ hm, rfl⟩))
    exact ⟨ps, h1, h2 p (lookup_of_mem hl.1 hm)⟩
  · rintro ⟨n, p⟩ hm
    obtain ⟨ps, h1, _, h2⟩ := hq n (mem_dedup (List.mem_map.2 ⟨((n, p) : Nat × List Nat),
      List.mem_append_right _ hm, rfl⟩))
    exact ⟨ps, h1, h2 p (lookup_of_mem hl.2 hm)⟩

/-! ## Implementations -/

/-- The generic arguments given by copies of generic parameters. -/
def sub (m : List Nat) (V : Nat → GT) (i : Nat) : GT :=
  match m[i]? with
  | some v => V v
  | none => .node .tuple []

mutual
theorem copyTy_snd (m : List Nat) : ∀ t : ITy,
    Snd Δ (copyTy m t) (fun v F => ∀ l, F.V v = t.inst (sub (m ++ l) F.V))
  | .gen i => by
    unfold copyTy
    cases h : m[i]? with
    | none => exact Snd.stuck
    | some v =>
      refine Snd.pure (fun F l => ?_)
      have : (m ++ l)[i]? = some v := by
        rw [List.getElem?_append_left (List.getElem?_eq_some_iff.1 h).1]; exact h
      simp only [ITy.inst, sub, this]
  | .app b ps => by
    unfold copyTy
    refine (copyTys_snd m ps).bind (fun vs => (addVar_snd _).mono (fun v F h1 h2 l => ?_))
    simp only [TV.Holds] at h1
    rw [h1, h2 l, ITy.inst]
theorem copyTys_snd (m : List Nat) : ∀ ts : List ITy,
    Snd Δ (copyTys m ts) (fun vs F => ∀ l, vs.map F.V = ITy.insts (sub (m ++ l) F.V) ts)
  | [] => by unfold copyTys; exact Snd.pure (fun _ _ => rfl)
  | t :: ts => by
    unfold copyTys
    refine (copyTy_snd m t).bind (fun v => (copyTys_snd m ts).bind
      (fun vs => Snd.pure (fun F h1 h2 l => ?_)))
    simp only [List.map_cons, ITy.insts, h1 l, h2 l]
end

theorem copyBounds_snd (m : List Nat) : ∀ bs : List (Nat × List ITy),
    Snd Δ (copyBounds m bs) (fun ts F => ∀ b ∈ bs, ∃ ps, (b.1, ps) ∈ ts ∧
      ∀ l, ps.map F.V = ITy.insts (sub (m ++ l) F.V) b.2)
  | [] => Snd.pure (fun _ _ h => (nomatch h))
  | (t, ps) :: bs => by
    refine (copyTys_snd m ps).bind (fun vs => (copyBounds_snd m bs).bind
      (fun rest => Snd.pure (fun F h1 h2 b hb => ?_)))
    rcases List.mem_cons.1 hb with rfl | hb
    · exact ⟨vs, List.mem_cons_self .., h2⟩
    · obtain ⟨q, h3, h4⟩ := h1 b hb
      exact ⟨q, List.mem_cons_of_mem _ h3, h4⟩

/-- The arguments satisfy what the generic parameters demand. -/
def GensOk (Δ : Decls) (σ : Nat → GT) (k : Nat) (gs : List IGen) : Prop :=
  ∀ (g : Nat) (p : IGen), gs[g]? = some p → p.kind.Holds (σ (k + g)).head.val ∧
    ∀ b ∈ p.bounds, Implements Δ.impls (σ (k + g)) b.1 (ITy.insts σ b.2)

theorem copyGens_snd : ∀ (gs : List IGen) (m : List Nat),
    Snd Δ (copyGens m gs) (fun m' F => (∃ l, m' = m ++ l) ∧ GensOk Δ (sub m' F.V) m.length gs)
  | [], m => Snd.pure (fun F => ⟨⟨[], by simp⟩, fun g p h => by simp at h⟩)
  | g :: gs, m => by
    refine (copyBounds_snd m g.bounds).bind (fun ts => (addVar_snd _).bind (fun v =>
      (copyGens_snd gs (m ++ [v])).mono (fun m' F h1 h2 h3 => ?_)))
    obtain ⟨⟨l, rfl⟩, hok⟩ := h1
    refine ⟨⟨v :: l, by simp⟩, fun i p hi => ?_⟩
    cases i with
    | zero =>
      simp only [List.getElem?_cons_zero, Option.some.injEq] at hi
      subst hi
      have hs : sub (m ++ [v] ++ l) F.V (m.length + 0) = F.V v := by
        unfold sub
        simp
      rw [hs]
      refine ⟨h2.1, fun b hb => ?_⟩
      obtain ⟨ps, h4, h5⟩ := h3 b hb
      have := h2.2 _ h4
      simp only at this
      rw [h5 ([v] ++ l)] at this
      simpa using this
    | succ i =>
      simp only [List.getElem?_cons_succ] at hi
      have := hok i p hi
      simp only [List.length_append, List.length_cons, List.length_nil] at this
      rw [show m.length + (i + 1) = m.length + (0 + 1) + i by omega]
      exact this

theorem tryM_snd (m : M PUnit) : Snd Δ (tryM m) (fun _ _ => True) := by
  intro S a S' hw he
  unfold tryM at he
  split at he
  · injection he with _ h2; subst h2; exact .refl hw (fun _ => trivial)
  · injection he with _ h2; subst h2; exact .refl hw (fun _ => trivial)
  · exact nomatch he

theorem findImpls_snd (b : Base) (params : List Nat) (t : Nat) (targs : List Nat) :
    ∀ is : List Impl, Snd Δ (findImpls u b params t targs is) (fun found _ =>
      ∀ i ∈ found, i ∈ is ∧ i.base = b ∧ i.trait = t)
  | [] => Snd.pure (fun _ _ h => (nomatch h))
  | i :: is => by
    have h1 : Snd Δ (if i.base = b ∧ i.trait = t ∧ i.traitArgs.length = targs.length ∧
        i.args.length = params.length then
      tryM (do
        trialAll u i.gens i.traitArgs targs
        trialAll u i.gens i.args params)
      else pure false) (fun ok _ => ok = true → i.base = b ∧ i.trait = t) := by
      split
      next hc => exact (tryM_snd _).mono (fun _ _ _ _ => ⟨hc.1, hc.2.1⟩)
      next => exact Snd.pure (fun _ h => (nomatch h))
    refine h1.bind (fun ok => (findImpls_snd b params t targs is).bind
      (fun rest => Snd.pure (fun F h2 h3 j hj => ?_)))
    split at hj
    next hok =>
      rcases List.mem_cons.1 hj with rfl | hj
      · exact ⟨List.mem_cons_self .., h3 hok⟩
      · exact ⟨List.mem_cons_of_mem _ (h2 j hj).1, (h2 j hj).2⟩
    next => exact ⟨List.mem_cons_of_mem _ (h2 j hj).1, (h2 j hj).2⟩

theorem ensureImpls_snd (b : Base) (params : List Nat) : ∀ ts : Traits,
    Snd Δ (ensureImpls Δ.impls u b params ts) (fun found _ =>
      Each (fun (t : Nat × List Nat) (f : Impl × List Nat) =>
        f.2 = t.2 ∧ f.1 ∈ Δ.impls ∧ f.1.base = b ∧ f.1.trait = t.1) ts found)
  | [] => Snd.pure (fun _ => .nil)
  | (t, targs) :: ts => by
    refine (findImpls_snd b params t targs Δ.impls).bind (fun found => ?_)
    split
    next i =>
      refine (ensureImpls_snd b params ts).bind (fun rest => Snd.pure (fun F h1 h2 => ?_))
      exact .cons ⟨rfl, h2 i (List.mem_cons_self ..)⟩ h1
    next => exact Snd.err

theorem applyImpls_snd (h : USpec Δ u) : ∀ (is : List (Impl × List Nat)) (params : List Nat),
    Snd Δ (applyImpls u params is) (fun params' F => params'.map F.V = params.map F.V ∧
      ∀ i ∈ is, ∃ σ, GensOk Δ σ 0 i.1.gens ∧ i.2.map F.V = ITy.insts σ i.1.traitArgs ∧
        params.map F.V = ITy.insts σ i.1.args)
  | [], params => Snd.pure (fun _ => ⟨rfl, fun _ h => (nomatch h)⟩)
  | (i, targs) :: is, params => by
    unfold applyImpls
    refine (copyGens_snd i.gens []).bind (fun m => (copyTys_snd m i.traitArgs).bind (fun cs =>
      (unifyAll_snd h targs cs).bind (fun _ => (copyTys_snd m i.args).bind (fun ds =>
      (useAll_snd (useUnify_snd h) ds params).bind (fun params' => (applyImpls_snd h is params').mono
      (fun ps F h1 h2 h3 h4 h5 h6 => ?_))))))
    have e : params'.map F.V = params.map F.V := h2.2.trans h2.1
    refine ⟨h1.1.trans e, fun j hj => ?_⟩
    rcases List.mem_cons.1 hj with rfl | hj
    · refine ⟨sub m F.V, h6.2, ?_, ?_⟩
      · have := h5 []
        rw [List.append_nil] at this
        exact h4.trans this
      · have := h3 []
        rw [List.append_nil] at this
        exact h2.1.symm.trans this
    · obtain ⟨σ, h7, h8, h9⟩ := h1.2 j hj
      exact ⟨σ, h7, h8, e ▸ h9⟩

theorem implements_of {i : Impl} {σ : Nat → GT} {t : GT} {tr : Nat} {as : List GT}
    (hi : i ∈ Δ.impls) (hg : GensOk Δ σ 0 i.gens) (h1 : tr = i.trait)
    (h2 : as = ITy.insts σ i.traitArgs) (h3 : t = .node i.base (ITy.insts σ i.args)) :
    Implements Δ.impls t tr as :=
  .mk hi (fun g p hp => by simpa using (hg g p hp).1)
    (fun g p hp b hb => by simpa using (hg g p hp).2 b hb) h1 h2 h3

theorem _root_.Spade.Each.right_of_mem {γ δ : Type} {R : γ → δ → Prop} {as : List γ} {bs : List δ}
    (h : Each R as bs) {a : γ} (ha : a ∈ as) : ∃ b ∈ bs, R a b := by
  induction h with
  | nil => exact nomatch ha
  | cons hr _ ih =>
    rcases List.mem_cons.1 ha with rfl | ha
    · exact ⟨_, List.mem_cons_self .., hr⟩
    · obtain ⟨b, hb, hr'⟩ := ih ha
      exact ⟨b, List.mem_cons_of_mem _ hb, hr'⟩

theorem fillUnknown_snd (h : USpec Δ u) (b : Base) (ps : List Nat) (k : Kind) (ts : Traits) :
    Snd Δ (fillUnknown Δ.impls u b ps k ts) (fun v F =>
      (TV.known b ps).Holds Δ.impls F.V (F.V v) ∧ (TV.unknown k ts).Holds Δ.impls F.V (F.V v)) := by
  unfold fillUnknown
  refine (ensureImpls_snd b ps ts).bind (fun is => (applyImpls_snd h is ps).bind (fun ps' => ?_))
  split
  next hk =>
    refine (addVar_snd _).mono (fun v F h1 h2 h3 => ?_)
    simp only [TV.Holds] at h1 ⊢
    rw [h2.1] at h1
    refine ⟨h1, ?_, fun tr htr => ?_⟩
    · rw [h1]; exact (Infer.C18_kind_accepts k b.val).1 hk
    · obtain ⟨f, hf, e1, e2, e3, e4⟩ := h3.right_of_mem htr
      obtain ⟨σ, h4, h5, h6⟩ := h2.2 f hf
      exact implements_of e2 h4 e4.symm (by rw [← e1]; exact h5) (by rw [h1, e3, h6])
  next => exact Snd.err

/-! ## Unification -/

theorem proper_value {V : Nat → GT} (hp : Proper V) {id : Nat} {b : Base} {args : List GT}
    (h : V id = .node b args) (hv : isValue b = true) : args = [] := by
  refine hp id b args h ?_
  intro l
  cases b <;> simp_all [isValue, Base.val]

theorem unifyKnown_snd (h : USpec Δ u) (v1 v2 : Nat) (b1 : Base) (p1 : List Nat) (b2 : Base)
    (p2 : List Nat) : Snd Δ (unifyKnown u v1 b1 p1 b2 p2) (fun r F => r = v1 ∧
      ((TV.known b1 p1).Holds Δ.impls F.V (F.V v1) → (TV.known b2 p2).Holds Δ.impls F.V (F.V v2) →
        F.V v1 = F.V v2)) := by
  unfold unifyKnown
  split
  next hb =>
    subst hb
    split
    next hv =>
      refine (Snd.pure (Q := fun r _ => r = v1) (fun _ => rfl)).proper.mono (fun r F hq =>
        ⟨hq.1, fun h1 h2 => ?_⟩)
      simp only [TV.Holds] at h1 h2
      rw [h1, h2, proper_value hq.2 h1 hv, proper_value hq.2 h2 hv]
    next =>
      split
      · exact Snd.err
      · refine (unifyAll_snd h p1 p2).bind (fun _ => Snd.pure (fun F h1 => ⟨rfl, fun h2 h3 => ?_⟩))
        simp only [TV.Holds] at h2 h3
        rw [h2, h3, h1]
  next => exact Snd.err

theorem mergeUnknown_ok (h : WSpec Δ w) (k1 k2 : Kind) (t1 t2 : Traits)
    (hk1 : t1 ≠ [] → k1 = .type) (hk2 : t2 ≠ [] → k2 = .type) :
    Snd Δ (mergeUnknown w k1 k2 t1 t2) (fun v F =>
      (TV.unknown k1 t1).Holds Δ.impls F.V (F.V v) ∧ (TV.unknown k2 t2).Holds Δ.impls F.V (F.V v)) := by
  unfold mergeUnknown
  have hm := Infer.C18_merge_is_intersection_partial k1 k2
  split
  next => exact Snd.err
  next k hk =>
    rw [hk] at hm
    simp only at hm
    split
    next hkt =>
      refine (mergeTraits_snd h t1 t2).bind (fun ts => (addVar_snd _).mono (fun v F h1 h2 => ?_))
      obtain ⟨ha, hb⟩ := (hm _).1 h1.1
      refine ⟨⟨ha, fun tr htr => ?_⟩, ⟨hb, fun tr htr => ?_⟩⟩
      · obtain ⟨ps, hp1, hp2⟩ := h2.1 tr htr
        have := h1.2 _ hp1
        simp only at this
        rwa [hp2] at this
      · obtain ⟨ps, hp1, hp2⟩ := h2.2 tr htr
        have := h1.2 _ hp1
        simp only at this
        rwa [hp2] at this
    next hkt =>
      have hn1 : t1 = [] := by
        by_cases hn : t1 = []
        · exact hn
        · have := hk1 hn
          subst this
          cases k2 <;> simp [Infer.unifyMeta] at hk <;> exact absurd hk.symm hkt
      have hn2 : t2 = [] := by
        by_cases hn : t2 = []
        · exact hn
        · have := hk2 hn
          subst this
          cases k1 <;> simp [Infer.unifyMeta] at hk <;> exact absurd hk.symm hkt
      subst hn1 hn2
      refine (addVar_snd _).mono (fun v F h1 => ?_)
      obtain ⟨ha, hb⟩ := (hm _).1 h1.1
      exact ⟨⟨ha, fun _ h => (nomatch h)⟩, ⟨hb, fun _ h => (nomatch h)⟩⟩

/-- When a variable is unified with itself. -/
def ASpec (Δ : Decls) (w : Nat → Nat → M Nat) : Prop := ∀ a b, Snd Δ (w a b) (fun _ _ => True)

theorem useAll_any (h : ASpec Δ w) : ∀ as bs : List Nat, Snd Δ (useAll w as bs) (fun _ _ => True)
  | [], [] => Snd.pure (fun _ => trivial)
  | a :: as, b :: bs =>
    (h a b).bind (fun _ => (useAll_any h as bs).bind (fun _ => Snd.pure (fun _ _ _ => trivial)))
  | [], _ :: _ => Snd.stuck
  | _ :: _, [] => Snd.stuck

theorem mergeOne_any (h : ASpec Δ w) (t1 t2 : Traits) (n : Nat) :
    Snd Δ (mergeOne w t1 t2 n) (fun _ _ => True) := by
  unfold mergeOne
  split
  · exact useAll_any h _ _
  · exact Snd.pure (fun _ => trivial)
  · exact Snd.pure (fun _ => trivial)
  · exact Snd.stuck

theorem mergeNames_any (h : ASpec Δ w) (t1 t2 : Traits) : ∀ ns : List Nat,
    Snd Δ (mergeNames w t1 t2 ns) (fun _ _ => True)
  | [] => Snd.pure (fun _ => trivial)
  | n :: ns => (mergeOne_any h t1 t2 n).bind (fun _ => (mergeNames_any h t1 t2 ns).bind
      (fun _ => Snd.pure (fun _ _ _ => trivial)))

theorem mergeUnknown_any (h : ASpec Δ w) (k1 k2 : Kind) (t1 t2 : Traits) :
    Snd Δ (mergeUnknown w k1 k2 t1 t2) (fun _ _ => True) := by
  unfold mergeUnknown
  split
  next => exact Snd.err
  next k hk =>
    split
    next =>
      have hm : Snd Δ (mergeTraits w t1 t2) (fun _ _ => True) :=
        (setLost_snd _).bind (fun _ => (mergeNames_any h t1 t2 _).mono (fun _ _ _ _ => trivial))
      exact hm.bind (fun ts => (addVar_snd _).mono (fun _ _ _ _ => trivial))
    next => exact (addVar_snd _).mono (fun _ _ _ => trivial)

theorem learnAll_snd (h : USpec Δ u) : ∀ new : List (Nat × Val),
    Snd Δ (learnAll u new) (fun _ F => ∀ vw ∈ new, F.V vw.1 = .node (Infer.baseOf vw.2) [])
  | [] => Snd.pure (fun _ _ h => (nomatch h))
  | (v, w) :: rest => by
    refine (addVar_snd _).bind (fun n => (h.snd n v).bind (fun _ => (learnAll_snd h rest).mono
      (fun _ F h1 h2 h3 vw hm => ?_)))
    simp only [TV.Holds, List.map_nil] at h3
    rcases List.mem_cons.1 hm with rfl | hm
    · exact h2.symm.trans h3
    · exact h1 vw hm

theorem moreKnown_of_fin {X : List Nat} {F : Asg} {S : St} (hw : WF S)
    (hX : ∀ x ∈ X, x ∈ S.busy) (hF : FinX Δ X F S) :
    Infer.MoreKnown S.seen (groundSeen F.V) := by
  intro v
  unfold St.seen
  cases hg : S.get v with
  | none => exact Or.inl rfl
  | some tv =>
    cases tv with
    | unknown k ts => exact Or.inl rfl
    | known b ps =>
      right
      have hn : S.res v ∉ X := by
        intro h
        obtain ⟨k, ts, h'⟩ := hw.busy _ (hX _ h)
        unfold St.get at hg
        rw [h'] at hg
        exact nomatch hg
      have := hF.root v _ hn hg
      simp only [TV.Holds] at this
      unfold groundSeen
      rw [this]
      rfl

theorem update_vals {K : Nat → VState} : ∀ {cs rest : List (Nat × CE)}
    {known : List (Nat × Val)}, Infer.updateConstraints K cs = some (rest, known) →
      ∀ vw ∈ known, ∀ l, vw.2 ≠ .type l
  | [], rest, known, hu => by
    simp only [Infer.updateConstraints, Option.some.injEq, Prod.mk.injEq] at hu
    obtain ⟨rfl, rfl⟩ := hu
    exact fun _ h => (nomatch h)
  | (v, c) :: cs, rest, known, hu => by
    simp only [Infer.updateConstraints] at hu
    cases he : Infer.evaluate K c with
    | none => simp [he] at hu
    | some c' =>
      cases hr : Infer.updateConstraints K cs with
      | none => simp [he, hr] at hu
      | some rk =>
        obtain ⟨rest', known'⟩ := rk
        simp only [he, hr] at hu
        have ih := update_vals hr
        cases hs : Infer.solved c' with
        | some w =>
          simp only [hs, Option.some.injEq, Prod.mk.injEq] at hu
          obtain ⟨rfl, rfl⟩ := hu
          intro vw hm
          rcases List.mem_cons.1 hm with rfl | hm
          · intro l hl
            simp only at hl
            subst hl
            cases c' <;> simp [Infer.solved] at hs
          · exact ih vw hm
        | none =>
          simp only [hs, Option.some.injEq, Prod.mk.injEq] at hu
          obtain ⟨rfl, rfl⟩ := hu
          exact ih

theorem fin_of_update {X : List Nat} {F : Asg} {S : St} {rest : List (Nat × CE)}
    {new : List (Nat × Val)} (hw : WF S) (hX : ∀ x ∈ X, x ∈ S.busy)
    (hu : Infer.updateConstraints S.seen S.cons = some (rest, new))
    (hF : FinX Δ X F { S with cons := rest })
    (hn : ∀ vw ∈ new, F.V vw.1 = .node (Infer.baseOf vw.2) []) : FinX Δ X F S := by
  have hmk : Infer.MoreKnown S.seen (groundSeen F.V) :=
    moreKnown_of_fin (S := { S with cons := rest }) ⟨hw.root, hw.out, hw.lit, hw.traits, hw.busy⟩
      hX hF
  refine ⟨hF.proper, hF.eq, hF.root, ?_, hF.reqs, hF.ids, hF.names, hF.calls, hF.lost⟩
  refine (Infer.C20_update_preserves_solutions hmk _ _ _ hu).2 ⟨hF.cons, fun vw hm => ?_⟩
  exact (Infer.groundSeen_eq hF.proper (update_vals hu vw hm)).2 (hn vw hm)

theorem WF.setCons {S : St} {cs : List (Nat × CE)} (h : WF S) : WF { S with cons := cs } :=
  ⟨h.root, h.out, h.lit, h.traits, h.busy⟩

theorem solveLoop_snd (h : USpec Δ u) : ∀ n, Snd Δ (solveLoop u n) (fun _ _ => True)
  | 0 => Snd.stuck
  | n + 1 => by
    intro S x S' hw he
    unfold solveLoop at he
    split at he
    next => exact nomatch he
    next rest hu =>
      injection he with _ h2
      subst h2
      exact ⟨hw.setCons, ⟨[], by simp⟩, rfl, fun X F hX hF =>
        ⟨fin_of_update hw hX hu hF (fun _ h => (nomatch h)), trivial⟩⟩
    next rest new _ hu =>
      have p := ((learnAll_snd h new).bind (R := fun _ F =>
        ∀ vw ∈ new, F.V vw.1 = .node (Infer.baseOf vw.2) []) (fun _ =>
        (solveLoop_snd h n).mono (fun _ F _ h1 => h1))) _ x S' hw.setCons he
      exact ⟨p.wf, p.grows, p.busy, fun X F hX hF =>
        ⟨fin_of_update hw hX hu (p.back X F hX hF).1 (p.back X F hX hF).2, trivial⟩⟩

theorem unifyWith_spec (h : USpec Δ u) (n : Nat) : USpec Δ (unifyWith u n) := by
  intro a b S r S' hw he
  unfold unifyWith at he
  obtain ⟨r1, S1, h1, h2⟩ := bind_eq_ok.1 he
  obtain ⟨x, S2, h3, h4⟩ := bind_eq_ok.1 h2
  obtain ⟨rfl, rfl⟩ := pure_eq_ok.1 h4
  have p1 := h a b S r1 S1 hw h1
  exact (p1.trans (solveLoop_snd h n S1 x S2 p1.wf h3)).mono (fun _ h => h.1)

/-- The known/unknown case. -/
theorem knownCase {a b : Nat} {c : Base} {ps : List Nat} {k : Kind} {ts : Traits} {S S' : St}
    {r : Nat} (h : USpec Δ u) (hw : WF S) (hgb : S.vars[b]? = some (TV.unknown k ts))
    (he : (do
      let new ← withBusy [b] (fillUnknown Δ.impls u c ps k ts)
      replaceKnown a b new
      pure new) S = .ok r S') :
    Post Δ S S' (fun F => F.V a = F.V b ∧ F.V r = F.V a) := by
  obtain ⟨new, S1, h1, h2⟩ := bind_eq_ok.1 he
  obtain ⟨x, S2, h3, h4⟩ := bind_eq_ok.1 h2
  obtain ⟨rfl, rfl⟩ := pure_eq_ok.1 h4
  obtain ⟨w1, g1, b1, f1⟩ := withBusy_ok (fillUnknown_snd h c ps k ts) hw (by
    intro x hx
    simp only [List.mem_singleton] at hx
    subst hx
    exact ⟨k, ts, hgb⟩) h1
  obtain ⟨w2, g2, b2, f2⟩ := replaceKnown_ok (Δ := Δ) w1 h3
  refine ⟨w2, g1.trans g2, b2.trans b1, fun X F hX hF => ?_⟩
  obtain ⟨f3, ea, eb⟩ := f2 X F (by rw [b1]; exact hX) hF
  obtain ⟨f4, hq⟩ := f1 (b :: X) F (by
    intro x hx
    rcases List.mem_cons.1 hx with rfl | hx
    · simp
    · simp [hX x hx]) f3
  refine ⟨f4.drop (fun tv htv => ?_), ea.trans eb.symm, ea.symm⟩
  rw [hgb, Option.some.injEq] at htv
  subst htv
  rw [eb]
  exact hq.2

/-- The unknown/unknown case. -/
theorem unknownCase {a b : Nat} {k1 k2 : Kind} {t1 t2 : Traits} {S S' : St}
    {r : Nat} (h : USpec Δ u) (hw : WF S) (hga : S.vars[a]? = some (TV.unknown k1 t1))
    (hgb : S.vars[b]? = some (TV.unknown k2 t2))
    (he : (do
      let new ← withBusy [a, b] (mergeUnknown (useIf (a = b) u) k1 k2 t1 t2)
      replaceBoth a b new
      pure new) S = .ok r S') :
    Post Δ S S' (fun F => F.V a = F.V b ∧ (F.V r = F.V a ∨ a = b)) := by
  obtain ⟨new, S1, h1, h2⟩ := bind_eq_ok.1 he
  obtain ⟨x, S2, h3, h4⟩ := bind_eq_ok.1 h2
  obtain ⟨rfl, rfl⟩ := pure_eq_ok.1 h4
  have hbusy : ∀ x ∈ [a, b], ∃ k ts, S.vars[x]? = some (TV.unknown k ts) := by
    intro x hx
    simp only [List.mem_cons, List.not_mem_nil, or_false] at hx
    rcases hx with rfl | rfl
    · exact ⟨k1, t1, hga⟩
    · exact ⟨k2, t2, hgb⟩
  by_cases hab : a = b
  · obtain ⟨w1, g1, b1, f1⟩ := withBusy_ok (mergeUnknown_any (w := useIf (a = b) u) (by
      simp only [useIf, hab, decide_true, if_true]
      exact fun x y => (h.snd x y).mono (fun _ _ _ => trivial)) k1 k2 t1 t2) hw hbusy h1
    obtain ⟨w2, g2, b2, f2⟩ := replaceBoth_ok (Δ := Δ) w1 h3
    refine ⟨w2, g1.trans g2, b2.trans b1, fun X F hX hF => ?_⟩
    rcases f2 X F hF with ⟨_, f3⟩ | ⟨f3, ea, eb⟩
    · exact ⟨(f1 X F (fun x hx => by simp [hX x hx]) f3).1, by rw [hab], Or.inr hab⟩
    · unfold replaceBoth at h3
      simp only [hab, ne_eq, not_true_eq_false, if_false] at h3
      obtain ⟨_, rfl⟩ := pure_eq_ok.1 h3
      exact ⟨(f1 X F (fun x hx => by simp [hX x hx]) hF).1, by rw [hab], Or.inr hab⟩
  obtain ⟨w1, g1, b1, f1⟩ := withBusy_ok (mergeUnknown_ok (w := useIf (a = b) u) (by
      simp only [useIf, hab, decide_false, Bool.false_eq_true, if_false]
      exact useUnify_snd h) k1 k2 t1 t2 (hw.traits a k1 t1 hga)
    (hw.traits b k2 t2 hgb)) hw hbusy h1
  obtain ⟨w2, g2, b2, f2⟩ := replaceBoth_ok (Δ := Δ) w1 h3
  refine ⟨w2, g1.trans g2, b2.trans b1, fun X F hX hF => ?_⟩
  rcases f2 X F hF with ⟨rfl, f3⟩ | ⟨f3, ea, eb⟩
  · obtain ⟨f4, hq⟩ := f1 X F (fun x hx => by simp [hX x hx]) f3
    exact ⟨f4, rfl, Or.inr rfl⟩
  · obtain ⟨f4, hq⟩ := f1 (a :: b :: X) F (by
      intro x hx
      rcases List.mem_cons.1 hx with rfl | hx
      · simp
      · rcases List.mem_cons.1 hx with rfl | hx
        · simp
        · simp [hX x hx]) f3
    refine ⟨(f4.drop (fun tv htv => ?_)).drop (fun tv htv => ?_), ea.trans eb.symm, Or.inl ea.symm⟩
    · rw [hga, Option.some.injEq] at htv
      subst htv
      rw [ea]
      exact hq.1
    · rw [hgb, Option.some.injEq] at htv
      subst htv
      rw [eb]
      exact hq.2

theorem WF.get_root {S : St} (hw : WF S) (id : Nat) : S.get (S.res id) = S.vars[S.res id]? := by
  unfold St.get; rw [hw.root]

theorem find_eq {id : Nat} {S S' : St} {v : Nat} (h : find id S = .ok v S') :
    v = S.res id ∧ S' = S := by
  unfold find at h
  injection h with h1 h2
  exact ⟨h1.symm, h2.symm⟩

theorem Post.res {S S' : St} {a b r : Nat} {P : Prop}
    (h : Post Δ S S' (fun F => F.V (S.res a) = F.V (S.res b) ∧ (F.V r = F.V (S.res a) ∨ P))) :
    Post Δ S S' (fun F => F.V a = F.V b ∧ (F.V r = F.V a ∨ P)) where
  wf := h.wf
  grows := h.grows
  busy := h.busy
  back X F hX hF := by
    obtain ⟨h1, h2⟩ := h.back X F hX hF
    rw [← h1.eq a, ← h1.eq b] at h2
    exact ⟨h1, h2⟩

theorem unifyInner_spec : ∀ fuel, USpec Δ (unifyInner Δ.impls fuel)
  | 0 => by intro a b S r S' hw he; exact nomatch he
  | fuel + 1 => by
    intro a b S r S' hw he
    have ih := unifyInner_spec fuel
    have ihw := unifyWith_spec ih fuel
    unfold unifyInner at he
    obtain ⟨v1, S0, h0, k0⟩ := bind_eq_ok.1 he
    obtain ⟨rfl, rfl⟩ := find_eq h0
    obtain ⟨v2, S0, h0, k1⟩ := bind_eq_ok.1 k0
    obtain ⟨rfl, rfl⟩ := find_eq h0
    obtain ⟨t1, S0, h1, k2⟩ := bind_eq_ok.1 k1
    obtain ⟨rfl, g1, n1⟩ := getVar_eq h1
    obtain ⟨t2, S0, h2, k3⟩ := bind_eq_ok.1 k2
    obtain ⟨rfl, g2, n2⟩ := getVar_eq h2
    clear he k0 k1 k2
    rw [hw.root] at n1 n2
    have q1 := g1
    have q2 := g2
    rw [hw.get_root] at q1 q2
    refine Post.res ?_
    split at k3
    next b1 p1 b2 p2 =>
      have p := unifyKnown_snd ih (S0.res a) (S0.res b) b1 p1 b2 p2 S0 r S' hw k3
      refine ⟨p.wf, p.grows, p.busy, fun X F hX hF => ?_⟩
      obtain ⟨f1, f2, f3⟩ := p.back X F hX hF
      have e1 := f1.root (S0.res a) _ (by rw [hw.root]; exact fun h => n1 (hX _ h)) g1
      have e2 := f1.root (S0.res b) _ (by rw [hw.root]; exact fun h => n2 (hX _ h)) g2
      exact ⟨f1, f3 e1 e2, Or.inl (by rw [f2])⟩
    next k1 t1 k2 t2 =>
      refine (unknownCase ihw hw q1 q2 k3).mono (fun F h => ⟨h.1, ?_⟩)
      rcases h.2 with h | h
      · exact Or.inl h
      · exact Or.inr ⟨h, k1, t1, q1⟩
    next c ps k ts =>
      exact (knownCase ihw hw q2 k3).mono (fun F h => ⟨h.1, Or.inl h.2⟩)
    next k ts c ps =>
      exact (knownCase ihw hw q1 k3).mono (fun F h => ⟨h.1.symm, Or.inl (h.2.trans h.1)⟩)

/-- Unification is sound. -/
theorem unify_spec (fuel : Nat) : USpec Δ (unify Δ.impls fuel) :=
  unifyWith_spec (unifyInner_spec fuel) fuel

end
end Spade.Check

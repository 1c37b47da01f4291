import Verif.Infer.Unify
import Verif.Infer.Replacement

/-!
# Unification (C23): lemmas
-/

namespace Spade.Infer

open Spec (Kind Base GT Ty)

/-! ## Adding and binding variables -/

@[simp] theorem add_length (S : St) (tv : TV) : (S.add tv).vars.length = S.vars.length + 1 := by
  simp [St.add]

theorem add_get_lt (S : St) (tv : TV) {i : Nat} (h : i < S.vars.length) :
    (S.add tv).vars[i]? = S.vars[i]? := by
  simp only [St.add]
  exact List.getElem?_append_left h

theorem add_get_new (S : St) (tv : TV) : (S.add tv).vars[S.vars.length]? = some tv := by
  simp [St.add]

/-- What a new variable may look like. -/
structure GoodTV (S : St) (tv : TV) : Prop where
  params : ∀ b ps, tv = .known b ps → ∀ p ∈ ps, p < S.vars.length
  lit : ∀ b ps, tv = .known b ps → (∀ l, b.val ≠ .type l) → ps = []
  traits : ∀ k ts, tv = .unknown k ts → k ≠ .type → ts = []

theorem add_wf {S : St} (h : WF S) {tv : TV} (ht : GoodTV S tv) : WF (S.add tv) := by
  have hget : ∀ (r : Nat) x, (S.add tv).vars[r]? = some x → S.vars[r]? = some x ∨ x = tv := by
    intro r x hx
    by_cases hr : r < S.vars.length
    · rw [add_get_lt S tv hr] at hx; exact Or.inl hx
    · have := (List.getElem?_eq_some_iff.1 hx).1
      rw [add_length] at this
      have hr' : r = S.vars.length := by omega
      subst hr'
      rw [add_get_new] at hx
      exact Or.inr (by simpa using hx.symm)
  constructor
  · intro id hid
    rw [add_length] at hid ⊢
    show S.res id < _
    by_cases h' : id < S.vars.length
    · have := h.lt id h'; omega
    · rw [h.out id (by omega)]; exact hid
  · exact h.root
  · intro id hid
    rw [add_length] at hid
    exact h.out id (by omega)
  · intro r b ps hr p hp
    rw [add_length]
    rcases hget r _ hr with h' | h'
    · have := h.params r b ps h' p hp; omega
    · have := ht.params b ps h'.symm p hp; omega
  · intro r b ps hr hl
    rcases hget r _ hr with h' | h'
    · exact h.lit r b ps h' hl
    · exact ht.lit b ps h'.symm hl
  · intro r k ts hr hl
    rcases hget r _ hr with h' | h'
    · exact h.traits r k ts h' hl
    · exact ht.traits k ts h'.symm hl

theorem bind_wf {S : St} (h : WF S) {v n : Nat} (hv : S.res v = v) (hn : S.res n = n)
    (hvl : v < S.vars.length) (hnl : n < S.vars.length) (hne : v ≠ n) : WF (S.bind v n) := by
  constructor
  · intro id hid
    show (if S.res id = v then S.res n else S.res id) < S.vars.length
    split
    · rw [hn]; exact hnl
    · exact h.lt id hid
  · intro id
    have hb : ∀ i, (S.bind v n).res i = if S.res i = v then S.res n else S.res i := fun _ => rfl
    rw [hb, hb]
    by_cases h1 : S.res id = v
    · rw [if_pos h1, h.root, hn, if_neg (fun e => hne e.symm)]
    · rw [if_neg h1, h.root, if_neg h1]
  · intro id hid
    show (if S.res id = v then S.res n else S.res id) = id
    have hid' : S.vars.length ≤ id := hid
    rw [h.out id hid, if_neg]
    omega
  · exact h.params
  · exact h.lit
  · exact h.traits

theorem bind_res (S : St) (v n id : Nat) :
    (S.bind v n).res id = if S.res id = v then S.res n else S.res id := rfl

/-! ## Solutions -/

/-- Like `Sol`, but the contents of the variables in `X` are ignored. -/
def SolX (impls : Base → Nat → Bool) (S : St) (X : List Nat) (V : Nat → GT) : Prop :=
  ∀ id < S.vars.length, V id = V (S.res id) ∧ (S.res id = id → id ∉ X → RootOk impls S V id)

theorem sol_iff_solX {impls S V} : Sol impls S V ↔ SolX impls S [] V := by
  simp [Sol, SolX]

theorem rootOk_add {impls : Base → Nat → Bool} (S : St) (tv : TV) (V : Nat → GT) {i : Nat}
    (h : i < S.vars.length) : RootOk impls (S.add tv) V i ↔ RootOk impls S V i := by
  simp only [RootOk, add_get_lt S tv h]

theorem solX_bind {impls S V} (h : WF S) {v n : Nat} (hv : S.res v = v) (hn : S.res n = n)
    (hvl : v < S.vars.length) (hne : v ≠ n) (X : List Nat) :
    SolX impls (S.bind v n) X V ↔ SolX impls S (v :: X) V ∧ V v = V n := by
  constructor
  · intro hs
    have hvn : V v = V n := by
      have := (hs v hvl).1
      rwa [bind_res, if_pos hv, hn] at this
    refine ⟨fun id hid => ?_, hvn⟩
    obtain ⟨h1, h2⟩ := hs id hid
    rw [bind_res] at h1 h2
    constructor
    · split at h1
      · rename_i he
        rw [h1, hn, he, hvn]
      · exact h1
    · intro hr hx
      rw [hr, if_neg] at h2
      · exact h2 rfl (fun hx' => hx (List.mem_cons_of_mem _ hx'))
      · intro he
        exact hx (he ▸ List.mem_cons_self ..)
  · rintro ⟨hs, hvn⟩ id hid
    obtain ⟨h1, h2⟩ := hs id hid
    rw [bind_res]
    constructor
    · split
      · rename_i he
        rw [h1, he, hvn, hn]
      · exact h1
    · intro hr hx
      split at hr
      · rename_i he
        rw [hn] at hr
        exact absurd (by rw [← he, ← hr, hn]) hne
      · rename_i he
        refine h2 hr ?_
        intro hx'
        rcases List.mem_cons.1 hx' with h' | h'
        · exact he (by rw [h', hv])
        · exact hx h'

theorem solX_add {impls S V} (h : WF S) {tv : TV} (X : List Nat) (hX : S.vars.length ∉ X) :
    SolX impls (S.add tv) X V ↔ SolX impls S X V ∧ RootOk impls (S.add tv) V S.vars.length := by
  constructor
  · intro hs
    refine ⟨fun id hid => ?_, ?_⟩
    · obtain ⟨h1, h2⟩ := hs id (by rw [add_length]; omega)
      exact ⟨h1, fun hr hx => (rootOk_add S tv V hid).1 (h2 hr hx)⟩
    · exact (hs S.vars.length (by rw [add_length]; omega)).2 (h.out _ (Nat.le_refl _)) hX
  · rintro ⟨hs, hn⟩ id hid
    rw [add_length] at hid
    by_cases h' : id < S.vars.length
    · obtain ⟨h1, h2⟩ := hs id h'
      exact ⟨h1, fun hr hx => (rootOk_add S tv V h').2 (h2 hr hx)⟩
    · have he : id = S.vars.length := by omega
      subst he
      refine ⟨?_, fun _ _ => hn⟩
      show V _ = V (S.res _)
      rw [h.out _ (Nat.le_refl _)]

theorem sol_split {impls S V} {v w : Nat} (hv : S.res v = v) (hw : S.res w = w)
    (hvl : v < S.vars.length) (hwl : w < S.vars.length) :
    Sol impls S V ↔ SolX impls S [v, w] V ∧ RootOk impls S V v ∧ RootOk impls S V w := by
  constructor
  · intro hs
    exact ⟨fun id hid => ⟨(hs id hid).1, fun hr _ => (hs id hid).2 hr⟩, (hs v hvl).2 hv,
      (hs w hwl).2 hw⟩
  · rintro ⟨hs, h1, h2⟩ id hid
    refine ⟨(hs id hid).1, fun hr => ?_⟩
    by_cases hx : id ∈ [v, w]
    · simp only [List.mem_cons, List.not_mem_nil, or_false] at hx
      rcases hx with rfl | rfl
      · exact h1
      · exact h2
    · exact (hs id hid).2 hr hx

theorem solX_swap {impls S V} {v w : Nat} : SolX impls S [v, w] V ↔ SolX impls S [w, v] V := by
  constructor <;> intro hs id hid <;> refine ⟨(hs id hid).1, fun hr hx => (hs id hid).2 hr ?_⟩ <;>
    simp only [List.mem_cons, List.not_mem_nil, or_false, not_or] at hx ⊢ <;> exact ⟨hx.2, hx.1⟩

/-- Two assignments agree on the variables below `n`. -/
def Agree (n : Nat) (V W : Nat → GT) : Prop := ∀ id < n, V id = W id

theorem map_agree {n : Nat} {V W : Nat → GT} (h : Agree n V W) {ps : List Nat}
    (hp : ∀ p ∈ ps, p < n) : ps.map V = ps.map W :=
  List.map_congr_left (fun p hm => h p (hp p hm))

theorem rootOk_congr {impls S} (hw : WF S) {V W : Nat → GT} (h : Agree S.vars.length V W) {i : Nat}
    (hi : i < S.vars.length) : RootOk impls S V i ↔ RootOk impls S W i := by
  unfold RootOk
  cases hg : S.vars[i]? with
  | none => exact Iff.rfl
  | some tv =>
    cases tv with
    | known b ps =>
      simp only
      rw [h i hi, map_agree h (hw.params i b ps hg)]
    | unknown k ts => simp only; rw [h i hi]

theorem sol_congr {impls S} (hw : WF S) {V W : Nat → GT} (h : Agree S.vars.length V W) :
    Sol impls S V ↔ Sol impls S W := by
  have key : ∀ {V W : Nat → GT}, Agree S.vars.length V W → Sol impls S V → Sol impls S W := by
    intro V W h hs id hid
    obtain ⟨h1, h2⟩ := hs id hid
    exact ⟨by rw [← h id hid, ← h _ (hw.lt id hid)]; exact h1,
      fun hr => (rootOk_congr hw h hid).1 (h2 hr)⟩
  exact ⟨key h, key (fun id hid => (h id hid).symm)⟩

theorem solX_congr {impls S} (hw : WF S) {V W : Nat → GT} (h : Agree S.vars.length V W)
    {X : List Nat} (hs : SolX impls S X V) : SolX impls S X W := by
  intro id hid
  obtain ⟨h1, h2⟩ := hs id hid
  exact ⟨by rw [← h id hid, ← h _ (hw.lt id hid)]; exact h1,
    fun hr hx => (rootOk_congr hw h hid).1 (h2 hr hx)⟩

/-! ## The occurs check -/

mutual
/-- The size of a ground type. -/
def GT.size : GT → Nat
  | .node _ args => 1 + GT.sizes args
/-- The total size of a list of ground types. -/
def GT.sizes : List GT → Nat
  | [] => 0
  | t :: ts => GT.size t + GT.sizes ts
end

theorem size_lt_of_mem {t : GT} : ∀ {args : List GT}, t ∈ args → GT.size t ≤ GT.sizes args
  | a :: as, h => by
    rcases List.mem_cons.1 h with rfl | h
    · simp only [GT.sizes]; omega
    · have := size_lt_of_mem h
      simp only [GT.sizes]; omega

theorem sol_get {impls S V} (hw : WF S) (hs : Sol impls S V) {id : Nat} (hid : id < S.vars.length)
    {b ps} (hg : S.get id = some (.known b ps)) : V id = .node b (ps.map V) := by
  rw [(hs id hid).1]
  have := (hs (S.res id) (hw.lt id hid)).2 (hw.root id)
  unfold St.get at hg
  unfold RootOk at this
  rw [hg] at this
  exact this

theorem checkParams_false {go : Nat → Option Bool} {seen : List Nat} :
    ∀ {ps : List Nat}, checkParams go seen ps = some false →
      ∃ p ∈ ps, p ∈ seen ∨ go p = some false
  | p :: ps, h => by
    unfold checkParams at h
    split at h
    · exact ⟨p, List.mem_cons_self .., Or.inl ‹_›⟩
    · split at h
      · obtain ⟨q, hq, hq'⟩ := checkParams_false h
        exact ⟨q, List.mem_cons_of_mem _ hq, hq'⟩
      · exact ⟨p, List.mem_cons_self .., Or.inr h⟩

theorem checkParams_true {go : Nat → Option Bool} {seen : List Nat} :
    ∀ {ps : List Nat}, checkParams go seen ps = some true → ∀ p ∈ ps, go p = some true
  | [], _, p, hp => by simp at hp
  | q :: ps, h, p, hp => by
    unfold checkParams at h
    split at h
    · simp at h
    · split at h
      · rename_i hq
        rcases List.mem_cons.1 hp with rfl | hp
        · exact hq
        · exact checkParams_true h p hp
      · exact absurd h (by simp_all)

theorem checkParams_ne_none {go : Nat → Option Bool} {seen : List Nat} :
    ∀ {ps : List Nat}, (∀ p ∈ ps, p ∉ seen → go p ≠ none) → checkParams go seen ps ≠ none
  | [], _ => by simp [checkParams]
  | p :: ps, h => by
    unfold checkParams
    split
    · simp
    · split
      · exact checkParams_ne_none (fun q hq => h q (List.mem_cons_of_mem _ hq))
      · exact h p (List.mem_cons_self ..) ‹_›

/-- A recursive type has no solution. -/
theorem checkRec_false {impls S V} (hw : WF S) (hs : Sol impls S V) :
    ∀ (fuel : Nat) (seen : List Nat) (ty : Nat), ty < S.vars.length →
      (∀ s ∈ seen, GT.size (V ty) < GT.size (V s)) → checkRec S fuel seen ty ≠ some false := by
  intro fuel
  induction fuel with
  | zero => intro seen ty _ _ h; simp [checkRec] at h
  | succ fuel ih =>
    intro seen ty hty hseen h
    unfold checkRec at h
    split at h
    · simp at h
    · simp at h
    · rename_i b ps hg
      have hv := sol_get hw hs hty hg
      obtain ⟨p, hp, hp'⟩ := checkParams_false h
      have hpl := hw.params _ _ _ hg p hp
      have hsz : GT.size (V p) < GT.size (V ty) := by
        rw [hv]
        have := size_lt_of_mem (List.mem_map_of_mem (f := V) hp)
        simp only [GT.size]; omega
      have hall : ∀ s ∈ ty :: seen, GT.size (V p) < GT.size (V s) := by
        intro s hs'
        rcases List.mem_cons.1 hs' with rfl | hs'
        · exact hsz
        · exact Nat.lt_trans hsz (hseen s hs')
      rcases hp' with hp' | hp'
      · exact absurd (hall p hp') (Nat.lt_irrefl _)
      · exact ih (ty :: seen) p hpl hall hp'

/-- The occurs check always answers when given as much depth as there are variables. -/
theorem checkRec_ne_none {S} (hw : WF S) :
    ∀ (fuel : Nat) (seen : List Nat) (ty : Nat), ty < S.vars.length → ty ∉ seen → seen.Nodup →
      (∀ s ∈ seen, s < S.vars.length) → S.vars.length + 1 ≤ fuel + seen.length →
      checkRec S fuel seen ty ≠ none := by
  intro fuel
  induction fuel with
  | zero =>
    intro seen ty _ _ hn hl hf
    have := nodup_length_le (m := List.range S.vars.length) hn (by simpa using hl)
    simp only [List.length_range] at this
    omega
  | succ fuel ih =>
    intro seen ty hty hmem hn hl hf
    unfold checkRec
    split
    · rename_i hg
      unfold St.get at hg
      have := hw.lt ty hty
      simp [List.getElem?_eq_getElem this] at hg
    · simp
    · rename_i b ps hg
      apply checkParams_ne_none
      intro p hp hps
      apply ih
      · exact hw.params _ _ _ hg p hp
      · exact hps
      · exact List.nodup_cons.2 ⟨hmem, hn⟩
      · intro s hs
        rcases List.mem_cons.1 hs with rfl | hs
        · exact hty
        · exact hl s hs
      · simp only [List.length_cons]; omega

theorem denotesAll_of {S : St} : ∀ {ps : List Nat}, (∀ p ∈ ps, ∃ t, Denotes S p t) →
    ∃ ts, DenotesAll S ps ts
  | [], _ => ⟨[], .nil⟩
  | p :: ps, h => by
    obtain ⟨t, ht⟩ := h p (List.mem_cons_self ..)
    obtain ⟨ts, hts⟩ := denotesAll_of (ps := ps) (fun q hq => h q (List.mem_cons_of_mem _ hq))
    exact ⟨t :: ts, .cons ht hts⟩

/-- A type that passes the occurs check resolves to a finite type. -/
theorem checkRec_true {S} : ∀ (fuel : Nat) (seen : List Nat) (ty : Nat),
    checkRec S fuel seen ty = some true → ∃ t, Denotes S ty t := by
  intro fuel
  induction fuel with
  | zero => intro seen ty h; simp [checkRec] at h
  | succ fuel ih =>
    intro seen ty h
    unfold checkRec at h
    split at h
    · simp at h
    · exact ⟨_, .var ‹_›⟩
    · rename_i b ps hg
      obtain ⟨ts, hts⟩ := denotesAll_of (S := S) (ps := ps)
        (fun p hp => ih _ p (checkParams_true h p hp))
      exact ⟨_, .app hg hts⟩

end Spade.Infer

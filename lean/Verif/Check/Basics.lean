import Verif.Check.Model
import Verif.Check.UnifySound

/-!
# The primitive steps of inference are sound (C51)
-/

namespace Spade.Check

open Spade.Infer.Spec (Kind Base GT Val TExpr Value LeastUint)
open Spade.Infer (CE VState Proper groundSeen Satisfies evalVal evaluate)

/-- What a generic list says about parameters under an assignment. -/
def GL.vals (gl : GL) (V : Nat → GT) : Generics := fun g => (gl.var g).map V

/-- The typing an assignment stands for. -/
def Asg.typing (F : Asg) (gl : GL) : Typing := ⟨F.I, F.N, gl.vals F.V, F.C⟩

section
variable {Δ : Decls}

theorem uni_snd (c : Cfg) (a b : Nat) : Snd c.Δ (uni c a b) (fun _ F => F.V a = F.V b) :=
  ((unify_spec c.fuel).snd a b).bind (fun _ => Snd.pure (fun _ h => h))

theorem addEq_snd (id v : Nat) : Snd Δ (addEq id v) (fun _ F => F.I id = some (F.V v)) := by
  intro S x S' hw he
  unfold addEq at he
  split at he
  · exact nomatch he
  next hn =>
    injection he with _ h2
    subst h2
    refine ⟨⟨hw.root, hw.out, hw.lit, hw.traits, hw.busy⟩, .refl _, rfl, fun X F hX hF => ⟨?_, ?_⟩⟩
    · refine ⟨hF.proper, hF.eq, hF.root, hF.cons, hF.reqs, ?_, hF.names, hF.calls, hF.lost⟩
      intro i w hi
      refine hF.ids i w ?_
      simp only
      rw [if_neg (by rintro rfl; rw [hn] at hi; exact nomatch hi)]
      exact hi
    · exact hF.ids id v (by simp)

theorem addName_snd (id v : Nat) : Snd Δ (addName id v) (fun _ F => F.N id = some (F.V v)) := by
  intro S x S' hw he
  unfold addName at he
  split at he
  · exact nomatch he
  next hn =>
    injection he with _ h2
    subst h2
    refine ⟨⟨hw.root, hw.out, hw.lit, hw.traits, hw.busy⟩, .refl _, rfl, fun X F hX hF => ⟨?_, ?_⟩⟩
    · refine ⟨hF.proper, hF.eq, hF.root, hF.cons, hF.reqs, hF.ids, ?_, hF.calls, hF.lost⟩
      intro i w hi
      refine hF.names i w ?_
      simp only
      rw [if_neg (by rintro rfl; rw [hn] at hi; exact nomatch hi)]
      exact hi
    · exact hF.names id v (by simp)

theorem addList_snd (id : Nat) (gl : GL) : Snd Δ (addList id gl) (fun _ F => F.C id = gl.vals F.V) := by
  intro S x S' hw he
  unfold addList at he
  split at he
  · exact nomatch he
  next hn =>
    injection he with _ h2
    subst h2
    refine ⟨⟨hw.root, hw.out, hw.lit, hw.traits, hw.busy⟩, .refl _, rfl, fun X F hX hF => ⟨?_, ?_⟩⟩
    · refine ⟨hF.proper, hF.eq, hF.root, hF.cons, hF.reqs, hF.ids, hF.names, ?_, hF.lost⟩
      intro i w hi
      refine hF.calls i w ?_
      simp only
      rw [if_neg (by rintro rfl; rw [hn] at hi; exact nomatch hi)]
      exact hi
    · exact hF.calls id gl (by simp)

theorem addCon_snd (v : Nat) (e : CE) : Snd Δ (addCon v e) (fun _ F =>
    Proper F.V ∧ ∃ w, groundSeen F.V v = .ofVal w ∧ evalVal (groundSeen F.V) e = some w) := by
  intro S x S' hw he
  unfold addCon at he
  injection he with _ h2
  subst h2
  refine ⟨hw.setCons, .refl _, rfl, fun X F hX hF => ⟨?_, hF.proper, ?_⟩⟩
  · refine ⟨hF.proper, hF.eq, hF.root, ?_, hF.reqs, hF.ids, hF.names, hF.calls, hF.lost⟩
    intro vc hvc
    exact hF.cons vc (List.mem_append_left _ hvc)
  · exact hF.cons (v, e) (by simp)

theorem addReq_snd (r : Req) : Snd Δ (addReq r) (fun _ F => r.Holds Δ F.V) := by
  intro S x S' hw he
  unfold addReq at he
  injection he with _ h2
  subst h2
  refine ⟨⟨hw.root, hw.out, hw.lit, hw.traits, hw.busy⟩, .refl _, rfl, fun X F hX hF => ⟨?_, ?_⟩⟩
  · refine ⟨hF.proper, hF.eq, hF.root, hF.cons, ?_, hF.ids, hF.names, hF.calls, hF.lost⟩
    intro r' hr
    exact hF.reqs r' (List.mem_append_left _ hr)
  · exact hF.reqs r (by simp)

theorem typeOf_snd (id : Nat) : Snd Δ (typeOf id) (fun r F => F.I id = some (F.V r)) := by
  intro S b S' hw he
  unfold typeOf at he
  split at he
  next v hv =>
    injection he with h1 h2
    subst h1 h2
    exact ⟨hw, .refl _, rfl, fun X F _ hF => ⟨hF, by
      show F.I id = some (F.V (S.res v))
      rw [hF.ids id v hv, hF.eq v]⟩⟩
  · exact nomatch he

theorem nameTy_snd (x : Nat) : Snd Δ (nameTy x) (fun r F => F.N x = some (F.V r)) := by
  intro S b S' hw he
  unfold nameTy at he
  split at he
  next v hv =>
    injection he with h1 h2
    subst h1 h2
    exact ⟨hw, .refl _, rfl, fun X F _ hF => ⟨hF, by
      show F.N x = some (F.V (S.res v))
      rw [hF.names x v hv, hF.eq v]⟩⟩
  · exact nomatch he

theorem newType_snd : Snd Δ newType (fun v F => IsType (F.V v)) :=
  (addVar_snd _).mono (fun _ _ h => h.1)

theorem newBool_snd : Snd Δ newBool (fun v F => F.V v = tBool) := addVar_snd _

theorem newInt_snd (i : Int) : Snd Δ (newInt i) (fun v F => F.V v = .node (.int i) []) := addVar_snd _

theorem newExp_snd (id : Nat) :
    Snd Δ (newExp id) (fun v F => F.I id = some (F.V v) ∧ IsType (F.V v)) :=
  newType_snd.bind (fun t => (addEq_snd id t).bind (fun _ => Snd.pure (fun _ h1 h2 => ⟨h1, h2⟩)))

theorem implements_number (hn : Δ.NumbersOk) {t : GT} {as : List GT}
    (h : Implements Δ.impls t trNumber as) : ∃ (s : Bool) (a : GT), t = .node (.named (if s then 1 else 2)) [a] ∧
      as = [a] := by
  cases h with
  | mk hi hk hb ht ha he =>
    obtain ⟨s, rfl⟩ := hn _ hi ht.symm
    exact ⟨s, _, by rw [he]; cases s <;> rfl, by rw [ha]; rfl⟩

theorem uint_of_holds {V : Nat → GT} (hp : Proper V) {v : Nat} (h : Kind.uint.Holds (V v).head.val) :
    ∃ n : Nat, V v = tNat n := by
  obtain ⟨i, h0, hi⟩ := h
  refine ⟨i.toNat, ?_⟩
  cases hv : V v with
  | node b as =>
    rw [hv] at hi
    cases b <;> simp [GT.head, Base.val] at hi
    subst hi
    rw [hp v _ _ hv (by simp [Base.val])]
    simp [tNat, Int.toNat_of_nonneg h0]

theorem newUint_snd : Snd Δ (addVar (.unknown .uint [])) (fun v F => ∃ n : Nat, F.V v = tNat n) :=
  ((addVar_snd _).proper).mono (fun _ _ h => uint_of_holds h.2 h.1.1)

theorem newNumber_snd (hn : Δ.NumbersOk) : Snd Δ newNumber (fun r F =>
    ∃ s n, F.V r.1 = tNum s n ∧ F.V r.2 = tNat n) := by
  refine newUint_snd.bind (fun size => (addVar_snd _).bind (fun t => Snd.pure (fun F h1 h2 => ?_)))
  obtain ⟨n, hn'⟩ := h2
  obtain ⟨s, a, h3, h4⟩ := implements_number hn (h1.2 (trNumber, [size]) (by simp))
  simp only [List.map_cons, List.map_nil, List.cons.injEq, and_true] at h4
  refine ⟨s, n, ?_, hn'⟩
  show F.V t = _
  rw [h3, ← h4, hn']
  rfl

/-! ## Type-level expressions -/

theorem value_mono {ρ ρ' : String → Option Val} (h : ∀ n v, ρ n = some v → ρ' n = some v) {e : TExpr}
    {w : Val} (hv : Value ρ e w) : Value ρ' e w := by
  induction hv with
  | name h1 => exact .name (h _ _ h1)
  | bool => exact .bool
  | int => exact .int
  | str => exact .str
  | add _ _ h1 h2 => exact .add h1 h2
  | sub _ _ h1 h2 => exact .sub h1 h2
  | mul _ _ h1 h2 => exact .mul h1 h2
  | div _ _ h3 h1 h2 => exact .div h1 h2 h3
  | mod _ _ h3 h1 h2 => exact .mod h1 h2 h3
  | eq _ _ h3 h1 h2 => exact .eq h1 h2 h3
  | neq _ _ h3 h1 h2 => exact .neq h1 h2 h3
  | lt _ _ h1 h2 => exact .lt h1 h2
  | gt _ _ h1 h2 => exact .gt h1 h2
  | le _ _ h1 h2 => exact .le h1 h2
  | ge _ _ h1 h2 => exact .ge h1 h2
  | and _ _ h1 h2 => exact .and h1 h2
  | or _ _ h1 h2 => exact .or h1 h2
  | xor _ _ h1 h2 => exact .xor h1 h2
  | neg _ h1 => exact .neg h1
  | not _ h1 => exact .not h1
  | paren _ h1 => exact .paren h1
  | intBits _ h2 h1 => exact .intBits h1 h2
  | uintBits _ h2 h1 => exact .uintBits h1 h2

theorem careful_anti {ρ ρ' : String → Option Val} (h : ∀ n v, ρ n = some v → ρ' n = some v) :
    ∀ {e : TExpr}, Infer.Careful ρ' e → Infer.Careful ρ e := by
  intro e
  induction e with
  | intBits a ih => exact fun hc => ⟨ih hc.1, fun hv => hc.2 (value_mono h hv)⟩
  | uintBits a ih => exact fun hc => ⟨ih hc.1, fun v h0 hv => hc.2 v h0 (value_mono h hv)⟩
  | name | bool | int | str => exact fun _ => trivial
  | neg a ih => exact fun hc => ih hc
  | not a ih => exact fun hc => ih hc
  | paren a ih => exact fun hc => ih hc
  | _ a b iha ihb => exact fun hc => ⟨iha hc.1, ihb hc.2⟩

/-- What constraints see, with types taken to be unknown. -/
def blindState : VState → VState
  | .otherKnown => .unknown
  | s => s

/-- The same for all variables. -/
def blind (K : Nat → VState) (v : Nat) : VState := blindState (K v)

theorem evaluate_blind {K : Nat → VState} : ∀ {c c' : CE}, evaluate K c = some c' →
    evaluate (blind K) c = some c' := by
  intro c
  induction c with
  | int | bool | str => exact fun h => h
  | var v =>
    intro c' h
    simp only [evaluate, blind] at h ⊢
    cases hk : K v <;> simp_all [blindState]
  | bin op a b iha ihb =>
    intro c' h
    simp only [evaluate] at h ⊢
    cases ha : evaluate K a with
    | none => simp [ha] at h
    | some l =>
      cases hb : evaluate K b with
      | none => simp [ha, hb] at h
      | some r => rw [iha ha, ihb hb]; rw [ha, hb] at h; exact h
  | sub a ih | logicalNot a ih | intBits a ih | uintBits a ih =>
    intro c' h
    simp only [evaluate] at h ⊢
    cases ha : evaluate K a with
    | none => simp [ha] at h
    | some l => rw [ih ha]; rw [ha] at h; exact h

theorem evalVal_not_type {K : Nat → VState} {c : CE} {w : Val} (h : evalVal K c = some w) :
    ∀ l, w ≠ .type l := by
  rintro l rfl
  obtain ⟨c', h1, _⟩ := Infer.evaluate_lit.1 h
  exact nomatch h1

/-- The value, unless it is a type. -/
def valOnly : Val → Option Val
  | .type _ => none
  | w => some w

theorem const_value {V : Nat → GT} {gl : GL} {e : TExpr} {c : CE} (hc : constExpr gl e = some c)
    {w : Val} (hw : evalVal (groundSeen V) c = some w)
    (hca : Infer.Careful (gl.vals V).vals e) : Value (gl.vals V).vals e w := by
  have hnt := evalVal_not_type hw
  let ρ' : String → Option Val := fun n => ((gl.vals V).vals n).bind valOnly
  have hm : ∀ n v, ρ' n = some v → (gl.vals V).vals n = some v := by
    intro n v h
    simp only [ρ', Option.bind_eq_some_iff] at h
    obtain ⟨a, h1, h2⟩ := h
    rw [h1]
    cases a <;> simp_all [valOnly]
  have henv : Infer.EnvAgrees gl.var (blind (groundSeen V)) ρ' := by
    intro n v hg
    have hv : (gl.vals V).vals n = some (V v).head.val := by
      simp [Generics.vals, GL.vals, hg]
    simp only [ρ', hv, blind, groundSeen, Option.bind_some]
    cases hh : (V v).head.val with
    | type l => exact .inl ⟨rfl, .inl rfl⟩
    | int i => exact .inr ⟨_, rfl, by simp, rfl⟩
    | bool i => exact .inr ⟨_, rfl, by simp, rfl⟩
    | str i => exact .inr ⟨_, rfl, by simp, rfl⟩
  refine value_mono hm ((Infer.C20_value_partial _ gl.var (blind (groundSeen V)) ρ' henv e
    (careful_anti hm hca) c hc w hnt).1 ?_)
  obtain ⟨c', h1, h2⟩ := Infer.evaluate_lit.1 hw
  exact Infer.evaluate_lit.2 ⟨c', h1, evaluate_blind h2⟩

theorem const_is {V : Nat → GT} (hp : Proper V) {gl : GL} {e : TExpr} {c : CE}
    (hc : constExpr gl e = some c) {w : Val} {v : Nat} (hv : groundSeen V v = .ofVal w)
    (hw : evalVal (groundSeen V) c = some w) : ConstIs (gl.vals V) e (V v) := by
  have hnt := evalVal_not_type hw
  refine ⟨w, ?_, hnt, const_value hc hw⟩
  rw [(Infer.groundSeen_eq hp hnt).1 hv]
  cases w <;> rfl

theorem addCon_const {gl : GL} {e : TExpr} {ce : CE} (hc : constExpr gl e = some ce) (v : Nat) :
    Snd Δ (addCon v ce) (fun _ F => ConstIs (gl.vals F.V) e (F.V v)) :=
  (addCon_snd v ce).mono (fun _ _ h => by
    obtain ⟨hp, w, h1, h2⟩ := h
    exact const_is hp hc h1 h2)

theorem seen_int {V : Nat → GT} {v : Nat} {i : Int} (h : V v = .node (.int i) []) :
    evalVal (groundSeen V) (.var v) = some (.int i) := by
  simp [evalVal, evaluate, groundSeen, h, GT.head, Base.val, VState.ofVal, Infer.solved]

/-- A constraint `v = e` whose right side has a known integer value. -/
theorem con_int {V : Nat → GT} (hp : Proper V) {v : Nat} {w : Val} {i : Int} {e : CE}
    (h1 : groundSeen V v = .ofVal w) (h2 : evalVal (groundSeen V) e = some w)
    (h3 : evalVal (groundSeen V) e = some (.int i)) : V v = .node (.int i) [] := by
  rw [h3] at h2
  cases h2
  exact (Infer.groundSeen_eq (w := .int i) hp (by simp)).1 h1

theorem evalVal_sub (K : Nat → VState) (a : CE) :
    evalVal K (.sub a) = (evalVal K a).bind (fun | .int v => some (.int (-v)) | _ => none) := by
  unfold evalVal
  simp only [evaluate]
  cases ha : evaluate K a with
  | none => rfl
  | some l => cases l <;> rfl

theorem evalVal_int (K : Nat → VState) (i : Int) : evalVal K (.int i) = some (.int i) := rfl

/-! ## Types as written -/

mutual
theorem specVar_snd (gl : GL) : ∀ t : TSpec,
    Snd Δ (specVar gl t) (fun v F => t.Is (gl.vals F.V) (F.V v))
  | .declared n ps => by
    unfold specVar
    refine (expVars_snd gl ps).bind (fun vs => (addVar_snd _).mono (fun v F h1 h2 => ?_))
    simp only [TSpec.Is]
    exact ⟨_, h1, h2⟩
  | .generic g => by
    unfold specVar
    cases h : gl.var g with
    | none => exact Snd.stuck
    | some v =>
      refine Snd.pure (fun F => ?_)
      simp only [TSpec.Is]
      simp [GL.vals, h]
  | .tuple ts => by
    unfold specVar
    refine (specVars_snd gl ts).bind (fun vs => (addVar_snd _).mono (fun v F h1 h2 => ?_))
    simp only [TSpec.Is]
    exact ⟨_, h1, h2⟩
  | .array t n => by
    unfold specVar
    refine (specVar_snd gl t).bind (fun v => (expVar_snd gl n).bind (fun k =>
      (addVar_snd _).mono (fun r F h1 h2 h3 => ?_)))
    simp only [TSpec.Is]
    exact ⟨_, _, h1, h3, h2⟩
  | .inverted t => by
    unfold specVar
    refine (specVar_snd gl t).bind (fun v => (addVar_snd _).mono (fun r F h1 h2 => ?_))
    simp only [TSpec.Is]
    exact ⟨_, h1, h2⟩
  | .copyView t => by
    unfold specVar
    refine (specVar_snd gl t).bind (fun v => (addVar_snd _).mono (fun r F h1 h2 => ?_))
    simp only [TSpec.Is]
    exact ⟨_, h1, h2⟩
  | .wildcard => by
    unfold specVar
    exact (addVar_snd _).mono (fun r F _ => by simp only [TSpec.Is])
theorem specVars_snd (gl : GL) : ∀ ts : List TSpec,
    Snd Δ (specVars gl ts) (fun vs F => TSpec.Are (gl.vals F.V) ts (vs.map F.V))
  | [] => by
    unfold specVars
    exact Snd.pure (fun F => by simp [TSpec.Are])
  | t :: ts => by
    unfold specVars
    refine (specVar_snd gl t).bind (fun v => (specVars_snd gl ts).bind (fun vs =>
      Snd.pure (fun F h1 h2 => ?_)))
    simp only [TSpec.Are]
    exact ⟨_, _, rfl, h2, h1⟩
theorem expVar_snd (gl : GL) : ∀ t : TExp,
    Snd Δ (expVar gl t) (fun v F => t.Is (gl.vals F.V) (F.V v))
  | .bool b => by
    unfold expVar
    exact (addVar_snd _).mono (fun r F h => by simp only [TExp.Is]; exact h)
  | .int i => by
    unfold expVar
    exact (addVar_snd _).mono (fun r F h => by simp only [TExp.Is]; exact h)
  | .str s => by
    unfold expVar
    exact (addVar_snd _).mono (fun r F h => by simp only [TExp.Is]; exact h)
  | .spec t => by
    unfold expVar
    exact (specVar_snd gl t).mono (fun r F h => by simp only [TExp.Is]; exact h)
  | .const e => by
    unfold expVar
    cases h : constExpr gl e with
    | none => exact Snd.err
    | some ce =>
      refine (addVar_snd _).bind (fun v => (addCon_const h v).bind (fun _ =>
        Snd.pure (fun F h1 _ => ?_)))
      simp only [TExp.Is]
      exact h1
theorem expVars_snd (gl : GL) : ∀ ts : List TExp,
    Snd Δ (expVars gl ts) (fun vs F => TExp.Are (gl.vals F.V) ts (vs.map F.V))
  | [] => by
    unfold expVars
    exact Snd.pure (fun F => by simp [TExp.Are])
  | t :: ts => by
    unfold expVars
    refine (expVar_snd gl t).bind (fun v => (expVars_snd gl ts).bind (fun vs =>
      Snd.pure (fun F h1 h2 => ?_)))
    simp only [TExp.Are]
    exact ⟨_, _, rfl, h2, h1⟩
end

theorem constVar_snd (c : Cfg) (gl : GL) (id : Nat) (e : TExpr) :
    Snd Δ (constVar c gl id e) (fun v F => F.I id = some (F.V v) ∧ ConstIs (gl.vals F.V) e (F.V v)) := by
  unfold constVar
  split
  next k ce hk hc =>
    exact (addVar_snd _).bind (fun v => (addEq_snd id v).bind (fun _ =>
      (addCon_const hc v).bind (fun _ => Snd.pure (fun F h1 h2 _ => ⟨h2, h1⟩))))
  · exact Snd.err

end

end Spade.Check

import Verif.Pipe.Delay

/-
C27: theorems.
-/

namespace Spade.Pipe

theorem reserveEnables_unconditional : ∀ (body : List Stmt) (nid : Nat), Unconditional body →
    reserveEnables body nid = (nid, false, List.replicate (stageAfter body) none)
  | [], _, _ => rfl
  | .marker c :: ss, nid, h => by
    have hc : c = none := h c (by simp)
    have ih := reserveEnables_unconditional ss nid (fun c hc => h c (List.mem_cons_of_mem _ hc))
    subst hc
    simp only [reserveEnables, ih, stageAfter]
    rfl
  | .letS .. :: ss, nid, h =>
    reserveEnables_unconditional ss nid (fun c hc => h c (List.mem_cons_of_mem _ hc))
  | .regS .. :: ss, nid, h =>
    reserveEnables_unconditional ss nid (fun c hc => h c (List.mem_cons_of_mem _ hc))
  | .other :: ss, nid, h =>
    reserveEnables_unconditional ss nid (fun c hc => h c (List.mem_cons_of_mem _ hc))

theorem handleAll_conds {enables} : ∀ (body : List Stmt) {st st'}, Unconditional body →
    handleAll enables body st = some st' →
    st'.conds = st.conds ++ List.replicate (stageAfter body) none
  | [], st, st', _, h => by
    simp only [handleAll, Option.some.injEq] at h
    subst h
    simp [stageAfter]
  | s :: ss, st, st', hu, h => by
    have hu' : Unconditional ss := fun c hc => hu c (List.mem_cons_of_mem _ hc)
    unfold handleAll at h
    split at h
    · exact (nomatch h)
    · next st1 h1 =>
      have ih := handleAll_conds ss hu' h
      unfold handleStatement at h1
      split at h1
      · split at h1
        · exact (nomatch h1)
        · simp only [Option.some.injEq] at h1
          subst h1
          exact ih
      · split at h1
        · exact (nomatch h1)
        · simp only [Option.some.injEq] at h1
          subst h1
          exact ih
      · simp only [Option.some.injEq] at h1
        subst h1
        exact ih
      · next cond =>
        have hc : cond = none := hu cond (by simp)
        subst hc
        simp only [condEqns] at h1
        split at h1
        · exact (nomatch h1)
        · split at h1
          · exact (nomatch h1)
          · simp only [Option.some.injEq] at h1
            subst h1
            rw [ih]
            simp [stageAfter, List.replicate_succ]

theorem validEqns_unconditional : ∀ (n nid eid : Nat),
    validEqns nid eid none (List.replicate n none) (List.replicate n none ++ [none])
      = some ([], List.replicate n none)
  | 0, _, _ => rfl
  | n + 1, nid, eid => by
    rw [List.replicate_succ, List.cons_append]
    unfold validEqns
    have hd : (List.replicate n (none : Option Sig) ++ [none]).head?.getD none = none := by
      cases n <;> rfl
    simp only [hd, validStep, orConstTrue, constexprSelect, constexprInv, constexprAnd, Bool.not_true,
      Bool.not_false]
    rw [validEqns_unconditional n]
    rfl

theorem stageSignal_replicate (n k : Nat) (h : k ≤ n) :
    stageSignal (some (List.replicate n none ++ [none])) k = some (.const true) ∧
    stageSignal (some (none :: List.replicate n none)) k = some (.const true) := by
  have h1 : List.replicate n (none : Option Sig) ++ [none] = List.replicate (n + 1) none :=
    List.replicate_succ'.symm
  have h2 : (none : Option Sig) :: List.replicate n none = List.replicate (n + 1) none :=
    List.replicate_succ.symm
  rw [h1, h2]
  simp only [stageSignal, List.getElem?_replicate, show k < n + 1 by omega, if_true]
  exact ⟨trivial, trivial⟩

/-- The stage of a local variable. -/
def localStage (l : List (Nat × Name × Expr)) (x : Name) : Nat :=
  ((l.find? fun p => decide (p.2.1 = x)).map (·.1)).getD 0

theorem localStage_mem : ∀ (l : List (Nat × Name × Expr)), (l.map (·.2.1)).Nodup → ∀ p ∈ l,
    localStage l p.2.1 = p.1
  | [], _, p, hp => by cases hp
  | q :: l, hn, p, hp => by
    simp only [List.map_cons, List.nodup_cons] at hn
    unfold localStage
    rcases List.mem_cons.1 hp with rfl | hp
    · simp
    · have : q.2.1 ≠ p.2.1 := fun he => hn.1 (he ▸ List.mem_map.2 ⟨p, hp, rfl⟩)
      simp only [List.find?_cons, this, decide_false]
      exact localStage_mem l hn.2 p hp

theorem binds_stage_le : ∀ (body : List Stmt) (k : Nat), ∀ b ∈ binds k body,
    b.stage ≤ k + stageAfter body
  | [], k, b, hb => by cases hb
  | .letS .. :: ss, k, b, hb => by
    rcases List.mem_cons.1 hb with rfl | hb
    · exact Nat.le_add_right _ _
    · exact binds_stage_le ss k b hb
  | .regS .. :: ss, k, b, hb => by
    rcases List.mem_cons.1 hb with rfl | hb
    · exact Nat.le_add_right _ _
    · exact binds_stage_le ss k b hb
  | .other :: ss, k, b, hb => binds_stage_le ss k b hb
  | .marker _ :: ss, k, b, hb => by
    have := binds_stage_le ss (k + 1) b hb
    simp only [stageAfter]
    omega

/-- **C27 (partial).**  In a pipeline without stall conditions, the generated signals carry the values
of tokens that move one stage per cycle (`Explains`): every reference in stage `k` reads the value that
belongs to the token that is in stage `k`, so a value computed in stage `j` and read in stage `k` is
read exactly `k - j` cycles later, and the output belongs to the input of `n` cycles before.

Missing: pipelines with stall conditions (C28), variables that are declared with `decl` and used in
an earlier stage than they are bound, and delayed values in `match`, `if` and inner blocks, where the
claim is false (C30). -/
theorem C27_values_stay_with_their_token_partial {V : Type} (I : Interp V) (σ : Sig → Nat → V)
    (inputs : List Var) (body : List Stmt) (result : Expr) (nid eid : Nat) (eqns : List Eqn)
    (out : RExpr) (hl : lowerUnit inputs body result nid eid = some (eqns, out))
    (hσ : ∀ q ∈ eqns, q.Holds I σ) (hu : Unconditional body) (hs : Scoped inputs body result)
    (hp : ∀ b ∈ binds 0 body, Straight b.value ∨ NoInst b.value)
    (hpr : Straight result ∨ NoInst result) :
    ∃ val, Explains I inputs body result (fun x c => σ (.name x) c) (fun c => out.eval I σ c) val := by
  unfold lowerUnit at hl
  split at hl
  · exact (nomatch hl)
  next p hp1 =>
  split at hl
  · exact (nomatch hl)
  next l c' hlow =>
  split at hl
  rotate_left
  · exact (nomatch hl)
  next l' r hstm hval =>
  simp only [Option.some.injEq, Prod.mk.injEq] at hl
  obtain ⟨rfl, rfl⟩ := hl
  unfold lowerPipeline at hp1
  simp only [reserveEnables_unconditional body nid hu] at hp1
  split at hp1
  · exact (nomatch hp1)
  next st hst =>
  split at hp1
  · exact (nomatch hp1)
  next ees _ hees =>
  have hconds := handleAll_conds body hu hst
  simp only [List.nil_append] at hconds
  rw [hconds, validEqns_unconditional] at hp1
  simp only at hp1
  split at hp1
  · exact (nomatch hp1)
  next latency hlat =>
  split at hp1
  · exact (nomatch hp1)
  next hl0 =>
  simp only [Option.some.injEq] at hp1
  subst hp1
  -- the table
  have hnd := (List.nodup_append.1 (List.nodup_append.1 hs.nodup).1)
  obtain ⟨decls', hinv, hbinds, hdecls', hmono, hstage⟩ :=
    handleAll_inv body (inv_inputs _ inputs nid eid hnd.1) hst (by
      have : (declsOf 0 0 inputs).map (·.v.name) = inputs.map (·.name) := by
        simp [declsOf, List.map_map, Function.comp_def]
      rw [this]
      exact (List.nodup_append.1 hs.nodup).1)
  have hin : (declsOf 0 0 inputs).map (·.v) = inputs := by
    simp [declsOf, List.map_map, Function.comp_def]
  simp only [Nat.zero_add] at hstage
  simp only [hin] at hbinds
  have hdecls : (declsOf 0 0 inputs ++ decls').map (·.v) = inputs ++ boundVars (binds 0 body) := by
    rw [List.map_append, hin, hdecls']
  have hnames : (declsOf 0 0 inputs ++ decls').map (·.v.name)
      = inputs.map (·.name) ++ (boundVars (binds 0 body)).map (·.name) := by
    have := congrArg (List.map (·.name)) hdecls
    simpa [List.map_map, Function.comp_def] using this
  generalize hD : declsOf 0 0 inputs ++ decls' = decls at *
  -- registers
  have hreg : ∀ k p n, RegIn (List.replicate (stageAfter body) none) st.eqns k p n →
      ∀ c, σ (.name n) (c + 1) = σ (.name p) c := by
    intro k p n hr c
    rcases hr with ⟨_, hr⟩ | ⟨en, id, he, _⟩
    · exact hσ (.reg (.name n) (.sig (.name p))) (by simp [hr]) c
    · rw [List.getElem?_replicate] at he
      split at he <;> exact (nomatch he)
  -- contexts
  have hctx : ∀ k, k ≤ stageAfter body → CtxOk st k
      ⟨{ st.subs with cur := k }, some (List.replicate (stageAfter body) none ++ [none],
        none :: List.replicate (stageAfter body) none)⟩ := by
    intro k hk
    obtain ⟨h1, h2⟩ := stageSignal_replicate (stageAfter body) k hk
    exact ⟨rfl, rfl, by rw [hstage]; exact hk, h1, h2⟩
  obtain ⟨hc', hlowered⟩ := lowerStmts_spec body hlow
  have hcur : st.subs.cur = 0 := hinv.cur
  rw [hcur] at hlowered
  simp only [hcur, Nat.zero_add] at hc'
  subst hc'
  -- locals
  have hlocnd : ((localBinds body result).map (·.2.1)).Nodup := (List.nodup_append.1 hs.nodup).2.1
  have hlocu : ∀ p ∈ localBinds body result, p.2.1 ∉ decls.map (·.v.name) := by
    intro p hp hmem
    rw [hnames] at hmem
    exact (List.nodup_append.1 hs.nodup).2.2 _ hmem _ (List.mem_map.2 ⟨p, hp, rfl⟩) rfl
  have hvis : ∀ b ∈ binds 0 body ++ [⟨stageAfter body, false, [], result⟩], ∀ x ∈ idents b.value,
      Visible decls (localStage (localBinds body result)) b.stage x := by
    intro b hb x hx
    rcases hs.visible b hb x hx with hx' | hx' | ⟨b', hb', hle, hx'⟩
    · obtain ⟨q, hq, rfl⟩ := List.mem_map.1 hx'
      have hmem : (b.stage, q) ∈ localBinds body result := by
        unfold localBinds
        rcases List.mem_append.1 hb with hb | hb
        · exact List.mem_append_left _ (List.mem_flatMap.2 ⟨b, hb, List.mem_map.2 ⟨q, hq, rfl⟩⟩)
        · rw [List.mem_singleton.1 hb] at hq ⊢
          exact List.mem_append_right _ (List.mem_map.2 ⟨q, hq, rfl⟩)
      exact .inl ⟨hlocu _ hmem, localStage_mem _ hlocnd _ hmem⟩
    · obtain ⟨v, hv, rfl⟩ := List.mem_map.1 hx'
      refine .inr ⟨⟨v, 0, 0⟩, ?_, rfl, Nat.zero_le _⟩
      rw [← hD]
      exact List.mem_append_left _ (List.mem_map.2 ⟨v, hv, rfl⟩)
    · obtain ⟨v, hv, rfl⟩ := List.mem_map.1 hx'
      obtain ⟨s, time, _, _, hdm⟩ := hbinds b' hb'
      refine .inr ⟨⟨v.1, b'.stage, time.getD 0⟩, ?_, rfl, hle⟩
      rw [← hD]
      exact List.mem_append_right _ (hdm v hv)
  -- delays
  have hready : ∀ b ∈ binds 0 body, ∃ d,
      ReadyAt (wireIn (inputs ++ boundVars (binds 0 body))) b.value d ∧
      ∀ v ∈ b.vars, (⟨v.1, b.stage, d⟩ : Decl) ∈ decls := by
    intro b hb
    obtain ⟨s, time, h1, h2, h3⟩ := hbinds b hb
    refine ⟨time.getD 0, C30_accepted_expressions_are_ready_partial s b.value time h2 (hp b hb) h1,
      fun v hv => ?_⟩
    rw [← hD]
    exact List.mem_append_right _ (h3 v hv)
  have hresready : ReadyAt (wireIn (inputs ++ boundVars (binds 0 body))) result 0 := by
    have := C30_accepted_expressions_are_ready_partial st.subs result latency
      (isWire := wireIn (inputs ++ boundVars (binds 0 body)))
      (fun x hx => by rw [← hdecls]; exact hinv.lookup_wire hx) hpr hlat
    have hz : latency.getD 0 = 0 := by simpa using hl0
    rwa [hz] at this
  have hsubl : ∀ q ∈ l, q.Holds I σ := fun q hq => hσ q (by simp [hq])
  have hbase : ∀ D ∈ decls, ∀ t : Int, 0 ≤ t + D.stage + D.delay →
      valOf σ st.subs decls (localStage (localBinds body result)) D.v.name t =
        σ (.name D.v.name) (t + D.stage + D.delay).toNat := by
    intro D hD t ht
    have := valOf_base σ st.subs decls (localStage (localBinds body result)) D.v.name
      (t + D.stage + D.delay).toNat
    rw [baseOf_decl hinv.nodup hD] at this
    rw [← this]
    congr 1
    omega
  have hmeanb : ∀ b ∈ binds 0 body, ∀ {d l1 r},
      ReadyAt (wireIn (inputs ++ boundVars (binds 0 body))) b.value d → 
      stmts ⟨{ st.subs with cur := b.stage }, some (List.replicate (stageAfter body) none ++ [none],
        none :: List.replicate (stageAfter body) none)⟩ b.value = some l1 →
      value ⟨{ st.subs with cur := b.stage }, some (List.replicate (stageAfter body) none ++ [none],
        none :: List.replicate (stageAfter body) none)⟩ b.value = some r →
      (∀ q ∈ l1, q ∈ l) → ∀ c : Nat, d ≤ c →
      r.eval I σ c = meaning I (valOf σ st.subs decls (localStage (localBinds body result)))
        (wireIn (inputs ++ boundVars (binds 0 body))) (fun x c => σ (.name x) c)
        ((c : Int) - d - b.stage) c b.value := by
    intro b hb d l1 r hr h1 h2 h3 c hc
    have := value_meaning I σ hinv hreg (localStage (localBinds body result))
      (hctx b.stage (by simpa using binds_stage_le body 0 b hb)) b.value (d := d)
      (by rw [hdecls]; exact hr) h2 h1 (fun q hq => hsubl q (h3 q hq))
      (hvis b (List.mem_append_left _ hb)) c hc
    rw [this]
    simp only [mean, hdecls]
  refine ⟨valOf σ st.subs decls (localStage (localBinds body result)), ?_, ?_, ?_, ?_, ?_, ?_⟩
  · -- inputs
    intro v hv c
    have := hbase ⟨v, 0, 0⟩ (by
      rw [← hD]
      exact List.mem_append_left _ (List.mem_map.2 ⟨v, hv, rfl⟩)) (c : Int) (by simp)
    simpa using this
  · -- let
    intro b hb hreg'
    obtain ⟨d, hrd, hdm⟩ := hready b hb
    refine ⟨d, hrd, fun v hv _ _ t ht => ?_⟩
    obtain ⟨l1, r, h1, h2, h3, h4⟩ := hlowered b hb
    simp only [hreg', Bool.false_eq_true, if_false] at h4
    have h5 := hsubl _ (h4 (.comb (.name v.1.name) (.op v.2 [r])) (List.mem_map.2 ⟨v, hv, rfl⟩))
      (t + b.stage + d).toNat
    rw [hbase _ (hdm v hv) t (by simp only; omega)]
    rw [h5]
    simp only [RExpr.eval, RExpr.evals]
    rw [hmeanb b hb hrd h1 h2 h3 _ (by omega)]
    have e1 : (((t + b.stage + d).toNat : Nat) : Int) - d - b.stage = t := by omega
    rw [e1]
  · -- reg
    intro b hb hreg'
    obtain ⟨d, hrd, hdm⟩ := hready b hb
    refine ⟨d, hrd, fun v hv _ _ t ht => ?_⟩
    obtain ⟨l1, r, h1, h2, h3, h4⟩ := hlowered b hb
    simp only [hreg', if_true] at h4
    obtain ⟨id, h4, h4'⟩ := h4
    have h5 := hsubl _ (h4' (.comb (.name v.1.name) (.op v.2 [.sig (.expr id)]))
      (List.mem_map.2 ⟨v, hv, rfl⟩)) (t + b.stage + d).toNat
    have h6 := hsubl _ h4 (t - 1 + b.stage + d).toNat
    rw [hbase _ (hdm v hv) t (by simp only; omega)]
    rw [h5]
    simp only [RExpr.eval, RExpr.evals]
    have e0 : (t + b.stage + d).toNat = (t - 1 + b.stage + d).toNat + 1 := by omega
    rw [e0, h6, hmeanb b hb hrd h1 h2 h3 _ (by omega)]
    have e1 : (((t - 1 + b.stage + d).toNat : Nat) : Int) - d - b.stage = t - 1 := by omega
    rw [e1]
  · -- wires
    intro b hb hreg'
    obtain ⟨d, hrd, hdm⟩ := hready b hb
    refine ⟨d, hrd, fun v hv _ c hc => ?_⟩
    obtain ⟨l1, r, h1, h2, h3, h4⟩ := hlowered b hb
    simp only [hreg', Bool.false_eq_true, if_false] at h4
    have h5 := hsubl _ (h4 (.comb (.name v.1.name) (.op v.2 [r])) (List.mem_map.2 ⟨v, hv, rfl⟩)) c
    rw [h5]
    simp only [RExpr.eval, RExpr.evals]
    rw [hmeanb b hb hrd h1 h2 h3 _ hc]
  · -- locals
    intro q hq t ht
    have hlo : ∀ (k : Nat) (e : Expr) (d : Nat) (l1 : List Eqn), k ≤ stageAfter body →
        ReadyAt (wireIn (inputs ++ boundVars (binds 0 body))) e d →
        stmts ⟨{ st.subs with cur := k }, some (List.replicate (stageAfter body) none ++ [none],
          none :: List.replicate (stageAfter body) none)⟩ e = some l1 →
        (∀ q ∈ l1, q.Holds I σ) →
        (∀ x ∈ idents e, Visible decls (localStage (localBinds body result)) k x) →
        ∀ p ∈ inner e, (k, p) ∈ localBinds body result → ∀ t : Int, 0 ≤ t + k →
        valOf σ st.subs decls (localStage (localBinds body result)) p.1 t =
          meaning I (valOf σ st.subs decls (localStage (localBinds body result)))
            (wireIn (inputs ++ boundVars (binds 0 body))) (fun x c => σ (.name x) c)
            t (t + k).toNat p.2 := by
      intro k e d l1 hk hrd h1 h2 h3 p hp hpl t ht
      have h4 := inner_meaning I σ hinv hreg (localStage (localBinds body result))
        (hctx k hk) e (by rw [hdecls]; exact hrd) h1 h2 h3 p hp (t + k).toNat
      have h5 := valOf_base σ st.subs decls (localStage (localBinds body result)) p.1 (t + k).toNat
      rw [baseOf_local (hlocu _ hpl), localStage_mem _ hlocnd _ hpl] at h5
      have e1 : (((t + k).toNat : Nat) : Int) - k = t := by omega
      rw [e1] at h4
      simp only [e1] at h5
      rw [h5, h4]
      simp only [mean, hdecls]
    rcases List.mem_append.1 hq with hq' | hq'
    · obtain ⟨b, hb, hq'⟩ := List.mem_flatMap.1 hq'
      obtain ⟨q', hq2, rfl⟩ := List.mem_map.1 hq'
      obtain ⟨d, hrd, _⟩ := hready b hb
      obtain ⟨l1, r, h1, h2, h3, h4⟩ := hlowered b hb
      exact hlo b.stage b.value d l1 (by simpa using binds_stage_le body 0 b hb) hrd h1
        (fun q hq => hsubl q (h3 q hq)) (hvis b (List.mem_append_left _ hb)) q' hq2 hq t ht
    · obtain ⟨q', hq2, rfl⟩ := List.mem_map.1 hq'
      exact hlo (stageAfter body) result 0 l' (Nat.le_refl _) hresready hstm
        (fun q hq => hσ q (by simp [hq])) (hvis _ (List.mem_append_right _ List.mem_cons_self))
        q' hq2 hq t ht
  · -- output
    intro c
    have := value_meaning I σ hinv hreg (localStage (localBinds body result))
      (hctx (stageAfter body) (Nat.le_refl _)) result (d := 0)
      (by rw [hdecls]; exact hresready) hval hstm (fun q hq => hσ q (by simp [hq]))
      (hvis ⟨stageAfter body, false, [], result⟩ (List.mem_append_right _ List.mem_cons_self)) c
      (Nat.zero_le _)
    rw [this]
    simp only [mean, hdecls]
    congr 1

/-- **C27, one reference.**  In a pipeline without stall conditions, let `v` be a variable bound in
stage `j` whose value is available `d` stages later.  A reference to `v` in stage `k` is accepted only
if `j + d ≤ k`, and reads what the signal of `v` carried exactly `k - (j + d)` cycles before. -/
theorem C27_reference_is_delayed {V : Type} (I : Interp V) (σ : Sig → Nat → V)
    (inputs : List Var) (body : List Stmt) (result : Expr) (nid eid : Nat) (p : Lowered)
    (hl : lowerPipeline inputs body result nid eid = some p)
    (hσ : ∀ q ∈ p.eqns, q.Holds I σ) (hu : Unconditional body)
    (hn : (inputs.map (·.name) ++ (boundVars (binds 0 body)).map (·.name)).Nodup)
    (b : Bind) (hb : b ∈ binds 0 body) (hp : Straight b.value ∨ NoInst b.value) :
    ∃ d, ReadyAt (wireIn (inputs ++ boundVars (binds 0 body))) b.value d ∧
    ∀ v ∈ b.vars, v.1.wire = false → v.1.zeroSized = false →
    ∀ k, b.stage ≤ k → k ≤ stageAfter body → ∀ r,
    value { p.ctx with subs := { p.ctx.subs with cur := k } } (.ident v.1.name) = some r →
    b.stage + d ≤ k ∧ ∀ c, r.eval I σ (c + (k - (b.stage + d))) = σ (.name v.1.name) c := by
  unfold lowerPipeline at hl
  simp only [reserveEnables_unconditional body nid hu] at hl
  split at hl
  · exact (nomatch hl)
  next st hst =>
  split at hl
  · exact (nomatch hl)
  next ees _ hees =>
  split at hl
  · exact (nomatch hl)
  next ves vs hves =>
  split at hl
  · exact (nomatch hl)
  next latency hlat =>
  split at hl
  · exact (nomatch hl)
  simp only [Option.some.injEq] at hl
  subst hl
  obtain ⟨decls', hinv, hbinds, hdecls', hmono, hstage⟩ :=
    handleAll_inv body (inv_inputs _ inputs nid eid (List.nodup_append.1 hn).1) hst (by
      have : (declsOf 0 0 inputs).map (·.v.name) = inputs.map (·.name) := by
        simp [declsOf, List.map_map, Function.comp_def]
      rw [this]
      exact hn)
  have hin : (declsOf 0 0 inputs).map (·.v) = inputs := by
    simp [declsOf, List.map_map, Function.comp_def]
  simp only [Nat.zero_add] at hstage
  simp only [hin] at hbinds
  have hreg : ∀ k p n, RegIn (List.replicate (stageAfter body) none) st.eqns k p n →
      ∀ c, σ (.name n) (c + 1) = σ (.name p) c := by
    intro k p n hr c
    rcases hr with ⟨_, hr⟩ | ⟨en, id, he, _⟩
    · exact hσ (.reg (.name n) (.sig (.name p))) (by simp [hr]) c
    · rw [List.getElem?_replicate] at he
      split at he <;> exact (nomatch he)
  obtain ⟨s, time, h1, h2, h3⟩ := hbinds b hb
  refine ⟨time.getD 0, C30_accepted_expressions_are_ready_partial s b.value time h2 hp h1, ?_⟩
  intro v hv hw hz k hjk hkn r hr
  have hD := List.mem_append_right (declsOf 0 0 inputs) (h3 v hv)
  have huse := (C30_use_not_before_ready hinv _ hD hw hz k (by rw [hstage]; exact hkn) hjk
    (some (List.replicate (stageAfter body) none ++ [none], none :: vs))).1
  have hle : b.stage + time.getD 0 ≤ k := huse.1 (by rw [hr]; rfl)
  refine ⟨hle, fun c => ?_⟩
  obtain ⟨n, hat, _⟩ := hinv.available hD hw hz hle (by rw [hstage]; exact hkn)
  have hl' : ({ st.subs with cur := k } : Subs).lookup v.1.name =
      (st.subs.at k v.1.name).getD (.available v.1.name) := rfl
  simp only [value, hl'] at hr
  simp only at hat
  rw [hat] at hr
  simp only [Option.getD_some, Option.some.injEq] at hr
  subst hr
  simp only [RExpr.eval]
  obtain ⟨_, hval⟩ := value_at σ hinv hreg (fun _ => 0) hD (by rw [hstage]; exact hkn) hat
  rw [hval]
  have h5 := valOf_base σ st.subs (declsOf 0 0 inputs ++ decls') (fun _ => 0) v.1.name c
  rw [baseOf_decl hinv.nodup hD] at h5
  rw [← h5]
  simp only
  congr 1
  omega

/-! ### An example -/

/-- Values for examples: terms. -/
inductive Term where
  | input (x : Name) (c : Nat)
  | start (n : Name)
  | lit (n : Nat)
  | op (f : Nat) (args : List Term)
  | sel (f : Nat) (s : Term) (arms : List Term)
  | bool (b : Bool)

/-- The interpretation by terms. -/
def terms : Interp Term where
  lit := .lit
  op := .op
  sel := .sel
  bool := .bool
  truth
    | .bool b => b
    | _ => true
  truth_bool _ := rfl

/-- ```
pipeline(2) ex(clk, a) { let b = f(a); reg; let c = inst(1) g(b); reg; h(b, c) }
``` -/
def exBody : List Stmt :=
  [.letS [(⟨1, false, false⟩, 9)] (.op 0 [.ident 0]), .marker none,
   .letS [(⟨2, false, false⟩, 9)] (.pipe 0 1 1 [.ident 1]), .marker none]

def exInputs : List Var := [⟨0, false, false⟩]

def exResult : Expr := .op 2 [.ident 1, .ident 2]

/-- The statements generated for it: `10`, `11` and `12`, `13` are the copies of `a` and `b`. -/
def exEqns : List Eqn :=
  [.reg (.name 10) (.sig (.name 0)), .reg (.name 11) (.sig (.name 1)),
   .reg (.name 12) (.sig (.name 10)), .reg (.name 13) (.sig (.name 11)),
   .comb (.name 1) (.op 9 [.op 0 [.sig (.name 0)]]),
   .inst (.expr 0) 1 1 [.sig (.name 11)],
   .comb (.name 2) (.op 9 [.sig (.expr 0)])]

theorem exLowered : lowerUnit exInputs exBody exResult 10 10 =
    some (exEqns, .op 2 [.sig (.name 13), .sig (.name 2)]) := rfl

/-- Signals that satisfy them. -/
def exSig : Sig → Nat → Term
  | .name 0, c => .input 0 c
  | .name 10, c + 1 => .input 0 c
  | .name 12, c + 2 => .input 0 c
  | .name 12, c + 1 => match c with
    | 0 => .start 10
    | c + 1 => .input 0 c
  | .name 1, c => .op 9 [.op 0 [.input 0 c]]
  | .name 11, c + 1 => .op 9 [.op 0 [.input 0 c]]
  | .name 13, c + 2 => .op 9 [.op 0 [.input 0 c]]
  | .name 13, c + 1 => match c with
    | 0 => .start 11
    | c + 1 => .op 9 [.op 0 [.input 0 c]]
  | .expr 0, c + 2 => .op 1 [.op 9 [.op 0 [.input 0 c]]]
  | .expr 0, c + 1 => match c with
    | 0 => .op 1 [.start 11]
    | c + 1 => .op 1 [.op 9 [.op 0 [.input 0 c]]]
  | .name 2, c + 2 => .op 9 [.op 1 [.op 9 [.op 0 [.input 0 c]]]]
  | .name 2, 1 => .op 9 [.op 1 [.start 11]]
  | .name 2, 0 => .op 9 [.lit 0]
  | .expr 0, 0 => .lit 0
  | .name n, _ => .start n
  | .expr _, _ => .lit 0

example : (∀ q ∈ exEqns, q.Holds terms exSig) ∧ Unconditional exBody ∧
    Scoped exInputs exBody exResult ∧
    (∀ b ∈ binds 0 exBody, Straight b.value ∨ NoInst b.value) ∧ (Straight exResult ∨ NoInst exResult) := by
  refine ⟨?_, ?_, ⟨by decide, ?_⟩, ?_, ?_⟩
  · intro q hq
    simp only [exEqns, List.mem_cons, List.not_mem_nil, or_false] at hq
    rcases hq with rfl | rfl | rfl | rfl | rfl | rfl | rfl <;>
      (intro c; match c with
        | 0 => rfl
        | 1 => rfl
        | c + 2 => rfl)
  · intro c hc
    simp only [exBody, List.mem_cons, List.not_mem_nil, or_false, Stmt.marker.injEq, reduceCtorEq,
      false_or] at hc
    rcases hc with hc | hc <;> exact hc
  · intro b hb x hx
    simp only [exBody, exInputs, exResult, binds, List.mem_append, List.mem_cons, List.not_mem_nil,
      or_false] at hb
    rcases hb with (rfl | rfl) | rfl <;>
      simp [idents, identsAll, inner, innerAll, exInputs, exBody, binds, exResult] at hx ⊢ <;>
      (try rcases hx with rfl | rfl) <;> simp_all [stageAfter]
  · intro b hb
    simp only [exBody, binds, List.mem_cons, List.not_mem_nil, or_false] at hb
    rcases hb with rfl | rfl <;> exact .inl (by simp [Straight, StraightAll])
  · exact .inl (by simp [exResult, Straight, StraightAll])

/-! ### Counterexamples -/

/-- `decl x; let y = f(x); reg; let x = g(a); y` -/
def declBody : List Stmt :=
  [.letS [(⟨2, false, false⟩, 9)] (.op 0 [.ident 1]), .marker none,
   .letS [(⟨1, false, false⟩, 9)] (.op 1 [.ident 0])]

def declEqns : List Eqn :=
  [.reg (.name 10) (.sig (.name 0)), .reg (.name 11) (.sig (.name 2)),
   .comb (.name 2) (.op 9 [.op 0 [.sig (.name 1)]]), .comb (.name 1) (.op 9 [.op 1 [.sig (.name 10)]])]

/-- Signals that satisfy the generated statements. -/
def declSig : Sig → Nat → Term
  | .name 0, c => .input 0 c
  | .name 10, c + 1 => .input 0 c
  | .name 10, 0 => .start 10
  | .name 1, c + 1 => .op 9 [.op 1 [.input 0 c]]
  | .name 1, 0 => .op 9 [.op 1 [.start 10]]
  | .name 2, c + 1 => .op 9 [.op 0 [.op 9 [.op 1 [.input 0 c]]]]
  | .name 2, 0 => .op 9 [.op 0 [.op 9 [.op 1 [.start 10]]]]
  | .name 11, c + 1 => match c with
    | c + 1 => .op 9 [.op 0 [.op 9 [.op 1 [.input 0 c]]]]
    | 0 => .op 9 [.op 0 [.op 9 [.op 1 [.start 10]]]]
  | _, _ => .lit 0

/-- **C27 counterexample, `decl`.**  `y` is computed in stage 0 from the signal of `x`, which belongs to
the token in stage 1.  No assignment of values to tokens explains the generated code. -/
theorem C27_counterexample_decl :
    lowerUnit exInputs declBody (.ident 2) 10 10 = some (declEqns, .sig (.name 11)) ∧
    (∀ q ∈ declEqns, q.Holds terms declSig) ∧
    ¬ ∃ val, Explains terms exInputs declBody (.ident 2) (fun x c => declSig (.name x) c)
      (fun c => (RExpr.sig (.name 11)).eval terms declSig c) val := by
  refine ⟨rfl, ?_, ?_⟩
  · intro q hq
    simp only [declEqns, List.mem_cons, List.not_mem_nil, or_false] at hq
    rcases hq with rfl | rfl | rfl | rfl <;>
      (intro c; match c with
        | 0 => rfl
        | c + 1 => rfl)
  · rintro ⟨val, h⟩
    have h0 := h.of_inputs ⟨0, false, false⟩ List.mem_cons_self 0
    obtain ⟨d1, hr1, h1⟩ := h.of_lets ⟨0, false, [(⟨2, false, false⟩, 9)], .op 0 [.ident 1]⟩
      List.mem_cons_self rfl
    obtain ⟨d2, hr2, h2⟩ := h.of_lets ⟨1, false, [(⟨1, false, false⟩, 9)], .op 1 [.ident 0]⟩
      (List.mem_cons_of_mem _ List.mem_cons_self) rfl
    have h3 := h1 _ List.mem_cons_self rfl rfl 0 (by decide)
    have h4 := h2 _ List.mem_cons_self rfl rfl 0 (by decide)
    have h5 := h.of_output 1
    have e : wireIn (exInputs ++ boundVars (binds 0 declBody)) = fun _ => false := by
      funext x
      simp [wireIn, exInputs, declBody, binds, boundVars]
    rw [e] at h3 h4 h5
    simp only [meaning, meanings, Bool.false_eq_true, if_false] at h3 h4 h5
    rw [h4] at h3
    have e' : ((1 : Nat) : Int) - (stageAfter declBody : Nat) = 0 := by decide
    have h0' : val 0 0 = Term.input 0 0 := h0
    rw [e', h3, h0'] at h5
    simp [RExpr.eval, declSig, terms] at h5

/-- **C27 counterexample, conditions.**  `pipeline(2) (a) { reg; reg[a]; a }`: the condition of the
second register statement is part of stage 1, but it is lowered with the substitutions of stage 0: it
reads `a` itself, the input of the present cycle, whereas a reference to `a` in stage 1 reads the
register `12`. -/
theorem C27_counterexample_condition :
    ∃ p, lowerPipeline exInputs [.marker none, .marker (some (0, .ident 0))] (.ident 0) 10 10 = some p ∧
      p.eqns[2]? = some (.comb (.expr 0) (.sig (.name 0))) ∧
      p.eqns[5]? = some (.alias (.name 10) (.expr 0)) ∧
      value { p.ctx with subs := { p.ctx.subs with cur := 1 } } (.ident 0) = some (.sig (.name 12)) :=
  ⟨_, rfl, rfl, rfl, rfl⟩

end Spade.Pipe

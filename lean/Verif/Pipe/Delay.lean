import Verif.Pipe.Ready

/-
C27: values in a pipeline reach the stage in which they are used in step with the input they belong
to.
-/

namespace Spade.Pipe

section
variable {V : Type} (I : Interp V) (σ : Sig → Nat → V)

/-! ### Statements of the body -/

/-- What is generated for a binding in its stage. -/
def BindLowered (c : Ctx) (l : List Eqn) (b : Bind) : Prop :=
  ∃ l1 r, stmts { c with subs := { c.subs with cur := b.stage } } b.value = some l1 ∧
    value { c with subs := { c.subs with cur := b.stage } } b.value = some r ∧
    (∀ q ∈ l1, q ∈ l) ∧
    (if b.isReg then
      ∃ id, Eqn.reg (.expr id) r ∈ l ∧ ∀ q ∈ patEqns b.vars (.sig (.expr id)), q ∈ l
    else ∀ q ∈ patEqns b.vars r, q ∈ l)

theorem BindLowered.mono {c l l' b} (h : BindLowered c l b) (hs : ∀ q ∈ l, q ∈ l') :
    BindLowered c l' b := by
  obtain ⟨l1, r, h1, h2, h3, h4⟩ := h
  refine ⟨l1, r, h1, h2, fun q hq => hs q (h3 q hq), ?_⟩
  split
  · next hr =>
    rw [if_pos hr] at h4
    obtain ⟨id, h5, h6⟩ := h4
    exact ⟨id, hs _ h5, fun q hq => hs q (h6 q hq)⟩
  · next hr =>
    rw [if_neg hr] at h4
    exact fun q hq => hs q (h4 q hq)

theorem lowerStmts_spec : ∀ (body : List Stmt) {c l c'}, lowerStmts c body = some (l, c') →
    c' = { c with subs := { c.subs with cur := c.subs.cur + stageAfter body } } ∧
    ∀ b ∈ binds c.subs.cur body, BindLowered c l b
  | [], c, l, c', h => by
    simp only [lowerStmts, Option.some.injEq, Prod.mk.injEq] at h
    obtain ⟨rfl, rfl⟩ := h
    exact ⟨rfl, fun b hb => (by cases hb)⟩
  | .letS vars e :: ss, c, l, c', h => by
    simp only [lowerStmts] at h
    split at h
    · next l1 r l' c1 h1 h2 h3 =>
      simp only [Option.some.injEq, Prod.mk.injEq] at h
      obtain ⟨rfl, rfl⟩ := h
      obtain ⟨h4, h5⟩ := lowerStmts_spec ss h3
      refine ⟨h4, fun b hb => ?_⟩
      rcases List.mem_cons.1 hb with rfl | hb
      · refine ⟨l1, r, h1, h2, fun q hq => by simp [hq], ?_⟩
        simp only [Bool.false_eq_true, if_false]
        exact fun q hq => by simp [hq]
      · exact (h5 b hb).mono (fun q hq => by simp [hq])
    · exact (nomatch h)
  | .regS id vars e :: ss, c, l, c', h => by
    simp only [lowerStmts] at h
    split at h
    · next l1 r l' c1 h1 h2 h3 =>
      simp only [Option.some.injEq, Prod.mk.injEq] at h
      obtain ⟨rfl, rfl⟩ := h
      obtain ⟨h4, h5⟩ := lowerStmts_spec ss h3
      refine ⟨h4, fun b hb => ?_⟩
      rcases List.mem_cons.1 hb with rfl | hb
      · refine ⟨l1, r, h1, h2, fun q hq => by simp [hq], ?_⟩
        simp only [if_true]
        exact ⟨id, by simp, fun q hq => by simp [hq]⟩
      · exact (h5 b hb).mono (fun q hq => by simp [hq])
    · exact (nomatch h)
  | .other :: ss, c, l, c', h => lowerStmts_spec ss h
  | .marker _ :: ss, c, l, c', h => by
    obtain ⟨h1, h2⟩ := lowerStmts_spec ss h
    refine ⟨?_, fun b hb => h2 b hb⟩
    rw [h1]
    simp only [stageAfter, Nat.add_assoc, Nat.add_comm 1]

/-! ### Values of variables -/

/-- The stage in which a variable has its own name. -/
def baseOf (decls : List Decl) (locals : Name → Nat) (x : Name) : Nat :=
  match decls.find? (fun D => decide (D.v.name = x)) with
  | some D => D.stage + D.delay
  | none => locals x

/-- The name that stands for a variable in a stage. -/
def nameAt (s : Subs) (k : Nat) (x : Name) : Name :=
  match s.at k x with
  | some (.available n) => n
  | _ => x

/-- The value of a variable for a token: what its signal carries when the token is in the stage where
the variable becomes available; for tokens that were in the pipeline in the beginning and had passed
that stage, what is in the register of their stage. -/
def valOf (s : Subs) (decls : List Decl) (locals : Name → Nat) (x : Name) (t : Int) : V :=
  if 0 ≤ t + baseOf decls locals x then σ (.name x) (t + baseOf decls locals x).toNat
  else σ (.name (nameAt s (-t).toNat x)) 0

theorem baseOf_decl {decls : List Decl} (hn : (decls.map (·.v.name)).Nodup) {D : Decl}
    (hD : D ∈ decls) (locals : Name → Nat) : baseOf decls locals D.v.name = D.stage + D.delay := by
  have : decls.find? (fun E => decide (E.v.name = D.v.name)) = some D := by
    induction decls with
    | nil => cases hD
    | cons E es ih =>
      simp only [List.map_cons, List.nodup_cons] at hn
      rcases List.mem_cons.1 hD with rfl | hD
      · simp
      · rw [List.find?_cons_of_neg, ih hn.2 hD]
        simp only [decide_eq_true_eq]
        intro he
        exact hn.1 (he ▸ List.mem_map.2 ⟨D, hD, rfl⟩)
  simp only [baseOf, this]

theorem baseOf_local {decls : List Decl} {x : Name} (hx : x ∉ decls.map (·.v.name))
    (locals : Name → Nat) : baseOf decls locals x = locals x := by
  have : decls.find? (fun E => decide (E.v.name = x)) = none := by
    rw [List.find?_eq_none]
    intro D hD
    simp only [decide_eq_true_eq]
    rintro rfl
    exact hx (List.mem_map.2 ⟨D, hD, rfl⟩)
  simp only [baseOf, this]

theorem valOf_base (s : Subs) (decls : List Decl) (locals : Name → Nat) (x : Name) (c : Nat) :
    valOf σ s decls locals x ((c : Int) - baseOf decls locals x) = σ (.name x) c := by
  unfold valOf
  rw [if_pos (by omega)]
  congr 1
  omega

theorem Inv.available {enables decls st} (h : Inv enables decls st) {D : Decl} (hD : D ∈ decls)
    (hw : D.v.wire = false) (hz : D.v.zeroSized = false) {k : Nat} (hk : D.stage + D.delay ≤ k)
    (hs : k ≤ st.stage) : ∃ n, st.subs.at k D.v.name = some (.available n) ∧
      (k = D.stage + D.delay → n = D.v.name) := by
  have he := h.entries D hD k hs
  simp only [Expect, show ¬ k < D.stage by omega, if_false, hw, hz, Bool.false_eq_true,
    show ¬ k < D.stage + D.delay by omega] at he
  split at he
  · exact ⟨_, he, fun _ => rfl⟩
  · next hne =>
    obtain ⟨n, hn⟩ := he
    exact ⟨n, hn, fun h => absurd h hne⟩

/-- Reading a variable in a later stage gives its value for the token in that stage. -/
theorem Inv.delayed {enables decls st} (h : Inv enables decls st)
    (hreg : ∀ k p n, RegIn enables st.eqns k p n → ∀ c, σ (.name n) (c + 1) = σ (.name p) c)
    (locals : Name → Nat) {D : Decl} (hD : D ∈ decls) (hw : D.v.wire = false)
    (hz : D.v.zeroSized = false) : ∀ (m : Nat) {n}, D.stage + D.delay + m ≤ st.stage →
    st.subs.at (D.stage + D.delay + m) D.v.name = some (.available n) →
    ∀ c : Nat, σ (.name n) c =
      valOf σ st.subs decls locals D.v.name ((c : Int) - (D.stage + D.delay + m : Nat))
  | 0, n, hm, ha, c => by
    obtain ⟨n', h1, h2⟩ := h.available hD hw hz (k := D.stage + D.delay + 0) (by omega) hm
    rw [ha] at h1
    simp only [Option.some.injEq, Sub.available.injEq] at h1
    rw [h1, h2 rfl]
    have := valOf_base σ st.subs decls locals D.v.name c
    rw [baseOf_decl h.nodup hD] at this
    exact this.symm
  | m + 1, n, hm, ha, c => by
    obtain ⟨p, n', h1, h2, h3⟩ := h.regs D hD hw hz (D.stage + D.delay + m) (by omega) (by omega)
    rw [show D.stage + D.delay + m + 1 = D.stage + D.delay + (m + 1) by omega, ha] at h2
    simp only [Option.some.injEq, Sub.available.injEq] at h2
    subst h2
    cases c with
    | zero =>
      unfold valOf
      rw [baseOf_decl h.nodup hD, if_neg (by omega)]
      have : (-(((0 : Nat) : Int) - (D.stage + D.delay + (m + 1) : Nat))).toNat
          = D.stage + D.delay + (m + 1) := by omega
      rw [this]
      simp only [nameAt, ha]
    | succ c =>
      rw [hreg _ _ _ h3 c, Inv.delayed h hreg locals hD hw hz m (by omega) h1 c]
      congr 1
      omega

/-! ### Expressions -/

/-- A variable that may be referred to in stage `k`: a local of the expression, or a variable bound
not later than in stage `k`. -/
def Visible (decls : List Decl) (locals : Name → Nat) (k : Nat) (x : Name) : Prop :=
  (x ∉ decls.map (·.v.name) ∧ locals x = k) ∨ ∃ D ∈ decls, D.v.name = x ∧ D.stage ≤ k

/-- The context in which the expressions of stage `k` are lowered, in a pipeline that does not
stall. -/
structure CtxOk (st : St) (k : Nat) (c : Ctx) : Prop where
  cur : c.subs.cur = k
  inner : c.subs.inner = st.subs.inner
  le : k ≤ st.stage
  ready : stageSignal (c.signals.map (·.1)) k = some (.const true)
  valid : stageSignal (c.signals.map (·.2)) k = some (.const true)

theorem wireIn_decl {decls : List Decl} (hn : (decls.map (·.v.name)).Nodup) {D : Decl}
    (hD : D ∈ decls) : wireIn (decls.map (·.v)) D.v.name = (D.v.wire || D.v.zeroSized) := by
  induction decls with
  | nil => cases hD
  | cons E es ih =>
    simp only [List.map_cons, List.nodup_cons] at hn
    simp only [wireIn, List.map_cons, List.any_cons]
    rcases List.mem_cons.1 hD with rfl | hD
    · have : (es.map (·.v)).any (fun v => decide (v.name = D.v.name) && (v.wire || v.zeroSized))
          = false := by
        rw [List.any_eq_false]
        intro v hv
        obtain ⟨E, hE, rfl⟩ := List.mem_map.1 hv
        have : E.v.name ≠ D.v.name := fun he => hn.1 (he ▸ List.mem_map.2 ⟨E, hE, rfl⟩)
        simp [this]
      rw [this]
      simp
    · have : E.v.name ≠ D.v.name := fun he => hn.1 (he ▸ List.mem_map.2 ⟨D, hD, rfl⟩)
      simp only [this, decide_false, Bool.false_and, Bool.false_or]
      exact ih hn.2 hD

theorem wireIn_undecl {decls : List Decl} {x : Name} (hx : x ∉ decls.map (·.v.name)) :
    wireIn (decls.map (·.v)) x = false := by
  simp only [wireIn, List.any_eq_false]
  intro v hv
  obtain ⟨E, hE, rfl⟩ := List.mem_map.1 hv
  have : E.v.name ≠ x := fun he => hx (he ▸ List.mem_map.2 ⟨E, hE, rfl⟩)
  simp [this]

section Exprs
variable {enables : List (Option Sig)} {decls : List Decl} {st : St} (h : Inv enables decls st)
  (hreg : ∀ k p n, RegIn enables st.eqns k p n → ∀ c, σ (.name n) (c + 1) = σ (.name p) c)
  (locals : Name → Nat)

/-- The meaning of an expression with the values of `valOf`. -/
abbrev mean (st : St) (decls : List Decl) (locals : Name → Nat) : Int → Nat → Expr → V :=
  meaning I (valOf σ st.subs decls locals) (wireIn (decls.map (·.v))) (fun x c => σ (.name x) c)

abbrev means (st : St) (decls : List Decl) (locals : Name → Nat) : Int → Nat → List Expr → List V :=
  meanings I (valOf σ st.subs decls locals) (wireIn (decls.map (·.v))) (fun x c => σ (.name x) c)

theorem app_some {a b : Option (List Eqn)} {l} (h : app a b = some l) :
    ∃ x y, a = some x ∧ b = some y ∧ l = x ++ y := by
  unfold app at h
  split at h
  · next x y =>
    simp only [Option.some.injEq] at h
    exact ⟨x, y, rfl, rfl, h.symm⟩
  · exact (nomatch h)

include h hreg in
theorem value_at {D : Decl} (hD : D ∈ decls) {k : Nat} {n : Name} (hks : k ≤ st.stage)
    (ha : st.subs.at k D.v.name = some (.available n)) :
    wireIn (decls.map (·.v)) D.v.name = false ∧ ∀ c : Nat, σ (.name n) c =
      valOf σ st.subs decls locals D.v.name ((c : Int) - k) := by
  have he := h.entries D hD k hks
  rw [ha] at he
  unfold Expect at he
  split at he
  · exact (nomatch he)
  · split at he
    · exact (nomatch he)
    · next hw =>
      split at he
      · exact (nomatch he)
      · next hz =>
        split at he
        · exact (nomatch he)
        · next hlt =>
          have hw' : D.v.wire = false := by simpa using hw
          have hz' : D.v.zeroSized = false := by simpa using hz
          refine ⟨by rw [wireIn_decl h.nodup hD, hw', hz']; rfl, fun c => ?_⟩
          obtain ⟨m, rfl⟩ : ∃ m, k = D.stage + D.delay + m := ⟨k - (D.stage + D.delay), by omega⟩
          exact h.delayed σ hreg locals hD hw' hz' m hks ha c

include h in
theorem wire_at {D : Decl} (hD : D ∈ decls) {k : Nat} (hks : k ≤ st.stage)
    (ha : st.subs.at k D.v.name = some .wire ∨ st.subs.at k D.v.name = some .zeroSized) :
    wireIn (decls.map (·.v)) D.v.name = true := by
  have he := h.entries D hD k hks
  rw [wireIn_decl h.nodup hD]
  unfold Expect at he
  split at he
  · rw [he] at ha
    rcases ha with ha | ha <;> exact (nomatch ha)
  · split at he
    · next hw => rw [hw]; rfl
    · split at he
      · next hz => rw [hz]; simp
      · split at he
        · rw [he] at ha
          rcases ha with ha | ha <;> exact (nomatch ha)
        · split at he
          · rw [he] at ha
            rcases ha with ha | ha <;> exact (nomatch ha)
          · obtain ⟨n, he⟩ := he
            rw [he] at ha
            rcases ha with ha | ha <;> exact (nomatch ha)

include h hreg

mutual
theorem value_meaning {k : Nat} {c : Ctx} (hc : CtxOk st k c) : ∀ (e : Expr) {d r l},
    ReadyAt (wireIn (decls.map (·.v))) e d → value c e = some r → stmts c e = some l →
    (∀ q ∈ l, q.Holds I σ) → (∀ x ∈ idents e, Visible decls locals k x) →
    ∀ t : Nat, d ≤ t → r.eval I σ t = mean I σ st decls locals ((t : Int) - d - k) t e
  | .ident x, d, r, l, hr, hv, _, _, hx, t, hdt => by
    have hl : c.subs.lookup x = (st.subs.at k x).getD (.available x) := by
      simp only [Subs.lookup, hc.cur, hc.inner, Subs.at]
    simp only [value, hl] at hv
    show _ = if wireIn (decls.map (·.v)) x then σ (.name x) t else _
    rcases hx x (by simp [idents]) with ⟨hu, hloc⟩ | ⟨D, hD, rfl, hDk⟩
    · rw [h.undecl x hu k] at hv
      simp only [Option.getD_none, Option.some.injEq] at hv
      subst hv
      have hwf := wireIn_undecl hu
      have hd : d = 0 := by
        rcases hr with hr | hr
        · rw [hwf] at hr; exact (nomatch hr)
        · exact hr
      subst hd
      rw [hwf]
      simp only [Bool.false_eq_true, if_false, RExpr.eval]
      have := valOf_base σ st.subs decls locals x t
      rw [baseOf_local hu, hloc] at this
      rw [← this]
      congr 1
    · have hex := h.entries D hD k hc.le
      cases hat : st.subs.at k D.v.name with
      | none =>
        exfalso
        rw [hat] at hex
        unfold Expect at hex
        rw [if_neg (by omega)] at hex
        split at hex
        · exact (nomatch hex)
        · split at hex
          · exact (nomatch hex)
          · split at hex
            · exact (nomatch hex)
            · split at hex
              · exact (nomatch hex)
              · obtain ⟨n, hn⟩ := hex; exact (nomatch hn)
      | some sub =>
        rw [hat] at hv
        simp only [Option.getD_some] at hv
        cases sub with
        | waiting a b c' d' => exact (nomatch hv)
        | available n =>
          simp only [Option.some.injEq] at hv
          subst hv
          obtain ⟨hwf, hval⟩ := value_at σ h hreg locals hD hc.le hat
          have hd : d = 0 := by
            rcases hr with hr | hr
            · rw [hwf] at hr; exact (nomatch hr)
            · exact hr
          subst hd
          rw [hwf]
          simp only [Bool.false_eq_true, if_false, RExpr.eval]
          rw [hval t]
          congr 1
        | wire =>
          simp only [Option.some.injEq] at hv
          subst hv
          rw [wire_at h hD hc.le (.inl hat)]
          rfl
        | zeroSized =>
          simp only [Option.some.injEq] at hv
          subst hv
          rw [wire_at h hD hc.le (.inr hat)]
          rfl
  | .pref k' x, d, r, l, hr, hv, _, _, hx, t, hdt => by
    show _ = if wireIn (decls.map (·.v)) x then σ (.name x) t else _
    by_cases hk' : k' ≤ st.stage
    · have hl : c.subs.lookupReferenced k' x = st.subs.at k' x := by
        have : k' < st.subs.inner.length := by rw [h.len]; omega
        simp [Subs.lookupReferenced, hc.inner, Subs.at, List.getElem?_eq_getElem this]
      simp only [value, hl] at hv
      by_cases hu : x ∈ decls.map (·.v.name)
      · obtain ⟨D, hD, rfl⟩ := List.mem_map.1 hu
        cases hat : st.subs.at k' D.v.name with
        | none => rw [hat] at hv; exact (nomatch hv)
        | some sub =>
          rw [hat] at hv
          cases sub with
          | waiting a b c' d' => exact (nomatch hv)
          | available n =>
            simp only [Option.some.injEq] at hv
            subst hv
            obtain ⟨hwf, hval⟩ := value_at σ h hreg locals hD hk' hat
            rw [hwf]
            simp only [Bool.false_eq_true, if_false, RExpr.eval]
            exact hval t
          | wire =>
            simp only [Option.some.injEq] at hv
            subst hv
            rw [wire_at h hD hk' (.inl hat)]
            rfl
          | zeroSized =>
            simp only [Option.some.injEq] at hv
            subst hv
            rw [wire_at h hD hk' (.inr hat)]
            rfl
      · rw [h.undecl x hu k'] at hv
        exact (nomatch hv)
    · exfalso
      have : c.subs.lookupReferenced k' x = none := by
        have : st.subs.inner.length ≤ k' := by rw [h.len]; omega
        simp [Subs.lookupReferenced, hc.inner, List.getElem?_eq_none this]
      simp only [value, this] at hv
      exact (nomatch hv)
  | .lit n, d, r, l, _, hv, _, _, _, t, _ => by
    simp only [value, Option.some.injEq] at hv
    subst hv
    rfl
  | .op f args, d, r, l, hr, hv, hs, hq, hx, t, hdt => by
    simp only [value, Option.map_eq_some_iff] at hv
    obtain ⟨rs, hrs, rfl⟩ := hv
    show I.op f _ = I.op f _
    rw [values_meaning hc args hr hrs (by simpa only [stmts] using hs) hq
      (by simpa only [idents] using hx) t hdt]
  | .sel f s arms, d, r, l, hr, hv, hs, hq, hx, t, hdt => by
    simp only [value] at hv
    split at hv
    · exact (nomatch hv)
    · next rs hrs =>
      simp only [Option.map_eq_some_iff] at hv
      obtain ⟨ras, hras, rfl⟩ := hv
      simp only [stmts] at hs
      obtain ⟨l1, l2, h1, h2, rfl⟩ := app_some hs
      simp only [idents, List.mem_append] at hx
      show I.sel f _ _ = I.sel f _ _
      rw [value_meaning hc s hr.1 hrs h1 (fun q hq' => hq q (List.mem_append_left _ hq'))
          (fun x hx' => hx x (.inl hx')) t hdt,
        values_meaning hc arms hr.2 hras h2 (fun q hq' => hq q (List.mem_append_right _ hq'))
          (fun x hx' => hx x (.inr hx')) t hdt]
  | .block names vs r', d, r, l, hr, hv, hs, hq, hx, t, hdt => by
    simp only [stmts] at hs
    obtain ⟨l1, l2, h1, h2, rfl⟩ := app_some hs
    simp only [idents, List.mem_append] at hx
    exact value_meaning hc r' hr.2 (by simpa only [value] using hv) h2
      (fun q hq' => hq q (List.mem_append_right _ hq')) (fun x hx' => hx x (.inr hx')) t hdt
  | .pipe id f depth args, d, r, l, hr, hv, hs, hq, hx, t, hdt => by
    obtain ⟨d', rfl, hr⟩ := hr
    simp only [value, Option.some.injEq] at hv
    subst hv
    simp only [stmts] at hs
    split at hs
    · exact (nomatch hs)
    · next rs hrs =>
      obtain ⟨l1, l2, h1, h2, rfl⟩ := app_some hs
      simp only [Option.some.injEq] at h2
      subst h2
      have hi := hq (.inst (.expr id) f depth rs) (by simp) (t - depth)
      rw [show t - depth + depth = t by omega] at hi
      show σ (.expr id) t = I.op f (meanings _ _ _ _ _ (t - depth) args)
      rw [hi, values_meaning hc args hr hrs h1 (fun q hq' => hq q (List.mem_append_left _ hq'))
        (by simpa only [idents] using hx) (t - depth) (by omega)]
      congr 2
      omega
  | .stageReady, d, r, l, _, hv, _, _, _, t, _ => by
    simp only [value, hc.cur, hc.ready, Option.some.injEq] at hv
    subst hv
    rfl
  | .stageValid, d, r, l, _, hv, _, _, _, t, _ => by
    simp only [value, hc.cur, hc.valid, Option.some.injEq] at hv
    subst hv
    rfl

theorem values_meaning {k : Nat} {c : Ctx} (hc : CtxOk st k c) : ∀ (es : List Expr) {d rs l},
    ReadyAllAt (wireIn (decls.map (·.v))) es d → values c es = some rs → stmtsAll c es = some l →
    (∀ q ∈ l, q.Holds I σ) → (∀ x ∈ identsAll es, Visible decls locals k x) →
    ∀ t : Nat, d ≤ t → RExpr.evals I σ t rs = means I σ st decls locals ((t : Int) - d - k) t es
  | [], d, rs, l, _, hv, _, _, _, t, _ => by
    simp only [values, Option.some.injEq] at hv
    subst hv
    rfl
  | e :: es, d, rs, l, hr, hv, hs, hq, hx, t, hdt => by
    simp only [values] at hv
    split at hv
    · next r1 rs1 hv1 hv2 =>
      simp only [Option.some.injEq] at hv
      subst hv
      simp only [stmtsAll] at hs
      obtain ⟨l1, l2, h1, h2, rfl⟩ := app_some hs
      simp only [identsAll, List.mem_append] at hx
      show _ :: _ = _ :: _
      rw [value_meaning hc e hr.1 hv1 h1 (fun q hq' => hq q (List.mem_append_left _ hq'))
          (fun x hx' => hx x (.inl hx')) t hdt,
        values_meaning hc es hr.2 hv2 h2 (fun q hq' => hq q (List.mem_append_right _ hq'))
          (fun x hx' => hx x (.inr hx')) t hdt]
    · exact (nomatch hv)
end

/-- What a binding of an inner block has to satisfy. -/
def LocalOk (st : St) (decls : List Decl) (locals : Name → Nat) (k : Nat) (p : Name × Expr) : Prop :=
  ∀ t : Nat, σ (.name p.1) t = mean I σ st decls locals ((t : Int) - k) t p.2

mutual
theorem inner_meaning {k : Nat} {c : Ctx} (hc : CtxOk st k c) : ∀ (e : Expr) {d l},
    ReadyAt (wireIn (decls.map (·.v))) e d → stmts c e = some l →
    (∀ q ∈ l, q.Holds I σ) → (∀ x ∈ idents e, Visible decls locals k x) →
    ∀ p ∈ inner e, LocalOk I σ st decls locals k p
  | .ident x, d, l, _, _, _, _, p, hp => by simp [inner] at hp
  | .pref _ _, d, l, _, _, _, _, p, hp => by simp [inner] at hp
  | .lit _, d, l, _, _, _, _, p, hp => by simp [inner] at hp
  | .op f args, d, l, hr, hs, hq, hx, p, hp =>
    innerAll_meaning hc args hr (by simpa only [stmts] using hs) hq
      (by simpa only [idents] using hx) p (by simpa only [inner] using hp)
  | .sel f s arms, d, l, hr, hs, hq, hx, p, hp => by
    simp only [stmts] at hs
    obtain ⟨l1, l2, h1, h2, rfl⟩ := app_some hs
    simp only [idents, List.mem_append] at hx
    simp only [inner, List.mem_append] at hp
    rcases hp with hp | hp
    · exact inner_meaning hc s hr.1 h1 (fun q hq' => hq q (List.mem_append_left _ hq'))
        (fun x hx' => hx x (.inl hx')) p hp
    · exact innerAll_meaning hc arms hr.2 h2 (fun q hq' => hq q (List.mem_append_right _ hq'))
        (fun x hx' => hx x (.inr hx')) p hp
  | .block names vs r', d, l, hr, hs, hq, hx, p, hp => by
    simp only [stmts] at hs
    obtain ⟨l1, l2, h1, h2, rfl⟩ := app_some hs
    simp only [idents, List.mem_append] at hx
    simp only [inner, List.mem_append] at hp
    rcases hp with hp | hp
    · exact block_meaning hc vs names hr.1 h1 (fun q hq' => hq q (List.mem_append_left _ hq'))
        (fun x hx' => hx x (.inl hx')) p (by simpa using hp)
    · exact inner_meaning hc r' hr.2 h2 (fun q hq' => hq q (List.mem_append_right _ hq'))
        (fun x hx' => hx x (.inr hx')) p hp
  | .pipe id f depth args, d, l, hr, hs, hq, hx, p, hp => by
    obtain ⟨d', rfl, hr⟩ := hr
    simp only [stmts] at hs
    split at hs
    · exact (nomatch hs)
    · next rs hrs =>
      obtain ⟨l1, l2, h1, h2, rfl⟩ := app_some hs
      exact innerAll_meaning hc args hr h1 (fun q hq' => hq q (List.mem_append_left _ hq'))
        (by simpa only [idents] using hx) p (by simpa only [inner] using hp)
  | .stageReady, d, l, _, _, _, _, p, hp => by simp [inner] at hp
  | .stageValid, d, l, _, _, _, _, p, hp => by simp [inner] at hp

theorem innerAll_meaning {k : Nat} {c : Ctx} (hc : CtxOk st k c) : ∀ (es : List Expr) {d l},
    ReadyAllAt (wireIn (decls.map (·.v))) es d → stmtsAll c es = some l →
    (∀ q ∈ l, q.Holds I σ) → (∀ x ∈ identsAll es, Visible decls locals k x) →
    ∀ p ∈ innerAll es, LocalOk I σ st decls locals k p
  | [], d, l, _, _, _, _, p, hp => by simp [innerAll] at hp
  | e :: es, d, l, hr, hs, hq, hx, p, hp => by
    simp only [stmtsAll] at hs
    obtain ⟨l1, l2, h1, h2, rfl⟩ := app_some hs
    simp only [identsAll, List.mem_append] at hx
    simp only [innerAll, List.mem_append] at hp
    rcases hp with hp | hp
    · exact inner_meaning hc e hr.1 h1 (fun q hq' => hq q (List.mem_append_left _ hq'))
        (fun x hx' => hx x (.inl hx')) p hp
    · exact innerAll_meaning hc es hr.2 h2 (fun q hq' => hq q (List.mem_append_right _ hq'))
        (fun x hx' => hx x (.inr hx')) p hp

theorem block_meaning {k : Nat} {c : Ctx} (hc : CtxOk st k c) : ∀ (es : List Expr) (names : List Name) {l},
    ReadyAllAt (wireIn (decls.map (·.v))) es 0 → stmtsBlock c names es = some l →
    (∀ q ∈ l, q.Holds I σ) → (∀ x ∈ identsAll es, Visible decls locals k x) →
    ∀ p, p ∈ names.zip es ∨ p ∈ innerAll es → LocalOk I σ st decls locals k p
  | [], names, l, _, _, _, _, p, hp => by simp [innerAll] at hp
  | e :: es, [], l, _, hs, _, _, p, hp => by simp [stmtsBlock] at hs
  | e :: es, x :: xs, l, hr, hs, hq, hx, p, hp => by
    simp only [stmtsBlock] at hs
    split at hs
    · exact (nomatch hs)
    · next r hv =>
      obtain ⟨l1, l2, h1, h2, rfl⟩ := app_some hs
      obtain ⟨l3, l4, h3, h4, rfl⟩ := app_some h2
      simp only [Option.some.injEq] at h3
      subst h3
      simp only [identsAll, List.mem_append] at hx
      simp only [innerAll, List.mem_append, List.zip_cons_cons, List.mem_cons] at hp
      have hrest := fun hp => block_meaning hc es xs hr.2 h4 (fun q hq' => hq q (by simp [hq']))
        (fun x hx' => hx x (.inr hx')) p hp
      rcases hp with (rfl | hp) | hp | hp
      · intro t
        have h5 := hq (.comb (.name x) r) (by simp) t
        rw [h5, value_meaning I σ h hreg locals hc e hr.1 hv h1 (fun q hq' => hq q (by simp [hq']))
          (fun x hx' => hx x (.inl hx')) t (Nat.zero_le _)]
        simp
      · exact hrest (.inl hp)
      · exact inner_meaning hc e hr.1 h1 (fun q hq' => hq q (by simp [hq']))
          (fun x hx' => hx x (.inl hx')) p hp
      · exact hrest (.inr hp)
end

end Exprs
end

end Spade.Pipe

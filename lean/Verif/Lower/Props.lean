import Verif.Lower.Value
import Verif.Match.Props
/-!
# C05: a `match` selects its first matching arm
-/
namespace Spade.Lower
open Spade.Verilog Spade.Codegen
open Spade.Match (Val Matches MatchesAll HasTy HasTys PatTy PatTys)

section
variable {Γ : Nat → MTy} {ρ : Env} {xs : Nat → Nat → Bool}

/-! ## The variables of a pattern -/

mutual
theorem lowerPat_binds : ∀ (p : LPat) (x nid : Nat) (r : List Stmt × Nat) (v : Val),
    Γ x = p.ty → Enc p.ty v (ρ (fwd x)) → Γ p.name = p.ty → Enc p.ty v (ρ (fwd p.name)) →
    p.Ok → p.Readable → p.ty.size ≤ 2 ^ 32 →
    lowerPat p x nid = some r → (∀ s ∈ r.1, Holds Γ ρ xs s) → Matches p.src v →
    ∀ n t w, (n, t, w) ∈ p.binds v → Γ n = t ∧ Enc t w (ρ (fwd n))
  | .int _ _ _, x, nid, r, v, hx, he, hx', he', ho, hr, h32, hl, hls, hm, n, t, w, hb => by
    simp [LPat.binds] at hb
  | .bool _ _, x, nid, r, v, hx, he, hx', he', ho, hr, h32, hl, hls, hm, n, t, w, hb => by
    simp [LPat.binds] at hb
  | .bound _ _, x, nid, r, v, hx, he, hx', he', ho, hr, h32, hl, hls, hm, n, t, w, hb => by
    simp only [LPat.binds, List.mem_singleton, Prod.mk.injEq] at hb
    obtain ⟨rfl, rfl, rfl⟩ := hb
    exact ⟨hx', he'⟩
  | .boundInner _ _ p, x, nid, r, v, hx, he, hx', he', ho, hr, h32, hl, hls, hm, n, t, w, hb => by
    simp only [LPat.binds, List.mem_cons, Prod.mk.injEq] at hb
    rcases hb with ⟨rfl, rfl, rfl⟩ | hb
    · exact ⟨hx', he'⟩
    simp only [lowerPat, Option.bind_eq_bind, Option.bind_eq_some_iff, Option.some.injEq] at hl
    obtain ⟨r1, h1, rfl⟩ := hl
    simp only [List.mem_cons, forall_eq_or_imp] at hls
    simp only [LPat.Ok] at ho
    simp only [LPat.ty, ← ho.1] at he h32
    simp only [LPat.src, Matches] at hm
    have ha := holds_alias hls.1 (enc_length he)
    have he2 : Enc p.ty v (ρ (fwd p.name)) := ha ▸ he
    exact lowerPat_binds p p.name nid r1 v hls.1.bind.1 he2 hls.1.bind.1 he2 ho.2 hr h32 h1 hls.2 hm
      n t w hb
  | .tuple _ _ ps, x, nid, r, v, hx, he, hx', he', ho, hr, h32, hl, hls, hm, n, t, w, hb => by
    simp only [lowerPat] at hl
    simp only [LPat.Ok] at ho
    obtain ⟨rfl, ho⟩ := ho
    simp only [LPat.ty, MTy.size] at hx he h32
    clear he'
    generalize hxb : ρ (fwd x) = xb at he
    cases he with
    | tuple he =>
    exact sub_binds ps _ (tuple_sub (by rw [hx]; rfl) he hxb h32 hl hls) ho hr
      (fun p hp => Nat.le_trans (size_le_sizes (List.mem_map_of_mem hp)) h32)
      (by simpa [LPat.src, Matches] using hm) n t w (by simpa [LPat.binds] using hb)
  | .array _ _ ps, x, nid, r, v, hx, he, hx', he', ho, hr, h32, hl, hls, hm, n, t, w, hb => by
    simp only [lowerPat, Option.bind_eq_bind, Option.bind_eq_some_iff] at hl
    obtain ⟨w', hw, hl⟩ := hl
    simp only [LPat.Ok] at ho
    obtain ⟨⟨e, rfl, hps⟩, ho⟩ := ho
    simp only [LPat.ty] at hx he h32
    clear he'
    generalize hxb : ρ (fwd x) = xb at he
    cases he with
    | array he =>
    rw [← hps] at he
    have hsz : ∀ p ∈ ps, p.ty.size ≤ 2 ^ 32 := by
      intro p hp
      have h1 := size_le_sizes (List.mem_map_of_mem (f := LPat.ty) hp)
      rw [hps, sizes_replicate] at h1
      simp only [MTy.size] at h32
      exact Nat.le_trans h1 h32
    exact sub_binds ps _ (array_sub hx rfl hw hps he hxb h32 hl hls) ho hr hsz
      (by simpa [LPat.src, Matches] using hm) n t w (by simpa [LPat.binds] using hb)
  | .struct _ _ ps, x, nid, r, v, hx, he, hx', he', ho, hr, h32, hl, hls, hm, n, t, w, hb => by
    simp only [lowerPat] at hl
    simp only [LPat.Ok] at ho
    obtain ⟨rfl, ho⟩ := ho
    simp only [LPat.ty, MTy.size] at hx he h32
    clear he'
    generalize hxb : ρ (fwd x) = xb at he
    cases he with
    | struct he =>
    exact sub_binds ps _ (tuple_sub (by rw [hx]; rfl) he hxb h32 hl hls) ho hr
      (fun p hp => Nat.le_trans (size_le_sizes (List.mem_map_of_mem hp)) h32)
      (by simpa [LPat.src, Matches] using hm) n t w (by simpa [LPat.binds] using hb)
  | .variant _ _ i ps, x, nid, r, v, hx, he, hx', he', ho, hr, h32, hl, hls, hm, n, t, w, hb => by
    simp only [lowerPat] at hl
    simp only [LPat.Ok] at ho
    obtain ⟨⟨opts, rfl, hv⟩, ho⟩ := ho
    simp only [LPat.ty] at hx he h32
    clear he'
    generalize hxb : ρ (fwd x) = xb at he
    cases he with
    | enum hv' he hpad =>
    simp only [LPat.src, Matches] at hm
    obtain ⟨rfl, hm⟩ := hm
    rw [hv] at hv'
    cases hv'
    have hsz : ∀ p ∈ ps, p.ty.size ≤ 2 ^ 32 := by
      intro p hp
      have h1 := size_le_sizes (List.mem_map_of_mem (f := LPat.ty) hp)
      have h2 := sizes_le_max hv
      simp only [MTy.size] at h32
      omega
    exact sub_binds ps _ (variant_sub hx hv he hpad hxb (hr.1 opts rfl) hl hls) ho hr.2 hsz hm n t w
      (by simpa [LPat.binds] using hb)
theorem sub_binds : ∀ (ps : List LPat) (vs : List Val), Sub Γ ρ xs ps vs → Oks ps →
    Readables ps → (∀ p ∈ ps, p.ty.size ≤ 2 ^ 32) → MatchesAll (srcs ps) vs →
    ∀ n t w, (n, t, w) ∈ bindsAll ps vs → Γ n = t ∧ Enc t w (ρ (fwd n))
  | [], vs, hsub, ho, hr, h32, hm, n, t, w, hb => by simp [bindsAll] at hb
  | p :: ps, _, .cons (v := v) (vs := vs') h1 h2 h3 h4 h5, ho, hr, h32, hm, n, t, w, hb => by
    simp only [List.mem_cons, forall_eq_or_imp] at h32
    simp only [srcs, MatchesAll] at hm
    simp only [bindsAll, List.mem_append] at hb
    rcases hb with hb | hb
    · exact lowerPat_binds p p.name _ _ v h1 h2 h1 h2 ho.1 hr.1 h32.1 h3 h4 hm.1 n t w hb
    · exact sub_binds ps vs' h5 ho.2 hr.2 h32.2 hm.2 n t w hb
end

/-! ## The `casez` statement -/

/-- Operands of the `Match` operator: conditions and results alternate. -/
def flat : List (Nat × Nat) → List Nat
  | [] => []
  | p :: ps => p.1 :: p.2 :: flat ps

theorem flat_length (prs : List (Nat × Nat)) : (flat prs).length = 2 * prs.length := by
  induction prs with
  | nil => rfl
  | cons p ps ih => simp only [flat, List.length_cons, ih]; omega

theorem matchConds_flat (prs : List (Nat × Nat)) : matchConds (flat prs) = prs.map (·.1) := by
  induction prs with
  | nil => rfl
  | cons p ps ih => simp [flat, matchConds, ih]

theorem caseMatch_false (pre : List Bool) (hpre : ∀ b ∈ pre, b = false) (ps : List (Option Bool))
    (bs : Bits) : caseMatch (List.replicate pre.length (some false) ++ ps) (pre ++ bs) =
      caseMatch ps bs := by
  induction pre with
  | nil => rfl
  | cons b pre ih =>
    simp only [List.mem_cons, forall_eq_or_imp] at hpre
    simp [List.replicate_succ, caseMatch, hpre.1, ih hpre.2]

theorem caseMatch_any (bs : Bits) : caseMatch (List.replicate bs.length none) bs = true := by
  induction bs with
  | nil => rfl
  | cons b bs ih => simpa [List.replicate_succ, caseMatch] using ih

/-- The first true condition decides the item that is taken. -/
theorem find_item : ∀ (prs : List (Nat × Nat)) (pre bs : List Bool) (rest : List CaseItem)
    (k : Nat) (p : Nat × Nat), prs.length = bs.length → (∀ b ∈ pre, b = false) →
    prs[k]? = some p → bs[k]? = some true → (∀ j < k, bs[j]? = some false) →
    ∃ pat, (matchItems (pre.length + bs.length) pre.length (flat prs) ++ rest).find?
      (fun it => caseMatch it.1 (pre ++ bs)) = some (pat, .var (fwd p.2))
  | [], pre, bs, rest, k, p, hl, hpre, hp, hb, hj => by simp at hp
  | q :: prs, pre, [], rest, k, p, hl, hpre, hp, hb, hj => by simp at hb
  | q :: prs, pre, b :: bs, rest, 0, p, hl, hpre, hp, hb, hj => by
    simp only [List.getElem?_cons_zero, Option.some.injEq] at hp hb
    subst hp hb
    simp only [flat, matchItems, List.cons_append, List.find?_cons]
    rw [caseMatch_false pre hpre]
    rw [show pre.length + (true :: bs).length - pre.length - 1 = bs.length by simp]
    simp [caseMatch, caseMatch_any]
  | q :: prs, pre, b :: bs, rest, k + 1, p, hl, hpre, hp, hb, hj => by
    have h0 := hj 0 (by omega)
    simp only [List.getElem?_cons_zero, Option.some.injEq] at h0
    subst h0
    simp only [List.getElem?_cons_succ] at hp hb
    simp only [flat, matchItems, List.cons_append, List.find?_cons]
    rw [caseMatch_false pre hpre]
    have hpre' : ∀ b ∈ pre ++ [false], b = false := by
      intro b hb; simp only [List.mem_append, List.mem_singleton] at hb
      rcases hb with hb | hb
      · exact hpre b hb
      · exact hb
    obtain ⟨pat, hpat⟩ := find_item prs (pre ++ [false]) bs rest k p (by simpa using hl) hpre' hp hb
      (fun j hj' => by have := hj (j + 1) (by omega); simpa using this)
    refine ⟨pat, ?_⟩
    simp only [List.append_assoc, List.singleton_append, List.length_append, List.length_singleton]
      at hpat
    simp only [caseMatch, beq_iff_eq, Bool.true_eq_false, Bool.false_eq_true, List.length_cons]
    rw [show pre.length + 1 + bs.length = pre.length + (bs.length + 1) by omega] at hpat
    simpa using hpat

theorem values_get {ns : List Nat} {bs : List Bool} (h : Values ρ ns bs) :
    ns.length = bs.length := by
  have := congrArg List.length h; simpa using this

theorem values_ne {ns : List Nat} {bs : List Bool} (h : Values ρ ns bs) :
    ∀ n ∈ ns, ρ (fwd n) ≠ [] := by
  intro n hn hc
  have : ρ (fwd n) ∈ ns.map (fun n => ρ (fwd n)) := List.mem_map_of_mem hn
  rw [h, hc] at this
  simp at this

theorem values_allBits {ns : List Nat} {bs : List Bool} (h : Values ρ ns bs) :
    allBits (fun n => ρ (fwd n)) ns = bs := by
  simp only [allBits, List.flatMap_def, Values] at *
  rw [h]
  induction bs generalizing ns with
  | nil => rfl
  | cons b bs ih =>
    cases ns with
    | nil => simp at h
    | cons n ns => simp at h; simpa using ih h.2

/-- A `Match` binding has the value of the first result whose condition is true. -/
theorem holds_match {self : Nat} {ty : MTy} {prs : List (Nat × Nat)} {bs : List Bool}
    (h : Holds Γ ρ xs (.bind self ty .match (flat prs))) (hv : Values ρ (prs.map (·.1)) bs)
    {k : Nat} {p : Nat × Nat} (hp : prs[k]? = some p) (hb : bs[k]? = some true)
    (hj : ∀ j < k, bs[j]? = some false) (hr : (ρ (fwd p.2)).length = ty.size) :
    ρ (fwd self) = ρ (fwd p.2) := by
  obtain ⟨_, h⟩ := h
  unfold runOp at h
  split at h
  · rename_i h0
    rw [List.length_eq_zero_iff.1 (hr.trans h0), ← Option.some.inj h]
  · rename_i h0
    have hlen : prs.length = bs.length := by simpa using values_get hv
    have hkl : k < bs.length := (List.getElem?_eq_some_iff.1 hb).1
    simp only [fwdCode, flat_length, Nat.mul_mod_right, ne_eq, not_true, if_false, matchConds_flat,
      Nat.mul_div_cancel_left _ (show 0 < 2 by omega)] at h
    have hsel : evals ρ (xs self) ((prs.map (·.1)).map fun c => VExpr.var (fwd c)) = some bs := by
      rw [evals_vars ρ (xs self) fwd _ (values_ne hv), values_allBits hv]
    have hne : bs ≠ [] := by rintro rfl; simp at hkl
    simp only [caseValue, value_concat hsel hne, Option.bind_eq_bind, Option.bind_some] at h
    obtain ⟨pat, hpat⟩ := find_item prs [] bs [(List.replicate prs.length none, .undef ty.size)] k p
      hlen (by simp) hp hb hj
    simp only [List.length_nil, Nat.zero_add, List.nil_append] at hpat
    rw [hlen] at h hpat
    rw [hpat] at h
    simp only at h
    rw [assigned_var hr h0] at h
    exact (Option.some.inj h).symm

/-! ## The arms -/

/-- What the statements of the arms establish. -/
theorem lowerBranches_value {operand : Nat} {v : Val}
    (he : Enc (Γ operand) v (ρ (fwd operand))) (h32 : (Γ operand).size ≤ 2 ^ 32) :
    ∀ (bs : List Branch) (nid : Nat) (r : List Stmt × List Nat × Nat),
    lowerBranches operand bs nid = some r → (∀ s ∈ r.1, Holds Γ ρ xs s) →
    (∀ b ∈ bs, b.pat.ty = Γ operand ∧ b.pat.Ok ∧ b.pat.Readable ∧
      ∀ g, b.guard = some g → (ρ (fwd g.2)).length = 1) →
    ∃ (prs : List (Nat × Nat)) (bools : List Bool), r.2.1 = flat prs ∧ Values ρ (prs.map (·.1)) bools ∧ prs.length = bs.length ∧
      (∀ (k : Nat) (b : Branch), bs[k]? = some b → ∃ p c, prs[k]? = some p ∧ p.2 = b.res.2 ∧ bools[k]? = some c ∧
        (c = true ↔ b.Selects ρ v)) ∧
      ∀ b ∈ bs, Matches b.pat.src v → ∀ n t w, (n, t, w) ∈ b.pat.binds v →
        Γ n = t ∧ Enc t w (ρ (fwd n))
  | [], nid, r, hl, hs, hb => by
    simp only [lowerBranches, Option.some.injEq] at hl
    subst hl
    exact ⟨[], [], rfl, rfl, rfl, by simp, by simp⟩
  | b :: bs, nid, r, hl, hs, hb => by
    simp only [lowerBranches, lower, Option.bind_eq_bind, Option.bind_eq_some_iff,
      Option.some.injEq] at hl
    obtain ⟨l, ⟨l', hl', rfl⟩, r', hr', rfl⟩ := hl
    simp only [List.mem_append, List.mem_cons, List.cons_append, or_imp, forall_and,
      forall_eq] at hs
    obtain ⟨halias, ⟨⟨⟨hpat, _⟩, hcond⟩, _⟩, hrest⟩ := hs
    simp only [List.mem_cons, forall_eq_or_imp] at hb
    obtain ⟨⟨hty, hok, hread, hguard⟩, hb⟩ := hb
    rw [← hty] at he h32
    obtain ⟨prs, bools, h1, h2, h3, h4, h5⟩ :=
      lowerBranches_value (hty ▸ he) (hty ▸ h32) bs _ r' hr' hrest hb
    have halias' := holds_alias halias (enc_length he)
    obtain ⟨gs, hgs⟩ := guard_bits (Γ := Γ) (ρ := ρ) (xs := xs) (b.guard.map (·.2)) (by
      intro g hg
      cases hgd : b.guard with
      | none => simp [hgd] at hg
      | some g' => simp [hgd] at hg; subst hg; exact hguard g' hgd)
    obtain ⟨c, hc, hm⟩ := condition_value b.pat operand _ gs nid l'.2 l' v hty.symm he hok hread h32
      hgs hl' hpat hcond
    refine ⟨(_, b.res.2) :: prs, (c && gs.all id) :: bools, by rw [flat, h1],
      values_cons hc h2, by simp [h3], ?_, ?_⟩
    · intro k b' hk
      cases k with
      | zero =>
        simp only [List.getElem?_cons_zero, Option.some.injEq] at hk
        subst hk
        refine ⟨_, _, rfl, rfl, rfl, ?_⟩
        simp only [Bool.and_eq_true, hm, Branch.Selects]
        refine and_congr Iff.rfl ?_
        cases hgd : b.guard with
        | none =>
          rw [hgd] at hgs
          rcases guard_cons hgs with ⟨_, rfl⟩ | ⟨g, gb, h, _, _⟩
          · simp
          · simp at h
        | some g =>
          rw [hgd] at hgs
          rcases guard_cons hgs with ⟨h, _⟩ | ⟨g', gb, h, rfl, hgb⟩
          · simp at h
          · simp at h; subst h
            simp [hgb]
      | succ k =>
        simp only [List.getElem?_cons_succ] at hk ⊢
        exact h4 k b' hk
    · intro b' hb'
      simp only [List.mem_cons] at hb'
      rcases hb' with rfl | hb'
      · intro hm' n t w hbind
        exact lowerPat_binds b'.pat operand nid l' v hty.symm he halias.bind.1
          (halias' ▸ he) hok hread h32 hl' hpat hm' n t w hbind
      · exact h5 b' hb'

end

/-- The arms of a `match` on `operand` with a result of type `ty` type check: patterns have the
type of the scrutinee, guards are bools, and results have the type of the `match`. -/
def TypedBranches (Γ : Nat → MTy) (ρ : Env) (operand : Nat) (ty : MTy) (bs : List Branch) : Prop :=
  ∀ b ∈ bs, b.pat.ty = Γ operand ∧ b.pat.Ok ∧
    (∀ g, b.guard = some g → (ρ (fwd g.2)).length = 1) ∧ (ρ (fwd b.res.2)).length = ty.size

/-- C05, partial: whenever the generated statements hold of the signals and the scrutinee holds
(an encoding of) the value `v`, the `match` has the value of the first arm in source order whose
pattern matches `v` and whose guard holds.  Missing: arms that take a one-bit payload out of an
enum with a single variant and more than one bit (`C05_counterexample_single_variant`). -/
theorem C05_first_arm_partial (Γ : Nat → MTy) (ρ : Env) (xs : Nat → Nat → Bool)
    (operand self : Nat) (ty : MTy) (bs : List Branch) (nid : Nat) (stmts : List Stmt) (v : Val)
    (hl : lowerMatch operand self ty bs nid = some stmts) (hs : ∀ s ∈ stmts, Holds Γ ρ xs s)
    (ht : TypedBranches Γ ρ operand ty bs) (hr : ∀ b ∈ bs, b.pat.Readable)
    (h32 : (Γ operand).size ≤ 2 ^ 32) (he : Enc (Γ operand) v (ρ (fwd operand)))
    (k : Nat) (b : Branch) (hb : bs[k]? = some b) (hsel : b.Selects ρ v)
    (hfirst : ∀ (j : Nat) b', j < k → bs[j]? = some b' → ¬ b'.Selects ρ v) :
    ρ (fwd self) = ρ (fwd b.res.2) := by
  simp only [lowerMatch, Option.bind_eq_bind, Option.bind_eq_some_iff, Option.some.injEq] at hl
  obtain ⟨r, hl, rfl⟩ := hl
  simp only [List.mem_append, List.mem_singleton, or_imp, forall_and, forall_eq] at hs
  obtain ⟨prs, bools, h1, h2, h3, h4, _⟩ := lowerBranches_value he h32 bs nid r hl hs.1
    (fun b hb => ⟨(ht b hb).1, (ht b hb).2.1, hr b hb, (ht b hb).2.2.1⟩)
  obtain ⟨p, c, hp, hp2, hc, hiff⟩ := h4 k b hb
  rw [← hp2]
  rw [h1] at hs
  refine holds_match hs.2 h2 hp ?_ ?_ ?_
  · rw [hc, hiff.2 hsel]
  · intro j hj
    have hjl : j < bs.length := Nat.lt_trans hj (List.getElem?_eq_some_iff.1 hb).1
    obtain ⟨p', c', _, _, hc', hiff'⟩ := h4 j bs[j] (List.getElem?_eq_getElem hjl)
    have := hfirst j bs[j] hj (List.getElem?_eq_getElem hjl)
    rw [hc']
    cases c' with
    | false => rfl
    | true => exact absurd (hiff'.1 rfl) this
  · rw [hp2]; exact (ht b (List.mem_of_getElem? hb)).2.2.2

/-- C05, variables, partial: in every arm whose pattern matches the scrutinee, each variable of the
pattern holds the part of the scrutinee it names.  Missing: as above. -/
theorem C05_variables_partial (Γ : Nat → MTy) (ρ : Env) (xs : Nat → Nat → Bool)
    (operand self : Nat) (ty : MTy) (bs : List Branch) (nid : Nat) (stmts : List Stmt) (v : Val)
    (hl : lowerMatch operand self ty bs nid = some stmts) (hs : ∀ s ∈ stmts, Holds Γ ρ xs s)
    (ht : TypedBranches Γ ρ operand ty bs) (hr : ∀ b ∈ bs, b.pat.Readable)
    (h32 : (Γ operand).size ≤ 2 ^ 32) (he : Enc (Γ operand) v (ρ (fwd operand)))
    (b : Branch) (hb : b ∈ bs) (hm : Matches b.pat.src v)
    (n : Nat) (t : MTy) (w : Val) (hbind : (n, t, w) ∈ b.pat.binds v) :
    Γ n = t ∧ Enc t w (ρ (fwd n)) := by
  simp only [lowerMatch, Option.bind_eq_bind, Option.bind_eq_some_iff, Option.some.injEq] at hl
  obtain ⟨r, hl, rfl⟩ := hl
  simp only [List.mem_append, List.mem_singleton, or_imp, forall_and, forall_eq] at hs
  obtain ⟨prs, bools, _, _, _, _, h5⟩ := lowerBranches_value he h32 bs nid r hl hs.1
    (fun b hb => ⟨(ht b hb).1, (ht b hb).2.1, hr b hb, (ht b hb).2.2.1⟩)
  exact h5 b hb hm n t w hbind

/-- C05 for `let`, partial: destructuring a value with a pattern that matches it binds every
variable of the pattern to the part it names.  Missing: as above. -/
theorem C05_let_partial (Γ : Nat → MTy) (ρ : Env) (xs : Nat → Nat → Bool) (p : LPat) (x nid : Nat)
    (r : List Stmt × Nat) (v : Val) (hl : lower p x p.ty nid = some r)
    (hs : ∀ s ∈ r.1, Holds Γ ρ xs s) (hx : Γ x = p.ty) (he : Enc p.ty v (ρ (fwd x)))
    (hok : p.Ok) (hr : p.Readable) (h32 : p.ty.size ≤ 2 ^ 32) (hm : Matches p.src v)
    (n : Nat) (t : MTy) (w : Val) (hbind : (n, t, w) ∈ p.binds v) :
    Γ n = t ∧ Enc t w (ρ (fwd n)) := by
  simp only [lower, Option.bind_eq_bind, Option.bind_eq_some_iff, Option.some.injEq] at hl
  obtain ⟨r', hl, rfl⟩ := hl
  simp only [List.mem_cons, forall_eq_or_imp] at hs
  have ha := holds_alias hs.1 (enc_length he)
  exact lowerPat_binds p x nid r' v hx he hs.1.bind.1 (ha ▸ he) hok hr h32 hl hs.2 hm n t w hbind

/-! ## Together with the exhaustiveness check -/

mutual
/-- Encoded values are values of the source type. -/
theorem enc_hasTy : ∀ {t : MTy} {v : Val} {b : Bits}, Enc t v b → HasTy v (srcTy t)
  | .int n, _, _, .int h => by
    simp only [InRange] at h
    simp only [srcTy]
    refine .int ?_ ?_ <;> simp only [Match.intMin, Match.intMax] <;> split <;> omega
  | .uint n, _, _, .uint h => by
    simp only [InRange] at h
    simp only [srcTy]
    exact .uint h.1 (by simp only [Match.uintMax]; omega)
  | _, _, _, .bool => .bool
  | _, _, _, .tuple h => .tuple (encAll_hasTy h)
  | _, _, _, .struct h => .struct (encAll_hasTy h)
  | .array t n, _, _, .array h => by
    have := encAll_hasTy h
    rw [srcTys_replicate] at this
    exact .array this
  | .enum opts, _, _, .enum hv h hp => by
    refine .enum (ts := srcTys _) ?_ (encAll_hasTy h)
    rw [srcTyss_get, hv]; rfl
  | _, _, _, .memory h => .sealed
  | _, _, _, .inout h => .sealed
  | _, _, _, .backward => .backward
  | _, _, _, .copyView h => .copyView (enc_hasTy h)
theorem encAll_hasTy : ∀ {ts : List MTy} {vs : List Val} {bs : List Bits}, EncAll ts vs bs →
    HasTys vs (srcTys ts)
  | _, _, _, .nil => .nil
  | _, _, _, .cons h h' => .cons (enc_hasTy h) (encAll_hasTy h')
theorem srcTys_replicate : ∀ (n : Nat) (t : MTy),
    srcTys (List.replicate n t) = List.replicate n (srcTy t)
  | 0, _ => rfl
  | n + 1, t => by rw [List.replicate_succ, srcTys, srcTys_replicate n t, ← List.replicate_succ]
theorem srcTyss_get : ∀ (opts : List (List MTy)) (i : Nat),
    (srcTyss opts)[i]? = (opts[i]?).map srcTys
  | [], _ => by simp [srcTyss]
  | o :: os, 0 => by simp [srcTyss]
  | o :: os, i + 1 => by simp [srcTyss, srcTyss_get os i]
end

mutual
theorem ok_patTy : ∀ (p : LPat), p.Ok → PatTy p.src (srcTy p.ty)
  | .int _ t z, h => by
    cases t <;> simp only [LPat.Ok, InRange] at h
    · exact .int
    · exact .uint
  | .bool _ b, _ => .bool
  | .bound _ t, _ => .bound
  | .boundInner _ t p, h => by
    have := ok_patTy p h.2
    rw [h.1] at this
    exact .boundInner this
  | .tuple _ t ps, h => by
    obtain ⟨rfl, h⟩ := h
    exact .tuple (oks_patTys ps h)
  | .array _ t ps, h => by
    obtain ⟨⟨e, rfl, hps⟩, h⟩ := h
    have := oks_patTys ps h
    rw [hps, srcTys_replicate] at this
    exact .array this
  | .struct _ t ps, h => by
    obtain ⟨rfl, h⟩ := h
    exact .struct (oks_patTys ps h)
  | .variant _ t i ps, h => by
    obtain ⟨⟨opts, rfl, hv⟩, h⟩ := h
    exact .variant (by rw [srcTyss_get, hv]; rfl) (oks_patTys ps h)
theorem oks_patTys : ∀ (ps : List LPat), Oks ps → PatTys (srcs ps) (srcTys (ps.map LPat.ty))
  | [], _ => .nil
  | p :: ps, h => .cons (ok_patTy p h.1) (oks_patTys ps h.2)
end

/-- Some arm satisfies a property: then there is a first one. -/
theorem exists_first {P : Branch → Prop} : ∀ {bs : List Branch}, (∃ b ∈ bs, P b) →
    ∃ (k : Nat) (b : Branch), bs[k]? = some b ∧ P b ∧ ∀ (j : Nat) b', j < k → bs[j]? = some b' → ¬ P b'
  | [], h => by obtain ⟨_, h, _⟩ := h; cases h
  | b :: bs, h => by
    by_cases hb : P b
    · exact ⟨0, b, rfl, hb, fun j b' hj => by omega⟩
    · have : ∃ b ∈ bs, P b := by
        obtain ⟨b', h', hp⟩ := h
        simp only [List.mem_cons] at h'
        rcases h' with rfl | h'
        · exact absurd hp hb
        · exact ⟨b', h', hp⟩
      obtain ⟨k, b', h1, h2, h3⟩ := exists_first this
      refine ⟨k + 1, b', h1, h2, ?_⟩
      intro j b'' hj hb''
      cases j with
      | zero => simp only [List.getElem?_cons_zero, Option.some.injEq] at hb''; subst hb''; exact hb
      | succ j => exact h3 j b'' (by omega) hb''

/-- C05 with the check of C01, partial: a `match` that the exhaustiveness check accepts always has
the value of its first matching arm; it is never undefined.  Missing: the restrictions of
`C05_first_arm_partial` and of `C01_accepted_exhaustive_partial`. -/
theorem C05_accepted_match_partial (Γ : Nat → MTy) (ρ : Env) (xs : Nat → Nat → Bool)
    (operand self : Nat) (ty : MTy) (bs : List Branch) (nid : Nat) (stmts : List Stmt) (v : Val)
    (hl : lowerMatch operand self ty bs nid = some stmts) (hs : ∀ s ∈ stmts, Holds Γ ρ xs s)
    (ht : TypedBranches Γ ρ operand ty bs) (hr : ∀ b ∈ bs, b.pat.Readable)
    (h32 : (Γ operand).size ≤ 2 ^ 32) (he : Enc (Γ operand) v (ρ (fwd operand)))
    (hacc : Match.checkMatch (srcTy (Γ operand)) (bs.map fun b => (b.pat.src, b.guard.isSome)) =
      some [])
    (hev : Match.NoEnumView (srcTy (Γ operand))) (hno : Match.NoOpaque (srcTy (Γ operand)))
    (hlit : ∀ b ∈ bs, Match.NoIntLit b.pat.src) :
    ∃ (k : Nat) (b : Branch), bs[k]? = some b ∧ b.Selects ρ v ∧
      (∀ (j : Nat) b', j < k → bs[j]? = some b' → ¬ b'.Selects ρ v) ∧ ρ (fwd self) = ρ (fwd b.res.2) := by
  have hex := Match.C01_accepted_exhaustive_partial (ty := srcTy (Γ operand))
    (arms := bs.map fun b => (b.pat.src, b.guard.isSome))
    (by
      intro a ha
      simp only [List.mem_map] at ha
      obtain ⟨b, hb, rfl⟩ := ha
      have := ok_patTy b.pat (ht b hb).2.1
      rwa [(ht b hb).1] at this)
    hev hno
    (by
      intro a ha
      simp only [List.mem_map] at ha
      obtain ⟨b, hb, rfl⟩ := ha
      exact hlit b hb) hacc
  obtain ⟨a, ha, hg, hm⟩ := hex v (enc_hasTy he)
  simp only [List.mem_map] at ha
  obtain ⟨b, hb, rfl⟩ := ha
  have hsel : b.Selects ρ v := by
    refine ⟨hm, fun g hg' => ?_⟩
    simp [hg'] at hg
  obtain ⟨k, b', h1, h2, h3⟩ := exists_first ⟨b, hb, hsel⟩
  exact ⟨k, b', h1, h2, h3, C05_first_arm_partial Γ ρ xs operand self ty bs nid stmts v hl hs ht hr
    h32 he k b' h1 h2 h3⟩

end Spade.Lower

import Verif.Expr.CompileSpec
import Verif.Expr.TypeList
import Verif.Expr.Exists
import Verif.Codegen.EvalProps
/-!
# C69: which well-typed functions hardware is generated for, and the types of signals
-/
namespace Spade.Expr
open Spade.Verilog Spade.Codegen Spade.Lower
open Spade.Match (Val)

/-! ## Powers of two -/

theorem count_none : ∀ {n : Nat}, (binDigits n).count true = 0 → n = 0 := by
  intro n
  induction n using binDigits.induct with
  | case1 n h =>
    intro hc
    unfold binDigits at hc
    simp only [h, ↓reduceIte] at hc
    by_cases h1 : n = 1
    · simp [h1] at hc
    · omega
  | case2 n h ih =>
    intro hc
    unfold binDigits at hc
    simp only [h, ↓reduceIte, List.count_append, Nat.add_eq_zero_iff] at hc
    have := ih hc.1
    by_cases h1 : n % 2 = 1
    · simp [h1] at hc
    · omega

theorem count_one : ∀ {n : Nat}, (binDigits n).count true = 1 → ∃ k, n = 2 ^ k := by
  intro n
  induction n using binDigits.induct with
  | case1 n h =>
    intro hc
    unfold binDigits at hc
    simp only [h, ↓reduceIte] at hc
    by_cases h1 : n = 1
    · exact ⟨0, h1⟩
    · simp [h1] at hc
  | case2 n h ih =>
    intro hc
    unfold binDigits at hc
    simp only [h, ↓reduceIte, List.count_append] at hc
    by_cases h1 : n % 2 = 1
    · simp only [h1, decide_true, List.count_singleton, beq_self_eq_true, ↓reduceIte] at hc
      have := count_none (n := n / 2) (by omega)
      omega
    · simp [h1] at hc
      obtain ⟨k, hk⟩ := ih hc
      exact ⟨k + 1, by rw [Nat.pow_succ]; omega⟩

theorem count_pow (k : Nat) : (binDigits (2 ^ k)).count true = 1 := by
  induction k with
  | zero => rw [binDigits]; simp
  | succ k ih =>
    have h : ¬ 2 ^ (k + 1) < 2 := by
      have := Nat.one_le_two_pow (n := k)
      rw [Nat.pow_succ]; omega
    have h1 : 2 ^ (k + 1) / 2 = 2 ^ k := by rw [Nat.pow_succ]; omega
    have h2 : 2 ^ (k + 1) % 2 = 0 := by rw [Nat.pow_succ]; omega
    unfold binDigits
    simp [h, h1, h2, ih]

theorem isPow2_iff (z : Int) : isPow2 z = true ↔ ∃ k : Nat, z = 2 ^ k ∧ k < 128 := by
  simp only [isPow2, Bool.and_eq_true, decide_eq_true_eq, beq_iff_eq]
  constructor
  · rintro ⟨⟨h0, h1⟩, h2⟩
    obtain ⟨k, hk⟩ := count_one h2
    have hz : z = ((2 ^ k : Nat) : Int) := by omega
    refine ⟨k, by simpa using hz, ?_⟩
    have : 2 ^ k < 2 ^ 128 := by omega
    exact (Nat.pow_lt_pow_iff_right (by omega)).1 this
  · rintro ⟨k, rfl, hk⟩
    have e : ((2 : Int) ^ k) = ((2 ^ k : Nat) : Int) := by simp
    have := (Nat.pow_lt_pow_iff_right (a := 2) (by omega)).2 hk
    refine ⟨⟨by rw [e]; exact Int.natCast_nonneg _, ?_⟩, ?_⟩
    · rw [e]
      exact_mod_cast this
    rw [e, Int.toNat_natCast]
    exact count_pow k

theorem divisorOk_iff (op : SrcBin) (r : Expr) :
    divisorOk op r = true ↔ (op = .div ∨ op = .mod → LiteralPower r) := by
  have key : divisorOk .div r = true ↔ LiteralPower r := by
    unfold LiteralPower divisorOk
    dsimp only
    split
    · rename_i id ty z
      rw [isPow2_iff]
      constructor
      · rintro ⟨k, rfl, hk⟩; exact ⟨id, ty, k, rfl, hk⟩
      · rintro ⟨_, _, k, he, hk⟩
        simp only [Expr.int.injEq] at he
        exact ⟨k, he.2.2, hk⟩
    · rename_i hne
      simp only [Bool.false_eq_true, false_iff]
      rintro ⟨id, ty, k, rfl, _⟩
      exact hne _ _ _ rfl
  cases op with
  | div => simpa using key
  | mod => simpa using (show divisorOk .mod r = true ↔ LiteralPower r from key)
  | _ => simp [divisorOk]

/-! ## Fields -/

theorem fieldIndex_iff (fields : List String) (f : String) :
    (∃ k, fieldIndex fields f = some k) ↔
      ∃ k, fields[k]? = some f ∧ ∀ j : Nat, fields[j]? = some f → j = k := by
  have hm : ∀ j, j ∈ (List.range fields.length).filter (fun i => fields[i]? == some f) ↔ fields[j]? = some f := by
    intro j
    simp only [List.mem_filter, List.mem_range, beq_iff_eq, and_iff_right_iff_imp]
    intro h
    exact (List.getElem?_eq_some_iff.1 h).1
  have hn : ((List.range fields.length).filter (fun i => fields[i]? == some f)).Nodup :=
    List.nodup_range.filter _
  unfold fieldIndex
  constructor
  · rintro ⟨k, hk⟩
    split at hk
    · rename_i i hi
      refine ⟨i, (hm i).1 (by simp [hi]), fun j hj => ?_⟩
      have := (hm j).2 hj
      simpa [hi] using this
    · cases hk
  · rintro ⟨k, h1, h2⟩
    refine ⟨k, ?_⟩
    generalize (List.range fields.length).filter (fun i => fields[i]? == some f) = l at hm hn
    match l, hm, hn with
    | [], hm, _ => exact absurd ((hm k).2 h1) (by simp)
    | [i], hm, _ => simp [h2 i ((hm i).1 (by simp))]
    | i :: j :: l, hm, hn =>
      have a := h2 i ((hm i).1 (by simp))
      have b := h2 j ((hm j).1 (by simp))
      simp [a, b] at hn

/-! ## Lowering -/

theorem bind_iff {α β} {o : Option α} {f : α → Option β} {A Q : Prop} (h0 : (∃ a, o = some a) ↔ A)
    (h : ∀ a, o = some a → ((∃ r, f a = some r) ↔ Q)) : (∃ r, o.bind f = some r) ↔ A ∧ Q := by
  rw [← h0]
  constructor
  · rintro ⟨r, hr⟩
    obtain ⟨a, ha, hf⟩ := Option.bind_eq_some_iff.1 hr
    exact ⟨⟨a, ha⟩, (h a ha).1 ⟨r, hf⟩⟩
  · rintro ⟨⟨a, ha⟩, hq⟩
    obtain ⟨r, hr⟩ := (h a ha).2 hq
    exact ⟨r, Option.bind_eq_some_iff.2 ⟨a, ha, hr⟩⟩

theorem some_iff {α} {x : α} : (∃ r, some x = some r) ↔ True := by simp

mutual
theorem lowerPat_iff : ∀ (p : LPat) (self nid : Nat),
    (∃ r, lowerPat p self nid = some r) ↔ NoEmptyArray p
  | .int .., self, nid => by simp [lowerPat, NoEmptyArray]
  | .bool .., self, nid => by simp [lowerPat, NoEmptyArray]
  | .bound .., self, nid => by simp [lowerPat, NoEmptyArray]
  | .boundInner _ _ p, self, nid => by
    simp only [lowerPat, NoEmptyArray, Option.bind_eq_bind]
    rw [bind_iff (lowerPat_iff p _ _) fun _ _ => some_iff, and_true]
  | .tuple _ _ ps, self, nid => by
    simp only [lowerPat, NoEmptyArray]; exact lowerMembers_iff _ _ _ ps _
  | .struct _ _ ps, self, nid => by
    simp only [lowerPat, NoEmptyArray]; exact lowerMembers_iff _ _ _ ps _
  | .variant _ _ _ ps, self, nid => by
    simp only [lowerPat, NoEmptyArray]; exact lowerMembers_iff _ _ _ ps _
  | .array _ _ ps, self, nid => by
    simp only [lowerPat, NoEmptyArray, Option.bind_eq_bind]
    refine bind_iff ?_ fun w _ => lowerElements_iff _ _ _ ps _
    cases ps <;> simp [ilog2]
theorem lowerMembers_iff (op : Nat → Op) (self k : Nat) : ∀ (ps : List LPat) (nid : Nat),
    (∃ r, lowerMembers op self k ps nid = some r) ↔ NoEmptyArrays ps
  | [], nid => by simp [lowerMembers, NoEmptyArrays]
  | p :: ps, nid => by
    simp only [lowerMembers, NoEmptyArrays, Option.bind_eq_bind]
    refine bind_iff (lowerPat_iff p _ _) fun a _ => ?_
    rw [bind_iff (lowerMembers_iff op self (k + 1) ps _) fun _ _ => some_iff, and_true]
theorem lowerElements_iff (t : MTy) (self k : Nat) : ∀ (ps : List LPat) (nid : Nat),
    (∃ r, lowerElements t self k ps nid = some r) ↔ NoEmptyArrays ps
  | [], nid => by simp [lowerElements, NoEmptyArrays]
  | p :: ps, nid => by
    simp only [lowerElements, NoEmptyArrays, Option.bind_eq_bind]
    refine bind_iff (lowerPat_iff p _ _) fun a _ => ?_
    rw [bind_iff (lowerElements_iff t self (k + 1) ps _) fun _ _ => some_iff, and_true]
end

theorem lower_iff (p : LPat) (self : Nat) (t : MTy) (nid : Nat) :
    (∃ r, lower p self t nid = some r) ↔ NoEmptyArray p := by
  simp only [lower, Option.bind_eq_bind]
  rw [bind_iff (lowerPat_iff p _ _) fun _ _ => some_iff, and_true]

theorem dual_num {s u : Op} {t : MTy} (h : IsNum t) : ∃ o, dual s u t = some o := by
  cases t <;> first | exact ⟨_, rfl⟩ | (simp [IsNum] at h; done)

theorem lowerBin_some {op : SrcBin} {l r t : MTy} (h : BinTy op l r t) : ∃ o, lowerBin op l = some o := by
  cases h <;> exact ⟨_, rfl⟩

theorem lowerIntr_iff {i : Intr} {ts : List MTy} {ty : MTy} (h : IntrTy i ts ty) :
    (∃ o, lowerIntr i ts ty = some o) ↔
      (i = .transmute → ∀ t, ts = [t] → t.backSize = ty.backSize) := by
  cases h with
  | transmute h1 h2 =>
    simp only [lowerIntr, h1, ne_eq, not_true_eq_false, false_or, List.cons.injEq, and_true, forall_const]
    constructor
    · rintro ⟨o, ho⟩ t rfl
      split at ho
      · cases ho
      · rename_i hh; exact (Classical.not_not.1 hh).symm
    · intro hh
      rw [if_neg (by simp [hh _ rfl])]
      exact ⟨_, rfl⟩
  | order h1 h2 h3 =>
    rename_i c t
    cases c <;> simp_all [lowerIntr, lowerCmp, dual_num]
  | trunc h1 h2 h3 h4 => simp [lowerIntr, Nat.not_lt.2 h3]
  | sext h1 h2 h3 => simp [lowerIntr, MTy.size, Nat.not_lt.2 h1]
  | zext h1 h2 => simp [lowerIntr, MTy.size, Nat.not_lt.2 h1]
  | concat h1 h2 h3 h4 => simp [lowerIntr, h4]
  | combDiv h1 h2 => simpa [lowerIntr] using dual_num h1
  | combMod h1 h2 => simpa [lowerIntr] using dual_num h1
  | _ => simp [lowerIntr, lowerCmp]

section
variable {sig : Nat → Option (List MTy × MTy)} {Γ : Nat → MTy}

theorem lowerCall_iff {id : Nat} {ty : MTy} {f : Callee} {args : List Expr} {ops : List Nat}
    (h : (Expr.call id ty f args).Ok sig Γ) :
    (∃ i, lowerCall id ty f (args.map Expr.ty) ops = some i) ↔
      (f = .intr .transmute → ∀ t, args.map Expr.ty = [t] → t.backSize = ty.backSize) := by
  cases f with
  | intr i =>
    simp only [Expr.Ok] at h
    have := lowerIntr_iff h.1
    simp only [lowerCall, Option.map_eq_some_iff, Callee.intr.injEq]
    rw [← this]
    constructor
    · rintro ⟨_, o, ho, _⟩; exact ⟨o, ho⟩
    · rintro ⟨o, ho⟩; exact ⟨_, o, ho, rfl⟩
  | _ => simp [lowerCall]

mutual
theorem lowerE_iff : ∀ (e : Expr), e.Ok sig Γ → ∀ nid, (∃ r, lowerE e nid = some r) ↔ e.Compiles
  | .var .., _, nid => by simp [lowerE, Expr.Compiles]
  | .int .., _, nid => by simp [lowerE, Expr.Compiles]
  | .bool .., _, nid => by simp [lowerE, Expr.Compiles]
  | .bin id ty op l r, h, nid => by
    simp only [Expr.Ok] at h
    obtain ⟨h1, _, _, hl, hr⟩ := h
    simp only [lowerE, Expr.Compiles, Option.bind_eq_bind]
    refine bind_iff (lowerE_iff l hl _) fun a _ => bind_iff (lowerE_iff r hr _) fun b _ => ?_
    obtain ⟨o, ho⟩ := lowerBin_some h1
    rw [ho, Option.bind_some, ← divisorOk_iff]
    split <;> simp_all
  | .un id ty op e, h, nid => by
    simp only [Expr.Ok] at h
    simp only [lowerE, Expr.Compiles, Option.bind_eq_bind]
    rw [bind_iff (lowerE_iff e h.2 _) fun _ _ => some_iff, and_true]
  | .tuple id ty es, h, nid => by
    simp only [Expr.Ok] at h
    simp only [lowerE, Expr.Compiles, Option.bind_eq_bind]
    rw [bind_iff (lowerEs_iff es h.2 _) fun _ _ => some_iff, and_true]
  | .proj id ty e k, h, nid => by
    simp only [Expr.Ok] at h
    simp only [lowerE, Expr.Compiles, Option.bind_eq_bind]
    rw [bind_iff (lowerE_iff e h.2.2 _) fun _ _ => some_iff, and_true]
  | .field id ty e fields f, h, nid => by
    simp only [Expr.Ok] at h
    simp only [lowerE, Expr.Compiles, Option.bind_eq_bind]
    refine bind_iff (lowerE_iff e h.2.2 _) fun a _ => ?_
    rw [bind_iff (fieldIndex_iff fields f) fun _ _ => some_iff, and_true]
  | .cast id ty e, h, nid => by
    simp only [Expr.Ok] at h
    simp only [lowerE, Expr.Compiles, Option.bind_eq_bind]
    rw [bind_iff (lowerE_iff e h.2 _) fun _ _ => some_iff, and_true]
  | .array id ty es, h, nid => by
    simp only [Expr.Ok] at h
    simp only [lowerE, Expr.Compiles, Option.bind_eq_bind]
    rw [bind_iff (lowerEs_iff es h.2 _) fun _ _ => some_iff, and_true]
  | .rep id ty e n, h, nid => by
    simp only [Expr.Ok] at h
    simp only [lowerE, Expr.Compiles, Option.bind_eq_bind]
    rw [bind_iff (lowerE_iff e h.2 _) fun _ _ => some_iff, and_true]
  | .elem id ty a i, h, nid => by
    simp only [Expr.Ok] at h
    simp only [lowerE, Expr.Compiles, Option.bind_eq_bind]
    refine bind_iff (lowerE_iff a h.2.2.1 _) fun _ _ => ?_
    rw [bind_iff (lowerE_iff i h.2.2.2 _) fun _ _ => some_iff, and_true]
  | .range id ty a s t, h, nid => by
    simp only [Expr.Ok] at h
    obtain ⟨⟨u, n, hu, _⟩, _, ha⟩ := h
    simp only [lowerE, Expr.Compiles, Option.bind_eq_bind]
    rw [bind_iff (Q := True) (lowerE_iff a ha _), and_true]
    intro x _
    rw [bind_iff (A := True) (Q := True) _ fun _ _ => some_iff, and_true]
    cases t <;> simp [rangeStop, hu, arrayLen]
  | .block id ss e, h, nid => by
    simp only [Expr.Ok] at h
    simp only [lowerE, Expr.Compiles, Option.bind_eq_bind]
    refine bind_iff (lowerStms_iff ss h.1 _) fun _ _ => ?_
    rw [bind_iff (lowerE_iff e h.2 _) fun _ _ => some_iff, and_true]
  | .unitBlock id ss, h, nid => by
    simp only [Expr.Ok] at h
    simp only [lowerE, Expr.Compiles, Option.bind_eq_bind]
    rw [bind_iff (lowerStms_iff ss h _) fun _ _ => some_iff, and_true]
  | .ite id ty c a b, h, nid => by
    simp only [Expr.Ok] at h
    obtain ⟨_, _, _, hc, ha, hb⟩ := h
    simp only [lowerE, Expr.Compiles, Option.bind_eq_bind]
    refine bind_iff (lowerE_iff c hc _) fun _ _ => bind_iff (lowerE_iff a ha _) fun _ _ => ?_
    rw [bind_iff (lowerE_iff b hb _) fun _ _ => some_iff, and_true]
  | .match id ty e arms, h, nid => by
    simp only [Expr.Ok] at h
    simp only [lowerE, Expr.Compiles, Option.bind_eq_bind]
    refine bind_iff (lowerE_iff e h.1 _) fun _ _ => ?_
    rw [bind_iff (lowerArms_iff _ arms h.2.2 _) fun _ _ => some_iff, and_true]
  | .call id ty f args, h, nid => by
    simp only [lowerE, Expr.Compiles, Option.bind_eq_bind]
    have ha : Exprs.Ok sig Γ args := by cases f <;> (simp only [Expr.Ok] at h; exact h.2)
    refine bind_iff (lowerEs_iff args ha _) fun _ _ => ?_
    rw [bind_iff (lowerCall_iff h) fun _ _ => some_iff, and_true]
theorem lowerEs_iff : ∀ (es : List Expr), Exprs.Ok sig Γ es →
    ∀ nid, (∃ r, lowerEs es nid = some r) ↔ Exprs.Compile es
  | [], _, nid => by simp [lowerEs, Exprs.Compile]
  | e :: es, h, nid => by
    simp only [Exprs.Ok] at h
    simp only [lowerEs, Exprs.Compile, Option.bind_eq_bind]
    refine bind_iff (lowerE_iff e h.1 _) fun _ _ => ?_
    rw [bind_iff (lowerEs_iff es h.2 _) fun _ _ => some_iff, and_true]
theorem lowerStms_iff : ∀ (ss : List Stm), Stms.Ok sig Γ ss →
    ∀ nid, (∃ r, lowerStms ss nid = some r) ↔ Stms.Compile ss
  | [], _, nid => by simp [lowerStms, Stms.Compile]
  | .bind p e :: ss, h, nid => by
    simp only [Stms.Ok] at h
    simp only [lowerStms, Stms.Compile, Option.bind_eq_bind]
    rw [and_left_comm]
    refine bind_iff (lowerE_iff e h.2.2.1 _) fun _ _ => bind_iff (lower_iff p _ _ _) fun _ _ => ?_
    rw [bind_iff (lowerStms_iff ss h.2.2.2 _) fun _ _ => some_iff, and_true]
  | .expr e :: ss, h, nid => by
    simp only [Stms.Ok] at h
    simp only [lowerStms, Stms.Compile, Option.bind_eq_bind]
    refine bind_iff (lowerE_iff e h.1 _) fun _ _ => ?_
    rw [bind_iff (lowerStms_iff ss h.2 _) fun _ _ => some_iff, and_true]
  | .assert e :: ss, h, nid => by
    simp only [Stms.Ok] at h
    simp only [lowerStms, Stms.Compile, Option.bind_eq_bind]
    refine bind_iff (lowerE_iff e h.2.1 _) fun _ _ => ?_
    rw [bind_iff (lowerStms_iff ss h.2.2 _) fun _ _ => some_iff, and_true]
  | .decl :: ss, h, nid => by
    simp only [Stms.Ok] at h
    simp only [lowerStms, Stms.Compile]
    exact lowerStms_iff ss h _
theorem lowerArms_iff (o : Nat) {t ty : MTy} : ∀ (as : List Arm), Arms.Ok sig Γ t ty as →
    ∀ nid, (∃ r, lowerArms o as nid = some r) ↔ Arms.Compile as
  | [], _, nid => by simp [lowerArms, Arms.Compile]
  | .plain p e :: as, h, nid => by
    simp only [Arms.Ok] at h
    simp only [lowerArms, Arms.Compile, Option.bind_eq_bind]
    refine bind_iff (lower_iff p _ _ _) fun _ _ => bind_iff (lowerE_iff e h.2.2.2.1 _) fun _ _ => ?_
    rw [bind_iff (lowerArms_iff o as h.2.2.2.2 _) fun _ _ => some_iff, and_true]
  | .guarded p g e :: as, h, nid => by
    simp only [Arms.Ok] at h
    obtain ⟨_, _, _, hg, _, he, ha⟩ := h
    simp only [lowerArms, Arms.Compile, Option.bind_eq_bind]
    refine bind_iff (lower_iff p _ _ _) fun _ _ => bind_iff (lowerE_iff g hg _) fun _ _ =>
      bind_iff (lowerE_iff e he _) fun _ _ => ?_
    rw [bind_iff (lowerArms_iff o as ha _) fun _ _ => some_iff, and_true]
end
end

/-! ## The type list -/

theorem insertTy_same (m : Nat → Option MTy) (n : Nat) (t : MTy) : insertTy m n t n = some t := by
  simp [insertTy]

theorem insertTy_ne {m : Nat → Option MTy} {n k : Nat} {t : MTy} (h : k ≠ n) : insertTy m n t k = m k := by
  simp [insertTy, h]

theorem inputs_list : ∀ (ps : List (Nat × MTy)) (m : Nat → Option MTy), (ps.map (·.1)).Nodup →
    (∀ n, n ∉ ps.map (·.1) → ps.foldl (fun m p => insertTy m p.1 p.2) m n = m n) ∧
    ∀ n t, (n, t) ∈ ps → ps.foldl (fun m p => insertTy m p.1 p.2) m n = some t
  | [], m, _ => by simp
  | p :: ps, m, h => by
    simp only [List.map_cons, List.nodup_cons] at h
    obtain ⟨h1, h2⟩ := inputs_list ps (insertTy m p.1 p.2) h.2
    simp only [List.foldl_cons]
    constructor
    · intro n hn
      simp only [List.map_cons, List.mem_cons, not_or] at hn
      rw [h1 n hn.2, insertTy_ne hn.1]
    · intro n t hn
      rcases List.mem_cons.1 hn with rfl | hn
      · rw [h1 _ h.1, insertTy_same]
      · exact h2 n t hn

/-- What an item declares. -/
def Item.declares (n : Nat) (t : MTy) : Item → Prop
  | .stmt s => target s = (n, t)
  | .nop m ty | .inst m ty _ _ => (m, ty) = (n, t)
  | .assert _ => False

theorem addItem_ne {m : Nat → Option MTy} {i : Item} {n : Nat} (h : n ∉ i.defs) : addItem m i n = m n := by
  cases i with
  | stmt s => cases s <;> (simp only [Item.defs, target, List.mem_singleton] at h; exact insertTy_ne h)
  | nop => simp only [Item.defs, List.mem_singleton] at h; exact insertTy_ne h
  | inst => simp only [Item.defs, List.mem_singleton] at h; exact insertTy_ne h
  | assert => rfl

theorem addItem_declares {m : Nat → Option MTy} {i : Item} {n : Nat} {t : MTy} (h : i.declares n t) :
    addItem m i n = some t ∧ n ∈ i.defs := by
  cases i with
  | stmt s => cases s <;> (simp only [Item.declares, target, Prod.mk.injEq] at h; obtain ⟨rfl, rfl⟩ := h;
                           exact ⟨insertTy_same .., by simp [Item.defs, target]⟩)
  | nop => simp only [Item.declares, Prod.mk.injEq] at h; obtain ⟨rfl, rfl⟩ := h;
           exact ⟨insertTy_same .., by simp [Item.defs]⟩
  | inst => simp only [Item.declares, Prod.mk.injEq] at h; obtain ⟨rfl, rfl⟩ := h;
            exact ⟨insertTy_same .., by simp [Item.defs]⟩
  | assert => cases h

theorem items_list : ∀ (is : List Item) (m : Nat → Option MTy), (defsAll is).Nodup →
    (∀ n, n ∉ defsAll is → is.foldl addItem m n = m n) ∧
    ∀ n t, (∃ i ∈ is, i.declares n t) → is.foldl addItem m n = some t
  | [], m, _ => by simp
  | i :: is, m, h => by
    simp only [defsAll, List.flatMap_cons] at h
    obtain ⟨d1, d2, d3⟩ := List.nodup_append.1 h
    obtain ⟨h1, h2⟩ := items_list is (addItem m i) d2
    simp only [List.foldl_cons]
    constructor
    · intro n hn
      simp only [defsAll, List.flatMap_cons, List.mem_append, not_or] at hn
      rw [h1 n hn.2, addItem_ne hn.1]
    · rintro n t ⟨j, hj, hd⟩
      rcases List.mem_cons.1 hj with rfl | hj
      · obtain ⟨e, hin⟩ := addItem_declares (m := m) hd
        rw [h1 n fun hc => d3 n hin n hc rfl, e]
      · exact h2 n t ⟨j, hj, hd⟩

theorem declares_defs {i : Item} {n : Nat} (h : n ∈ i.defs) : ∃ t, i.declares n t := by
  cases i with
  | stmt s => cases s <;> (simp only [Item.defs, target, List.mem_singleton] at h; subst h; exact ⟨_, rfl⟩)
  | nop => simp only [Item.defs, List.mem_singleton] at h; subst h; exact ⟨_, rfl⟩
  | inst => simp only [Item.defs, List.mem_singleton] at h; subst h; exact ⟨_, rfl⟩
  | assert => simp [Item.defs] at h

theorem declares_iff (h : HUnit) (n : Nat) (t : MTy) :
    h.declares n t ↔ (n, t) ∈ h.inputs ∨ ∃ i ∈ h.items, i.declares n t := by
  refine or_congr Iff.rfl (exists_congr fun i => and_congr Iff.rfl ?_)
  cases i <;> rfl

theorem list_declares {h : HUnit} (hn : (h.inputs.map (·.1) ++ defsAll h.items).Nodup) {n : Nat} {t : MTy} :
    typeList h n = some t ↔ h.declares n t := by
  obtain ⟨d1, d2, d3⟩ := List.nodup_append.1 hn
  obtain ⟨i1, i2⟩ := inputs_list h.inputs (fun _ => none) d1
  obtain ⟨j1, j2⟩ := items_list h.items (h.inputs.foldl (fun m p => insertTy m p.1 p.2) fun _ => none) d2
  have back : h.declares n t → typeList h n = some t := by
    rw [declares_iff]
    rintro (hi | hi)
    · unfold typeList
      rw [j1 n fun hc => d3 n (List.mem_map.2 ⟨_, hi, rfl⟩) n hc rfl]
      exact i2 n t hi
    · exact j2 n t hi
  refine ⟨fun hl => ?_, back⟩
  rw [declares_iff]
  by_cases hd : n ∈ defsAll h.items
  · obtain ⟨i, hi, hni⟩ := List.mem_flatMap.1 hd
    obtain ⟨t', ht'⟩ := declares_defs hni
    have := j2 n t' ⟨i, hi, ht'⟩
    unfold typeList at hl
    rw [hl] at this
    cases this
    exact .inr ⟨i, hi, ht'⟩
  · unfold typeList at hl
    rw [j1 n hd] at hl
    by_cases hi : n ∈ h.inputs.map (·.1)
    · obtain ⟨⟨m, t'⟩, hm, rfl⟩ := List.mem_map.1 hi
      rw [i2 m t' hm] at hl
      cases hl
      exact .inl hm
    · rw [i1 n hi] at hl
      cases hl

/-! ## The properties -/

/-- C69.  Hardware is generated for a well-typed function exactly if its divisors are literal powers of
two, its patterns have no `[]`, the fields it reads are fields of the structs, and what it transmutes
has as many bits of `inv` type as the result. -/
theorem C69_lowered_iff (P : Prog) (hP : P.Ok) (u : Nat) (f : Fn) (hu : P u = some f) (nid : Nat) :
    (∃ h, lowerFn f nid = some h) ↔ f.body.Compiles := by
  simp only [lowerFn, Option.bind_eq_bind]
  rw [bind_iff (lowerE_iff f.body (hP u f hu).2 nid) fun _ _ => some_iff, and_true]

/-- C69.  Code generation looks up the types of signals in a list.  The entry of a signal is the type of
the input or of the statement that drives it, and no other. -/
theorem C69_signal_types (f : Fn) (nid : Nat) (h : HUnit) (hf : f.Resolved nid)
    (hl : lowerFn f nid = some h) (n : Nat) (t : MTy) : typeList h n = some t ↔ h.declares n t :=
  list_declares (C46_driven_once f nid h hf hl).1

theorem seq_known : ∀ {is : List Item} {S : Nat → Prop}, Seq S is → ∀ i ∈ is, ∀ n ∈ i.reads,
    S n ∨ n ∈ defsAll is
  | j :: is, S, h, i, hi, n, hn => by
    simp only [Seq] at h
    simp only [defsAll, List.flatMap_cons, List.mem_append]
    rcases List.mem_cons.1 hi with rfl | hi
    · exact .inl (h.1 n hn)
    · rcases seq_known h.2 i hi n hn with (h | h) | h
      · exact .inl h
      · exact .inr (.inl h)
      · exact .inr (.inr h)

/-- C69.  Every signal that a statement reads, and the output, has an entry: code generation does not
stop with "No type found". -/
theorem C69_types_found (f : Fn) (nid : Nat) (h : HUnit) (hf : f.Resolved nid)
    (hl : lowerFn f nid = some h) :
    (∃ t, typeList h h.output = some t) ∧ ∀ i ∈ h.items, ∀ n ∈ i.reads, ∃ t, typeList h n = some t := by
  obtain ⟨h1, h2, h3⟩ := C46_driven_once f nid h hf hl
  have key : ∀ n, n ∈ h.inputs.map (·.1) ∨ n ∈ defsAll h.items → ∃ t, typeList h n = some t := by
    intro n hn
    simp only [list_declares h1, declares_iff]
    rcases hn with hn | hn
    · obtain ⟨⟨m, t⟩, hm, rfl⟩ := List.mem_map.1 hn
      exact ⟨t, .inl hm⟩
    · obtain ⟨i, hi, hni⟩ := List.mem_flatMap.1 hn
      obtain ⟨t, ht⟩ := declares_defs hni
      exact ⟨t, .inr ⟨i, hi, ht⟩⟩
  exact ⟨key _ (List.mem_append.1 h3), fun i hi n hn => key n (seq_known h2 i hi n hn)⟩

/-- Signals are declared as the list says. -/
theorem typed_of_list {f : Fn} {nid : Nat} {h : HUnit} (hf : f.Resolved nid)
    (hl : lowerFn f nid = some h) (ht : ∀ n t, typeList h n = some t → h.types n = t) :
    ∀ i ∈ h.items, i.Typed h.types := by
  intro i hi
  have key : ∀ n t, i.declares n t → h.types n = t := fun n t hd =>
    ht n t ((C69_signal_types f nid h hf hl n t).2 ((declares_iff h n t).2 (.inr ⟨i, hi, hd⟩)))
  cases i with
  | stmt s => exact key _ _ rfl
  | nop => exact key _ _ rfl
  | inst => exact key _ _ rfl
  | assert => trivial

/-- The converse: types that inputs and statements have are those of the list. -/
theorem list_of_typed {f : Fn} {nid : Nat} {h : HUnit} (hf : f.Resolved nid)
    (hl : lowerFn f nid = some h) (hi : ∀ p ∈ h.inputs, h.types p.1 = p.2)
    (ht : ∀ i ∈ h.items, i.Typed h.types) (n : Nat) (t : MTy) (hn : typeList h n = some t) :
    h.types n = t := by
  rw [C69_signal_types f nid h hf hl, declares_iff] at hn
  rcases hn with hn | ⟨i, hi, hd⟩
  · exact hi _ hn
  · have := ht i hi
    cases i with
    | stmt s =>
      simp only [Item.declares] at hd
      simpa [Item.Typed, hd] using this
    | nop => simp only [Item.declares, Prod.mk.injEq] at hd; simpa [Item.Typed, hd] using this
    | inst => simp only [Item.declares, Prod.mk.injEq] at hd; simpa [Item.Typed, hd] using this
    | assert => cases hd

/-- C69 with C45 and C46.  Take a program that type checks, whose names are resolved, in which no
function calls itself and whose functions hardware is generated for.  Signals have the types that code
generation finds for them.  When a function has a value for some arguments, its hardware produces an
output for the bits of the arguments, and any output it produces are the bits of the value. -/
theorem C69_function_computes (P : Prog) (nids : Nat → Nat) (hP : P.Ok) (hA : P.Acyclic)
    (hR : ∀ u f, P u = some f → f.Resolved (nids u))
    (hC : ∀ u f, P u = some f → f.body.Compiles)
    (hT : ∀ u f h, P u = some f → lowerFn f (nids u) = some h →
      ∀ n t, typeList h n = some t → f.types n = t)
    (u : Nat) (f : Fn) (hu : P u = some f) (vs : List Val) (v : Val) (ins : List Bits)
    (hev : Ev P (callVars f.params vs) f.body v) (hins : EncAll (f.params.map (·.2)) vs ins) :
    (∃ out, Produces (lowerProg P nids) u ins out) ∧
    ∀ out, Produces (lowerProg P nids) u ins out → Enc f.body.ty v out := by
  refine C46_function_computes P nids hP hA hR ?_ u f hu vs v ins hev hins
  intro u f hu
  obtain ⟨h, hl⟩ := (C69_lowered_iff P hP u f hu (nids u)).2 (hC u f hu)
  have e : h.types = f.types := by
    simp only [lowerFn, Option.bind_eq_bind, Option.bind_eq_some_iff, Option.some.injEq] at hl
    obtain ⟨r, _, rfl⟩ := hl
    rfl
  exact ⟨h, hl, typed_of_list (hR u f hu) hl (by rw [e]; exact hT u f h hu hl)⟩

end Spade.Expr

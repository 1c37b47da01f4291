import Verif.Expr.Typed
import Verif.Expr.Names
/-!
# C46: generated units have an output for every input

C45 says that whatever a unit produces is right; this says that it produces something: its signals
are driven once each, from signals that are driven before them, by legal code.
-/
namespace Spade.Expr
open Spade.Verilog Spade.Codegen Spade.Lower
open Spade.Match (Val)

/-! ## Instances -/

theorem lowerCall_insts {id : Nat} {ty : MTy} {f : Callee} {ts : List MTy} {ops : List Nat} {i : Item}
    (h : lowerCall id ty f ts ops = some i) : ∀ u ∈ i.insts, f = .unit u := by
  cases f <;> simp only [lowerCall, Option.some.injEq, Option.map_eq_some_iff] at h
  · obtain ⟨_, _, rfl⟩ := h; simp [Item.insts]
  all_goals subst h; simp [Item.insts]

/-- Items instantiate units of `L` only. -/
def Insts (L : List Nat) (is : List Item) : Prop := ∀ i ∈ is, ∀ u ∈ i.insts, u ∈ L

theorem Insts.nil {L : List Nat} : Insts L [] := by intro i hi; cases hi

theorem Insts.append {L M : List Nat} {is is' : List Item} (h : Insts L is) (h' : Insts M is') :
    Insts (L ++ M) (is ++ is') := by
  intro i hi u hu
  rcases List.mem_append.1 hi with hi | hi
  · exact List.mem_append_left _ (h i hi u hu)
  · exact List.mem_append_right _ (h' i hi u hu)

theorem Insts.stmts {ss : List Stmt} : Insts [] (ss.map Item.stmt) := by
  intro i hi u hu
  obtain ⟨s, _, rfl⟩ := List.mem_map.1 hi
  simp [Item.insts] at hu

theorem Insts.close {L : List Nat} {is : List Item} {i : Item} (h : Insts L is) (hi : i.insts = []) :
    Insts L (is ++ [i]) := by
  intro j hj u hu
  rcases List.mem_append.1 hj with hj | hj
  · exact h j hj u hu
  · rw [List.mem_singleton.1 hj, hi] at hu; cases hu

theorem Insts.pre {L : List Nat} {is is' : List Item} (h : Insts [] is) (h' : Insts L is') :
    Insts L (is ++ is') := h.append h'

theorem Insts.post {L : List Nat} {is is' : List Item} (h : Insts L is) (h' : Insts [] is') :
    Insts L (is ++ is') := by simpa using h.append h'

mutual
theorem expr_insts : ∀ (e : Expr) {nid : Nat} {r : List Item × Nat}, lowerE e nid = some r →
    Insts e.calls r.1
  | .var _ _, nid, r, hl => by
    simp only [lowerE, Option.some.injEq] at hl; subst hl; exact Insts.nil
  | .int _ _ _, nid, r, hl => by
    simp only [lowerE, Option.some.injEq] at hl; subst hl; exact Insts.nil.close rfl
  | .bool _ _, nid, r, hl => by
    simp only [lowerE, Option.some.injEq] at hl; subst hl; exact Insts.nil.close rfl
  | .bin _ _ op l r', nid, r, hl => by
    simp only [lowerE, Option.bind_eq_bind, Option.bind_eq_some_iff] at hl
    obtain ⟨a, ha, b, hb', o, _, hl⟩ := hl
    split at hl
    · simp only [Option.some.injEq] at hl
      subst hl
      exact ((expr_insts l ha).append (expr_insts r' hb')).close rfl
    · cases hl
  | .un _ _ op e, nid, r, hl | .proj _ _ e _, nid, r, hl | .cast _ _ e, nid, r, hl
  | .rep _ _ e _, nid, r, hl => by
    simp only [lowerE, Option.bind_eq_bind, Option.bind_eq_some_iff, Option.some.injEq] at hl
    obtain ⟨a, ha, rfl⟩ := hl
    exact (expr_insts e ha).close rfl
  | .field _ _ e _ _, nid, r, hl | .range _ _ e _ _, nid, r, hl => by
    simp only [lowerE, Option.bind_eq_bind, Option.bind_eq_some_iff, Option.some.injEq] at hl
    obtain ⟨a, ha, _, _, rfl⟩ := hl
    exact (expr_insts e ha).close rfl
  | .tuple _ _ es, nid, r, hl | .array _ _ es, nid, r, hl => by
    simp only [lowerE, Option.bind_eq_bind, Option.bind_eq_some_iff, Option.some.injEq] at hl
    obtain ⟨a, ha, rfl⟩ := hl
    exact (exprs_insts es ha).close rfl
  | .elem _ _ x y, nid, r, hl => by
    simp only [lowerE, Option.bind_eq_bind, Option.bind_eq_some_iff, Option.some.injEq] at hl
    obtain ⟨a, ha, b, hb, rfl⟩ := hl
    exact ((expr_insts x ha).append (expr_insts y hb)).close rfl
  | .block _ ss e, nid, r, hl => by
    simp only [lowerE, Option.bind_eq_bind, Option.bind_eq_some_iff, Option.some.injEq] at hl
    obtain ⟨a, ha, b, hb, rfl⟩ := hl
    exact (stms_insts ss ha).append (expr_insts e hb)
  | .unitBlock _ ss, nid, r, hl => by
    simp only [lowerE, Option.bind_eq_bind, Option.bind_eq_some_iff, Option.some.injEq] at hl
    obtain ⟨a, ha, rfl⟩ := hl
    exact (stms_insts ss ha).close rfl
  | .ite _ _ c x y, nid, r, hl => by
    simp only [lowerE, Option.bind_eq_bind, Option.bind_eq_some_iff, Option.some.injEq] at hl
    obtain ⟨a, ha, b, hb, d, hd, rfl⟩ := hl
    exact (((expr_insts c ha).append (expr_insts x hb)).append (expr_insts y hd)).close rfl
  | .match _ _ e arms, nid, r, hl => by
    simp only [lowerE, Option.bind_eq_bind, Option.bind_eq_some_iff, Option.some.injEq] at hl
    obtain ⟨a, ha, b, hb, rfl⟩ := hl
    exact ((expr_insts e ha).append (arms_insts arms hb)).close rfl
  | .call _ _ f es, nid, r, hl => by
    simp only [lowerE, Option.bind_eq_bind, Option.bind_eq_some_iff, Option.some.injEq] at hl
    obtain ⟨a, ha, i, hi, rfl⟩ := hl
    intro j hj u hu
    simp only [Expr.calls]
    rcases List.mem_append.1 hj with hj | hj
    · exact List.mem_append_right _ (exprs_insts es ha j hj u hu)
    · rw [List.mem_singleton.1 hj] at hu
      rw [lowerCall_insts hi u hu]
      simp
theorem exprs_insts : ∀ (es : List Expr) {nid : Nat} {r : List Item × Nat}, lowerEs es nid = some r →
    Insts (Exprs.calls es) r.1
  | [], nid, r, hl => by
    simp only [lowerEs, Option.some.injEq] at hl; subst hl; exact Insts.nil
  | e :: es, nid, r, hl => by
    simp only [lowerEs, Option.bind_eq_bind, Option.bind_eq_some_iff, Option.some.injEq] at hl
    obtain ⟨a, ha, b, hb, rfl⟩ := hl
    exact (expr_insts e ha).append (exprs_insts es hb)
theorem stms_insts : ∀ (ss : List Stm) {nid : Nat} {r : List Item × Nat}, lowerStms ss nid = some r →
    Insts (Stms.calls ss) r.1
  | [], nid, r, hl => by
    simp only [lowerStms, Option.some.injEq] at hl; subst hl; exact Insts.nil
  | .bind p e :: ss, nid, r, hl => by
    simp only [lowerStms, Option.bind_eq_bind, Option.bind_eq_some_iff, Option.some.injEq] at hl
    obtain ⟨a, ha, l, hl', b, hb, rfl⟩ := hl
    exact ((expr_insts e ha).post Insts.stmts).append (stms_insts ss hb)
  | .expr e :: ss, nid, r, hl => by
    simp only [lowerStms, Option.bind_eq_bind, Option.bind_eq_some_iff, Option.some.injEq] at hl
    obtain ⟨a, ha, b, hb, rfl⟩ := hl
    exact (expr_insts e ha).append (stms_insts ss hb)
  | .assert e :: ss, nid, r, hl => by
    simp only [lowerStms, Option.bind_eq_bind, Option.bind_eq_some_iff, Option.some.injEq] at hl
    obtain ⟨a, ha, b, hb, rfl⟩ := hl
    exact ((expr_insts e ha).close rfl).append (stms_insts ss hb)
  | .decl :: ss, nid, r, hl => by
    simp only [lowerStms] at hl
    exact stms_insts ss hl
theorem arms_insts {operand : Nat} : ∀ (as : List Arm) {nid : Nat} {r : List Item × List Nat × Nat},
    lowerArms operand as nid = some r → Insts (Arms.calls as) r.1
  | [], nid, r, hl => by
    simp only [lowerArms, Option.some.injEq] at hl; subst hl; exact Insts.nil
  | .plain p e :: as, nid, r, hl => by
    simp only [lowerArms, Option.bind_eq_bind, Option.bind_eq_some_iff, Option.some.injEq] at hl
    obtain ⟨l, _, b, hb, c, hc, rfl⟩ := hl
    exact ((Insts.stmts.pre Insts.stmts).pre (expr_insts e hb)).append (arms_insts as hc)
  | .guarded p g e :: as, nid, r, hl => by
    simp only [lowerArms, Option.bind_eq_bind, Option.bind_eq_some_iff, Option.some.injEq] at hl
    obtain ⟨l, _, a, ha, b, hb, c, hc, rfl⟩ := hl
    exact ((((Insts.stmts.pre (expr_insts g ha)).post Insts.stmts)).append (expr_insts e hb)).append
      (arms_insts as hc)
end

/-! ## Values for all signals -/

theorem undefined_congr {Γ : Nat → MTy} {ρ ρ' : Env} {s : Stmt}
    (h : ∀ n ∈ (Item.stmt s).reads, ρ (fwd n) = ρ' (fwd n)) (hu : Undefined Γ ρ s) :
    Undefined Γ ρ' s := by
  unfold Undefined at hu ⊢
  split at hu <;> simp only [Item.reads, List.mem_cons, List.not_mem_nil, or_false] at h
  · rw [← h _ (.inr rfl)]; exact hu
  · rw [← h _ (.inr rfl)]; exact hu
  · rw [← h _ (.inr rfl)]; exact hu
  · rw [← h _ (.inr rfl)]; exact hu
  · obtain ⟨t, n, h1, h2⟩ := hu
    exact ⟨t, n, h1, by rw [← h _ (.inr rfl)]; exact h2⟩
  · cases hu

/-- Instances of the units `L` have an output for inputs of the right widths. -/
def Answers (H : Nat → Option HUnit) (sig : Nat → Option (List MTy × MTy)) (L : List Nat) : Prop :=
  ∀ u ∈ L, ∀ ts ty, sig u = some (ts, ty) → ∀ ins : List Bits,
    ins.map List.length = ts.map MTy.size → ∃ out, Produces H u ins out ∧ out.length = ty.size

theorem fits_setVar {Γ : Nat → MTy} {ρ : Env} {n : Nat} {b : Bits} (h : ∀ m, Fits Γ ρ m)
    (hb : b.length = (Γ n).size) : ∀ m, Fits Γ (setVar ρ n b) m := by
  intro m
  unfold Fits
  by_cases hm : m = n
  · subst hm; rw [setVar_self]; exact hb
  · rw [setVar_ne ρ b hm]; exact h m

/-- One item: a value for the signal it drives, with which it holds as long as the signals it
reads keep their values. -/
theorem item_step {H : Nat → Option HUnit} {sig : Nat → Option (List MTy × MTy)} {Γ : Nat → MTy}
    {ρ : Env} {i : Item} (xs : Nat → Nat → Bool) (hH : Answers H sig i.insts) (ht : i.Typed Γ)
    (hi : i.Total sig Γ) (hf : ∀ m, Fits Γ ρ m) :
    ∃ ρ1 : Env, (∀ m, Fits Γ ρ1 m) ∧ (∀ m, m ∉ i.defs → ρ1 (fwd m) = ρ (fwd m)) ∧
      ∀ ρ' : Env, (∀ m ∈ i.reads, ρ' (fwd m) = ρ (fwd m)) → (∀ m ∈ i.defs, ρ' (fwd m) = ρ1 (fwd m)) →
        ItemHolds H Γ ρ' xs i := by
  cases i with
  | stmt s =>
    cases s with
    | const n ty c =>
      obtain ⟨b, hb⟩ := hi ρ (xs n)
      have ht' : Γ n = ty := ht
      refine ⟨setVar ρ n b, fits_setVar hf (by rw [ht']; exact constBits_length hb), ?_, ?_⟩
      · intro m hm
        exact setVar_ne ρ b (by simpa [Item.defs, target] using hm)
      · intro ρ' _ hd
        refine .stmt ⟨ht', ?_⟩
        rw [hd n (by simp [Item.defs, target]), setVar_self, ← hb]
        exact constBits_congr
    | bind n ty op ops =>
      have ht' : Γ n = ty := ht
      rcases hi ρ (xs n) hf with ⟨b, hb⟩ | hu
      · refine ⟨setVar ρ n b, fits_setVar hf (by rw [ht']; exact runOp_length hb), ?_, ?_⟩
        · intro m hm
          exact setVar_ne ρ b (by simpa [Item.defs, target] using hm)
        · intro ρ' hr hd
          refine .stmt ⟨ht', ?_⟩
          rw [hd n (by simp [Item.defs, target]), setVar_self, ← hb]
          exact runOp_congr hr
      · exact ⟨ρ, hf, fun _ _ => rfl, fun ρ' hr _ =>
          .undefined ht' (undefined_congr (fun m hm => (hr m hm).symm) hu)⟩
  | nop n ty => exact ⟨ρ, hf, fun _ _ => rfl, fun _ _ _ => .nop ht⟩
  | assert n => exact ⟨ρ, hf, fun _ _ => rfl, fun _ _ _ => .assert⟩
  | inst n ty u ops =>
    have ht' : Γ n = ty := ht
    obtain ⟨out, ho, hl⟩ := hH u (by simp [Item.insts]) _ _ hi (ops.map fun o => ρ (fwd o)) (by
      rw [List.map_map, List.map_map]
      exact List.map_congr_left fun o _ => hf o)
    refine ⟨setVar ρ n out, fits_setVar hf (by rw [ht']; exact hl), ?_, ?_⟩
    · intro m hm
      exact setVar_ne ρ out (by simpa [Item.defs] using hm)
    · intro ρ' hr hd
      refine .inst ht' ?_
      rw [hd n (by simp [Item.defs]), setVar_self]
      have : (ops.map fun o => ρ' (fwd o)) = ops.map fun o => ρ (fwd o) :=
        List.map_congr_left fun o ho => hr o ho
      rw [this]
      exact ho

/-- Items in order that drive different signals hold of some values. -/
theorem items_hold {H : Nat → Option HUnit} {sig : Nat → Option (List MTy × MTy)} {Γ : Nat → MTy}
    (xs : Nat → Nat → Bool) : ∀ {is : List Item} {S : Nat → Prop} {ρ : Env},
    (∀ i ∈ is, Answers H sig i.insts) → (∀ i ∈ is, i.Typed Γ) → ItemsTotal sig Γ is → Seq S is →
    (∀ n ∈ defsAll is, ¬ S n) → (defsAll is).Nodup → (∀ m, Fits Γ ρ m) →
    ∃ ρ' : Env, (∀ m, Fits Γ ρ' m) ∧ (∀ m, m ∉ defsAll is → ρ' (fwd m) = ρ (fwd m)) ∧
      ∀ i ∈ is, ItemHolds H Γ ρ' xs i
  | [], S, ρ, _, _, _, _, _, _, hf => ⟨ρ, hf, fun _ _ => rfl, by simp⟩
  | i :: is, S, ρ, hH, ht, hi, hs, hS, hd, hf => by
    rw [defsAll_cons] at hd hS
    obtain ⟨d1, d2, d3⟩ := List.nodup_append.1 hd
    obtain ⟨ρ1, f1, k1, h1⟩ := item_step xs (hH i (by simp)) (ht i (by simp)) (hi i (by simp)) hf
    obtain ⟨ρ2, f2, k2, h2⟩ := items_hold xs (is := is) (S := fun n => S n ∨ n ∈ i.defs) (ρ := ρ1)
      (fun j hj => hH j (List.mem_cons_of_mem _ hj)) (fun j hj => ht j (List.mem_cons_of_mem _ hj))
      (fun j hj => hi j (List.mem_cons_of_mem _ hj)) hs.2 (by
        rintro n hn (h | h)
        · exact hS n (List.mem_append_right _ hn) h
        · exact d3 n h n hn rfl) d2 f1
    refine ⟨ρ2, f2, ?_, ?_⟩
    · intro m hm
      rw [defsAll_cons, List.mem_append, not_or] at hm
      rw [k2 m hm.2, k1 m hm.1]
    · intro j hj
      rcases List.mem_cons.1 hj with rfl | hj
      · refine h1 ρ2 ?_ ?_
        · intro m hm
          have hSm := hs.1 m hm
          rw [k2 m fun h => hS m (List.mem_append_right _ h) hSm,
            k1 m fun h => hS m (List.mem_append_left _ h) hSm]
        · intro m hm
          exact k2 m fun h => d3 m hm m h rfl
      · exact h2 j hj

/-- Values for the inputs. -/
theorem inputs_hold {Γ : Nat → MTy} : ∀ {ps : List (Nat × MTy)} {ins : List Bits},
    (ps.map (·.1)).Nodup → (∀ p ∈ ps, Γ p.1 = p.2) → ins.map List.length = ps.map (fun p => p.2.size) →
    ∃ ρ : Env, (∀ m, Fits Γ ρ m) ∧ ins = ps.map fun p => ρ (fwd p.1)
  | [], ins, _, _, hl => by
    refine ⟨fun v => List.replicate (Γ (v / 2)).size false, ?_, by simpa using hl⟩
    intro m
    have : fwd m / 2 = m := by unfold fwd; omega
    simp [Fits, this]
  | p :: ps, [], _, _, hl => by simp at hl
  | p :: ps, b :: ins, hn, ht, hl => by
    simp only [List.map_cons, List.cons.injEq] at hl
    simp only [List.map_cons, List.nodup_cons] at hn
    obtain ⟨ρ, hf, he⟩ := inputs_hold hn.2 (fun q hq => ht q (List.mem_cons_of_mem _ hq)) hl.2
    refine ⟨setVar ρ p.1 b, fits_setVar hf (by rw [ht p (by simp)]; exact hl.1), ?_⟩
    simp only [List.map_cons, List.cons.injEq]
    refine ⟨(setVar_self ρ p.1 b).symm, ?_⟩
    rw [he]
    refine List.map_congr_left fun q hq => (setVar_ne ρ b ?_).symm
    intro h
    exact hn.1 (h ▸ List.mem_map.2 ⟨q, hq, rfl⟩)

/-! ## The property -/

/-- C46.  Every signal of a generated unit is an input or driven by exactly one statement, a
statement only reads inputs and signals that are driven before it, so that there is no
combinational loop, and the output is one of these signals. -/
theorem C46_driven_once (f : Fn) (nid : Nat) (h : HUnit) (hf : f.Resolved nid)
    (hl : lowerFn f nid = some h) :
    (h.inputs.map (·.1) ++ defsAll h.items).Nodup ∧
    Seq (fun n => n ∈ h.inputs.map (·.1)) h.items ∧
    h.output ∈ h.inputs.map (·.1) ++ defsAll h.items := by
  simp only [lowerFn, Option.bind_eq_bind, Option.bind_eq_some_iff, Option.some.injEq] at hl
  obtain ⟨r, hr, rfl⟩ := hl
  obtain ⟨d1, d2, d3⟩ := List.nodup_append.1 hf.distinct
  obtain ⟨p, v⟩ := expr_names f.body hr hf.inScope d2
    fun n hn => hf.given n (List.mem_append_right _ hn)
  refine ⟨List.nodup_append.2 ⟨d1, p.drv.nodup, ?_⟩, p.seq, List.mem_append.2 v⟩
  rintro a ha b hb rfl
  rcases p.drv.mem a hb with h | h
  · exact d3 a ha a h rfl
  · have := hf.given a (List.mem_append_left _ ha)
    omega

/-- C46.  Take a program that type checks, whose names are resolved, in which no function calls
itself, and in which every function is lowered, to units that declare signals with the types of the
statements that drive them.  Every unit produces an output of the width of its result for all
inputs of the widths of its parameters. -/
theorem C46_unit_has_output (P : Prog) (nids : Nat → Nat) (hP : P.Ok) (hA : P.Acyclic)
    (hR : ∀ u f, P u = some f → f.Resolved (nids u))
    (hL : ∀ u f, P u = some f → ∃ h, lowerFn f (nids u) = some h ∧ ∀ i ∈ h.items, i.Typed h.types)
    (u : Nat) (f : Fn) (hu : P u = some f) (ins : List Bits)
    (hins : ins.map List.length = f.params.map fun p => p.2.size) :
    ∃ out, Produces (lowerProg P nids) u ins out ∧ out.length = f.body.ty.size := by
  obtain ⟨rank, hrank⟩ := hA
  suffices ∀ k u f, rank u < k → P u = some f → ∀ ins : List Bits,
      ins.map List.length = (f.params.map fun p => p.2.size) →
      ∃ out, Produces (lowerProg P nids) u ins out ∧ out.length = f.body.ty.size from
    this (rank u + 1) u f (by omega) hu ins hins
  clear hins ins hu f u
  intro k
  induction k with
  | zero => intro u f h; omega
  | succ k ih =>
    intro u f hk hu ins hins
    obtain ⟨h, hl, ht⟩ := hL u f hu
    have hR' := hR u f hu
    obtain ⟨n1, n2, n3⟩ := C46_driven_once f (nids u) h hR' hl
    have hH : lowerProg P nids u = some h := by simp [lowerProg, hu, hl]
    simp only [lowerFn, Option.bind_eq_bind, Option.bind_eq_some_iff, Option.some.injEq] at hl
    obtain ⟨r, hr, rfl⟩ := hl
    obtain ⟨ht1, hok⟩ := hP u f hu
    obtain ⟨d1, d2, d3⟩ := List.nodup_append.1 n1
    obtain ⟨ρ0, f0, e0⟩ := inputs_hold (Γ := f.types) d1 ht1 hins
    have hans : ∀ i ∈ r.1, Answers (lowerProg P nids) P.sig i.insts := by
      intro i hi v hv ts ty hsig ins' hins'
      have hc := hrank u f hu v (expr_insts f.body hr i hi v hv)
      simp only [Prog.sig, Option.map_eq_some_iff, Prod.mk.injEq] at hsig
      obtain ⟨g, hg, rfl, rfl⟩ := hsig
      exact ih v g (by omega) hg ins' (by rw [List.map_map] at hins'; exact hins')
    obtain ⟨ρ, f1, k1, i1⟩ := items_hold (fun _ _ => false) hans ht
      (expr_total f.body hok hR'.armed hr ht) n2 (fun n hn h => d3 n h n hn rfl) d2 f0
    refine ⟨ρ (fwd f.body.variable), .mk (xs := fun _ _ => false) hH f1 ?_ i1 rfl, ?_⟩
    · rw [e0]
      refine List.map_congr_left fun p hp => (k1 p.1 fun h => ?_).symm
      exact d3 p.1 (List.mem_map.2 ⟨p, hp, rfl⟩) p.1 h rfl
    · have := f1 f.body.variable
      unfold Fits at this
      rw [this]
      show (f.types f.body.variable).size = _
      rw [typed_variable f.body hok hr ht]

theorem encAll_sizes : ∀ {ps : List (Nat × MTy)} {vs : List Val} {ins : List Bits},
    EncAll (ps.map (·.2)) vs ins → ins.map List.length = ps.map fun p => p.2.size
  | [], _, _, h => by cases h; rfl
  | _ :: _, _, _, h => by
    cases h with
    | cons h1 h2 => simp [enc_length h1, encAll_sizes h2]

/-- C46 with C45.  In such a program, when a function has a value for some arguments, its hardware
produces an output for the bits of the arguments, and any output it produces are the bits of the
value. -/
theorem C46_function_computes (P : Prog) (nids : Nat → Nat) (hP : P.Ok) (hA : P.Acyclic)
    (hR : ∀ u f, P u = some f → f.Resolved (nids u))
    (hL : ∀ u f, P u = some f → ∃ h, lowerFn f (nids u) = some h ∧ ∀ i ∈ h.items, i.Typed h.types)
    (u : Nat) (f : Fn) (hu : P u = some f) (vs : List Val) (v : Val) (ins : List Bits)
    (hev : Ev P (callVars f.params vs) f.body v) (hins : EncAll (f.params.map (·.2)) vs ins) :
    (∃ out, Produces (lowerProg P nids) u ins out) ∧
    ∀ out, Produces (lowerProg P nids) u ins out → Enc f.body.ty v out := by
  refine ⟨?_, fun out => C45_function_value_partial P nids u f vs v ins out hP hu hev hins⟩
  obtain ⟨out, ho, _⟩ := C46_unit_has_output P nids hP hA hR hL u f hu ins (encAll_sizes hins)
  exact ⟨out, ho⟩

end Spade.Expr

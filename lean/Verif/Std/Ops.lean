import Verif.Std.Array
import Verif.Std.Bits
/-! # The operators evaluate to what is documented -/
namespace Spade.Std
open Spade.Verilog Spade.Codegen Spade.Lower Spade.Expr
open Spade.Match (Val HasTy HasTys Matches MatchesAll)

variable {P : Prog} {num : Key → Nat}

/-- What a logical operator does. -/
def Logic.val : Logic → Bool → Bool → Bool
  | .and => (· && ·)
  | .or => (· || ·)
  | .xor => (· ^^ ·)

theorem Logic.intrVal (l : Logic) {ts : List MTy} {ty : MTy} {as bs : List Bool} (h : as.length = bs.length) :
    IntrVal l.intr ts ty [bools as, bools bs] (bools (List.zipWith l.val as bs)) := by
  cases l with
  | and => exact .bitAnd h
  | or => exact .bitOr h
  | xor => exact .bitXor h

/-! ## Arithmetic -/

theorem ev_lowBits {env : Vars} {id N M : Nat} {s : Bool} {e : Expr} {z : Int} (hN : N ≤ M)
    (ht : e.ty = numTy s M) (hz : InRange (numTy s M) z) (he : Ev P env e (.int z)) :
    Ev P env (lowBits id s N M e) (.int (wrap (numTy s N) z)) := by
  refine .block (.bind (v := bools (bitList M z)) (.intr (.cons he .nil) ?_) trivial .nil)
    (.intr (vs := [bools (bitList N z)]) (.cons ?_ .nil) ?_)
  · simp only [List.map_cons, List.map_nil, ht]
    exact bits_transmute hz
  · refine ev_eq (.range (vs := (bitList M z).map .bool) (.var ?_)) ?_
    · simp [Vars.extend, LPat.binds, bools]
    · simp [bools, ← List.map_take, bitList_take hN]
  · have h := num_transmute (s := s) (bitList_length N z)
    rw [bitSum_bitList] at h
    rw [show wrap (numTy s N) z = wrap (numTy s N) (z % 2 ^ N) from
      wrap_congr (Int.emod_emod_of_dvd _ (Int.dvd_refl _)).symm]
    exact h

theorem neg_returns (L : Lib P num) {N : Nat} {x : Int} (h : (P (num (.op (.neg N)))).isSome) :
    Returns P (num (.op (.neg N))) [.int x] (.int (wrap (.int N) (-x))) := by
  refine L.ret h (ev_eq (ev_lowBits (s := true) (Nat.le_refl N) rfl (wrap_range true N (-x))
    (.un (.var rfl) .neg)) ?_)
  rw [wrap_wrap (Nat.le_refl N)]
  rfl

theorem add_returns (L : Lib P num) {s : Bool} {N : Nat} {x y : Int} (h : (P (num (.op (.add s N)))).isSome) :
    Returns P (num (.op (.add s N))) [.int x, .int y] (.int (wrap (numTy s N) (x + y))) := by
  refine L.ret h (ev_eq (ev_lowBits (Nat.le_succ N) rfl (wrap_range s (N + 1) (x + y))
    (.bin (.var rfl) (.var rfl) rfl)) ?_)
  rw [wrap_wrap (Nat.le_succ N)]

theorem sub_returns (L : Lib P num) {s : Bool} {N : Nat} {x y : Int} (h : (P (num (.op (.sub s N)))).isSome) :
    Returns P (num (.op (.sub s N))) [.int x, .int y] (.int (wrap (numTy s N) (x - y))) := by
  refine L.ret h (ev_eq (ev_lowBits (Nat.le_succ N) rfl (wrap_range s (N + 1) (x - y))
    (.bin (.var rfl) (.var rfl) rfl)) ?_)
  rw [wrap_wrap (Nat.le_succ N)]

theorem mul_returns (L : Lib P num) {s : Bool} {N : Nat} {x y : Int} (h : (P (num (.op (.mul s N)))).isSome) :
    Returns P (num (.op (.mul s N))) [.int x, .int y] (.int (wrap (numTy s N) (x * y))) := by
  refine L.ret h (ev_eq (ev_lowBits (by omega) rfl (wrap_range s (2 * N) (x * y))
    (.bin (.var rfl) (.var rfl) rfl)) ?_)
  rw [wrap_wrap (by omega)]

theorem unsigned_uint {N : Nat} {z : Int} (s : Bool) : (unsigned (numTy s N) z : Int) = z % 2 ^ N := by
  rw [unsigned, numTy_size, Int.toNat_of_nonneg (Int.emod_nonneg _ (Int.ne_of_gt (pow_pos N)))]

theorem shl_returns (L : Lib P num) {s : Bool} {N : Nat} {x y : Int} (h : (P (num (.op (.shl s N)))).isSome) :
    Returns P (num (.op (.shl s N))) [.int x, .int y]
      (.int (wrap (numTy s N) (x * 2 ^ (y % 2 ^ N).toNat))) := by
  refine L.ret h (.bin (.var rfl) (.var rfl) ?_)
  simp only [binVal, unsigned, numTy_size]

theorem shr_returns (L : Lib P num) {s : Bool} {N : Nat} {x y : Int} (h : (P (num (.op (.shr s N)))).isSome) :
    Returns P (num (.op (.shr s N))) [.int x, .int y]
      (.int (wrap (numTy s N) (x % 2 ^ N / 2 ^ (y % 2 ^ N).toNat))) := by
  refine L.ret h (.bin (.var rfl) (.var rfl) ?_)
  simp only [binVal, unsigned_uint]
  simp only [unsigned, numTy_size]

/-! ## Logic -/

theorem not_returns (L : Lib P num) {b : Bool} (h : (P (num (.op .not))).isSome) :
    Returns P (num (.op .not)) [.bool b] (.bool !b) :=
  L.ret h (ev_first (.intr (.cons (.array (.cons (.var rfl) .nil)) .nil) (.bitNot (as := [b]))))

theorem nots_returns (L : Lib P num) {N : Nat} {as : List Bool} (h : (P (num (.op (.nots N)))).isSome) :
    Returns P (num (.op (.nots N))) [bools as] (bools (as.map (!·))) :=
  L.ret h (.intr (.cons (.var rfl) .nil) .bitNot)

theorem bitNot_returns (L : Lib P num) {s : Bool} {N : Nat} {x : Int} (h : (P (num (.op (.bitNot s N)))).isSome)
    (hx : InRange (numTy s N) x) : Returns P (num (.op (.bitNot s N))) [.int x]
      (.int (wrap (numTy s N) (bitSum ((bitList N x).map (!·))))) :=
  L.ret h (.block (.bind (v := bools (bitList N x)) (.intr (.cons (.var rfl) .nil) (bits_transmute hx)) trivial .nil)
    (.intr (.cons (.intr (.cons (.var rfl) .nil) .bitNot) .nil) (num_transmute (by simp))))

theorem logic_returns (L : Lib P num) {l : Logic} {a b : Bool} (h : (P (num (.op (.logic l)))).isSome) :
    Returns P (num (.op (.logic l))) [.bool a, .bool b] (.bool (l.val a b)) :=
  L.ret h (ev_first (.intr (.cons (.array (.cons (.var rfl) .nil)) (.cons (.array (.cons (.var rfl) .nil)) .nil))
    (l.intrVal (as := [a]) (bs := [b]) rfl)))

theorem logics_returns (L : Lib P num) {l : Logic} {N : Nat} {as bs : List Bool}
    (h : (P (num (.op (.logics l N)))).isSome) (hl : as.length = bs.length) :
    Returns P (num (.op (.logics l N))) [bools as, bools bs] (bools (List.zipWith l.val as bs)) :=
  L.ret h (.intr (.cons (.var rfl) (.cons (.var rfl) .nil)) (l.intrVal hl))

theorem bitLogic_returns (L : Lib P num) {l : Logic} {s : Bool} {N : Nat} {x y : Int}
    (h : (P (num (.op (.bitLogic l s N)))).isSome) (hx : InRange (numTy s N) x) (hy : InRange (numTy s N) y) :
    Returns P (num (.op (.bitLogic l s N))) [.int x, .int y]
      (.int (wrap (numTy s N) (bitSum (List.zipWith l.val (bitList N x) (bitList N y))))) :=
  L.ret h (.block (.bind (v := bools (bitList N x)) (.intr (.cons (.var rfl) .nil) (bits_transmute hx)) trivial
      (.bind (v := bools (bitList N y)) (.intr (.cons (.var rfl) .nil) (bits_transmute hy)) trivial .nil))
    (.intr (.cons (.intr (.cons (.var rfl) (.cons (.var rfl) .nil)) (l.intrVal (by simp))) .nil)
      (num_transmute (by simp))))

/-! ## Comparisons -/

theorem order_returns (L : Lib P num) {c : Cmp} {s : Bool} {N : Nat} {x y : Int}
    (h : (P (num (.op (.order c s N)))).isSome) (h1 : c ≠ .eq) (h2 : c ≠ .ne) :
    Returns P (num (.op (.order c s N))) [.int x, .int y] (.bool (c.holds x y)) :=
  L.ret h (.intr (.cons (.var rfl) (.cons (.var rfl) .nil)) (.order h1 h2))

theorem eq_returns (L : Lib P num) {T : MTy} {v w : Val} (h : (P (num (.op (.eq T)))).isSome) :
    ∃ b, Returns P (num (.op (.eq T))) [v, w] (.bool b) ∧ (b = true ↔ v = w) := by
  by_cases e : v = w
  · subst e
    exact ⟨true, L.ret h (.intr (.cons (.var rfl) (.cons (.var rfl) .nil)) .eqSame), by simp⟩
  · exact ⟨false, L.ret h (.intr (.cons (.var rfl) (.cons (.var rfl) .nil)) (.eqDiff e)), by simpa using e⟩

theorem ne_returns (L : Lib P num) {T : MTy} {v w : Val} (h : (P (num (.op (.ne T)))).isSome) :
    ∃ b, Returns P (num (.op (.ne T))) [v, w] (.bool b) ∧ (b = true ↔ v ≠ w) := by
  by_cases e : v = w
  · subst e
    exact ⟨false, L.ret h (.intr (.cons (.var rfl) (.cons (.var rfl) .nil)) .neSame), by simp⟩
  · exact ⟨true, L.ret h (.intr (.cons (.var rfl) (.cons (.var rfl) .nil)) (.neDiff e)), by simpa using e⟩

theorem tuple_elim {ts : List MTy} {vs : List Val} (h : Is (.tuple ts) (.tup vs)) : HasTys vs (srcTys ts) := by
  simp only [Is, srcTy] at h
  cases h with
  | tuple h => exact h

theorem eqMembers_returns (L : Lib P num) {tup : MTy} {env : Vars} {R : Nat → Val → Val → Prop} :
    ∀ (ts : List (MTy × Nat)) (id k : Nat) (acc : Expr) (a : Bool) (vs ws pre pre' : List Val),
    (∀ c ∈ (eqMembers num tup id k acc ts).calls, (P c).isSome) → (∀ t ∈ ts, Decides P t.2 t.1 (R t.2)) →
    pre.length = k → pre'.length = k → env 0 = some (.tup (pre ++ vs)) → env 1 = some (.tup (pre' ++ ws)) →
    HasTys vs (srcTys (ts.map (·.1))) → HasTys ws (srcTys (ts.map (·.1))) → Ev P env acc (.bool a) →
    ∃ b, Ev P env (eqMembers num tup id k acc ts) (.bool b) ∧ (b = true ↔ a = true ∧ AllRelated R ts vs ws)
  | [], _, _, acc, a, vs, ws, _, _, _, _, _, _, _, _, hv, hw, ha => by
    simp only [List.map_nil, srcTys] at hv hw
    cases hv; cases hw
    exact ⟨a, ha, by simp [AllRelated]⟩
  | (T, u) :: ts, id, k, acc, a, _, _, pre, pre', hc, he, hp, hp', h0, h1, hv, hw, ha => by
    simp only [List.map_cons, srcTys] at hv hw
    cases hv with
    | @cons v _ vs _ hv hvs =>
    cases hw with
    | @cons w _ ws _ hw hws =>
    obtain ⟨b, hb, hbe⟩ := he (T, u) (by simp) v w hv hw
    have hs : (P (num (.op (.logic .and)))).isSome := by
      refine hc _ ?_
      simp only [eqMembers]
      have mono : ∀ (ts : List (MTy × Nat)) (id k : Nat) (acc : Expr), ∀ c ∈ acc.calls,
          c ∈ (eqMembers num tup id k acc ts).calls := by
        intro ts
        induction ts with
        | nil => intro _ _ _ c hc; exact hc
        | cons t ts ih =>
          intro id k acc c hc
          exact ih _ _ _ _ (by simp [Expr.calls, Exprs.calls, hc])
      exact mono _ _ _ _ _ (by simp [Expr.calls])
    obtain ⟨b', hb', hbe'⟩ := eqMembers_returns L ts (id + 4) (k + 1) _ (a && b) vs ws
      (pre ++ [v]) (pre' ++ [w]) (fun c hcc => hc c hcc) (fun t ht => he t (by simp [ht]))
      (by simp [hp]) (by simp [hp']) (by simpa using h0) (by simpa using h1) hvs hws
      (ev_call (.cons ha (.cons (ev_call
        (.cons (.proj (.var h0) (.tup (by simp [← hp]))) (.cons (.proj (.var h1) (.tup (by simp [← hp']))) .nil)) hb) .nil))
        (logic_returns L hs))
    refine ⟨b', hb', hbe'.trans ?_⟩
    simp only [Bool.and_eq_true, hbe, AllRelated, and_assoc]

theorem eqTuple_returns (L : Lib P num) {ts : List (MTy × Nat)} {R : Nat → Val → Val → Prop} {vs ws : List Val}
    (h : (P (num (.op (.eqTuple ts)))).isSome) (he : ∀ t ∈ ts, Decides P t.2 t.1 (R t.2))
    (hv : Is (.tuple (ts.map (·.1))) (.tup vs)) (hw : Is (.tuple (ts.map (·.1))) (.tup ws)) :
    ∃ b, Returns P (num (.op (.eqTuple ts))) [.tup vs, .tup ws] (.bool b) ∧
      (b = true ↔ AllRelated R ts vs ws) := by
  have hv' := tuple_elim hv
  have hw' := tuple_elim hw
  clear hv hw
  match ts with
  | [] =>
    simp only [List.map_nil, srcTys] at hv' hw'
    cases hv'; cases hw'
    exact ⟨true, L.ret h .bool, by simp [AllRelated]⟩
  | (T, u) :: ts =>
    have sub : ∀ n, n ∈ (std num (.op (.eqTuple ((T, u) :: ts)))).body.calls → (P n).isSome := fun n hc => L.sub h hc
    simp only [List.map_cons, srcTys] at hv' hw'
    cases hv' with
    | @cons v _ vs _ hv hvs =>
    cases hw' with
    | @cons w _ ws _ hw hws =>
    obtain ⟨b, hb, hbe⟩ := he (T, u) (by simp) v w hv hw
    have hacc : Ev P (callVars [(0, .tuple (T :: ts.map Prod.fst)), (1, .tuple (T :: ts.map Prod.fst))]
        [.tup (v :: vs), .tup (w :: ws)])
        (.call 2 .bool (.unit u) [.proj 3 T (.var 0 (.tuple (T :: ts.map Prod.fst))) 0,
          .proj 4 T (.var 1 (.tuple (T :: ts.map Prod.fst))) 0]) (.bool b) :=
      ev_call (.cons (.proj (v := .tup (v :: vs)) (.var rfl) (.tup rfl))
        (.cons (.proj (v := .tup (w :: ws)) (.var rfl) (.tup rfl)) .nil)) hb
    obtain ⟨b', hb', hbe'⟩ := eqMembers_returns L ts 5 1 _ b vs ws [v] [w] sub (fun t ht => he t (by simp [ht]))
      rfl rfl rfl rfl hvs hws hacc
    refine ⟨b', L.ret h hb', hbe'.trans ?_⟩
    simp [hbe, AllRelated]

/-- Finds a unit among those a body calls. -/
local macro "called" : tactic =>
  `(tactic| simp [std, ops, Expr.calls, Stms.calls, Exprs.calls, Arms.calls, cat, splitLet])

theorem neTuple_returns (L : Lib P num) {ts : List (MTy × Nat)} {R : Nat → Val → Val → Prop} {vs ws : List Val}
    (h : (P (num (.op (.neTuple ts)))).isSome) (he : ∀ t ∈ ts, Decides P t.2 t.1 (R t.2))
    (hv : Is (.tuple (ts.map (·.1))) (.tup vs)) (hw : Is (.tuple (ts.map (·.1))) (.tup ws)) :
    ∃ b, Returns P (num (.op (.neTuple ts))) [.tup vs, .tup ws] (.bool b) ∧
      (b = true ↔ ¬ AllRelated R ts vs ws) := by
  obtain ⟨b, hb, hbe⟩ := eqTuple_returns L (L.sub h (by called)) he hv hw
  refine ⟨!b, L.ret h (ev_call (.cons (ev_call (.cons (.var rfl) (.cons (.var rfl) .nil)) hb) .nil)
    (not_returns L (L.sub h (by called)))), ?_⟩
  cases b <;> simp_all

end Spade.Std

import Verif.Std.Sig
/-! # The operators and the functions on numbers, bits and options pass type inference -/
namespace Spade.Std
open Spade.Verilog Spade.Codegen Spade.Lower Spade.Expr
open Spade.Match (Val HasTy HasTys Matches MatchesAll)

variable {P : Prog} {num : Key → Nat}

/-- Finds a unit among those a body calls. -/
local macro "called" : tactic =>
  `(tactic| simp [std, ops, Expr.calls, Stms.calls, Exprs.calls, Arms.calls, cat, splitLet])

theorem ops_params_ok (o : Op) : ∀ p ∈ (ops num o).params, (ops num o).types p.1 = p.2 := by
  cases o with
  | eqTuple ts =>
    match ts with
    | [] => simp [ops, tys, List.lookup]
    | (T, u) :: ts => simp [ops, tys, List.lookup]
  | _ => simp [ops, tys, List.lookup]

theorem exact_num (s : Bool) (N : Nat) : Exact (numTy s N) := by
  cases s
  · exact exact_types.2.1 N
  · exact exact_types.1 N

theorem exact_bits (N : Nat) : Exact (.array .bool N) := exact_types.2.2.2.2.1 _ _ exact_types.2.2.1

theorem Exact.readable {t ty : MTy} (h : Exact t) : Readable t ty := fun v _ b b' h1 h2 h3 => h v b b' h1 h2 ▸ h3

theorem bits_size (N : Nat) : (MTy.array .bool N).size = N := by simp [MTy.size]

theorem bits_ok {s : Bool} {N : Nat} : IntrTy .transmute [numTy s N] (.array .bool N) :=
  .transmute (by rw [numTy_size, bits_size]) (exact_num s N).readable

theorem num_ok {s : Bool} {N : Nat} : IntrTy .transmute [.array .bool N] (numTy s N) :=
  .transmute (by rw [numTy_size, bits_size]) (exact_bits N).readable

theorem logic_ok (l : Logic) {N : Nat} (h : N ≠ 0) :
    IntrTy l.intr [.array .bool N, .array .bool N] (.array .bool N) := by
  cases l with
  | and => exact .bitAnd h
  | or => exact .bitOr h
  | xor => exact .bitXor h

theorem lowBits_ok {Γ : Nat → MTy} {id N M : Nat} {s : Bool} {e : Expr} (hN : N ≤ M) (hM : M ≤ 2 ^ 32)
    (ht : e.ty = numTy s M) (he : e.Ok P.sig Γ) (hΓ : Γ (id + 1) = .array .bool M) :
    (lowBits id s N M e).Ok P.sig Γ := by
  refine ⟨⟨rfl, ⟨trivial, trivial, ?_⟩, ⟨?_, he, trivial⟩, trivial⟩, num_ok, ⟨⟨.bool, M, rfl, Nat.zero_le _, hN, rfl⟩, ?_, hΓ⟩, trivial⟩
  · exact Nat.le_trans (Nat.le_of_eq (bits_size M)) hM
  · simp only [List.map_cons, List.map_nil, ht]; exact bits_ok
  · exact Nat.le_trans (Nat.le_of_eq (bits_size M)) hM

theorem add_ty (s : Bool) (N : Nat) : BinTy .add (numTy s N) (numTy s N) (numTy s (N + 1)) := by
  cases s
  · exact .addUint
  · exact .addInt

theorem sub_ty (s : Bool) (N : Nat) : BinTy .sub (numTy s N) (numTy s N) (numTy s (N + 1)) := by
  cases s
  · exact .subUint
  · exact .subInt

theorem mul_ty (s : Bool) (N : Nat) : BinTy .mul (numTy s N) (numTy s N) (numTy s (2 * N)) := by
  rw [Nat.two_mul]
  cases s
  · exact .mulUint
  · exact .mulInt

theorem shl_ty (s : Bool) (N : Nat) : BinTy .shl (numTy s N) (numTy s N) (numTy s N) := by
  cases s
  · exact .shlUint
  · exact .shlInt

theorem shr_ty (s : Bool) (N : Nat) : BinTy .shr (numTy s N) (numTy s N) (numTy s N) := by
  cases s
  · exact .shrUint
  · exact .shrInt

theorem one_ok {Γ : Nat → MTy} {id i : Nat} {e : Expr} (ht : e.ty = .array .bool 1) (he : e.Ok P.sig Γ) :
    (Expr.elem id .bool e (lit i 1 0)).Ok P.sig Γ :=
  first_ok (by decide) ht (by rw [bits_size]; decide) he

theorem zero_int (N : Nat) : InRange (.int N) 0 := by
  simp only [InRange]
  rcases Nat.eq_zero_or_pos N with h | h
  · exact .inl ⟨h, trivial⟩
  · have := pow_pos (N - 1)
    exact .inr ⟨h, by omega, this⟩

theorem eqMembers_ok (L : Lib P num) {Γ : Nat → MTy} {all : List MTy} (h0 : Γ 0 = .tuple all) (h1 : Γ 1 = .tuple all)
    (hs : (MTy.tuple all).size ≤ 2 ^ 32) : ∀ (ts : List (MTy × Nat)) (id k : Nat) (acc : Expr),
    (∀ c ∈ (eqMembers num (.tuple all) id k acc ts).calls, (P c).isSome) →
    (∀ t ∈ ts, P.sig t.2 = some ([t.1, t.1], .bool)) → (∀ i : Nat, all[k + i]? = (ts.map (·.1))[i]?) →
    acc.Ok P.sig Γ → acc.ty = .bool → (eqMembers num (.tuple all) id k acc ts).Ok P.sig Γ
  | [], _, _, _, _, _, _, ha, _ => ha
  | (T, u) :: ts, id, k, acc, hc, he, hall, ha, ht => by
    have hk : all[k]? = some T := by simpa using hall 0
    have hand : (P (num (.op (.logic .and)))).isSome := by
      refine hc _ ?_
      simp only [eqMembers]
      have mono : ∀ (ts : List (MTy × Nat)) (id k : Nat) (acc : Expr), ∀ c ∈ acc.calls,
          c ∈ (eqMembers num (.tuple all) id k acc ts).calls := by
        intro ts
        induction ts with
        | nil => intro _ _ _ c hc; exact hc
        | cons t ts ih =>
          intro id k acc c hc
          exact ih _ _ _ _ (by simp [Expr.calls, Exprs.calls, hc])
      exact mono _ _ _ _ _ (by simp [Expr.calls])
    have hu := he (T, u) (by simp)
    refine eqMembers_ok L h0 h1 hs ts (id + 4) (k + 1) _ (fun c hcc => hc c hcc) (fun t ht => he t (by simp [ht])) ?_ ?_ rfl
    · intro i
      have := hall (i + 1)
      rw [show k + (i + 1) = k + 1 + i by omega] at this
      simpa using this
    · refine call_ok L hand (by rw [List.map_cons, ht]; rfl) ⟨ha, ⟨hu, ⟨⟨all, T, rfl, hk, rfl⟩, hs, h0⟩, ⟨⟨all, T, rfl, hk, rfl⟩, hs, h1⟩, trivial⟩, trivial⟩

theorem some_pat {id n : Nat} {T : MTy} : (LPat.variant id (option T) 1 [.bound n T]).Ok ∧
    (LPat.variant id (option T) 1 [.bound n T]).Readable :=
  ⟨⟨⟨_, rfl, rfl⟩, trivial, trivial⟩, fun opts h => .inl (by cases h; simp), trivial, trivial⟩

theorem none_pat {id : Nat} {T : MTy} : (LPat.variant id (option T) 0 []).Ok ∧
    (LPat.variant id (option T) 0 []).Readable :=
  ⟨⟨⟨_, rfl, rfl⟩, trivial⟩, fun opts h => .inl (by cases h; simp), trivial⟩

theorem pair_pat {id : Nat} {t : MTy} {p q : LPat} (hp : p.Ok ∧ p.Readable) (hq : q.Ok ∧ q.Readable)
    (tp : p.ty = t) (tq : q.ty = t) (hs : 2 * t.size ≤ 2 ^ 32) : PatOk (.tuple id (.tuple [t, t]) [p, q]) := by
  refine ⟨⟨by rw [List.map_cons, List.map_cons, tp, tq]; rfl, hp.1, hq.1, trivial⟩, ⟨hp.2, hq.2, trivial⟩, ?_⟩
  simp only [LPat.ty, MTy.size, sizes]
  omega

/-- Bodies of the functions are accepted. -/
theorem ops_body_ok (L : Lib P num) (u : Nat) (o : Op) (h : P u = some (std num (.op o))) (g : OpGood P o) :
    (ops num o).body.Ok P.sig (ops num o).types := by
  have sub : ∀ {n}, n ∈ (ops num o).body.calls → (P n).isSome := fun hc => L.closed u _ h _ hc
  have sz : ∀ {s N}, N ≠ 0 → (numTy s N).size ≠ 0 := fun h => by rw [numTy_size]; exact h
  cases o with
  | neg N =>
    obtain ⟨h0, hs⟩ := g
    obtain ⟨n, rfl⟩ : ∃ n, N = n + 1 := ⟨N - 1, by omega⟩
    exact lowBits_ok (Nat.le_refl _) hs rfl ⟨.neg, rfl⟩ rfl
  | add s N => exact lowBits_ok (Nat.le_succ _) g.2 rfl ⟨add_ty s N, sz g.1, sz g.1, rfl, rfl⟩ rfl
  | sub s N => exact lowBits_ok (Nat.le_succ _) g.2 rfl ⟨sub_ty s N, sz g.1, sz g.1, rfl, rfl⟩ rfl
  | mul s N => exact lowBits_ok (by omega) g.2 rfl ⟨mul_ty s N, sz g.1, sz g.1, rfl, rfl⟩ rfl
  | shl s N => exact ⟨shl_ty s N, sz g, sz g, rfl, rfl⟩
  | shr s N => exact ⟨shr_ty s N, sz g, sz g, rfl, rfl⟩
  | not =>
    exact one_ok rfl ⟨.bitNot (by decide), ⟨⟨.bool, rfl, fun e he => by cases List.mem_singleton.1 he; rfl⟩, rfl, trivial⟩, trivial⟩
  | nots N => exact ⟨.bitNot g, rfl, trivial⟩
  | bitNot s N =>
    exact ⟨⟨rfl, ⟨trivial, trivial, Nat.le_trans (Nat.le_of_eq (bits_size N)) g.2⟩, ⟨bits_ok, rfl, trivial⟩, trivial⟩,
      num_ok, ⟨.bitNot g.1, rfl, trivial⟩, trivial⟩
  | logic l =>
    exact one_ok rfl ⟨logic_ok l (by decide), ⟨⟨.bool, rfl, fun e he => by cases List.mem_singleton.1 he; rfl⟩, rfl, trivial⟩,
      ⟨⟨.bool, rfl, fun e he => by cases List.mem_singleton.1 he; rfl⟩, rfl, trivial⟩, trivial⟩
  | logics l N => exact ⟨logic_ok l g, rfl, rfl, trivial⟩
  | bitLogic l s N =>
    exact ⟨⟨rfl, ⟨trivial, trivial, Nat.le_trans (Nat.le_of_eq (bits_size N)) g.2⟩, ⟨bits_ok, rfl, trivial⟩,
      rfl, ⟨trivial, trivial, Nat.le_trans (Nat.le_of_eq (bits_size N)) g.2⟩, ⟨bits_ok, rfl, trivial⟩, trivial⟩,
      num_ok, ⟨logic_ok l g.1, rfl, rfl, trivial⟩, trivial⟩
  | order c s N => exact ⟨.order g.1 g.2 (numTy_num s N), rfl, rfl, trivial⟩
  | eq T => exact ⟨.eq g, rfl, rfl, trivial⟩
  | ne T => exact ⟨.ne g, rfl, rfl, trivial⟩
  | eqUnit => trivial
  | neUnit => trivial
  | eqTuple ts =>
    match ts with
    | [] => trivial
    | (T, v) :: ts =>
      obtain ⟨hsig, hs⟩ := g
      refine eqMembers_ok L rfl rfl hs ts 5 1 _ (fun c hc => sub hc) (fun t ht => hsig t (by simp [ht])) ?_ ?_ rfl
      · intro i; rw [Nat.add_comm]; simp
      · exact ⟨hsig (T, v) (by simp), ⟨⟨_, T, rfl, rfl, rfl⟩, hs, rfl⟩, ⟨⟨_, T, rfl, rfl, rfl⟩, hs, rfl⟩, trivial⟩
  | neTuple ts =>
    exact call_ok L (sub (by called)) rfl ⟨call_ok L (sub (by called)) rfl ⟨rfl, rfl, trivial⟩, trivial⟩
  | ofBits s N => exact ⟨num_ok, rfl, trivial⟩
  | ofBool => exact ⟨.transmute rfl exact_types.2.2.1.readable, rfl, trivial⟩
  | bits s N => exact ⟨bits_ok, rfl, trivial⟩
  | recast s N =>
    exact ⟨.transmute (by simp only [Expr.ty, numTy_size]) (exact_num s N).readable, rfl, trivial⟩
  | toInt N =>
    exact call_ok L (sub (by called)) rfl ⟨⟨.zext (Nat.le_succ N) (.inl (Nat.pos_of_ne_zero g)), rfl, trivial⟩, trivial⟩
  | leBytes N =>
    exact call_ok L (sub (by called)) rfl ⟨call_ok L (sub (by called)) rfl ⟨call_ok L (sub (by called)) rfl ⟨rfl, trivial⟩, trivial⟩,
      ⟨rfl, trivial⟩, trivial⟩
  | lamByte =>
    refine ⟨⟨rfl, ⟨⟨rfl, trivial, trivial⟩, ⟨trivial, trivial⟩, ?_⟩, rfl, trivial⟩,
      call_ok L (sub (by called)) rfl ⟨rfl, trivial⟩⟩
    decide +kernel
  | beBytes N => exact call_ok L (sub (by called)) rfl ⟨call_ok L (sub (by called)) rfl ⟨rfl, trivial⟩, trivial⟩
  | germanBytes N =>
    obtain ⟨hd, hs⟩ := g
    by_cases h0 : N ≤ 16
    · simp only [ops, h0, if_true] at sub ⊢
      exact call_ok L (sub (by called)) rfl ⟨rfl, trivial⟩
    · simp only [ops, h0, if_false] at sub ⊢
      have hsz : (MTy.array (.uint 8) (N / 8)).size ≤ 2 ^ 32 := by simp only [MTy.size]; omega
      exact ⟨⟨rfl, ⟨trivial, trivial, hsz⟩, call_ok L (sub (by called)) rfl ⟨rfl, trivial⟩, trivial⟩,
        cat_ok L (sub (by called)) (by omega) ⟨⟨.uint 8, N / 8, rfl, Nat.zero_le _, Nat.sub_le _ _, rfl⟩, hsz, rfl⟩
          (call_ok L (sub (by called)) rfl ⟨⟨⟨.uint 8, N / 8, rfl, Nat.sub_le _ _, Nat.le_refl _, rfl⟩, hsz, rfl⟩, trivial⟩) rfl rfl⟩
  | abs N =>
    exact ⟨rfl, rfl, rfl, call_ok L (sub (by called)) rfl ⟨rfl, zero_int N, trivial⟩,
      call_ok L (sub (by called)) rfl ⟨call_ok L (sub (by called)) rfl ⟨rfl, trivial⟩, trivial⟩,
      call_ok L (sub (by called)) rfl ⟨rfl, trivial⟩⟩
  | numConcat s N M =>
    exact ⟨.concat (numTy_num s N) (numTy_num s M) (numTy_num s _) (by simp only [numTy_size, Expr.ty]), rfl, rfl, trivial⟩
  | max s N => exact ⟨rfl, rfl, rfl, call_ok L (sub (by called)) rfl ⟨rfl, rfl, trivial⟩, rfl, rfl⟩
  | min s N => exact ⟨rfl, rfl, rfl, call_ok L (sub (by called)) rfl ⟨rfl, rfl, trivial⟩, rfl, rfl⟩
  | trunc s N M =>
    exact ⟨.trunc (numTy_num s N) (numTy_num s M) (by simpa only [Expr.ty, numTy_size] using g.1)
      (by simpa only [Expr.ty, numTy_size] using g.2), rfl, trivial⟩
  | numInterleave N =>
    exact call_ok L (sub (by called)) rfl ⟨call_ok L (sub (by called)) rfl ⟨call_ok L (sub (by called)) rfl ⟨rfl, trivial⟩,
      call_ok L (sub (by called)) rfl ⟨rfl, trivial⟩, trivial⟩, trivial⟩
  | msb s N => exact call_ok L (sub (by called)) rfl ⟨call_ok L (sub (by called)) rfl ⟨rfl, trivial⟩, trivial⟩
  | lsb s N => exact call_ok L (sub (by called)) rfl ⟨call_ok L (sub (by called)) rfl ⟨rfl, trivial⟩, trivial⟩
  | signBit N => exact call_ok L (sub (by called)) rfl ⟨rfl, trivial⟩
  | absTrunc N => exact call_ok L (sub (by called)) rfl ⟨call_ok L (sub (by called)) rfl ⟨rfl, trivial⟩, trivial⟩
  | sorted N =>
    exact ⟨rfl, rfl, rfl, call_ok L (sub (by called)) rfl ⟨rfl, rfl, trivial⟩, ⟨rfl, rfl, rfl, trivial⟩, ⟨rfl, rfl, rfl, trivial⟩⟩
  | isSome T =>
    exact ⟨rfl, g, rfl, ⟨some_pat.1, some_pat.2, g⟩, rfl, trivial, rfl, ⟨none_pat.1, none_pat.2, g⟩, rfl, trivial, trivial⟩
  | isNone T =>
    exact ⟨rfl, g, rfl, ⟨some_pat.1, some_pat.2, g⟩, rfl, trivial, rfl, ⟨none_pat.1, none_pat.2, g⟩, rfl, trivial, trivial⟩
  | unwrapOr T =>
    exact ⟨rfl, g, rfl, ⟨some_pat.1, some_pat.2, g⟩, rfl, rfl, rfl, ⟨none_pat.1, none_pat.2, g⟩, rfl, rfl, trivial⟩
  | optMap T O f =>
    obtain ⟨hf, g⟩ := g
    exact ⟨rfl, g, rfl, ⟨some_pat.1, some_pat.2, g⟩, rfl,
      ⟨⟨_, rfl, rfl⟩, ⟨hf, rfl, ⟨rfl, rfl, trivial⟩, trivial⟩, trivial⟩,
      rfl, ⟨none_pat.1, none_pat.2, g⟩, rfl, ⟨⟨_, rfl, rfl⟩, trivial⟩, trivial⟩
  | andThen T O f =>
    obtain ⟨hf, g⟩ := g
    exact ⟨rfl, g, rfl, ⟨some_pat.1, some_pat.2, g⟩, rfl, ⟨hf, rfl, ⟨rfl, rfl, trivial⟩, trivial⟩,
      rfl, ⟨none_pat.1, none_pat.2, g⟩, rfl, ⟨⟨_, rfl, rfl⟩, trivial⟩, trivial⟩
  | eqOption T eq =>
    obtain ⟨he, g⟩ := g
    have hs : (MTy.tuple [option T, option T]).size ≤ 2 ^ 32 := by simp only [MTy.size, sizes]; omega
    exact ⟨⟨rfl, rfl, rfl, trivial⟩, hs, rfl, pair_pat some_pat some_pat rfl rfl g, rfl, ⟨he, rfl, rfl, trivial⟩,
      rfl, pair_pat some_pat none_pat rfl rfl g, rfl, trivial,
      rfl, pair_pat none_pat some_pat rfl rfl g, rfl, trivial,
      rfl, pair_pat none_pat none_pat rfl rfl g, rfl, trivial, trivial⟩
  | neOption T eq =>
    exact call_ok L (sub (by called)) rfl ⟨call_ok L (sub (by called)) rfl ⟨rfl, rfl, trivial⟩, trivial⟩

end Spade.Std

import Verif.Std.Numbers
/-! # Signatures and conditions of the functions -/
namespace Spade.Std
open Spade.Verilog Spade.Codegen Spade.Lower Spade.Expr
open Spade.Match (Val HasTy HasTys Matches MatchesAll)

/-- The declared parameters and result (core/ops.spade, conv.spade, num.spade, ops.spade, option.spade). -/
def opSig : Op → List MTy × MTy
  | .neg N | .absTrunc N => ([.int N], .int N)
  | .add s N | .sub s N | .mul s N | .shl s N | .shr s N | .bitLogic _ s N | .max s N | .min s N =>
    ([numTy s N, numTy s N], numTy s N)
  | .not => ([.bool], .bool)
  | .nots N => ([.array .bool N], .array .bool N)
  | .bitNot s N => ([numTy s N], numTy s N)
  | .logic _ => ([.bool, .bool], .bool)
  | .logics _ N => ([.array .bool N, .array .bool N], .array .bool N)
  | .order _ s N => ([numTy s N, numTy s N], .bool)
  | .eq T | .ne T => ([T, T], .bool)
  | .eqUnit | .neUnit => ([.tuple [], .tuple []], .bool)
  | .eqTuple ts | .neTuple ts => ([.tuple (ts.map (·.1)), .tuple (ts.map (·.1))], .bool)
  | .ofBits s N => ([.array .bool N], numTy s N)
  | .ofBool => ([.bool], .uint 1)
  | .bits s N => ([numTy s N], .array .bool N)
  | .recast s N => ([numTy s N], numTy (!s) N)
  | .toInt N => ([.uint N], .int (N + 1))
  | .leBytes N | .beBytes N | .germanBytes N => ([.uint N], .array (.uint 8) (N / 8))
  | .lamByte => ([.struct [], .tuple [.array .bool 8]], .uint 8)
  | .abs N => ([.int N], .uint N)
  | .numConcat s N M => ([numTy s N, numTy s M], numTy s (N + M))
  | .trunc s N M => ([numTy s N], numTy s M)
  | .numInterleave N => ([.uint N, .uint N], .uint (2 * N))
  | .msb s N | .lsb s N => ([numTy s N], .bool)
  | .signBit N => ([.int N], .bool)
  | .sorted N => ([.int N, .int N], .tuple [.int N, .int N])
  | .isSome T | .isNone T => ([option T], .bool)
  | .unwrapOr T => ([option T, T], T)
  | .optMap T O f | .andThen T O f => ([option T, f.ty], option O)
  | .eqOption T _ | .neOption T _ => ([option T, option T], .bool)

/-- The `where` clauses, the signatures of the functions that are passed and of those that compare
members, and what the generated code supports (C45): numbers have at least one bit, vectors at most
2 ^ 32, and types that are compared have no padding. -/
def OpGood (P : Prog) : Op → Prop
  | .neg N | .bitNot _ N | .bitLogic _ _ N => N ≠ 0 ∧ N ≤ 2 ^ 32
  | .add _ N | .sub _ N => N ≠ 0 ∧ N + 1 ≤ 2 ^ 32
  | .mul _ N => N ≠ 0 ∧ 2 * N ≤ 2 ^ 32
  | .shl _ N | .shr _ N | .nots N | .logics _ N => N ≠ 0
  | .order c _ _ => c ≠ .eq ∧ c ≠ .ne
  | .eq T | .ne T => Exact T
  | .eqTuple ts => (∀ t ∈ ts, P.sig t.2 = some ([t.1, t.1], .bool)) ∧ (MTy.tuple (ts.map (·.1))).size ≤ 2 ^ 32
  | .toInt N => N ≠ 0
  | .leBytes N | .beBytes N | .germanBytes N => N = N / 8 * 8 ∧ N ≤ 2 ^ 32
  | .trunc _ N M => M ≤ N ∧ (2 ≤ N ∨ M = 0)
  | .msb _ N | .lsb _ N | .signBit N => 0 < N
  | .isSome T | .isNone T | .unwrapOr T => (option T).size ≤ 2 ^ 32
  | .optMap T O f => P.sig f.call = some ([f.ty, .tuple [T]], O) ∧ (option T).size ≤ 2 ^ 32
  | .andThen T O f => P.sig f.call = some ([f.ty, .tuple [T]], option O) ∧ (option T).size ≤ 2 ^ 32
  | .eqOption T eq => P.sig eq = some ([T, T], .bool) ∧ 2 * (option T).size ≤ 2 ^ 32
  | _ => True

/-- The declared parameters and result (array.spade). -/
def sigOf : Key → List MTy × MTy
  | .op o => opSig o
  | .unfold T N f => ([T, f.ty], .array T N)
  | .all T N f | .any T N f => ([.array T N, f.ty], .bool)
  | .chunks T N K => ([.array T N], .array (.array T K) (N / K))
  | .concat T N M => ([.array T N, .array T M], .array T (M + N))
  | .reversed T N => ([.array T N], .array T N)
  | .fold T B N f => ([.array T N, B, f.ty], B)
  | .interleave T N => ([.array T N, .array T N], .array T (2 * N))
  | .lamPair T => ([.struct [], .tuple [.tuple [T, T]]], .array T 2)
  | .map T O N f => ([.array T N, f.ty], .array O N)
  | .pushBack T N | .pushFront T N => ([.array T N, T], .array T (N + 1))
  | .slidingWindow T N M => ([.array T N], .array (.array T M) (N - M + 1))
  | .splitAt T N K => ([.array T N], .tuple [.array T K, .array T (N - K)])
  | .zip T O N => ([.array T N, .array O N], .array (.tuple [T, O]) N)
  | .len T N => ([.array T N], .uint (bitsFor N))
  | .first T N | .last T N => ([.array T N], T)
  | .reduce T N f => ([.array T N, f.ty], T)
  | .shiftBack T N | .shiftFront T N => ([.array T N, T], .array T N)
  | .unzip S T N => ([.array (.tuple [S, T]) N], .tuple [.array S N, .array T N])
  | .flatten T N M => ([.array (.array T M) N], .array T (N * M))
  | .reduceAnd N | .reduceOr N | .reduceXor N => ([.array .bool N], .bool)

/-- The `where` clauses, the signature of the function that is passed, and the limit on the size of
vectors that are indexed (C45). -/
def Good (P : Prog) : Key → Prop
  | .op o => OpGood P o
  | .unfold T _ f => P.sig f.call = some ([f.ty, .tuple [T]], T)
  | .all _ _ _ | .any _ _ _ => True
  | .chunks T N K => 0 < K ∧ N = N / K * K ∧ (MTy.array T N).size ≤ 2 ^ 32
  | .concat _ _ _ => True
  | .reversed T N => (MTy.array T N).size ≤ 2 ^ 32
  | .fold T B N f => P.sig f.call = some ([f.ty, .tuple [B, T]], B) ∧ (MTy.array T N).size ≤ 2 ^ 32 ∧
      B.size ≤ 2 ^ 32
  | .interleave _ _ => True
  | .lamPair T => T.size * 2 ≤ 2 ^ 32
  | .map T O N f => (N ≠ 0 → P.sig f.call = some ([f.ty, .tuple [T]], O)) ∧ (MTy.array T N).size ≤ 2 ^ 32
  | .pushBack _ _ | .pushFront _ _ => True
  | .slidingWindow T N M => M ≤ N ∧ (MTy.array T N).size ≤ 2 ^ 32
  | .splitAt T N K => K ≤ N ∧ (MTy.array T N).size ≤ 2 ^ 32
  | .zip T O N => (MTy.array (.tuple [T, O]) N).size ≤ 2 ^ 32
  | .len _ _ => True
  | .first T N | .last T N | .reduce T N _ | .shiftBack T N => 0 < N ∧ (MTy.array T N).size ≤ 2 ^ 32
  | .shiftFront T N => 0 < N ∧ (MTy.array T (N + 1)).size ≤ 2 ^ 32
  | .unzip S T N => (MTy.array (.tuple [S, T]) N).size ≤ 2 ^ 32
  | .flatten T N M => (MTy.array (.array T M) N).size ≤ 2 ^ 32
  | .reduceAnd N | .reduceOr N | .reduceXor N => 0 < N

variable {P : Prog} {num : Key → Nat}

theorem eqMembers_ty {num : Key → Nat} {tup : MTy} : ∀ {ts : List (MTy × Nat)} {id k : Nat} {acc : Expr},
    acc.ty = .bool → (eqMembers num tup id k acc ts).ty = .bool
  | [], _, _, _, h => h
  | (_, _) :: ts, _, _, _, _ => eqMembers_ty (ts := ts) rfl

theorem op_sig (num : Key → Nat) (o : Op) :
    ((ops num o).params.map (·.2), (ops num o).body.ty) = opSig o := by
  cases o with
  | eqTuple ts =>
    match ts with
    | [] => rfl
    | (T, u) :: ts =>
      simp only [ops, opSig, List.map_cons, List.map_nil]
      rw [eqMembers_ty rfl]
  | germanBytes N =>
    simp only [ops, opSig, List.map_cons, List.map_nil]
    split <;> rfl
  | _ => rfl

/-- Bodies have the declared types. -/
theorem std_sig (num : Key → Nat) (k : Key) :
    ((std num k).params.map (·.2), (std num k).body.ty) = sigOf k := by
  cases k <;> first | exact op_sig num _ | skip
  all_goals simp only [std, sigOf, cat, List.map_cons, List.map_nil, Expr.ty]
  all_goals first | rfl | skip
  all_goals repeat' split
  all_goals simp_all [Expr.ty]

theorem Lib.sigOf (L : Lib P num) {k : Key} (h : (P (num k)).isSome) :
    P.sig (num k) = some (sigOf k) := by
  rw [← std_sig num k, Prog.sig, L.is k h]
  rfl

theorem inRange_zero {n : Nat} : InRange (.uint n) 0 := by
  simp only [InRange]; exact ⟨Int.le_refl _, Int.pow_pos (by decide)⟩

theorem bitsFor_ne {n : Nat} (h : n ≠ 0) : bitsFor n ≠ 0 := by simp [bitsFor, h]

theorem inRange_bitsFor {n : Nat} : InRange (.uint (bitsFor n)) n := by
  simp only [InRange, bitsFor]
  refine ⟨by omega, ?_⟩
  split
  · subst_vars; decide
  · have := Nat.lt_log2_self (n := n)
    exact_mod_cast this

theorem size_half {T : MTy} {N K : Nat} (hK : K ≤ N) {m : Nat} (h : (MTy.array T N).size ≤ m) :
    (MTy.tuple [.array T K, .array T (N - K)]).size ≤ m := by
  simp only [MTy.size, sizes] at *
  rw [Nat.add_zero, ← Nat.mul_add, show K + (N - K) = N by omega]
  exact h

theorem size_half' {T : MTy} {N K : Nat} (hK : K ≤ N) {m : Nat} (h : (MTy.array T N).size ≤ m) :
    (MTy.tuple [.array T (N - K), .array T K]).size ≤ m := by
  simp only [MTy.size, sizes] at *
  rw [Nat.add_zero, ← Nat.mul_add, show N - K + K = N by omega]
  exact h

theorem splitLet_ok (L : Lib P num) {Γ : Nat → MTy} {id l r : Nat} {T : MTy} {N K : Nat} {e : Expr} {ss : List Stm}
    (h : (P (num (.splitAt T N K))).isSome) (hK : K ≤ N) (hs : (MTy.array T N).size ≤ 2 ^ 32)
    (he : e.Ok P.sig Γ) (ht : e.ty = .array T N) (hss : Stms.Ok P.sig Γ ss) :
    Stms.Ok P.sig Γ (splitLet num id l r T N K e :: ss) := by
  refine ⟨rfl, ⟨⟨rfl, trivial, trivial, trivial⟩, ⟨trivial, trivial, trivial⟩, size_half hK hs⟩, ⟨?_, he, trivial⟩, hss⟩
  rw [L.sigOf h]; simp [Std.sigOf, ht]

theorem cat_ok (L : Lib P num) {Γ : Nat → MTy} {id : Nat} {T : MTy} {N M K : Nat} {a b : Expr}
    (h : (P (num (.concat T N M))).isSome) (hK : K = M + N) (ha : a.Ok P.sig Γ) (hb : b.Ok P.sig Γ)
    (hta : a.ty = .array T N) (htb : b.ty = .array T M) : (cat num id T N M K a b).Ok P.sig Γ := by
  refine ⟨?_, ha, hb, trivial⟩
  rw [L.sigOf h]; simp [Std.sigOf, hta, htb, hK]

theorem call_ok (L : Lib P num) {Γ : Nat → MTy} {id : Nat} {ty : MTy} {k : Key} {args : List Expr}
    (h : (P (num k)).isSome) (hs : sigOf k = (args.map Expr.ty, ty)) (ha : Exprs.Ok P.sig Γ args) :
    (Expr.call id ty (.unit (num k)) args).Ok P.sig Γ :=
  ⟨by rw [L.sigOf h, hs], ha⟩

theorem first_ok {Γ : Nat → MTy} {id i n : Nat} {ty : MTy} {e : Expr} (hn : 0 < n) (ht : e.ty = .array ty n)
    (hs : (MTy.array ty n).size ≤ 2 ^ 32) (he : e.Ok P.sig Γ) : (Expr.elem id ty e (lit i n 0)).Ok P.sig Γ := by
  refine ⟨⟨n, bitsFor (n - 1), ht, rfl, ?_⟩, by rw [ht]; exact hs, he, inRange_zero⟩
  rcases Nat.lt_or_ge n 2 with h | h
  · exact .inl (by omega)
  · exact .inr (bitsFor_ne (by omega))

theorem size_le {T : MTy} {N K m : Nat} (h : (MTy.array T N).size ≤ m) (hK : K ≤ N) : (MTy.array T K).size ≤ m :=
  Nat.le_trans (by simp only [MTy.size]; exact Nat.mul_le_mul_left _ hK) h

theorem size_one {T : MTy} {N m : Nat} (h : (MTy.array T N).size ≤ m) (hN : 0 < N) : T.size ≤ m :=
  Nat.le_trans (by simp only [MTy.size]; exact Nat.le_mul_of_pos_right _ hN) h

/-- `e[1..]`. -/
theorem tail_ok {Γ : Nat → MTy} {id n : Nat} {T : MTy} {e : Expr} (hn : 0 < n) (ht : e.ty = .array T n)
    (hs : (MTy.array T n).size ≤ 2 ^ 32) (he : e.Ok P.sig Γ) :
    (Expr.range id (.array T (n - 1)) e (some 1) none).Ok P.sig Γ :=
  ⟨⟨T, n, ht, hn, Nat.le_refl _, rfl⟩, by rw [ht]; exact hs, he⟩

end Spade.Std

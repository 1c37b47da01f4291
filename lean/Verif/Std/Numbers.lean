import Verif.Std.Ops
/-! # The functions on numbers, bits and options evaluate to what is documented -/
namespace Spade.Std
open Spade.Verilog Spade.Codegen Spade.Lower Spade.Expr
open Spade.Match (Val HasTy HasTys Matches MatchesAll)

variable {P : Prog} {num : Key → Nat}

/-- Finds a unit among those a body calls. -/
local macro "called" : tactic =>
  `(tactic| simp [std, ops, Expr.calls, Stms.calls, Exprs.calls, Arms.calls, cat, splitLet])

/-! ## Conversions -/

theorem ofBits_returns (L : Lib P num) {s : Bool} {N : Nat} {bs : List Bool}
    (h : (P (num (.op (.ofBits s N)))).isSome) (hb : bs.length = N) :
    Returns P (num (.op (.ofBits s N))) [bools bs] (.int (wrap (numTy s N) (bitSum bs))) :=
  L.ret h (.intr (.cons (.var rfl) .nil) (num_transmute hb))

theorem ofBool_returns (L : Lib P num) {b : Bool} (h : (P (num (.op .ofBool))).isSome) :
    Returns P (num (.op .ofBool)) [.bool b] (.int (if b then 1 else 0)) := by
  refine L.ret h (.intr (.cons (.var rfl) .nil) (.transmute .bool ?_))
  cases b
  · exact .uint (z := 0) (by simp [InRange])
  · exact .uint (z := 1) (by simp [InRange])

theorem bits_returns (L : Lib P num) {s : Bool} {N : Nat} {z : Int}
    (h : (P (num (.op (.bits s N)))).isSome) (hz : InRange (numTy s N) z) :
    Returns P (num (.op (.bits s N))) [.int z] (bools (bitList N z)) :=
  L.ret h (.intr (.cons (.var rfl) .nil) (bits_transmute hz))

theorem recast_returns (L : Lib P num) {s : Bool} {N : Nat} {z : Int}
    (h : (P (num (.op (.recast s N)))).isSome) (hz : InRange (numTy s N) z) :
    Returns P (num (.op (.recast s N))) [.int z] (.int (wrap (numTy (!s) N) z)) :=
  L.ret h (.intr (.cons (.var rfl) .nil) (recast_transmute hz))

theorem toInt_returns (L : Lib P num) {N : Nat} {z : Int} (h : (P (num (.op (.toInt N)))).isSome)
    (hz : InRange (.uint N) z) : Returns P (num (.op (.toInt N))) [.int z] (.int z) := by
  have h1 : InRange (numTy false (N + 1)) z := by
    simp only [InRange, numTy, Bool.false_eq_true, if_false] at *
    rw [Int.pow_succ]; omega
  have h2 : InRange (numTy true (N + 1)) z := by
    simp only [InRange, numTy, if_true] at *
    have := pow_pos N
    right; simp; omega
  refine L.ret h (ev_eq (ev_call (.cons (.intr (.cons (.var rfl) .nil) .zext) .nil)
    (recast_returns L (L.sub h (by called)) h1)) ?_)
  rw [Bool.not_false, wrap_eq h2]

/-- The byte with these bits. -/
def byteOf : Val → Val
  | .tup vs => .int (bitSum (vs.map fun | .bool b => b | _ => false))
  | v => v

theorem byteOf_bools (bs : List Bool) : byteOf (bools bs) = .int (bitSum bs) := by
  simp only [byteOf, bools, List.map_map]
  congr 2
  exact List.map_id' _

theorem uint_sum {N : Nat} {bs : List Bool} (h : bs.length = N) : InRange (.uint N) (bitSum bs) := by
  subst h; exact bitSum_range bs

theorem lamByte_fn (L : Lib P num) (h : (P (num (.op .lamByte))).isSome) :
    IsFn P (num (.op .lamByte)) (.tup []) (.array .bool 8) (.uint 8) byteOf := by
  intro x hx
  obtain ⟨bs, rfl, hb⟩ := is_bools_elim hx
  rw [byteOf_bools]
  refine ⟨enc_hasTy (.uint (uint_sum hb)), L.ret h (.block (.bind (.var rfl) ⟨trivial, trivial⟩ .nil)
    (ev_eq (ev_call (.cons (.var rfl) .nil) (ofBits_returns L (L.sub h (by called)) hb)) ?_))⟩
  rw [wrap_eq (s := false) (uint_sum hb)]

/-- Bits from `k` on. -/
theorem bitList_drop (N k : Nat) (z : Int) : (bitList N z).drop k = bitList (N - k) (z / 2 ^ k) := by
  apply List.ext_getElem
  · simp
  · intro i h1 h2
    simp only [bitList, List.getElem_drop, List.getElem_map, List.getElem_range, bitOf]
    rw [Int.pow_add, Int.ediv_ediv_of_nonneg (Int.le_of_lt (pow_pos k))]

theorem leBytes_returns (L : Lib P num) {N : Nat} {z : Int} (h : (P (num (.op (.leBytes N)))).isSome)
    (hN : N = N / 8 * 8) (hz : InRange (.uint N) z) :
    Returns P (num (.op (.leBytes N))) [.int z] (.tup (byteList N z)) := by
  have hb : Is (.array .bool N) (.tup ((bitList N z).map .bool)) := is_bools.2 (by simp)
  have hm : (P (num (.map (.array .bool 8) (.uint 8) (N / 8) ⟨.struct [], num (.op .lamByte)⟩))).isSome :=
    L.sub h (by called)
  have hp : Is (.array (.array .bool 8) (N / 8)) (.tup (parts 8 ((bitList N z).map .bool))) := by
    rw [is_array]
    refine ⟨by simp [parts], ?_⟩
    intro v hv
    obtain ⟨i, hi, rfl⟩ := List.mem_map.1 hv
    rw [List.mem_range] at hi
    simp only [List.length_map, bitList_length] at hi
    rw [← List.map_drop, ← List.map_take]
    refine is_bools.2 ?_
    simp
    omega
  have hr : Returns P (num (.map (.array .bool 8) (.uint 8) (N / 8) ⟨.struct [], num (.op .lamByte)⟩))
      [.tup (parts 8 ((bitList N z).map .bool)), .tup []] (.tup ((parts 8 ((bitList N z).map .bool)).map byteOf)) := by
    by_cases h0 : N / 8 = 0
    · rw [h0] at hm hp ⊢
      rw [is_zero_elim hp]
      exact L.ret hm (.array .nil)
    · exact map_returns L (lamByte_fn L (map_calls L _ h0 hm)) _ hm hp
  refine L.ret h (ev_eq (ev_call (.cons (ev_call (.cons (ev_call (.cons (.var rfl) .nil)
      (bits_returns L (s := false) (L.sub h (by called)) hz)) .nil)
      (chunks_returns L (by decide) N (L.sub h (by called)) hN hb)) (.cons (.struct .nil) .nil)) hr) ?_)
  congr 1
  simp only [parts, byteList, List.map_map, List.length_map, bitList_length]
  refine List.map_congr_left fun i hi => ?_
  rw [List.mem_range] at hi
  simp only [Function.comp]
  rw [← List.map_drop, ← List.map_take, show Val.tup (List.map Val.bool (List.take 8 (List.drop (i * 8) (bitList N z)))) =
    bools (List.take 8 (List.drop (i * 8) (bitList N z))) from rfl, byteOf_bools, bitList_drop,
    bitList_take (by omega), bitSum_bitList, Nat.mul_comm]
  rfl

theorem is_bytes (N : Nat) (z : Int) : Is (.array (.uint 8) (N / 8)) (.tup (byteList N z)) := by
  rw [is_array]
  refine ⟨by simp [byteList], fun v hv => ?_⟩
  obtain ⟨i, -, rfl⟩ := List.mem_map.1 hv
  refine enc_hasTy (.uint ?_)
  simp only [InRange]
  omega

theorem beBytes_returns (L : Lib P num) {N : Nat} {z : Int} (h : (P (num (.op (.beBytes N)))).isSome)
    (hN : N = N / 8 * 8) (hz : InRange (.uint N) z) :
    Returns P (num (.op (.beBytes N))) [.int z] (.tup (byteList N z).reverse) :=
  L.ret h (ev_call (.cons (ev_call (.cons (.var rfl) .nil) (leBytes_returns L (L.sub h (by called)) hN hz)) .nil)
    (reversed_returns L _ (L.sub h (by called)) (is_bytes N z)))

theorem germanBytes_returns (L : Lib P num) {N : Nat} {z : Int} (h : (P (num (.op (.germanBytes N)))).isSome)
    (hN : N = N / 8 * 8) (hz : InRange (.uint N) z) :
    Returns P (num (.op (.germanBytes N))) [.int z]
      (.tup (if N ≤ 16 then byteList N z else ((byteList N z).drop 2).reverse ++ (byteList N z).take 2)) := by
  have sub : ∀ {n}, n ∈ (std num (.op (.germanBytes N))).body.calls → (P n).isSome := fun hc => L.sub h hc
  refine L.ret h ?_
  by_cases h0 : N ≤ 16
  · simp only [std, ops, h0, if_true] at sub ⊢
    exact ev_call (.cons (.var rfl) .nil) (leBytes_returns L (sub (by called)) hN hz)
  · simp only [std, ops, h0, if_false] at sub ⊢
    have hb := is_reverse (is_bytes N z)
    have hl : (byteList N z).length = N / 8 := by simp [byteList]
    have e1 : (byteList N z).reverse.take (N / 8 - 2) = ((byteList N z).drop 2).reverse := by
      rw [List.take_reverse, hl]; congr 2; omega
    have e2 : (byteList N z).reverse.drop (N / 8 - 2) = ((byteList N z).take 2).reverse := by
      rw [List.drop_reverse, hl]; congr 2; omega
    have i1 := is_take (K := N / 8 - 2) (by omega) hb
    have i2 := is_drop (K := N / 8 - 2) hb
    rw [e1] at i1
    rw [e2] at i2
    have hr := reversed_returns L _ (sub (n := num (.reversed (.uint 8) (N / 8 - (N / 8 - 2)))) (by called)) i2
    rw [List.reverse_reverse] at hr
    have i3 := is_reverse i2
    rw [List.reverse_reverse] at i3
    refine .block (.bind (ev_call (.cons (.var rfl) .nil) (beBytes_returns L (sub (by called)) hN hz)) trivial .nil)
      (ev_cat L (sub (by called)) i1 i3 (ev_eq (.range (.var rfl)) ?_)
        (ev_call (.cons (ev_eq (.range (.var rfl)) ?_) .nil) hr))
    · simp only [Option.getD_some, Option.getD_none, List.drop_zero, e1]
    · simp only [Option.getD_some, Option.getD_none, List.take_length, e2]

/-! ## Numbers -/

theorem abs_returns (L : Lib P num) {N : Nat} {x : Int} (h : (P (num (.op (.abs N)))).isSome)
    (hx : InRange (.int N) x) : Returns P (num (.op (.abs N))) [.int x] (.int x.natAbs) := by
  have hu : InRange (numTy false N) x.natAbs := by
    simp only [InRange, numTy, Bool.false_eq_true, if_false] at *
    rcases hx with ⟨rfl, rfl⟩ | ⟨h0, h1, h2⟩
    · simp
    · have := pow_pos (N - 1)
      have e : (2 : Int) ^ N = 2 * 2 ^ (N - 1) := by rw [← Int.pow_succ']; congr 1; omega
      omega
  have sub : ∀ {n}, n ∈ (std num (.op (.abs N))).body.calls → (P n).isSome := fun hc => L.sub h hc
  have ho := order_returns L (c := .lt) (x := x) (y := 0) (sub (n := num (.op (.order .lt true N))) (by called))
    (by simp) (by simp)
  refine L.ret h ?_
  by_cases hneg : x < 0
  · have : Cmp.lt.holds x 0 = true := by simp [Cmp.holds, hneg]
    rw [this] at ho
    refine .iteTrue (ev_call (.cons (.var rfl) (.cons .int .nil)) ho) (ev_eq (ev_call (.cons (ev_call (.cons (.var rfl) .nil)
      (neg_returns L (sub (by called)))) .nil) (recast_returns L (s := true) (sub (by called)) (wrap_range true N _))) ?_)
    rw [show MTy.int N = numTy true N from rfl, wrap_wrap (Nat.le_refl N), ← wrap_eq hu,
      show (x.natAbs : Int) = -x by omega]
    rfl
  · have : Cmp.lt.holds x 0 = false := by simp [Cmp.holds]; omega
    rw [this] at ho
    refine .iteFalse (ev_call (.cons (.var rfl) (.cons .int .nil)) ho) (ev_eq (ev_call (.cons (.var rfl) .nil)
      (recast_returns L (s := true) (sub (by called)) hx)) ?_)
    rw [← wrap_eq hu, show (x.natAbs : Int) = x by omega]
    rfl

theorem absTrunc_returns (L : Lib P num) {N : Nat} {x : Int} (h : (P (num (.op (.absTrunc N)))).isSome)
    (hx : InRange (.int N) x) :
    Returns P (num (.op (.absTrunc N))) [.int x] (.int (wrap (.int N) x.natAbs)) := by
  have hu : InRange (numTy false N) x.natAbs := by
    simp only [InRange, numTy, Bool.false_eq_true, if_false] at *
    rcases hx with ⟨rfl, rfl⟩ | ⟨h0, h1, h2⟩
    · simp
    · have := pow_pos (N - 1)
      have e : (2 : Int) ^ N = 2 * 2 ^ (N - 1) := by rw [← Int.pow_succ']; congr 1; omega
      omega
  exact L.ret h (ev_call (.cons (ev_call (.cons (.var rfl) .nil) (abs_returns L (L.sub h (by called)) hx)) .nil)
    (recast_returns L (s := false) (L.sub h (by called)) hu))

theorem bitSum_append (as bs : List Bool) : bitSum (as ++ bs) = bitSum as + 2 ^ as.length * bitSum bs := by
  induction as with
  | nil => simp [bitSum]
  | cons a as ih =>
    simp only [List.cons_append, bitSum, ih, List.length_cons, Int.pow_succ']
    rw [Int.mul_add, Int.mul_assoc]
    omega

theorem numConcat_returns (L : Lib P num) {s : Bool} {N M : Nat} {x y : Int}
    (h : (P (num (.op (.numConcat s N M)))).isSome) :
    Returns P (num (.op (.numConcat s N M))) [.int x, .int y]
      (.int (wrap (numTy s (N + M)) (bitSum (bitList M y ++ bitList N x)))) := by
  refine L.ret h (ev_eq (.intr (.cons (.var rfl) (.cons (.var rfl) .nil)) .concat) ?_)
  rw [bitSum_append, bitSum_bitList, bitSum_bitList, bitList_length]
  simp only [Expr.ty, unsigned_uint, numTy_size]
  rw [Int.mul_comm, Int.add_comm]

theorem max_returns (L : Lib P num) {s : Bool} {N : Nat} {x y : Int} (h : (P (num (.op (.max s N)))).isSome) :
    Returns P (num (.op (.max s N))) [.int x, .int y] (.int (max x y)) := by
  have ho := order_returns L (c := .lt) (x := x) (y := y)
    (L.sub h (c := num (.op (.order .lt s N))) (by called)) (by simp) (by simp)
  refine L.ret h ?_
  by_cases hlt : x < y
  · have : Cmp.lt.holds x y = true := by simp [Cmp.holds, hlt]
    rw [this] at ho
    exact .iteTrue (ev_call (.cons (.var rfl) (.cons (.var rfl) .nil)) ho)
      (ev_eq (.var rfl) (by rw [show max x y = y by omega]))
  · have : Cmp.lt.holds x y = false := by simp [Cmp.holds]; omega
    rw [this] at ho
    exact .iteFalse (ev_call (.cons (.var rfl) (.cons (.var rfl) .nil)) ho)
      (ev_eq (.var rfl) (by rw [show max x y = x by omega]))

theorem min_returns (L : Lib P num) {s : Bool} {N : Nat} {x y : Int} (h : (P (num (.op (.min s N)))).isSome) :
    Returns P (num (.op (.min s N))) [.int x, .int y] (.int (min x y)) := by
  have ho := order_returns L (c := .lt) (x := x) (y := y)
    (L.sub h (c := num (.op (.order .lt s N))) (by called)) (by simp) (by simp)
  refine L.ret h ?_
  by_cases hlt : x < y
  · have : Cmp.lt.holds x y = true := by simp [Cmp.holds, hlt]
    rw [this] at ho
    exact .iteTrue (ev_call (.cons (.var rfl) (.cons (.var rfl) .nil)) ho)
      (ev_eq (.var rfl) (by rw [show min x y = x by omega]))
  · have : Cmp.lt.holds x y = false := by simp [Cmp.holds]; omega
    rw [this] at ho
    exact .iteFalse (ev_call (.cons (.var rfl) (.cons (.var rfl) .nil)) ho)
      (ev_eq (.var rfl) (by rw [show min x y = y by omega]))

theorem sorted_returns (L : Lib P num) {N : Nat} {x y : Int} (h : (P (num (.op (.sorted N)))).isSome) :
    Returns P (num (.op (.sorted N))) [.int x, .int y] (.tup [.int (min x y), .int (max x y)]) := by
  have ho := order_returns L (c := .lt) (x := x) (y := y)
    (L.sub h (c := num (.op (.order .lt true N))) (by called)) (by simp) (by simp)
  refine L.ret h ?_
  by_cases hlt : x < y
  · have : Cmp.lt.holds x y = true := by simp [Cmp.holds, hlt]
    rw [this] at ho
    exact .iteTrue (ev_call (.cons (.var rfl) (.cons (.var rfl) .nil)) ho)
      (ev_eq (.tuple (.cons (.var rfl) (.cons (.var rfl) .nil)))
        (by rw [show max x y = y by omega, show min x y = x by omega]))
  · have : Cmp.lt.holds x y = false := by simp [Cmp.holds]; omega
    rw [this] at ho
    exact .iteFalse (ev_call (.cons (.var rfl) (.cons (.var rfl) .nil)) ho)
      (ev_eq (.tuple (.cons (.var rfl) (.cons (.var rfl) .nil)))
        (by rw [show max x y = x by omega, show min x y = y by omega]))

theorem trunc_returns (L : Lib P num) {s : Bool} {N M : Nat} {x : Int}
    (h : (P (num (.op (.trunc s N M)))).isSome) :
    Returns P (num (.op (.trunc s N M))) [.int x] (.int (wrap (numTy s M) x)) :=
  L.ret h (.intr (.cons (.var rfl) .nil) .trunc)

/-- Bits in turn. -/
def bitsInTurn : List Bool → List Bool → List Bool
  | a :: as, b :: bs => a :: b :: bitsInTurn as bs
  | _, _ => []

theorem inTurn_bools : ∀ as bs : List Bool,
    inTurn (as.map .bool) (bs.map .bool) = (bitsInTurn as bs).map .bool
  | [], _ => by simp [inTurn, bitsInTurn]
  | _ :: _, [] => by simp [inTurn, bitsInTurn]
  | a :: as, b :: bs => by simp [inTurn, bitsInTurn, inTurn_bools as bs]

theorem bitsInTurn_length : ∀ {as bs : List Bool}, as.length = bs.length → (bitsInTurn as bs).length = 2 * as.length
  | [], [], _ => rfl
  | a :: as, b :: bs, h => by
    have := bitsInTurn_length (as := as) (bs := bs) (by simpa using h)
    simp only [bitsInTurn, List.length_cons, this]; omega

theorem numInterleave_returns (L : Lib P num) {N : Nat} {x y : Int}
    (h : (P (num (.op (.numInterleave N)))).isSome) (hx : InRange (.uint N) x) (hy : InRange (.uint N) y) :
    Returns P (num (.op (.numInterleave N))) [.int x, .int y] (.int (bitSum (bitsInTurn (bitList N x) (bitList N y)))) := by
  have hl : (bitsInTurn (bitList N x) (bitList N y)).length = 2 * N := by rw [bitsInTurn_length] <;> simp
  have hi := interleave_returns L (L.sub h (c := num (.interleave .bool N)) (by called))
    (is_bools.2 (bitList_length N x)) (is_bools.2 (bitList_length N y))
  rw [inTurn_bools] at hi
  refine L.ret h (ev_eq (ev_call (.cons (ev_call (.cons (ev_call (.cons (.var rfl) .nil)
      (bits_returns L (s := false) (L.sub h (by called)) hx)) (.cons (ev_call (.cons (.var rfl) .nil)
      (bits_returns L (s := false) (L.sub h (by called)) hy)) .nil)) hi) .nil)
    (ofBits_returns L (L.sub h (by called)) hl)) ?_)
  rw [wrap_eq (s := false) (uint_sum hl)]

theorem msb_returns (L : Lib P num) {s : Bool} {N : Nat} {x : Int} (h : (P (num (.op (.msb s N)))).isSome)
    (hN : 0 < N) (hx : InRange (numTy s N) x) :
    Returns P (num (.op (.msb s N))) [.int x] (.bool (bitOf x (N - 1))) := by
  have e : (bitList N x).map Val.bool = (bitList (N - 1) x).map Val.bool ++ [.bool (bitOf x (N - 1))] := by
    obtain ⟨n, rfl⟩ : ∃ n, N = n + 1 := ⟨N - 1, by omega⟩
    simp [bitList, List.range_succ]
  have hb : Is (.array .bool N) (bools (bitList N x)) := is_bools.2 (by simp)
  rw [bools, e] at hb
  have hr := bits_returns L (L.sub h (c := num (.op (.bits s N))) (by called)) hx
  rw [bools, e] at hr
  exact L.ret h (ev_call (.cons (ev_call (.cons (.var rfl) .nil) hr) .nil)
    (last_returns L (L.sub h (by called)) hb))

theorem lsb_returns (L : Lib P num) {s : Bool} {N : Nat} {x : Int} (h : (P (num (.op (.lsb s N)))).isSome)
    (hN : 0 < N) (hx : InRange (numTy s N) x) :
    Returns P (num (.op (.lsb s N))) [.int x] (.bool (bitOf x 0)) := by
  have e : ∃ r, (bitList N x).map Val.bool = .bool (bitOf x 0) :: r := by
    obtain ⟨n, rfl⟩ : ∃ n, N = n + 1 := ⟨N - 1, by omega⟩
    simp [bitList, List.range_succ_eq_map]
  obtain ⟨r, e⟩ := e
  have hr := bits_returns L (L.sub h (c := num (.op (.bits s N))) (by called)) hx
  rw [bools, e] at hr
  exact L.ret h (ev_call (.cons (ev_call (.cons (.var rfl) .nil) hr) .nil)
    (first_returns L (L.sub h (by called))))

theorem signBit_returns (L : Lib P num) {N : Nat} {x : Int} (h : (P (num (.op (.signBit N)))).isSome)
    (hN : 0 < N) (hx : InRange (.int N) x) :
    Returns P (num (.op (.signBit N))) [.int x] (.bool (bitOf x (N - 1))) :=
  L.ret h (ev_call (.cons (.var rfl) .nil) (msb_returns L (s := true) (L.sub h (by called)) hN hx))

/-! ## Options -/

/-- `None` or `Some`. -/
theorem is_option_elim {T : MTy} {v : Val} (h : Is (option T) v) :
    v = .variant 0 [] ∨ ∃ x, v = .variant 1 [x] ∧ Is T x := by
  simp only [Is, option, srcTy, srcTyss, srcTys] at h
  cases h with
  | @enum i vs _ ts hi hv =>
  match i with
  | 0 =>
    simp only [List.getElem?_cons_zero, Option.some.injEq] at hi
    subst hi
    cases hv
    exact .inl rfl
  | 1 =>
    simp only [List.getElem?_cons_succ, List.getElem?_cons_zero, Option.some.injEq] at hi
    subst hi
    cases hv with
    | cons h1 h2 =>
    cases h2
    exact .inr ⟨_, rfl, h1⟩
  | i + 2 => simp at hi

theorem is_some_intro {T : MTy} {x : Val} (h : Is T x) : Is (option T) (.variant 1 [x]) := by
  simp only [Is, option, srcTy, srcTyss, srcTys]
  exact .enum (i := 1) rfl (.cons h .nil)

theorem is_none_intro {T : MTy} : Is (option T) (.variant 0 []) := by
  simp only [Is, option, srcTy, srcTyss, srcTys]
  exact .enum (i := 0) rfl .nil

theorem not_some {t i j : Nat} {ty : MTy} {p : LPat} {vs : List Val} (h : i ≠ j) :
    ¬ Matches (LPat.variant t ty i [p]).src (.variant j vs) := by
  simp only [LPat.src, srcs, Matches]
  exact fun h' => h h'.1.symm

theorem isSome_returns (L : Lib P num) {T : MTy} (h : (P (num (.op (.isSome T)))).isSome) :
    (∀ x, Returns P (num (.op (.isSome T))) [.variant 1 [x]] (.bool true)) ∧
    Returns P (num (.op (.isSome T))) [.variant 0 []] (.bool false) :=
  ⟨fun x => L.ret h (.match (.var rfl) (.plain ⟨rfl, trivial, trivial⟩ .bool)),
   L.ret h (.match (.var rfl) (.next (not_some (by decide)) (.plain ⟨rfl, trivial⟩ .bool)))⟩

theorem isNone_returns (L : Lib P num) {T : MTy} (h : (P (num (.op (.isNone T)))).isSome) :
    (∀ x, Returns P (num (.op (.isNone T))) [.variant 1 [x]] (.bool false)) ∧
    Returns P (num (.op (.isNone T))) [.variant 0 []] (.bool true) :=
  ⟨fun x => L.ret h (.match (.var rfl) (.plain ⟨rfl, trivial, trivial⟩ .bool)),
   L.ret h (.match (.var rfl) (.next (not_some (by decide)) (.plain ⟨rfl, trivial⟩ .bool)))⟩

theorem unwrapOr_returns (L : Lib P num) {T : MTy} (h : (P (num (.op (.unwrapOr T)))).isSome) (d : Val) :
    (∀ x, Returns P (num (.op (.unwrapOr T))) [.variant 1 [x], d] x) ∧
    Returns P (num (.op (.unwrapOr T))) [.variant 0 [], d] d :=
  ⟨fun x => L.ret h (.match (.var rfl) (.plain ⟨rfl, trivial, trivial⟩ (.var rfl))),
   L.ret h (.match (.var rfl) (.next (not_some (by decide)) (.plain ⟨rfl, trivial⟩ (.var rfl))))⟩

theorem optMap_returns (L : Lib P num) {T O : MTy} {f : Clo} {c : Val} {g : Val → Val}
    (hf : IsFn P f.call c T O g) (h : (P (num (.op (.optMap T O f)))).isSome) :
    (∀ x, Is T x → Returns P (num (.op (.optMap T O f))) [.variant 1 [x], c] (.variant 1 [g x])) ∧
    Returns P (num (.op (.optMap T O f))) [.variant 0 [], c] (.variant 0 []) :=
  ⟨fun x hx => L.ret h (.match (.var rfl) (.plain ⟨rfl, trivial, trivial⟩ (.variant (.cons
      (ev_call (.cons (.var rfl) (.cons (.tuple (.cons (.var rfl) .nil)) .nil)) (hf x hx).2) .nil)))),
   L.ret h (.match (.var rfl) (.next (not_some (by decide)) (.plain ⟨rfl, trivial⟩ (.variant .nil))))⟩

theorem andThen_returns (L : Lib P num) {T O : MTy} {f : Clo} {c : Val} {g : Val → Val}
    (hf : IsFn P f.call c T (option O) g) (h : (P (num (.op (.andThen T O f)))).isSome) :
    (∀ x, Is T x → Returns P (num (.op (.andThen T O f))) [.variant 1 [x], c] (g x)) ∧
    Returns P (num (.op (.andThen T O f))) [.variant 0 [], c] (.variant 0 []) :=
  ⟨fun x hx => L.ret h (.match (.var rfl) (.plain ⟨rfl, trivial, trivial⟩
      (ev_call (.cons (.var rfl) (.cons (.tuple (.cons (.var rfl) .nil)) .nil)) (hf x hx).2))),
   L.ret h (.match (.var rfl) (.next (not_some (by decide)) (.plain ⟨rfl, trivial⟩ (.variant .nil))))⟩

theorem eqOption_returns (L : Lib P num) {T : MTy} {eq : Nat} {R : Val → Val → Prop} (he : Decides P eq T R) {v w : Val}
    (h : (P (num (.op (.eqOption T eq)))).isSome) (hv : Is (option T) v) (hw : Is (option T) w) :
    ∃ b, Returns P (num (.op (.eqOption T eq))) [v, w] (.bool b) ∧ (b = true ↔ OptRelated R v w) := by
  have pair : ∀ {env : Vars} {a b : Val}, env 0 = some a → env 1 = some b →
      Ev P env (.tuple 3 (.tuple [option T, option T]) [.var 0 (option T), .var 1 (option T)]) (.tup [a, b]) :=
    fun ha hb => .tuple (.cons (.var ha) (.cons (.var hb) .nil))
  rcases is_option_elim hv with rfl | ⟨x, rfl, hx⟩ <;> rcases is_option_elim hw with rfl | ⟨y, rfl, hy⟩
  · refine ⟨true, L.ret h (.match (pair rfl rfl) (.next ?_ (.next ?_ (.next ?_ (.plain ?_ .bool))))), by simp [OptRelated]⟩ <;>
      simp [Arm.pat, LPat.src, srcs, Matches, MatchesAll]
  · refine ⟨false, L.ret h (.match (pair rfl rfl) (.next ?_ (.next ?_ (.plain ?_ .bool)))), by simp [OptRelated]⟩ <;>
      simp [Arm.pat, LPat.src, srcs, Matches, MatchesAll]
  · refine ⟨false, L.ret h (.match (pair rfl rfl) (.next ?_ (.plain ?_ .bool))), by simp [OptRelated]⟩ <;>
      simp [Arm.pat, LPat.src, srcs, Matches, MatchesAll]
  · obtain ⟨b, hb, hbe⟩ := he x y hx hy
    refine ⟨b, L.ret h (.match (pair rfl rfl) (.plain ?_ (ev_call (.cons (.var rfl) (.cons (.var rfl) .nil)) hb))), ?_⟩
    · simp [LPat.src, srcs, Matches, MatchesAll]
    · rw [hbe]; simp [OptRelated]

theorem neOption_returns (L : Lib P num) {T : MTy} {eq : Nat} {R : Val → Val → Prop} (he : Decides P eq T R) {v w : Val}
    (h : (P (num (.op (.neOption T eq)))).isSome) (hv : Is (option T) v) (hw : Is (option T) w) :
    ∃ b, Returns P (num (.op (.neOption T eq))) [v, w] (.bool b) ∧ (b = true ↔ ¬ OptRelated R v w) := by
  obtain ⟨b, hb, hbe⟩ := eqOption_returns L he (L.sub h (by called)) hv hw
  refine ⟨!b, L.ret h (ev_call (.cons (ev_call (.cons (.var rfl) (.cons (.var rfl) .nil)) hb) .nil)
    (not_returns L (L.sub h (by called)))), ?_⟩
  cases b <;> simp_all

end Spade.Std

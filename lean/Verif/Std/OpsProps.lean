import Verif.Std.Props
/-!
# C59 to C61: operators, numbers and options

For every width, every type and every pair of arguments.  As in C58 `num k` is the number that the program
has given to the function `k`, `Lib P num` says that the program contains the units of the standard
library that it uses, and `P.Ok` that it passes type inference, which is so by `C58_accepted` under the
`where` clauses; `C58_hardware_partial` says that the generated Verilog computes the same.
-/
namespace Spade.Std
open Spade.Verilog Spade.Codegen Spade.Lower Spade.Expr
open Spade.Match (Val HasTy)

variable {P : Prog} {num : Key → Nat}

theorem wrapped (s : Bool) (N : Nat) (z : Int) : Wrapped (numTy s N) z (wrap (numTy s N) z) := by
  refine ⟨wrap_range s N z, ?_⟩
  rw [numTy_size]
  exact Int.dvd_of_emod_eq_zero (Int.emod_eq_emod_iff_emod_sub_eq_zero.1 (wrap_mod s N z))

/-- There is one number that a number wraps around to; it is the number itself if it fits. -/
theorem C59_wrapped (s : Bool) (N : Nat) (z : Int) :
    (∃ z', Wrapped (numTy s N) z z') ∧
    (∀ z' z'', Wrapped (numTy s N) z z' → Wrapped (numTy s N) z z'' → z' = z'') ∧
    (InRange (numTy s N) z → Wrapped (numTy s N) z z) := by
  refine ⟨⟨_, wrapped s N z⟩, ?_, fun h => ⟨h, by simp⟩⟩
  have key : ∀ z', Wrapped (numTy s N) z z' → z' = wrap (numTy s N) z := by
    rintro z' ⟨hr, hd⟩
    rw [numTy_size] at hd
    rw [← wrap_eq hr]
    exact wrap_congr (Int.emod_eq_emod_iff_emod_sub_eq_zero.2 (Int.emod_eq_zero_of_dvd hd))
  intro z' z'' h h'
  rw [key z' h, key z'' h']

/-! ## C59: operators -/

/-- `a +. b` (`wrapping_add`). -/
theorem C59_add (hP : P.Ok) (L : Lib P num) (s : Bool) (N : Nat) (x y : Int)
    (h : (P (num (.op (.add s N)))).isSome) :
    ∃ z, Wrapped (numTy s N) (x + y) z ∧ Computes P (num (.op (.add s N))) [.int x, .int y] (.int z) :=
  ⟨_, wrapped s N _, (add_returns L h).computes hP⟩

/-- `a -. b` (`wrapping_sub`). -/
theorem C59_sub (hP : P.Ok) (L : Lib P num) (s : Bool) (N : Nat) (x y : Int)
    (h : (P (num (.op (.sub s N)))).isSome) :
    ∃ z, Wrapped (numTy s N) (x - y) z ∧ Computes P (num (.op (.sub s N))) [.int x, .int y] (.int z) :=
  ⟨_, wrapped s N _, (sub_returns L h).computes hP⟩

/-- `a *. b` (`wrapping_mul`). -/
theorem C59_mul (hP : P.Ok) (L : Lib P num) (s : Bool) (N : Nat) (x y : Int)
    (h : (P (num (.op (.mul s N)))).isSome) :
    ∃ z, Wrapped (numTy s N) (x * y) z ∧ Computes P (num (.op (.mul s N))) [.int x, .int y] (.int z) :=
  ⟨_, wrapped s N _, (mul_returns L h).computes hP⟩

/-- `-. a` (`wrapping_neg`). -/
theorem C59_neg (hP : P.Ok) (L : Lib P num) (N : Nat) (x : Int) (h : (P (num (.op (.neg N)))).isSome) :
    ∃ z, Wrapped (.int N) (-x) z ∧ Computes P (num (.op (.neg N))) [.int x] (.int z) :=
  ⟨_, wrapped true N _, (neg_returns L h).computes hP⟩

/-- A number that is not negative is its own residue. -/
theorem shift_amount {s : Bool} {N : Nat} {y : Int} (h0 : 0 ≤ y) (hy : InRange (numTy s N) y) : y % 2 ^ N = y := by
  apply Int.emod_eq_of_lt h0
  cases s <;> simp only [InRange, numTy, Bool.false_eq_true, if_false, if_true] at hy
  · exact hy.2
  · rcases hy with ⟨rfl, rfl⟩ | ⟨hN, -, h2⟩
    · simp
    · have := pow_pos (N - 1)
      have e : (2 : Int) ^ N = 2 * 2 ^ (N - 1) := by rw [← Int.pow_succ']; congr 1; omega
      omega

/-- `a <<. b` (`wrapping_shl`), for an amount that is not negative. -/
theorem C59_shl (hP : P.Ok) (L : Lib P num) (s : Bool) (N : Nat) (x : Int) (y : Nat)
    (h : (P (num (.op (.shl s N)))).isSome) (hy : InRange (numTy s N) y) :
    ∃ z, Wrapped (numTy s N) (x * 2 ^ y) z ∧ Computes P (num (.op (.shl s N))) [.int x, .int y] (.int z) := by
  have := (shl_returns (x := x) (y := y) L h).computes hP
  rw [shift_amount (by omega) hy] at this
  exact ⟨_, wrapped s N _, this⟩

/-- `a >>. b` (`wrapping_shr`), for an amount that is not negative: zeros are shifted in, also for `int`. -/
theorem C59_shr (hP : P.Ok) (L : Lib P num) (s : Bool) (N : Nat) (x : Int) (y : Nat)
    (h : (P (num (.op (.shr s N)))).isSome) (hy : InRange (numTy s N) y) :
    ∃ z, InRange (numTy s N) z ∧ (∀ i < N, bitOf z i = if i + y < N then bitOf x (i + y) else false) ∧
      Computes P (num (.op (.shr s N))) [.int x, .int y] (.int z) := by
  have := (shr_returns (x := x) (y := y) L h).computes hP
  rw [shift_amount (by omega) hy] at this
  refine ⟨_, wrap_range s N _, ?_, this⟩
  intro i hi
  have hb := congrArg (·[i]?) (wrap_bits s N (x % 2 ^ N / 2 ^ ((y : Int).toNat)))
  simp only [bitList_getElem hi, Option.some.injEq, Int.toNat_natCast] at hb ⊢
  rw [hb]
  have e : bitOf (x % 2 ^ N / 2 ^ y) i = bitOf (x % 2 ^ N) (i + y) := by
    simp only [bitOf]
    rw [Int.ediv_ediv_of_nonneg (by exact Int.le_of_lt (pow_pos y)), ← Int.pow_add, Nat.add_comm y i]
  rw [e]
  split
  · rename_i hl; rw [bitOf_mod hl]
  · rename_i hl
    simp only [bitOf]
    have hlt : x % 2 ^ N < 2 ^ (i + y) := by
      have h1 := Int.emod_lt_of_pos x (pow_pos N)
      have h2 : (2 : Int) ^ N ≤ 2 ^ (i + y) := by exact_mod_cast Nat.pow_le_pow_right (n := 2) (by decide) (show N ≤ i + y by omega)
      omega
    rw [Int.ediv_eq_zero_of_lt (Int.emod_nonneg _ (Int.ne_of_gt (pow_pos N))) hlt]
    rfl

/-- `!a`. -/
theorem C59_not (hP : P.Ok) (L : Lib P num) (b : Bool) (h : (P (num (.op .not))).isSome) :
    Computes P (num (.op .not)) [.bool b] (.bool !b) :=
  (not_returns L h).computes hP

/-- `~a` for arrays of bits. -/
theorem C59_not_bits (hP : P.Ok) (L : Lib P num) (N : Nat) (bs : List Bool)
    (h : (P (num (.op (.nots N)))).isSome) :
    Computes P (num (.op (.nots N))) [.tup (bs.map .bool)] (.tup ((bs.map (!·)).map .bool)) :=
  (nots_returns L h).computes hP

/-- Bits of a number that is made of bits. -/
theorem bitOf_made {s : Bool} {N : Nat} {bs : List Bool} (hl : bs.length = N) {i : Nat} (h : i < N) :
    some (bitOf (wrap (numTy s N) (bitSum bs)) i) = bs[i]? := by
  subst hl
  rw [← bitList_getElem h, wrap_bits, bitList_bitSum]

/-- `~a`. -/
theorem C59_bit_not (hP : P.Ok) (L : Lib P num) (s : Bool) (N : Nat) (x : Int)
    (h : (P (num (.op (.bitNot s N)))).isSome) (hx : InRange (numTy s N) x) :
    ∃ z, InRange (numTy s N) z ∧ (∀ i < N, bitOf z i = !bitOf x i) ∧
      Computes P (num (.op (.bitNot s N))) [.int x] (.int z) := by
  refine ⟨_, wrap_range s N _, fun i hi => ?_, (bitNot_returns L h hx).computes hP⟩
  have := bitOf_made (s := s) (N := N) (bs := (bitList N x).map (!·)) (by simp) hi
  rw [List.getElem?_map, bitList_getElem hi] at this
  simpa using this

/-- `a && b`, `a || b` and `a ^^ b`. -/
theorem C59_logic (hP : P.Ok) (L : Lib P num) (a b : Bool) :
    ((P (num (.op (.logic .and)))).isSome → Computes P (num (.op (.logic .and))) [.bool a, .bool b] (.bool (a && b))) ∧
    ((P (num (.op (.logic .or)))).isSome → Computes P (num (.op (.logic .or))) [.bool a, .bool b] (.bool (a || b))) ∧
    ((P (num (.op (.logic .xor)))).isSome → Computes P (num (.op (.logic .xor))) [.bool a, .bool b] (.bool (a != b))) :=
  ⟨fun h => (logic_returns L h).computes hP, fun h => (logic_returns L h).computes hP,
   fun h => (logic_returns L h).computes hP⟩

/-- `a & b`, `a | b` and `a ^ b` for arrays of bits. -/
theorem C59_logic_bits (hP : P.Ok) (L : Lib P num) (N : Nat) (as bs : List Bool)
    (ha : Is (.array .bool N) (.tup (as.map .bool))) (hb : Is (.array .bool N) (.tup (bs.map .bool))) :
    ((P (num (.op (.logics .and N)))).isSome → Computes P (num (.op (.logics .and N)))
      [.tup (as.map .bool), .tup (bs.map .bool)] (.tup ((List.zipWith (· && ·) as bs).map .bool))) ∧
    ((P (num (.op (.logics .or N)))).isSome → Computes P (num (.op (.logics .or N)))
      [.tup (as.map .bool), .tup (bs.map .bool)] (.tup ((List.zipWith (· || ·) as bs).map .bool))) ∧
    ((P (num (.op (.logics .xor N)))).isSome → Computes P (num (.op (.logics .xor N)))
      [.tup (as.map .bool), .tup (bs.map .bool)] (.tup ((List.zipWith (· != ·) as bs).map .bool))) := by
  have hl : as.length = bs.length := (is_bools.1 ha).trans (is_bools.1 hb).symm
  exact ⟨fun h => (logics_returns L h hl).computes hP, fun h => (logics_returns L h hl).computes hP,
   fun h => (logics_returns L h hl).computes hP⟩

theorem bitLogic_bits {l : Logic} {s : Bool} {N : Nat} {x y : Int} {i : Nat} (hi : i < N) :
    bitOf (wrap (numTy s N) (bitSum (List.zipWith l.val (bitList N x) (bitList N y)))) i =
      l.val (bitOf x i) (bitOf y i) := by
  have := bitOf_made (s := s) (N := N) (bs := List.zipWith l.val (bitList N x) (bitList N y)) (by simp) hi
  rw [List.getElem?_zipWith, bitList_getElem hi, bitList_getElem hi] at this
  simpa using this

/-- `a & b` for numbers. -/
theorem C59_bit_and (hP : P.Ok) (L : Lib P num) (s : Bool) (N : Nat) (x y : Int)
    (h : (P (num (.op (.bitLogic .and s N)))).isSome) (hx : InRange (numTy s N) x) (hy : InRange (numTy s N) y) :
    ∃ z, InRange (numTy s N) z ∧ (∀ i < N, bitOf z i = (bitOf x i && bitOf y i)) ∧
      Computes P (num (.op (.bitLogic .and s N))) [.int x, .int y] (.int z) :=
  ⟨_, wrap_range s N _, fun _ hi => bitLogic_bits hi, (bitLogic_returns L h hx hy).computes hP⟩

/-- `a | b` for numbers. -/
theorem C59_bit_or (hP : P.Ok) (L : Lib P num) (s : Bool) (N : Nat) (x y : Int)
    (h : (P (num (.op (.bitLogic .or s N)))).isSome) (hx : InRange (numTy s N) x) (hy : InRange (numTy s N) y) :
    ∃ z, InRange (numTy s N) z ∧ (∀ i < N, bitOf z i = (bitOf x i || bitOf y i)) ∧
      Computes P (num (.op (.bitLogic .or s N))) [.int x, .int y] (.int z) :=
  ⟨_, wrap_range s N _, fun _ hi => bitLogic_bits hi, (bitLogic_returns L h hx hy).computes hP⟩

/-- `a ^ b` for numbers. -/
theorem C59_bit_xor (hP : P.Ok) (L : Lib P num) (s : Bool) (N : Nat) (x y : Int)
    (h : (P (num (.op (.bitLogic .xor s N)))).isSome) (hx : InRange (numTy s N) x) (hy : InRange (numTy s N) y) :
    ∃ z, InRange (numTy s N) z ∧ (∀ i < N, bitOf z i = (bitOf x i != bitOf y i)) ∧
      Computes P (num (.op (.bitLogic .xor s N))) [.int x, .int y] (.int z) :=
  ⟨_, wrap_range s N _, fun _ hi => bitLogic_bits hi, (bitLogic_returns L h hx hy).computes hP⟩

/-- `a < b`, `a <= b`, `a > b` and `a >= b`. -/
theorem C59_order (hP : P.Ok) (L : Lib P num) (s : Bool) (N : Nat) (x y : Int) :
    ((P (num (.op (.order .lt s N)))).isSome →
      Computes P (num (.op (.order .lt s N))) [.int x, .int y] (.bool (decide (x < y)))) ∧
    ((P (num (.op (.order .le s N)))).isSome →
      Computes P (num (.op (.order .le s N))) [.int x, .int y] (.bool (decide (x ≤ y)))) ∧
    ((P (num (.op (.order .gt s N)))).isSome →
      Computes P (num (.op (.order .gt s N))) [.int x, .int y] (.bool (decide (y < x)))) ∧
    ((P (num (.op (.order .ge s N)))).isSome →
      Computes P (num (.op (.order .ge s N))) [.int x, .int y] (.bool (decide (y ≤ x)))) :=
  ⟨fun h => (order_returns L h (by simp) (by simp)).computes hP,
   fun h => (order_returns L h (by simp) (by simp)).computes hP,
   fun h => (order_returns L h (by simp) (by simp)).computes hP,
   fun h => (order_returns L h (by simp) (by simp)).computes hP⟩

/-- `a == b` for booleans, numbers and arrays is equality; for arrays of a type with its own `==` that
is not what it should be, see `C59_counterexample_array_eq`. -/
theorem C59_eq_partial (hP : P.Ok) (L : Lib P num) (T : MTy) (v w : Val) (h : (P (num (.op (.eq T)))).isSome) :
    ∃ b, Computes P (num (.op (.eq T))) [v, w] (.bool b) ∧ (b = true ↔ v = w) := by
  obtain ⟨b, hb, he⟩ := eq_returns (v := v) (w := w) L h
  exact ⟨b, hb.computes hP, he⟩

/-- `a != b` for booleans, numbers and arrays. -/
theorem C59_ne_partial (hP : P.Ok) (L : Lib P num) (T : MTy) (v w : Val) (h : (P (num (.op (.ne T)))).isSome) :
    ∃ b, Computes P (num (.op (.ne T))) [v, w] (.bool b) ∧ (b = true ↔ v ≠ w) := by
  obtain ⟨b, hb, he⟩ := ne_returns (v := v) (w := w) L h
  exact ⟨b, hb.computes hP, he⟩

/-- The unit `eq T` is the `==` of the type, as those below require it of members. -/
theorem C59_eq_decides (L : Lib P num) (T : MTy) (h : (P (num (.op (.eq T)))).isSome) :
    Decides P (num (.op (.eq T))) T (· = ·) :=
  fun _ _ _ _ => eq_returns L h

/-- `a == b` and `a != b` for `()`. -/
theorem C59_eq_unit (hP : P.Ok) (L : Lib P num) (v w : Val) :
    ((P (num (.op .eqUnit))).isSome → Computes P (num (.op .eqUnit)) [v, w] (.bool true)) ∧
    ((P (num (.op .neUnit))).isSome → Computes P (num (.op .neUnit)) [v, w] (.bool false)) :=
  ⟨fun h => Returns.computes hP (L.ret h .bool), fun h => Returns.computes hP (L.ret h .bool)⟩

/-- `a == b` for tuples, with the `==` of each member. -/
theorem C59_eq_tuple (hP : P.Ok) (L : Lib P num) (ts : List (MTy × Nat)) (R : Nat → Val → Val → Prop)
    (vs ws : List Val) (h : (P (num (.op (.eqTuple ts)))).isSome) (he : ∀ t ∈ ts, Decides P t.2 t.1 (R t.2))
    (hv : Is (.tuple (ts.map (·.1))) (.tup vs)) (hw : Is (.tuple (ts.map (·.1))) (.tup ws)) :
    ∃ b, Computes P (num (.op (.eqTuple ts))) [.tup vs, .tup ws] (.bool b) ∧
      (b = true ↔ AllRelated R ts vs ws) := by
  obtain ⟨b, hb, he⟩ := eqTuple_returns L h he hv hw
  exact ⟨b, hb.computes hP, he⟩

/-- `a != b` for tuples. -/
theorem C59_ne_tuple (hP : P.Ok) (L : Lib P num) (ts : List (MTy × Nat)) (R : Nat → Val → Val → Prop)
    (vs ws : List Val) (h : (P (num (.op (.neTuple ts)))).isSome) (he : ∀ t ∈ ts, Decides P t.2 t.1 (R t.2))
    (hv : Is (.tuple (ts.map (·.1))) (.tup vs)) (hw : Is (.tuple (ts.map (·.1))) (.tup ws)) :
    ∃ b, Computes P (num (.op (.neTuple ts))) [.tup vs, .tup ws] (.bool b) ∧
      (b = true ↔ ¬ AllRelated R ts vs ws) := by
  obtain ⟨b, hb, he⟩ := neTuple_returns L h he hv hw
  exact ⟨b, hb.computes hP, he⟩

/-! ## C60: conversions and numbers -/

/-- `a.as_bits()`, the least significant bit first. -/
theorem C60_as_bits (hP : P.Ok) (L : Lib P num) (s : Bool) (N : Nat) (z : Int)
    (h : (P (num (.op (.bits s N)))).isSome) (hz : InRange (numTy s N) z) :
    Computes P (num (.op (.bits s N))) [.int z] (.tup ((bitList N z).map .bool)) :=
  (bits_returns L h hz).computes hP

/-- `bits.as_int()` and `bits.as_uint()`: the number that has these bits. -/
theorem C60_of_bits (hP : P.Ok) (L : Lib P num) (s : Bool) (N : Nat) (bs : List Bool)
    (h : (P (num (.op (.ofBits s N)))).isSome) (hb : Is (.array .bool N) (.tup (bs.map .bool))) :
    ∃ z, InRange (numTy s N) z ∧ bitList N z = bs ∧
      Computes P (num (.op (.ofBits s N))) [.tup (bs.map .bool)] (.int z) := by
  have hl : bs.length = N := is_bools.1 hb
  refine ⟨_, wrap_range s N _, ?_, (ofBits_returns L h hl).computes hP⟩
  subst hl
  rw [wrap_bits, bitList_bitSum]

/-- `b.as_uint()`. -/
theorem C60_of_bool (hP : P.Ok) (L : Lib P num) (b : Bool) (h : (P (num (.op .ofBool))).isSome) :
    Computes P (num (.op .ofBool)) [.bool b] (.int (if b then 1 else 0)) :=
  (ofBool_returns L h).computes hP

/-- `a.as_uint()` of an `int` and `a.as_int()` of a `uint`. -/
theorem C60_recast (hP : P.Ok) (L : Lib P num) (s : Bool) (N : Nat) (z : Int)
    (h : (P (num (.op (.recast s N)))).isSome) (hz : InRange (numTy s N) z) :
    ∃ z', Wrapped (numTy (!s) N) z z' ∧ Computes P (num (.op (.recast s N))) [.int z] (.int z') :=
  ⟨_, wrapped _ N z, (recast_returns L h hz).computes hP⟩

/-- `a.to_int()` keeps the value. -/
theorem C60_to_int (hP : P.Ok) (L : Lib P num) (N : Nat) (z : Int) (h : (P (num (.op (.toInt N)))).isSome)
    (hz : InRange (.uint N) z) : Computes P (num (.op (.toInt N))) [.int z] (.int z) :=
  (toInt_returns L h hz).computes hP

/-- `a.to_le_bytes()`. -/
theorem C60_to_le_bytes (hP : P.Ok) (L : Lib P num) (N : Nat) (z : Int)
    (h : (P (num (.op (.leBytes N)))).isSome) (hN : N = N / 8 * 8) (hz : InRange (.uint N) z) :
    Computes P (num (.op (.leBytes N))) [.int z] (.tup (byteList N z)) :=
  (leBytes_returns L h hN hz).computes hP

/-- `a.to_be_bytes()`. -/
theorem C60_to_be_bytes (hP : P.Ok) (L : Lib P num) (N : Nat) (z : Int)
    (h : (P (num (.op (.beBytes N)))).isSome) (hN : N = N / 8 * 8) (hz : InRange (.uint N) z) :
    Computes P (num (.op (.beBytes N))) [.int z] (.tup (byteList N z).reverse) :=
  (beBytes_returns L h hN hz).computes hP

/-- `a.to_germanendian_bytes()`: from the most significant byte on, but the last two are swapped. -/
theorem C60_to_german_bytes (hP : P.Ok) (L : Lib P num) (N : Nat) (z : Int)
    (h : (P (num (.op (.germanBytes N)))).isSome) (hN : N = N / 8 * 8) (hz : InRange (.uint N) z) :
    Computes P (num (.op (.germanBytes N))) [.int z]
      (.tup (if N ≤ 16 then byteList N z else ((byteList N z).drop 2).reverse ++ (byteList N z).take 2)) :=
  (germanBytes_returns L h hN hz).computes hP

/-- `a.abs()`. -/
theorem C60_abs (hP : P.Ok) (L : Lib P num) (N : Nat) (x : Int) (h : (P (num (.op (.abs N)))).isSome)
    (hx : InRange (.int N) x) : Computes P (num (.op (.abs N))) [.int x] (.int x.natAbs) :=
  (abs_returns L h hx).computes hP

/-- The deprecated function `abs`, whose result is an `int`: it is negative for the least number. -/
theorem C60_abs_int (hP : P.Ok) (L : Lib P num) (N : Nat) (x : Int) (h : (P (num (.op (.absTrunc N)))).isSome)
    (hx : InRange (.int N) x) :
    ∃ z, Wrapped (.int N) x.natAbs z ∧ Computes P (num (.op (.absTrunc N))) [.int x] (.int z) :=
  ⟨_, wrapped true N _, (absTrunc_returns L h hx).computes hP⟩

/-- `a.concat(b)`: `b` is the low bits. -/
theorem C60_concat (hP : P.Ok) (L : Lib P num) (s : Bool) (N M : Nat) (x y : Int)
    (h : (P (num (.op (.numConcat s N M)))).isSome) :
    ∃ z, InRange (numTy s (N + M)) z ∧ bitList (N + M) z = bitList M y ++ bitList N x ∧
      Computes P (num (.op (.numConcat s N M))) [.int x, .int y] (.int z) := by
  refine ⟨_, wrap_range s (N + M) _, ?_, (numConcat_returns L h).computes hP⟩
  have := bitList_bitSum (bitList M y ++ bitList N x)
  rw [wrap_bits]
  simpa [Nat.add_comm] using this

/-- `a.max(b)`. -/
theorem C60_max (hP : P.Ok) (L : Lib P num) (s : Bool) (N : Nat) (x y : Int)
    (h : (P (num (.op (.max s N)))).isSome) :
    Computes P (num (.op (.max s N))) [.int x, .int y] (.int (max x y)) :=
  (max_returns L h).computes hP

/-- `a.min(b)`. -/
theorem C60_min (hP : P.Ok) (L : Lib P num) (s : Bool) (N : Nat) (x y : Int)
    (h : (P (num (.op (.min s N)))).isSome) :
    Computes P (num (.op (.min s N))) [.int x, .int y] (.int (min x y)) :=
  (min_returns L h).computes hP

/-- `order(a, b)`. -/
theorem C60_order (hP : P.Ok) (L : Lib P num) (N : Nat) (x y : Int)
    (h : (P (num (.op (.sorted N)))).isSome) :
    Computes P (num (.op (.sorted N))) [.int x, .int y] (.tup [.int (min x y), .int (max x y)]) :=
  (sorted_returns L h).computes hP

/-- `a.trunc()`. -/
theorem C60_trunc (hP : P.Ok) (L : Lib P num) (s : Bool) (N M : Nat) (x : Int)
    (h : (P (num (.op (.trunc s N M)))).isSome) :
    ∃ z, Wrapped (numTy s M) x z ∧ Computes P (num (.op (.trunc s N M))) [.int x] (.int z) :=
  ⟨_, wrapped s M _, (trunc_returns L h).computes hP⟩

theorem bitsInTurn_get : ∀ {as bs : List Bool}, as.length = bs.length → ∀ i,
    (bitsInTurn as bs)[2 * i]? = as[i]? ∧ (bitsInTurn as bs)[2 * i + 1]? = bs[i]?
  | [], [], _, i => by simp [bitsInTurn]
  | a :: as, b :: bs, _, 0 => by simp [bitsInTurn]
  | a :: as, b :: bs, h, i + 1 => by
    have := bitsInTurn_get (as := as) (bs := bs) (by simpa using h) i
    rw [show 2 * (i + 1) = 2 * i + 1 + 1 by omega]
    simpa [bitsInTurn] using this

/-- `a.interleave(b)`: the bits of `a` are the even ones. -/
theorem C60_interleave (hP : P.Ok) (L : Lib P num) (N : Nat) (x y : Int)
    (h : (P (num (.op (.numInterleave N)))).isSome) (hx : InRange (.uint N) x) (hy : InRange (.uint N) y) :
    ∃ z, InRange (.uint (2 * N)) z ∧ (∀ i < N, bitOf z (2 * i) = bitOf x i ∧ bitOf z (2 * i + 1) = bitOf y i) ∧
      Computes P (num (.op (.numInterleave N))) [.int x, .int y] (.int z) := by
  have hl : (bitsInTurn (bitList N x) (bitList N y)).length = 2 * N := by rw [bitsInTurn_length] <;> simp
  refine ⟨_, uint_sum hl, fun i hi => ?_, (numInterleave_returns L h hx hy).computes hP⟩
  have hg := bitsInTurn_get (as := bitList N x) (bs := bitList N y) (by simp) i
  rw [bitList_getElem hi, bitList_getElem hi] at hg
  constructor
  · rw [bitOf_bitSum (by omega)]
    exact (List.getElem?_eq_some_iff.1 hg.1).2
  · rw [bitOf_bitSum (by omega)]
    exact (List.getElem?_eq_some_iff.1 hg.2).2

/-- The top bit of a number. -/
theorem bitOf_top {s : Bool} {N : Nat} {x : Int} (hN : 0 < N) (hx : InRange (numTy s N) x) :
    bitOf x (N - 1) = decide (if s then x < 0 else 2 ^ (N - 1) ≤ x) := by
  have hp := pow_pos (N - 1)
  have e : (2 : Int) ^ N = 2 * 2 ^ (N - 1) := by rw [← Int.pow_succ']; congr 1; omega
  cases s <;> simp only [InRange, numTy, Bool.false_eq_true, if_false, if_true] at hx ⊢
  · obtain ⟨h0, h1⟩ := hx
    by_cases hlt : 2 ^ (N - 1) ≤ x
    · have : x / 2 ^ (N - 1) = 1 := by
        rw [Int.ediv_eq_iff_of_pos hp]; omega
      simp [bitOf, this, hlt]
    · have : x / 2 ^ (N - 1) = 0 := Int.ediv_eq_zero_of_lt h0 (by omega)
      simp [bitOf, this, hlt]
  · rcases hx with ⟨rfl, rfl⟩ | ⟨_, h0, h1⟩
    · omega
    · by_cases hlt : x < 0
      · have : x / 2 ^ (N - 1) = -1 := by
          rw [Int.ediv_eq_iff_of_pos hp]; omega
        simp [bitOf, this, hlt]
      · have : x / 2 ^ (N - 1) = 0 := Int.ediv_eq_zero_of_lt (by omega) h1
        simp [bitOf, this, hlt]

/-- `a.msb()`: whether an `int` is negative, and whether a `uint` is in the upper half. -/
theorem C60_msb (hP : P.Ok) (L : Lib P num) (s : Bool) (N : Nat) (x : Int)
    (h : (P (num (.op (.msb s N)))).isSome) (hN : 0 < N) (hx : InRange (numTy s N) x) :
    Computes P (num (.op (.msb s N))) [.int x] (.bool (decide (if s then x < 0 else 2 ^ (N - 1) ≤ x))) := by
  rw [← bitOf_top hN hx]
  exact (msb_returns L h hN hx).computes hP

/-- `a.sign_bit()`. -/
theorem C60_sign_bit (hP : P.Ok) (L : Lib P num) (N : Nat) (x : Int)
    (h : (P (num (.op (.signBit N)))).isSome) (hN : 0 < N) (hx : InRange (.int N) x) :
    Computes P (num (.op (.signBit N))) [.int x] (.bool (decide (x < 0))) := by
  have := bitOf_top (s := true) hN hx
  simp only [if_true] at this
  rw [← this]
  exact (signBit_returns L h hN hx).computes hP

/-- `a.lsb()`: whether the number is odd. -/
theorem C60_lsb (hP : P.Ok) (L : Lib P num) (s : Bool) (N : Nat) (x : Int)
    (h : (P (num (.op (.lsb s N)))).isSome) (hN : 0 < N) (hx : InRange (numTy s N) x) :
    Computes P (num (.op (.lsb s N))) [.int x] (.bool (decide (x % 2 = 1))) := by
  have := (lsb_returns L h hN hx).computes hP
  simpa [bitOf] using this

/-! ## C61: options -/

/-- `a.is_some()`. -/
theorem C61_is_some (hP : P.Ok) (L : Lib P num) (T : MTy) (h : (P (num (.op (.isSome T)))).isSome) :
    (∀ x, Computes P (num (.op (.isSome T))) [.variant 1 [x]] (.bool true)) ∧
    Computes P (num (.op (.isSome T))) [.variant 0 []] (.bool false) :=
  ⟨fun x => ((isSome_returns L h).1 x).computes hP, (isSome_returns L h).2.computes hP⟩

/-- `a.is_none()`. -/
theorem C61_is_none (hP : P.Ok) (L : Lib P num) (T : MTy) (h : (P (num (.op (.isNone T)))).isSome) :
    (∀ x, Computes P (num (.op (.isNone T))) [.variant 1 [x]] (.bool false)) ∧
    Computes P (num (.op (.isNone T))) [.variant 0 []] (.bool true) :=
  ⟨fun x => ((isNone_returns L h).1 x).computes hP, (isNone_returns L h).2.computes hP⟩

/-- `a.unwrap_or(d)`. -/
theorem C61_unwrap_or (hP : P.Ok) (L : Lib P num) (T : MTy) (h : (P (num (.op (.unwrapOr T)))).isSome) (d : Val) :
    (∀ x, Computes P (num (.op (.unwrapOr T))) [.variant 1 [x], d] x) ∧
    Computes P (num (.op (.unwrapOr T))) [.variant 0 [], d] d :=
  ⟨fun x => ((unwrapOr_returns L h d).1 x).computes hP, (unwrapOr_returns L h d).2.computes hP⟩

/-- `a.map(f)`. -/
theorem C61_map (hP : P.Ok) (L : Lib P num) (T O : MTy) (f : Clo) (c : Val) (g : Val → Val)
    (hf : IsFn P f.call c T O g) (h : (P (num (.op (.optMap T O f)))).isSome) :
    (∀ x, Is T x → Computes P (num (.op (.optMap T O f))) [.variant 1 [x], c] (.variant 1 [g x])) ∧
    Computes P (num (.op (.optMap T O f))) [.variant 0 [], c] (.variant 0 []) :=
  ⟨fun x hx => ((optMap_returns L hf h).1 x hx).computes hP, (optMap_returns L hf h).2.computes hP⟩

/-- `a.and_then(f)`. -/
theorem C61_and_then (hP : P.Ok) (L : Lib P num) (T O : MTy) (f : Clo) (c : Val) (g : Val → Val)
    (hf : IsFn P f.call c T (option O) g) (h : (P (num (.op (.andThen T O f)))).isSome) :
    (∀ x, Is T x → Computes P (num (.op (.andThen T O f))) [.variant 1 [x], c] (g x)) ∧
    Computes P (num (.op (.andThen T O f))) [.variant 0 [], c] (.variant 0 []) :=
  ⟨fun x hx => ((andThen_returns L hf h).1 x hx).computes hP, (andThen_returns L hf h).2.computes hP⟩

/-- `a == b`, with the `==` of what is in the options. -/
theorem C61_eq (hP : P.Ok) (L : Lib P num) (T : MTy) (eq : Nat) (R : Val → Val → Prop) (he : Decides P eq T R)
    (v w : Val) (h : (P (num (.op (.eqOption T eq)))).isSome) (hv : Is (option T) v) (hw : Is (option T) w) :
    ∃ b, Computes P (num (.op (.eqOption T eq))) [v, w] (.bool b) ∧ (b = true ↔ OptRelated R v w) := by
  obtain ⟨b, hb, he⟩ := eqOption_returns L he h hv hw
  exact ⟨b, hb.computes hP, he⟩

/-- `a != b`. -/
theorem C61_ne (hP : P.Ok) (L : Lib P num) (T : MTy) (eq : Nat) (R : Val → Val → Prop) (he : Decides P eq T R)
    (v w : Val) (h : (P (num (.op (.neOption T eq)))).isSome) (hv : Is (option T) v) (hw : Is (option T) w) :
    ∃ b, Computes P (num (.op (.neOption T eq))) [v, w] (.bool b) ∧ (b = true ↔ ¬ OptRelated R v w) := by
  obtain ⟨b, hb, he⟩ := neOption_returns L he h hv hw
  exact ⟨b, hb.computes hP, he⟩

end Spade.Std

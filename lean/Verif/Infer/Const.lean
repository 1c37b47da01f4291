import Verif.Infer.Spec

/-!
# Type-level expressions (C20)

Model of the path of a type-level expression through the compiler: from the syntax tree to
`hir::ConstGeneric` (`/repo/spade-ast-lowering/src/lib.rs:960-1160`), on to `ConstraintExpr`
(`/repo/spade-typeinference/src/lib.rs:2847-2903`), and its evaluation
(`/repo/spade-typeinference/src/constraints.rs:167-300, 422-499`).
-/

namespace Spade.Infer

open Spec (TExpr Val Value SameSort LeastInt LeastUint)

/-- The two-operand constructors of `hir::ConstGeneric` and of `ConstraintExpr`
(`spade-hir/src/lib.rs`, `constraints.rs:14-50`); in the code each is a constructor of its own. -/
inductive COp where
  | sum | difference | product | div | mod | eq | notEq | lt | gt | le | ge
  | logicalAnd | logicalOr | logicalXor
  deriving DecidableEq, Repr

/-- Models `hir::ConstGeneric`. -/
inductive CG where
  | name (n : String)
  | bool (b : Bool)
  | int (i : Int)
  | str (s : String)
  | bin (op : COp) (a b : CG)
  | logicalNot (a : CG)
  | intBitsFor (a : CG)
  | uintBitsFor (a : CG)
  deriving DecidableEq, Repr

/-- Models `ConstraintExpr`, `constraints.rs:14-50`. -/
inductive CE where
  | int (i : Int)
  | bool (b : Bool)
  | str (s : String)
  | var (v : Nat)
  | bin (op : COp) (a b : CE)
  | sub (a : CE)
  | logicalNot (a : CE)
  | intBits (a : CE)
  | uintBits (a : CE)
  deriving DecidableEq, Repr

/-- The two-operand cases of `visit_const_generic`, `spade-ast-lowering/src/lib.rs:1004-1037`: the
first error wins. -/
def mkBin (op : COp) (a b : Option CG) : Option CG :=
  match a, b with
  | some a, some b => some (.bin op a b)
  | _, _ => none

/-- Models `visit_const_generic` of AST lowering, `spade-ast-lowering/src/lib.rs:960-1160`.
`isMeta` tells which names are generic parameters of a value kind (`TypeSymbol::GenericMeta`); any
other name is an error (`none`). Unsupported operators and calls are not part of `TExpr`. -/
def lowerConst (isMeta : String → Bool) : TExpr → Option CG
  | .name n => if isMeta n then some (.name n) else none
  | .bool b => some (.bool b)
  | .int i => some (.int i)
  | .str s => some (.str s)
  | .add a b => mkBin .sum (lowerConst isMeta a) (lowerConst isMeta b)
  | .sub a b => mkBin .difference (lowerConst isMeta a) (lowerConst isMeta b)
  | .mul a b => mkBin .product (lowerConst isMeta a) (lowerConst isMeta b)
  | .eq a b => mkBin .eq (lowerConst isMeta a) (lowerConst isMeta b)
  | .neq a b => mkBin .notEq (lowerConst isMeta a) (lowerConst isMeta b)
  | .lt a b => mkBin .lt (lowerConst isMeta a) (lowerConst isMeta b)
  | .gt a b => mkBin .gt (lowerConst isMeta a) (lowerConst isMeta b)
  | .le a b => mkBin .le (lowerConst isMeta a) (lowerConst isMeta b)
  | .ge a b => mkBin .ge (lowerConst isMeta a) (lowerConst isMeta b)
  | .div a b => mkBin .div (lowerConst isMeta a) (lowerConst isMeta b)
  | .mod a b => mkBin .mod (lowerConst isMeta a) (lowerConst isMeta b)
  | .and a b => mkBin .logicalAnd (lowerConst isMeta a) (lowerConst isMeta b)
  | .or a b => mkBin .logicalOr (lowerConst isMeta a) (lowerConst isMeta b)
  | .xor a b => mkBin .logicalXor (lowerConst isMeta a) (lowerConst isMeta b)
  | .neg a => (lowerConst isMeta a).map (fun a => .bin .difference (.int 0) a)
  | .not a => (lowerConst isMeta a).map .logicalNot
  | .intBits a => (lowerConst isMeta a).map .intBitsFor
  | .uintBits a => (lowerConst isMeta a).map .uintBitsFor
  | .paren a => lowerConst isMeta a

/-- Models `visit_const_generic` of type inference, `spade-typeinference/src/lib.rs:2847-2903`. `gl`
is the generic list: the type variable of each generic parameter. -/
def toConstraint (gl : String → Option Nat) : CG → Option CE
  | .name n => (gl n).map .var
  | .bool b => some (.bool b)
  | .int i => some (.int i)
  | .str s => some (.str s)
  | .bin op a b =>
    match toConstraint gl a, toConstraint gl b with
    | some a, some b => some (.bin op a b)
    | _, _ => none
  | .logicalNot a => (toConstraint gl a).map .logicalNot
  | .intBitsFor a => (toConstraint gl a).map .intBits
  | .uintBitsFor a => (toConstraint gl a).map .uintBits

/-- What a type variable resolves to, as far as `evaluate` cares: a type-level value, the error
type, any other known type, or unknown. -/
inductive VState where
  | int (i : Int)
  | bool (b : Bool)
  | str (s : String)
  | error
  | otherKnown
  | unknown
  deriving DecidableEq, Repr

/-- Models `BigInt::bits`: the number of bits of the magnitude, `0` for zero. -/
def bigBits (v : Int) : Nat := if v.natAbs = 0 then 0 else v.natAbs.log2 + 1

/-- Models the closures passed to `int_binop` and `bool_binop` and the comparisons in `evaluate`,
`constraints.rs:209-277`. `some none` leaves the expression as it is; `none` is a panic
(`BigInt` division by zero). -/
def applyOp (op : COp) (l r : CE) : Option (Option CE) :=
  match op, l, r with
  | .sum, .int l, .int r => some (some (.int (l + r)))
  | .difference, .int l, .int r => some (some (.int (l - r)))
  | .product, .int l, .int r => some (some (.int (l * r)))
  | .div, .int l, .int r => if r = 0 then none else some (some (.int (Int.tdiv l r)))
  | .mod, .int l, .int r => if r = 0 then none else some (some (.int (Int.tmod l r)))
  | .eq, .bool l, .bool r => some (some (.bool (l == r)))
  | .eq, .int l, .int r => some (some (.bool (l == r)))
  | .eq, .str l, .str r => some (some (.bool (l == r)))
  | .notEq, .bool l, .bool r => some (some (.bool (l != r)))
  | .notEq, .int l, .int r => some (some (.bool (l != r)))
  | .notEq, .str l, .str r => some (some (.bool (l != r)))
  | .lt, .int l, .int r => some (some (.bool (decide (l < r))))
  | .gt, .int l, .int r => some (some (.bool (decide (l > r))))
  | .le, .int l, .int r => some (some (.bool (decide (l ≤ r))))
  | .ge, .int l, .int r => some (some (.bool (decide (l ≥ r))))
  | .logicalAnd, .bool l, .bool r => some (some (.bool (l && r)))
  | .logicalOr, .bool l, .bool r => some (some (.bool (l || r)))
  | .logicalXor, .bool l, .bool r => some (some (.bool (l != r)))
  | _, _, _ => some none

/-- Models `ConstraintExpr::evaluate`, `constraints.rs:169-296`. `K` is what each variable resolves
to; `none` is a panic. -/
def evaluate (K : Nat → VState) : CE → Option CE
  | .int i => some (.int i)
  | .bool b => some (.bool b)
  | .str s => some (.str s)
  | .var v =>
    match K v with
    | .int i => some (.int i)
    | .bool b => some (.bool b)
    | .str s => some (.str s)
    | .error => some (.var v)
    | .otherKnown => none
    | .unknown => some (.var v)
  | .bin op a b =>
    match evaluate K a, evaluate K b with
    | some l, some r =>
      match applyOp op l r with
      | none => none
      | some none => some (.bin op a b)
      | some (some c) => some c
    | _, _ => none
  | .sub a =>
    match evaluate K a with
    | none => none
    | some (.int v) => some (.int (-v))
    | some _ => some (.sub a)
  | .logicalNot a =>
    match evaluate K a with
    | none => none
    | some (.bool v) => some (.bool (!v))
    | some _ => some (.logicalNot a)
  | .intBits a =>
    match evaluate K a with
    | none => none
    | some (.int v) =>
      some (.int (((if v < 0 then bigBits (-v - 1) else bigBits v) : Int) + 1))
    | some _ => some (.intBits a)
  | .uintBits a =>
    match evaluate K a with
    | none => none
    | some (.int v) => some (.int (bigBits v))
    | some _ => some (.uintBits a)

/-- Models the result of one constraint in `update_type_level_value_constraints`,
`constraints.rs:431-495`: a literal becomes newly known information, anything else is kept. -/
def solved : CE → Option Val
  | .int i => some (.int i)
  | .bool b => some (.bool b)
  | .str s => some (.str s)
  | _ => none

/-- Models `update_type_level_value_constraints`, `constraints.rs:422-499`: the constraints that are
kept (simplified) and the newly known variables. -/
def updateConstraints (K : Nat → VState) :
    List (Nat × CE) → Option (List (Nat × CE) × List (Nat × Val))
  | [] => some ([], [])
  | (v, c) :: cs =>
    match evaluate K c with
    | none => none
    | some c' =>
      match updateConstraints K cs with
      | none => none
      | some (rest, known) =>
        match solved c' with
        | some w => some (rest, (v, w) :: known)
        | none => some ((v, c') :: rest, known)

theorem beq_decide {α : Type} [DecidableEq α] (a b : α) : (a == b) = decide (a = b) := by
  by_cases h : a = b <;> simp [h]

/-! ## Bit widths -/

theorem bigBits_le (v : Int) (k : Nat) : bigBits v ≤ k ↔ v.natAbs < 2 ^ k := by
  unfold bigBits
  split
  next h => simp [h, Nat.two_pow_pos]
  next h => rw [Nat.succ_le_iff, Nat.log2_lt h]

theorem exists_toInt_iff (v : Int) (n : Nat) : (∃ b : BitVec (n + 1), b.toInt = v) ↔
    -2 ^ n ≤ v ∧ v < 2 ^ n := by
  constructor
  · rintro ⟨b, rfl⟩
    exact ⟨by simpa using BitVec.le_toInt b, by simpa using BitVec.toInt_lt (x := b)⟩
  · rintro ⟨h1, h2⟩
    exact ⟨BitVec.ofInt _ v, BitVec.toInt_ofInt_eq_self (Nat.succ_pos _) (by simpa using h1)
      (by simpa using h2)⟩

theorem exists_toNat_iff (v : Int) (n : Nat) : (∃ b : BitVec n, (b.toNat : Int) = v) ↔
    0 ≤ v ∧ v < 2 ^ n := by
  constructor
  · rintro ⟨b, rfl⟩
    refine ⟨Int.natCast_nonneg _, ?_⟩
    have := b.isLt
    have h : ((b.toNat : Nat) : Int) < ((2 ^ n : Nat) : Int) := by exact_mod_cast this
    simpa using h
  · rintro ⟨h1, h2⟩
    obtain ⟨m, rfl⟩ := Int.eq_ofNat_of_zero_le h1
    have h : m < 2 ^ n := by
      have : ((m : Nat) : Int) < ((2 ^ n : Nat) : Int) := by simpa using h2
      exact_mod_cast this
    exact ⟨BitVec.ofNat n m, by simp [Nat.mod_eq_of_lt h]⟩

theorem natAbs_lt_pow (v : Int) (n : Nat) (h : 0 ≤ v) : v.natAbs < 2 ^ n ↔ v < 2 ^ n := by
  have h1 : ((v.natAbs : Nat) : Int) = v := Int.natAbs_of_nonneg h
  constructor
  · intro h2
    have : ((v.natAbs : Nat) : Int) < ((2 ^ n : Nat) : Int) := by exact_mod_cast h2
    rw [h1] at this
    simpa using this
  · intro h2
    have : ((v.natAbs : Nat) : Int) < ((2 ^ n : Nat) : Int) := by rw [h1]; simpa using h2
    exact_mod_cast this

theorem leastInt_unique {v : Int} {n m : Nat} (h : LeastInt v n) (h' : LeastInt v m) : n = m :=
  Nat.le_antisymm (h.2 m h'.1) (h'.2 n h.1)

theorem leastUint_unique {v : Int} {n m : Nat} (h : LeastUint v n) (h' : LeastUint v m) : n = m :=
  Nat.le_antisymm (h.2 m h'.1) (h'.2 n h.1)

/-- The width computed for `int::bits_for`. -/
def intWidth (v : Int) : Nat := (if v < 0 then bigBits (-v - 1) else bigBits v) + 1

theorem intWidth_fits (v : Int) (n : Nat) :
    intWidth v ≤ n + 1 ↔ ∃ b : BitVec (n + 1), b.toInt = v := by
  rw [exists_toInt_iff]
  unfold intWidth
  have hp : (0 : Int) < 2 ^ n := Int.pow_pos (by decide)
  split
  next h =>
    rw [Nat.add_le_add_iff_right, bigBits_le, natAbs_lt_pow _ _ (by omega)]
    omega
  next h =>
    rw [Nat.add_le_add_iff_right, bigBits_le, natAbs_lt_pow _ _ (by omega)]
    omega

/-- C20: `int::bits_for` gives the least width at which a nonzero number can be represented. -/
theorem C20_int_bits_least_partial (v : Int) (hv : v ≠ 0) : LeastInt v (intWidth v) := by
  have h1 : intWidth v = (intWidth v - 1) + 1 := by unfold intWidth; omega
  refine ⟨?_, ?_⟩
  · rw [h1]
    exact (intWidth_fits v _).1 (by omega)
  · intro m hm
    cases m with
    | zero =>
      obtain ⟨b, rfl⟩ := hm
      exact absurd (BitVec.toInt_zero_length b) hv
    | succ m => exact (intWidth_fits v m).2 hm

/-- C20, the part that fails: `int::bits_for(0)` is `1`, but `0` already fits in `int<0>`. -/
theorem C20_counterexample_int_bits_zero :
    evaluate (fun _ => .unknown) (.intBits (.int 0)) = some (.int 1) ∧ LeastInt 0 0 := by
  exact ⟨by decide, ⟨0#0, rfl⟩, fun m _ => Nat.zero_le m⟩

/-- C20: `uint::bits_for` gives the least width at which a nonnegative number can be represented. -/
theorem C20_uint_bits_least_partial (v : Int) (hv : 0 ≤ v) : LeastUint v (bigBits v) := by
  refine ⟨?_, ?_⟩
  · rw [exists_toNat_iff]
    exact ⟨hv, (natAbs_lt_pow v _ hv).1 ((bigBits_le v _).1 (Nat.le_refl _))⟩
  · intro m hm
    rw [exists_toNat_iff] at hm
    exact (bigBits_le v m).2 ((natAbs_lt_pow v m hv).2 hm.2)

/-- C20, the part that fails: `uint::bits_for(-1)` is `1`, but no width represents `-1`. -/
theorem C20_counterexample_uint_bits_negative :
    evaluate (fun _ => .unknown) (.uintBits (.int (-1))) = some (.int 1) ∧
    ∀ n, ¬ LeastUint (-1) n := by
  refine ⟨by decide, ?_⟩
  rintro n ⟨⟨b, hb⟩, _⟩
  have := Int.natCast_nonneg b.toNat
  omega

/-! ## Values -/

/-- The literal of a value; types have none. -/
def lit : Val → Option CE
  | .int i => some (.int i)
  | .bool b => some (.bool b)
  | .str s => some (.str s)
  | .type _ => none

/-- What a variable known to be a value resolves to. -/
def VState.ofVal : Val → VState
  | .int i => .int i
  | .bool b => .bool b
  | .str s => .str s
  | .type _ => .otherKnown

/-- The generic list and the inference state agree with the values `ρ` of the generic parameters:
a parameter without a value yet is unknown or in error. -/
def EnvAgrees (gl : String → Option Nat) (K : Nat → VState) (ρ : String → Option Val) : Prop :=
  ∀ n v, gl n = some v →
    (ρ n = none ∧ (K v = .unknown ∨ K v = .error)) ∨
    (∃ w, ρ n = some w ∧ (∀ l, w ≠ .type l) ∧ K v = .ofVal w)

/-- No `int::bits_for(0)` and no `uint::bits_for` of a negative number occurs in the expression. -/
def Careful (ρ : String → Option Val) : TExpr → Prop
  | .add a b | .sub a b | .mul a b | .div a b | .mod a b | .eq a b | .neq a b | .lt a b | .gt a b
  | .le a b | .ge a b | .and a b | .or a b | .xor a b => Careful ρ a ∧ Careful ρ b
  | .neg a | .not a | .paren a => Careful ρ a
  | .intBits a => Careful ρ a ∧ ¬ Value ρ a (.int 0)
  | .uintBits a => Careful ρ a ∧ ∀ v, v < 0 → ¬ Value ρ a (.int v)
  | _ => True

theorem solved_eq_some {c : CE} {w : Val} : solved c = some w ↔ lit w = some c := by
  cases c <;> cases w <;> simp [solved, lit, eq_comm]

/-- `evaluate` of a compound expression, seen through `solved`. -/
def evalVal (K : Nat → VState) (c : CE) : Option Val := (evaluate K c).bind solved

theorem evaluate_lit {K : Nat → VState} {c : CE} {w : Val} :
    evalVal K c = some w ↔ ∃ c', lit w = some c' ∧ evaluate K c = some c' := by
  unfold evalVal
  cases h : evaluate K c with
  | none => simp
  | some c' =>
    simp only [Option.bind_some, solved_eq_some]
    constructor
    · intro h1; exact ⟨c', h1, rfl⟩
    · rintro ⟨_, h1, h2⟩; cases h2; exact h1

/-- The value of an operation on values. -/
def opVal : COp → Val → Val → Option Val
  | .sum, .int l, .int r => some (.int (l + r))
  | .difference, .int l, .int r => some (.int (l - r))
  | .product, .int l, .int r => some (.int (l * r))
  | .div, .int l, .int r => if r = 0 then none else some (.int (Int.tdiv l r))
  | .mod, .int l, .int r => if r = 0 then none else some (.int (Int.tmod l r))
  | .eq, .bool l, .bool r => some (.bool (l == r))
  | .eq, .int l, .int r => some (.bool (l == r))
  | .eq, .str l, .str r => some (.bool (l == r))
  | .notEq, .bool l, .bool r => some (.bool (l != r))
  | .notEq, .int l, .int r => some (.bool (l != r))
  | .notEq, .str l, .str r => some (.bool (l != r))
  | .lt, .int l, .int r => some (.bool (decide (l < r)))
  | .gt, .int l, .int r => some (.bool (decide (l > r)))
  | .le, .int l, .int r => some (.bool (decide (l ≤ r)))
  | .ge, .int l, .int r => some (.bool (decide (l ≥ r)))
  | .logicalAnd, .bool l, .bool r => some (.bool (l && r))
  | .logicalOr, .bool l, .bool r => some (.bool (l || r))
  | .logicalXor, .bool l, .bool r => some (.bool (l != r))
  | _, _, _ => none

theorem applyOp_solved (op : COp) (l r : CE) :
    (applyOp op l r = some none ∧ ((solved l).bind fun x => (solved r).bind (opVal op x)) = none) ∨
    (applyOp op l r = none ∧ ((solved l).bind fun x => (solved r).bind (opVal op x)) = none) ∨
    ∃ c, applyOp op l r = some (some c) ∧ solved c ≠ none ∧
      ((solved l).bind fun x => (solved r).bind (opVal op x)) = solved c := by
  cases op <;> cases l <;> cases r <;> first
    | exact Or.inl ⟨rfl, rfl⟩
    | exact Or.inr (Or.inr ⟨_, rfl, by simp [solved], rfl⟩)
    | (simp only [applyOp, opVal, solved, Option.bind_some]
       split <;> simp [solved])

theorem evalVal_bin (K : Nat → VState) (op : COp) (a b : CE) :
    evalVal K (.bin op a b) =
      ((evalVal K a).bind fun x => (evalVal K b).bind (opVal op x)) := by
  unfold evalVal
  simp only [evaluate]
  cases ha : evaluate K a with
  | none => simp
  | some l =>
    cases hb : evaluate K b with
    | none => cases hl : solved l <;> simp [hl]
    | some r =>
      simp only [Option.bind_some]
      rcases applyOp_solved op l r with ⟨h1, h2⟩ | ⟨h1, h2⟩ | ⟨c, h1, h2, h3⟩
      · rw [h1, h2]; rfl
      · rw [h1, h2]; rfl
      · rw [h1, h3]; rfl

theorem evalVal_not (K : Nat → VState) (a : CE) :
    evalVal K (.logicalNot a) =
      (evalVal K a).bind (fun | .bool b => some (.bool (!b)) | _ => none) := by
  unfold evalVal
  simp only [evaluate]
  cases ha : evaluate K a with
  | none => rfl
  | some l => cases l <;> rfl

theorem evalVal_intBits (K : Nat → VState) (a : CE) :
    evalVal K (.intBits a) =
      (evalVal K a).bind (fun | .int v => some (.int (intWidth v)) | _ => none) := by
  unfold evalVal
  simp only [evaluate]
  cases ha : evaluate K a with
  | none => rfl
  | some l =>
    cases l <;> try rfl
    next v =>
      simp only [Option.bind_some, solved, intWidth]
      split <;> simp

theorem evalVal_uintBits (K : Nat → VState) (a : CE) :
    evalVal K (.uintBits a) =
      (evalVal K a).bind (fun | .int v => some (.int (bigBits v)) | _ => none) := by
  unfold evalVal
  simp only [evaluate]
  cases ha : evaluate K a with
  | none => rfl
  | some l => cases l <;> rfl

theorem lower_bin {isMeta gl op a b c}
    (h : (mkBin op (lowerConst isMeta a) (lowerConst isMeta b)).bind (toConstraint gl) = some c) :
    ∃ ca cb, (lowerConst isMeta a).bind (toConstraint gl) = some ca ∧
      (lowerConst isMeta b).bind (toConstraint gl) = some cb ∧ c = .bin op ca cb := by
  unfold mkBin at h
  cases ha : lowerConst isMeta a with
  | none => simp [ha] at h
  | some a' =>
    cases hb : lowerConst isMeta b with
    | none => simp [ha, hb] at h
    | some b' =>
      simp only [ha, hb, Option.bind_some, toConstraint] at h
      cases ha' : toConstraint gl a' with
      | none => simp [ha'] at h
      | some ca =>
        cases hb' : toConstraint gl b' with
        | none => simp [ha', hb'] at h
        | some cb =>
          simp only [ha', hb', Option.some.injEq] at h
          exact ⟨ca, cb, by simp [ha'], by simp [hb'], h.symm⟩

theorem lower_map {isMeta gl a c} {f : CG → CG} {g : CE → CE}
    (hfg : ∀ x, toConstraint gl (f x) = (toConstraint gl x).map g)
    (h : ((lowerConst isMeta a).map f).bind (toConstraint gl) = some c) :
    ∃ ca, (lowerConst isMeta a).bind (toConstraint gl) = some ca ∧ c = g ca := by
  cases ha : lowerConst isMeta a with
  | none => simp [ha] at h
  | some a' =>
    simp only [ha, Option.map_some, Option.bind_some, hfg] at h
    cases ha' : toConstraint gl a' with
    | none => simp [ha'] at h
    | some ca =>
      simp only [ha', Option.map_some, Option.some.injEq] at h
      exact ⟨ca, by simp [ha'], h.symm⟩

theorem bind2_eq_some {x y : Option Val} {op : COp} {w : Val} :
    (x.bind fun a => y.bind (opVal op a)) = some w ↔
      ∃ a b, x = some a ∧ y = some b ∧ opVal op a b = some w := by
  cases x <;> cases y <;> simp

/-- C20 (what holds of it): a type-level expression evaluates to a literal exactly when it has that
value mathematically, for every expression, every state of inference and every assignment of values
to generic parameters, provided the expression contains no `int::bits_for(0)` and no
`uint::bits_for` of a negative number. -/
theorem C20_value_partial (isMeta : String → Bool) (gl : String → Option Nat) (K : Nat → VState)
    (ρ : String → Option Val) (henv : EnvAgrees gl K ρ) (e : TExpr) (hc : Careful ρ e) (c : CE)
    (hl : (lowerConst isMeta e).bind (toConstraint gl) = some c) (w : Val)
    (hw : ∀ l, w ≠ .type l) :
    evalVal K c = some w ↔ Value ρ e w := by
  have bin : ∀ {op : COp} {a b : TExpr} {c : CE},
      (∀ {c}, (lowerConst isMeta a).bind (toConstraint gl) = some c → ∀ w, (∀ l, w ≠ .type l) →
        (evalVal K c = some w ↔ Value ρ a w)) →
      (∀ {c}, (lowerConst isMeta b).bind (toConstraint gl) = some c → ∀ w, (∀ l, w ≠ .type l) →
        (evalVal K c = some w ↔ Value ρ b w)) →
      (mkBin op (lowerConst isMeta a) (lowerConst isMeta b)).bind (toConstraint gl) = some c → ∀ w,
      (evalVal K c = some w ↔ ∃ x y, (∀ l, x ≠ .type l) ∧ (∀ l, y ≠ .type l) ∧ Value ρ a x ∧
        Value ρ b y ∧ opVal op x y = some w) := by
    intro op a b c iha ihb h w
    obtain ⟨ca, cb, h1, h2, rfl⟩ := lower_bin h
    have hnt : ∀ (c : CE) (x : Val), evalVal K c = some x → ∀ l, x ≠ .type l := by
      intro c x hx l hl
      subst hl
      obtain ⟨c', h1, _⟩ := evaluate_lit.1 hx
      simp [lit] at h1
    rw [evalVal_bin, bind2_eq_some]
    constructor
    · rintro ⟨x, y, hx, hy, ho⟩
      exact ⟨x, y, hnt _ _ hx, hnt _ _ hy, (iha h1 x (hnt _ _ hx)).1 hx,
        (ihb h2 y (hnt _ _ hy)).1 hy, ho⟩
    · rintro ⟨x, y, hx, hy, vx, vy, ho⟩
      exact ⟨x, y, (iha h1 x hx).2 vx, (ihb h2 y hy).2 vy, ho⟩
  have un : ∀ {a : TExpr} {c ca : CE} {f : Val → Option Val},
      (∀ {c}, (lowerConst isMeta a).bind (toConstraint gl) = some c → ∀ w, (∀ l, w ≠ .type l) →
        (evalVal K c = some w ↔ Value ρ a w)) →
      (lowerConst isMeta a).bind (toConstraint gl) = some ca →
      evalVal K c = (evalVal K ca).bind f → ∀ w,
      (evalVal K c = some w ↔ ∃ x, (∀ l, x ≠ .type l) ∧ Value ρ a x ∧ f x = some w) := by
    intro a c ca f iha h hev w
    have hnt : ∀ (c : CE) (x : Val), evalVal K c = some x → ∀ l, x ≠ .type l := by
      intro c x hx l hl
      subst hl
      obtain ⟨c', h1, _⟩ := evaluate_lit.1 hx
      simp [lit] at h1
    rw [hev, Option.bind_eq_some_iff]
    constructor
    · rintro ⟨x, hx, ho⟩
      exact ⟨x, hnt _ _ hx, (iha h x (hnt _ _ hx)).1 hx, ho⟩
    · rintro ⟨x, hx, vx, ho⟩
      exact ⟨x, (iha h x hx).2 vx, ho⟩
  have it : ∀ i l, Val.int i ≠ .type l := by intro i l h; cases h
  have bt : ∀ i l, Val.bool i ≠ .type l := by intro i l h; cases h
  have st : ∀ i l, Val.str i ≠ .type l := by intro i l h; cases h
  induction e generalizing c w with
  | name n =>
    simp only [lowerConst] at hl
    split at hl
    · simp only [Option.bind_some, toConstraint] at hl
      cases hg : gl n with
      | none => simp [hg] at hl
      | some v =>
        simp only [hg, Option.map_some, Option.some.injEq] at hl
        subst hl
        have hv : Value ρ (.name n) w ↔ ρ n = some w :=
          ⟨fun h => by cases h; assumption, .name⟩
        rw [hv]
        rcases henv n v hg with ⟨h1, h2 | h2⟩ | ⟨w', h1, h2, h3⟩
        · simp [evalVal, evaluate, h1, h2, solved]
        · simp [evalVal, evaluate, h1, h2, solved]
        · rw [h1]
          cases w' with
          | type l => exact absurd rfl (h2 l)
          | int i => simp [evalVal, evaluate, h3, VState.ofVal, solved]
          | bool i => simp [evalVal, evaluate, h3, VState.ofVal, solved]
          | str i => simp [evalVal, evaluate, h3, VState.ofVal, solved]
    · simp at hl
  | bool b =>
    simp only [lowerConst, Option.bind_some, toConstraint, Option.some.injEq] at hl
    subst hl
    simp only [evalVal, evaluate, Option.bind_some, solved, Option.some.injEq]
    exact ⟨fun h => h ▸ .bool, fun h => by cases h; rfl⟩
  | int b =>
    simp only [lowerConst, Option.bind_some, toConstraint, Option.some.injEq] at hl
    subst hl
    simp only [evalVal, evaluate, Option.bind_some, solved, Option.some.injEq]
    exact ⟨fun h => h ▸ .int, fun h => by cases h; rfl⟩
  | str b =>
    simp only [lowerConst, Option.bind_some, toConstraint, Option.some.injEq] at hl
    subst hl
    simp only [evalVal, evaluate, Option.bind_some, solved, Option.some.injEq]
    exact ⟨fun h => h ▸ .str, fun h => by cases h; rfl⟩
  | add a b iha ihb =>
    rw [bin (fun h => iha hc.1 _ h) (fun h => ihb hc.2 _ h) hl]
    constructor
    · rintro ⟨x, y, -, -, hx, hy, ho⟩
      cases x <;> cases y <;> simp [opVal] at ho
      subst ho; exact .add hx hy
    · intro h; cases h with | add hx hy => exact ⟨_, _, it _, it _, hx, hy, rfl⟩
  | sub a b iha ihb =>
    rw [bin (fun h => iha hc.1 _ h) (fun h => ihb hc.2 _ h) hl]
    constructor
    · rintro ⟨x, y, -, -, hx, hy, ho⟩
      cases x <;> cases y <;> simp [opVal] at ho
      subst ho; exact .sub hx hy
    · intro h; cases h with | sub hx hy => exact ⟨_, _, it _, it _, hx, hy, rfl⟩
  | mul a b iha ihb =>
    rw [bin (fun h => iha hc.1 _ h) (fun h => ihb hc.2 _ h) hl]
    constructor
    · rintro ⟨x, y, -, -, hx, hy, ho⟩
      cases x <;> cases y <;> simp [opVal] at ho
      subst ho; exact .mul hx hy
    · intro h; cases h with | mul hx hy => exact ⟨_, _, it _, it _, hx, hy, rfl⟩
  | div a b iha ihb =>
    rw [bin (fun h => iha hc.1 _ h) (fun h => ihb hc.2 _ h) hl]
    constructor
    · rintro ⟨x, y, -, -, hx, hy, ho⟩
      cases x <;> cases y <;> simp [opVal] at ho
      obtain ⟨h0, ho⟩ := ho
      subst ho; exact .div hx hy h0
    · intro h
      cases h with
      | div hx hy h0 => exact ⟨_, _, it _, it _, hx, hy, by simp [opVal, h0]⟩
  | mod a b iha ihb =>
    rw [bin (fun h => iha hc.1 _ h) (fun h => ihb hc.2 _ h) hl]
    constructor
    · rintro ⟨x, y, -, -, hx, hy, ho⟩
      cases x <;> cases y <;> simp [opVal] at ho
      obtain ⟨h0, ho⟩ := ho
      subst ho; exact .mod hx hy h0
    · intro h
      cases h with
      | mod hx hy h0 => exact ⟨_, _, it _, it _, hx, hy, by simp [opVal, h0]⟩
  | eq a b iha ihb =>
    rw [bin (fun h => iha hc.1 _ h) (fun h => ihb hc.2 _ h) hl]
    constructor
    · rintro ⟨x, y, -, -, hx, hy, ho⟩
      cases x <;> cases y <;> simp [opVal] at ho
      all_goals
        subst ho
        have := Value.eq hx hy trivial
        simpa [beq_decide] using this
    · intro h
      cases h with
      | @eq _ _ x y hx hy hs =>
        cases x <;> cases y <;> simp only [SameSort] at hs
        · exact ⟨_, _, it _, it _, hx, hy, by simp [opVal, beq_decide]⟩
        · exact ⟨_, _, bt _, bt _, hx, hy, by simp [opVal, beq_decide]⟩
        · exact ⟨_, _, st _, st _, hx, hy, by simp [opVal, beq_decide]⟩
  | neq a b iha ihb =>
    rw [bin (fun h => iha hc.1 _ h) (fun h => ihb hc.2 _ h) hl]
    constructor
    · rintro ⟨x, y, -, -, hx, hy, ho⟩
      cases x <;> cases y <;> simp [opVal] at ho
      all_goals
        subst ho
        have := Value.neq hx hy trivial
        simpa [bne, beq_decide] using this
    · intro h
      cases h with
      | @neq _ _ x y hx hy hs =>
        cases x <;> cases y <;> simp only [SameSort] at hs
        · exact ⟨_, _, it _, it _, hx, hy, by simp [opVal, bne, beq_decide]⟩
        · exact ⟨_, _, bt _, bt _, hx, hy, by simp [opVal, bne, beq_decide]⟩
        · exact ⟨_, _, st _, st _, hx, hy, by simp [opVal, bne, beq_decide]⟩
  | lt a b iha ihb =>
    rw [bin (fun h => iha hc.1 _ h) (fun h => ihb hc.2 _ h) hl]
    constructor
    · rintro ⟨x, y, -, -, hx, hy, ho⟩
      cases x <;> cases y <;> simp [opVal] at ho
      subst ho; exact .lt hx hy
    · intro h; cases h with | lt hx hy => exact ⟨_, _, it _, it _, hx, hy, rfl⟩
  | gt a b iha ihb =>
    rw [bin (fun h => iha hc.1 _ h) (fun h => ihb hc.2 _ h) hl]
    constructor
    · rintro ⟨x, y, -, -, hx, hy, ho⟩
      cases x <;> cases y <;> simp [opVal] at ho
      subst ho; exact .gt hx hy
    · intro h; cases h with | gt hx hy => exact ⟨_, _, it _, it _, hx, hy, rfl⟩
  | le a b iha ihb =>
    rw [bin (fun h => iha hc.1 _ h) (fun h => ihb hc.2 _ h) hl]
    constructor
    · rintro ⟨x, y, -, -, hx, hy, ho⟩
      cases x <;> cases y <;> simp [opVal] at ho
      subst ho; exact .le hx hy
    · intro h; cases h with | le hx hy => exact ⟨_, _, it _, it _, hx, hy, rfl⟩
  | ge a b iha ihb =>
    rw [bin (fun h => iha hc.1 _ h) (fun h => ihb hc.2 _ h) hl]
    constructor
    · rintro ⟨x, y, -, -, hx, hy, ho⟩
      cases x <;> cases y <;> simp [opVal] at ho
      subst ho; exact .ge hx hy
    · intro h; cases h with | ge hx hy => exact ⟨_, _, it _, it _, hx, hy, rfl⟩
  | and a b iha ihb =>
    rw [bin (fun h => iha hc.1 _ h) (fun h => ihb hc.2 _ h) hl]
    constructor
    · rintro ⟨x, y, -, -, hx, hy, ho⟩
      cases x <;> cases y <;> simp [opVal] at ho
      next p q =>
        have := Value.and hx hy
        subst ho
        cases p <;> cases q <;> simpa using this
    · intro h
      cases h with
      | @and _ _ p q hx hy =>
        exact ⟨_, _, bt _, bt _, hx, hy, by cases p <;> cases q <;> rfl⟩
  | or a b iha ihb =>
    rw [bin (fun h => iha hc.1 _ h) (fun h => ihb hc.2 _ h) hl]
    constructor
    · rintro ⟨x, y, -, -, hx, hy, ho⟩
      cases x <;> cases y <;> simp [opVal] at ho
      next p q =>
        have := Value.or hx hy
        subst ho
        cases p <;> cases q <;> simpa using this
    · intro h
      cases h with
      | @or _ _ p q hx hy =>
        exact ⟨_, _, bt _, bt _, hx, hy, by cases p <;> cases q <;> rfl⟩
  | xor a b iha ihb =>
    rw [bin (fun h => iha hc.1 _ h) (fun h => ihb hc.2 _ h) hl]
    constructor
    · rintro ⟨x, y, -, -, hx, hy, ho⟩
      cases x <;> cases y <;> simp [opVal] at ho
      next p q =>
        have := Value.xor hx hy
        subst ho
        cases p <;> cases q <;> simpa using this
    · intro h
      cases h with
      | @xor _ _ p q hx hy =>
        exact ⟨_, _, bt _, bt _, hx, hy, by cases p <;> cases q <;> rfl⟩
  | neg a iha =>
    obtain ⟨ca, h1, rfl⟩ := lower_map (g := fun x => .bin .difference (.int 0) x) (by
      intro x
      simp only [toConstraint]
      cases toConstraint gl x <;> rfl) hl
    have hev : evalVal K (.bin .difference (.int 0) ca) =
        (evalVal K ca).bind (opVal .difference (.int 0)) := by
      rw [evalVal_bin]; rfl
    rw [un (fun h => iha hc _ h) h1 hev]
    constructor
    · rintro ⟨x, -, hx, ho⟩
      cases x <;> simp [opVal] at ho
      subst ho
      exact .neg hx
    · intro h
      cases h with
      | neg hx => exact ⟨_, it _, hx, by simp [opVal]⟩
  | not a iha =>
    obtain ⟨ca, h1, rfl⟩ := lower_map (g := .logicalNot) (fun _ => rfl) hl
    rw [un (fun h => iha hc _ h) h1 (evalVal_not K ca)]
    constructor
    · rintro ⟨x, -, hx, ho⟩
      cases x <;> simp at ho
      next p =>
        have := Value.not hx
        subst ho
        cases p <;> simpa using this
    · intro h
      cases h with
      | @not _ p hx => exact ⟨_, bt _, hx, by cases p <;> rfl⟩
  | paren a iha =>
    exact (iha hc _ hl w hw).trans ⟨.paren, fun h => by cases h; assumption⟩
  | intBits a iha =>
    obtain ⟨ca, h1, rfl⟩ := lower_map (g := .intBits) (fun _ => rfl) hl
    rw [un (fun h => iha hc.1 _ h) h1 (evalVal_intBits K ca)]
    constructor
    · rintro ⟨x, -, hx, ho⟩
      cases x <;> simp at ho
      next v =>
        subst ho
        exact .intBits hx (C20_int_bits_least_partial v fun h => hc.2 (h ▸ hx))
    · intro h
      cases h with
      | @intBits _ v n hx hn =>
        refine ⟨_, it _, hx, ?_⟩
        have := C20_int_bits_least_partial v fun h => hc.2 (h ▸ hx)
        rw [leastInt_unique hn this]
  | uintBits a iha =>
    obtain ⟨ca, h1, rfl⟩ := lower_map (g := .uintBits) (fun _ => rfl) hl
    rw [un (fun h => iha hc.1 _ h) h1 (evalVal_uintBits K ca)]
    constructor
    · rintro ⟨x, -, hx, ho⟩
      cases x <;> simp at ho
      next v =>
        subst ho
        refine .uintBits hx (C20_uint_bits_least_partial v ?_)
        exact Int.not_lt.1 fun h => hc.2 v h hx
    · intro h
      cases h with
      | @uintBits _ v n hx hn =>
        refine ⟨_, it _, hx, ?_⟩
        have := C20_uint_bits_least_partial v (Int.not_lt.1 fun h => hc.2 v h hx)
        rw [leastUint_unique hn this]

/-- C20, the part that fails: dividing by zero in a type crashes the compiler. -/
theorem C20_counterexample_division_by_zero (K : Nat → VState) :
    evaluate K (.bin .div (.int 1) (.int 0)) = none ∧
    evaluate K (.bin .mod (.int 1) (.int 0)) = none :=
  ⟨rfl, rfl⟩

/-! ## Simplifying early -/

/-- More is known in `K'` than in `K`. -/
def MoreKnown (K K' : Nat → VState) : Prop := ∀ v, K v = .unknown ∨ K' v = K v

theorem evaluate_solved_mono {K K' : Nat → VState} (h : MoreKnown K K') :
    ∀ (c c' : CE), evaluate K c = some c' → solved c' ≠ none → evaluate K' c = some c' := by
  have lits : ∀ {op l r c}, applyOp op l r = some (some c) → solved l ≠ none ∧ solved r ≠ none := by
    intro op l r c h
    cases op <;> cases l <;> cases r <;> first
      | (simp [applyOp] at h; done)
      | exact ⟨by simp [solved], by simp [solved]⟩
  intro c
  induction c with
  | int i => intro c' he _; exact he
  | bool i => intro c' he _; exact he
  | str i => intro c' he _; exact he
  | var v =>
    intro c' he hs
    rcases h v with h1 | h1
    · simp only [evaluate, h1, Option.some.injEq] at he
      subst he
      simp [solved] at hs
    · simp only [evaluate, h1] at he ⊢
      exact he
  | bin op a b iha ihb =>
    intro c' he hs
    simp only [evaluate] at he
    cases ha : evaluate K a with
    | none => simp [ha] at he
    | some l =>
      cases hb : evaluate K b with
      | none => simp [ha, hb] at he
      | some r =>
        simp only [ha, hb] at he
        cases ho : applyOp op l r with
        | none => simp [ho] at he
        | some o =>
          cases o with
          | none =>
            simp only [ho, Option.some.injEq] at he
            subst he
            simp [solved] at hs
          | some c =>
            obtain ⟨h1, h2⟩ := lits ho
            simp only [ho] at he
            simp only [evaluate, iha l ha h1, ihb r hb h2, ho]
            exact he
  | sub a iha =>
    intro c' he hs
    simp only [evaluate] at he
    cases ha : evaluate K a with
    | none => simp [ha] at he
    | some l =>
      rw [ha] at he
      cases l <;> simp at he <;> first
        | (subst he; simp [solved] at hs; done)
        | simp [evaluate, iha _ ha (by simp [solved]), he]
  | logicalNot a iha =>
    intro c' he hs
    simp only [evaluate] at he
    cases ha : evaluate K a with
    | none => simp [ha] at he
    | some l =>
      rw [ha] at he
      cases l <;> simp at he <;> first
        | (subst he; simp [solved] at hs; done)
        | simp [evaluate, iha _ ha (by simp [solved]), he]
  | intBits a iha =>
    intro c' he hs
    simp only [evaluate] at he
    cases ha : evaluate K a with
    | none => simp [ha] at he
    | some l =>
      rw [ha] at he
      cases l <;> simp at he <;> first
        | (subst he; simp [solved] at hs; done)
        | simp [evaluate, iha _ ha (by simp [solved]), he]
  | uintBits a iha =>
    intro c' he hs
    simp only [evaluate] at he
    cases ha : evaluate K a with
    | none => simp [ha] at he
    | some l =>
      rw [ha] at he
      cases l <;> simp at he <;> first
        | (subst he; simp [solved] at hs; done)
        | simp [evaluate, iha _ ha (by simp [solved]), he]

theorem evaluate_lit_or_self {K : Nat → VState} :
    ∀ (c c' : CE), evaluate K c = some c' → solved c' ≠ none ∨ c' = c := by
  intro c
  induction c with
  | int i => intro c' he; simp [evaluate] at he; exact Or.inr he.symm
  | bool i => intro c' he; simp [evaluate] at he; exact Or.inr he.symm
  | str i => intro c' he; simp [evaluate] at he; exact Or.inr he.symm
  | var v =>
    intro c' he
    simp only [evaluate] at he
    cases hv : K v <;> simp [hv] at he <;> subst he <;> simp [solved]
  | bin op a b _ _ =>
    intro c' he
    simp only [evaluate] at he
    cases ha : evaluate K a with
    | none => simp [ha] at he
    | some l =>
      cases hb : evaluate K b with
      | none => simp [ha, hb] at he
      | some r =>
        simp only [ha, hb] at he
        rcases applyOp_solved op l r with ⟨h1, _⟩ | ⟨h1, _⟩ | ⟨c, h1, h2, _⟩
        · simp [h1] at he; exact Or.inr he.symm
        · simp [h1] at he
        · simp [h1] at he; subst he; exact Or.inl h2
  | sub a iha =>
    intro c' he
    simp only [evaluate] at he
    cases ha : evaluate K a with
    | none => simp [ha] at he
    | some l =>
      rw [ha] at he
      cases l <;> simp at he <;> subst he <;> simp [solved]
  | logicalNot a iha =>
    intro c' he
    simp only [evaluate] at he
    cases ha : evaluate K a with
    | none => simp [ha] at he
    | some l =>
      rw [ha] at he
      cases l <;> simp at he <;> subst he <;> simp [solved]
  | intBits a iha =>
    intro c' he
    simp only [evaluate] at he
    cases ha : evaluate K a with
    | none => simp [ha] at he
    | some l =>
      rw [ha] at he
      cases l <;> simp at he <;> subst he <;> simp [solved]
  | uintBits a iha =>
    intro c' he
    simp only [evaluate] at he
    cases ha : evaluate K a with
    | none => simp [ha] at he
    | some l =>
      rw [ha] at he
      cases l <;> simp at he <;> subst he <;> simp [solved]

/-- C20: simplifying an expression while only some of its variables are known changes nothing:
whatever becomes known later, the simplified expression evaluates to what the original one
evaluates to. -/
theorem C20_early_simplification {K K' : Nat → VState} (h : MoreKnown K K') (c c' : CE)
    (he : evaluate K c = some c') : evaluate K' c' = evaluate K' c := by
  rcases evaluate_lit_or_self c c' he with hs | rfl
  · rw [evaluate_solved_mono h c c' he hs]
    cases c' <;> simp [solved] at hs <;> rfl
  · rfl

/-- `K` resolves every variable to a value satisfying every constraint `v = c`. -/
def Satisfies (K : Nat → VState) (cs : List (Nat × CE)) : Prop :=
  ∀ vc ∈ cs, ∃ w, K vc.1 = .ofVal w ∧ evalVal K vc.2 = some w

/-- C20: updating the list of constraints loses and invents nothing: an assignment that extends what
is known satisfies all constraints iff it satisfies the ones that are kept and gives the newly known
variables their reported values. -/
theorem C20_update_preserves_solutions {K K' : Nat → VState} (h : MoreKnown K K')
    (cs : List (Nat × CE)) (rest : List (Nat × CE)) (known : List (Nat × Val))
    (hu : updateConstraints K cs = some (rest, known)) :
    Satisfies K' cs ↔ Satisfies K' rest ∧ ∀ vw ∈ known, K' vw.1 = .ofVal vw.2 := by
  induction cs generalizing rest known with
  | nil =>
    simp only [updateConstraints, Option.some.injEq, Prod.mk.injEq] at hu
    obtain ⟨rfl, rfl⟩ := hu
    simp [Satisfies]
  | cons vc cs ih =>
    obtain ⟨v, c⟩ := vc
    simp only [updateConstraints] at hu
    cases he : evaluate K c with
    | none => simp [he] at hu
    | some c' =>
      cases hr : updateConstraints K cs with
      | none => simp [he, hr] at hu
      | some rk =>
        obtain ⟨rest', known'⟩ := rk
        simp only [he, hr] at hu
        have ih := ih rest' known' hr
        have hearly := C20_early_simplification h c c' he
        have hsplit : ∀ (vc : Nat × CE) l, Satisfies K' (vc :: l) ↔
            (∃ w, K' vc.1 = .ofVal w ∧ evalVal K' vc.2 = some w) ∧ Satisfies K' l := by
          intro vc l; simp [Satisfies]
        cases hs : solved c' with
        | some w =>
          simp only [hs, Option.some.injEq, Prod.mk.injEq] at hu
          obtain ⟨rfl, rfl⟩ := hu
          have hev : evalVal K' c = some w := by
            unfold evalVal
            rw [evaluate_solved_mono h c c' he (by simp [hs])]
            exact hs
          rw [hsplit, ih]
          simp only [hev, Option.some.injEq, List.forall_mem_cons]
          constructor
          · rintro ⟨⟨w', h1, rfl⟩, h2, h3⟩; exact ⟨h2, h1, h3⟩
          · rintro ⟨h2, h1, h3⟩; exact ⟨⟨w, h1, rfl⟩, h2, h3⟩
        | none =>
          simp only [hs, Option.some.injEq, Prod.mk.injEq] at hu
          obtain ⟨rfl, rfl⟩ := hu
          rw [hsplit, hsplit, ih]
          have hev : evalVal K' c' = evalVal K' c := by unfold evalVal; rw [hearly]
          simp only [hev, and_assoc]

/-! ## Examples -/

/-- `int::bits_for(N - 1) + 2 * -M` with `N = 256` and `M = 3`: a width computed from parameters. -/
def exampleExpr : TExpr :=
  .add (.intBits (.sub (.name "N") (.int 1))) (.mul (.int 2) (.paren (.neg (.name "M"))))

def exampleGl : String → Option Nat := fun n => if n = "N" then some 0 else if n = "M" then some 1 else none
def exampleK : Nat → VState := fun v => if v = 0 then .int 256 else .int 3
def exampleRho : String → Option Val := fun n =>
  if n = "N" then some (.int 256) else if n = "M" then some (.int 3) else none

example : EnvAgrees exampleGl exampleK exampleRho := by
  intro n v h
  right
  simp only [exampleGl] at h
  split at h
  next hn => cases h; exact ⟨.int 256, by simp [exampleRho, hn], (by intro l h; cases h), rfl⟩
  next hn =>
    split at h
    next hm =>
      cases h
      exact ⟨.int 3, by subst hm; decide, (by intro l h; cases h), rfl⟩
    next => cases h

example : Careful exampleRho exampleExpr := by
  refine ⟨⟨⟨trivial, trivial⟩, ?_⟩, trivial, trivial⟩
  intro h
  generalize hz : Val.int 0 = z at h
  cases h with
  | @sub _ _ x y h1 h2 =>
    cases h1 with
    | name h1 =>
      cases h2
      simp only [exampleRho, if_true, Option.some.injEq, Val.int.injEq] at h1
      simp only [Val.int.injEq] at hz
      omega

example : ((lowerConst (fun _ => true) exampleExpr).bind (toConstraint exampleGl)).bind (evalVal exampleK) =
    some (.int 3) := by decide

/-- A constraint that is solved and one that has to wait for an unknown variable. -/
example : updateConstraints (fun v => if v = 0 then .int 256 else .unknown)
    [(5, .bin .sum (.var 0) (.int 1)), (6, .bin .product (.var 0) (.var 1))] =
    some ([(6, .bin .product (.var 0) (.var 1))], [(5, .int 257)]) := by decide

end Spade.Infer

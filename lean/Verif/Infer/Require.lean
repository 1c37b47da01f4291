import Verif.Infer.Const

/-!
# Requirements on literals, ranges and stage references (C21, C22)

Model of `Requirement::check`, `/repo/spade-typeinference/src/requirements.rs:329-600`, for the
requirements about integers, of the type inference code that creates them
(`/repo/spade-typeinference/src/expression.rs:97-169, 186-221, 632-676`), and of the part of
lowering that looks at ranges again (`/repo/spade-hir-lowering/src/lib.rs:1717-1745`).
-/

namespace Spade.Infer

/-- Models `Result<RequirementResult>`: satisfied, not decidable yet, or an error. -/
inductive RResult where
  | satisfied
  | noChange
  | error
  deriving DecidableEq, Repr

/-- The names of types that integer literals distinguish. -/
inductive TName where
  | int | uint | other
  deriving DecidableEq, Repr

/-- What a literal's target type resolves to: a named type with its parameters (resolved), some
other known type, the error type, or unknown. -/
inductive Target where
  | named (name : TName) (params : List VState)
  | otherKnown
  | error
  | unknown
  deriving DecidableEq, Repr

/-- Models `ConstantInt`, `requirements.rs:30-45`: a literal, or a generic parameter (resolved). -/
inductive CInt where
  | lit (v : Int)
  | generic (v : VState)
  deriving DecidableEq, Repr

/-- Models `BigInt::to_u32`. -/
def toU32 (v : Int) : Option Nat := if 0 ≤ v ∧ v < 4294967296 then some v.toNat else none

/-- Models the range check of `FitsIntLiteral`, `requirements.rs:387-432`: `size` is already known
to fit in 32 bits. `checked_sub` on `BigInt` always succeeds. -/
def fitsRange (unsigned : Bool) (size : Nat) (value : Int) : RResult :=
  if value = 0 then .satisfied
  else
    let range : Int × Int :=
      if unsigned then (0, 2 ^ size - 1) else (-2 ^ (size - 1), 2 ^ (size - 1) - 1)
    if value < range.1 ∨ value > range.2 then .error else .satisfied

/-- Models `Requirement::FitsIntLiteral`, `requirements.rs:329-439`. -/
def checkFits (value : CInt) (target : Target) : RResult :=
  match target with
  | .named name params =>
    match name with
    | .other => .error
    | _ =>
      match params with
      | [p] =>
        match p with
        | .int size =>
          match toU32 size with
          | none => .error
          | some size =>
            match value with
            | .lit v => fitsRange (name == .uint) size v
            | .generic (.int v) => fitsRange (name == .uint) size v
            | .generic .unknown => .noChange
            | .generic _ => .error
        | .unknown => .noChange
        | .error => .noChange
        | _ => .error
      | _ => .error
  | .otherKnown => .error
  | .error => .noChange
  | .unknown => .noChange

/-- Models `Requirement::RangeIndexEndAfterStart`, `requirements.rs:456-485`. -/
def checkEndAfterStart (start stop : VState) : RResult :=
  match start, stop with
  | .int s, .int e => if s > e then .error else .satisfied
  | .unknown, _ => .noChange
  | _, .unknown => .noChange
  | _, _ => .error

/-- Models `Requirement::RangeIndexInArray`, `requirements.rs:486-515`. -/
def checkInArray (index size : VState) : RResult :=
  match index, size with
  | .int i, .int n => if i > n then .error else .satisfied
  | .unknown, _ => .noChange
  | _, .unknown => .noChange
  | _, _ => .error

/-- Models `BigInt::to_biguint`. -/
def toBigUint (v : Int) : Option Nat := if 0 ≤ v then some v.toNat else none

/-- The fate of a range index `target[start..stop]` on an array of `size` elements once everything
is known: the two requirements of `visit_range_index`
(`spade-typeinference/src/expression.rs:652-667`; an absent start is `0`, an absent end is the
array's size), then the conversions in lowering (`spade-hir-lowering/src/lib.rs:1720-1745`). The
result is the range used in the generated code. -/
def acceptRange (start stop : Option Int) (size : Nat) : Option (Nat × Nat) :=
  let s := start.getD 0
  let e := stop.getD size
  match checkEndAfterStart (.int s) (.int e), checkInArray (.int e) (.int size) with
  | .satisfied, .satisfied =>
    match toBigUint s, toBigUint e with
    | some s, some e => some (s, e)
    | _, _ => none
  | _, _ => none

/-- Models `Requirement::ValidPipelineOffset`, `requirements.rs:543-592`. -/
def checkOffset (depth offset : VState) : RResult :=
  match depth, offset with
  | .unknown, _ => .noChange
  | _, .unknown => .noChange
  | .int d, .int r => if r < 0 then .error else if r > d then .error else .satisfied
  | _, _ => .error

/-- The fate of a relative stage reference `stage(±k).x` made in stage `current` of a pipeline of
depth `depth`: `visit_pipeline_ref`, `spade-typeinference/src/expression.rs:116-167`. The sum goes
through the constraint evaluator. -/
def checkStageRef (depth current k : Int) : RResult :=
  match evaluate (fun v => if v = 0 then .int k else .int current) (.bin .sum (.var 0) (.var 1)) with
  | some (.int total) => checkOffset (.int depth) (.int total)
  | _ => .error

/-- Models `Requirement::ArrayIndexeeIsNonZero`, `requirements.rs:516-542`. -/
def checkNonZero (size : VState) : RResult :=
  match size with
  | .int n => if n = 0 then .error else .satisfied
  | .unknown => .noChange
  | _ => .error

/-- Models `WhereClauseKind` without `Eq`, which is handled by constraints. -/
inductive WKind where
  | neq | lt | leq | gt | geq
  deriving DecidableEq, Repr

/-- Models `Requirement::WhereInequality`, `requirements.rs:593-647`. -/
def checkWhere (kind : WKind) (lhs rhs : VState) : RResult :=
  match lhs, rhs with
  | .int l, .int r =>
    let result :=
      match kind with
      | .neq => decide (l ≠ r)
      | .lt => decide (l < r)
      | .leq => decide (l ≤ r)
      | .gt => decide (l > r)
      | .geq => decide (l ≥ r)
    if result then .satisfied else .error
  | .unknown, _ => .noChange
  | _, .unknown => .noChange
  | _, _ => .error

/-! ## C21 -/

/-- Some bit vector of width `n` represents `v`, read as the named integer type reads it. -/
def Representable (name : TName) (n : Nat) (v : Int) : Prop :=
  match name with
  | .int => ∃ b : BitVec n, b.toInt = v
  | .uint => ∃ b : BitVec n, (b.toNat : Int) = v
  | .other => False

theorem zero_representable_int (n : Nat) : ∃ b : BitVec n, b.toInt = 0 := ⟨0#n, BitVec.toInt_zero⟩

theorem zero_representable_uint (n : Nat) : ∃ b : BitVec n, (b.toNat : Int) = 0 := ⟨0#n, by simp⟩

theorem checkFits_size {name : TName} (hname : name ≠ .other) {v s : Int} {n : Nat} {value : CInt}
    (hu : toU32 s = some n) (hv : value = .lit v ∨ value = .generic (.int v)) :
    checkFits value (.named name [.int s]) = fitsRange (name == .uint) n v := by
  rcases hv with rfl | rfl <;> cases name <;> first
    | exact absurd rfl hname
    | simp only [checkFits, hu]

theorem toU32_of_lt {n : Nat} (hn : n < 4294967296) : toU32 (n : Int) = some n := by
  unfold toU32
  have h : (0 : Int) ≤ n ∧ (n : Int) < 4294967296 := ⟨Int.natCast_nonneg n, by omega⟩
  simp only [if_pos h, Int.toNat_natCast]

/-- C21 (what holds of it): a literal, or a generic parameter used as one, is accepted at `int<n>`
or `uint<n>` exactly when some bit vector of that width represents it, and rejected otherwise, for
widths that fit in 32 bits; for `int` the width must not be `0`. -/
theorem C21_literal_fits_partial (name : TName) (hname : name ≠ .other) (n : Nat)
    (hn : n < 4294967296) (h0 : name = .int → n ≠ 0) (v : Int) (value : CInt)
    (hv : value = .lit v ∨ value = .generic (.int v)) :
    (checkFits value (.named name [.int n]) = .satisfied ↔ Representable name n v) ∧
    (checkFits value (.named name [.int n]) = .error ↔ ¬ Representable name n v) := by
  have hu : toU32 (n : Int) = some n := toU32_of_lt hn
  clear hn
  have hc : checkFits value (.named name [.int n]) = fitsRange (name == .uint) n v := by
    exact checkFits_size hname hu hv
  have two : ∀ r : RResult, r ≠ .noChange → ∀ P : Prop, (r = .satisfied ↔ P) →
      (r = .satisfied ↔ P) ∧ (r = .error ↔ ¬ P) := by
    intro r hr P h
    refine ⟨h, ?_⟩
    rw [← h]
    cases r <;> simp_all
  rw [hc]
  apply two
  · unfold fitsRange
    have key : ∀ (P : Prop) [Decidable P],
        (if P then RResult.error else RResult.satisfied) ≠ .noChange := by
      intro P _ h
      split at h <;> cases h
    split
    · intro h; cases h
    · exact key _
  · unfold fitsRange
    split
    next hz =>
      subst hz
      cases name
      · exact ⟨fun _ => zero_representable_int n, fun _ => rfl⟩
      · exact ⟨fun _ => zero_representable_uint n, fun _ => rfl⟩
      · exact absurd rfl hname
    next hz =>
      have sat : ∀ (P : Prop) [Decidable P],
          ((if P then RResult.error else RResult.satisfied) = .satisfied ↔ ¬ P) := by
        intro P _; split <;> simp_all
      simp only [sat]
      cases name with
      | other => exact absurd rfl hname
      | uint =>
        simp only [Representable, exists_toNat_iff]
        simp
        omega
      | int =>
        obtain ⟨m, rfl⟩ : ∃ m, n = m + 1 := ⟨n - 1, by have := h0 rfl; omega⟩
        simp only [Representable, exists_toInt_iff]
        simp
        omega

/-- C21, the part that fails: `-1` is accepted as an `int<0>`, whose only value is `0`. -/
theorem C21_counterexample_int_zero :
    checkFits (.lit (-1)) (.named .int [.int 0]) = .satisfied ∧ ¬ Representable .int 0 (-1) := by
  refine ⟨by decide, ?_⟩
  rintro ⟨b, hb⟩
  rw [BitVec.toInt_zero_length] at hb
  cases hb

/-- C21: until the width and the value are known nothing is decided, and an `int` or `uint` type is
never rejected on account of a width that is not known yet. -/
theorem C21_undecided (value : CInt) (name : TName) (hname : name ≠ .other) :
    checkFits value .unknown = .noChange ∧
    checkFits value (.named name [.unknown]) = .noChange := by
  cases name <;> simp_all [checkFits]

/-- C21: a literal is rejected at every named type other than the integers. -/
theorem C21_other_types_rejected (value : CInt) (params : List VState) :
    checkFits value (.named .other params) = .error := rfl

example : checkFits (.lit 255) (.named .uint [.int 8]) = .satisfied ∧
    checkFits (.lit 256) (.named .uint [.int 8]) = .error ∧
    checkFits (.generic (.int (-128))) (.named .int [.int 8]) = .satisfied ∧
    checkFits (.lit 128) (.named .int [.int 8]) = .error := by decide

/-! ## C22 -/

/-- C22: a range with constant bounds is accepted exactly when it lies inside the array, with an
absent start meaning the first element and an absent end meaning the end of the array; the code is
generated for exactly that range. -/
theorem C22_range_accepted_iff (start stop : Option Int) (size : Nat) (s e : Nat) :
    acceptRange start stop size = some (s, e) ↔
      start.getD 0 = s ∧ stop.getD size = e ∧ s ≤ e ∧ e ≤ size := by
  unfold acceptRange checkEndAfterStart checkInArray toBigUint
  generalize start.getD 0 = a
  generalize stop.getD (size : Int) = b
  simp only
  by_cases h1 : a > b
  · simp only [if_pos h1]
    constructor
    · intro h; cases h
    · rintro ⟨rfl, rfl, h, _⟩; omega
  · simp only [if_neg h1]
    by_cases h2 : b > (size : Int)
    · simp only [if_pos h2]
      constructor
      · intro h; cases h
      · rintro ⟨rfl, rfl, _, h⟩; omega
    · simp only [if_neg h2]
      by_cases h3 : 0 ≤ a
      · have h4 : 0 ≤ b := by omega
        simp only [if_pos h3, if_pos h4, Option.some.injEq, Prod.mk.injEq]
        omega
      · simp only [if_neg h3]
        constructor
        · intro h; cases h
        · rintro ⟨rfl, rfl, _, _⟩; omega

/-- C22, read the other way round: exactly the ranges that do not lie inside the array are
rejected. -/
theorem C22_range_rejected_iff (start stop : Int) (size : Nat) :
    acceptRange (some start) (some stop) size = none ↔
      ¬ (0 ≤ start ∧ start ≤ stop ∧ stop ≤ size) := by
  cases h : acceptRange (some start) (some stop) size with
  | some r =>
    obtain ⟨s, e⟩ := r
    obtain ⟨h1, h2, h3, h4⟩ := (C22_range_accepted_iff _ _ _ _ _).1 h
    simp only [Option.getD_some] at h1 h2
    simp only [reduceCtorEq, false_iff, Classical.not_not]
    omega
  | none =>
    simp only [true_iff]
    rintro ⟨h1, h2, h3⟩
    have : acceptRange (some start) (some stop) size = some (start.toNat, stop.toNat) := by
      rw [C22_range_accepted_iff]
      simp only [Option.getD_some]
      omega
    rw [h] at this
    cases this

/-- C22: a stage reference is accepted exactly when the stage it refers to lies inside the
pipeline. -/
theorem C22_stage_reference_accepted_iff (depth current k : Int) :
    checkStageRef depth current k = .satisfied ↔ 0 ≤ current + k ∧ current + k ≤ depth := by
  have : evaluate (fun v => if v = 0 then .int k else .int current) (.bin .sum (.var 0) (.var 1)) =
      some (.int (k + current)) := rfl
  unfold checkStageRef
  rw [this]
  simp only [checkOffset]
  by_cases h1 : k + current < 0
  · simp only [if_pos h1]
    constructor
    · intro h; cases h
    · omega
  · simp only [if_neg h1]
    by_cases h2 : k + current > depth
    · simp only [if_pos h2]
      constructor
      · intro h; cases h
      · omega
    · simp only [if_neg h2, true_iff]
      omega

/-- C22: a reference to a labelled stage is accepted exactly when the stage lies inside the
pipeline. -/
theorem C22_stage_label_accepted_iff (depth stage : Int) :
    checkOffset (.int depth) (.int stage) = .satisfied ↔ 0 ≤ stage ∧ stage ≤ depth := by
  simp only [checkOffset]
  by_cases h1 : stage < 0
  · simp only [if_pos h1]
    constructor
    · intro h; cases h
    · omega
  · simp only [if_neg h1]
    by_cases h2 : stage > depth
    · simp only [if_pos h2]
      constructor
      · intro h; cases h
      · omega
    · simp only [if_neg h2, true_iff]
      omega

/-- C22: an array may be indexed dynamically exactly when it has elements. -/
theorem C22_index_needs_elements (size : Nat) :
    checkNonZero (.int size) = .satisfied ↔ ∃ i, i < size := by
  simp only [checkNonZero]
  by_cases h : (size : Int) = 0
  · simp only [if_pos h]
    constructor
    · intro h; cases h
    · rintro ⟨i, hi⟩; omega
  · simp only [if_neg h, true_iff]
    exact ⟨0, by omega⟩

/-- C22: a where clause between integers is accepted exactly when it holds. -/
theorem C22_where_clause_iff (l r : Int) :
    (checkWhere .neq (.int l) (.int r) = .satisfied ↔ l ≠ r) ∧
    (checkWhere .lt (.int l) (.int r) = .satisfied ↔ l < r) ∧
    (checkWhere .leq (.int l) (.int r) = .satisfied ↔ l ≤ r) ∧
    (checkWhere .gt (.int l) (.int r) = .satisfied ↔ l > r) ∧
    (checkWhere .geq (.int l) (.int r) = .satisfied ↔ l ≥ r) := by
  have key : ∀ (P : Prop) [Decidable P],
      ((if decide P = true then RResult.satisfied else RResult.error) = .satisfied ↔ P) := by
    intro P _
    by_cases h : P <;> simp [h]
  refine ⟨?_, ?_, ?_, ?_, ?_⟩ <;> simp only [checkWhere] <;> exact key _

example : acceptRange (some 2) none 5 = some (2, 5) ∧ acceptRange none (some 3) 5 = some (0, 3) ∧
    acceptRange (some (-1)) (some 3) 5 = none ∧ acceptRange (some 2) (some 6) 5 = none := by decide

example : checkStageRef 3 1 2 = .satisfied ∧ checkStageRef 3 1 3 = .error ∧
    checkStageRef 3 1 (-2) = .error := by decide

end Spade.Infer

import Verif.Codegen.Arith
/-!
# Properties of generated expressions: C06, C07, C08, C09, C12, C38
-/
namespace Spade.Codegen
open Spade.Verilog

/-! ## C06 Enum values can be taken apart again -/

/-- C06, recognition: constructing variant `i` succeeds, and testing the result for variant `j`
gives `i = j`, whatever the undefined padding bits are.  Total sizes are limited to the range of
Verilog's unsized literals. -/
theorem C06_variant_recognised (Γ : Nat → MTy) (opts : List (List MTy)) (i : Nat)
    (ops : List Nat) (ρ : Env) (xs : Nat → Bool)
    (hv : opts[i]? = some (ops.map Γ)) (hf : ∀ o ∈ ops, Fits Γ ρ o)
    (h32 : (MTy.enum opts).size ≤ 2 ^ 32) :
    ∃ bits, runOp Γ (.enum opts) (.constructEnum i) ops ρ xs = some bits ∧
      bits.length = (MTy.enum opts).size ∧
      ∀ (r : Nat) (ρ' : Env) (xs' : Nat → Bool), Γ r = .enum opts → ρ' (fwd r) = bits →
        ∀ j < opts.length, runOp Γ .bool (.isEnumVariant j) [r] ρ' xs' = some [decide (i = j)] := by
  have hi : i < opts.length := by
    rcases Nat.lt_or_ge i opts.length with h | h
    · exact h
    · rw [List.getElem?_eq_none h] at hv; cases hv
  have hlen := allBits_fits hf
  have hle := sizes_le_max hv
  have hs : (MTy.enum opts).size = tagSize opts.length + maxSize opts := by simp [MTy.size]
  have hbl : (ofNat (tagSize opts.length) i ++ allBits (fun o => ρ (fwd o)) ops ++
        (List.range ((MTy.enum opts).size - tagSize opts.length - sizes (ops.map Γ))).map xs).length
        = (MTy.enum opts).size := by
    simp only [List.length_append, ofNat_length, List.length_map, List.length_range]
    omega
  refine ⟨_, construct_bits xs hv hf, hbl, ?_⟩
  intro r ρ' xs' hr hb j hj
  exact isVariant_bits hr hi hj (by rw [hb, List.append_assoc])
    (by simp only [Fits, hr, hb]; exact hbl) h32

/-- C06, members, partial: reading member `m` of a constructed variant gives the bits of the
`m`-th argument.  Missing: one-bit members of enums with a single variant and more than one bit
in total (`C06_counterexample_single_variant`). -/
theorem C06_member_round_trip_partial (Γ : Nat → MTy) (opts : List (List MTy)) (i : Nat)
    (ops : List Nat) (ρ : Env) (xs : Nat → Bool)
    (hv : opts[i]? = some (ops.map Γ)) (hf : ∀ o ∈ ops, Fits Γ ρ o) (bits : Bits)
    (hc : runOp Γ (.enum opts) (.constructEnum i) ops ρ xs = some bits)
    (r : Nat) (ρ' : Env) (xs' : Nat → Bool) (hr : Γ r = .enum opts) (hb : ρ' (fwd r) = bits)
    (m o : Nat) (hm : ops[m]? = some o)
    (h5 : opts.length ≠ 1 ∨ (Γ o).size ≠ 1 ∨ (MTy.enum opts).size = 1) :
    runOp Γ (Γ o) (.enumMember i m) [r] ρ' xs' = some (ρ (fwd o)) := by
  rw [construct_bits xs hv hf] at hc
  have hlen := allBits_fits hf
  have hle := sizes_le_max hv
  have hs : (MTy.enum opts).size = tagSize opts.length + maxSize opts := by simp [MTy.size]
  have hbl : bits.length = (MTy.enum opts).size := by
    rw [← Option.some.inj hc]
    simp only [List.length_append, ofNat_length, List.length_map, List.length_range]
    omega
  have hsplit := allBits_split (fun o => ρ (fwd o)) ops m o hm
  rw [hsplit] at hc
  refine member_bits (members := ops.map Γ)
    (before := ofNat (tagSize opts.length) i ++ allBits (fun o => ρ (fwd o)) (ops.take m))
    (after := allBits (fun o => ρ (fwd o)) (ops.drop (m + 1)) ++
      (List.range ((MTy.enum opts).size - tagSize opts.length - sizes (ops.map Γ))).map xs)
    hr hv (by simp [hm]) ?_ ?_ ?_ ?_ h5
  · rw [hb, ← Option.some.inj hc]; simp
  · rw [List.length_append, ofNat_length,
      allBits_fits (fun o ho => hf o (List.mem_of_mem_take ho)), List.map_take]
  · exact hf o (List.mem_of_getElem? hm)
  · simp only [Fits, hr, hb]; exact hbl

/-- An environment given by a list of forward values. -/
def envOf (vs : List Bits) : Env := fun x => if x % 2 = 0 then (vs[x / 2]?).getD [] else []

/-- C06 fails for a one-bit member of a larger enum with a single variant: the whole value is
assigned instead of the member (codegen/mod.rs:708).  Here `A(bool, uint<2>)` with the bool true
and the number 0 reads back as false. -/
theorem C06_counterexample_single_variant :
    let Γ : Nat → MTy := fun n => [MTy.bool, .uint 2, .enum [[.bool, .uint 2]]].getD n .bool
    let ρ := envOf [[true], [false, false]]
    ∃ bits, runOp Γ (Γ 2) (.constructEnum 0) [0, 1] ρ (fun _ => false) = some bits ∧
      ∀ ρ' : Env, ρ' (fwd 2) = bits →
        runOp Γ .bool (.enumMember 0 0) [2] ρ' (fun _ => false) = some [false] ∧
        ρ (fwd 0) = [true] := by
  intro Γ ρ
  have hf : ∀ o ∈ [0, 1], Fits Γ ρ o := by simp [Fits]; decide
  have hc := construct_bits (Γ := Γ) (opts := [[.bool, .uint 2]]) (i := 0) (ops := [0, 1]) (ρ := ρ)
    (fun _ => false) rfl hf
  have he : allBits (fun o => ρ (fwd o)) [0, 1] = [true, false, false] := by decide
  rw [he] at hc
  refine ⟨[true, false, false], hc.trans ?_, ?_⟩
  · simp [MTy.size, sizes, maxSize, ofNat, Γ]
  intro ρ' h
  refine ⟨?_, by decide⟩
  have h4 : ρ' 4 = [true, false, false] := h
  simp [runOp, fwdCode, Γ, MTy.size, maxSize, sizes, assigned,
    VExpr.width, VExpr.eval, VExpr.isSigned, resize, h4, fwd]

/-- The hypotheses of the C06 theorems are met: variant 2 of a three-variant enum. -/
example : ∃ (Γ : Nat → MTy) (opts : List (List MTy)) (ops : List Nat) (ρ : Env),
    opts[2]? = some (ops.map Γ) ∧ (∀ o ∈ ops, Fits Γ ρ o) ∧ (MTy.enum opts).size ≤ 2 ^ 32 ∧
    ops.length = 2 ∧ (MTy.enum opts).size = 11 := by
  refine ⟨fun n => [MTy.bool, .uint 2].getD n .bool, [[.int 9], [], [.bool, .uint 2]], [0, 1],
    envOf [[true], [false, true]], rfl, ?_, ?_, rfl, ?_⟩
  · simp [Fits]; decide
  · simp [MTy.size, maxSize, sizes]
  · simp [MTy.size, maxSize, sizes]

/-! ## C07 Generated values fill exactly the declared width -/

/-- C07, tags: the tag can hold the number of every variant, and no narrower tag could. -/
theorem C07_tag_just_wide_enough (n : Nat) :
    (∀ i < n, i < 2 ^ tagSize n) ∧ ∀ k, (∀ i < n, i < 2 ^ k) → tagSize n ≤ k := by
  refine ⟨fun i hi => variant_lt_tag hi, fun k hk => tagSize_le ?_⟩
  rcases Nat.lt_or_ge (2 ^ k) n with h | h
  · exact absurd (hk _ h) (Nat.lt_irrefl _)
  · exact h

/-- Types of the values a constructor operator is applied to, as the lowering emits them. -/
inductive Constructs (Γ : Nat → MTy) (ops : List Nat) : Op → MTy → Prop
  | tuple {ts} : ops.map Γ = ts → Constructs Γ ops .constructTuple (.tuple ts)
  | struct {ts} : ops.map Γ = ts → Constructs Γ ops .constructTuple (.struct ts)
  | array {t n} : ops.map Γ = List.replicate n t → Constructs Γ ops .constructArray (.array t n)
  | enum {i opts} : opts[i]? = some (ops.map Γ) → Constructs Γ ops (.constructEnum i) (.enum opts)
  | view {a t} : ops = [a] → Γ a = t → Constructs Γ ops .constructCopyView (.copyView t)

theorem map_replicate {Γ : Nat → MTy} {ops : List Nat} {n : Nat} {t : MTy}
    (h : ops.map Γ = List.replicate n t) : ops.length = n ∧ ∀ o ∈ ops, Γ o = t := by
  refine ⟨by simpa using congrArg List.length h, fun o ho => ?_⟩
  have : Γ o ∈ ops.map Γ := List.mem_map.2 ⟨o, ho, rfl⟩
  rw [h] at this
  exact (List.mem_replicate.1 this).2

/-- C07: the expression emitted for a tuple, struct, array, enum or copy view has exactly the
width of the type. -/
theorem C07_constructor_width (Γ : Nat → MTy) (ops : List Nat) (op : Op) (ty : MTy) (ρ : Env)
    (xs : Nat → Bool) (hc : Constructs Γ ops op ty) (hf : ∀ o ∈ ops, Fits Γ ρ o)
    (h0 : ty.size ≠ 0) :
    ∃ e bits, fwdCode Γ ty op ops = some (.assign e) ∧ e.width ρ = ty.size ∧
      e.value ρ xs = some bits ∧ bits.length = ty.size := by
  have key : ∀ e bits, fwdCode Γ ty op ops = some (.assign e) → e.width ρ = ty.size →
      runOp Γ ty op ops ρ xs = some bits →
      ∃ e bits, fwdCode Γ ty op ops = some (.assign e) ∧ e.width ρ = ty.size ∧
      e.value ρ xs = some bits ∧ bits.length = ty.size := by
    intro e bits h1 h2 h3
    simp only [runOp, h0, if_false, h1, assigned_exact h2] at h3
    exact ⟨e, bits, h1, h2, h3, by rw [← h2]; exact eval_length _ _ _ _ _ _ h3⟩
  cases hc with
  | @tuple ts h =>
    subst h
    refine key _ _ rfl ?_ (tuple_bits xs (by simp [MTy.size]) hf)
    have := evals_length _ _ _ _ (evals_filtered ρ xs fwd (fun o => (Γ o).size) ops hf)
    simp only [VExpr.width, MTy.size, ← this, allBits_fits hf]
  | @struct ts h =>
    subst h
    refine key _ _ rfl ?_ (tuple_bits xs (by simp [MTy.size]) hf)
    have := evals_length _ _ _ _ (evals_filtered ρ xs fwd (fun o => (Γ o).size) ops hf)
    simp only [VExpr.width, MTy.size, ← this, allBits_fits hf]
  | @array t n h =>
    obtain ⟨hl, ht⟩ := map_replicate h
    have hf' : ∀ o ∈ ops, (ρ (fwd o)).length = t.size := fun o ho => by
      have := hf o ho; rw [Fits, ht o ho] at this; exact this
    have ht0 : t.size ≠ 0 := by
      intro hc; apply h0; simp [MTy.size, hc]
    refine key _ _ rfl ?_ (array_bits (t := t) xs (by simp [MTy.size, hl]) hf')
    have hr : ∀ o ∈ ops.reverse, (ρ (fwd o)).length = t.size := fun o ho => hf' o (by simpa using ho)
    have := evals_length _ _ _ _ (evals_vars ρ xs fwd ops.reverse (fun o ho hc => by
      have := hr o ho; rw [hc] at this; simp at this; omega))
    simp only [VExpr.width, MTy.size, ← this, allBits_const hr, List.length_reverse, hl]
  | @enum i opts h =>
    have hrun := construct_bits xs h hf
    have hle := sizes_le_max h
    have hs : (MTy.enum opts).size = tagSize opts.length + maxSize opts := by simp [MTy.size]
    have hcode : ∃ e, fwdCode Γ (.enum opts) (.constructEnum i) ops = some (.assign e) := by
      simp only [fwdCode, h, Option.bind_eq_bind, Option.bind_some]
      rw [if_neg (by omega)]
      exact ⟨_, rfl⟩
    obtain ⟨e, he⟩ := hcode
    refine key e _ he ?_ hrun
    simp only [fwdCode, h, Option.bind_eq_bind, Option.bind_some] at he
    rw [if_neg (by omega), included_eq] at he
    cases he
    have := evals_length _ _ _ _ (evals_filtered ρ xs fwd (fun o => (Γ o).size) ops hf)
    rw [allBits_fits hf] at this
    simp only [VExpr.width, widths_append, ← this]
    split <;> split <;> simp only [widths, VExpr.width] <;> omega
  | @view a t h1 h2 =>
    subst h1
    have hfa := hf a (by simp)
    rw [Fits, h2] at hfa
    refine key _ (ρ (fwd a)) rfl (by simp [VExpr.width, MTy.size, hfa]) ?_
    simp only [runOp, h0, if_false, fwdCode]
    exact assigned_var (by simpa [MTy.size] using hfa) h0

/-- The hypotheses of `C07_constructor_width` are met by an array of tuples. -/
example : ∃ (Γ : Nat → MTy) (ops : List Nat) (ρ : Env),
    Constructs Γ ops .constructArray (.array (.tuple [.bool, .uint 2]) 2) ∧
    (∀ o ∈ ops, Fits Γ ρ o) ∧ (MTy.array (.tuple [.bool, .uint 2]) 2).size = 6 := by
  refine ⟨fun _ => .tuple [.bool, .uint 2], [0, 1], fun _ => [true, false, true], .array rfl, ?_, ?_⟩
  · simp [Fits, MTy.size, sizes]
  · simp [MTy.size, sizes]

/-! ## C08 Tuple and struct members round trip -/

/-- C08, forward: reading member `i` of a constructed tuple or struct (also through copy views)
gives the bits of the `i`-th argument. -/
theorem C08_forward_round_trip (Γ : Nat → MTy) (ops : List Nat) (ρ : Env) (xs : Nat → Bool)
    (ty : MTy) (hty : ty = .tuple (ops.map Γ) ∨ ty = .struct (ops.map Γ))
    (hf : ∀ o ∈ ops, Fits Γ ρ o) (h32 : sizes (ops.map Γ) ≤ 2 ^ 32) :
    ∃ bits, runOp Γ ty .constructTuple ops ρ xs = some bits ∧ bits.length = ty.size ∧
      ∀ (r : Nat) (ρ' : Env) (xs' : Nat → Bool), (Γ r).strip = ty → ρ' (fwd r) = bits →
        ∀ i o, ops[i]? = some o → ∀ mty : MTy, mty.size = (Γ o).size →
          runOp Γ mty (.indexTuple i) [r] ρ' xs' = some (ρ (fwd o)) := by
  have hsz : ty.size = sizes (ops.map Γ) := by rcases hty with h | h <;> simp [h, MTy.size]
  have hlen := allBits_fits hf
  refine ⟨_, tuple_bits xs hsz hf, by omega, ?_⟩
  intro r ρ' xs' hr hb i o hi mty hm
  have hts : tupleTypes (Γ r) = some (ops.map Γ) := by
    simp only [tupleTypes, hr]
    rcases hty with h | h <;> simp [h]
  refine index_bits (before := allBits (fun o => ρ (fwd o)) (ops.take i))
    (after := allBits (fun o => ρ (fwd o)) (ops.drop (i + 1))) hts (by simp [hi]) hm ?_ ?_ ?_ ?_ h32
  · rw [hb]; exact allBits_split _ ops i o hi
  · rw [allBits_fits (fun o ho => hf o (List.mem_of_mem_take ho)), List.map_take]
  · exact hf o (List.mem_of_getElem? hi)
  · rw [hb, hlen]

/-- A net driven by a plain variable has the variable's bits. -/
theorem drives_var {ρ : Env} {xs : Nat → Bool} {lhs : VExpr} {x : Nat} {b : Bits}
    (h : Drives ρ xs lhs (.var x)) (hl : lhs.value ρ xs = some b) (hx : (ρ x).length = b.length)
    (h0 : b ≠ []) : ρ x = b := by
  obtain ⟨bits, h1, h2⟩ := h
  rw [hl] at h1
  cases h1
  rw [assigned_var hx (by simpa using h0)] at h2
  exact Option.some.inj h2

/-- C08, backward: if `t` is constructed from `ops` and `x` is member `i` of `t`, then in every
valuation of the nets that satisfies the two emitted backward assignments the `i`-th argument's
backward bits are the backward bits of `x`. -/
theorem C08_backward_round_trip (Γ : Nat → MTy) (ops : List Nat) (ρ : Env) (xs : Nat → Bool)
    (t x i o : Nat) (hty : Γ t = .tuple (ops.map Γ) ∨ Γ t = .struct (ops.map Γ))
    (hi : ops[i]? = some o) (hx : (Γ x).backSize = (Γ o).backSize)
    (hf : ∀ n, FitsBack Γ ρ n) (h32 : backSizes (ops.map Γ) ≤ 2 ^ 32)
    (hcon : BackHolds Γ ρ xs t .constructTuple ops)
    (hidx : BackHolds Γ ρ xs x (.indexTuple i) [t]) :
    ρ (back o) = ρ (back x) := by
  have hts : tupleTypes (Γ t) = some (ops.map Γ) := by
    rcases hty with h | h <;> simp [tupleTypes, h, MTy.strip]
  have hsz : (Γ t).backSize = backSizes (ops.map Γ) := by
    rcases hty with h | h <;> simp [h, MTy.backSize]
  have hall := allBits_fitsBack (ops := ops) (fun o _ => hf o)
  have hsplit := allBits_split (fun o => ρ (back o)) ops i o hi
  have hls := congrArg List.length hsplit
  simp only [List.length_append] at hls
  have hfo : (ρ (back o)).length = (Γ o).backSize := hf o
  have hft : (ρ (back t)).length = (Γ t).backSize := hf t
  have hfx : (ρ (back x)).length = (Γ x).backSize := hf x
  by_cases h0 : (Γ o).backSize = 0
  · rw [List.length_eq_zero_iff.1 (by omega : (ρ (back o)).length = 0),
      List.length_eq_zero_iff.1 (by omega : (ρ (back x)).length = 0)]
  · have hne : ρ (back o) ≠ [] := by intro hc; rw [hc] at hfo; simp at hfo; omega
    obtain ⟨e1, hc1, hd1⟩ := hcon (by omega)
    obtain ⟨e2, hc2, hd2⟩ := hidx (by omega)
    simp only [backCode, Option.some.injEq] at hc1
    subst hc1
    have hev := evals_filtered ρ xs back (fun o => (Γ o).backSize) ops (fun o _ => hf o)
    have hane : allBits (fun o => ρ (back o)) ops ≠ [] := by
      intro hc; rw [hc] at hls; simp at hls; omega
    have ht := drives_var hd1 (value_concat hev hane) (by omega) hane
    obtain ⟨ti, e, h1, h2, h3, h4⟩ := tupleIndex_value (ρ := ρ) (xs := xs) (x := back t) (idx := i)
      (w := (Γ o).backSize) (szs := (ops.map Γ).map MTy.backSize) (by simp [hi]) (by omega)
      (by rw [ht]; exact hsplit)
      (by rw [allBits_fitsBack (fun o _ => hf o), backSizes_eq_sum, List.map_take, List.map_take])
      hfo (by rw [hft, hsz, backSizes_eq_sum]) (by rw [← backSizes_eq_sum]; exact h32)
    simp only [backCode, hts, h1, h2, Option.bind_eq_bind, Option.bind_some, Option.some.injEq] at hc2
    subst hc2
    exact (drives_var hd2 h4 (by omega) hne).symm

/-- The hypotheses of `C08_backward_round_trip` are met by a tuple with two mutable members. -/
example : ∃ (Γ : Nat → MTy) (ρ : Env), Γ 3 = .tuple ([0, 1, 2].map Γ) ∧ (∀ n, FitsBack Γ ρ n) ∧
    BackHolds Γ ρ (fun _ => false) 3 .constructTuple [0, 1, 2] ∧
    BackHolds Γ ρ (fun _ => false) 4 (.indexTuple 2) [3] ∧ (Γ 3).backSize = 3 ∧ (Γ 4).backSize = 2 := by
  refine ⟨fun n => [.backward .bool, .bool, .backward (.uint 2),
      MTy.tuple [.backward .bool, .bool, .backward (.uint 2)], .backward (.uint 2)].getD n .bool,
    fun x => ([[], [true], [true], [], [], [false, true], [true], [true, false, true], [],
      [false, true]] : List Bits).getD x [], rfl, ?_, ?_, ?_, ?_, ?_⟩
  · intro n
    rcases n with _ | _ | _ | _ | _ | n <;>
      simp [FitsBack, back, MTy.backSize, backSizes, MTy.size, List.getD_eq_getElem?_getD]
    rw [List.getElem?_eq_none (by simp; omega)]; rfl
  · intro _; exact ⟨_, rfl, [true, false, true], by decide, by decide⟩
  · intro _; exact ⟨_, rfl, [false, true], by decide, by decide⟩
  · decide
  · decide

end Spade.Codegen

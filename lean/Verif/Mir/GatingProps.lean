import Verif.Mir.Gating
/-!
# Clock gating of enum registers is unobservable (C16)
-/
namespace Spade.Mir
open Spade.Codegen Spade.Verilog

variable {C Ini : Type} {I : Interp Op MTy C Ini Sig}

/-- What an operator with one operand reads from a signal at one moment. -/
def reading (op : Op) (ty : MTy) (s : Sig) (t : Nat) : Option Bits :=
  runOp (opTypes [s]) ty op [0] (opEnv [s] t) fun _ => false

/-- Two histories of an enum cannot be told apart at one moment: the same variant is recognised and
every member of that variant is the same. -/
def SameReading (opts : List (List MTy)) (a b : Sig) (t : Nat) : Prop :=
  (∀ j < opts.length, reading (.isEnumVariant j) .bool a t = reading (.isEnumVariant j) .bool b t) ∧
  ∀ j members, opts[j]? = some members → reading (.isEnumVariant j) .bool a t = some [true] →
    ∀ m mty, members[m]? = some mty →
      reading (.enumMember j m) mty a t = reading (.enumMember j m) mty b t

theorem enum_size (p : List MTy) : (MTy.enum [[], p]).size = 1 + sizes p := by
  have : tagSize 2 = 1 := tagSize_eq (by decide) (Or.inr (by decide))
  simp [MTy.size, maxSize, sizes, this]

theorem opSem_tag {p : List MTy} {r a : Sig} (ha : a.ty = .enum [[], p]) (h0 : sizes p ≠ 0)
    (h32 : sizes p < 2 ^ 32) :
    OpSem (.rangeIndexBits (sizes p) (sizes p + 1)) .bool r [a] ↔
      r.ty = .bool ∧ ∀ t, r.bits t = (a.bits t).take 1 := by
  have h : ∀ t xs, runOp (opTypes [a]) .bool (.rangeIndexBits (sizes p) (sizes p + 1))
      (List.range [a].length) (opEnv [a] t) xs = some ((a.bits t).take 1) := by
    intro t xs
    have hlen : (a.bits t).length = 1 + sizes p := by rw [a.fits, ha, enum_size]
    have he : opEnv [a] t (fwd 0) = a.bits t := rfl
    have hr : List.range [a].length = [0] := rfl
    unfold runOp
    rw [if_neg (by simp [MTy.size]), hr]
    simp only [fwdCode]
    rw [if_neg (by omega), if_pos (by omega)]
    simp only
    rw [assigned_exact (by simp [VExpr.width, MTy.size]), value_bit_dec (by rw [he]; omega) h32, he]
    exact slice_eq (a := []) (c := (a.bits t).drop 1) (by rw [List.nil_append, List.take_append_drop])
      (by intro hc; have := congrArg List.length hc; rw [List.length_take, List.length_nil] at this; omega)
      (by simp only [List.length_drop, List.length_take]; omega) (by simp; omega)
  simp only [OpSem, h, Option.some.injEq, exists_const]
  exact and_congr_right fun _ => forall_congr' fun t => eq_comm

theorem opSem_payload {p : List MTy} {r a : Sig} (ha : a.ty = .enum [[], p]) (h0 : sizes p ≠ 0) :
    OpSem (.rangeIndexBits 0 (sizes p)) (.tuple p) r [a] ↔
      r.ty = .tuple p ∧ ∀ t, r.bits t = (a.bits t).drop 1 := by
  have h : ∀ t xs, runOp (opTypes [a]) (.tuple p) (.rangeIndexBits 0 (sizes p))
      (List.range [a].length) (opEnv [a] t) xs = some ((a.bits t).drop 1) := by
    intro t xs
    have hlen : (a.bits t).length = 1 + sizes p := by rw [a.fits, ha, enum_size]
    have he : opEnv [a] t (fwd 0) = a.bits t := rfl
    have hr : List.range [a].length = [0] := rfl
    have hs : (MTy.tuple p).size = sizes p := by simp [MTy.size]
    unfold runOp
    rw [if_neg (by rw [hs]; exact h0), hr]
    simp only [fwdCode]
    rw [if_neg (by omega)]
    by_cases h1 : sizes p = 1
    · rw [if_pos (by omega)]
      simp only
      rw [assigned_exact (by simp [VExpr.width, hs, h1]), value_bit_dec (by rw [he]; omega) (by decide), he]
      refine slice_eq (a := (a.bits t).take 1) (c := []) (by rw [List.append_nil, List.take_append_drop])
        (by intro hc; have := congrArg List.length hc; rw [List.length_drop, List.length_nil] at this; omega)
        (by simp; omega) (by simp)
    · rw [if_neg (by omega)]
      have hsl : slice (a.bits t) (sizes p) 0 = some (a.bits t) := by
        refine slice_eq (a := []) (c := []) (by simp) ?_ (by simp; omega) (by simp)
        intro hc; rw [hc] at hlen; simp at hlen; omega
      simp only [assigned, VExpr.eval, VExpr.width, hs, he, hsl, Nat.sub_zero, VExpr.isSigned]
      rw [if_neg (by omega)]
      have hmax : max (sizes p) (sizes p + 1) = sizes p + 1 := by omega
      simp only [hmax, Option.bind_eq_bind, Option.bind_some]
      rw [resize_same _ (by omega), hlen]
      congr 2
      omega
  simp only [OpSem, h, Option.some.injEq, exists_const]
  exact and_congr_right fun _ => forall_congr' fun t => eq_comm

theorem opSem_select {ty : MTy} {r c a b : Sig} (hc : c.ty = .bool) (ha : a.ty = ty) (hb : b.ty = ty)
    (h0 : ty.size ≠ 0) :
    OpSem .select ty r [c, a, b] ↔
      r.ty = ty ∧ ∀ t, r.bits t = if truth (c.bits t) then a.bits t else b.bits t := by
  have h : ∀ t xs, runOp (opTypes [c, a, b]) ty .select
      (List.range [c, a, b].length) (opEnv [c, a, b] t) xs =
      some (if truth (c.bits t) then a.bits t else b.bits t) := by
    intro t xs
    have hlc : (c.bits t).length = 1 := by rw [c.fits, hc]; simp [MTy.size]
    have hla : (a.bits t).length = ty.size := by rw [a.fits, ha]
    have hlb : (b.bits t).length = ty.size := by rw [b.fits, hb]
    have e0 : opEnv [c, a, b] t (fwd 0) = c.bits t := rfl
    have e1 : opEnv [c, a, b] t (fwd 1) = a.bits t := rfl
    have e2 : opEnv [c, a, b] t (fwd 2) = b.bits t := rfl
    have hr : List.range [c, a, b].length = [0, 1, 2] := rfl
    unfold runOp
    rw [if_neg h0, hr]
    simp only [fwdCode]
    rw [assigned_exact (by simp [VExpr.width, e1, e2, hla, hlb])]
    have h0' : ty.size ≠ 0 := h0
    simp only [VExpr.value, VExpr.eval, VExpr.width, e0, e1, e2, hla, hlb, hlc, if_neg h0', Nat.max_self,
      Option.bind_eq_bind, Option.bind_some, if_neg (by decide : ¬ (1 = 0))]
    rw [resize_eq_self hlc, resize_eq_self hla, resize_eq_self hlb]
  simp only [OpSem, h, Option.some.injEq, exists_const]
  exact and_congr_right fun _ => forall_congr' fun t => eq_comm

theorem opSem_concat {ty : MTy} {r : Sig} {os : List Sig} (hs : ty.size = sizes (os.map (·.ty))) :
    OpSem .concat ty r os ↔ r.ty = ty ∧ ∀ t, r.bits t = joined os t := by
  rw [← opSem_constructTuple hs]
  rfl

/-- Reading the variant and the members of an enum from its bits. -/
theorem reading_variant {p : List MTy} {a : Sig} {t : Nat} {b : Bool} {rest : Bits}
    (ha : a.ty = .enum [[], p]) (hb : a.bits t = b :: rest) (h32 : 1 + sizes p ≤ 2 ^ 32) (j : Nat)
    (hj : j < 2) : reading (.isEnumVariant j) .bool a t = some [decide ((if b then 1 else 0) = j)] := by
  have htag : tagSize 2 = 1 := tagSize_eq (by decide) (Or.inr (by decide))
  refine isVariant_bits (r := 0) (opts := [[], p]) (i := if b then 1 else 0) (rest := rest) ha
    (by cases b <;> simp) hj ?_ (opEnv_fits [a] t 0) (by rw [enum_size]; exact h32)
  show a.bits t = _
  rw [hb, show [[], p].length = 2 from rfl, htag]
  cases b <;> rfl

theorem reading_member {p : List MTy} {a : Sig} {t : Nat} {b : Bool} {rest : Bits}
    (ha : a.ty = .enum [[], p]) (hb : a.bits t = b :: rest) {m : Nat} {mty : MTy} (hm : p[m]? = some mty) :
    reading (.enumMember 1 m) mty a t = some (memberBits p m rest) := by
  have htag : tagSize 2 = 1 := tagSize_eq (by decide) (Or.inr (by decide))
  have hsum := sizes_take_add hm
  have hlen : rest.length = sizes p := by
    have := a.fits t
    rw [hb, ha, enum_size] at this
    simp at this; omega
  refine member_bits (r := 0) (opts := [[], p]) (i := 1) (members := p)
    (before := b :: rest.take (sizes (p.take m)))
    (after := rest.drop (sizes (p.take m) + mty.size)) ha rfl hm ?_ ?_ ?_ (opEnv_fits [a] t 0)
    (Or.inl (by simp))
  · show a.bits t = _
    rw [hb]
    simp only [memberBits, hm, Option.map_some, Option.getD_some, List.cons_append]
    rw [List.append_assoc, ← List.drop_drop, List.take_append_drop, List.take_append_drop]
  · rw [show [[], p].length = 2 from rfl, htag, List.length_cons, List.length_take]; omega
  · exact memberBits_length hm hlen

/-- Same tag, and same payload when the tag says there is one. -/
theorem sameReading_of_bits {p : List MTy} {a b : Sig} {t : Nat} (ha : a.ty = .enum [[], p])
    (hb : b.ty = .enum [[], p]) (h32 : 1 + sizes p ≤ 2 ^ 32)
    (htag : (a.bits t).take 1 = (b.bits t).take 1)
    (hpay : (a.bits t).take 1 = [true] → (a.bits t).drop 1 = (b.bits t).drop 1) :
    SameReading [[], p] a b t := by
  have hla := a.fits t
  have hlb := b.fits t
  rw [ha, enum_size] at hla
  rw [hb, enum_size] at hlb
  cases hab : a.bits t with
  | nil => rw [hab] at hla; simp at hla; omega
  | cons x xs =>
    cases hbb : b.bits t with
    | nil => rw [hbb] at hlb; simp at hlb; omega
    | cons y ys =>
      rw [hab, hbb] at htag hpay
      simp at htag hpay
      subst htag
      refine ⟨fun j hj => ?_, fun j members hj hr m mty hm => ?_⟩
      · rw [reading_variant ha hab h32 j hj, reading_variant hb hbb h32 j hj]
      · have hj2 : j < 2 := by
          rcases Nat.lt_or_ge j 2 with h | h
          · exact h
          · rw [List.getElem?_eq_none (by simpa using h)] at hj; cases hj
        rw [reading_variant ha hab h32 j hj2] at hr
        simp only [Option.some.injEq, List.cons.injEq, and_true, decide_eq_true_eq] at hr
        subst hr
        cases x with
        | false =>
          simp at hj; subst hj; simp at hm
        | true =>
          simp at hj; subst hj
          simp only [if_true]
          rw [reading_member ha hab hm, reading_member hb hbb hm, hpay rfl]

/-- The reset of the register is well typed. -/
def ResetTyped (r : Register MTy Ini) (v : Name → Sig) : Prop :=
  ∀ trig val, r.reset = some (trig, val) → (v val).ty = r.ty

/-- The gated statements, read as equations between histories. -/
structure Gated (p : List MTy) (clk : Sig) (rst : Option (Sig × Sig)) (value tag pay out : Sig) : Prop where
  tagTy : tag.ty = .bool
  payTy : pay.ty = .tuple p
  outTy : out.ty = .enum [[], p]
  tagNext : ∀ t, tag.bits (t + 1) =
    if Rises clk t then ((resetBits rst t).getD (value.bits t)).take 1 else tag.bits t
  payNext : ∀ t, pay.bits (t + 1) =
    if Rises clk t then ((resetBits rst t).map (·.drop 1)).getD
      (if truth ((value.bits t).take 1) then (value.bits t).drop 1 else pay.bits t) else pay.bits t
  outBits : ∀ t, out.bits t = tag.bits t ++ pay.bits t

theorem truth_singleton (b : Bool) : truth [b] = b := by simp [truth]

theorem resetBits_length {ty : MTy} {rst : Option (Sig × Sig)} {t : Nat} {value : Sig} (hv : value.ty = ty)
    (hrv : ∀ trig rv, rst = some (trig, rv) → rv.ty = ty) :
    ((resetBits rst t).getD (value.bits t)).length = ty.size := by
  cases rst with
  | none => simp [resetBits, value.fits, hv]
  | some q =>
    simp only [resetBits, Option.bind_some]
    split
    · simp [q.2.fits, hrv q.1 q.2 rfl]
    · simp [value.fits, hv]

/-- The gated register cannot be told apart from the register it replaces. -/
theorem gated_same {p : List MTy} {clk value tag pay out u : Sig} {rst : Option (Sig × Sig)}
    (h32 : 1 + sizes p ≤ 2 ^ 32) (hv : value.ty = .enum [[], p])
    (hrv : ∀ trig rv, rst = some (trig, rv) → rv.ty = .enum [[], p])
    (hg : Gated p clk rst value tag pay out) (hu : RegSem (.enum [[], p]) clk rst value u)
    (h0 : u.bits 0 = out.bits 0) : ∀ t, SameReading [[], p] u out t := by
  have htl : ∀ t, (tag.bits t).length = 1 := fun t => by rw [tag.fits, hg.tagTy]; simp [MTy.size]
  have hot : ∀ t, (out.bits t).take 1 = tag.bits t := fun t => by
    rw [hg.outBits, ← htl t, List.take_left]
  have hop : ∀ t, (out.bits t).drop 1 = pay.bits t := fun t => by
    rw [hg.outBits, ← htl t, List.drop_left]
  have key : ∀ t, (u.bits t).take 1 = tag.bits t ∧
      ((u.bits t).take 1 = [true] → (u.bits t).drop 1 = pay.bits t) := by
    intro t
    induction t with
    | zero => rw [h0, hot, hop]; exact ⟨rfl, fun _ => rfl⟩
    | succ t ih =>
      rw [hu.2.2 t, hg.tagNext t, hg.payNext t]
      cases hr : Rises clk t with
      | false => simpa using ih
      | true =>
        simp only [if_true]
        rw [resize_same _ (resetBits_length hv hrv)]
        refine ⟨rfl, fun h => ?_⟩
        cases hb : resetBits rst t with
        | some b => rfl
        | none =>
          rw [hb, Option.getD_none] at h
          simp only [Option.getD_none, Option.map_none]
          rw [h, truth_singleton, if_pos rfl]
  intro t
  refine sameReading_of_bits hu.1 hg.outTy h32 ?_ ?_
  · rw [(key t).1, hot]
  · rw [hop]; exact (key t).2

theorem sat_binding (hI : Synchronous I) {v : Name → Sig} {n : Name} {op : Op} {os : List Name} {ty : MTy} :
    (Stmt.binding ⟨n, .other op, os, ty⟩ : HStmt C Ini).Sat I v ↔ OpSem op ty (v n) (os.map v) := by
  simp only [Stmt.Sat, hI.op]

theorem sat_register (hI : Synchronous I) {v : Name → Sig} {n clk value : Name}
    {rst : Option (Name × Name)} {ty : MTy} :
    (Stmt.register ⟨n, ty, clk, rst, none, value⟩ : HStmt C Ini).Sat I v ↔
      RegSem ty (v clk) (rst.map fun q => (v q.1, v q.2)) (v value) (v n) := by
  simp only [Stmt.Sat, hI.reg]

/-- The statements around the two registers of a gated register. -/
theorem gated_of (hI : Synchronous I) {p : List MTy} {k : Nat} {name clock value : Name}
    {rt rp : Option (Name × Name)} {rst : Option (Sig × Sig)} {v : Name → Sig}
    (h0 : sizes p ≠ 0) (h32 : 1 + sizes p ≤ 2 ^ 32) (hv : (v value).ty = .enum [[], p])
    (hrt : ∀ trig rv, rst = some (trig, rv) → rv.ty = .enum [[], p])
    (h1 : ∀ s ∈ splitTagValue (C := C) (Ini := Ini) value (.expr (k + 3)) (.expr (k + 4)) p, s.Sat I v)
    (h2 : ∀ s ∈ ([.register ⟨.expr k, .bool, clock, rt, none, .expr (k + 3)⟩,
         .binding ⟨.expr (k + 2), .other .select, [.expr (k + 3), .expr (k + 4), .expr (k + 1)], .tuple p⟩,
         .register ⟨.expr (k + 1), .tuple p, clock, rp, none, .expr (k + 2)⟩,
         .binding ⟨name, .other .concat, [.expr k, .expr (k + 1)], .enum [[], p]⟩] : List (HStmt C Ini)),
          s.Sat I v)
    (h3 : ∀ t, resetBits (rt.map fun q => (v q.1, v q.2)) t = (resetBits rst t).map (·.take 1))
    (h4 : ∀ t, resetBits (rp.map fun q => (v q.1, v q.2)) t = (resetBits rst t).map (·.drop 1)) :
    Gated p (v clock) rst (v value) (v (.expr k)) (v (.expr (k + 1))) (v name) := by
  have hsz : (MTy.tuple p).size = sizes p := by simp [MTy.size]
  have hlt : sizes p < 2 ^ 32 := by omega
  have a1 := h1 _ (List.mem_cons_self ..)
  have a2 := h1 _ (List.mem_cons_of_mem _ (List.mem_cons_self ..))
  rw [sat_binding hI, List.map_cons, List.map_nil, opSem_tag hv h0 hlt] at a1
  rw [sat_binding hI, List.map_cons, List.map_nil, opSem_payload hv h0] at a2
  have b1 := h2 _ (List.mem_cons_self ..)
  have b2 := h2 _ (List.mem_cons_of_mem _ (List.mem_cons_self ..))
  have b3 := h2 _ (List.mem_cons_of_mem _ (List.mem_cons_of_mem _ (List.mem_cons_self ..)))
  have b4 := h2 _ (List.mem_cons_of_mem _ (List.mem_cons_of_mem _ (List.mem_cons_of_mem _
    (List.mem_cons_self ..))))
  rw [sat_register hI] at b1 b3
  have b2' := (sat_binding hI).1 b2
  simp only [List.map_cons, List.map_nil] at b2'
  rw [opSem_select a1.1 a2.1 b3.1 (by rw [hsz]; exact h0)] at b2'
  have b4' := (sat_binding hI).1 b4
  simp only [List.map_cons, List.map_nil] at b4'
  rw [opSem_concat (by rw [enum_size]; simp [b1.1, b3.1, sizes, MTy.size])] at b4'
  have hrl : ∀ t b, resetBits rst t = some b → b.length = 1 + sizes p := by
    intro t b hb
    have := resetBits_length (t := t) hv hrt
    rw [hb, Option.getD_some, enum_size] at this
    exact this
  refine ⟨b1.1, b3.1, b4'.1, fun t => ?_, fun t => ?_, fun t => ?_⟩
  · rw [b1.2.2 t, h3 t, a1.2 t]
    congr 1
    cases hb : resetBits rst t with
    | none =>
      simp only [Option.map_none, Option.getD_none]
      exact resize_same _ (by rw [List.length_take, (v value).fits, hv, enum_size]; simp [MTy.size])
    | some b =>
      simp only [Option.map_some, Option.getD_some]
      exact resize_same _ (by rw [List.length_take, hrl t b hb]; simp [MTy.size])
  · rw [b3.2.2 t, h4 t, b2'.2 t, a1.2 t, a2.2 t]
    congr 1
    cases hb : resetBits rst t with
    | none =>
      simp only [Option.map_none, Option.getD_none]
      refine resize_same _ ?_
      split
      · rw [List.length_drop, (v value).fits, hv, enum_size, hsz]; omega
      · rw [(v _).fits, b3.1]
    | some b =>
      simp only [Option.map_some, Option.getD_some]
      exact resize_same _ (by rw [List.length_drop, hrl t b hb, hsz]; omega)
  · rw [b4'.2 t]; simp [joined]

/-- The statements of a gated register mean what `Gated` says. -/
theorem gateReg_gated (hI : Synchronous I) {r : Register MTy Ini} {p : List MTy} {k : Nat}
    {out : List (HStmt C Ini) × Nat} (hty : r.ty = .enum [[], p]) (h0 : sizes p ≠ 0)
    (h32 : 1 + sizes p ≤ 2 ^ 32) (hg : gateReg r k = some out) {v : Name → Sig}
    (hv : (v r.value).ty = r.ty) (hrt : ResetTyped r v) (hs : ∀ s ∈ out.1, s.Sat I v) :
    Gated p (v r.clock) (r.reset.map fun q => (v q.1, v q.2)) (v r.value) (v (.expr k))
      (v (.expr (k + 1))) (v r.name) := by
  rcases r with ⟨name, ty, clock, reset, initial, value⟩
  simp only at hty hv
  subst hty
  have hlt : sizes p < 2 ^ 32 := by omega
  have hrt' : ∀ trig rv, (reset.map fun q => (v q.1, v q.2)) = some (trig, rv) →
      rv.ty = .enum [[], p] := by
    intro trig rv h
    cases reset with
    | none => cases h
    | some q =>
      simp only [Option.map_some, Option.some.injEq, Prod.mk.injEq] at h
      rw [← h.2]
      exact hrt q.1 q.2 rfl
  cases initial with
  | some _ => simp [gateReg] at hg
  | none =>
    cases reset with
    | none =>
      simp only [gateReg, Option.some.injEq] at hg
      subst hg
      exact gated_of hI (rt := none) (rp := none) h0 h32 hv hrt'
        (fun s hm => hs s (List.mem_append_left _ hm)) (fun s hm => hs s (List.mem_append_right _ hm))
        (fun t => by simp [resetBits]) (fun t => by simp [resetBits])
    | some q =>
      obtain ⟨trig, rv⟩ := q
      simp only [gateReg, Option.some.injEq] at hg
      subst hg
      have htag2 : ∀ s ∈ splitTagValue (C := C) (Ini := Ini) rv (.expr (k + 5)) (.expr (k + 6)) p,
          s.Sat I v := fun s hm => hs s (List.mem_append_left _ (List.mem_append_right _ hm))
      have hrv : (v rv).ty = .enum [[], p] := hrt trig rv rfl
      have a3 := htag2 _ (List.mem_cons_self ..)
      have a4 := htag2 _ (List.mem_cons_of_mem _ (List.mem_cons_self ..))
      rw [sat_binding hI, List.map_cons, List.map_nil, opSem_tag hrv h0 hlt] at a3
      rw [sat_binding hI, List.map_cons, List.map_nil, opSem_payload hrv h0] at a4
      refine gated_of hI (rt := some (trig, .expr (k + 5))) (rp := some (trig, .expr (k + 6))) h0 h32 hv hrt'
        (fun s hm => hs s (List.mem_append_left _ (List.mem_append_left _ hm)))
        (fun s hm => hs s (List.mem_append_right _ hm)) (fun t => ?_) (fun t => ?_)
      · simp only [resetBits, Option.map_some, Option.bind_some, a3.2]
        split <;> rfl
      · simp only [resetBits, Option.map_some, Option.bind_some, a4.2]
        split <;> rfl

/-- **C16 (partial).** The pass replaces a register of an enum type whose first of two variants has no
members by gated registers.  Take any histories that satisfy the new statements, and any history `u` of
the original register with the same clock, reset and input and the same contents at the start.  At
every moment the same variant is recognised and every member of that variant is the same.
Missing: payloads of size 0; the counterexample shows that the pass breaks those. -/
theorem C16_gating_partial (hI : Synchronous I) (r : Register MTy Ini) (p : List MTy) (k : Nat)
    (out : List (HStmt C Ini) × Nat) (hty : r.ty = .enum [[], p]) (h0 : sizes p ≠ 0)
    (h32 : r.ty.size ≤ 2 ^ 32) (hg : gateReg r k = some out) (v : Name → Sig)
    (hv : (v r.value).ty = r.ty) (hrt : ResetTyped r v) (hs : ∀ s ∈ out.1, s.Sat I v)
    (u : Sig) (hu : RegSem r.ty (v r.clock) (r.reset.map fun q => (v q.1, v q.2)) (v r.value) u)
    (hstart : u.bits 0 = (v r.name).bits 0) :
    (v r.name).ty = r.ty ∧ ∀ t, SameReading [[], p] u (v r.name) t := by
  have h32' : 1 + sizes p ≤ 2 ^ 32 := by rw [hty, enum_size] at h32; exact h32
  have hgt := gateReg_gated hI hty h0 h32' hg hv hrt hs
  rw [hty] at hu hv
  refine ⟨by rw [hgt.outTy, hty], gated_same h32' hv ?_ hgt hu hstart⟩
  intro trig rv h
  cases hr : r.reset with
  | none => rw [hr] at h; cases h
  | some q =>
    rw [hr] at h
    simp only [Option.map_some, Option.some.injEq, Prod.mk.injEq] at h
    rw [← h.2, ← hty]
    exact hrt q.1 q.2 (by rw [hr])

/-! ## Both sides have behaviours -/

/-- The history of a value that is updated at every moment. -/
def iterBits (init : Bits) (f : Nat → Bits → Bits) : Nat → Bits
  | 0 => init
  | t + 1 => f t (iterBits init f t)

theorem iterBits_length {w : Nat} {init : Bits} {f : Nat → Bits → Bits} (hi : init.length = w)
    (hf : ∀ t b, b.length = w → (f t b).length = w) : ∀ t, (iterBits init f t).length = w
  | 0 => hi
  | t + 1 => hf t _ (iterBits_length hi hf t)

/-- A register has a history for every input and every initial contents. -/
theorem regSem_exists {ty : MTy} (h0 : ty.size ≠ 0) (clk : Sig) (rst : Option (Sig × Sig)) (value : Sig)
    (init : Bits) (hi : init.length = ty.size) : ∃ u, RegSem ty clk rst value u ∧ u.bits 0 = init := by
  let f : Nat → Bits → Bits := fun t b =>
    if Rises clk t then resize false ty.size ((resetBits rst t).getD (value.bits t)) else b
  have hf : ∀ t b, b.length = ty.size → (f t b).length = ty.size := by
    intro t b hb
    simp only [f]
    split
    · exact resize_length ..
    · exact hb
  exact ⟨⟨ty, iterBits init f, iterBits_length hi hf⟩, ⟨rfl, h0, fun t => rfl⟩, rfl⟩

/-- The statements of a gated register can be satisfied for every input, whatever the registers hold
at the start. -/
theorem C16_realisable (hI : Synchronous I) (r : Register MTy Ini) (p : List MTy) (k : Nat)
    (out : List (HStmt C Ini) × Nat) (hty : r.ty = .enum [[], p]) (h0 : sizes p ≠ 0)
    (h32 : r.ty.size ≤ 2 ^ 32) (hg : gateReg r k = some out) (v : Name → Sig)
    (hv : (v r.value).ty = r.ty) (hrt : ResetTyped r v)
    (hold : ∀ n ∈ (Stmt.register r : HStmt C Ini).names, Old k n)
    (hself : r.value ≠ r.name ∧ r.clock ≠ r.name ∧ ∀ trig rv, r.reset = some (trig, rv) →
      trig ≠ r.name ∧ rv ≠ r.name)
    (init : Bits) (hinit : init.length = r.ty.size) :
    ∃ v' : Name → Sig, (∀ n, Old k n → n ≠ r.name → v' n = v n) ∧ (∀ s ∈ out.1, s.Sat I v') ∧
      (v' r.name).bits 0 = init := by
  classical
  rcases r with ⟨name, ty, clock, reset, initial, value⟩
  simp only at hty hv hself hinit h32
  subst hty
  rw [enum_size] at h32 hinit
  have hlt : sizes p < 2 ^ 32 := by omega
  have hsz : (MTy.tuple p).size = sizes p := by simp [MTy.size]
  have hb1 : MTy.bool.size = 1 := by simp [MTy.size]
  have on : ∀ n i, Old k n → n ≠ .expr (k + i) := by
    rintro n i h rfl
    have : k + i < k := h
    omega
  have oname := fun i => on name i (hold name (by simp [Stmt.names]))
  have oclock := fun i => on clock i (hold clock (by simp [Stmt.names]))
  have ovalue := fun i => on value i (hold value (by simp [Stmt.names]))
  let V := v value
  have hVl : ∀ t, (V.bits t).length = 1 + sizes p := fun t => by rw [V.fits, hv, enum_size]
  let tagS : Sig := ⟨.bool, fun t => (V.bits t).take 1, fun t => by
    rw [List.length_take, hVl, hb1]; omega⟩
  let payS : Sig := ⟨.tuple p, fun t => (V.bits t).drop 1, fun t => by
    rw [List.length_drop, hVl, hsz]; omega⟩
  -- the reset, split into tag and payload
  obtain ⟨rstT, rstP, hT, hP, hTy⟩ : ∃ rstT rstP : Option (Sig × Sig),
      (rstT = reset.map fun q => (v q.1, (if h : (v q.2).ty = .enum [[], p] then
        ⟨.bool, fun t => ((v q.2).bits t).take 1, fun t => by
          rw [List.length_take, (v q.2).fits, h, enum_size, hb1]; omega⟩ else default : Sig))) ∧
      (rstP = reset.map fun q => (v q.1, (if h : (v q.2).ty = .enum [[], p] then
        ⟨.tuple p, fun t => ((v q.2).bits t).drop 1, fun t => by
          rw [List.length_drop, (v q.2).fits, h, enum_size, hsz]; omega⟩ else default : Sig))) ∧ True :=
    ⟨_, _, rfl, rfl, trivial⟩
  obtain ⟨tagR, htagR, htag0⟩ := regSem_exists (ty := .bool) (by rw [hb1]; decide) (v clock) rstT tagS
    (init.take 1) (by rw [List.length_take, hinit, hb1]; omega)
  let f : Nat → Bits → Bits := fun t b =>
    if Rises (v clock) t then resize false (sizes p) ((resetBits rstP t).getD
      (if truth (tagS.bits t) then payS.bits t else b)) else b
  have hf : ∀ t b, b.length = sizes p → (f t b).length = sizes p := by
    intro t b hb
    simp only [f]
    split
    · exact resize_length ..
    · exact hb
  have hinitp : (init.drop 1).length = sizes p := by rw [List.length_drop, hinit]; omega
  let payR : Sig := ⟨.tuple p, iterBits (init.drop 1) f, by rw [hsz]; exact iterBits_length hinitp hf⟩
  let payV : Sig := ⟨.tuple p, fun t => if truth (tagS.bits t) then payS.bits t else payR.bits t, fun t => by
    split
    · exact payS.fits t
    · exact payR.fits t⟩
  have hpayR : RegSem (.tuple p) (v clock) rstP payV payR := by
    refine ⟨rfl, by rw [hsz]; exact h0, fun t => ?_⟩
    rw [hsz]; rfl
  let outS : Sig := ⟨.enum [[], p], fun t => tagR.bits t ++ payR.bits t, fun t => by
    rw [List.length_append, tagR.fits, payR.fits, htagR.1, enum_size, hb1, hsz]⟩
  let rT : Sig := (rstT.map (·.2)).getD default
  let rP : Sig := (rstP.map (·.2)).getD default
  let v' : Name → Sig := fun n =>
    if n = name then outS else if n = .expr k then tagR else if n = .expr (k + 1) then payR
    else if n = .expr (k + 2) then payV else if n = .expr (k + 3) then tagS
    else if n = .expr (k + 4) then payS else if n = .expr (k + 5) then rT
    else if n = .expr (k + 6) then rP else v n
  have hvold : ∀ n, Old k n → n ≠ name → v' n = v n := by
    intro n hn hne
    have h0 := on n 0 hn; have h1 := on n 1 hn; have h2 := on n 2 hn; have h3 := on n 3 hn
    have h4 := on n 4 hn; have h5 := on n 5 hn; have h6 := on n 6 hn
    simp only [Nat.add_zero] at h0
    simp only [v', hne, h0, h1, h2, h3, h4, h5, h6, if_false]
  have e0 : v' (.expr k) = tagR := by
    have := oname 0; simp only [Nat.add_zero] at this
    simp [v', this.symm]
  have e1 : v' (.expr (k + 1)) = payR := by simp [v', (oname 1).symm]
  have e2 : v' (.expr (k + 2)) = payV := by simp [v', (oname 2).symm]
  have e3 : v' (.expr (k + 3)) = tagS := by simp [v', (oname 3).symm]
  have e4 : v' (.expr (k + 4)) = payS := by simp [v', (oname 4).symm]
  have e5 : v' (.expr (k + 5)) = rT := by simp [v', (oname 5).symm]
  have e6 : v' (.expr (k + 6)) = rP := by simp [v', (oname 6).symm]
  have en : v' name = outS := by simp [v']
  have ec : v' clock = v clock := hvold _ (hold clock (by simp [Stmt.names])) hself.2.1
  have ev : v' value = v value := hvold _ (hold value (by simp [Stmt.names])) hself.1
  have s1 : (Stmt.binding ⟨.expr (k + 3), .other (.rangeIndexBits (sizes p) (sizes p + 1)), [value], .bool⟩ :
      HStmt C Ini).Sat I v' := by
    rw [sat_binding hI, List.map_cons, List.map_nil, e3, ev, opSem_tag hv h0 hlt]
    exact ⟨rfl, fun _ => rfl⟩
  have s2 : (Stmt.binding ⟨.expr (k + 4), .other (.rangeIndexBits 0 (sizes p)), [value], .tuple p⟩ :
      HStmt C Ini).Sat I v' := by
    rw [sat_binding hI, List.map_cons, List.map_nil, e4, ev, opSem_payload hv h0]
    exact ⟨rfl, fun _ => rfl⟩
  have s3 : (Stmt.binding ⟨.expr (k + 2), .other .select, [.expr (k + 3), .expr (k + 4), .expr (k + 1)],
      .tuple p⟩ : HStmt C Ini).Sat I v' := by
    rw [sat_binding hI]
    simp only [List.map_cons, List.map_nil, e1, e2, e3, e4]
    rw [opSem_select (ty := .tuple p) rfl rfl rfl (by rw [hsz]; exact h0)]
    exact ⟨rfl, fun _ => rfl⟩
  have s4 : (Stmt.binding ⟨name, .other .concat, [.expr k, .expr (k + 1)], .enum [[], p]⟩ :
      HStmt C Ini).Sat I v' := by
    rw [sat_binding hI]
    simp only [List.map_cons, List.map_nil, e0, e1, en]
    rw [opSem_concat (by rw [enum_size]; simp [htagR.1, payR, sizes, hb1, hsz])]
    exact ⟨rfl, fun t => by simp [outS, joined]⟩
  have hstart : (v' name).bits 0 = init := by
    rw [en]
    simp only [outS, htag0, payR, iterBits]
    exact List.take_append_drop ..
  refine ⟨v', hvold, ?_, hstart⟩
  cases initial with
  | some _ => simp [gateReg] at hg
  | none =>
    cases reset with
    | none =>
      simp only [gateReg, Option.some.injEq] at hg
      subst hg
      rw [Option.map_none] at hT hP
      subst hT hP
      have s5 : (Stmt.register ⟨.expr k, .bool, clock, none, none, .expr (k + 3)⟩ : HStmt C Ini).Sat I v' := by
        rw [sat_register hI, e0, e3, ec, Option.map_none]; exact htagR
      have s6 : (Stmt.register ⟨.expr (k + 1), .tuple p, clock, none, none, .expr (k + 2)⟩ :
          HStmt C Ini).Sat I v' := by
        rw [sat_register hI, e1, e2, ec, Option.map_none]; exact hpayR
      intro s hs
      simp only [splitTagValue, List.cons_append, List.nil_append, List.mem_cons, List.not_mem_nil, or_false] at hs
      rcases hs with rfl | rfl | rfl | rfl | rfl | rfl
      · exact s1
      · exact s2
      · exact s5
      · exact s3
      · exact s6
      · exact s4
    | some q =>
      obtain ⟨trig, rv⟩ := q
      have hrv : (v rv).ty = .enum [[], p] := hrt trig rv rfl
      obtain ⟨n1, n2⟩ := hself.2.2 trig rv rfl
      simp only [gateReg, Option.some.injEq] at hg
      subst hg
      simp only [Option.map_some, hrv, dif_pos] at hT hP
      subst hT hP
      have et : v' trig = v trig := hvold _ (hold trig (by simp [Stmt.names])) n1
      have er : v' rv = v rv := hvold _ (hold rv (by simp [Stmt.names])) n2
      have s5 : (Stmt.register ⟨.expr k, .bool, clock, some (trig, .expr (k + 5)), none, .expr (k + 3)⟩ :
          HStmt C Ini).Sat I v' := by
        rw [sat_register hI, e0, e3, ec, Option.map_some]
        simp only [et, e5]; exact htagR
      have s6 : (Stmt.register ⟨.expr (k + 1), .tuple p, clock, some (trig, .expr (k + 6)), none, .expr (k + 2)⟩ :
          HStmt C Ini).Sat I v' := by
        rw [sat_register hI, e1, e2, ec, Option.map_some]
        simp only [et, e6]; exact hpayR
      have s7 : (Stmt.binding ⟨.expr (k + 5), .other (.rangeIndexBits (sizes p) (sizes p + 1)), [rv], .bool⟩ :
          HStmt C Ini).Sat I v' := by
        rw [sat_binding hI, List.map_cons, List.map_nil, e5, er, opSem_tag hrv h0 hlt]
        exact ⟨rfl, fun _ => rfl⟩
      have s8 : (Stmt.binding ⟨.expr (k + 6), .other (.rangeIndexBits 0 (sizes p)), [rv], .tuple p⟩ :
          HStmt C Ini).Sat I v' := by
        rw [sat_binding hI, List.map_cons, List.map_nil, e6, er, opSem_payload hrv h0]
        exact ⟨rfl, fun _ => rfl⟩
      intro s hs
      simp only [splitTagValue, List.cons_append, List.nil_append, List.mem_cons, List.not_mem_nil, or_false] at hs
      rcases hs with rfl | rfl | rfl | rfl | rfl | rfl | rfl | rfl
      · exact s1
      · exact s2
      · exact s7
      · exact s8
      · exact s5
      · exact s3
      · exact s6
      · exact s4

/-- The names a gated register adds are taken from the supply, and the register is still driven. -/
theorem gateReg_supply {r : Register MTy Ini} {k : Nat} {out : List (HStmt C Ini) × Nat}
    (h : gateReg r k = some out) : k ≤ out.2 := by
  rcases r with ⟨name, ty, clock, reset, initial, value⟩
  unfold gateReg at h
  simp only at h
  split at h
  · cases h
  · split at h
    · split at h <;> (cases h; simp)
    · cases h

/-- What the pass does to a unit: registers without an initial value whose type is an enum of an
empty variant and another one are gated, with names above the supply; every other statement stays. -/
def PassedOn (k : Nat) (result : List (HStmt C Ini)) (s : HStmt C Ini) : Prop :=
  (∃ r p, s = .register r ∧ r.ty = .enum [[], p] ∧ r.initial = none ∧
    ∃ k' out, k ≤ k' ∧ gateReg r k' = some out ∧ ∀ x ∈ out.1, x ∈ result) ∨
  (s ∈ result ∧ ∀ r, s = .register r → r.initial = none → ∀ p, r.ty ≠ .enum [[], p])

theorem C16_pass : ∀ (ss : List (HStmt C Ini)) (k : Nat) (s : HStmt C Ini), s ∈ ss →
    PassedOn k (gateStmts ss k).1 s
  | [], _, s, h => by cases h
  | s :: ss, k, x, h => by
    have tl : ∀ k1, k ≤ k1 → (∀ y, y ∈ (gateStmts ss k1).1 → y ∈ (gateStmts (s :: ss) k).1) → x ∈ ss →
        PassedOn k (gateStmts (s :: ss) k).1 x :=
      fun k1 hk hsub hx => (C16_pass ss k1 x hx).imp
        (fun ⟨r, p, h1, h2, h3, k', out, h4, h5, h6⟩ =>
          ⟨r, p, h1, h2, h3, k', out, Nat.le_trans hk h4, h5, fun y hy => hsub y (h6 y hy)⟩)
        (fun ⟨h1, h2⟩ => ⟨hsub x h1, h2⟩)
    cases s with
    | register r =>
      cases hg : gateReg (C := C) r k with
      | some a =>
        have he : (gateStmts (.register r :: ss) k).1 = a.1 ++ (gateStmts ss a.2).1 := by
          simp [gateStmts, hg]
        rcases List.mem_cons.mp h with rfl | hx
        · refine Or.inl ?_
          have : r.initial = none ∧ ∃ p, r.ty = .enum [[], p] := by
            unfold gateReg at hg
            split at hg
            · cases hg
            · next hi =>
              split at hg
              · next p hp => exact ⟨hi, p, hp⟩
              · cases hg
          obtain ⟨hi, p, hp⟩ := this
          exact ⟨r, p, rfl, hp, hi, k, a, Nat.le_refl _, hg, fun y hy => by
            rw [he]; exact List.mem_append.mpr (Or.inl hy)⟩
        · exact tl a.2 (gateReg_supply hg) (fun y hy => by
            rw [he]; exact List.mem_append.mpr (Or.inr hy)) hx
      | none =>
        have he : (gateStmts (.register r :: ss) k).1 = .register r :: (gateStmts ss k).1 := by
          simp [gateStmts, hg]
        rcases List.mem_cons.mp h with rfl | hx
        · refine Or.inr ⟨by rw [he]; exact List.mem_cons_self .., ?_⟩
          rintro r' hr hi p hp
          cases hr
          unfold gateReg at hg
          rw [hi, hp] at hg
          simp only at hg
          split at hg <;> cases hg
        · exact tl k (Nat.le_refl _) (fun y hy => by rw [he]; exact List.mem_cons_of_mem _ hy) hx
    | binding b =>
      rcases List.mem_cons.mp h with rfl | hx
      · exact Or.inr ⟨by simp [gateStmts], fun r hr => by cases hr⟩
      · exact tl k (Nat.le_refl _) (fun y hy => by simp [gateStmts, hy]) hx
    | _ =>
      rcases List.mem_cons.mp h with rfl | hx
      · exact Or.inr ⟨by simp [gateStmts], fun r hr => by cases hr⟩
      · exact tl k (Nat.le_refl _) (fun y hy => by simp [gateStmts, hy]) hx

/-- **C16, counterexample.** The pass also rewrites registers of enums in which no variant has members.
The code it generates then selects a bit of a single bit and assigns to an undeclared register: no
behaviour is left, although the register had one. -/
theorem C16_counterexample_no_payload :
    let r : Register MTy Unit := ⟨.named 1 "r", .enum [[], []], .named 0 "clk", none, none, .named 2 "a"⟩
    ∃ out : List (HStmt Unit Unit) × Nat, gateReg r 0 = some out ∧
      (∃ v, (Stmt.register r : HStmt Unit Unit).Sat hardware v ∧ (v r.value).ty = r.ty) ∧
      ¬ ∃ v, ∀ s ∈ out.1, s.Sat hardware v := by
  intro r
  refine ⟨_, rfl, ?_, ?_⟩
  · let a : Sig := ⟨.enum [[], []], fun _ => [true], fun t => by rw [enum_size]; rfl⟩
    refine ⟨fun _ => a, ?_, rfl⟩
    simp only [Stmt.Sat]
    intro _
    exact regSem_of rfl (by simp only [r]; rw [enum_size]; decide) rfl fun t => by simp [a]
  · rintro ⟨v, hv⟩
    have := hv (.register ⟨.expr 1, .tuple [], .named 0 "clk", none, none, .expr 2⟩) (by simp [r])
    simp only [Stmt.Sat, Option.map_none] at this
    exact (this rfl).2.1 (by simp [MTy.size, sizes])

/-- `Option<(uint<3>, bool)>` with a reset. -/
example :
    let r : Register MTy Unit := ⟨.named 1 "r", .enum [[], [.uint 3, .bool]], .named 0 "clk",
      some (.named 3 "rst", .named 4 "z"), none, .named 2 "a"⟩
    ∃ out : List (HStmt Unit Unit) × Nat, gateReg r 9 = some out ∧ out.1.length = 8 ∧
      sizes [.uint 3, .bool] ≠ 0 ∧ r.ty.size ≤ 2 ^ 32 ∧
      (∀ n ∈ (Stmt.register r : HStmt Unit Unit).names, Old 9 n) := by
  intro r
  refine ⟨_, rfl, rfl, by decide, by simp only [r]; rw [enum_size]; decide, ?_⟩
  intro n hn
  simp only [r, Stmt.names, List.mem_cons, List.not_mem_nil, or_false] at hn
  rcases hn with h | h | h | h | h <;> subst h <;> trivial

end Spade.Mir

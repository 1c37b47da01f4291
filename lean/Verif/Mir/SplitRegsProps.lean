import Verif.Mir.SplitRegs
/-!
# Splitting compound registers preserves behaviour (C15)
-/
namespace Spade.Mir
open Spade.Codegen Spade.Verilog

variable {C Ini : Type} {I : Interp Op MTy C Ini Sig}

mutual
/-- Neither the type nor any part of it that gets a register of its own has size 0. -/
def Solid : MTy → Prop
  | .tuple ts => sizes ts ≠ 0 ∧ Solids ts
  | .struct ts => sizes ts ≠ 0 ∧ Solids ts
  | .array t n => n ≠ 0 ∧ Solid t
  | ty => ty.size ≠ 0
/-- All are solid. -/
def Solids : List MTy → Prop
  | [] => True
  | t :: ts => Solid t ∧ Solids ts
end

/-- The name was made before the counter reached `k`. -/
def Old (k : Nat) : Name → Prop
  | .named _ _ => True
  | .expr i => i < k

theorem Old.mono {k k' : Nat} {n : Name} (h : Old k n) (hk : k ≤ k') : Old k' n := by
  cases n with
  | named _ _ => trivial
  | expr i => exact Nat.lt_of_lt_of_le h hk

theorem resize_same (bs : Bits) {w : Nat} (h : bs.length = w) : resize false w bs = bs :=
  resize_eq_self h

theorem regSem_next {ty : MTy} {clk value r : Sig} (h : RegSem ty clk none value r)
    (hv : value.ty = ty) (t : Nat) :
    r.bits (t + 1) = if Rises clk t then value.bits t else r.bits t := by
  rw [h.2.2 t]
  simp only [resetBits, Option.bind_none, Option.getD_none]
  rw [resize_same _ (by rw [value.fits, hv])]

theorem regSem_of {ty : MTy} {clk value r : Sig} (h1 : r.ty = ty) (h0 : ty.size ≠ 0)
    (hv : value.ty = ty)
    (h : ∀ t, r.bits (t + 1) = if Rises clk t then value.bits t else r.bits t) :
    RegSem ty clk none value r := by
  refine ⟨h1, h0, fun t => ?_⟩
  rw [h t]
  simp only [resetBits, Option.bind_none, Option.getD_none]
  rw [resize_same _ (by rw [value.fits, hv])]

/-- What splits a register of a type is right: the statements force the register's behaviour, every
behaviour of the register extends to the statements, and only fresh names are used. -/
structure Splits (I : Interp Op MTy C Ini Sig) (clk : Name) (ty : MTy) (f : Splitter C Ini) : Prop where
  mono : ∀ k name value, k ≤ (f k name value).2
  old : ∀ k name value, Old k clk → Old k name → Old k value →
    ∀ s ∈ (f k name value).1, ∀ n ∈ s.names, Old (f k name value).2 n
  sound : ∀ k name value (v : Name → Sig), (v value).ty = ty → (∀ s ∈ (f k name value).1, s.Sat I v) →
    RegSem ty (v clk) none (v value) (v name)
  complete : ∀ k name value (v : Name → Sig), Old k clk → Old k name → Old k value → (v value).ty = ty →
    RegSem ty (v clk) none (v value) (v name) →
    ∃ v' : Name → Sig, (∀ n, Old k n → v' n = v n) ∧ ∀ s ∈ (f k name value).1, s.Sat I v'

theorem splits_keep (hI : Synchronous I) (clk : Name) (ty : MTy) :
    Splits I clk ty (keepReg clk none ty) where
  mono := fun _ _ _ => Nat.le_refl _
  old := by
    intro k name value hc hn hv s hs n hm
    simp only [keepReg, List.mem_singleton] at hs
    subst hs
    simp only [Stmt.names, List.mem_cons, List.not_mem_nil, or_false] at hm
    rcases hm with h | h | h <;> subst h <;> assumption
  sound := by
    intro k name value v _ hs
    have := hs _ (List.mem_singleton.2 rfl)
    simp only [Stmt.Sat, hI.reg, Option.map_none] at this
    exact this
  complete := by
    intro k name value v _ _ _ _ hr
    refine ⟨v, fun _ _ => rfl, ?_⟩
    intro s hs
    simp only [keepReg, List.mem_singleton] at hs
    subst hs
    simp only [Stmt.Sat, hI.reg, Option.map_none]
    exact hr

section
variable {clk : Name}

theorem splitMembers_mono : ∀ (ms : List (MTy × Splitter C Ini)) (i k : Nat) (value : Name),
    (∀ m ∈ ms, Splits I clk m.1 m.2) → k ≤ (splitMembers value i ms k).2.2
  | [], _, _, _, _ => Nat.le_refl _
  | (t, f) :: ms, i, k, value, h => by
    have h1 := (h (t, f) (by simp)).mono (k + 2) (.expr (k + 1)) (.expr k)
    have h2 := splitMembers_mono ms (i + 1) (f (k + 2) (.expr (k + 1)) (.expr k)).2 value
      (fun m hm => h m (List.mem_cons_of_mem _ hm))
    simp only [splitMembers] at h1 h2 ⊢
    omega

theorem splitMembers_names : ∀ (ms : List (MTy × Splitter C Ini)) (i k : Nat) (value : Name),
    (∀ m ∈ ms, Splits I clk m.1 m.2) → Old k clk → Old k value →
    (splitMembers value i ms k).1.length = ms.length ∧
    (∀ n ∈ (splitMembers value i ms k).1, Old (splitMembers value i ms k).2.2 n) ∧
    ∀ s ∈ (splitMembers value i ms k).2.1, ∀ n ∈ s.names, Old (splitMembers value i ms k).2.2 n
  | [], _, _, _, _, _, _ => by simp [splitMembers]
  | (t, f) :: ms, i, k, value, h, hc, hv => by
    have hf : Splits I clk t f := h (t, f) (by simp)
    have h1 := hf.mono (k + 2) (.expr (k + 1)) (.expr k)
    have hms := fun m hm => h m (List.mem_cons_of_mem (t, f) hm)
    have h2 := splitMembers_mono ms (i + 1) (f (k + 2) (.expr (k + 1)) (.expr k)).2 value hms
    obtain ⟨h3, h4, h5⟩ := splitMembers_names ms (i + 1) (f (k + 2) (.expr (k + 1)) (.expr k)).2 value hms
      (hc.mono (by omega)) (hv.mono (by omega))
    have h6 := hf.old (k + 2) (.expr (k + 1)) (.expr k) (hc.mono (by omega))
      (show k + 1 < k + 2 by omega) (show k < k + 2 by omega)
    simp only [splitMembers]
    refine ⟨by simp [h3], ?_, ?_⟩
    · intro n hn
      rcases List.mem_cons.1 hn with hn | hn
      · subst hn; show k + 1 < _; omega
      · exact h4 n hn
    · intro s hs n hn
      rcases List.mem_cons.1 hs with hs | hs
      · subst hs
        simp only [Stmt.names, List.mem_cons, List.not_mem_nil, or_false] at hn
        rcases hn with hn | hn
        · subst hn; show k < _; omega
        · subst hn; exact hv.mono (by omega)
      · rcases List.mem_append.1 hs with hs | hs
        · exact (h6 s hs n hn).mono h2
        · exact h5 s hs n hn

/-- The statements for the members force every member register to follow its part of the input. -/
theorem splitMembers_sound (hI : Synchronous I) {value : Name} {v : Name → Sig} {ts : List MTy}
    (ht : tupleTypes (v value).ty = some ts) (hsz : (v value).ty.size = sizes ts)
    (h32 : sizes ts ≤ 2 ^ 32) :
    ∀ (ms : List (MTy × Splitter C Ini)) (i k : Nat), (∀ m ∈ ms, Splits I clk m.1 m.2) →
    ts.drop i = ms.map (·.1) →
    (∀ s ∈ (splitMembers value i ms k).2.1, s.Sat I v) →
    (splitMembers value i ms k).1.length = ms.length ∧
    ∀ j n, (splitMembers value i ms k).1[j]? = some n → ∃ mty, ts[i + j]? = some mty ∧ (v n).ty = mty ∧
      ∀ t, (v n).bits (t + 1) =
        if Rises (v clk) t then memberBits ts (i + j) ((v value).bits t) else (v n).bits t
  | [], _, _, _, _, _ => ⟨rfl, by simp [splitMembers]⟩
  | (mty, f) :: ms, i, k, h, hts, hs => by
    have hf : Splits I clk mty f := h (mty, f) (by simp)
    have hi : ts[i]? = some mty := by
      have := congrArg (·[0]?) hts
      simpa using this
    simp only [splitMembers] at hs ⊢
    have hb := hs _ (by simp; exact Or.inl rfl)
    simp only [Stmt.Sat, hI.op, List.map_cons, List.map_nil] at hb
    rw [opSem_indexTuple ht hi hsz h32] at hb
    have hreg := hf.sound (k + 2) (.expr (k + 1)) (.expr k) v hb.1
      (fun s hm => hs s (by simp [hm]))
    obtain ⟨h1, h2⟩ := splitMembers_sound hI ht hsz h32 ms (i + 1) (f (k + 2) (.expr (k + 1)) (.expr k)).2
      (fun m hm => h m (List.mem_cons_of_mem _ hm))
      (by
        have := congrArg List.tail hts
        rw [List.tail_drop] at this
        simpa using this)
      (fun s hm => hs s (by simp [hm]))
    refine ⟨by simp [h1], ?_⟩
    intro j n hj
    cases j with
    | zero =>
      simp only [List.getElem?_cons_zero, Option.some.injEq] at hj
      subst hj
      refine ⟨mty, by simpa using hi, hreg.1, fun t => ?_⟩
      rw [regSem_next hreg hb.1 t, hb.2 t]; rfl
    | succ j =>
      simp only [List.getElem?_cons_succ] at hj
      obtain ⟨mty', h3, h4, h5⟩ := h2 j n hj
      have he : i + (j + 1) = i + 1 + j := by omega
      rw [he]
      exact ⟨mty', h3, h4, h5⟩

/-- One member of a signal. -/
def part (ts : List MTy) (i : Nat) (mty : MTy) (a : Sig) (hi : ts[i]? = some mty)
    (hsz : a.ty.size = sizes ts) : Sig :=
  ⟨mty, fun t => memberBits ts i (a.bits t), fun t => memberBits_length hi (by rw [a.fits, hsz])⟩

theorem splitMembers_complete (hI : Synchronous I) {value : Name} {ts : List MTy} {out : Sig}
    (h32 : sizes ts ≤ 2 ^ 32) (hout : out.ty.size = sizes ts) :
    ∀ (ms : List (MTy × Splitter C Ini)) (i k : Nat) (v : Name → Sig), (∀ m ∈ ms, Splits I clk m.1 m.2) →
    (∀ m ∈ ms, m.1.size ≠ 0) →
    tupleTypes (v value).ty = some ts → (v value).ty.size = sizes ts →
    ts.drop i = ms.map (·.1) → Old k clk → Old k value →
    (∀ t, out.bits (t + 1) = if Rises (v clk) t then (v value).bits t else out.bits t) →
    ∃ v' : Name → Sig, (∀ n, Old k n → v' n = v n) ∧
      (∀ s ∈ (splitMembers value i ms k).2.1, s.Sat I v') ∧
      ∀ j n, (splitMembers value i ms k).1[j]? = some n → ∃ mty, ts[i + j]? = some mty ∧
        (v' n).ty = mty ∧ ∀ t, (v' n).bits t = memberBits ts (i + j) (out.bits t)
  | [], _, _, v, _, _, _, _, _, _, _, _ => ⟨v, fun _ _ => rfl, by simp [splitMembers], by simp [splitMembers]⟩
  | (mty, f) :: ms, i, k, v, h, h0, ht, hsz, hts, hc, hv, hst => by
    have hf : Splits I clk mty f := h (mty, f) (by simp)
    have hms := fun m hm => h m (List.mem_cons_of_mem (mty, f) hm)
    have hi : ts[i]? = some mty := by
      have := congrArg (·[0]?) hts
      simpa using this
    let v1 : Name → Sig := fun n =>
      if n = .expr k then part ts i mty (v value) hi hsz
      else if n = .expr (k + 1) then part ts i mty out hi hout
      else v n
    have hold : ∀ n, Old k n → v1 n = v n := by
      intro n hn
      have h1 : n ≠ .expr k := by rintro rfl; exact Nat.lt_irrefl _ hn
      have h2 : n ≠ .expr (k + 1) := by
        rintro rfl; exact Nat.lt_irrefl _ (Nat.lt_trans (Nat.lt_succ_self k) hn)
      simp [v1, h1, h2]
    have hv1k : v1 (.expr k) = part ts i mty (v value) hi hsz := by simp [v1]
    have hv1k1 : v1 (.expr (k + 1)) = part ts i mty out hi hout := by
      have : Name.expr (k + 1) ≠ .expr k := by simp
      simp [v1, this]
    have hreg : RegSem mty (v1 clk) none (v1 (.expr k)) (v1 (.expr (k + 1))) := by
      rw [hv1k, hv1k1, hold clk hc]
      refine regSem_of rfl (h0 _ (List.mem_cons_self ..)) rfl fun t => ?_
      simp only [part]
      rw [hst t]
      split <;> rfl
    obtain ⟨v2, h2, h3⟩ := hf.complete (k + 2) (.expr (k + 1)) (.expr k) v1 (hc.mono (by omega))
      (show k + 1 < k + 2 by omega) (show k < k + 2 by omega) (by rw [hv1k]; rfl) hreg
    have hmono := hf.mono (k + 2) (.expr (k + 1)) (.expr k)
    have hvv : v2 value = v value := by rw [h2 _ (hv.mono (by omega)), hold _ hv]
    have hvc : v2 clk = v clk := by rw [h2 _ (hc.mono (by omega)), hold _ hc]
    obtain ⟨v3, h4, h5, h6⟩ := splitMembers_complete hI h32 hout ms (i + 1)
      (f (k + 2) (.expr (k + 1)) (.expr k)).2 v2 hms
      (fun m hm => h0 m (List.mem_cons_of_mem _ hm)) (by rw [hvv]; exact ht) (by rw [hvv]; exact hsz)
      (by
        have := congrArg List.tail hts
        rw [List.tail_drop] at this
        simpa using this)
      (hc.mono (by omega)) (hv.mono (by omega)) (by rw [hvv, hvc]; exact hst)
    have hnames := hf.old (k + 2) (.expr (k + 1)) (.expr k) (hc.mono (by omega))
      (show k + 1 < k + 2 by omega) (show k < k + 2 by omega)
    have h3k : ∀ n, Old (k + 2) n → v3 n = v1 n := by
      intro n hn
      rw [h4 n (hn.mono (by omega)), h2 n hn]
    simp only [splitMembers]
    refine ⟨v3, ?_, ?_, ?_⟩
    · intro n hn
      rw [h3k n (hn.mono (by omega)), hold n hn]
    · intro s hs
      rcases List.mem_cons.1 hs with hs | hs
      · subst hs
        simp only [Stmt.Sat, hI.op, List.map_cons, List.map_nil]
        have hval : v3 value = v value := by rw [h3k _ (hv.mono (by omega)), hold _ hv]
        have hk : v3 (.expr k) = part ts i mty (v value) hi hsz := by
          rw [h3k (.expr k) (show k < k + 2 by omega), hv1k]
        rw [hval, hk, opSem_indexTuple ht hi hsz h32]
        exact ⟨rfl, fun t => rfl⟩
      · rcases List.mem_append.1 hs with hs | hs
        · refine (Stmt.sat_congr I s fun n hn => ?_).1 (h3 s hs)
          exact (h4 n (hnames s hs n hn)).symm
        · exact h5 s hs
    · intro j n hj
      cases j with
      | zero =>
        simp only [List.getElem?_cons_zero, Option.some.injEq] at hj
        subst hj
        refine ⟨mty, by simpa using hi, ?_, ?_⟩
        · rw [h3k (.expr (k + 1)) (show k + 1 < k + 2 by omega), hv1k1]; rfl
        · intro t; rw [h3k (.expr (k + 1)) (show k + 1 < k + 2 by omega), hv1k1]; rfl
      | succ j =>
        simp only [List.getElem?_cons_succ] at hj
        obtain ⟨mty', h7, h8, h9⟩ := h6 j n hj
        have he : i + (j + 1) = i + 1 + j := by omega
        rw [he]
        exact ⟨mty', h7, h8, h9⟩

theorem splits_compound (hI : Synchronous I) {ty : MTy} {ms : List (MTy × Splitter C Ini)}
    (htt : tupleTypes ty = some (ms.map (·.1))) (hsz : ty.size = sizes (ms.map (·.1)))
    (h0 : ty.size ≠ 0) (hm0 : ∀ m ∈ ms, m.1.size ≠ 0) (h32 : ty.size ≤ 2 ^ 32)
    (h : ∀ m ∈ ms, Splits I clk m.1 m.2) : Splits I clk ty (splitCompound ty ms) where
  mono := fun k name value => splitMembers_mono ms 0 k value h
  old := by
    intro k name value hc hn hv s hs n hm
    obtain ⟨-, h1, h2⟩ := splitMembers_names ms 0 k value h hc hv
    have hmono := splitMembers_mono ms 0 k value h
    simp only [splitCompound] at hs ⊢
    rcases List.mem_append.1 hs with hs | hs
    · exact h2 s hs n hm
    · simp only [List.mem_singleton] at hs
      subst hs
      simp only [Stmt.names, List.mem_cons] at hm
      rcases hm with hm | hm
      · subst hm; exact hn.mono hmono
      · exact h1 n hm
  sound := by
    intro k name value v hvt hs
    simp only [splitCompound] at hs
    obtain ⟨hlen, hmem⟩ := splitMembers_sound (I := I) (clk := clk) hI (v := v) (value := value)
      (by rw [hvt]; exact htt) (by rw [hvt]; exact hsz) (by omega) ms 0 k h (by simp)
      (fun s hm => hs s (List.mem_append_left _ hm))
    have hc := hs _ (List.mem_append_right _ (List.mem_singleton.2 rfl))
    generalize (splitMembers value 0 ms k).1 = ns at hlen hmem hc
    simp only [Stmt.Sat, hI.op] at hc
    have htys : (ns.map v).map (·.ty) = ms.map (·.1) := by
      apply List.ext_getElem?
      intro j
      simp only [List.map_map, List.getElem?_map]
      cases hj : ns[j]? with
      | none =>
        rw [List.getElem?_eq_none_iff] at hj
        rw [List.getElem?_eq_none (by omega)]; rfl
      | some n =>
        obtain ⟨mty, h1, h2, -⟩ := hmem j n hj
        rw [Nat.zero_add, List.getElem?_map] at h1
        rw [h1]
        simp [h2]
    rw [opSem_constructTuple (by rw [htys]; exact hsz)] at hc
    refine regSem_of hc.1 h0 hvt fun t => ?_
    rw [hc.2, hc.2]
    have hb := memberBits_join (ms.map (·.1)) ((v value).bits t) (by rw [(v value).fits, hvt, hsz])
    cases hr : Rises (v clk) t with
    | true =>
      simp only [if_true]
      conv => rhs; rw [← hb]
      simp only [joined]
      congr 1
      apply List.ext_getElem
      · simp [hlen]
      · intro j h1 h2
        simp only [List.length_map] at h1
        obtain ⟨mty, h3, -, h4⟩ := hmem j _ (List.getElem?_eq_getElem h1)
        have := h4 t
        rw [hr] at this
        simpa using this
    | false =>
      simp only [joined, Bool.false_eq_true, if_false]
      congr 1
      apply List.ext_getElem
      · simp
      · intro j h1 h2
        simp only [List.length_map] at h1
        obtain ⟨mty, h3, -, h4⟩ := hmem j _ (List.getElem?_eq_getElem h1)
        have := h4 t
        rw [hr] at this
        simpa using this
  complete := by
    intro k name value v hc hn hv hvt hr
    obtain ⟨v', h1, h2, h3⟩ := splitMembers_complete (I := I) (clk := clk) hI (out := v name)
      (ts := ms.map (·.1)) (value := value) (by omega) (by rw [hr.1]; exact hsz) ms 0 k v h hm0
      (by rw [hvt]; exact htt) (by rw [hvt]; exact hsz) (by simp) hc hv (regSem_next hr hvt)
    obtain ⟨hlen, -, -⟩ := splitMembers_names ms 0 k value h hc hv
    refine ⟨v', h1, ?_⟩
    simp only [splitCompound]
    intro s hs
    rcases List.mem_append.1 hs with hs | hs
    · exact h2 s hs
    · simp only [List.mem_singleton] at hs
      subst hs
      generalize (splitMembers value 0 ms k).1 = ns at h3 hlen
      simp only [Stmt.Sat, hI.op]
      have htys : (ns.map v').map (·.ty) = ms.map (·.1) := by
        apply List.ext_getElem?
        intro j
        simp only [List.map_map, List.getElem?_map]
        cases hj : ns[j]? with
        | none =>
          rw [List.getElem?_eq_none_iff] at hj
          rw [List.getElem?_eq_none (by omega)]; rfl
        | some n =>
          obtain ⟨mty, h4, h5, -⟩ := h3 j n hj
          rw [Nat.zero_add, List.getElem?_map] at h4
          rw [h4]
          simp [h5]
      rw [h1 name hn, opSem_constructTuple (by rw [htys]; exact hsz)]
      refine ⟨hr.1, fun t => ?_⟩
      rw [← memberBits_join (ms.map (·.1)) ((v name).bits t) (by rw [(v name).fits, hr.1, hsz])]
      simp only [joined]
      congr 1
      apply List.ext_getElem
      · simp [hlen]
      · intro j h4 h5
        have h6 : j < ns.length := by simpa using h5
        obtain ⟨mty, -, -, h8⟩ := h3 j _ (List.getElem?_eq_getElem h6)
        simp [h8 t]
end

mutual
theorem solid_size : ∀ {ty : MTy}, Solid ty → ty.size ≠ 0
  | .tuple ts, h => by simpa [MTy.size] using h.1
  | .struct ts, h => by simpa [MTy.size] using h.1
  | .array t n, h => by
    have := solid_size h.2
    simp only [MTy.size]
    exact Nat.mul_ne_zero this h.1
  | .int _, h | .uint _, h | .bool, h | .memory _ _, h | .enum _, h | .backward _, h | .copyView _, h
  | .inout _, h => by simpa [Solid] using h
end

theorem sizes_replicate (n : Nat) (t : MTy) : sizes (List.replicate n t) = t.size * n := by
  induction n with
  | zero => simp [sizes]
  | succ n ih => rw [List.replicate_succ, sizes, ih, Nat.mul_succ, Nat.add_comm]

theorem splitAll_fst (clk : Name) (rst : Option (Name × Name)) : ∀ ts : List MTy,
    (splitAll (C := C) (Ini := Ini) clk rst ts).map (·.1) = ts
  | [] => rfl
  | t :: ts => by simp [splitAll, splitAll_fst clk rst ts]

mutual
theorem splits_reg (hI : Synchronous I) (clk : Name) : ∀ ty : MTy, Solid ty → ty.size ≤ 2 ^ 32 →
    Splits I clk ty (splitReg clk none ty)
  | .tuple ts, h, h32 => by
    rw [splitReg]
    have hf := splitAll_fst (C := C) (Ini := Ini) clk none ts
    exact splits_compound hI (by rw [hf]; rfl) (by rw [hf, MTy.size]) (solid_size h)
      (fun m hm => solid_size ((splits_all hI clk ts h.2 (by simpa [MTy.size] using h32)) m hm).1) h32
      (fun m hm => ((splits_all hI clk ts h.2 (by simpa [MTy.size] using h32)) m hm).2)
  | .struct ts, h, h32 => by
    rw [splitReg]
    have hf := splitAll_fst (C := C) (Ini := Ini) clk none ts
    exact splits_compound hI (by rw [hf]; rfl) (by rw [hf, MTy.size]) (solid_size h)
      (fun m hm => solid_size ((splits_all hI clk ts h.2 (by simpa [MTy.size] using h32)) m hm).1) h32
      (fun m hm => ((splits_all hI clk ts h.2 (by simpa [MTy.size] using h32)) m hm).2)
  | .array t n, h, h32 => by
    rw [splitReg]
    have ht32 : t.size ≤ 2 ^ 32 := by
      simp only [MTy.size] at h32
      exact Nat.le_trans (Nat.le_mul_of_pos_right _ (Nat.pos_of_ne_zero h.1)) h32
    have hsub := splits_reg hI clk t h.2 ht32
    split
    · refine splits_compound hI ?_ ?_ (solid_size h) ?_ h32 ?_
      · rw [List.map_replicate]; rfl
      · rw [List.map_replicate, sizes_replicate, MTy.size]
      · intro m hm; rw [List.eq_of_mem_replicate hm]; exact solid_size h.2
      · intro m hm; rw [List.eq_of_mem_replicate hm]; exact hsub
    · exact splits_keep hI clk _
  | .int _, _, _ | .uint _, _, _ | .bool, _, _ | .memory _ _, _, _ | .enum _, _, _ | .backward _, _, _
  | .copyView _, _, _ | .inout _, _, _ => by rw [splitReg]; exact splits_keep hI clk _; all_goals simp
theorem splits_all (hI : Synchronous I) (clk : Name) : ∀ ts : List MTy, Solids ts → sizes ts ≤ 2 ^ 32 →
    ∀ m ∈ splitAll clk none ts, Solid m.1 ∧ Splits I clk m.1 m.2
  | [], _, _, m, hm => by simp [splitAll] at hm
  | t :: ts, h, h32, m, hm => by
    simp only [sizes] at h32
    simp only [splitAll] at hm
    rcases List.mem_cons.1 hm with hm | hm
    · subst hm; exact ⟨h.1, splits_reg hI clk t h.1 (by omega)⟩
    · exact splits_all hI clk ts h.2 (by omega) m hm
end

/-- A register the pass takes apart. -/
def Register.Compound (r : Register MTy Ini) : Prop :=
  r.initial = none ∧ ((∃ ts, r.ty = .tuple ts) ∨ (∃ ts, r.ty = .struct ts) ∨
    ∃ t n, n < 2 ^ 64 ∧ r.ty = .array t n)

theorem splitRegister_cases (r : Register MTy Ini) (k : Nat) :
    splitRegister (C := C) r k = ([.register r], k) ∨
    (r.Compound ∧ splitRegister (C := C) r k = splitReg r.clock r.reset r.ty k r.name r.value) := by
  rcases r with ⟨name, ty, clock, reset, initial, value⟩
  cases initial with
  | some i => exact Or.inl rfl
  | none =>
    cases ty with
    | tuple ts => exact Or.inr ⟨⟨rfl, Or.inl ⟨ts, rfl⟩⟩, rfl⟩
    | struct ts => exact Or.inr ⟨⟨rfl, Or.inr (Or.inl ⟨ts, rfl⟩)⟩, rfl⟩
    | array t n =>
      by_cases h : n < 2 ^ 64
      · exact Or.inr ⟨⟨rfl, Or.inr (Or.inr ⟨t, n, h, rfl⟩)⟩, rfl⟩
      · refine Or.inl ?_
        simp only [splitRegister, splitReg, if_neg h, keepReg]
    | _ => refine Or.inl ?_; simp only [splitRegister, splitReg, keepReg]

/-- The registers that are taken apart have no reset and no part of size 0. -/
def SplitOk (ss : List (HStmt C Ini)) : Prop :=
  ∀ r, Stmt.register r ∈ ss → r.Compound → r.reset = none ∧ Solid r.ty ∧ r.ty.size ≤ 2 ^ 32

/-- Registers and their inputs have the same type, as type checking ensures. -/
def RegsTyped (ss : List (HStmt C Ini)) (v : Name → Sig) : Prop :=
  ∀ r, Stmt.register r ∈ ss → (v r.value).ty = r.ty

theorem splitStmts_cons (s : HStmt C Ini) (ss : List (HStmt C Ini)) (k : Nat) :
    splitStmts (s :: ss) k =
      (let a := (match s with | .register r => splitRegister r k | s => ([s], k));
       (a.1 ++ (splitStmts ss a.2).1, (splitStmts ss a.2).2)) := by
  cases s <;> simp [splitStmts]

theorem splitOne (hI : Synchronous I) (s : HStmt C Ini) (ss : List (HStmt C Ini)) (k : Nat)
    (hok : SplitOk (s :: ss)) :
    ∃ a : List (HStmt C Ini) × Nat, splitStmts (s :: ss) k =
      (a.1 ++ (splitStmts ss a.2).1, (splitStmts ss a.2).2) ∧ k ≤ a.2 ∧
      ((∀ n ∈ s.names, Old k n) → ∀ s' ∈ a.1, ∀ n ∈ s'.names, Old a.2 n) ∧
      (∀ v, RegsTyped (s :: ss) v → (∀ s' ∈ a.1, s'.Sat I v) → s.Sat I v) ∧
      (∀ v, RegsTyped (s :: ss) v → (∀ n ∈ s.names, Old k n) → s.Sat I v →
        ∃ v' : Name → Sig, (∀ n, Old k n → v' n = v n) ∧ ∀ s' ∈ a.1, s'.Sat I v') := by
  refine ⟨_, splitStmts_cons s ss k, ?_⟩
  have triv : ∀ a : List (HStmt C Ini) × Nat, a = ([s], k) → k ≤ a.2 ∧
      ((∀ n ∈ s.names, Old k n) → ∀ s' ∈ a.1, ∀ n ∈ s'.names, Old a.2 n) ∧
      (∀ v, RegsTyped (s :: ss) v → (∀ s' ∈ a.1, s'.Sat I v) → s.Sat I v) ∧
      (∀ v, RegsTyped (s :: ss) v → (∀ n ∈ s.names, Old k n) → s.Sat I v →
        ∃ v' : Name → Sig, (∀ n, Old k n → v' n = v n) ∧ ∀ s' ∈ a.1, s'.Sat I v') := by
    rintro a rfl
    refine ⟨Nat.le_refl _, fun h s' hs => ?_, fun v _ h => h s (by simp), fun v _ _ h => ⟨v, fun _ _ => rfl, ?_⟩⟩
    · simp only [List.mem_singleton] at hs; subst hs; exact h
    · intro s' hs; simp only [List.mem_singleton] at hs; subst hs; exact h
  cases s with
  | register r =>
    rcases splitRegister_cases (C := C) r k with h | ⟨hcomp, h⟩
    · exact triv _ h
    · obtain ⟨hr, hsol, h32⟩ := hok r (by simp) hcomp
      rw [hr] at h
      have hsp := splits_reg hI r.clock r.ty hsol h32
      simp only [h]
      refine ⟨hsp.mono _ _ _, fun hn => ?_, fun v hv hs => ?_, fun v hv hn hs => ?_⟩
      · exact hsp.old k r.name r.value (hn _ (by simp [Stmt.names])) (hn _ (by simp [Stmt.names]))
          (hn _ (by simp [Stmt.names]))
      · have := hsp.sound k r.name r.value v (hv r (by simp)) hs
        simp only [Stmt.Sat, hr, Option.map_none, hcomp.1, hI.reg]
        exact this
      · simp only [Stmt.Sat, hr, Option.map_none, hcomp.1, hI.reg] at hs
        exact hsp.complete k r.name r.value v (hn _ (by simp [Stmt.names]))
          (hn _ (by simp [Stmt.names])) (hn _ (by simp [Stmt.names])) (hv r (by simp)) hs
  | binding _ => exact triv _ rfl
  | constant _ _ _ => exact triv _ rfl
  | assert _ => exact triv _ rfl
  | set _ _ => exact triv _ rfl
  | error => exact triv _ rfl

theorem splitStmts_sound (hI : Synchronous I) : ∀ (ss : List (HStmt C Ini)) (k : Nat) (v : Name → Sig),
    SplitOk ss → RegsTyped ss v → (∀ s ∈ (splitStmts ss k).1, s.Sat I v) → ∀ s ∈ ss, s.Sat I v
  | [], _, _, _, _, _ => by simp
  | s :: ss, k, v, hok, hty, h => by
    obtain ⟨a, he, -, -, hs, -⟩ := splitOne hI s ss k hok
    rw [he] at h
    intro s' hs'
    rcases List.mem_cons.1 hs' with hs' | hs'
    · subst hs'
      exact hs v hty fun s'' h'' => h s'' (List.mem_append_left _ h'')
    · exact splitStmts_sound hI ss a.2 v (fun r hr => hok r (List.mem_cons_of_mem _ hr))
        (fun r hr => hty r (List.mem_cons_of_mem _ hr))
        (fun s'' h'' => h s'' (List.mem_append_right _ h'')) s' hs'

theorem splitStmts_complete (hI : Synchronous I) : ∀ (ss : List (HStmt C Ini)) (k : Nat) (v : Name → Sig),
    SplitOk ss → RegsTyped ss v → (∀ s ∈ ss, ∀ n ∈ s.names, Old k n) → (∀ s ∈ ss, s.Sat I v) →
    ∃ v' : Name → Sig, (∀ n, Old k n → v' n = v n) ∧ ∀ s ∈ (splitStmts ss k).1, s.Sat I v'
  | [], _, v, _, _, _, _ => ⟨v, fun _ _ => rfl, by simp [splitStmts]⟩
  | s :: ss, k, v, hok, hty, hn, h => by
    obtain ⟨a, he, hk, hold, -, hc⟩ := splitOne hI s ss k hok
    obtain ⟨v1, h1, h2⟩ := hc v hty (hn s (by simp)) (h s (by simp))
    obtain ⟨v2, h3, h4⟩ := splitStmts_complete hI ss a.2 v1
      (fun r hr => hok r (List.mem_cons_of_mem _ hr))
      (fun r hr => by
        have hr' : Stmt.register r ∈ s :: ss := List.mem_cons_of_mem _ hr
        rw [h1 _ (hn _ hr' _ (by simp [Stmt.names]))]
        exact hty r hr')
      (fun s' hs' n hn' => (hn s' (List.mem_cons_of_mem _ hs') n hn').mono hk)
      (fun s' hs' => (Stmt.sat_congr I s' fun n hn' =>
        (h1 n (hn s' (List.mem_cons_of_mem _ hs') n hn')).symm).1 (h s' (List.mem_cons_of_mem _ hs')))
    refine ⟨v2, fun n hn' => by rw [h3 n (hn'.mono hk), h1 n hn'], ?_⟩
    rw [he]
    intro s' hs'
    rcases List.mem_append.1 hs' with hs' | hs'
    · exact (Stmt.sat_congr I s' fun n hn' => (h3 n (hold (hn s (by simp)) s' hs' n hn')).symm).1 (h2 s' hs')
    · exact h4 s' hs'

/-- **C15 (partial).** A unit with its compound registers taken apart has the same behaviours: on the
names of the original unit, the histories it allows are exactly those the original unit allows, over
any number of clock cycles and from any initial contents of the registers.
Missing: compound registers with a reset or with a part of size 0; the counterexamples show that the
pass breaks those. -/
theorem C15_split_partial (hI : Synchronous I) (e : Entity Op MTy C Ini) (k : Nat)
    (hok : SplitOk e.stmts) (hnew : ∀ n ∈ e.names, Old k n)
    (v : Name → Sig) (hty : RegsTyped e.stmts v) :
    e.Sat I v ↔ ∃ v', (splitUnit e k).Sat I v' ∧ ∀ n, Old k n → v' n = v n := by
  constructor
  · intro h
    obtain ⟨v', h1, h2⟩ := splitStmts_complete hI e.stmts k v hok hty
      (fun s hs n hn => hnew n (List.mem_flatMap.2 ⟨s, hs, hn⟩)) h
    exact ⟨v', h2, h1⟩
  · rintro ⟨v', h1, h2⟩
    have hty' : RegsTyped e.stmts v' := by
      intro r hr
      rw [h2 _ (hnew _ (List.mem_flatMap.2 ⟨_, hr, by simp [Stmt.names]⟩))]
      exact hty r hr
    intro s hs
    refine (Stmt.sat_congr I s fun n hn => ?_).1 (splitStmts_sound hI e.stmts k v' hok hty' h1 s hs)
    exact h2 n (hnew n (List.mem_flatMap.2 ⟨s, hs, hn⟩))

/-- The pass keeps inputs, output and types of the unit and does not duplicate names: it adds names the
unit did not have. -/
theorem C15_interface (e : Entity Op MTy C Ini) (k : Nat) :
    (splitUnit e k).name = e.name ∧ (splitUnit e k).inputs = e.inputs ∧
      (splitUnit e k).output = e.output ∧ (splitUnit e k).outputTy = e.outputTy :=
  ⟨rfl, rfl, rfl, rfl⟩

/-! ## An interpretation, a unit that meets the hypotheses, and what goes wrong otherwise -/

/-- Operators and registers as generated; nothing else is used. -/
def hardware : Interp Op MTy Unit Unit Sig where
  op := OpSem
  reg := fun ty ini clk rst value r => ini = none → RegSem ty clk rst value r
  const := fun _ _ _ => True
  assert := fun _ => True
  set := fun _ _ => True

theorem hardware_synchronous : Synchronous hardware :=
  ⟨fun _ _ _ _ => Iff.rfl, fun _ _ _ _ _ => by simp [hardware]⟩

/-- A register holding a pair of a bit and an array of two pairs. -/
example :
    let ty : MTy := .tuple [.bool, .array (.struct [.uint 3, .bool]) 2]
    let e : Entity Op MTy Unit Unit :=
      ⟨"t", [⟨"clk", .named 0 "clk", .bool, false⟩, ⟨"a", .named 1 "a", ty, false⟩], .named 2 "r", ty,
        [.register ⟨.named 2 "r", ty, .named 0 "clk", none, none, .named 1 "a"⟩]⟩
    SplitOk e.stmts ∧ (∀ n ∈ e.names, Old 7 n) ∧ (splitUnit e 7).stmts.length = 17 ∧
      ∃ v, RegsTyped e.stmts v ∧ e.Sat hardware v ∧ (v (.named 2 "r")).bits 0 ≠ (v (.named 2 "r")).bits 1 := by
  intro ty e
  refine ⟨?_, ?_, ?_, ?_⟩
  · intro r hr _
    simp only [e, List.mem_singleton, Stmt.register.injEq] at hr
    subst hr
    refine ⟨rfl, ?_, by decide⟩
    simp [ty, Solid, Solids, sizes, MTy.size]
  · intro n hn
    simp only [e, Entity.names, List.flatMap_cons, List.flatMap_nil, List.append_nil, Stmt.names,
      List.mem_cons, List.not_mem_nil, or_false] at hn
    rcases hn with h | h | h <;> subst h <;> trivial
  · simp [splitUnit, e, splitStmts, splitRegister, ty, splitReg, splitAll, splitCompound, splitMembers,
      List.replicate, keepReg]
  · have hsz : ty.size = 9 := by simp [ty, MTy.size, sizes]
    let clk : Sig := ⟨.bool, fun t => [t % 2 == 1], fun t => by simp [MTy.size]⟩
    let a : Sig := ⟨ty, fun _ => List.replicate 9 true, fun t => by rw [hsz]; rfl⟩
    let r : Sig := ⟨ty, fun t => if t = 0 then List.replicate 9 false else List.replicate 9 true,
      fun t => by rw [hsz]; split <;> rfl⟩
    refine ⟨fun n => if n = .named 0 "clk" then clk else if n = .named 1 "a" then a else r, ?_, ?_, ?_⟩
    · intro r' hr
      simp only [e, List.mem_singleton, Stmt.register.injEq] at hr
      subst hr
      simp [a]
    · intro s hs
      simp only [e, List.mem_singleton] at hs
      subst hs
      simp only [Stmt.Sat, Option.map_none]
      intro _
      refine regSem_of (by simp [r]) (by rw [hsz]; decide) (by simp [a]) fun t => ?_
      simp only [r, a, clk, Rises, truth]
      cases t with
      | zero => rfl
      | succ t => simp
    · simp [r]

/-- **C15, counterexample.** A pair of bits with reset value `(true, false)`: the register is reset to
`(true, false)`, the registers it is split into to `(false, false)`. -/
theorem C15_counterexample_reset :
    let ty : MTy := .tuple [.bool, .bool]
    let e : Entity Op MTy Unit Unit :=
      ⟨"t", [⟨"clk", .named 0 "clk", .bool, false⟩, ⟨"rst", .named 1 "rst", .bool, false⟩,
          ⟨"a", .named 2 "a", ty, false⟩, ⟨"b", .named 3 "b", ty, false⟩], .named 4 "r", ty,
        [.register ⟨.named 4 "r", ty, .named 0 "clk", some (.named 1 "rst", .named 2 "a"), none, .named 3 "b"⟩]⟩
    ∀ v v' : Name → Sig, e.Sat hardware v → (splitUnit e 0).Sat hardware v' →
      (∀ i ∈ e.inputNames, v' i = v i) → RegsTyped e.stmts v → (v (.named 2 "a")).ty = ty →
      ∀ t, Rises (v (.named 0 "clk")) t = true → truth ((v (.named 1 "rst")).bits t) = true →
        (v (.named 2 "a")).bits t = [true, false] →
        (v (.named 4 "r")).bits (t + 1) = [true, false] ∧
        (v' (.named 4 "r")).bits (t + 1) = [false, false] := by
  intro ty e v v' hv hv' hin hty hta t hclk hrst ha
  have hsz : ty.size = 2 := by simp [ty, MTy.size, sizes]
  have i0 := hin (.named 0 "clk") (by simp [e, Entity.inputNames])
  have i1 := hin (.named 1 "rst") (by simp [e, Entity.inputNames])
  have i2 := hin (.named 2 "a") (by simp [e, Entity.inputNames])
  constructor
  · have := hv _ (List.mem_singleton.2 rfl)
    simp only [Stmt.Sat, Option.map_some] at this
    have := (this rfl).2.2 t
    rw [hclk] at this
    simp only [if_true, resetBits, Option.bind_some, hrst, ha, hsz, Option.getD_some] at this
    rw [this]; rfl
  · simp only [Entity.Sat, splitUnit, e, splitStmts, splitRegister, ty, splitReg, splitAll, splitCompound,
      splitMembers, keepReg] at hv'
    have r1 := hv' (.register ⟨.expr 1, .bool, .named 0 "clk", some (.named 1 "rst", .named 2 "a"), none, .expr 0⟩)
      (by simp)
    have r2 := hv' (.register ⟨.expr 3, .bool, .named 0 "clk", some (.named 1 "rst", .named 2 "a"), none, .expr 2⟩)
      (by simp)
    have c := hv' (.binding ⟨.named 4 "r", .other .constructTuple, [.expr 1, .expr 3], ty⟩) (by simp [ty])
    simp only [Stmt.Sat, Option.map_some, i0, i1, i2] at r1 r2
    have r1' := (r1 rfl).2.2 t
    have r2' := (r2 rfl).2.2 t
    rw [hclk] at r1' r2'
    simp only [if_true, resetBits, Option.bind_some, hrst, ha, MTy.size, Option.getD_some] at r1' r2'
    simp only [Stmt.Sat] at c
    have c' := (opSem_constructTuple (by
      simp [ty, MTy.size, sizes, (r1 rfl).1, (r2 rfl).1])).1 c
    rw [c'.2 (t + 1)]
    simp only [joined, List.map_cons, List.map_nil, r1', r2']
    rfl

/-- **C15, counterexample.** A register for a bit and a value without bits is fine, but the register made
for the value without bits is assigned to although it is not declared: no behaviour is left. -/
theorem C15_counterexample_empty_part :
    let ty : MTy := .tuple [.bool, .tuple [.int 0]]
    let e : Entity Op MTy Unit Unit :=
      ⟨"t", [⟨"clk", .named 0 "clk", .bool, false⟩, ⟨"a", .named 1 "a", ty, false⟩], .named 2 "r", ty,
        [.register ⟨.named 2 "r", ty, .named 0 "clk", none, none, .named 1 "a"⟩]⟩
    (∃ v, RegsTyped e.stmts v ∧ e.Sat hardware v) ∧ ¬ ∃ v, (splitUnit e 0).Sat hardware v := by
  intro ty e
  have hsz : ty.size = 1 := by simp [ty, MTy.size, sizes]
  constructor
  · let a : Sig := ⟨ty, fun _ => [true], fun t => by rw [hsz]; rfl⟩
    refine ⟨fun _ => a, ?_, ?_⟩
    · intro r' hr
      simp only [e, List.mem_singleton, Stmt.register.injEq] at hr
      subst hr; rfl
    · intro s hs
      simp only [e, List.mem_singleton] at hs
      subst hs
      simp only [Stmt.Sat, Option.map_none]
      intro _
      exact regSem_of rfl (by rw [hsz]; decide) rfl fun t => by simp [a]
  · rintro ⟨v, hv⟩
    simp only [Entity.Sat, splitUnit, e, splitStmts, splitRegister, ty, splitReg, splitAll, splitCompound,
      splitMembers, keepReg] at hv
    have r := hv (.register ⟨.expr 5, .int 0, .named 0 "clk", none, none, .expr 4⟩) (by simp)
    simp only [Stmt.Sat, Option.map_none] at r
    exact (r rfl).2.1 rfl

end Spade.Mir

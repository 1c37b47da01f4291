import Verif.Expr.Steps
/-!
# What the statements emitted for intrinsics do to encoded values
-/
namespace Spade.Expr
open Spade.Verilog Spade.Codegen Spade.Lower
open Spade.Match (Val Matches)

variable {H : Nat → Option HUnit} {Γ : Nat → MTy} {ρ : Env} {xs : Nat → Nat → Bool}

/-! ## Arrays of booleans -/

theorem encAll_bools : ∀ {n : Nat} {vs : List Val} {bss : List Bits},
    EncAll (List.replicate n .bool) vs bss → ∃ bs : List Bool, vs = bs.map .bool ∧
      bss = bs.map ([·])
  | 0, _, _, .nil => ⟨[], rfl, rfl⟩
  | n + 1, _, _, h => by
    simp only [List.replicate_succ] at h
    cases h with
    | cons h h' =>
    cases h with
    | bool =>
    rename_i b
    obtain ⟨bs, rfl, rfl⟩ := encAll_bools h'
    exact ⟨b :: bs, rfl, rfl⟩

theorem bools_encAll : ∀ (bs : List Bool),
    EncAll (List.replicate bs.length .bool) (bs.map .bool) (bs.map ([·]))
  | [] => .nil
  | _ :: bs => .cons .bool (bools_encAll bs)

theorem flatten_singletons (bs : List Bool) : (bs.map ([·])).flatten = bs := by
  induction bs with
  | nil => rfl
  | cons b bs ih => simpa using ih

theorem bools_inj {as bs : List Bool} (h : as.map Val.bool = bs.map Val.bool) : as = bs := by
  induction as generalizing bs with
  | nil => cases bs with
    | nil => rfl
    | cons _ _ => simp at h
  | cons a as ih => cases bs with
    | nil => simp at h
    | cons b bs => simp at h; rw [h.1, ih (by simpa using h.2)]

/-- Element 0 of an array of booleans is the least significant bit. -/
theorem enc_bools {n : Nat} {as : List Bool} {b : Bits} (h : Enc (.array .bool n) (bools as) b) :
    b = as.reverse ∧ as.length = n := by
  simp only [bools] at h
  generalize hvs : as.map Val.bool = vs at h
  cases h with
  | array h =>
  obtain ⟨bs, rfl, rfl⟩ := encAll_bools h
  cases bools_inj hvs
  have := encAll_lens' h
  rw [← List.map_reverse, flatten_singletons]
  exact ⟨rfl, by simpa using this.1⟩

theorem bools_enc {n : Nat} (as : List Bool) (h : as.length = n) :
    Enc (.array .bool n) (bools as) as.reverse := by
  have h1 := Enc.array (bools_encAll as)
  rw [← List.map_reverse, flatten_singletons, h] at h1
  exact h1

theorem foldl_xor (l : List Bool) (b : Bool) : l.foldl (· ^^ ·) b = (b ^^ l.foldl (· ^^ ·) false) := by
  induction l generalizing b with
  | nil => simp
  | cons a l ih =>
    simp only [List.foldl_cons, Bool.false_xor]
    rw [ih, ih a, Bool.xor_assoc]

theorem foldl_xor_reverse (l : List Bool) :
    l.reverse.foldl (· ^^ ·) false = l.foldl (· ^^ ·) false := by
  induction l with
  | nil => rfl
  | cons a l ih =>
    simp only [List.reverse_cons, List.foldl_append, List.foldl_cons, List.foldl_nil,
      Bool.false_xor, ih]
    rw [foldl_xor l a, Bool.xor_comm]

/-! ## Intrinsics -/

theorem enc_of_toNat {ty : MTy} {z : Int} {b : Bits} (hn : IsNum ty) (hl : b.length = ty.size)
    (hz : (toNat b : Int) = z % 2 ^ ty.size) : Enc ty (.int (wrap ty z)) b := by
  have : b = ofInt ty.size z := by
    apply toNat_inj (by simp [hl])
    have := toNat_ofInt ty.size z
    omega
  rw [this]
  exact enc_wrap hn z

theorem intr_step {n : Nat} {i : Intr} {o : Op} {ts : List MTy} {ty : MTy} {ops : List Nat}
    {vs : List Val} {w : Val} (hty : IntrTy i ts ty) (hop : lowerIntr i ts ty = some o)
    (hops : ops.map Γ = ts) (hv : HoldVals Γ ρ ops vs) (hw : IntrVal i ts ty vs w)
    (h : ItemHolds H Γ ρ xs (.stmt (.bind n ty o ops))) : Enc ty w (ρ (fwd n)) := by
  subst hops
  have one : ∀ {P : Prop} {t : MTy}, ops.map Γ = [t] →
      (∀ a, ops = [a] → Γ a = t → P) → P := by
    intro P t h1 h2
    match ops, h1 with
    | [a], h1 => exact h2 a rfl (by simpa using h1)
  have two : ∀ {P : Prop} {t u : MTy}, ops.map Γ = [t, u] →
      (∀ a b, ops = [a, b] → Γ a = t → Γ b = u → P) → P := by
    intro P t u h1 h2
    match ops, h1 with
    | [a, b], h1 =>
      simp only [List.map_cons, List.map_nil, List.cons.injEq, and_true] at h1
      exact h2 a b rfl h1.1 h1.2
  generalize htseq : ops.map Γ = ts at hty hop hw
  cases hty with
  | @transmute t _ hs hex =>
    refine one htseq fun a ho ha => ?_
    subst ho
    cases hw with
    | transmute h1 h2 =>
    simp only [lowerIntr] at hop
    split at hop
    · cases hop
    cases hop
    have hv1 := hv.1
    rw [ha] at hv1
    rw [holds_alias (item_defined h id) (by rw [enc_length hv1, hs])]
    exact hex _ _ _ _ h1 hv1 h2
  | @order c t hc1 hc2 hn =>
    refine two htseq fun a b ho ha hb => ?_
    subst ho
    cases hw with
    | order =>
      obtain ⟨hva, hvb, _⟩ := hv
      rw [ha] at hva
      rw [hb] at hvb
      have hd : ¬ Undefined Γ ρ (.bind n .bool o [a, b]) := by
        cases c <;> simp only [lowerIntr, lowerCmp, ne_eq, not_true_eq_false] at hop hc1 hc2 <;>
          cases t <;> simp only [dual, Option.some.injEq, reduceCtorEq] at hop <;> subst hop <;>
          exact id
      have hrun := (item_defined h hd).2
      rw [C42_comparison Γ c o a b ρ (xs n) (by rw [ha]; exact hn) (by rw [ha, hb])
        (by rw [ha]; exact hop) (by rw [Fits, ha]; exact enc_length hva)
        (by rw [Fits, hb]; exact enc_length hvb), ha, hb, enc_numVal hva, enc_numVal hvb] at hrun
      rw [← Option.some.inj hrun]
      exact .bool
    | eqSame => exact absurd rfl hc1
    | eqDiff => exact absurd rfl hc1
    | neSame => exact absurd rfl hc2
    | neDiff => exact absurd rfl hc2
  | @eq t hex =>
    refine two htseq fun a b ho ha hb => ?_
    subst ho
    simp only [lowerIntr, lowerCmp, Option.some.injEq] at hop
    subst hop
    have hrun := (item_defined h id).2
    have key : ∀ v w, Enc t v (ρ (fwd a)) → Enc t w (ρ (fwd b)) →
        ρ (fwd n) = [decide (ρ (fwd a) = ρ (fwd b))] := by
      intro v w h1 h2
      rw [(C42_equality Γ a b ρ (xs n) (by rw [ha, hb]) (by rw [Fits, ha]; exact enc_length h1)
        (by rw [Fits, hb]; exact enc_length h2)).1] at hrun
      exact (Option.some.inj hrun).symm
    cases hw with
    | order h => exact absurd rfl h
    | eqSame =>
      obtain ⟨hva, hvb, _⟩ := hv
      rw [ha] at hva
      rw [hb] at hvb
      rw [key _ _ hva hvb, hex _ _ _ hva hvb]
      simp; exact .bool
    | eqDiff hne =>
      obtain ⟨hva, hvb, _⟩ := hv
      rw [ha] at hva
      rw [hb] at hvb
      rw [key _ _ hva hvb, decide_eq_false]
      · exact .bool
      · intro hc; rw [hc] at hva; exact hne (enc_unique hva hvb)
  | @ne t hex =>
    refine two htseq fun a b ho ha hb => ?_
    subst ho
    simp only [lowerIntr, lowerCmp, Option.some.injEq] at hop
    subst hop
    have hrun := (item_defined h id).2
    have key : ∀ v w, Enc t v (ρ (fwd a)) → Enc t w (ρ (fwd b)) →
        ρ (fwd n) = [decide (ρ (fwd a) ≠ ρ (fwd b))] := by
      intro v w h1 h2
      rw [(C42_equality Γ a b ρ (xs n) (by rw [ha, hb]) (by rw [Fits, ha]; exact enc_length h1)
        (by rw [Fits, hb]; exact enc_length h2)).2] at hrun
      exact (Option.some.inj hrun).symm
    cases hw with
    | order _ h => exact absurd rfl h
    | neSame =>
      obtain ⟨hva, hvb, _⟩ := hv
      rw [ha] at hva
      rw [hb] at hvb
      rw [key _ _ hva hvb, hex _ _ _ hva hvb]
      simp; exact .bool
    | neDiff hne =>
      obtain ⟨hva, hvb, _⟩ := hv
      rw [ha] at hva
      rw [hb] at hvb
      rw [key _ _ hva hvb, decide_eq_true]
      · exact .bool
      · intro hc; rw [hc] at hva; exact hne (enc_unique hva hvb)
  | @bitNot m hm =>
    refine one htseq fun a ho ha => ?_
    subst ho
    simp only [lowerIntr, Option.some.injEq] at hop
    subst hop
    cases hw with
    | bitNot =>
    rename_i as
    have hv1 := hv.1
    rw [ha] at hv1
    have hrun := (item_defined h id).2
    have hf : Fits Γ ρ a := by rw [Fits, ha]; exact enc_length hv1
    rw [(C44_bitwise Γ _ a a ρ (xs n) ha ha (by simpa [MTy.size] using hm) hf hf).2.2.2.1] at hrun
    obtain ⟨hb, hl⟩ := enc_bools hv1
    rw [← Option.some.inj hrun, hb, List.map_reverse]
    exact bools_enc _ (by simpa using hl)
  | @bitAnd m hm =>
    refine two htseq fun a b ho ha hb => ?_
    subst ho
    simp only [lowerIntr, Option.some.injEq] at hop
    subst hop
    cases hw with
    | bitAnd hlen =>
    obtain ⟨hva, hvb, _⟩ := hv
    rw [ha] at hva
    rw [hb] at hvb
    have hrun := (item_defined h id).2
    rw [(C44_bitwise Γ _ a b ρ (xs n) ha hb (by simpa [MTy.size] using hm)
      (by rw [Fits, ha]; exact enc_length hva) (by rw [Fits, hb]; exact enc_length hvb)).1] at hrun
    obtain ⟨hba, hla⟩ := enc_bools hva
    obtain ⟨hbb, hlb⟩ := enc_bools hvb
    rw [← Option.some.inj hrun, hba, hbb, ← List.reverse_zipWith hlen]
    exact bools_enc _ (by simp [hla, hlb])
  | @bitOr m hm =>
    refine two htseq fun a b ho ha hb => ?_
    subst ho
    simp only [lowerIntr, Option.some.injEq] at hop
    subst hop
    cases hw with
    | bitOr hlen =>
    obtain ⟨hva, hvb, _⟩ := hv
    rw [ha] at hva
    rw [hb] at hvb
    have hrun := (item_defined h id).2
    rw [(C44_bitwise Γ _ a b ρ (xs n) ha hb (by simpa [MTy.size] using hm)
      (by rw [Fits, ha]; exact enc_length hva) (by rw [Fits, hb]; exact enc_length hvb)).2.1] at hrun
    obtain ⟨hba, hla⟩ := enc_bools hva
    obtain ⟨hbb, hlb⟩ := enc_bools hvb
    rw [← Option.some.inj hrun, hba, hbb, ← List.reverse_zipWith hlen]
    exact bools_enc _ (by simp [hla, hlb])
  | @bitXor m hm =>
    refine two htseq fun a b ho ha hb => ?_
    subst ho
    simp only [lowerIntr, Option.some.injEq] at hop
    subst hop
    cases hw with
    | bitXor hlen =>
    obtain ⟨hva, hvb, _⟩ := hv
    rw [ha] at hva
    rw [hb] at hvb
    have hrun := (item_defined h id).2
    rw [(C44_bitwise Γ _ a b ρ (xs n) ha hb (by simpa [MTy.size] using hm)
      (by rw [Fits, ha]; exact enc_length hva) (by rw [Fits, hb]; exact enc_length hvb)).2.2.1] at hrun
    obtain ⟨hba, hla⟩ := enc_bools hva
    obtain ⟨hbb, hlb⟩ := enc_bools hvb
    rw [← Option.some.inj hrun, hba, hbb, ← List.reverse_zipWith hlen]
    exact bools_enc _ (by simp [hla, hlb])
  | @trunc t _ hn hn' hle h2 =>
    refine one htseq fun a ho ha => ?_
    subst ho
    simp only [lowerIntr] at hop
    split at hop
    · cases hop
    cases hop
    cases hw with
    | trunc =>
    have hv1 := hv.1
    rw [ha] at hv1
    have hrun := (item_defined h id).2
    obtain ⟨bits, hb, hl, hN⟩ := C43_trunc_partial Γ ty t.size a ρ (xs n) (by rw [ha])
      (by rw [Fits, ha]; exact enc_length hv1) hle h2
    rw [hb] at hrun
    rw [← Option.some.inj hrun]
    refine enc_of_toNat hn' hl ?_
    rename_i x
    have h3 := toNat_ofInt t.size x
    rw [← (enc_num hv1).2.2] at h3
    rw [hN]
    have h4 : ((2 ^ ty.size : Nat) : Int) = 2 ^ ty.size := by simp
    rw [Int.natCast_emod, h3, h4]
    exact Int.emod_emod_of_dvd _ (by
      refine ⟨2 ^ (t.size - ty.size), ?_⟩
      rw [← Int.pow_add]; congr 1; omega)
  | @sext k m hle h2 h32 =>
    refine one htseq fun a ho ha => ?_
    subst ho
    simp only [lowerIntr] at hop
    split at hop
    · cases hop
    cases hop
    cases hw with
    | sext =>
    have hv1 := hv.1
    rw [ha] at hv1
    have hrun := (item_defined h id).2
    obtain ⟨bits, hb, hl, hN⟩ := C43_sext_partial Γ k m a ρ (xs n) (by rw [ha]; rfl)
      (by rw [Fits, ha]; exact enc_length hv1) hle h2 h32
    rw [hb] at hrun
    rw [← Option.some.inj hrun]
    have h3 := enc_numVal hv1
    simp only [numVal] at h3
    have h4 := numVal_enc (t := .int m) (b := bits) trivial hl
    simp only [numVal] at h4
    rwa [hN, h3] at h4
  | @zext k m hle h1 =>
    refine one htseq fun a ho ha => ?_
    subst ho
    simp only [lowerIntr] at hop
    split at hop
    · cases hop
    cases hop
    cases hw with
    | zext =>
    have hv1 := hv.1
    rw [ha] at hv1
    have hrun := (item_defined h id).2
    obtain ⟨bits, hb, hl, hN⟩ := C43_zext_partial Γ k m a ρ (xs n) (by rw [ha]; rfl)
      (by rw [Fits, ha]; exact enc_length hv1) hle h1
    rw [hb] at hrun
    rw [← Option.some.inj hrun]
    have h3 := enc_numVal hv1
    simp only [numVal] at h3
    have h4 := numVal_enc (t := .uint m) (b := bits) trivial hl
    simp only [numVal] at h4
    rwa [hN, h3] at h4
  | @concat t u _ hn1 hn2 hn hsz =>
    refine two htseq fun a b ho ha hb => ?_
    subst ho
    simp only [lowerIntr] at hop
    split at hop
    · cases hop
    cases hop
    cases hw with
    | concat =>
    rename_i x y
    obtain ⟨hva, hvb, _⟩ := hv
    rw [ha] at hva
    rw [hb] at hvb
    have hrun := (item_defined h id).2
    obtain ⟨bits, hbits, hl, hN⟩ := C43_concat Γ ty a b ρ (xs n) (by rw [ha, hb, hsz])
      (by rw [Fits, ha]; exact enc_length hva) (by rw [Fits, hb]; exact enc_length hvb)
    rw [hbits] at hrun
    rw [← Option.some.inj hrun]
    refine enc_of_toNat hn hl ?_
    have h5 := toNat_cast_lt bits
    rw [hl] at h5
    rw [hN, hb, enc_toNat hva, enc_toNat hvb] at h5 ⊢
    simp only [Int.natCast_add, Int.natCast_mul, Int.natCast_pow, Int.cast_ofNat_Int] at h5 ⊢
    rw [Int.emod_eq_of_lt _ h5]
    have := Int.mul_nonneg (Int.natCast_nonneg (unsigned t x)) (Int.le_of_lt (two_pow_pos u.size))
    omega
  | @reduceAnd m hm =>
    refine one htseq fun a ho ha => ?_
    subst ho
    simp only [lowerIntr, Option.some.injEq] at hop
    subst hop
    cases hw with
    | reduceAnd =>
    have hv1 := hv.1
    rw [ha] at hv1
    have hrun := (item_defined h id).2
    have hf : Fits Γ ρ a := by rw [Fits, ha]; exact enc_length hv1
    rw [(C44_bitwise Γ _ a a ρ (xs n) ha ha (by simpa [MTy.size] using hm) hf hf).2.2.2.2.1] at hrun
    rw [← Option.some.inj hrun, (enc_bools hv1).1, List.all_reverse]
    exact .bool
  | @reduceOr m hm =>
    refine one htseq fun a ho ha => ?_
    subst ho
    simp only [lowerIntr, Option.some.injEq] at hop
    subst hop
    cases hw with
    | reduceOr =>
    have hv1 := hv.1
    rw [ha] at hv1
    have hrun := (item_defined h id).2
    have hf : Fits Γ ρ a := by rw [Fits, ha]; exact enc_length hv1
    rw [(C44_bitwise Γ _ a a ρ (xs n) ha ha (by simpa [MTy.size] using hm) hf hf).2.2.2.2.2.1] at hrun
    rw [← Option.some.inj hrun, (enc_bools hv1).1, List.any_reverse]
    exact .bool
  | @reduceXor m hm =>
    refine one htseq fun a ho ha => ?_
    subst ho
    simp only [lowerIntr, Option.some.injEq] at hop
    subst hop
    cases hw with
    | reduceXor =>
    have hv1 := hv.1
    rw [ha] at hv1
    have hrun := (item_defined h id).2
    have hf : Fits Γ ρ a := by rw [Fits, ha]; exact enc_length hv1
    rw [(C44_bitwise Γ _ a a ρ (xs n) ha ha (by simpa [MTy.size] using hm) hf hf).2.2.2.2.2.2] at hrun
    rw [← Option.some.inj hrun, (enc_bools hv1).1, foldl_xor_reverse]
    exact .bool
  | @combDiv t hn hs =>
    refine two htseq fun a b ho ha hb => ?_
    subst ho
    cases hw with
    | combDiv hy =>
    obtain ⟨hva, hvb, _⟩ := hv
    rw [ha] at hva
    rw [hb] at hvb
    refine bin_step (op := .div) (A := ty) (B := ty) ?_ hs hs hop ha hb hva hvb ?_ h
    · cases ty <;> simp only [IsNum] at hn <;> constructor
    · simp [binVal, hy]
  | @combMod t hn hs =>
    refine two htseq fun a b ho ha hb => ?_
    subst ho
    cases hw with
    | combMod hy =>
    obtain ⟨hva, hvb, _⟩ := hv
    rw [ha] at hva
    rw [hb] at hvb
    refine bin_step (op := .mod) (A := ty) (B := ty) ?_ hs hs hop ha hb hva hvb ?_ h
    · cases ty <;> simp only [IsNum] at hn <;> constructor
    · simp [binVal, hy]

end Spade.Expr

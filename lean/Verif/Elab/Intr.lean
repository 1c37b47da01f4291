import Verif.Elab.Sound

/-!
# From types to hardware types: the functions the compiler generates code for itself
-/

namespace Spade.Elab

open Spade.Infer.Spec (Kind Base GT TExpr Val Value LeastInt LeastUint)
open Spade.Check (TSpec TExp Generics Where Decls Special OutIs ConstIs KindsOk tNum tNat tBool tArr argAt
  trNumber)
open Spade.Codegen (MTy IsNum Cmp)

theorem is_sBool {θ : Generics} {u : GT} (h : sBool.Is θ u) : u = tBool := by
  simp only [sBool, TSpec.Is, TExp.Are] at h
  obtain ⟨args, rfl, rfl⟩ := h
  rfl

theorem is_sBits {θ : Generics} {u : GT} (h : sBits.Is θ u) :
    ∃ k, θ "N" = some k ∧ u = .node .array [tBool, k] := by
  simp only [sBits, TSpec.Is, TExp.Is] at h
  obtain ⟨a, k, rfl, ha, hk⟩ := h
  exact ⟨k, hk, by rw [is_sBool ha]⟩

theorem mir_bits {X : Ctx} {Δ : Decls} (hX : Coherent X Δ) {k : GT} {m : MTy}
    (h : X.mir (.node .array [tBool, k]) = some m) : ∃ n, m = .array .bool n := by
  have := ground_of_mir h
  simp only [groundConc, groundConcs, Option.bind_eq_bind, Option.bind_some, Option.pure_def,
    Option.bind_eq_some_iff, ground_of_mir (mir_tBool hX)] at this
  obtain ⟨cs, ⟨xs, ⟨x, hx, hxs⟩, hcs⟩, hm⟩ := this
  cases hxs
  cases hcs
  cases x <;> simp [arrayTy] at hm
  exact ⟨_, hm.2.symm⟩

theorem bits_size {n : Nat} (h : (MTy.array .bool n).size ≠ 0) : n ≠ 0 := by
  rintro rfl
  simp [Codegen.MTy.size] at h

theorem mirs_one {X : Ctx} {u : GT} {ms : List MTy} (h : X.mirs [u] = some ms) :
    ∃ m, X.mir u = some m ∧ ms = [m] := by
  simp only [Ctx.mirs, Option.bind_eq_bind, Option.bind_eq_some_iff, Option.pure_def,
    Option.some.injEq] at h
  obtain ⟨m, h1, _, rfl, rfl⟩ := h
  exact ⟨m, h1, rfl⟩

theorem mirs_two {X : Ctx} {u v : GT} {ms : List MTy} (h : X.mirs [u, v] = some ms) :
    ∃ m k, X.mir u = some m ∧ X.mir v = some k ∧ ms = [m, k] := by
  simp only [Ctx.mirs, Option.bind_eq_bind, Option.bind_eq_some_iff, Option.pure_def,
    Option.some.injEq] at h
  obtain ⟨m, h1, _, ⟨k, h2, _, rfl, rfl⟩, rfl⟩ := h
  exact ⟨m, k, h1, h2, rfl⟩

theorem are_one {θ : Generics} {s : TSpec} {us : List GT} (h : TSpec.Are θ [s] us) :
    ∃ u, us = [u] ∧ s.Is θ u := by
  simp only [TSpec.Are] at h
  obtain ⟨u, _, rfl, h1, rfl⟩ := h
  exact ⟨u, rfl, h1⟩

theorem are_two {θ : Generics} {s r : TSpec} {us : List GT} (h : TSpec.Are θ [s, r] us) :
    ∃ u v, us = [u, v] ∧ s.Is θ u ∧ r.Is θ v := by
  simp only [TSpec.Are] at h
  obtain ⟨u, _, rfl, h1, v, _, rfl, h2, rfl⟩ := h
  exact ⟨u, v, rfl, h1, h2⟩

theorem tNum_isNum {X : Ctx} {Δ : Decls} (hX : Coherent X Δ) {s : Bool} {n : Nat} {m : MTy}
    (h : X.mir (tNum s n) = some m) : IsNum m ∧ m.size = n := by
  rcases tNum_mir hX h with ⟨_, rfl⟩ | ⟨_, rfl⟩ <;> exact ⟨trivial, by simp [Codegen.MTy.size]⟩

/-- `int<a>` and `uint<a>` of a type-level integer. -/
theorem mir_number {X : Ctx} {Δ : Decls} (hX : Coherent X Δ) {s : Bool} {a : GT} {m : MTy}
    (h : X.mir (.node (.named (if s then 1 else 2)) [a]) = some m) :
    ∃ n : Nat, groundConc (declConc X.types X.depth) a = some (.int n) ∧
      m = if s then .int n else .uint n := by
  have := ground_of_mir h
  simp only [groundConc, groundConcs, Option.bind_eq_bind, Option.bind_some, Option.pure_def,
    Option.bind_eq_some_iff] at this
  obtain ⟨cs, ⟨c, hc, hcs⟩, hd⟩ := this
  cases hcs
  cases s with
  | true =>
    obtain ⟨g, hg⟩ := hX.int
    have := (declConc_def hd hg).2
    simp only [defConc, Option.map_eq_some_iff, Conc.ty.injEq] at this
    obtain ⟨y, hy, rfl⟩ := this
    cases c <;> simp [primTy] at hy
    rename_i i
    exact ⟨i.toNat, by rw [hc, Int.toNat_of_nonneg hy.1], by simp [hy.2]⟩
  | false =>
    obtain ⟨g, hg⟩ := hX.uint
    have := (declConc_def hd hg).2
    simp only [defConc, Option.map_eq_some_iff, Conc.ty.injEq] at this
    obtain ⟨y, hy, rfl⟩ := this
    cases c <;> simp [primTy] at hy
    rename_i i
    exact ⟨i.toNat, by rw [hc, Int.toNat_of_nonneg hy.1], by simp [hy.2]⟩

theorem wider_le {Δ : Decls} {free : String → Prop} {θ : Generics} {D : DeclFn} {a b : GT} {n m : Nat}
    (h : wider.Ok Δ free θ) (ha : θ "N" = some a) (hb : θ "M" = some b)
    (hn : groundConc D a = some (.int n)) (hm : groundConc D b = some (.int m)) : n ≤ m := by
  simp only [wider, Where.Ok] at h
  obtain ⟨x, y, hx, ⟨w, hw, _, hv⟩, hle⟩ := h
  have hv := hv (by simp [Infer.Careful])
  rw [hx] at hb
  cases hb
  simp only [groundConc, Option.some.injEq, Conc.int.injEq] at hm
  cases hv with
  | name hv =>
    simp only [Generics.vals, ha, Option.map_some, Option.some.injEq] at hv
    subst hv
    obtain ⟨b, args⟩ := a
    cases b with
    | int i =>
      simp only [groundConc, Option.some.injEq, Conc.int.injEq] at hn
      simp only [GT.head, Base.val] at hw
      cases hw
      simp only [Check.Cmp.Holds] at hle
      omega
    | bool v => simp [groundConc] at hn
    | str v => simp [groundConc] at hn
    | named _ => simp [GT.head, Base.val] at hw
    | tuple => simp [GT.head, Base.val] at hw
    | array => simp [GT.head, Base.val] at hw
    | inverted => simp [GT.head, Base.val] at hw
    | copyView => simp [GT.head, Base.val] at hw

theorem intr_ok {X : Ctx} {Δ : Decls} (hX : Coherent X Δ) {free : String → Prop} {θ : Generics}
    {us : List GT} {t : GT} {ms : List MTy} {m : MTy} (i : Expr.Intr)
    (hw : ∀ w ∈ (intrHead i).wheres, w.Ok Δ free θ) (hin : TSpec.Are θ (intrHead i).inputs us)
    (hout : OutIs θ (intrHead i).output t)
    (hsp : ∀ sp, (intrHead i).special = some sp → sp.Ok (intrHead i).params θ us)
    (hms : X.mirs us = some ms) (hm : X.mir t = some m) (hside : IntrSide i ms m) :
    Expr.IntrTy i ms m := by
  cases i with
  | transmute =>
    obtain ⟨u, rfl, h1⟩ := are_one hin
    obtain ⟨k, h2, rfl⟩ := mirs_one hms
    obtain ⟨a, b⟩ := hside k (by simp)
    exact .transmute a b
  | cmp c =>
    have key : ∃ k, ms = [k, k] ∧ m = .bool := by
      have hin' : TSpec.Are θ [gT, gT] us := by cases c <;> exact hin
      have hout' : sBool.Is θ t := by cases c <;> exact hout
      obtain ⟨u, v, rfl, h1, h2⟩ := are_two hin'
      obtain ⟨k, k', h3, h4, rfl⟩ := mirs_two hms
      simp only [gT, TSpec.Is] at h1 h2
      cases some_det h1 h2
      cases some_det h3 h4
      rw [is_sBool hout'] at hm
      exact ⟨k, rfl, mir_bool hX hm⟩
    obtain ⟨k, rfl, rfl⟩ := key
    cases c with
    | eq => exact .eq (hside k (by simp))
    | ne => exact .ne (hside k (by simp))
    | _ => exact .order (by simp) (by simp) (hside k (by simp))
  | bitNot =>
    obtain ⟨u, rfl, h1⟩ := are_one hin
    obtain ⟨k, h2, rfl⟩ := mirs_one hms
    obtain ⟨a, ha, rfl⟩ := is_sBits h1
    obtain ⟨b, hb, rfl⟩ := is_sBits hout
    cases some_det ha hb
    cases some_det h2 hm
    obtain ⟨n, rfl⟩ := mir_bits hX h2
    exact .bitNot (bits_size (hside _ List.mem_cons_self))
  | bitAnd | bitOr | bitXor =>
    obtain ⟨u, v, rfl, h1, h1'⟩ := are_two hin
    obtain ⟨k, k', h2, h2', rfl⟩ := mirs_two hms
    obtain ⟨a, ha, rfl⟩ := is_sBits h1
    obtain ⟨a', ha', rfl⟩ := is_sBits h1'
    obtain ⟨b, hb, rfl⟩ := is_sBits hout
    cases some_det ha hb
    cases some_det ha ha'
    cases some_det h2 hm
    cases some_det h2 h2'
    obtain ⟨n, rfl⟩ := mir_bits hX h2
    have := bits_size (n := n) (hside _ List.mem_cons_self)
    constructor
    exact this
  | reduceAnd | reduceOr | reduceXor =>
    obtain ⟨u, rfl, h1⟩ := are_one hin
    obtain ⟨k, h2, rfl⟩ := mirs_one hms
    obtain ⟨a, ha, rfl⟩ := is_sBits h1
    rw [is_sBool hout] at hm
    cases mir_bool hX hm
    obtain ⟨n, rfl⟩ := mir_bits hX h2
    have := bits_size (n := n) (hside _ List.mem_cons_self)
    constructor
    exact this
  | combDiv | combMod =>
    obtain ⟨u, v, rfl, h1, h1'⟩ := are_two hin
    obtain ⟨k, k', h2, h2', rfl⟩ := mirs_two hms
    have hout' : gT.Is θ t := hout
    simp only [gT, TSpec.Is] at h1 h1' hout'
    cases some_det h1 h1'
    cases some_det h1 hout'
    cases some_det h2 h2'
    cases some_det h2 hm
    obtain ⟨s, n, hn⟩ := hsp _ rfl
    have hn : θ "T" = some (tNum s n) := hn
    cases some_det h1 hn
    have h3 := (tNum_isNum hX hm).1
    have h4 := hside m (by simp)
    constructor
    · exact h3
    · exact h4
  | trunc =>
    obtain ⟨u, rfl, h1⟩ := are_one hin
    obtain ⟨k, h2, rfl⟩ := mirs_one hms
    have hout' : θ "M" = some t := hout
    have h1 : θ "N" = some u := h1
    obtain ⟨s, n, n', hn, hn'⟩ := hsp _ rfl
    have hn : θ "N" = some (tNum s n) := hn
    have hn' : θ "M" = some (tNum s n') := hn'
    cases some_det h1 hn
    cases some_det hout' hn'
    obtain ⟨a, b⟩ := hside _ List.mem_cons_self
    exact .trunc (tNum_isNum hX h2).1 (tNum_isNum hX hm).1 a b
  | concat =>
    obtain ⟨u, v, rfl, h1, h1'⟩ := are_two hin
    obtain ⟨k, k', h2, h2', rfl⟩ := mirs_two hms
    have hout' : θ "K" = some t := hout
    have h1 : θ "N" = some u := h1
    have h1' : θ "M" = some v := h1'
    obtain ⟨s, n, n', hn, hn', hk⟩ := hsp _ rfl
    have hn : θ "N" = some (tNum s n) := hn
    have hn' : θ "M" = some (tNum s n') := hn'
    have hk : θ "K" = some (tNum s (n + n')) := hk
    cases some_det h1 hn
    cases some_det h1' hn'
    cases some_det hout' hk
    obtain ⟨a1, a2⟩ := tNum_isNum hX h2
    obtain ⟨b1, b2⟩ := tNum_isNum hX h2'
    obtain ⟨c1, c2⟩ := tNum_isNum hX hm
    exact .concat a1 b1 c1 (by omega)
  | sext =>
    obtain ⟨u, rfl, h1⟩ := are_one hin
    obtain ⟨k, h2, rfl⟩ := mirs_one hms
    have hout' : (TSpec.declared 1 [.spec (.generic "M")]).Is θ t := hout
    simp only [TSpec.Is, TExp.Are, TExp.Is] at h1 hout'
    obtain ⟨_, rfl, a, _, rfl, ha, rfl⟩ := h1
    obtain ⟨_, rfl, b, _, rfl, hb, rfl⟩ := hout'
    obtain ⟨n, h3, rfl⟩ := mir_number (s := true) hX h2
    obtain ⟨n', h4, rfl⟩ := mir_number (s := true) hX hm
    have := wider_le (hw wider (by simp [intrHead])) ha hb h3 h4
    obtain ⟨p, q⟩ := hside _ List.mem_cons_self
    simp only [if_true, Codegen.MTy.size] at p q ⊢
    exact .sext this p q
  | zext =>
    obtain ⟨u, rfl, h1⟩ := are_one hin
    obtain ⟨k, h2, rfl⟩ := mirs_one hms
    have hout' : (TSpec.declared 2 [.spec (.generic "M")]).Is θ t := hout
    simp only [TSpec.Is, TExp.Are, TExp.Is] at h1 hout'
    obtain ⟨_, rfl, a, _, rfl, ha, rfl⟩ := h1
    obtain ⟨_, rfl, b, _, rfl, hb, rfl⟩ := hout'
    obtain ⟨n, h3, rfl⟩ := mir_number (s := false) hX h2
    obtain ⟨n', h4, rfl⟩ := mir_number (s := false) hX hm
    have := wider_le (hw wider (by simp [intrHead])) ha hb h3 h4
    have p := hside _ List.mem_cons_self
    simp only [Bool.false_eq_true, if_false, Codegen.MTy.size] at p ⊢
    exact .zext this p

end Spade.Elab

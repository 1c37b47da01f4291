import Verif.Sim.Inv
/-! Bits of ranges. -/
namespace Spade.Sim

open Spade.Codegen
open Spade.Vcd (Str Ty)

variable {α : Type}

mutual
/-- A type without wires in one direction has in the other direction as many as the type with `inv` in front has
in this one. -/
theorem resolve_flip (b : Bool) : ∀ t : Ty, (resolve b t).toMir.size = 0 →
    (resolve b t).toMir.backSize = (resolve (!b) t).toMir.size
  | .error, h => by simp [resolve, Ty.toMir, MTy.size] at h
  | .tuple ts, h => by
    simp only [resolve, Ty.toMir, MTy.size, MTy.backSize] at h ⊢
    exact resolves_flip b ts h
  | .struct _ ts, h => by
    simp only [resolve, Ty.toMir, MTy.size, MTy.backSize] at h ⊢
    exact resolves_flip b ts h
  | .array t n, h => by
    simp only [resolve, Ty.toMir, MTy.size, MTy.backSize, Nat.mul_eq_zero] at h ⊢
    rcases h with h | h
    · first
        | (rw [resolve_flip b t h])
        | (subst h; simp)
    · first
        | (rw [resolve_flip b t h])
        | (subst h; simp)
  | .backward t, h => by
    simp only [resolve] at h ⊢
    exact resolve_flip (!b) t h
  | .int n, h => by cases b <;> simp_all [resolve, Ty.toMir, MTy.size, MTy.backSize]
  | .uint n, h => by cases b <;> simp_all [resolve, Ty.toMir, MTy.size, MTy.backSize]
  | .bool, h => by cases b <;> simp_all [resolve, Ty.toMir, MTy.size, MTy.backSize]
  | .memory t n, h => by cases b <;> simp_all [resolve, Ty.toMir, MTy.size, MTy.backSize]
  | .inout t, h => by cases b <;> simp_all [resolve, Ty.toMir, MTy.size, MTy.backSize]
  | .enum ns o, h => by cases b <;> simp_all [resolve, Ty.toMir, MTy.size, MTy.backSize]
  | .copyView t, h => by cases b <;> simp_all [resolve, Ty.toMir, MTy.size, MTy.backSize]
theorem resolves_flip (b : Bool) : ∀ ts : List Ty, sizes (Vcd.toMirs (resolves b ts)) = 0 →
    backSizes (Vcd.toMirs (resolves b ts)) = sizes (Vcd.toMirs (resolves (!b) ts))
  | [], h => by simp [resolves, Vcd.toMirs, sizes, backSizes]
  | t :: ts, h => by
    simp only [resolves, Vcd.toMirs, sizes, backSizes] at h ⊢
    rw [resolve_flip b t (by omega), resolves_flip b ts (by omega)]
end

theorem split_sizes : ∀ (szs : List Nat) (l : List α), l.length = szs.sum →
    ∃ bss : List (List α), bss.map List.length = szs ∧ bss.flatten = l
  | [], l, h => ⟨[], rfl, by simpa using (List.length_eq_zero_iff.mp (by simpa using h)).symm⟩
  | n :: szs, l, h => by
    rw [List.sum_cons] at h
    obtain ⟨bss, h1, h2⟩ := split_sizes szs (l.drop n) (by simp; omega)
    exact ⟨l.take n :: bss, by simp [h1]; omega, by simp [h2]⟩

/-- Which field a path names depends on the type only. -/
theorem Part.shape {β : Type} {d : Dir} {t v : Ty} {p : List Str} {bits sub : List α} (h : Part d t p bits v sub) :
    ∀ bits' : List β, bits'.length = bits.length → ∃ sub', Part d t p bits' v sub' := by
  induction h with
  | here h => intro bits' h'; exact ⟨bits', .here (by omega)⟩
  | @field ns ts f u path v i bss b sub h1 h2 h3 h4 h5 h6 ih =>
    intro bits' h'
    obtain ⟨bss', e1, rfl⟩ := split_sizes (bss.map List.length) bits' (by rw [h', List.length_flatten])
    have hi : i < bss'.length := by
      have := congrArg List.length e1
      simp only [List.length_map] at this
      rw [this]
      exact (List.getElem?_eq_some_iff.mp h5).1
    have hl : bss'[i].length = b.length := by
      have := congrArg (·[i]?) e1
      simpa [h5, hi] using this
    obtain ⟨sub', hs⟩ := ih bss'[i] hl
    exact ⟨sub', .field h1 h2 h3 (by rw [e1, h4]) (by simp [hi]) hs⟩

theorem map_range_getD (a : α) (bits : List α) : (List.range bits.length).map (fun i => bits.getD i a) = bits := by
  apply List.ext_getElem
  · simp
  · intro i h1 h2
    simp [h2]

theorem map_range'_getD (a : α) (bits : List α) (s k : Nat) (h : s + k ≤ bits.length) :
    (List.range' s k).map (fun i => bits.getD i a) = (bits.drop s).take k := by
  apply List.ext_getElem
  · simp; omega
  · intro i h1 h2
    simp only [List.length_map, List.length_range'] at h1
    simp [(by omega : s + i < bits.length)]

/-- Positions stand for bits. -/
theorem Part.bits {d : Dir} {t v : Ty} {p : List Str} {r : Range} {bits : List α}
    (hl : bits.length = wires d t.toMir) (hr : RangeOk (wires d t.toMir) r)
    (h : Part d t p (List.range (wires d t.toMir)) v (posn (some r))) :
    Part d t p bits v ((bits.drop r.start).take (r.stop - r.start)) := by
  obtain ⟨h1, h2, _⟩ := hr
  match bits, hl with
  | [], hl => simp only [List.length_nil] at hl; omega
  | a :: bits, hl =>
    have := h.map fun i => (a :: bits).getD i a
    rw [← hl, map_range_getD, posn, map_range'_getD a _ _ _ (by omega)] at this
    exact this

/-- Other bits at the positions of a field do not change fields whose paths part from its path. -/
theorem Part.other {d : Dir} {t v w : Ty} {p q : List Str} {r : Range} {bits bits' : List α} {s : List α}
    (hl : bits.length = wires d t.toMir) (hl' : bits'.length = wires d t.toMir)
    (h : Part d t p (List.range (wires d t.toMir)) v (posn (some r)))
    (hrest : ∀ i : Nat, i < bits.length → ¬ (r.start ≤ i ∧ i < r.stop) → bits'[i]? = bits[i]?)
    (hpq : Parted p q) (hq : Part d t q bits w s) : Part d t q bits' w s := by
  obtain ⟨c, f, g, p', q', hfg, rfl, rfl⟩ := hpq
  obtain ⟨ps, hps⟩ := hq.shape (List.range (wires d t.toMir)) (by simp [hl])
  have hdis := Part.disjoint hfg c List.nodup_range h hps
  match bits, bits', hl, hl' with
  | [], [], _, _ => exact hq
  | [], _ :: _, hl, hl' => simp only [List.length_nil, List.length_cons] at hl hl'; omega
  | _ :: _, [], hl, hl' => simp only [List.length_nil, List.length_cons] at hl hl'; omega
  | a :: bits, b :: bits', hl, hl' =>
    have h1 := hps.map fun i => (a :: bits).getD i a
    rw [← hl, map_range_getD] at h1
    obtain ⟨_, rfl⟩ := hq.unique h1
    have h2 := hps.map fun i => (b :: bits').getD i a
    rw [← hl', map_range_getD] at h2
    have : (ps.map fun i => (a :: bits).getD i a) = ps.map fun i => (b :: bits').getD i a := by
      apply List.map_congr_left
      intro i hi
      have hm := hps.mem i hi
      simp only [List.mem_range] at hm
      rw [← hl] at hm
      have hn : ¬ (r.start ≤ i ∧ i < r.stop) := by
        intro hc
        refine hdis i ?_ hi
        simp only [posn, List.mem_range'_1]
        omega
      simp only [List.getD_eq_getElem?_getD, hrest i hm hn]
    rw [this]
    exact h2

/-- The loop puts the bits into the range. -/
theorem setLoop_eq (bits : List α) : ∀ (n i idx : Nat) (sig : List α), i + n = bits.length → idx + n ≤ sig.length →
    setLoop bits n i idx sig =
      some (sig.take (sig.length - idx - n) ++ bits.take n ++ sig.drop (sig.length - idx))
  | 0, i, idx, sig, h, h' => by simp [setLoop]
  | n + 1, i, idx, sig, h, h' => by
    have hn : n < bits.length := by omega
    have e1 : getDown bits i = some bits[n] := by
      simp only [getDown, (by omega : i < bits.length), if_true, (by omega : bits.length - 1 - i = n)]
      simp [hn]
    have e2 : setDown sig idx bits[n] = some (sig.set (sig.length - 1 - idx) bits[n]) := by
      simp [setDown, (by omega : idx < sig.length)]
    simp only [setLoop, e1, e2, Option.bind_eq_bind, Option.bind_some]
    rw [setLoop_eq bits n (i + 1) (idx + 1) _ (by omega) (by simp; omega)]
    simp only [List.length_set, Option.some.injEq]
    have e3 : sig.length - 1 - idx = sig.length - (idx + 1) := by omega
    have e4 : sig.length - (idx + 1) - n = sig.length - idx - (n + 1) := by omega
    rw [e3, e4, List.take_set_of_le (by omega), List.take_succ_eq_append_getElem hn]
    have hlt : sig.length - (idx + 1) < sig.length := by omega
    have e5 : (sig.set (sig.length - (idx + 1)) bits[n]).drop (sig.length - (idx + 1)) =
        bits[n] :: sig.drop (sig.length - idx) := by
      rw [List.drop_eq_getElem_cons (by simpa using hlt)]
      simp only [List.getElem_set_self]
      rw [List.drop_set_of_lt (by omega), (by omega : sig.length - (idx + 1) + 1 = sig.length - idx)]
    rw [e5]
    simp only [List.append_assoc, List.singleton_append, List.cons_append, List.nil_append]

end Spade.Sim

import Verif.Stream.Run
/-! # Windows of a stream (C67) -/
namespace Spade.Stream
open Spade.Codegen Spade.Lower Spade.Expr Spade.Std Spade.Entity
open Spade.Match (Val Matches HasTy)

/-- The inputs of an entity are the stream, its clock and reset, and perhaps others. -/
structure Feeds (ins : Inputs) (s : Stream) (T : MTy) : Prop where
  items : ∀ t, ins t 0 = some (item (s.item t))
  clk : ∀ t, ins t 1 = some (.bool (s.clk t))
  rst : ∀ t, ins t 2 = some (.bool (s.rst t))
  typed : ∀ t v, s.item t = some v → Is T v

theorem Feeds.taken {ins : Inputs} {s : Stream} {T : MTy} (h : Feeds ins s T) : ∀ t, AllIs T (s.taken t)
  | 0 => by simp [Stream.taken, AllIs]
  | t + 1 => by
    intro v hv
    simp only [Stream.taken] at hv
    split at hv
    · split at hv
      · simp at hv
      · rcases List.mem_append.mp hv with hv | hv
        · exact h.typed t v (by simpa using hv)
        · exact h.taken t v hv
    · exact h.taken t v hv

variable {P : Prog} {num : Key → Nat} {D : Ents} {u : Nat} {ins : Inputs} {s : Stream} {T : MTy} {N : Nat}

section
variable (L : Lib P num) (hsf : (P (num (.shiftFront T N))).isSome)
  (his : (P (num (.op (.isSome T)))).isSome) (hN : 0 < N) (hD : D u = some (window num T N))
  (hf : Feeds ins s T) {d : Nat → Val} (hd : ∀ t, ins t 3 = some (d t)) (hdT : ∀ t, Is T (d t))
include hD hf

theorem window_item (t : Nat) : Known P D u ins t 0 (item (s.item t)) :=
  .input (p := (0, option T)) (k := 0) hD rfl (hf.items t)

theorem window_clk (t : Nat) : Known P D u ins t 1 (.bool (s.clk t)) :=
  .input (p := (1, .bool)) (k := 1) hD rfl (hf.clk t)

theorem window_rst (t : Nat) : Known P D u ins t 2 (.bool (s.rst t)) :=
  .input (p := (2, .bool)) (k := 2) hD rfl (hf.rst t)

include L hsf hN

/-- The next value of the register. -/
theorem window_next {t : Nat} {vs : List Val} (hv : Known P D u ins t 4 (.tup vs))
    (hvs : Is (.array T N) (.tup vs)) :
    Known P D u ins t 5 (.tup (((s.item t).toList ++ vs).take N)) := by
  obtain ⟨hl, hall⟩ := is_array.1 hvs
  refine known_let (ty := .array T N) (e := windowNext num T N) hD (by simp [window]) ?_
  refine gives [(0, item (s.item t)), (4, .tup vs)] ?_ ?_
  · cases hi : s.item t with
    | none =>
      rw [show (Option.toList (none : Option Val) ++ vs).take N = vs by simp [← hl]]
      exact .match (.var rfl) (.next (not_some (by decide)) (.plain ⟨rfl, trivial⟩ (.var rfl)))
    | some v =>
      have hne : vs ≠ [] := by rintro rfl; simp at hl; omega
      have hvs' := hvs
      have e : vs = vs.dropLast ++ [vs.getLast hne] := (List.dropLast_concat_getLast hne).symm
      have e2 : (Option.toList (some v) ++ vs).take N = v :: vs.dropLast := by
        rw [← hl, List.dropLast_eq_take]
        obtain ⟨x, xs, rfl⟩ := List.exists_cons_of_ne_nil hne
        simp
      rw [e2]
      rw [e] at hvs'
      have hr := shiftFront_returns L hsf hvs' (hf.typed t v hi)
      rw [← e] at hr
      exact .match (.var rfl) (.plain ⟨rfl, trivial, trivial⟩
        (ev_call (.cons (.var rfl) (.cons (.var rfl) .nil)) hr))
  · intro p hp
    simp only [List.mem_cons, List.not_mem_nil, or_false] at hp
    rcases hp with rfl | rfl
    · exact window_item hD hf t
    · exact hv

/-- What the register holds, without the value that is there now. -/
def Stream.held (s : Stream) (N : Nat) (padding : Val) (t : Nat) : List Val :=
  (s.taken t ++ List.replicate N padding).take N

omit L hsf hN hD in
theorem held_is {p : Val} (hp : Is T p) (t : Nat) : Is (.array T N) (.tup (s.held N p t)) := by
  refine is_array.2 ⟨?_, fun v hv => ?_⟩
  · simp [Stream.held]
  · rcases List.mem_append.mp (List.mem_of_mem_take hv) with h | h
    · exact hf.taken t v h
    · rw [(List.mem_replicate.mp h).2]
      exact hp

include hd hdT

theorem window_state : ∀ {t r : Nat}, s.lastReset t = some r →
    State P D u ins t (windowReg T N) (.tup (s.held N (d r) t))
  | 0, r, h => by cases h
  | t + 1, r, h => by
    have hc : ∀ t, Gives P D u ins t (windowReg T N).clock (.bool (s.clk t)) :=
      fun t => gives_var (window_clk hD hf t)
    by_cases hr : rises s.clk t = true
    · obtain ⟨h1, h2⟩ := rises_iff hr
      have c1 := hc t
      have c2 := hc (t + 1)
      rw [h1] at c1
      rw [h2] at c2
      by_cases hrst : s.rst t = true
      · simp only [Stream.lastReset, hr, hrst, Bool.and_self, if_true, Option.some.injEq] at h
        subst h
        have : s.held N (d t) (t + 1) = List.replicate N (d t) := by
          simp [Stream.held, Stream.taken, hr, hrst]
        rw [this]
        have k2 := window_rst (P := P) hD hf t
        rw [hrst] at k2
        refine .reset rfl c1 c2 (gives_var k2) ?_
        refine gives [(3, d t)] (.rep (.var rfl)) ?_
        simp only [List.mem_singleton]
        rintro p rfl
        exact .input (p := (3, T)) (k := 3) hD rfl (hd t)
      · rw [Bool.not_eq_true] at hrst
        simp only [Stream.lastReset, hr, hrst, Bool.and_false, Bool.false_eq_true, if_false] at h
        have ih := window_state h
        have k := window_next L hsf hN hD hf (known_reg hD (by simp [window]) rfl ih) (held_is hf (hdT r) t)
        have : s.held N (d r) (t + 1) = ((s.item t).toList ++ s.held N (d r) t).take N := by
          simp only [Stream.held, Stream.taken, hr, hrst, if_true, Bool.false_eq_true, if_false]
          cases s.item t with
          | none => simp [List.take_take]
          | some v =>
            obtain ⟨M, rfl⟩ : ∃ M, N = M + 1 := ⟨N - 1, by omega⟩
            simp only [Option.toList_some, List.singleton_append, List.cons_append, List.take_succ_cons,
              List.nil_append, List.take_take, Nat.min_eq_left (Nat.le_succ M)]
        rw [this]
        have k2 := window_rst (P := P) hD hf t
        rw [hrst] at k2
        exact .run rfl c1 c2 (gives_var k2) (gives_var k)
    · rw [Bool.not_eq_true] at hr
      simp only [Stream.lastReset, hr, Bool.false_and, Bool.false_eq_true, if_false] at h
      have : s.held N (d r) (t + 1) = s.held N (d r) t := by
        simp [Stream.held, Stream.taken, hr]
      rw [this]
      exact state_keep hc hr (window_state h)

include his

theorem window_gives {t r : Nat} (h : s.lastReset t = some r) :
    Gives P D u ins t (window num T N).result (optional (s.window N (d r) t)) := by
  have k := window_next L hsf hN hD hf (known_reg hD (by simp [window]) rfl
    (window_state L hsf hN hD hf hd hdT h)) (held_is hf (hdT r) t)
  cases hi : s.item t with
  | none =>
    simp only [Stream.window, hi, Option.map_none]
    have h0 := window_item (P := P) hD hf t
    rw [hi] at h0
    refine gives [(0, item none)] ?_ (by simpa using h0)
    exact .iteFalse (ev_call (.cons (.var rfl) .nil) (isSome_returns L his).2) (.variant .nil)
  | some v =>
    have h0 := window_item (P := P) hD hf t
    rw [hi] at h0 k
    have e : ((Option.toList (some v) ++ s.held N (d r) t).take N) =
        (v :: s.taken t ++ List.replicate N (d r)).take N := by
      obtain ⟨M, rfl⟩ : ∃ M, N = M + 1 := ⟨N - 1, by omega⟩
      simp only [Stream.held, Option.toList_some, List.singleton_append, List.cons_append,
        List.take_succ_cons, List.nil_append, List.take_take, Nat.min_eq_left (Nat.le_succ M)]
    rw [e] at k
    simp only [Stream.window, hi, Option.map_some]
    refine gives [(0, item (some v)), (5, .tup ((v :: s.taken t ++ List.replicate N (d r)).take N))] ?_ ?_
    · exact .iteTrue (ev_call (.cons (.var rfl) .nil) ((isSome_returns L his).1 v))
        (.variant (.cons (.var rfl) .nil))
    · intro p hp
      simp only [List.mem_cons, List.not_mem_nil, or_false] at hp
      rcases hp with rfl | rfl
      · exact h0
      · exact k

omit hsf hN hd hdT in
theorem window_none {t : Nat} (hi : s.item t = none) :
    Gives P D u ins t (window num T N).result (optional none) := by
  have h0 := window_item (P := P) hD hf t
  rw [hi] at h0
  refine gives [(0, item none)] ?_ (by simpa using h0)
  exact .iteFalse (ev_call (.cons (.var rfl) .nil) (isSome_returns L his).2) (.variant .nil)

end

end Spade.Stream

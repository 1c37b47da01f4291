import Verif.Stream.Window
/-! # Chunks of a stream (C67) -/
namespace Spade.Stream
open Spade.Codegen Spade.Lower Spade.Expr Spade.Std Spade.Entity
open Spade.Match (Val Matches HasTy)

variable {P : Prog} {num : Key → Nat} {D : Ents} {u : Nat} {ins : Inputs} {s : Stream} {T : MTy} {N : Nat}

theorem lt_bitsFor (N : Nat) : N < 2 ^ bitsFor N := by
  simp only [bitsFor]
  split
  · subst_vars; decide
  · exact Nat.lt_log2_self

theorem wrap_small {w c : Nat} (h : c < 2 ^ w) : wrap (.uint w) (c : Int) = c := by
  simp only [wrap]
  exact Int.emod_eq_of_lt (by omega) (by exact_mod_cast h)

/-- The sum of the counter and one. -/
theorem ev_succ {env : Vars} {c : Nat} (hc : env 3 = some (.int c)) (hcN : c < N) {a b : Nat} :
    Ev P env (.bin a (.uint (bitsFor N + 1)) .add (.var 3 (.uint (bitsFor N)))
      (.int b (.uint (bitsFor N)) 1)) (.int ((c + 1 : Nat) : Int)) := by
  refine .bin (.var hc) .int ?_
  simp only [binVal]
  have hlt : c + 1 < 2 ^ (bitsFor N + 1) := by
    have := lt_bitsFor N
    rw [Nat.pow_succ]
    omega
  have := wrap_small hlt
  rw [← this]
  simp

theorem ev_isLast (L : Lib P num) (heq : (P (num (.op (.eq (.uint (bitsFor N + 1)))))).isSome)
    {env : Vars} {c : Nat} (hc : env 3 = some (.int c)) (hcN : c < N) (id : Nat) :
    Ev P env (isLast num id N) (.bool (decide (c + 1 = N))) := by
  obtain ⟨b, hb, hi⟩ := eq_returns L (v := .int ((c + 1 : Nat) : Int)) (w := .int (N : Int)) heq
  have : decide (c + 1 = N) = b := by
    rw [Bool.eq_iff_iff, hi, decide_eq_true_eq, Val.int.injEq]
    omega
  rw [this]
  exact ev_call (.cons (ev_succ hc hcN) (.cons .int .nil)) hb

section
variable (L : Lib P num) (heq : (P (num (.op (.eq (.uint (bitsFor N + 1)))))).isSome)
  (hcat : (P (num (.concat T (N - 1) 1))).isSome) (hand : (P (num (.op (.logic .and)))).isSome)
  (his : (P (num (.op (.isSome T)))).isSome) (hN : 0 < N)
  {start : Expr} {ids : List (Nat × MTy)} (hD : D u = some (chunks num T N start ids))
  (hf : Feeds ins s T) {w0 : List Val} (hs : Ev P (fun _ => none) start (.tup w0))
  (hw0 : Is (.array T N) (.tup w0))
include hD hf

theorem chunks_item (t : Nat) : Known P D u ins t 0 (item (s.item t)) :=
  .input (p := (0, option T)) (k := 0) hD rfl (hf.items t)

theorem chunks_clk (t : Nat) : Known P D u ins t 1 (.bool (s.clk t)) :=
  .input (p := (1, .bool)) (k := 1) hD rfl (hf.clk t)

theorem chunks_rst (t : Nat) : Known P D u ins t 2 (.bool (s.rst t)) :=
  .input (p := (2, .bool)) (k := 2) hD rfl (hf.rst t)

include L heq hN

theorem count_next {t c : Nat} (hc : Known P D u ins t 3 (.int c)) (hcN : c < N) :
    Gives P D u ins t (countNext num T N)
      (.int (((c + (s.item t).toList.length) % N : Nat) : Int)) := by
  refine gives [(0, item (s.item t)), (3, .int c)] ?_ ?_
  · cases hi : s.item t with
    | none =>
      rw [show (c + (Option.toList (none : Option Val)).length) % N = c from Nat.mod_eq_of_lt hcN]
      exact .match (.var rfl) (.next (not_some (by decide)) (.plain ⟨rfl, trivial⟩
        (.block .nil (.var rfl))))
    | some v =>
      refine .match (.var rfl) (.plain ⟨rfl, trivial, trivial⟩ (.block .nil ?_))
      have hl := fun env he => ev_isLast (P := P) (env := env) L heq (c := c) he hcN 13
      by_cases h1 : c + 1 = N
      · rw [decide_eq_true h1] at hl
        rw [show (c + (Option.toList (some v)).length) % N = 0 by simp [h1]]
        exact .iteTrue (hl _ rfl) (.block .nil .int)
      · rw [decide_eq_false h1] at hl
        have e : (c + (Option.toList (some v)).length) % N = c + 1 := Nat.mod_eq_of_lt (by simp; omega)
        rw [e]
        refine .iteFalse (hl _ rfl) (.block .nil ?_)
        have hlt : c + 1 < 2 ^ bitsFor N := by
          have := lt_bitsFor N
          omega
        have w := wrap_small hlt
        have k := IntrVal.trunc (ts := [.uint (bitsFor N + 1)]) (ty := .uint (bitsFor N))
          (x := ((c + 1 : Nat) : Int))
        rw [w] at k
        exact .intr (.cons (ev_succ rfl hcN) .nil) k
  · intro p hp
    simp only [List.mem_cons, List.not_mem_nil, or_false] at hp
    rcases hp with rfl | rfl
    · exact chunks_item hD hf t
    · exact hc

theorem count_state : ∀ {t r : Nat}, s.lastReset t = some r →
    State P D u ins t (countReg num T N) (.int (((s.taken t).length % N : Nat) : Int))
  | 0, r, h => by cases h
  | t + 1, r, h => by
    have hc : ∀ t, Gives P D u ins t (countReg num T N).clock (.bool (s.clk t)) :=
      fun t => gives_var (chunks_clk hD hf t)
    by_cases hr : rises s.clk t = true
    · obtain ⟨h1, h2⟩ := rises_iff hr
      have c1 := hc t
      have c2 := hc (t + 1)
      rw [h1] at c1
      rw [h2] at c2
      have k2 := chunks_rst (P := P) hD hf t
      by_cases hrst : s.rst t = true
      · have : s.taken (t + 1) = [] := by simp [Stream.taken, hr, hrst]
        rw [this]
        rw [hrst] at k2
        refine .reset rfl c1 c2 (gives_var k2) (gives [] ?_ (by simp))
        simp only [List.length_nil, Nat.zero_mod]
        exact .int
      · rw [Bool.not_eq_true] at hrst
        simp only [Stream.lastReset, hr, hrst, Bool.and_false, Bool.false_eq_true, if_false] at h
        have ih := count_state h
        have k := count_next L heq hN hD hf (known_reg hD (by simp [chunks]) rfl ih) (Nat.mod_lt _ hN)
        have : (s.taken (t + 1)).length % N =
            ((s.taken t).length % N + (s.item t).toList.length) % N := by
          simp only [Stream.taken, hr, hrst, if_true, Bool.false_eq_true, if_false, List.length_append,
            Nat.mod_add_mod]
          rw [Nat.add_comm]
        rw [this]
        rw [hrst] at k2
        exact .run rfl c1 c2 (gives_var k2) k
    · rw [Bool.not_eq_true] at hr
      simp only [Stream.lastReset, hr, Bool.false_and, Bool.false_eq_true, if_false] at h
      have : s.taken (t + 1) = s.taken t := by simp [Stream.taken, hr]
      rw [this]
      exact state_keep hc hr (count_state h)

omit heq
include hcat

/-- The next value of the array: the new value comes last, the first one is dropped. -/
theorem chunk_next {t : Nat} {vs : List Val} (hv : Known P D u ins t 4 (.tup vs))
    (hvs : Is (.array T N) (.tup vs)) :
    Known P D u ins t 5 (.tup (((s.item t).toList ++ vs.reverse).take N).reverse) := by
  obtain ⟨hl, hall⟩ := is_array.1 hvs
  refine known_let (ty := .array T N) (e := chunkNext num T N) hD (by simp [chunks]) ?_
  refine gives [(0, item (s.item t)), (4, .tup vs)] ?_ ?_
  · cases hi : s.item t with
    | none =>
      rw [show ((Option.toList (none : Option Val) ++ vs.reverse).take N).reverse = vs by
        rw [Option.toList_none, List.nil_append, List.take_of_length_le (by simp [hl]), List.reverse_reverse]]
      exact .match (.var rfl) (.next (not_some (by decide)) (.plain ⟨rfl, trivial⟩ (.var rfl)))
    | some v =>
      obtain ⟨x, xs, rfl⟩ : ∃ x xs, vs = x :: xs := by
        cases vs with
        | nil => simp at hl; omega
        | cons x xs => exact ⟨x, xs, rfl⟩
      have hxs : xs.length = N - 1 := by simp at hl; omega
      have e2 : ((Option.toList (some v) ++ (x :: xs).reverse).take N).reverse = xs ++ [v] := by
        obtain ⟨M, rfl⟩ : ∃ M, N = M + 1 := ⟨N - 1, by omega⟩
        simp at hxs
        simp [← hxs]
      rw [e2]
      have hx : Is (.array T (N - 1)) (.tup xs) :=
        is_array.2 ⟨hxs, fun y hy => hall y (List.mem_cons_of_mem _ hy)⟩
      refine .match (.var rfl) (.plain ⟨rfl, trivial, trivial⟩
        (ev_cat L hcat hx (is_one (hf.typed t v hi)) ?_ (.array (.cons (.var rfl) .nil))))
      have k := Ev.range (P := P) (env := Vars.extend (fun n => List.lookup n [(0, item (some v)), (4, .tup (x :: xs))])
        ((LPat.variant 26 (option T) 1 [.bound 27 T]).binds (item (some v)))) (id := 29)
        (ty := .array T (N - 1)) (a := .var 4 (.array T N)) (start := some 1) (stop := some N)
        (vs := x :: xs) (.var rfl)
      have e3 : List.drop 1 (List.take N (x :: xs)) = xs := by
        rw [← hl]
        simp
      simp only [Option.getD_some] at k
      rw [e3] at k
      exact k
  · intro p hp
    simp only [List.mem_cons, List.not_mem_nil, or_false] at hp
    rcases hp with rfl | rfl
    · exact chunks_item hD hf t
    · exact hv

include hs hw0

/-- The array holds the values that were taken, the latest last, and others before them. -/
theorem chunk_state : ∀ t, ∃ ws rest, State P D u ins t (chunkReg T N start) (.tup ws) ∧
    Is (.array T N) (.tup ws) ∧ ws.reverse = (s.taken t ++ rest).take N
  | 0 => ⟨w0, w0.reverse, .initial rfl hs, hw0, by
      rw [Stream.taken, List.nil_append, List.take_of_length_le]
      simp [(is_array.1 hw0).1]⟩
  | t + 1 => by
    have hc : ∀ t, Gives P D u ins t (chunkReg T N start).clock (.bool (s.clk t)) :=
      fun t => gives_var (chunks_clk hD hf t)
    obtain ⟨ws, rest, ih, hws, he⟩ := chunk_state t
    by_cases hr : rises s.clk t = true
    · obtain ⟨h1, h2⟩ := rises_iff hr
      have c1 := hc t
      have c2 := hc (t + 1)
      rw [h1] at c1
      rw [h2] at c2
      have k := chunk_next L hcat hN hD hf (known_reg hD (by simp [chunks]) rfl ih) hws
      obtain ⟨hl, hall⟩ := is_array.1 hws
      refine ⟨_, if s.rst t then ((s.item t).toList ++ ws.reverse) else rest,
        .tick rfl c1 c2 (gives_var k), ?_, ?_⟩
      · refine is_array.2 ⟨?_, fun v hv => ?_⟩
        · simp [hl]
        · rw [List.mem_reverse] at hv
          rcases List.mem_append.mp (List.mem_of_mem_take hv) with h | h
          · exact hf.typed t v (by simpa using h)
          · exact hall v (by simpa using h)
      · rw [List.reverse_reverse]
        simp only [Stream.taken, hr, if_true]
        by_cases hrst : s.rst t = true
        · simp [hrst]
        · simp only [hrst, if_false, Bool.false_eq_true]
          rw [he]
          cases s.item t with
          | none => simp [List.take_take]
          | some v =>
            obtain ⟨M, rfl⟩ : ∃ M, N = M + 1 := ⟨N - 1, by omega⟩
            simp only [Option.toList_some, List.singleton_append, List.cons_append, List.take_succ_cons,
              List.nil_append, List.take_take, Nat.min_eq_left (Nat.le_succ M)]
    · rw [Bool.not_eq_true] at hr
      refine ⟨ws, rest, state_keep hc hr ih, hws, ?_⟩
      rw [he]
      simp [Stream.taken, hr]

include heq hand his

theorem chunks_gives {t r : Nat} (h : s.lastReset t = some r) :
    Gives P D u ins t (chunks num T N start ids).result (optional (s.chunk N t)) := by
  obtain ⟨ws, rest, ih, hws, he⟩ := chunk_state L hcat hN hD hf hs hw0 t
  have k := chunk_next L hcat hN hD hf (known_reg hD (by simp [chunks]) rfl ih) hws
  have kc : Known P D u ins t 3 (.int (((s.taken t).length % N : Nat) : Int)) :=
    known_reg (r := countReg num T N) hD (by simp [chunks]) rfl (count_state L heq hN hD hf h)
  have h0 := chunks_item (P := P) hD hf t
  have hlt := Nat.mod_lt (s.taken t).length hN
  refine gives [(0, item (s.item t)), (3, .int (((s.taken t).length % N : Nat) : Int)),
    (5, .tup (((s.item t).toList ++ ws.reverse).take N).reverse)] ?_ ?_
  · have hl := ev_isLast (P := P) (env := fun n => List.lookup n [(0, item (s.item t)),
      (3, .int (((s.taken t).length % N : Nat) : Int)),
      (5, .tup (((s.item t).toList ++ ws.reverse).take N).reverse)]) L heq rfl hlt 34
    cases hi : s.item t with
    | none =>
      rw [hi] at hl
      simp only [Stream.chunk, hi]
      refine .iteFalse (ev_call (.cons hl (.cons (ev_call (.cons (.var rfl) .nil)
        (isSome_returns L his).2) .nil)) ?_) (.variant .nil)
      have k := logic_returns (P := P) (l := .and) (a := decide ((s.taken t).length % N + 1 = N)) (b := false) L hand
      simpa [Logic.val] using k
    | some v =>
      rw [hi] at hl
      simp only [Stream.chunk, hi]
      have k := logic_returns (P := P) (l := .and) (a := decide ((s.taken t).length % N + 1 = N)) (b := true) L hand
      have e := ev_call (id := 33) (ty := .bool) (.cons hl (.cons (ev_call (id := 38) (ty := .bool) (.cons (.var (n := 0) (ty := option T) rfl) .nil)
        ((isSome_returns L his).1 v)) .nil)) k
      have hiff : ((s.taken t).length + 1) % N = 0 ↔ (s.taken t).length % N + 1 = N := by
        constructor
        · intro h
          apply Classical.byContradiction
          intro hne
          rw [Nat.add_mod] at h
          by_cases h1 : N = 1
          · subst h1; omega
          · rw [Nat.mod_eq_of_lt (a := 1) (by omega), Nat.mod_eq_of_lt (by omega)] at h
            omega
        · intro h
          rw [← Nat.mod_add_mod, h, Nat.mod_self]
      by_cases hl2 : (s.taken t).length % N + 1 = N
      · rw [if_pos (hiff.2 hl2)]
        simp only [hl2, decide_true, Logic.val, Bool.and_self] at e
        refine .iteTrue e (.variant (.cons (.var ?_) .nil))
        have hge : N ≤ (v :: s.taken t).length := Nat.le_of_dvd (by simp) (Nat.dvd_of_mod_eq_zero (hiff.2 hl2))
        have e4 : (v :: s.taken t).take N = ((Option.toList (some v)) ++ ws.reverse).take N := by
          rw [he]
          obtain ⟨M, rfl⟩ : ∃ M, N = M + 1 := ⟨N - 1, by omega⟩
          simp only [Option.toList_some, List.singleton_append, List.cons_append, List.take_succ_cons,
              List.nil_append, List.take_take, Nat.min_eq_left (Nat.le_succ M)]
          simp at hge
          rw [List.take_append_of_le_length hge]
        rw [e4]
        rfl
      · rw [if_neg (fun h => hl2 (hiff.1 h))]
        simp only [hl2, decide_false, Logic.val, Bool.false_and] at e
        exact .iteFalse e (.variant .nil)
  · intro p hp
    simp only [List.mem_cons, List.not_mem_nil, or_false] at hp
    rcases hp with rfl | rfl | rfl
    · exact h0
    · exact kc
    · exact k

end

end Spade.Stream

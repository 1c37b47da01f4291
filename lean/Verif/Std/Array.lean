import Verif.Std.Base
/-! # The functions on arrays evaluate to what is documented -/
namespace Spade.Std
open Spade.Verilog Spade.Codegen Spade.Lower Spade.Expr
open Spade.Match (Val HasTy HasTys Matches MatchesAll)

variable {P : Prog} {num : Key → Nat}

theorem concat_returns (L : Lib P num) {T : MTy} {N M : Nat} {xs ys : List Val}
    (h : (P (num (.concat T N M))).isSome) (hx : Is (.array T N) (.tup xs))
    (hy : Is (.array T M) (.tup ys)) :
    Returns P (num (.concat T N M)) [.tup xs, .tup ys] (.tup (xs ++ ys)) :=
  L.ret h (.intr (.cons (.tuple (.cons (.var rfl) (.cons (.var rfl) .nil))) .nil)
    (join_transmute hx hy))

theorem splitAt_returns (L : Lib P num) {T : MTy} {N K : Nat} {xs : List Val}
    (h : (P (num (.splitAt T N K))).isSome) (hK : K ≤ N) (hx : Is (.array T N) (.tup xs)) :
    Returns P (num (.splitAt T N K)) [.tup xs] (.tup [.tup (xs.take K), .tup (xs.drop K)]) :=
  L.ret h (.block (.bind (.intr (.cons (.var rfl) .nil) (cut_transmute hK hx))
    ⟨trivial, trivial, trivial⟩ .nil)
    (.tuple (.cons (.var rfl) (.cons (.var rfl) .nil))))

/-- `let (l, r) = e.split_at();`. -/
theorem evStms_split (L : Lib P num) {env env' : Vars} {id l r : Nat} {T : MTy} {N K : Nat}
    {e : Expr} {xs : List Val} {ss : List Stm}
    (h : (P (num (.splitAt T N K))).isSome) (hK : K ≤ N) (hx : Is (.array T N) (.tup xs))
    (he : Ev P env e (.tup xs))
    (rest : EvStms P (env.extend [(l, .array T K, .tup (xs.take K)),
      (r, .array T (N - K), .tup (xs.drop K))]) ss env') :
    EvStms P env (splitLet num id l r T N K e :: ss) env' :=
  .bind (ev_call (.cons he .nil) (splitAt_returns L h hK hx)) ⟨trivial, trivial, trivial⟩
    rest

theorem ev_cat (L : Lib P num) {env : Vars} {id : Nat} {T : MTy} {N M K : Nat} {a b : Expr}
    {xs ys : List Val} (h : (P (num (.concat T N M))).isSome) (hx : Is (.array T N) (.tup xs))
    (hy : Is (.array T M) (.tup ys)) (ha : Ev P env a (.tup xs)) (hb : Ev P env b (.tup ys)) :
    Ev P env (cat num id T N M K a b) (.tup (xs ++ ys)) :=
  ev_call (.cons ha (.cons hb .nil)) (concat_returns L h hx hy)

theorem is_take {T : MTy} {N K : Nat} (hK : K ≤ N) {xs : List Val} (h : Is (.array T N) (.tup xs)) :
    Is (.array T K) (.tup (xs.take K)) := by
  rw [is_array] at h ⊢
  exact ⟨by simp; omega, fun v hv => h.2 v (List.mem_of_mem_take hv)⟩

theorem is_drop {T : MTy} {N K : Nat} {xs : List Val} (h : Is (.array T N) (.tup xs)) :
    Is (.array T (N - K)) (.tup (xs.drop K)) := by
  rw [is_array] at h ⊢
  exact ⟨by simp [h.1], fun v hv => h.2 v (List.mem_of_mem_drop hv)⟩

theorem is_map {T O : MTy} {N : Nat} {xs : List Val} {g : Val → Val} (h : Is (.array T N) (.tup xs))
    (hg : ∀ x, Is T x → Is O (g x)) : Is (.array O N) (.tup (xs.map g)) := by
  rw [is_array] at h ⊢
  refine ⟨by simp [h.1], fun v hv => ?_⟩
  obtain ⟨x, hx, rfl⟩ := List.mem_map.1 hv
  exact hg x (h.2 x hx)

theorem is_reverse {T : MTy} {N : Nat} {xs : List Val} (h : Is (.array T N) (.tup xs)) :
    Is (.array T N) (.tup xs.reverse) := by
  rw [is_array] at h ⊢
  exact ⟨by simp [h.1], fun v hv => h.2 v (by simpa using hv)⟩

theorem is_one {T : MTy} {x : Val} (h : Is T x) : Is (.array T 1) (.tup [x]) := by
  rw [is_array]; exact ⟨rfl, fun v hv => by cases List.mem_singleton.1 hv; exact h⟩

/-- Arrays of one element. -/
theorem is_one_elim {T : MTy} {xs : List Val} (h : Is (.array T 1) (.tup xs)) :
    ∃ x, xs = [x] ∧ Is T x := by
  rw [is_array] at h
  match xs, h with
  | [x], h => exact ⟨x, rfl, h.2 x (by simp)⟩

theorem is_zero_elim {T : MTy} {xs : List Val} (h : Is (.array T 0) (.tup xs)) : xs = [] := by
  rw [is_array] at h
  simpa using h.1

theorem is_succ_elim {T : MTy} {N : Nat} {xs : List Val} (h : Is (.array T (N + 1)) (.tup xs)) :
    ∃ x ys, xs = x :: ys ∧ Is T x ∧ Is (.array T N) (.tup ys) := by
  rw [is_array] at h
  match xs, h with
  | x :: ys, h => exact ⟨x, ys, rfl, h.2 x (by simp), is_array.2 ⟨by simpa using h.1, fun v hv => h.2 v (by simp [hv])⟩⟩

/-- Finds a unit among those a body calls. -/
local macro "called" : tactic =>
  `(tactic| simp [Expr.calls, Stms.calls, Exprs.calls, cat, splitLet])

theorem ev_eq {env : Vars} {e : Expr} {v w : Val} (h : Ev P env e v) (hv : v = w) : Ev P env e w := hv ▸ h

theorem ev_eq' {u : Nat} {vs : List Val} {v w : Val} (h : Returns P u vs v) (hv : v = w) : Returns P u vs w :=
  hv ▸ h

theorem map_returns (L : Lib P num) {T O : MTy} {f : Clo} {c : Val} {g : Val → Val}
    (hf : IsFn P f.call c T O g) (N : Nat) : ∀ {xs : List Val}, (P (num (.map T O N f))).isSome →
    Is (.array T N) (.tup xs) →
    Returns P (num (.map T O N f)) [.tup xs, c] (.tup (xs.map g)) := by
  induction N using Nat.strongRecOn with
  | _ N ih =>
  intro xs h hx
  refine L.ret h ?_
  rcases Nat.lt_or_ge N 2 with hN | hN
  · match N, hN with
    | 0, _ =>
      cases is_zero_elim hx
      exact .array .nil
    | 1, _ =>
      obtain ⟨x, rfl, hx'⟩ := is_one_elim hx
      exact .array (.cons (ev_call (.cons (.var rfl) (.cons (.tuple (.cons (ev_first (.var rfl)) .nil)) .nil))
        (hf x hx').2) .nil)
  · have sub : ∀ {n}, n ∈ (std num (.map T O N f)).body.calls → (P n).isSome := fun hc => L.sub h hc
    have h0 : N ≠ 0 := by omega
    have h1 : N ≠ 1 := by omega
    simp only [std, h0, h1, if_false] at sub ⊢
    refine .block (evStms_split L (sub (by called)) (by omega) hx (.var rfl) .nil)
      (ev_eq (ev_cat L (sub (by called)) (is_map (is_take (by omega) hx) fun x h => (hf x h).1)
        (is_map (is_drop hx) fun x h => (hf x h).1)
        (ev_call (.cons (.var rfl) (.cons (.var rfl) .nil))
          (ih (N / 2) (by omega) (sub (by called)) (is_take (by omega) hx)))
        (ev_call (.cons (.var rfl) (.cons (.var rfl) .nil))
          (ih (N - N / 2) (by omega) (sub (by called)) (is_drop hx)))) ?_)
    rw [← List.map_append, List.take_append_drop]

theorem reversed_returns (L : Lib P num) {T : MTy} (N : Nat) : ∀ {xs : List Val},
    (P (num (.reversed T N))).isSome → Is (.array T N) (.tup xs) →
    Returns P (num (.reversed T N)) [.tup xs] (.tup xs.reverse) := by
  induction N using Nat.strongRecOn with
  | _ N ih =>
  intro xs h hx
  refine L.ret h ?_
  rcases Nat.lt_or_ge N 2 with hN | hN
  · simp only [std, hN, if_true]
    match N, hN with
    | 0, _ =>
      cases is_zero_elim hx
      exact .var rfl
    | 1, _ =>
      obtain ⟨x, rfl, hx'⟩ := is_one_elim hx
      exact .var rfl
  · have sub : ∀ {n}, n ∈ (std num (.reversed T N)).body.calls → (P n).isSome := fun hc => L.sub h hc
    have h0 : ¬ N < 2 := by omega
    simp only [std, h0, if_false] at sub ⊢
    refine .block (evStms_split L (sub (by called)) (by omega) hx (.var rfl) .nil)
      (ev_eq (ev_cat L (sub (by called)) (is_reverse (is_drop hx)) (is_reverse (is_take (by omega) hx))
        (ev_call (.cons (.var rfl) .nil) (ih (N - N / 2) (by omega) (sub (by called)) (is_drop hx)))
        (ev_call (.cons (.var rfl) .nil) (ih (N / 2) (by omega) (sub (by called)) (is_take (by omega) hx)))) ?_)
    rw [← List.reverse_append, List.take_append_drop]

theorem is_cons {T : MTy} {N : Nat} {x : Val} {xs : List Val} (h : Is T x) (h' : Is (.array T N) (.tup xs)) :
    Is (.array T (N + 1)) (.tup (x :: xs)) := by
  rw [is_array] at h' ⊢
  refine ⟨by simp [h'.1], fun v hv => ?_⟩
  rcases List.mem_cons.1 hv with rfl | hv
  · exact h
  · exact h'.2 v hv

theorem is_iterates {T : MTy} {g : Val → Val} (hg : ∀ x, Is T x → Is T (g x)) : ∀ (N : Nat) {x : Val}, Is T x →
    Is (.array T N) (.tup (iterates g N x))
  | 0, _, _ => is_array.2 ⟨rfl, fun v hv => by cases hv⟩
  | N + 1, _, h => is_cons h (is_iterates hg N (hg _ h))

theorem unfold_returns (L : Lib P num) {T : MTy} {f : Clo} {c : Val} {g : Val → Val}
    (hf : IsFn P f.call c T T g) (N : Nat) : ∀ {x : Val}, (P (num (.unfold T N f))).isSome → Is T x →
    Returns P (num (.unfold T N f)) [x, c] (.tup (iterates g N x)) := by
  induction N with
  | zero => intro x h hx; exact L.ret h (.array .nil)
  | succ N ih =>
    intro x h hx
    refine L.ret h ?_
    have sub : ∀ {n}, n ∈ (std num (.unfold T (N + 1) f)).body.calls → (P n).isSome := fun hc => L.sub h hc
    simp only [std, Nat.add_one_ne_zero, if_false, Nat.add_sub_cancel] at sub ⊢
    exact ev_cat L (sub (by called)) (is_one hx) (is_iterates (fun x h => (hf x h).1) N (hf x hx).1)
      (.array (.cons (.var rfl) .nil))
      (ev_call (.cons (ev_call (.cons (.var rfl) (.cons (.tuple (.cons (.var rfl) .nil)) .nil)) (hf x hx).2)
        (.cons (.var rfl) .nil)) (ih (sub (by called)) (hf x hx).1))

theorem fold_returns (L : Lib P num) {T B : MTy} {f : Clo} {c : Val} {g : Val → Val → Val}
    (hf : IsFn2 P f.call c B T B g) (N : Nat) : ∀ {xs : List Val} {a : Val}, (P (num (.fold T B N f))).isSome →
    Is (.array T N) (.tup xs) → Is B a →
    Returns P (num (.fold T B N f)) [.tup xs, a, c] (xs.foldl g a) := by
  induction N with
  | zero =>
    intro xs a h hx ha
    cases is_zero_elim hx
    exact L.ret h (.var rfl)
  | succ N ih =>
    intro xs a h hx ha
    obtain ⟨x, ys, rfl, hx', hys⟩ := is_succ_elim hx
    refine L.ret h ?_
    have sub : ∀ {n}, n ∈ (std num (.fold T B (N + 1) f)).body.calls → (P n).isSome := fun hc => L.sub h hc
    simp only [std, Nat.add_one_ne_zero, if_false, Nat.add_sub_cancel] at sub ⊢
    have r : (Val.tup (((x :: ys).take ((none : Option Nat).getD (x :: ys).length)).drop ((some 1).getD 0))) =
        .tup ys := by simp
    exact .block (.bind (ev_call (.cons (.var rfl) (.cons (.tuple (.cons (.var rfl)
        (.cons (ev_first (.var rfl)) .nil))) .nil)) (hf a x ha hx').2) trivial .nil)
      (ev_call (.cons (ev_eq (.range (.var rfl)) r) (.cons (.var rfl) (.cons (.var rfl) .nil)))
        (ih (sub (by called)) hys (hf a x ha hx').1))

theorem is_bool {b : Bool} : Is .bool (.bool b) := by simp only [Is, srcTy]; exact .bool

theorem IsPred.isFn {u : Nat} {c : Val} {T : MTy} {p : Val → Bool} (h : IsPred P u c T p) :
    IsFn P u c T .bool fun x => .bool (p x) := fun x hx => ⟨is_bool, h x hx⟩

theorem reduceAnd_returns (L : Lib P num) {N : Nat} {bs : List Bool} (h : (P (num (.reduceAnd N))).isSome) :
    Returns P (num (.reduceAnd N)) [bools bs] (.bool (bs.all id)) :=
  L.ret h (.intr (.cons (.var rfl) .nil) .reduceAnd)

theorem reduceOr_returns (L : Lib P num) {N : Nat} {bs : List Bool} (h : (P (num (.reduceOr N))).isSome) :
    Returns P (num (.reduceOr N)) [bools bs] (.bool (bs.any id)) :=
  L.ret h (.intr (.cons (.var rfl) .nil) .reduceOr)

theorem reduceXor_returns (L : Lib P num) {N : Nat} {bs : List Bool} (h : (P (num (.reduceXor N))).isSome) :
    Returns P (num (.reduceXor N)) [bools bs] (.bool (bs.foldl (· ^^ ·) false)) :=
  L.ret h (.intr (.cons (.var rfl) .nil) .reduceXor)

theorem all_returns (L : Lib P num) {T : MTy} {N : Nat} {f : Clo} {c : Val} {p : Val → Bool} {xs : List Val}
    (hf : IsPred P f.call c T p) (h : (P (num (.all T N f))).isSome) (hx : Is (.array T N) (.tup xs)) :
    Returns P (num (.all T N f)) [.tup xs, c] (.bool (xs.all p)) := by
  refine L.ret h ?_
  have sub : ∀ {n}, n ∈ (std num (.all T N f)).body.calls → (P n).isSome := fun hc => L.sub h hc
  match N with
  | 0 => cases is_zero_elim hx; exact .bool
  | N + 1 =>
    simp only [std, Nat.add_one_ne_zero, if_false] at sub ⊢
    have := ev_call (id := 2) (ty := .bool) (.cons (ev_call (id := 3) (ty := .array .bool (N + 1))
      (.cons (.var (P := P) (env := callVars [(0, .array T (N + 1)), (1, f.ty)] [.tup xs, c]) (n := 0)
        (ty := .array T (N + 1)) rfl) (.cons (.var (n := 1) (ty := f.ty) rfl) .nil))
      (ev_eq' (map_returns L hf.isFn _ (sub (by called)) hx) (w := bools (xs.map p)) (by simp [bools]))) .nil)
      (reduceAnd_returns (N := N + 1) L (sub (by called)))
    simpa [List.all_map] using this

theorem any_returns (L : Lib P num) {T : MTy} {N : Nat} {f : Clo} {c : Val} {p : Val → Bool} {xs : List Val}
    (hf : IsPred P f.call c T p) (h : (P (num (.any T N f))).isSome) (hx : Is (.array T N) (.tup xs)) :
    Returns P (num (.any T N f)) [.tup xs, c] (.bool (xs.any p)) := by
  refine L.ret h ?_
  have sub : ∀ {n}, n ∈ (std num (.any T N f)).body.calls → (P n).isSome := fun hc => L.sub h hc
  match N with
  | 0 => cases is_zero_elim hx; exact .bool
  | N + 1 =>
    simp only [std, Nat.add_one_ne_zero, if_false] at sub ⊢
    have := ev_call (id := 2) (ty := .bool) (.cons (ev_call (id := 3) (ty := .array .bool (N + 1))
      (.cons (.var (P := P) (env := callVars [(0, .array T (N + 1)), (1, f.ty)] [.tup xs, c]) (n := 0)
        (ty := .array T (N + 1)) rfl) (.cons (.var (n := 1) (ty := f.ty) rfl) .nil))
      (ev_eq' (map_returns L hf.isFn _ (sub (by called)) hx) (w := bools (xs.map p)) (by simp [bools]))) .nil)
      (reduceOr_returns (N := N + 1) L (sub (by called)))
    simpa [List.any_map] using this

theorem pushBack_returns (L : Lib P num) {T : MTy} {N : Nat} {xs : List Val} {x : Val}
    (h : (P (num (.pushBack T N))).isSome) (hx : Is (.array T N) (.tup xs)) (hv : Is T x) :
    Returns P (num (.pushBack T N)) [.tup xs, x] (.tup (xs ++ [x])) :=
  L.ret h (ev_cat L (L.sub h (by simp only [std]; called)) hx (is_one hv) (.var rfl)
    (.array (.cons (.var rfl) .nil)))

theorem pushFront_returns (L : Lib P num) {T : MTy} {N : Nat} {xs : List Val} {x : Val}
    (h : (P (num (.pushFront T N))).isSome) (hx : Is (.array T N) (.tup xs)) (hv : Is T x) :
    Returns P (num (.pushFront T N)) [.tup xs, x] (.tup (x :: xs)) :=
  L.ret h (ev_cat L (L.sub h (by simp only [std]; called)) (is_one hv) hx
    (.array (.cons (.var rfl) .nil)) (.var rfl))

theorem len_returns (L : Lib P num) {T : MTy} {N : Nat} {v : Val} (h : (P (num (.len T N))).isSome) :
    Returns P (num (.len T N)) [v] (.int N) := L.ret h .int

theorem first_returns (L : Lib P num) {T : MTy} {N : Nat} {x : Val} {xs : List Val}
    (h : (P (num (.first T N))).isSome) :
    Returns P (num (.first T N)) [.tup (x :: xs)] x := L.ret h (ev_first (.var rfl))

theorem ev_tail {env : Vars} {id : Nat} {ty : MTy} {e : Expr} {x : Val} {xs : List Val}
    (h : Ev P env e (.tup (x :: xs))) : Ev P env (.range id ty e (some 1) none) (.tup xs) :=
  ev_eq (.range h) (by simp)

theorem last_returns (L : Lib P num) {T : MTy} {N : Nat} {x : Val} {xs : List Val}
    (h : (P (num (.last T N))).isSome) (hx : Is (.array T N) (.tup (xs ++ [x]))) :
    Returns P (num (.last T N)) [.tup (xs ++ [x])] x := by
  refine L.ret h ?_
  have hN : N - 1 = xs.length := by have := (is_array.1 hx).1; simp at this; omega
  refine ev_first (xs := []) (ev_eq (.range (.var rfl)) ?_)
  simp only [hN, Option.getD_some, Option.getD_none, List.take_length, List.drop_left]

theorem reduce_returns (L : Lib P num) {T : MTy} {N : Nat} {f : Clo} {c : Val} {g : Val → Val → Val}
    {x : Val} {xs : List Val} (hf : IsFn2 P f.call c T T T g)
    (h : (P (num (.reduce T N f))).isSome) (hx : Is (.array T N) (.tup (x :: xs))) :
    Returns P (num (.reduce T N f)) [.tup (x :: xs), c] (xs.foldl g x) := by
  refine L.ret h ?_
  obtain ⟨N, rfl⟩ : ∃ M, N = M + 1 := ⟨N - 1, by have := (is_array.1 hx).1; simp at this; omega⟩
  obtain ⟨x', xs', e, h1, h2⟩ := is_succ_elim hx
  cases e
  exact ev_call (.cons (ev_tail (.var rfl)) (.cons (ev_first (.var rfl)) (.cons (.var rfl) .nil)))
    (fold_returns L hf N (L.sub h (by simp only [std]; called)) h2 h1)

theorem shiftBack_returns (L : Lib P num) {T : MTy} {N : Nat} {x y : Val} {xs : List Val}
    (h : (P (num (.shiftBack T N))).isSome) (hx : Is (.array T N) (.tup (x :: xs))) (hy : Is T y) :
    Returns P (num (.shiftBack T N)) [.tup (x :: xs), y] (.tup (xs ++ [y])) := by
  refine L.ret h ?_
  obtain ⟨N, rfl⟩ : ∃ M, N = M + 1 := ⟨N - 1, by have := (is_array.1 hx).1; simp at this; omega⟩
  obtain ⟨x', xs', e, h1, h2⟩ := is_succ_elim hx
  cases e
  exact ev_call (.cons (ev_tail (.var rfl)) (.cons (.var rfl) .nil))
    (pushBack_returns L (L.sub h (by simp only [std]; called)) h2 hy)

theorem shiftFront_returns (L : Lib P num) {T : MTy} {N : Nat} {x y : Val} {xs : List Val}
    (h : (P (num (.shiftFront T N))).isSome) (hx : Is (.array T N) (.tup (xs ++ [x]))) (hy : Is T y) :
    Returns P (num (.shiftFront T N)) [.tup (xs ++ [x]), y] (.tup (y :: xs)) := by
  refine L.ret h ?_
  have hN := (is_array.1 hx).1
  simp at hN
  refine ev_eq (.range (ev_call (.cons (.var rfl) (.cons (.var rfl) .nil))
    (pushFront_returns L (L.sub h (by simp only [std]; called)) hx hy))) ?_
  simp [← hN]

theorem is_pairs {T O : MTy} {N : Nat} {xs ys : List Val} (hx : Is (.array T N) (.tup xs))
    (hy : Is (.array O N) (.tup ys)) :
    Is (.array (.tuple [T, O]) N) (.tup (List.zipWith (fun x y => .tup [x, y]) xs ys)) := by
  rw [is_array] at hx hy ⊢
  refine ⟨by simp [hx.1, hy.1], fun v hv => ?_⟩
  rw [List.mem_iff_getElem] at hv
  obtain ⟨i, hi, rfl⟩ := hv
  rw [List.getElem_zipWith]
  exact is_tuple2 (hx.2 _ (List.getElem_mem _)) (hy.2 _ (List.getElem_mem _))

theorem zip_returns (L : Lib P num) {T O : MTy} (N : Nat) : ∀ {xs ys : List Val},
    (P (num (.zip T O N))).isSome → Is (.array T N) (.tup xs) → Is (.array O N) (.tup ys) →
    Returns P (num (.zip T O N)) [.tup xs, .tup ys] (.tup (List.zipWith (fun x y => .tup [x, y]) xs ys)) := by
  induction N using Nat.strongRecOn with
  | _ N ih =>
  intro xs ys h hx hy
  refine L.ret h ?_
  rcases Nat.lt_or_ge N 2 with hN | hN
  · match N, hN with
    | 0, _ =>
      cases is_zero_elim hx
      exact .array .nil
    | 1, _ =>
      obtain ⟨x, rfl, hx'⟩ := is_one_elim hx
      obtain ⟨y, rfl, hy'⟩ := is_one_elim hy
      exact .array (.cons (.tuple (.cons (ev_first (.var rfl)) (.cons (ev_first (.var rfl)) .nil))) .nil)
  · have sub : ∀ {n}, n ∈ (std num (.zip T O N)).body.calls → (P n).isSome := fun hc => L.sub h hc
    have h0 : N ≠ 0 := by omega
    have h1 : N ≠ 1 := by omega
    simp only [std, h0, h1, if_false] at sub ⊢
    refine .block (evStms_split L (sub (by called)) (by omega) hx (.var rfl)
      (evStms_split L (sub (by called)) (by omega) hy (.var rfl)
        (.bind (ev_call (.cons (.var rfl) (.cons (.var rfl) .nil))
            (ih (N / 2) (by omega) (sub (by called)) (is_take (by omega) hx) (is_take (by omega) hy))) trivial
          (.bind (ev_call (.cons (.var rfl) (.cons (.var rfl) .nil))
            (ih (N - N / 2) (by omega) (sub (by called)) (is_drop hx) (is_drop hy))) trivial .nil))))
      (ev_eq (ev_cat L (sub (by called)) (is_pairs (is_take (by omega) hx) (is_take (by omega) hy))
        (is_pairs (is_drop hx) (is_drop hy)) (.var rfl) (.var rfl)) ?_)
    have e : (xs.take (N / 2)).length = (ys.take (N / 2)).length := by
      have := (is_array.1 hx).1; have := (is_array.1 hy).1; simp; omega
    rw [← List.zipWith_append e, List.take_append_drop, List.take_append_drop]

theorem is_tuple2_elim {T U : MTy} {v : Val} (h : Is (.tuple [T, U]) v) :
    ∃ x y, v = .tup [x, y] ∧ Is T x ∧ Is U y := by
  simp only [Is, srcTy, srcTys] at h
  cases h with
  | tuple h =>
  cases h with
  | cons a h =>
  cases h with
  | cons b h =>
  cases h
  exact ⟨_, _, rfl, a, b⟩

/-- Component `0` or `1` of a pair. -/
def fst : Val → Val
  | .tup (x :: _) => x
  | v => v
def snd : Val → Val
  | .tup (_ :: y :: _) => y
  | v => v

theorem is_fst {S T : MTy} {v : Val} (h : Is (.tuple [S, T]) v) : Is S (fst v) := by
  obtain ⟨x, y, rfl, a, b⟩ := is_tuple2_elim h; exact a

theorem is_snd {S T : MTy} {v : Val} (h : Is (.tuple [S, T]) v) : Is T (snd v) := by
  obtain ⟨x, y, rfl, a, b⟩ := is_tuple2_elim h; exact b

theorem unzip_returns (L : Lib P num) {S T : MTy} (N : Nat) : ∀ {xs : List Val},
    (P (num (.unzip S T N))).isSome → Is (.array (.tuple [S, T]) N) (.tup xs) →
    Returns P (num (.unzip S T N)) [.tup xs] (.tup [.tup (xs.map fst), .tup (xs.map snd)]) := by
  induction N using Nat.strongRecOn with
  | _ N ih =>
  intro xs h hx
  refine L.ret h ?_
  rcases Nat.lt_or_ge N 2 with hN | hN
  · match N, hN with
    | 0, _ =>
      cases is_zero_elim hx
      exact .tuple (.cons (.array .nil) (.cons (.array .nil) .nil))
    | 1, _ =>
      obtain ⟨x, rfl, hx'⟩ := is_one_elim hx
      obtain ⟨a, b, rfl, -⟩ := is_tuple2_elim hx'
      exact .tuple (.cons (.array (.cons (.proj (ev_first (.var rfl)) (.tup rfl)) .nil))
        (.cons (.array (.cons (.proj (ev_first (.var rfl)) (.tup rfl)) .nil)) .nil))
  · have sub : ∀ {n}, n ∈ (std num (.unzip S T N)).body.calls → (P n).isSome := fun hc => L.sub h hc
    have h0 : N ≠ 0 := by omega
    have h1 : N ≠ 1 := by omega
    simp only [std, h0, h1, if_false] at sub ⊢
    have ht := is_take (K := N / 2) (by omega) hx
    have hd := is_drop (K := N / 2) hx
    refine .block (evStms_split L (sub (by called)) (by omega) hx (.var rfl)
      (.bind (ev_call (.cons (.var rfl) .nil) (ih (N / 2) (by omega) (sub (by called)) ht))
          ⟨trivial, trivial, trivial⟩
        (.bind (ev_call (.cons (.var rfl) .nil) (ih (N - N / 2) (by omega) (sub (by called)) hd))
          ⟨trivial, trivial, trivial⟩ .nil)))
      (.tuple (.cons (ev_eq (ev_cat L (sub (by called)) (is_map ht fun _ => is_fst) (is_map hd fun _ => is_fst)
          (.var rfl) (.var rfl)) ?_)
        (.cons (ev_eq (ev_cat L (sub (by called)) (is_map ht fun _ => is_snd) (is_map hd fun _ => is_snd)
          (.var rfl) (.var rfl)) ?_) .nil)))
    · rw [← List.map_append, List.take_append_drop]
    · rw [← List.map_append, List.take_append_drop]

theorem is_flatten {T : MTy} {M : Nat} : ∀ {N : Nat} {xss : List (List Val)},
    Is (.array (.array T M) N) (.tup (xss.map .tup)) → Is (.array T (N * M)) (.tup xss.flatten)
  | 0, xss, h => by
    have := is_zero_elim h
    simp at this; subst this
    exact is_array.2 ⟨by simp, fun v hv => by simp at hv⟩
  | N + 1, xss, h => by
    obtain ⟨x, ys, e, h1, h2⟩ := is_succ_elim h
    match xss, e with
    | xs :: xss, e =>
    simp only [List.map_cons, List.cons.injEq] at e
    obtain ⟨rfl, rfl⟩ := e
    have a := is_array.1 (is_flatten h2)
    have b := is_array.1 h1
    refine is_array.2 ⟨?_, fun v hv => ?_⟩
    · rw [List.flatten_cons, List.length_append, a.1, b.1, Nat.add_mul]; omega
    · rw [List.flatten_cons, List.mem_append] at hv
      exact hv.elim (b.2 v) (a.2 v)

theorem flatten_returns (L : Lib P num) {T : MTy} {M : Nat} (N : Nat) : ∀ {xss : List (List Val)},
    (P (num (.flatten T N M))).isSome → Is (.array (.array T M) N) (.tup (xss.map .tup)) →
    Returns P (num (.flatten T N M)) [.tup (xss.map .tup)] (.tup xss.flatten) := by
  induction N using Nat.strongRecOn with
  | _ N ih =>
  intro xss h hx
  refine L.ret h ?_
  rcases Nat.lt_or_ge N 2 with hN | hN
  · match N, hN with
    | 0, _ =>
      have := is_zero_elim hx
      simp at this; subst this
      exact .array .nil
    | 1, _ =>
      have hl := (is_array.1 hx).1
      match xss, hl with
      | [xs], _ => exact ev_eq (ev_first (.var rfl)) (by simp)
  · have sub : ∀ {n}, n ∈ (std num (.flatten T N M)).body.calls → (P n).isSome := fun hc => L.sub h hc
    have h0 : N ≠ 0 := by omega
    have h1 : N ≠ 1 := by omega
    simp only [std, h0, h1, if_false] at sub ⊢
    have ht := is_take (K := N / 2) (by omega) hx
    have hd := is_drop (K := N / 2) hx
    rw [← List.map_take] at ht
    rw [← List.map_drop] at hd
    refine .block (evStms_split L (sub (by called)) (by omega) hx (.var rfl) .nil)
      (ev_eq (ev_cat L (sub (by called)) (is_flatten ht) (is_flatten hd)
        (ev_call (.cons (.var (by rw [List.map_take]; rfl)) .nil) (ih (N / 2) (by omega) (sub (by called)) ht))
        (ev_call (.cons (.var (by rw [List.map_drop]; rfl)) .nil)
          (ih (N - N / 2) (by omega) (sub (by called)) hd))) ?_)
    rw [← List.flatten_append, List.take_append_drop]

theorem lamPair_returns (L : Lib P num) {T : MTy} {c x y : Val} (h : (P (num (.lamPair T))).isSome) :
    Returns P (num (.lamPair T)) [c, .tup [.tup [x, y]]] (.tup [x, y]) :=
  L.ret h (.block (.bind (.var rfl) ⟨⟨trivial, trivial, trivial⟩, trivial⟩ .nil)
    (.array (.cons (.var rfl) (.cons (.var rfl) .nil))))

theorem inTurn_eq : ∀ xs ys : List Val,
    (List.zipWith (fun x y => [x, y]) xs ys).flatten = inTurn xs ys
  | [], _ => by simp [inTurn]
  | _ :: _, [] => by simp [inTurn]
  | x :: xs, y :: ys => by simp [inTurn, inTurn_eq xs ys]

theorem map_calls (L : Lib P num) {T O : MTy} {f : Clo} (N : Nat) : N ≠ 0 →
    (P (num (.map T O N f))).isSome → (P f.call).isSome := by
  induction N using Nat.strongRecOn with
  | _ N ih =>
  intro hN h
  have sub : ∀ {n}, n ∈ (std num (.map T O N f)).body.calls → (P n).isSome := fun hc => L.sub h hc
  rcases Nat.lt_or_ge N 2 with h2 | h2
  · obtain rfl : N = 1 := by omega
    exact sub (by simp only [std]; called)
  · have h1 : N ≠ 1 := by omega
    simp only [std, hN, h1, if_false] at sub
    exact ih (N / 2) (by omega) (by omega) (sub (by called))

theorem interleave_returns (L : Lib P num) {T : MTy} {N : Nat} {xs ys : List Val}
    (h : (P (num (.interleave T N))).isSome) (hx : Is (.array T N) (.tup xs)) (hy : Is (.array T N) (.tup ys)) :
    Returns P (num (.interleave T N)) [.tup xs, .tup ys] (.tup (inTurn xs ys)) := by
  refine L.ret h ?_
  have sub : ∀ {n}, n ∈ (std num (.interleave T N)).body.calls → (P n).isSome := fun hc => L.sub h hc
  simp only [std] at sub ⊢
  have hm : (P (num (.map (.tuple [T, T]) (.array T 2) N ⟨.struct [], num (.lamPair T)⟩))).isSome :=
    sub (by called)
  have hp := is_pairs hx hy
  have hg : ∀ x, Is (.tuple [T, T]) x → Is (.array T 2) (.tup [fst x, snd x]) := fun x h =>
    is_cons (is_fst h) (is_one (is_snd h))
  have hr : Returns P (num (.map (.tuple [T, T]) (.array T 2) N ⟨.struct [], num (.lamPair T)⟩))
      [.tup (List.zipWith (fun x y => .tup [x, y]) xs ys), .tup []]
      (.tup ((List.zipWith (fun x y => .tup [x, y]) xs ys).map fun x => .tup [fst x, snd x])) := by
    by_cases h0 : N = 0
    · subst h0
      cases is_zero_elim hx
      exact L.ret hm (.array .nil)
    · refine map_returns L (fun x h => ⟨hg x h, ?_⟩) N hm hp
      obtain ⟨a, b, rfl, -⟩ := is_tuple2_elim h
      exact lamPair_returns L (map_calls L N h0 hm)
  have e : (List.zipWith (fun x y => Val.tup [x, y]) xs ys).map (fun x => Val.tup [fst x, snd x]) =
      (List.zipWith (fun x y => [x, y]) xs ys).map Val.tup := by
    simp [List.map_zipWith, fst, snd]
  have hm' := is_map hp hg
  rw [e] at hr hm'
  exact ev_eq (ev_call (.cons (ev_call (.cons (ev_call (.cons (.var rfl) (.cons (.var rfl) .nil))
      (zip_returns L N (sub (by called)) hx hy)) (.cons (.struct .nil) .nil)) hr) .nil)
    (flatten_returns L N (sub (by called)) hm')) (by rw [inTurn_eq])

theorem parts_cons {k : Nat} (hk : 0 < k) {xs : List Val} (h : k ≤ xs.length) :
    parts k xs = .tup (xs.take k) :: parts k (xs.drop k) := by
  unfold parts
  have e : xs.length / k = (xs.drop k).length / k + 1 := by
    rw [List.length_drop, Nat.div_eq_sub_div hk h]
  rw [e, List.range_succ_eq_map, List.map_cons, List.map_map]
  refine congr (congrArg _ (by simp)) (List.map_congr_left fun i _ => ?_)
  simp only [Function.comp, Nat.succ_eq_add_one, List.drop_drop]
  rw [show (i + 1) * k = k + i * k by rw [Nat.add_mul]; omega]

theorem is_parts {T : MTy} {K : Nat} (hK : 0 < K) (N : Nat) {xs : List Val} (h : Is (.array T N) (.tup xs)) :
    Is (.array (.array T K) (N / K)) (.tup (parts K xs)) := by
  have h' := is_array.1 h
  refine is_array.2 ⟨by simp [parts, h'.1], fun v hv => ?_⟩
  simp only [parts, List.mem_map, List.mem_range] at hv
  obtain ⟨i, hi, rfl⟩ := hv
  refine is_take (N := N - i * K) ?_ (is_drop h)
  rw [h'.1] at hi
  have : (i + 1) * K ≤ N / K * K := Nat.mul_le_mul_right K hi
  have := Nat.div_mul_le_self N K
  rw [Nat.add_mul] at *
  omega

theorem chunks_returns (L : Lib P num) {T : MTy} {K : Nat} (hK : 0 < K) (N : Nat) : ∀ {xs : List Val},
    (P (num (.chunks T N K))).isSome → N = N / K * K → Is (.array T N) (.tup xs) →
    Returns P (num (.chunks T N K)) [.tup xs] (.tup (parts K xs)) := by
  induction N using Nat.strongRecOn with
  | _ N ih =>
  intro xs h hd hx
  refine L.ret h ?_
  have sub : ∀ {n}, n ∈ (std num (.chunks T N K)).body.calls → (P n).isSome := fun hc => L.sub h hc
  by_cases h0 : N = 0
  · subst h0
    cases is_zero_elim hx
    exact ev_eq (.array .nil) (by simp [parts])
  · simp only [std, h0, if_false] at sub ⊢
    have hle : K ≤ N := by
      rcases Nat.lt_or_ge N K with h | h
      · rw [Nat.div_eq_of_lt h] at hd; omega
      · exact h
    have hd' : N - K = (N - K) / K * K := by
      rw [Nat.div_eq_sub_div hK hle, Nat.add_mul] at hd; omega
    have hr := is_drop (K := K) hx
    refine .block (evStms_split L (sub (by called)) hle hx (.var rfl) .nil)
      (ev_eq (ev_cat L (sub (by called)) (is_one (is_take hle hx)) (is_parts hK _ hr)
        (.array (.cons (.var rfl) .nil))
        (ev_call (.cons (.var rfl) .nil) (ih (N - K) (by omega) (sub (by called)) hd' hr))) ?_)
    rw [parts_cons (xs := xs) hK (by rw [(is_array.1 hx).1]; exact hle)]
    rfl

theorem windows_cons {m : Nat} {x : Val} {xs : List Val} (h : m ≤ xs.length) :
    windows m (x :: xs) = .tup ((x :: xs).take m) :: windows m xs := by
  unfold windows
  rw [List.length_cons, show xs.length + 1 - m + 1 = (xs.length - m + 1) + 1 by omega, List.range_succ_eq_map,
    List.map_cons, List.map_map]
  refine congr (congrArg _ (by simp)) (List.map_congr_left fun i _ => by simp)

theorem is_windows {T : MTy} {N M : Nat} (hM : M ≤ N) {xs : List Val} (h : Is (.array T N) (.tup xs)) :
    Is (.array (.array T M) (N - M + 1)) (.tup (windows M xs)) := by
  have h' := is_array.1 h
  refine is_array.2 ⟨by simp [windows, h'.1], fun v hv => ?_⟩
  simp only [windows, List.mem_map, List.mem_range] at hv
  obtain ⟨i, hi, rfl⟩ := hv
  rw [h'.1] at hi
  exact is_take (N := N - i) (by omega) (is_drop h)

theorem slidingWindow_returns (L : Lib P num) {T : MTy} {M : Nat} (N : Nat) : ∀ {xs : List Val},
    (P (num (.slidingWindow T N M))).isSome → M ≤ N → Is (.array T N) (.tup xs) →
    Returns P (num (.slidingWindow T N M)) [.tup xs] (.tup (windows M xs)) := by
  induction N with
  | zero =>
    intro xs h hM hx
    obtain rfl : M = 0 := by omega
    cases is_zero_elim hx
    exact L.ret h (.array (.cons (.var rfl) .nil))
  | succ N ih =>
    intro xs h hM hx
    refine L.ret h ?_
    have sub : ∀ {n}, n ∈ (std num (.slidingWindow T (N + 1) M)).body.calls → (P n).isSome := fun hc => L.sub h hc
    by_cases h0 : N + 1 = M
    · subst h0
      simp only [std, if_true]
      refine ev_eq (.array (.cons (.var rfl) .nil)) ?_
      have := (is_array.1 hx).1
      simp [windows, ← this]
    · simp only [std, h0, if_false, Nat.add_sub_cancel] at sub ⊢
      obtain ⟨x, ys, rfl, hx', hys⟩ := is_succ_elim hx
      have hl := (is_array.1 hys).1
      rw [windows_cons (by omega)]
      exact ev_cat L (sub (by called)) (is_one (is_take (by omega) hx)) (is_windows (by omega) hys)
        (.array (.cons (ev_eq (.range (.var rfl)) (by simp)) .nil))
        (ev_call (.cons (ev_tail (.var rfl)) .nil) (ih (sub (by called)) (by omega) hys))

end Spade.Std

import Verif.Std.Accept
/-!
# C58: the functions on arrays do what their documentation says

For every length, every element type and every function that is passed.  `num k` is the number that
the program has given to the function `k`; `Lib P num` says that the program contains the units of the
standard library that it uses (monomorphisation, C27), and `P.Ok` that it passes type inference.
-/
namespace Spade.Std
open Spade.Verilog Spade.Codegen Spade.Lower Spade.Expr
open Spade.Match (Val HasTy)

variable {P : Prog} {num : Key → Nat}

/-- There is only one value. -/
theorem Returns.computes (hP : P.Ok) {u : Nat} {vs : List Val} {w : Val} (h : Returns P u vs w) :
    Computes P u vs w := by
  obtain ⟨f, hf, he⟩ := h
  intro w'
  constructor
  · rintro ⟨f', hf', he'⟩
    rw [hf] at hf'
    cases hf'
    exact (ev_unique hP he (hP u f hf).2 he').symm
  · rintro rfl
    exact ⟨f, hf, he⟩

/-- `a.concat(b)`. -/
theorem C58_concat (hP : P.Ok) (L : Lib P num) (T : MTy) (N M : Nat) (xs ys : List Val)
    (h : (P (num (.concat T N M))).isSome) (hx : Is (.array T N) (.tup xs)) (hy : Is (.array T M) (.tup ys)) :
    Computes P (num (.concat T N M)) [.tup xs, .tup ys] (.tup (xs ++ ys)) :=
  (concat_returns L h hx hy).computes hP

/-- `a.split_at::<K>()`. -/
theorem C58_split_at (hP : P.Ok) (L : Lib P num) (T : MTy) (N K : Nat) (xs : List Val)
    (h : (P (num (.splitAt T N K))).isSome) (hK : K ≤ N) (hx : Is (.array T N) (.tup xs)) :
    Computes P (num (.splitAt T N K)) [.tup xs] (.tup [.tup (xs.take K), .tup (xs.drop K)]) :=
  (splitAt_returns L h hK hx).computes hP

/-- `a.map(f)`. -/
theorem C58_map (hP : P.Ok) (L : Lib P num) (T O : MTy) (N : Nat) (f : Clo) (c : Val) (g : Val → Val)
    (xs : List Val) (h : (P (num (.map T O N f))).isSome) (hf : IsFn P f.call c T O g)
    (hx : Is (.array T N) (.tup xs)) :
    Computes P (num (.map T O N f)) [.tup xs, c] (.tup (xs.map g)) :=
  (map_returns L hf N h hx).computes hP

/-- `a.reversed()`. -/
theorem C58_reversed (hP : P.Ok) (L : Lib P num) (T : MTy) (N : Nat) (xs : List Val)
    (h : (P (num (.reversed T N))).isSome) (hx : Is (.array T N) (.tup xs)) :
    Computes P (num (.reversed T N)) [.tup xs] (.tup xs.reverse) :=
  (reversed_returns L N h hx).computes hP

/-- `a.fold(init, f)`, from the first element on; see `C58_counterexample_fold`. -/
theorem C58_fold_partial (hP : P.Ok) (L : Lib P num) (T B : MTy) (N : Nat) (f : Clo) (c : Val)
    (g : Val → Val → Val) (xs : List Val) (init : Val) (h : (P (num (.fold T B N f))).isSome)
    (hf : IsFn2 P f.call c B T B g) (hx : Is (.array T N) (.tup xs)) (hi : Is B init) :
    Computes P (num (.fold T B N f)) [.tup xs, init, c] (xs.foldl g init) :=
  (fold_returns L hf N h hx hi).computes hP

/-- `a.reduce(f)`, from the first element on; see `C58_counterexample_fold`. -/
theorem C58_reduce_partial (hP : P.Ok) (L : Lib P num) (T : MTy) (N : Nat) (f : Clo) (c : Val)
    (g : Val → Val → Val) (x : Val) (xs : List Val) (h : (P (num (.reduce T N f))).isSome)
    (hf : IsFn2 P f.call c T T T g) (hx : Is (.array T N) (.tup (x :: xs))) :
    Computes P (num (.reduce T N f)) [.tup (x :: xs), c] (xs.foldl g x) :=
  (reduce_returns L hf h hx).computes hP

theorem foldr_of_assoc {T : MTy} {g : Val → Val → Val} (hg : ∀ x y, Is T x → Is T y → Is T (g x y))
    (ha : ∀ x y z, Is T x → Is T y → Is T z → g (g x y) z = g x (g y z)) :
    ∀ (xs : List Val) (x y : Val), AllIs T xs → Is T x → Is T y →
      xs.foldl g (g x y) = g x (xs.foldl g y)
  | [], _, _, _, _, _ => rfl
  | z :: xs, x, y, h, hx, hy => by
    have hz := h z (by simp)
    rw [List.foldl_cons, List.foldl_cons, ha x y z hx hy hz]
    exact foldr_of_assoc hg ha xs x (g y z) (fun v hv => h v (by simp [hv])) hx (hg y z hy hz)

/-- What the documentation says of `reduce`: `f(a0, f(a1, f(a2, ...)))`. -/
def nested (g : Val → Val → Val) : Val → List Val → Val
  | x, [] => x
  | x, y :: ys => g x (nested g y ys)

theorem foldl_nested {T : MTy} {g : Val → Val → Val} (hg : ∀ x y, Is T x → Is T y → Is T (g x y))
    (ha : ∀ x y z, Is T x → Is T y → Is T z → g (g x y) z = g x (g y z)) :
    ∀ (xs : List Val) (x : Val), AllIs T xs → Is T x → xs.foldl g x = nested g x xs
  | [], _, _, _ => rfl
  | y :: ys, x, h, hx => by
    have hy := h y (by simp)
    have hys : AllIs T ys := fun v hv => h v (by simp [hv])
    rw [List.foldl_cons, foldr_of_assoc hg ha ys x y hys hx hy, foldl_nested hg ha ys y hys hy]
    rfl

/-- `a.reduce(f)` is what is documented if `f` is associative. -/
theorem C58_reduce_associative (hP : P.Ok) (L : Lib P num) (T : MTy) (N : Nat) (f : Clo) (c : Val)
    (g : Val → Val → Val) (x : Val) (xs : List Val) (h : (P (num (.reduce T N f))).isSome)
    (hf : IsFn2 P f.call c T T T g)
    (ha : ∀ x y z, Is T x → Is T y → Is T z → g (g x y) z = g x (g y z))
    (hx : Is (.array T N) (.tup (x :: xs))) :
    Computes P (num (.reduce T N f)) [.tup (x :: xs), c] (nested g x xs) := by
  have hx' := (is_array.1 hx).2
  rw [← foldl_nested (fun x y h h' => (hf x y h h').1) ha xs x (fun v hv => hx' v (by simp [hv])) (hx' x (by simp))]
  exact (reduce_returns L hf h hx).computes hP

/-- `unfold::<T, N>(seed, f)`. -/
theorem C58_unfold (hP : P.Ok) (L : Lib P num) (T : MTy) (N : Nat) (f : Clo) (c : Val) (g : Val → Val)
    (seed : Val) (h : (P (num (.unfold T N f))).isSome) (hf : IsFn P f.call c T T g) (hs : Is T seed) :
    Computes P (num (.unfold T N f)) [seed, c] (.tup (iterates g N seed)) :=
  (unfold_returns L hf N h hs).computes hP

/-- `a.all(p)`. -/
theorem C58_all (hP : P.Ok) (L : Lib P num) (T : MTy) (N : Nat) (f : Clo) (c : Val) (p : Val → Bool)
    (xs : List Val) (h : (P (num (.all T N f))).isSome) (hf : IsPred P f.call c T p)
    (hx : Is (.array T N) (.tup xs)) :
    Computes P (num (.all T N f)) [.tup xs, c] (.bool (xs.all p)) :=
  (all_returns L hf h hx).computes hP

/-- `a.any(p)`. -/
theorem C58_any (hP : P.Ok) (L : Lib P num) (T : MTy) (N : Nat) (f : Clo) (c : Val) (p : Val → Bool)
    (xs : List Val) (h : (P (num (.any T N f))).isSome) (hf : IsPred P f.call c T p)
    (hx : Is (.array T N) (.tup xs)) :
    Computes P (num (.any T N f)) [.tup xs, c] (.bool (xs.any p)) :=
  (any_returns L hf h hx).computes hP

/-- `a.chunks::<K>()`. -/
theorem C58_chunks (hP : P.Ok) (L : Lib P num) (T : MTy) (N K : Nat) (hK : 0 < K) (xs : List Val)
    (h : (P (num (.chunks T N K))).isSome) (hd : N = N / K * K) (hx : Is (.array T N) (.tup xs)) :
    Computes P (num (.chunks T N K)) [.tup xs] (.tup (parts K xs)) :=
  (chunks_returns L hK N h hd hx).computes hP

/-- `a.sliding_window::<M>()`. -/
theorem C58_sliding_window (hP : P.Ok) (L : Lib P num) (T : MTy) (N M : Nat) (xs : List Val)
    (h : (P (num (.slidingWindow T N M))).isSome) (hM : M ≤ N) (hx : Is (.array T N) (.tup xs)) :
    Computes P (num (.slidingWindow T N M)) [.tup xs] (.tup (windows M xs)) :=
  (slidingWindow_returns L N h hM hx).computes hP

/-- `a.interleave(b)`. -/
theorem C58_interleave (hP : P.Ok) (L : Lib P num) (T : MTy) (N : Nat) (xs ys : List Val)
    (h : (P (num (.interleave T N))).isSome) (hx : Is (.array T N) (.tup xs)) (hy : Is (.array T N) (.tup ys)) :
    Computes P (num (.interleave T N)) [.tup xs, .tup ys] (.tup (inTurn xs ys)) :=
  (interleave_returns L h hx hy).computes hP

/-- `a.push_back(x)`. -/
theorem C58_push_back (hP : P.Ok) (L : Lib P num) (T : MTy) (N : Nat) (xs : List Val) (x : Val)
    (h : (P (num (.pushBack T N))).isSome) (hx : Is (.array T N) (.tup xs)) (hv : Is T x) :
    Computes P (num (.pushBack T N)) [.tup xs, x] (.tup (xs ++ [x])) :=
  (pushBack_returns L h hx hv).computes hP

/-- `a.push_front(x)`. -/
theorem C58_push_front (hP : P.Ok) (L : Lib P num) (T : MTy) (N : Nat) (xs : List Val) (x : Val)
    (h : (P (num (.pushFront T N))).isSome) (hx : Is (.array T N) (.tup xs)) (hv : Is T x) :
    Computes P (num (.pushFront T N)) [.tup xs, x] (.tup (x :: xs)) :=
  (pushFront_returns L h hx hv).computes hP

/-- `a.shift_back(y)`: the first element is dropped. -/
theorem C58_shift_back (hP : P.Ok) (L : Lib P num) (T : MTy) (N : Nat) (x : Val) (xs : List Val) (y : Val)
    (h : (P (num (.shiftBack T N))).isSome) (hx : Is (.array T N) (.tup (x :: xs))) (hy : Is T y) :
    Computes P (num (.shiftBack T N)) [.tup (x :: xs), y] (.tup (xs ++ [y])) :=
  (shiftBack_returns L h hx hy).computes hP

/-- `a.shift_front(y)`: the last element is dropped. -/
theorem C58_shift_front (hP : P.Ok) (L : Lib P num) (T : MTy) (N : Nat) (xs : List Val) (x y : Val)
    (h : (P (num (.shiftFront T N))).isSome) (hx : Is (.array T N) (.tup (xs ++ [x]))) (hy : Is T y) :
    Computes P (num (.shiftFront T N)) [.tup (xs ++ [x]), y] (.tup (y :: xs)) :=
  (shiftFront_returns L h hx hy).computes hP

/-- `a.zip(b)`. -/
theorem C58_zip (hP : P.Ok) (L : Lib P num) (T O : MTy) (N : Nat) (xs ys : List Val)
    (h : (P (num (.zip T O N))).isSome) (hx : Is (.array T N) (.tup xs)) (hy : Is (.array O N) (.tup ys)) :
    Computes P (num (.zip T O N)) [.tup xs, .tup ys]
      (.tup ((xs.zip ys).map fun p => .tup [p.1, p.2])) := by
  rw [show (xs.zip ys).map (fun p => Val.tup [p.1, p.2]) = List.zipWith (fun x y => .tup [x, y]) xs ys by
    simp [List.zip, List.map_zipWith]]
  exact (zip_returns L N h hx hy).computes hP

/-- `a.unzip()`. -/
theorem C58_unzip (hP : P.Ok) (L : Lib P num) (S T : MTy) (N : Nat) (ps : List (Val × Val))
    (h : (P (num (.unzip S T N))).isSome)
    (hx : Is (.array (.tuple [S, T]) N) (.tup (ps.map fun p => .tup [p.1, p.2]))) :
    Computes P (num (.unzip S T N)) [.tup (ps.map fun p => .tup [p.1, p.2])]
      (.tup [.tup (ps.map (·.1)), .tup (ps.map (·.2))]) := by
  have := (unzip_returns L N h hx).computes hP
  simpa only [List.map_map, Function.comp_def, fst, snd] using this

/-- `a.flatten()`. -/
theorem C58_flatten (hP : P.Ok) (L : Lib P num) (T : MTy) (N M : Nat) (xss : List (List Val))
    (h : (P (num (.flatten T N M))).isSome) (hx : Is (.array (.array T M) N) (.tup (xss.map .tup))) :
    Computes P (num (.flatten T N M)) [.tup (xss.map .tup)] (.tup xss.flatten) :=
  (flatten_returns L N h hx).computes hP

/-- `a.len()`. -/
theorem C58_len (hP : P.Ok) (L : Lib P num) (T : MTy) (N : Nat) (xs : List Val)
    (h : (P (num (.len T N))).isSome) (hx : Is (.array T N) (.tup xs)) :
    Computes P (num (.len T N)) [.tup xs] (.int xs.length) := by
  rw [(is_array.1 hx).1]
  exact (len_returns L h).computes hP

/-- `a.first()`. -/
theorem C58_first (hP : P.Ok) (L : Lib P num) (T : MTy) (N : Nat) (x : Val) (xs : List Val)
    (h : (P (num (.first T N))).isSome) :
    Computes P (num (.first T N)) [.tup (x :: xs)] x :=
  (first_returns L h).computes hP

/-- `a.last()`. -/
theorem C58_last (hP : P.Ok) (L : Lib P num) (T : MTy) (N : Nat) (x : Val) (xs : List Val)
    (h : (P (num (.last T N))).isSome) (hx : Is (.array T N) (.tup (xs ++ [x]))) :
    Computes P (num (.last T N)) [.tup (xs ++ [x])] x :=
  (last_returns L h hx).computes hP

/-- `a.reduce_and()`. -/
theorem C58_reduce_and (hP : P.Ok) (L : Lib P num) (N : Nat) (bs : List Bool)
    (h : (P (num (.reduceAnd N))).isSome) :
    Computes P (num (.reduceAnd N)) [.tup (bs.map .bool)] (.bool (bs.all id)) :=
  (reduceAnd_returns L h).computes hP

/-- `a.reduce_or()`. -/
theorem C58_reduce_or (hP : P.Ok) (L : Lib P num) (N : Nat) (bs : List Bool)
    (h : (P (num (.reduceOr N))).isSome) :
    Computes P (num (.reduceOr N)) [.tup (bs.map .bool)] (.bool (bs.any id)) :=
  (reduceOr_returns L h).computes hP

/-- `a.reduce_xor()`. -/
theorem C58_reduce_xor (hP : P.Ok) (L : Lib P num) (N : Nat) (bs : List Bool)
    (h : (P (num (.reduceXor N))).isSome) :
    Computes P (num (.reduceXor N)) [.tup (bs.map .bool)] (.bool (bs.foldl (· ^^ ·) false)) :=
  (reduceXor_returns L h).computes hP

/-- The functions pass type inference for all arguments that satisfy their `where` clauses, if the
functions that are passed have the types they are declared to have. -/
theorem C58_accepted (L : Lib P num)
    (hk : ∀ u f, P u = some f → (∃ k, f = std num k ∧ Good P k) ∨
      (∀ p ∈ f.params, f.types p.1 = p.2) ∧ f.body.Ok P.sig f.types) : P.Ok := by
  intro u f hu
  rcases hk u f hu with ⟨k, rfl, hg⟩ | h
  · exact ⟨params_ok k, body_ok L u k hu hg⟩
  · exact h

/-- The generated hardware outputs the bits of the value that a function returns. -/
theorem C58_hardware_partial (hP : P.Ok) (nids : Nat → Nat) (u : Nat) (f : Fn) (vs : List Val) (w : Val)
    (ins : List Bits) (out : Bits) (hu : P u = some f) (h : Computes P u vs w)
    (hins : EncAll (f.params.map (·.2)) vs ins) (hout : Produces (lowerProg P nids) u ins out) :
    Enc f.body.ty w out := by
  obtain ⟨f', hf, he⟩ := (h w).2 rfl
  rw [hu] at hf
  cases hf
  exact C45_function_value_partial P nids u f vs w ins out hP hu he hins hout

end Spade.Std

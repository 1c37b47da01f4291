import Verif.Std.Spec
import Verif.Std.Model
import Verif.Expr.Det
/-! # Splitting and joining arrays -/
namespace Spade.Std
open Spade.Verilog Spade.Codegen Spade.Lower Spade.Expr
open Spade.Match (Val HasTy HasTys Matches MatchesAll)

/-! ## Encodings of arrays -/

theorem encAll_append {ts us : List MTy} {vs ws : List Val} {bs cs : List Bits} (h : EncAll ts vs bs)
    (h' : EncAll us ws cs) : EncAll (ts ++ us) (vs ++ ws) (bs ++ cs) := by
  induction bs generalizing ts vs with
  | nil => cases h; exact h'
  | cons b bs ih => cases h with
    | cons h1 h2 => exact .cons h1 (ih h2)

theorem encAll_split {us : List MTy} : ∀ {ts : List MTy} {vs : List Val} {bs : List Bits},
    EncAll (ts ++ us) vs bs →
    EncAll ts (vs.take ts.length) (bs.take ts.length) ∧ EncAll us (vs.drop ts.length) (bs.drop ts.length)
  | [], vs, bs, h => ⟨.nil, h⟩
  | t :: ts, _, _, .cons h1 h2 => by
    obtain ⟨a, b⟩ := encAll_split (ts := ts) h2
    exact ⟨.cons h1 a, b⟩

/-- Bits of two arrays are those of the joined one. -/
theorem enc_join {T : MTy} {N M : Nat} {xs ys : List Val} {b : Bits}
    (h : Enc (.tuple [.array T M, .array T N]) (.tup [.tup ys, .tup xs]) b) :
    Enc (.array T (M + N)) (.tup (xs ++ ys)) b := by
  cases h with
  | tuple h =>
  cases h with
  | cons h1 h2 =>
  cases h2 with
  | cons h2 h3 =>
  cases h3
  cases h1 with
  | array h1 =>
  cases h2 with
  | array h2 =>
  have := Enc.array (t := T) (n := M + N) (vs := xs ++ ys)
    (by rw [Nat.add_comm, ← List.replicate_append_replicate]; exact encAll_append h2 h1)
  simpa using this

/-- Bits of an array are those of its parts. -/
theorem enc_cut {T : MTy} {N K : Nat} (hK : K ≤ N) {xs : List Val} {b : Bits}
    (h : Enc (.array T N) (.tup xs) b) :
    Enc (.tuple [.array T (N - K), .array T K]) (.tup [.tup (xs.drop K), .tup (xs.take K)]) b := by
  cases h with
  | @array _ _ _ bss h =>
  rw [show N = K + (N - K) by omega, ← List.replicate_append_replicate] at h
  obtain ⟨a, b⟩ := encAll_split h
  simp only [List.length_replicate] at a b
  have := Enc.tuple (.cons (.array b) (.cons (.array a) .nil))
  have e : [((bss.drop K).reverse).flatten, ((bss.take K).reverse).flatten].flatten = bss.reverse.flatten := by
    have : bss.reverse = (bss.drop K).reverse ++ (bss.take K).reverse := by
      rw [← List.reverse_append, List.take_append_drop]
    rw [this]; simp
  rw [e] at this
  exact this

/-! ## Types of arrays -/

theorem hasTys_replicate {t : Match.Ty} : ∀ {n : Nat} {vs : List Val},
    HasTys vs (List.replicate n t) ↔ vs.length = n ∧ ∀ v ∈ vs, HasTy v t
  | 0, vs => by
    constructor
    · intro h; cases h; simp
    · rintro ⟨h, -⟩; rw [List.length_eq_zero_iff] at h; subst h; exact .nil
  | n + 1, vs => by
    constructor
    · intro h
      cases h with
      | cons h1 h2 =>
      obtain ⟨a, b⟩ := hasTys_replicate.1 h2
      exact ⟨by simp [a], by simpa using ⟨h1, b⟩⟩
    · rintro ⟨h, h'⟩
      cases vs with
      | nil => simp at h
      | cons v vs => exact .cons (h' v (by simp)) (hasTys_replicate.2 ⟨by simpa using h, fun w hw => h' w (by simp [hw])⟩)

/-- Arrays are lists of the right length. -/
theorem is_array {T : MTy} {N : Nat} {xs : List Val} :
    Is (.array T N) (.tup xs) ↔ xs.length = N ∧ AllIs T xs := by
  simp only [Is, srcTy]
  constructor
  · intro h
    cases h with
    | array h => exact hasTys_replicate.1 h
  · intro h; exact .array (hasTys_replicate.2 h)

theorem is_tuple2 {T U : MTy} {v w : Val} (h : Is T v) (h' : Is U w) : Is (.tuple [T, U]) (.tup [v, w]) := by
  simp only [Is, srcTy, srcTys]
  exact .tuple (.cons h (.cons h' .nil))

/-! ## Transmutes -/

/-- Joining as a `transmute`. -/
theorem join_transmute {T : MTy} {N M : Nat} {xs ys : List Val} (hx : Is (.array T N) (.tup xs))
    (hy : Is (.array T M) (.tup ys)) :
    IntrVal .transmute [.tuple [.array T M, .array T N]] (.array T (M + N)) [.tup [.tup ys, .tup xs]]
      (.tup (xs ++ ys)) := by
  obtain ⟨b, hb⟩ := enc_exists _ _ (is_tuple2 hy hx)
  exact .transmute hb (enc_join hb)

/-- Splitting as a `transmute`. -/
theorem cut_transmute {T : MTy} {N K : Nat} (hK : K ≤ N) {xs : List Val}
    (hx : Is (.array T N) (.tup xs)) :
    IntrVal .transmute [.array T N] (.tuple [.array T (N - K), .array T K]) [.tup xs]
      (.tup [.tup (xs.drop K), .tup (xs.take K)]) := by
  obtain ⟨b, hb⟩ := enc_exists _ _ hx
  exact .transmute hb (enc_cut hK hb)

/-- Bits that do not belong to elements do not matter when arrays are joined. -/
theorem join_readable {T : MTy} {N M : Nat} :
    Readable (.tuple [.array T M, .array T N]) (.array T (M + N)) := by
  intro v w b b' h1 h2 h3
  have hv := enc_hasTy h1
  simp only [srcTy, srcTys] at hv
  cases hv with
  | tuple hv =>
  cases hv with
  | cons a hv =>
  cases hv with
  | cons c hv =>
  cases hv
  cases a
  cases c
  cases enc_unique h3 (enc_join h1)
  exact enc_join h2

/-- Bits that do not belong to elements do not matter when arrays are split. -/
theorem cut_readable {T : MTy} {N K : Nat} (hK : K ≤ N) :
    Readable (.array T N) (.tuple [.array T (N - K), .array T K]) := by
  intro v w b b' h1 h2 h3
  have hv := enc_hasTy h1
  simp only [srcTy] at hv
  cases hv
  cases enc_unique h3 (enc_cut hK h1)
  exact enc_cut hK h2

/-! ## Calls -/

variable {P : Prog} {num : Key → Nat}

theorem ev_call {env : Vars} {id u : Nat} {ty : MTy} {args : List Expr} {vs : List Val} {w : Val}
    (h : Evs P env args vs) (hr : Returns P u vs w) : Ev P env (.call id ty (.unit u) args) w := by
  obtain ⟨f, hf, he⟩ := hr
  exact .unit hf h he

/-- The program contains the units of the standard library that it needs: what has the number of one of
them is that unit, and the program contains what it calls. -/
structure Lib (P : Prog) (num : Key → Nat) : Prop where
  is : ∀ k, (P (num k)).isSome → P (num k) = some (std num k)
  closed : Closed P

theorem Lib.sub (L : Lib P num) {k : Key} {c : Nat} (h : (P (num k)).isSome)
    (hc : c ∈ (std num k).body.calls) : (P c).isSome :=
  L.closed _ _ (L.is k h) c hc

theorem Lib.ret (L : Lib P num) {k : Key} {vs : List Val} {w : Val} (h : (P (num k)).isSome)
    (he : Ev P (callVars (std num k).params vs) (std num k).body w) : Returns P (num k) vs w :=
  ⟨_, L.is k h, he⟩

/-- The first element. -/
theorem ev_first {env : Vars} {id i n : Nat} {ty : MTy} {e : Expr} {x : Val} {xs : List Val}
    (h : Ev P env e (.tup (x :: xs))) : Ev P env (.elem id ty e (lit i n 0)) x :=
  .elem h (k := 0) .int rfl

end Spade.Std

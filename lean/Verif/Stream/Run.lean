import Verif.Stream.Model
/-! # Running the entities on streams (C67) -/
namespace Spade.Stream
open Spade.Codegen Spade.Lower Spade.Expr Spade.Std Spade.Entity
open Spade.Match (Val Matches HasTy)

variable {P : Prog} {num : Key → Nat} {D : Ents} {u : Nat} {ins : Inputs}

theorem lookup_pair : ∀ {l : List (Nat × Val)} {n : Nat} {w : Val}, l.lookup n = some w → (n, w) ∈ l
  | [], _, _, h => by cases h
  | (k, v) :: l, n, w, h => by
    rw [List.lookup_cons] at h
    cases hk : n == k with
    | true =>
      rw [hk] at h
      cases h
      rw [beq_iff_eq] at hk
      simp [hk]
    | false =>
      rw [hk] at h
      exact List.mem_cons_of_mem _ (lookup_pair h)

/-- An expression has the value that it has with some of the known values. -/
theorem gives (l : List (Nat × Val)) {t : Nat} {e : Expr} {v : Val}
    (he : Ev P (fun n => l.lookup n) e v) (hk : ∀ p ∈ l, Known P D u ins t p.1 p.2) :
    Gives P D u ins t e v :=
  .mk he fun _ _ h => hk _ (lookup_pair h)

theorem gives_var {t n : Nat} {ty : MTy} {v : Val} (h : Known P D u ins t n v) :
    Gives P D u ins t (.var n ty) v :=
  gives [(n, v)] (.var (by simp)) (by simpa using h)

/-- A register that is bound to a variable. -/
theorem known_reg {E : Ent} (hD : D u = some E) {r : Reg} (hr : .reg r ∈ E.body) {n : Nat} {ty : MTy}
    (hp : r.p = .bound n ty) {t : Nat} {v : Val} (h : State P D u ins t r v) : Known P D u ins t n v :=
  .reg (ty := ty) hD hr h (by rw [hp]; trivial) (by rw [hp]; simp [LPat.binds])

/-- A `let` of a variable. -/
theorem known_let {E : Ent} (hD : D u = some E) {n : Nat} {ty : MTy} {e : Expr}
    (hs : .stm (.bind (.bound n ty) e) ∈ E.body) {t : Nat} {v : Val} (h : Gives P D u ins t e v) :
    Known P D u ins t n v :=
  .bind (ty := ty) hD hs h trivial (by simp [LPat.binds])

/-! ## Registers -/

/-- Between rising edges a register keeps its value. -/
theorem state_keep {r : Reg} {clk : Nat → Bool} (hc : ∀ t, Gives P D u ins t r.clock (.bool (clk t)))
    {t : Nat} (h : rises clk t = false) {v : Val} (hs : State P D u ins t r v) :
    State P D u ins (t + 1) r v := by
  simp only [rises, Bool.and_eq_false_iff, Bool.not_eq_false'] at h
  rcases h with h | h
  · exact .high (by rw [← h]; exact hc t) hs
  · exact .low (by rw [← h]; exact hc (t + 1)) hs

theorem rises_iff {clk : Nat → Bool} {t : Nat} (h : rises clk t = true) :
    clk t = false ∧ clk (t + 1) = true := by simpa [rises] using h

end Spade.Stream

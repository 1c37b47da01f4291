import Verif.Entity.Model
/-!
# The check of initial values

The check refuses everything that depends on variables and accepts everything the compile time
evaluator supports.
-/
namespace Spade.Entity
open Spade.Codegen Spade.Lower Spade.Expr

variable {P : Prog}

mutual
theorem comptime_ev {env env' : Vars} : ∀ {e : Expr} {v}, comptime e = true → Ev P env e v →
    Ev P env' e v
  | _, _, _, .int => .int
  | _, _, _, .bool => .bool
  | _, _, h, .bin hl hr hb => by
    simp only [comptime, Bool.and_eq_true] at h
    exact .bin (comptime_ev h.1.1 hl) (comptime_ev h.1.2 hr) hb
  | _, _, h, .un he hu => by
    simp only [comptime, Bool.and_eq_true] at h
    exact .un (comptime_ev h.1 he) hu
  | _, _, h, .tuple he => by
    simp only [comptime] at h
    exact .tuple (comptimes_ev h he)
  | _, _, h, .proj he hm => by
    simp only [comptime] at h
    exact .proj (comptime_ev h he) hm
  | _, _, h, .field he hf hm => by
    simp only [comptime] at h
    exact .field (comptime_ev h he) hf hm
  | _, _, h, .cast he => by
    simp only [comptime] at h
    exact .cast (comptime_ev h he)
  | _, _, h, .array he => by
    simp only [comptime] at h
    exact .array (comptimes_ev h he)
  | _, _, h, .rep he => by
    simp only [comptime] at h
    exact .rep (comptime_ev h he)
  | _, _, h, .elem ha hi hv => by
    simp only [comptime, Bool.and_eq_true] at h
    exact .elem (comptime_ev h.1 ha) (comptime_ev h.2 hi) hv
  | _, _, h, .variant he => by
    simp only [comptime] at h
    exact .variant (comptimes_ev h he)
  | _, _, h, .struct he => by
    simp only [comptime] at h
    exact .struct (comptimes_ev h he)
  | _, _, h, .var _ => by simp [comptime] at h
  | _, _, h, .range _ => by simp [comptime] at h
  | _, _, h, .block _ _ => by simp [comptime] at h
  | _, _, h, .unitBlock _ => by simp [comptime] at h
  | _, _, h, .iteTrue _ _ => by simp [comptime] at h
  | _, _, h, .iteFalse _ _ => by simp [comptime] at h
  | _, _, h, .match _ _ => by simp [comptime] at h
  | _, _, h, .intr _ _ => by simp [comptime] at h
  | _, _, h, .unit _ _ _ => by simp [comptime] at h
theorem comptimes_ev {env env' : Vars} : ∀ {es : List Expr} {vs}, comptimes es = true →
    Evs P env es vs → Evs P env' es vs
  | _, _, _, .nil => .nil
  | _, _, h, .cons he hes => by
    simp only [comptimes, Bool.and_eq_true] at h
    exact .cons (comptime_ev h.1 he) (comptimes_ev h.2 hes)
end

/-- **C47** If a register is accepted, the value of its initial expression does not depend on any
variable. -/
theorem C47_initial_known (r : Reg) (e : Expr) (nid : Nat) (x : List EItem × Nat)
    (h : lowerEStm (.reg r) nid = some x) (hi : r.initial = some e) (env : Vars) (v : Match.Val)
    (hv : Ev P env e v) : Ev P (fun _ => none) e v := by
  have hc : comptime e = true := by
    simp only [lowerEStm, Option.bind_eq_bind, Option.bind_eq_some_iff] at h
    obtain ⟨_, _, _, _, _, _, _, _, _, _, ss, hss, _⟩ := h
    rw [hi] at hss
    simp only [lowerInitial] at hss
    split at hss
    · assumption
    · cases hss
  exact comptime_ev hc hv

mutual
/-- **C47** The check accepts every initial value that the evaluator supports. -/
theorem C47_initial_accepted : ∀ (e : Expr), Foldable e → comptime e = true
  | .int .., _ | .bool .., _ => by simp [comptime]
  | .bin _ _ op l r, h => by
    simp only [Foldable] at h
    obtain ⟨h1, _, h3, h4⟩ := h
    simp only [comptime, C47_initial_accepted l h3, C47_initial_accepted r h4]
    rcases h1 with rfl | rfl <;> rfl
  | .un _ _ op e, h => by
    simp only [Foldable] at h
    obtain ⟨rfl, h2, _⟩ := h
    simp [comptime, C47_initial_accepted e h2]
  | .tuple _ _ es, h | .array _ _ es, h | .call _ _ (.variant _) es, h | .call _ _ .struct es, h => by
    simp only [Foldable] at h
    simp [comptime, foldables_comptime es h]
  | .cast _ _ e, h | .rep _ _ e _, h => by
    simp only [Foldable] at h
    simp [comptime, C47_initial_accepted e h]
  | .var .., h | .proj .., h | .field .., h | .elem .., h | .range .., h | .block .., h
  | .unitBlock .., h | .ite .., h | .match .., h | .call _ _ (.intr _) _, h
  | .call _ _ (.unit _) _, h => by simp [Foldable] at h
theorem foldables_comptime : ∀ (es : List Expr), Foldables es → comptimes es = true
  | [], _ => rfl
  | e :: es, h => by
    simp only [Foldables] at h
    simp [comptimes, C47_initial_accepted e h.1, foldables_comptime es h.2]
end

mutual
/-- The expression stays clear of what the evaluator is known to crash on: members and elements,
sums and differences of unsigned numbers, numbers without bits, and negations out of range. -/
def Clear : Expr → Prop
  | .int _ ty _ => (∃ n, ty = .int n ∨ ty = .uint n) ∧ ty.size ≠ 0
  | .bin _ ty _ l r => (∃ n, ty = .int n) ∧ Clear l ∧ Clear r
  | .un _ ty _ e => Clear e ∧ ∀ (P : Prog) z, Ev P (fun _ => none) e (.int z) → InRange ty (-z)
  | .tuple _ _ es | .array _ _ es | .call _ _ _ es => Clears es
  | .cast _ _ e | .rep _ _ e _ => Clear e
  | .proj .. | .field .. | .elem .. => False
  | _ => True
/-- All of them. -/
def Clears : List Expr → Prop
  | [] => True
  | e :: es => Clear e ∧ Clears es
end

mutual
/-- **C47** The other way round: everything the check accepts is supported by the evaluator, so
that by `C47_initial_value` compilation does not crash, except for what `Clear` leaves out. -/
theorem C47_accepted_supported_partial : ∀ (e : Expr), comptime e = true → Clear e → Foldable e
  | .int .., _, hc => by simpa only [Foldable, Clear] using hc
  | .bool .., _, _ => by simp [Foldable]
  | .bin _ _ op l r, h, hc => by
    simp only [comptime, Bool.and_eq_true] at h
    simp only [Clear] at hc
    simp only [Foldable]
    refine ⟨?_, hc.1, C47_accepted_supported_partial l h.1.1 hc.2.1,
      C47_accepted_supported_partial r h.1.2 hc.2.2⟩
    cases op <;> simp_all
  | .un _ _ op e, h, hc => by
    simp only [comptime, Bool.and_eq_true] at h
    simp only [Clear] at hc
    simp only [Foldable]
    refine ⟨?_, C47_accepted_supported_partial e h.1 hc.1, hc.2⟩
    cases op <;> simp_all
  | .tuple _ _ es, h, hc | .array _ _ es, h, hc | .call _ _ (.variant _) es, h, hc
  | .call _ _ .struct es, h, hc => by
    simp only [comptime] at h
    simp only [Clear] at hc
    simp only [Foldable]
    exact clears_foldable es h hc
  | .cast _ _ e, h, hc | .rep _ _ e _, h, hc => by
    simp only [comptime] at h
    simp only [Clear] at hc
    simp only [Foldable]
    exact C47_accepted_supported_partial e h hc
  | .proj .., _, hc | .field .., _, hc | .elem .., _, hc => by simp [Clear] at hc
  | .var .., h, _ | .range .., h, _ | .block .., h, _
  | .unitBlock .., h, _ | .ite .., h, _ | .match .., h, _ | .call _ _ (.intr _) _, h, _
  | .call _ _ (.unit _) _, h, _ => by simp [comptime] at h
theorem clears_foldable : ∀ (es : List Expr), comptimes es = true → Clears es → Foldables es
  | [], _, _ => by simp [Foldables]
  | e :: es, h, hc => by
    simp only [comptimes, Bool.and_eq_true] at h
    simp only [Clears] at hc
    exact ⟨C47_accepted_supported_partial e h.1 hc.1, clears_foldable es h.2 hc.2⟩
end

/-- A case that meets the hypotheses: `(-1 + 2, true)`. -/
example : let e : Expr := .tuple 0 (.tuple [.int 8, .bool]) [.bin 1 (.int 8) .add
      (.un 2 (.int 8) .neg (.int 3 (.int 8) 1)) (.int 4 (.int 8) 2), .bool 5 true]
    comptime e = true ∧ Clear e := by
  refine ⟨by simp [comptime, comptimes], ?_⟩
  simp only [Clear, Clears]
  refine ⟨⟨⟨8, rfl⟩, ⟨⟨⟨8, .inl rfl⟩, by decide⟩, ?_⟩, ⟨8, .inl rfl⟩, by decide⟩, trivial, trivial⟩
  intro P z h
  cases h
  simp [InRange]

end Spade.Entity

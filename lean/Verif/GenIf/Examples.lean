import Verif.GenIf.Props
/-!
# Examples for C53
-/
namespace Spade.GenIf
variable {V : Type}

/-- `+` on values. -/
def addF : List Int → Option Int
  | [a, b] => some (a + b)
  | _ => none

/-- A literal. -/
def lit (k : Int) : Exp Int := .prim (fun _ => some k) []

/-- `N == k`. -/
def nIs (k : Int) : Gens → Option Bool
  | [n] => some (n == k)
  | _ => none

/-- `{N - 1}`. -/
def pred : Gens → Option Gens
  | [n] => some [n - 1]
  | _ => none

/-- `pipeline(N) sum<#uint N>(x: int) -> int {
      gen if N == 0 { x }
      else gen if N == 1 { let y = x + 1; reg; y }
      else { let y = x + 2; reg; let z = inst(N-1) sum::<{N-1}>(y); reg*{N-1}; z }
    }` -/
def sumU : Unit Int where
  params := [0]
  depth := some fun ρ => match ρ with | [n] => n.toNat | _ => 0
  body := .block [] (.gif (nIs 0) (.block [] (.var 0))
    (.gif (nIs 1)
      (.block [.bind 1 (.prim addF [.var 0, lit 1]), .reg fun _ => 1] (.var 1))
      (.block [.bind 1 (.prim addF [.var 0, lit 2]), .reg (fun _ => 1),
        .bind 2 (.call 0 pred [.var 1]),
        .reg fun ρ => match ρ with | [n] => (n - 1).toNat | _ => 0] (.var 2))))

/-- `fn main<#uint N>(x: int) -> int { let a = x + x; gen if N == 5 { a } else { x } }` -/
def mainU : Unit Int where
  params := [7]
  depth := none
  body := .block [.bind 8 (.prim addF [.var 7, .var 7])]
    (.gif (nIs 5) (.block [] (.var 8)) (.block [] (.var 7)))

def prog : Prog Int := [(0, sumU), (1, mainU)]

theorem prog_ok : prog.Ok 2 where
  names := by decide
  below := by simp [prog]
  calls := by
    simp [prog, sumU, mainU, lit, Exp.Over, oversS, oversE]
  params := by simp [prog, sumU, mainU]

theorem prog_units : ∀ x ∈ prog, x.2.Ok := by
  intro x hx
  simp only [prog, List.mem_cons, List.not_mem_nil, or_false] at hx
  rcases hx with rfl | rfl <;>
  exact ⟨by simp [sumU, mainU, Exp.IsGif],
    by simp [sumU, mainU, lit, Exp.Tail, noGifS, noGifE, Exp.NoGif, Exp.IsGif],
    by simp [sumU, mainU]⟩

/-- The program is expanded: `sum` into five units, `main` into three. -/
theorem prog_expands : ∃ Q, expandAll 3 2 prog = some (Q, 11) ∧
    Q.map (·.1) = [2, 4, 5, 3, 0, 8, 9, 1] :=
  ⟨_, rfl, rfl⟩

theorem calls_of {P : Prog V} {n u : Nat} {ρ : Gens} {args : List V} {v : V} (w : Unit V)
    (hw : P.lookup u = some w) (hl : w.params.length = args.length) (hd : w.deep ρ)
    (he : w.body.ev (P.calls n) ρ (w.params.zip args) = some v) :
    P.calls (n + 1) u ρ args = some v := by
  rw [Prog.calls, hw]
  exact run_iff.mpr ⟨hl, hd, he⟩

/-- `sum::<3>(10)` is 15: the recursion goes through `N` = 3, 2, 1. -/
theorem prog_gives : prog.Gives 0 [3] [10] 15 := by
  have h1 : prog.calls 1 0 [1] [14] = some 15 := calls_of sumU rfl rfl rfl rfl
  have h2 : prog.calls 2 0 [2] [12] = some 15 := calls_of sumU rfl rfl rfl (by
    show Option.bind (Option.bind (prog.calls 1 0 [1] [14]) _) _ = _
    rw [h1]; rfl)
  exact ⟨3, calls_of sumU rfl rfl rfl (by
    show Option.bind (Option.bind (prog.calls 2 0 [2] [12]) _) _ = _
    rw [h2]; rfl)⟩

/-- All the hypotheses of `C53_gen_if` hold, so the hardware gives 15 too. -/
example : ∃ Q next' n, expandAll 3 2 prog = some (Q, next') ∧
    Q.hardware n 0 [3] [10] = some 15 := by
  obtain ⟨Q, hQ, _⟩ := prog_expands
  obtain ⟨n, hn⟩ := (C53_gen_if prog Q 3 2 11 prog_ok (fun x hx => (prog_units x hx).tail) hQ 0
    (by decide) [3] [10] 15).mp prog_gives
  exact ⟨Q, 11, n, hQ, hn⟩

/-- `C53_expansion` and `C53_terminates` apply to it. -/
example : ∃ fuel r, expandAll fuel 2 prog = some r ∧
    ∀ ρ args v, prog.Gives 0 ρ args v ↔ r.1.Gives 0 ρ args v := by
  obtain ⟨fuel, r, h⟩ := C53_terminates prog 2 prog_units
  exact ⟨fuel, r, h, fun ρ args v =>
    C53_expansion prog r.1 fuel 2 r.2 prog_ok h 0 (by decide) ρ args v⟩

/-- `C53_lowering` applies to a unit with a `gen if` in a binding. -/
example : ∃ b, lower [0] true (newBody mainU (nIs 5) 1 2 3) = some b ∧ b.NoGif :=
  ⟨_, rfl, by simp [newBody, callExpanded, mainU, depthReg, Exp.NoGif, noGifS, noGifE]⟩

/-- `C53_accepts` applies to `sum` for every `N`. -/
example (n : Int) : sumU.body.Placed [n] := by
  simp [sumU, lit, Exp.Placed, placedS, noGifE, Exp.NoGif, nIs]

/-- `let x = gen if N == 5 { 1 } else { gen if c { 2 } else { 3 } }; x`, where the
condition `c` has no value. -/
def badU : Unit Int where
  params := []
  depth := none
  body := .block [.bind 0 (.gif (nIs 5) (.block [] (lit 1))
    (.block [] (.gif (fun _ => none) (.block [] (lit 2)) (.block [] (lit 3)))))] (.var 0)

/-- **C53 (counterexample).** In other places than the result of a unit `gen if` is
not always taken for what it means: although the selected branch is a constant, no
hardware is generated if the condition of a `gen if` in the branch which is *not*
selected has no value. -/
theorem C53_counterexample_unselected_branch : ∃ (P Q : Prog Int) (next' : Nat), P.Ok 1 ∧
    expandAll 1 1 P = some (Q, next') ∧ P.Gives 0 [5] [] 1 ∧
    ∀ n, Q.hardware n 0 [5] [] = none := by
  refine ⟨[(0, badU)], [(0, badU)], 1, ⟨by decide, by simp, ?_, by simp [badU]⟩, rfl,
    ⟨1, calls_of badU rfl rfl trivial rfl⟩, fun n => ?_⟩
  · simp [badU, lit, Exp.Over, oversS, oversE]
  · cases n <;> rfl

end Spade.GenIf

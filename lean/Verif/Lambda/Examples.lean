import Verif.Lambda.Captures
/-!
# C54: examples and a counterexample
-/
namespace Spade.Lambda

/-- Identifiers: `self`, `clk`, `args`. -/
def exIds : Ids := ⟨0, 1, 2⟩

def plus : List Int → List Int → Option Int := fun is vs => some ((is ++ vs).foldl (· + ·) 0)

/-- ```
fn main<#uint N>(x) {
    let f = fn |y| {
        let g = fn |z| { x + y + z + N };
        g.call((helper(y),))
    };
    let e = entity |clk, x| { f.call((x,)) + clk };
    e.call(1000, (x + 1,))
}
fn helper(x) { x + 10 }
``` -/
def exProg : Prog Int :=
  [(0, ⟨[5], [10], .block
    [(.var 13, .lam true [.var 11]
        [(.var 14, .lam true [.var 12] [] (.prim [5] plus [.var 10, .var 11, .var 12]))]
        (.app (.var 14) [] (.tup [.call 1 [] some [.var 11]]))),
     (.var 15, .lam false [.var 1, .var 10] []
        (.prim [] plus [.app (.var 13) [] (.tup [.var 10]), .var 1]))]
    (.app (.var 15) [.prim [] (fun _ _ => some 1000) []]
      (.tup [.prim [] (fun _ vs => some (vs.foldl (· + ·) 1)) [.var 10]]))⟩),
   (1, ⟨[], [10], .prim [] (fun _ vs => some (vs.foldl (· + ·) 10)) [.var 10]⟩)]

/-- The program is accepted. -/
example : (compile exIds 100 exProg).isSome := by decide +kernel

/-- It gives `x + y + z + N + clk` with `x = 3`, `y = 4`, `z = 14`, `N = 7`. -/
example : exProg.Gives 0 [7] [3] 1028 := ⟨5, by rfl⟩

/-- So does the compiled program. -/
example {Q} (h : compile exIds 100 exProg = some Q) : Q.Gives 0 [7] [3] 1028 :=
  (C54_lambdas_are_closures h (by decide) 0 [7] [3] 1028).mpr ⟨5, by rfl⟩

/-- And nothing else. -/
example {Q} (h : compile exIds 100 exProg = some Q) : ¬ Q.Gives 7 [] [] 0 := by
  rw [C54_lambdas_are_closures h (by decide)]
  rintro ⟨n, h⟩
  cases n <;> exact nomatch h

/-- A variable that is not in scope is rejected. -/
example : ¬ (compile exIds 100 [(0, (⟨[], [10], .lam true [.var 11] [] (.var 12)⟩ : Unit Int))]).isSome := by
  decide +kernel

/-- A state inside of a unit with the input `x`. -/
def exSt : St := { next := 100, scopes := [{ vars := [(10, (7, 10))] }], items := [] }

example : exSt.Inv := ⟨by
  refine ⟨fun e he => ?_, (fun _ h => nomatch h), trivial⟩
  rw [List.mem_singleton] at he
  subst he
  exact ⟨by decide, rfl⟩, (fun _ h => nomatch h)⟩

/-- A lambda captures a variable that it does not use: in `fn |x| { x }` the parameter
is looked up first, like the name of an enum variant, and if there is a variable `x`
outside, the lambda captures it.  So a port `x` is consumed by a lambda that does not
need it, and the struct made for the lambda has a member that is not used.
(lambda.rs:96-108 with spade-ast-lowering/src/lib.rs:1652-1654, 1738-1740) -/
theorem C54_counterexample_captures_unused_variable :
    10 ∉ (Exp.lam true [.var 10] [] (.var 10) : Exp Int).free ∧
    ∃ L k outer ps' r' st', visit exIds [] (.lam true [.var 10] [] (.var 10) : Exp Int) exSt =
      some (.lam L k outer none ps' [(10, (7, 10))] [] r', st') := by
  refine ⟨by decide, ?_⟩
  exact ⟨_, _, _, _, _, _, rfl⟩

end Spade.Lambda

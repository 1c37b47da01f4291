import Verif.Sim.Props
/-! Where C35 fails, and that the hypotheses of its theorems can be met. -/
namespace Spade.Sim

open Spade.Codegen Spade.Verilog
open Spade.Vcd (Str Ty)

noncomputable instance : BEq Ty := ⟨fun a b => @decide (a = b) (Classical.propDecidable _)⟩
instance : LawfulBEq Ty := {
  eq_of_beq := fun {a b} h => @of_decide_eq_true (a = b) (Classical.propDecidable _) h
  rfl := fun {a} => @decide_eq_true (a = a) (Classical.propDecidable _) rfl }

/-- `struct Inner { c: bool, d: uint<2> }`, `struct Outer { a: uint<3>, b: Inner, e: inv bool }` -/
def inner : Ty := .struct [['c'], ['d']] [.bool, .uint 2]
def outer : Ty := .struct [['a'], ['b'], ['e']] [.uint 3, inner, .backward .bool]

/-- `entity top(x: inv Outer) -> Outer` -/
def top : Uut := ⟨[(['x'], .backward outer, ['x', 'i'], ['x', 'o'])], some outer⟩

/-- Compilation of a few expressions. -/
def oracle : Ty → Str → Compiled Bool
  | .bool, ['t'] => .value [true]
  | .uint 2, ['2'] => .value [true, false]
  | .backward .bool, ['t'] => .unparsable
  | _, _ => .ill

theorem oracle_size : ∀ t e v, oracle t e = .value v → v.length = (hw t).toMir.size := by
  intro t e v h
  unfold oracle at h
  split at h <;> first | (cases h; done) | (cases h; rfl)

def oRef : Ref := ⟨some ⟨0, 6, true⟩, some ⟨0, 1, true⟩, .output, outer, [['o']]⟩
def obRef : Ref := ⟨some ⟨3, 6, false⟩, none, .output, inner, [['o'], ['b']]⟩
def obdRef : Ref := ⟨some ⟨4, 6, false⟩, none, .output, .uint 2, [['o'], ['b'], ['d']]⟩
def oeRef : Ref := ⟨none, some ⟨0, 1, true⟩, .output, .backward .bool, [['o'], ['e']]⟩
def xRef : Ref := ⟨some ⟨0, 1, true⟩, some ⟨0, 6, true⟩, .input ['x', 'i'] ['x', 'o'], .backward outer, [['i'], ['x']]⟩
def xbRef : Ref := ⟨none, some ⟨3, 6, false⟩, .input ['x', 'i'] ['x', 'o'], .backward inner, [['i'], ['x'], ['b']]⟩

def refs : List ((Port × List Str) × Ref) :=
  [((.input ['x'], [['b']]), xbRef), ((.input ['x'], []), xRef), ((.output, [['e']]), oeRef),
   ((.output, [['b'], ['d']]), obdRef), ((.output, [['b']]), obRef), ((.output, []), oRef)]

def final : St Bool := ⟨true, refs.map fun r => (r.2.path, r.2), []⟩

/-- A test bench that takes `o.b.d`, `o.e` and `i.x.b`. -/
theorem bench : Run top oracle final refs :=
  .field (port := .input ['x']) (p := []) (r := xRef) (f := ['b'])
    (.arg (n := ['x'])
      (.field (port := .output) (p := []) (r := oRef) (f := ['e'])
        (.field (port := .output) (p := [['b']]) (r := obRef) (f := ['d'])
          (.field (port := .output) (p := []) (r := oRef) (f := ['b'])
            (.output .fresh (r := oRef) rfl) (by simp) (c := obRef) rfl)
          (by simp) (c := obdRef) rfl)
        (by simp) (c := oeRef) rfl)
      (r := xRef) rfl)
    (by simp) (c := xbRef) rfl

theorem top_out : PortTy top .output outer := .output rfl
theorem top_in : PortTy top (.input ['x']) (.backward outer) := .input (n := ['x']) rfl

/-- `C35_read`: `o.b.d` is the last two of six wires; `i.x.b` is three of the six wires that the unit drives. -/
example : extract obdRef [true, false, true, false, true, false] final = .ok ([true, false], .uint 2, .uint 2) ∧
    ((Port.output, [['b'], ['d']]), obdRef) ∈ refs ∧ wires .fwd (hw outer).toMir = 6 :=
  ⟨rfl, by simp [refs], rfl⟩

example : extract xbRef [true, false, true, false, true, false] final = .ok ([false, true, false], inner, inner) ∧
    ((Port.input ['x'], [['b']]), xbRef) ∈ refs ∧ wires .back (hw (.backward outer)).toMir = 6 :=
  ⟨rfl, by simp [refs], rfl⟩

/-- `C35_write`: the bench can write `o.e`, and `C35_siblings` has parted paths with wires. -/
example : Parted [['b'], ['d']] [['a']] := ⟨[], ['b'], ['a'], [['d']], [], by decide, rfl, rfl⟩

theorem get_nil {κ ν : Type} [BEq κ] (k : κ) : get ([] : List (κ × ν)) k = none := rfl

example : ∃ st', setValue oracle oeRef ['t'] [false] final = (.ok [true], st') := ⟨_, rfl⟩

/-- Writing a part of an input: `struct { c: bool, d: uint<2> }`. -/
def plain : Uut := ⟨[(['y'], inner, ['y', 'i'], ['y', 'o'])], none⟩
def yRef : Ref := ⟨some ⟨0, 3, true⟩, none, .input ['y', 'i'] ['y', 'o'], inner, [['i'], ['y']]⟩
def ydRef : Ref := ⟨some ⟨1, 3, false⟩, none, .input ['y', 'i'] ['y', 'o'], .uint 2, [['i'], ['y'], ['d']]⟩
def plainRefs : List ((Port × List Str) × Ref) := [((.input ['y'], [['d']]), ydRef), ((.input ['y'], []), yRef)]
def plainSt : St Bool := ⟨true, plainRefs.map fun r => (r.2.path, r.2), []⟩
theorem plain_run : Run plain oracle plainSt plainRefs :=
  .field (port := .input ['y']) (p := []) (r := yRef) (f := ['d']) (.arg (n := ['y']) .fresh (r := yRef) rfl) (by simp) (c := ydRef) rfl

example : ∃ st', setValue oracle ydRef ['2'] [true, false, true] plainSt = (.ok [true, true, false], st') := ⟨_, rfl⟩

/-- `C35_hardware_read`: the unit builds its output and takes `o.b.d` of it. -/
def hΓ (n : Nat) : MTy := [(hw outer).toMir, inner.toMir, .uint 2].getD n (.uint 0)
def hρ (n : Nat) : Bits :=
  [[true, false, true, false, true, false], [true], [false, true, false], [], [true, false]].getD n []

example : Members hΓ (Holds .fwd hΓ hρ fun _ => false) (hw outer) 0 [['b'], ['d']] (.uint 2) 2 ∧
    ∀ n, (net .fwd hρ n).length = wires .fwd (hΓ n) := by
  refine ⟨.field (i := 1) (y := 1) (u := inner) rfl rfl (by decide) rfl (by simp only [Holds]; decide +kernel)
    (.field (i := 1) (y := 2) (u := .uint 2) rfl rfl (by decide) rfl (by simp only [Holds]; decide +kernel) (.here rfl)), ?_⟩
  intro n
  rcases n with _ | _ | _ | n
  · decide
  · decide
  · decide
  · have e1 : hΓ (n + 3) = .uint 0 := by
      simp [hΓ, List.getD_eq_getElem?_getD, List.getElem?_eq_none]
    have e2 : net .fwd hρ (n + 3) = [] := by
      simp only [net, hρ, fwd, List.getD_eq_getElem?_getD]
      rw [List.getElem?_eq_none (by simp; omega)]
      rfl
    rw [e1, e2]
    rfl

/-! ## Where it fails -/

/-- C35 fails: asking for a field that does not exist loses the compiler state, and then asking for a field
that does exist fails, although it has wires. -/
theorem C35_counterexample_lost_state : ∃ (u : Uut) (what : Ty → Str → Compiled Bool) (st : St Bool)
    (rs : List ((Port × List Str) × Ref)) (r : Ref), Run u what st rs ∧ ((.output, []), r) ∈ rs ∧
    (∃ v sub, Part .fwd (hw r.ty) [['a']] [true, false, true, false, true, false] v sub ∧ sub.length = 3) ∧
    (fieldOf r ['a'] st).1.toOption.isNone := by
  refine ⟨top, oracle, ⟨false, [([['o']], oRef)], []⟩, [((.output, []), oRef)], oRef,
    .fieldErr (port := .output) (p := []) (r := oRef) (f := ['n']) (e := .noSuchField)
      (.output .fresh (r := oRef) rfl) (by simp) rfl, by simp, ⟨.uint 3, [true, false, true], ?_, rfl⟩, rfl⟩
  exact .field (i := 0) (bss := [[true, false, true], [false, true, false], []]) rfl (by simp) rfl rfl rfl (.here rfl)

/-- `struct Backs { c: inv bool, d: inv uint<2> }` -/
def backs : Ty := .struct [['c'], ['d']] [.backward .bool, .backward (.uint 2)]
def backsRef : Ref := ⟨none, some ⟨0, 3, true⟩, .output, backs, [['o']]⟩

/-- C35 fails: an output whose members are all `inv` has only wires that a test bench may write, but writing it as
a whole is an internal error, whatever the expression. -/
theorem C35_counterexample_unwritable : ∃ (u : Uut) (st : St Bool) (rs : List ((Port × List Str) × Ref)) (r : Ref),
    (∀ what, Run u what st rs) ∧ ((.output, []), r) ∈ rs ∧ st.owned = true ∧ wires .fwd (hw r.ty).toMir = 0 ∧
    wires .back (hw r.ty).toMir = 3 ∧
    ∀ what expr sig, (setValue what r expr sig st).1 = .error .internal :=
  ⟨⟨[], some backs⟩, ⟨true, [([['o']], backsRef)], []⟩, [((.output, []), backsRef)], backsRef,
    fun _ => .output .fresh (r := backsRef) rfl, by simp, rfl, rfl, rfl, fun _ _ _ => rfl⟩

end Spade.Sim

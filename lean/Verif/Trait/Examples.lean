import Verif.Trait.Props
/-!
# Instances of C52, and where the checks fall short
-/
namespace Spade.Trait

/-- `bool`. -/
def tBool : Ty := .decl 1 []
/-- `uint<n>`. -/
def tUint (n : Ty) : Ty := .decl 2 [n]

/-- `trait Conv<A, B = Self> { type Out; fn conv<U>(&self, a: A, u: [U; {3}]) -> (Self::Out, B, U); }`,
with `A` 10, `B` 11, `U` 12, `Self::Out` 20. -/
def exTrait : TraitDecl where
  tparams := [(.named 10, none), (.named 11, some .self)]
  assoc := [{ ident := 5, name := 20, arity := 0 }]
  methods :=
    [{ name := 7, kind := .fn, isUnsafe := false
       params := [(0, .copy .self), (1, .gen (.named 10)),
         (2, .arr (.gen (.named 12)) (.cg (.int 3)))]
       output := some (.tup [.decl 20 [], .gen (.named 11), .gen (.named 12)])
       tparams := [{ gen := .named 12, bounds := [] }]
       hidden := [] }]

/-- `impl<X> Conv<(X, bool)> for uint<8> { type Out = X;
  fn conv<V>(&self, a: (X, bool), u: [V; {3}]) -> (Self::Out, Self, V) }`, with `X` 30, `V`
31, `Self` 40 and `Self::Out` 41. -/
def exBlock : Block where
  target := tUint (.int 8)
  selfId := 40
  args := some [.tup [.gen (.named 30), tBool]]
  assoc := [{ ident := 5, name := 41, arity := 0 }]
  units :=
    [{ name := 7, kind := .fn, isUnsafe := false
       params := [(0, .copy (tUint (.int 8))), (1, .tup [.gen (.named 30), tBool]),
         (2, .arr (.gen (.named 31)) (.cg (.int 3)))]
       output := some (.tup [.decl 41 [], .decl 40 [], .gen (.named 31)])
       tparams := [{ gen := .named 31, bounds := [] }]
       hidden := [] }]

theorem exBlock_scoped : Scoped exTrait exBlock := by
  constructor <;>
    simp [-List.mem_map, exTrait, exBlock, Head.out, Head.gens, Ty.Over, overs, CG.Over, Block.argList, tUint,
      tBool]

theorem exBlock_accepted : checkImpl exTrait exBlock = some exBlock.units := by decide +kernel

/-- The hypotheses of C52 are met by a generic impl with an associated type, a
defaulted parameter and a generic method. -/
example : ∀ m ∈ exTrait.methods, ∃ u ∈ exBlock.units, Honours exTrait exBlock m u ∧
    ∀ v ∈ exBlock.units, v.name = m.name → v = u :=
  (C52_impl_honours_trait_partial exTrait exBlock _ exBlock_accepted exBlock_scoped
    (by decide)).1

/-- There are choices of types which fit, so `Honours` says something: here `X` is
`bool` and `V` is `uint<2>`. -/
example : ∃ c : Choice, ∀ m ∈ exTrait.methods, ∀ u ∈ exBlock.units,
    c.Fits exTrait exBlock m u := by
  refine ⟨{ un := fun _ _ => none, bin := fun _ _ _ => none,
            ρ := fun g => if g = .named 30 then some (.decl 1 [])
              else some (.decl 2 [.int 2]),
            σ := fun g => if g = .named 10 then some (.tup [.decl 1 [], .decl 1 []])
              else if g = .named 11 then some (.decl 2 [.int 8])
              else some (.decl 2 [.int 2]),
            S := .decl 2 [.int 8] }, ?_⟩
  intro m hm u hu
  simp only [exTrait, exBlock, List.mem_cons, List.not_mem_nil, or_false] at hm hu
  subst hm; subst hu
  refine ⟨?_, ?_, ?_, ?_⟩
  · simp [exBlock, tUint, Ty.den, dens, Choice.implEnv]
  · intro i g d t h1 h2
    match i with
    | 0 =>
      simp only [exTrait, exBlock, Block.argList, List.getElem?_cons_zero, Option.some.injEq,
        Prod.mk.injEq, Option.getD_some] at h1 h2
      rw [← h1.1, ← h2]
      simp [tBool, Ty.den, dens, Choice.implEnv, exBlock]
    | i + 1 => simp [exBlock, Block.argList] at h2
  · intro i g t h1 h2
    match i with
    | 0 => simp [exBlock, Block.argList] at h2
    | 1 =>
      simp [exTrait] at h1
      rw [← h1.1, ← h1.2]
      simp [Ty.den, Choice.traitEnv]
    | i + 2 => simp [exTrait] at h1
  · intro i g k h1 h2
    match i with
    | 0 =>
      simp [Head.gens] at h1 h2
      rw [← h1, ← h2]
      simp
    | i + 1 => simp [Head.gens] at h1

/-- A trait with one method `f(self)` and nothing else. -/
def plainTrait (h : Head) : TraitDecl := { tparams := [], assoc := [], methods := [h] }

/-- `fn f(self) -> bool`, as the trait writes it. -/
def fSelf : Head :=
  { name := 7, kind := .fn, isUnsafe := false, params := [(0, .self)], output := some tBool
    tparams := [], hidden := [] }

/-- **C52 fails for the kind of the unit.** The trait promises a function; an
impl whose method is a pipeline three stages deep is accepted, and generic code
written against the trait no longer compiles, or has to wait for a result it expects
at once. -/
theorem C52_counterexample_kind : ∃ (T : TraitDecl) (b : Block),
    checkImpl T b = some b.units ∧ Scoped T b ∧ (T.methods.map (·.name)).Nodup ∧
    ∃ m ∈ T.methods, ∃ u ∈ b.units, u.name = m.name ∧ m.kind = .fn ∧ u.kind = .pipeline 3 := by
  refine ⟨plainTrait fSelf,
    { target := tBool, selfId := 40, args := none, assoc := [],
      units := [{ fSelf with kind := .pipeline 3, params := [(0, tBool)] }] },
    by decide +kernel, ?_, by decide +kernel, fSelf, by simp [plainTrait], _,
    List.mem_cons_self .., rfl, rfl, rfl⟩
  constructor <;>
    simp [-List.mem_map, plainTrait, fSelf, Head.out, Head.gens, Ty.Over, overs, Block.argList, tBool]

/-- **C52 fails for bounds.** The trait promises a method for every type `U`; an
impl which asks `U` to implement a trait is accepted. -/
theorem C52_counterexample_bound : ∃ (T : TraitDecl) (b : Block),
    checkImpl T b = some b.units ∧ Scoped T b ∧ (T.methods.map (·.name)).Nodup ∧
    ∃ m ∈ T.methods, ∃ u ∈ b.units, u.name = m.name ∧
      m.tparams.map (·.bounds) = [[]] ∧ u.tparams.map (·.bounds) = [[99]] := by
  refine ⟨plainTrait { fSelf with tparams := [{ gen := .named 12, bounds := [] }] },
    { target := tBool, selfId := 40, args := none, assoc := [],
      units := [{ fSelf with params := [(0, tBool)],
                             tparams := [{ gen := .named 31, bounds := [99] }] }] },
    by decide +kernel, ?_, by decide +kernel, _, List.mem_cons_self .., _,
    List.mem_cons_self .., rfl, rfl, rfl⟩
  constructor <;>
    simp [-List.mem_map, plainTrait, fSelf, Head.out, Head.gens, Ty.Over, overs, Block.argList, tBool]

/-- **C52 fails for traits that declare a method twice.** The first declaration is
dropped without a word: `trait X { fn f(self) -> bool; fn f(self) -> uint<8>; }` is
implemented by a single method returning `uint<8>`. -/
theorem C52_counterexample_duplicate_method : ∃ (T : TraitDecl) (b : Block),
    checkImpl T b = some b.units ∧ Scoped T b ∧
    ∃ m ∈ T.methods, ∀ u ∈ b.units, u.out ≠ m.out := by
  refine ⟨{ tparams := [], assoc := [],
            methods := [fSelf, { fSelf with output := some (tUint (.int 8)) }] },
    { target := tBool, selfId := 40, args := none, assoc := [],
      units := [{ fSelf with params := [(0, tBool)], output := some (tUint (.int 8)) }] },
    by decide +kernel, ?_, fSelf, by simp, by decide +kernel⟩
  constructor <;>
    simp [-List.mem_map, fSelf, Head.out, Head.gens, Ty.Over, overs, Block.argList, tBool, tUint]

/-- **A correct impl is rejected: numbers as trait arguments.** `trait X<#uint N> { fn
f(self) -> uint<N>; }` cannot be implemented for a given number: `impl X<8> for bool {
fn f(self) -> uint<8> }` is an internal error, although it is exactly what the trait
asks for. -/
theorem C52_counterexample_number_argument : ∃ (T : TraitDecl) (b : Block),
    checkImpl T b = none ∧ checkArity T b = true ∧
    ∃ m ∈ T.methods, ∃ u ∈ b.units, T.methods = [m] ∧ b.units = [u] ∧ Honours T b m u := by
  refine ⟨{ tparams := [(.named 10, none)], assoc := [],
            methods := [{ fSelf with output := some (tUint (.gen (.named 10))) }] },
    { target := tBool, selfId := 40, args := some [.int 8], assoc := [],
      units := [{ fSelf with params := [(0, tBool)], output := some (tUint (.int 8)) }] },
    by decide +kernel, by decide +kernel, _, List.mem_cons_self .., _, List.mem_cons_self ..,
    rfl, rfl, rfl, rfl, rfl, rfl, ?_, ?_⟩
  · intro c hc i tu tm h1 h2
    match i with
    | 0 =>
      simp [fSelf] at h1 h2
      rw [← h1, ← h2]
      exact hc.self
    | i + 1 => simp at h1
  · intro c hc
    have h := hc.arg 0 (.named 10) none (.int 8) rfl rfl
    simp [Head.out, tUint, Ty.den, dens, Choice.implEnv, Choice.traitEnv, assocName, h]

/-- **A correct impl is rejected: copy views of parameters.** In `trait X<A> { fn
f(self, a: &A) -> bool; }` the `A` behind `&` is never replaced, so no impl has an
argument of the right type. -/
theorem C52_counterexample_copy_view : ∃ (T : TraitDecl) (b : Block),
    checkImpl T b = none ∧ checkArity T b = true ∧
    ∃ m ∈ T.methods, ∃ u ∈ b.units, T.methods = [m] ∧ b.units = [u] ∧ Honours T b m u := by
  refine ⟨{ tparams := [(.named 10, none)], assoc := [],
            methods := [{ fSelf with params := [(0, .self), (1, .copy (.gen (.named 10)))] }] },
    { target := tBool, selfId := 40, args := some [tUint (.int 8)], assoc := [],
      units := [{ fSelf with params := [(0, tBool), (1, .copy (tUint (.int 8)))] }] },
    by decide +kernel, by decide +kernel, _, List.mem_cons_self .., _, List.mem_cons_self ..,
    rfl, rfl, rfl, rfl, rfl, rfl, ?_, ?_⟩
  · intro c hc i tu tm h1 h2
    match i with
    | 0 =>
      simp at h1 h2
      rw [← h1, ← h2]
      exact hc.self
    | 1 =>
      simp at h1 h2
      have h := hc.arg 0 (.named 10) none (tUint (.int 8)) rfl rfl
      rw [← h1, ← h2]
      simp only [Ty.den, ← h]
      rfl
    | i + 2 => simp at h1
  · intro c hc
    simp [Head.out, fSelf, tBool, Ty.den, dens, Choice.implEnv, Choice.traitEnv, assocName]

end Spade.Trait

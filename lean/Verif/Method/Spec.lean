import Verif.Impl.Props
/-!
# What a method call should resolve to

The types of impl headers (`TySpec`), concrete types (`Con`) and what a header stands for (`InstS`)
are those of the trait tables, `Verif.Impl`.  Nothing here refers to the resolution.
-/
namespace Spade.Method
open Spade.Impl

/-- What type inference knows about a type at some moment (`TypeVar`, resolved through,
spade-typeinference/src/equation.rs): variables may be unknown.  Arities of the built-in constructors
are as they should be.  `error` is the type of erroneous expressions. -/
inductive RTy where
  | unknown (n : Nat)
  | named (n : Nat) (args : List RTy)
  | tuple (args : List RTy)
  | array (elem size : RTy)
  | inverted (t : RTy)
  | copyView (t : RTy)
  | bool (b : Bool)
  | int (i : Int)
  | str (s : String)
  | error

mutual
/-- The concrete type that a type turns out to be if the unknown variables turn out to be `τ`. -/
inductive Compl (τ : Nat → Con) : RTy → Con → Prop
  | unknown {n c} : τ n = c → Compl τ (.unknown n) c
  | named {n ts cs} : Compls τ ts cs → Compl τ (.named n ts) (.named n cs)
  | tuple {ts cs} : Compls τ ts cs → Compl τ (.tuple ts) (.tuple cs)
  | array {t s c n} : Compl τ t c → Compl τ s n → Compl τ (.array t s) (.array c n)
  | inverted {t c} : Compl τ t c → Compl τ (.inverted t) (.inverted c)
  | copyView {t c} : Compl τ t c → Compl τ (.copyView t) (.copyView c)
  | bool {b} : Compl τ (.bool b) (.bool b)
  | int {i} : Compl τ (.int i) (.int i)
  | str {s} : Compl τ (.str s) (.str s)
/-- Pointwise. -/
inductive Compls (τ : Nat → Con) : List RTy → List Con → Prop
  | nil : Compls τ [] []
  | cons {t ts c cs} : Compl τ t c → Compls τ ts cs → Compls τ (t :: ts) (c :: cs)
end

mutual
/-- More is known: unknown variables have turned out to be `τ`. -/
def RTy.refine (τ : Nat → RTy) : RTy → RTy
  | .unknown n => τ n
  | .named n ts => .named n (refines τ ts)
  | .tuple ts => .tuple (refines τ ts)
  | .array t s => .array (t.refine τ) (s.refine τ)
  | .inverted t => .inverted (t.refine τ)
  | .copyView t => .copyView (t.refine τ)
  | .bool b => .bool b
  | .int i => .int i
  | .str s => .str s
  | .error => .error
/-- All of them. -/
def refines (τ : Nat → RTy) : List RTy → List RTy
  | [] => []
  | t :: ts => t.refine τ :: refines τ ts
end

mutual
/-- Nothing is unknown or erroneous. -/
def RTy.Known : RTy → Prop
  | .unknown _ | .error => False
  | .named _ ts | .tuple ts => Knowns ts
  | .array t s => t.Known ∧ s.Known
  | .inverted t | .copyView t => t.Known
  | _ => True
/-- All of them. -/
def Knowns : List RTy → Prop
  | [] => True
  | t :: ts => t.Known ∧ Knowns ts
end

/-- `TraitName` (spade-hir/src/lib.rs): a trait or the anonymous trait of one impl block. -/
inductive TraitName where
  | anonymous (block : Nat)
  | named (n : Nat)
  deriving DecidableEq

/-- `Selfness` (spade-hir/src/lib.rs:1079-1086): `self`, `&self` or no `self`. -/
inductive Selfness where
  | value | copyView | static
  deriving DecidableEq

/-- `TraitUnitImpl` (spade-hir/src/lib.rs:1089-1093). -/
structure Fn where
  unit : Nat
  selfness : Selfness
  deriving DecidableEq

/-- `ImplBlock` with its trait (spade-hir/src/lib.rs:1096-1103, spade-typeinference/src/traits.rs:12-17). -/
structure Block where
  trait : TraitName
  target : TySpec
  fns : List (Nat × Fn)

/-- The block applies to the concrete type: some choice of its generics gives this type. -/
def Block.AppliesTo (al : Nat → Option TySpec) (b : Block) (c : Con) : Prop :=
  ∃ σ, InstS al σ b.target c

/-- The block has a method of that name for values of the type. -/
def Offers (al : Nat → Option TySpec) (b : Block) (c : Con) (name : Nat) (f : Fn) : Prop :=
  b.AppliesTo al c ∧ (name, f) ∈ b.fns

/-- What the name of a method means for a type: the method of the type's own (anonymous) impl block
that applies, or else the method of the only other block that applies. -/
inductive Means (al : Nat → Option TySpec) (blocks : List Block) (c : Con) (name : Nat) : Fn → Prop
  | own {b i f} : b ∈ blocks → b.trait = .anonymous i → Offers al b c name f →
      (∀ b' ∈ blocks, ∀ j f', b'.trait = .anonymous j → Offers al b' c name f' → f' = f) →
      Means al blocks c name f
  | trait {b f} : b ∈ blocks → Offers al b c name f →
      (∀ b' ∈ blocks, ∀ f', Offers al b' c name f' → f' = f) → Means al blocks c name f

/-- The type under the views of it. -/
def base : Con → Con
  | .copyView c => base c
  | c => c

/-- How many views of its base a type is. -/
def views : Con → Nat
  | .copyView c => views c + 1
  | _ => 0

/-- How many views of the base type a method wants its receiver to be. -/
def Selfness.wants : Selfness → Nat
  | .copyView => 1
  | _ => 0

mutual
/-- The generics of a header, with repetitions. -/
def gensS : TySpec → List Nat
  | .generic g => [g]
  | .declared _ as => gensEs as
  | .tuple ts => gensSs ts
  | .array t e => gensS t ++ gensE e
  | .inverted t | .copyView t => gensS t
  | _ => []
/-- The same for type expressions. -/
def gensE : TyExpr → List Nat
  | .spec t => gensS t
  | _ => []
/-- The same for lists of type expressions. -/
def gensEs : List TyExpr → List Nat
  | [] => []
  | e :: es => gensE e ++ gensEs es
/-- The same for lists of types. -/
def gensSs : List TySpec → List Nat
  | [] => []
  | t :: ts => gensS t ++ gensSs ts
end

mutual
/-- No aliases, and nothing that is not allowed in the header of an impl. -/
def HeadS (al : Nat → Option TySpec) : TySpec → Prop
  | .declared n as => al n = none ∧ HeadEs al as
  | .generic _ => True
  | .tuple ts => HeadSs al ts
  | .array t e => HeadS al t ∧ HeadE al e
  | .inverted t | .copyView t => HeadS al t
  | .traitSelf | .wildcard => False
/-- The same for type expressions. -/
def HeadE (al : Nat → Option TySpec) : TyExpr → Prop
  | .constGeneric => False
  | .spec t => HeadS al t
  | _ => True
/-- The same for lists of type expressions. -/
def HeadEs (al : Nat → Option TySpec) : List TyExpr → Prop
  | [] => True
  | e :: es => HeadE al e ∧ HeadEs al es
/-- The same for lists of types. -/
def HeadSs (al : Nat → Option TySpec) : List TySpec → Prop
  | [] => True
  | t :: ts => HeadS al t ∧ HeadSs al ts
end

end Spade.Method

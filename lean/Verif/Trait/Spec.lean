/-!
# What it means for an `impl` to honour its trait (C52)

Types as they are written in unit heads, a meaning for them, and the promise a
trait makes about the methods of its implementations.  Nothing here refers to
the checks the compiler performs.
-/
namespace Spade.Trait

/-- A type parameter: `T` written by the user, or the parameter behind an
`impl Trait` argument.  spade-hir/src/lib.rs:317-321 (`Generic`). -/
inductive Gen where
  | named (n : Nat)
  | hidden (n : Nat)
  deriving DecidableEq, Repr

/-- Expressions over type level values, `{N + 1}`.  The operators are kept
abstract: `op k` is the `k`-th operator.  spade-hir/src/lib.rs
(`ConstGeneric`; its unary and binary operators are one constructor here). -/
inductive CG where
  | name (n : Nat)
  | int (i : Int)
  | bool (b : Bool)
  | str (s : String)
  | un (op : Nat) (a : CG)
  | bin (op : Nat) (a b : CG)
  deriving DecidableEq, Repr

/-- Types and type level values as written.  spade-hir/src/lib.rs:279-289
(`TypeExpression`) and 349-369 (`TypeSpec`), as one type: an expression which is
a type is that type. -/
inductive Ty where
  | decl (n : Nat) (args : List Ty)
  | gen (g : Gen)
  | tup (ts : List Ty)
  | arr (inner size : Ty)
  | inv (t : Ty)
  | copy (t : Ty)
  | self
  | wild
  | bool (b : Bool)
  | int (i : Int)
  | str (s : String)
  | cg (c : CG)
  deriving Repr

mutual
/-- Equality of written types, locations aside: the derived `PartialEq` of
spade-hir/src/lib.rs:278 and 348, and spade-common/src/location_info.rs:318-326. -/
def Ty.eqb : Ty → Ty → Bool
  | .decl n a, .decl m b => n = m && tysEqb a b
  | .gen g, .gen h => g = h
  | .tup a, .tup b => tysEqb a b
  | .arr a s, .arr b t => a.eqb b && s.eqb t
  | .inv a, .inv b => a.eqb b
  | .copy a, .copy b => a.eqb b
  | .self, .self => true
  | .wild, .wild => true
  | .bool a, .bool b => a = b
  | .int a, .int b => a = b
  | .str a, .str b => a = b
  | .cg a, .cg b => a = b
  | _, _ => false
/-- Equality of lists of types. -/
def tysEqb : List Ty → List Ty → Bool
  | [], [] => true
  | a :: as, b :: bs => a.eqb b && tysEqb as bs
  | _, _ => false
end

mutual
theorem Ty.eq_of_eqb : ∀ {a b : Ty}, a.eqb b = true → a = b
  | .decl n a, b, h => by
    cases b <;> simp only [Ty.eqb, Bool.and_eq_true, decide_eq_true_eq, reduceCtorEq] at h
    rw [h.1, tys_eq_of_eqb h.2]
  | .gen g, b, h => by
    cases b <;> simp only [Ty.eqb, decide_eq_true_eq, reduceCtorEq] at h
    rw [h]
  | .tup a, b, h => by
    cases b <;> simp only [Ty.eqb, reduceCtorEq] at h
    rw [tys_eq_of_eqb h]
  | .arr a s, b, h => by
    cases b <;> simp only [Ty.eqb, Bool.and_eq_true, reduceCtorEq] at h
    rw [Ty.eq_of_eqb h.1, Ty.eq_of_eqb h.2]
  | .inv a, b, h => by
    cases b <;> simp only [Ty.eqb, reduceCtorEq] at h
    rw [Ty.eq_of_eqb h]
  | .copy a, b, h => by
    cases b <;> simp only [Ty.eqb, reduceCtorEq] at h
    rw [Ty.eq_of_eqb h]
  | .self, b, h => by cases b <;> simp only [Ty.eqb, reduceCtorEq] at h ⊢
  | .wild, b, h => by cases b <;> simp only [Ty.eqb, reduceCtorEq] at h ⊢
  | .bool a, b, h => by
    cases b <;> simp only [Ty.eqb, decide_eq_true_eq, reduceCtorEq] at h
    rw [h]
  | .int a, b, h => by
    cases b <;> simp only [Ty.eqb, decide_eq_true_eq, reduceCtorEq] at h
    rw [h]
  | .str a, b, h => by
    cases b <;> simp only [Ty.eqb, decide_eq_true_eq, reduceCtorEq] at h
    rw [h]
  | .cg a, b, h => by
    cases b <;> simp only [Ty.eqb, decide_eq_true_eq, reduceCtorEq] at h
    rw [h]
theorem tys_eq_of_eqb : ∀ {a b : List Ty}, tysEqb a b = true → a = b
  | [], [], _ => rfl
  | [], _ :: _, h => by simp [tysEqb] at h
  | _ :: _, [], h => by simp [tysEqb] at h
  | a :: as, b :: bs, h => by
    simp only [tysEqb, Bool.and_eq_true] at h
    rw [Ty.eq_of_eqb h.1, tys_eq_of_eqb h.2]
end

mutual
theorem Ty.eqb_refl : ∀ a : Ty, a.eqb a = true
  | .decl n a => by simp [Ty.eqb, tys_eqb_refl a]
  | .gen g => by simp [Ty.eqb]
  | .tup a => by simp [Ty.eqb, tys_eqb_refl a]
  | .arr a s => by simp [Ty.eqb, Ty.eqb_refl a, Ty.eqb_refl s]
  | .inv a => by simp [Ty.eqb, Ty.eqb_refl a]
  | .copy a => by simp [Ty.eqb, Ty.eqb_refl a]
  | .self => rfl
  | .wild => rfl
  | .bool a => by simp [Ty.eqb]
  | .int a => by simp [Ty.eqb]
  | .str a => by simp [Ty.eqb]
  | .cg a => by simp [Ty.eqb]
theorem tys_eqb_refl : ∀ a : List Ty, tysEqb a a = true
  | [] => rfl
  | a :: as => by simp [tysEqb, Ty.eqb_refl a, tys_eqb_refl as]
end

instance : DecidableEq Ty := fun a b =>
  if h : a.eqb b = true then isTrue (Ty.eq_of_eqb h)
  else isFalse (fun e => h (e ▸ Ty.eqb_refl a))

/-- Concrete types and type level values: what a type stands for once every
parameter is known. -/
inductive Val where
  | decl (n : Nat) (args : List Val)
  | tup (ts : List Val)
  | arr (inner size : Val)
  | inv (t : Val)
  | copy (t : Val)
  | bool (b : Bool)
  | int (i : Int)
  | str (s : String)

/-- What the free symbols of a type stand for. -/
structure Env where
  /-- the meaning of operators on type level values -/
  un : Nat → Val → Option Val
  bin : Nat → Val → Val → Option Val
  /-- type parameters -/
  gen : Gen → Option Val
  /-- the implementing type -/
  self : Option Val
  /-- names which abbreviate a type (`Self` inside an impl block) -/
  alias : Nat → Option Val
  /-- names which stand for another name (associated types) -/
  name : Nat → Nat

/-- The value of an expression over type level values. -/
def CG.den (E : Env) : CG → Option Val
  | .name n => E.gen (.named n)
  | .int i => some (.int i)
  | .bool b => some (.bool b)
  | .str s => some (.str s)
  | .un o a => (a.den E).bind (E.un o)
  | .bin o a b => (a.den E).bind fun x => (b.den E).bind fun y => E.bin o x y

mutual
/-- The concrete type a written type stands for. -/
def Ty.den (E : Env) : Ty → Option Val
  | .decl n args =>
    match E.alias n with
    | some v => some v
    | none => (dens E args).map (Val.decl (E.name n))
  | .gen g => E.gen g
  | .tup ts => (dens E ts).map Val.tup
  | .arr a s => (a.den E).bind fun x => (s.den E).map fun y => Val.arr x y
  | .inv t => (t.den E).map Val.inv
  | .copy t => (t.den E).map Val.copy
  | .self => E.self
  | .wild => none
  | .bool b => some (.bool b)
  | .int i => some (.int i)
  | .str s => some (.str s)
  | .cg c => c.den E
/-- The concrete types a list of written types stands for. -/
def dens (E : Env) : List Ty → Option (List Val)
  | [] => some []
  | t :: ts => (t.den E).bind fun v => (dens E ts).map fun vs => v :: vs
end

/-- The parameters an expression mentions all satisfy `p`. -/
def CG.Over (p : Gen → Prop) : CG → Prop
  | .name n => p (.named n)
  | .un _ a => a.Over p
  | .bin _ a b => a.Over p ∧ b.Over p
  | _ => True

mutual
/-- The parameters a type mentions satisfy `p`, the names it mentions satisfy
`q`, and it mentions `Self` of a trait only if `s`. -/
def Ty.Over (p : Gen → Prop) (q : Nat → Prop) (s : Prop) : Ty → Prop
  | .decl n args => q n ∧ overs p q s args
  | .gen g => p g
  | .tup ts => overs p q s ts
  | .arr a b => a.Over p q s ∧ b.Over p q s
  | .inv t => t.Over p q s
  | .copy t => t.Over p q s
  | .self => s
  | .cg c => c.Over p
  | _ => True
/-- `Ty.Over` of every type of a list. -/
def overs (p : Gen → Prop) (q : Nat → Prop) (s : Prop) : List Ty → Prop
  | [] => True
  | t :: ts => t.Over p q s ∧ overs p q s ts
end

/-- A function, an entity, or a pipeline of some depth. -/
inductive Kind where
  | fn
  | entity
  | pipeline (depth : Nat)
  deriving DecidableEq, Repr

/-- A type parameter of a unit, with the traits it must implement. -/
structure TParam where
  gen : Gen
  bounds : List Nat
  deriving DecidableEq, Repr

/-- The head of a unit.  spade-hir/src/lib.rs:886-906 (`UnitHead`), without
where clauses, documentation and attributes. -/
structure Head where
  name : Nat
  kind : Kind
  isUnsafe : Bool
  params : List (Nat × Ty)
  output : Option Ty
  tparams : List TParam
  hidden : List TParam
  deriving DecidableEq

/-- The type of the result: a unit without a return type gives `()`. -/
def Head.out (h : Head) : Ty := h.output.getD (.tup [])

/-- All the type parameters of the unit itself. -/
def Head.gens (h : Head) : List Gen := (h.tparams ++ h.hidden).map (·.gen)

/-- An associated type: its identifier, the name given to it, and how many
parameters it takes. -/
structure Assoc where
  ident : Nat
  name : Nat
  arity : Nat
  deriving DecidableEq, Repr

/-- A trait, as declared. -/
structure TraitDecl where
  tparams : List (Gen × Option Ty)
  assoc : List Assoc
  methods : List Head

/-- An `impl` of a trait. -/
structure Block where
  /-- the implementing type -/
  target : Ty
  /-- the name `Self` stands for in the block -/
  selfId : Nat
  /-- the arguments given to the trait, if any are written -/
  args : Option (List Ty)
  assoc : List Assoc
  units : List Head

/-- The arguments given to the trait. -/
def Block.argList (b : Block) : List Ty := b.args.getD []

/-- The impl's name for the associated type the trait calls `n`. -/
def assocName (T : TraitDecl) (b : Block) (n : Nat) : Nat :=
  match T.assoc.find? (·.name = n) with
  | none => n
  | some a =>
    match b.assoc.find? (·.ident = a.ident) with
    | none => n
    | some c => c.name

/-- A choice of concrete types: `ρ` for the parameters of the impl, `σ` for those
of the trait, and `S` for the implementing type. -/
structure Choice where
  un : Nat → Val → Option Val
  bin : Nat → Val → Val → Option Val
  ρ : Gen → Option Val
  σ : Gen → Option Val
  S : Val

/-- How the types of the impl are read. -/
def Choice.implEnv (c : Choice) (b : Block) : Env where
  un := c.un
  bin := c.bin
  gen := c.ρ
  self := none
  alias n := if n = b.selfId then some c.S else none
  name n := n

/-- How the types of the trait are read: `Self` is the implementing type, and
associated types are those of the impl. -/
def Choice.traitEnv (c : Choice) (T : TraitDecl) (b : Block) : Env where
  un := c.un
  bin := c.bin
  gen := c.σ
  self := some c.S
  alias _ := none
  name := assocName T b

/-- The choice instantiates the trait the way the `impl` says: the implementing
type is the impl's target, a parameter of the trait is the argument given for it
or else its default, and the parameters of the method are matched by position. -/
structure Choice.Fits (c : Choice) (T : TraitDecl) (b : Block) (m u : Head) : Prop where
  self : b.target.den (c.implEnv b) = some c.S
  arg : ∀ (i : Nat) g d (t : Ty), T.tparams[i]? = some (g, d) → b.argList[i]? = some t →
    c.σ g = t.den (c.implEnv b)
  dflt : ∀ (i : Nat) g (t : Ty), T.tparams[i]? = some (g, some t) → b.argList[i]? = none →
    c.σ g = t.den (c.traitEnv T b)
  meth : ∀ (i : Nat) g k, m.gens[i]? = some g → u.gens[i]? = some k → c.σ g = c.ρ k

/-- The unit `u` of the impl is what the trait promises for its method `m`: the
same safety, as many type parameters, arguments of the same names in the same
order, and the same types of arguments and result, whatever the types the method
is used at. -/
structure Honours (T : TraitDecl) (b : Block) (m u : Head) : Prop where
  name : u.name = m.name
  safety : u.isUnsafe = m.isUnsafe
  tparams : u.tparams.length = m.tparams.length
  params : u.params.map (·.1) = m.params.map (·.1)
  types : ∀ c : Choice, c.Fits T b m u → ∀ (i : Nat) tu tm,
    u.params[i]? = some tu → m.params[i]? = some tm →
    tu.2.den (c.implEnv b) = tm.2.den (c.traitEnv T b)
  out : ∀ c : Choice, c.Fits T b m u →
    u.out.den (c.implEnv b) = m.out.den (c.traitEnv T b)

/-- The names of the program are resolved: the types of the trait mention only its
own parameters and those of the method; what the impl writes mentions neither the
parameters of the trait, nor its associated types or its `Self`; what the trait
writes does not mention the `Self` of the impl; and declarations have names of
their own. -/
structure Scoped (T : TraitDecl) (b : Block) : Prop where
  impl : ∀ u ∈ b.units, ∀ m ∈ T.methods, ∀ t, t ∈ u.out :: u.params.map (·.2) →
    t.Over (fun g => g ∉ T.tparams.map (·.1) ∧ g ∉ m.gens)
      (fun n => n ∉ T.assoc.map (·.name)) False
  head : ∀ m ∈ T.methods, ∀ t, t ∈ b.target :: b.argList →
    t.Over (fun g => g ∉ T.tparams.map (·.1) ∧ g ∉ m.gens)
      (fun n => n ∉ T.assoc.map (·.name)) False
  gens : ∀ u ∈ b.units, ∀ m ∈ T.methods, ∀ g ∈ u.gens, g ∉ T.tparams.map (·.1) ∧ g ∉ m.gens
  target : b.target.Over (fun _ => True) (fun n => n ≠ b.selfId) True
  trait : ∀ m ∈ T.methods, ∀ t, t ∈ m.out :: m.params.map (·.2) →
    t.Over (fun g => g ∈ T.tparams.map (·.1) ∨ g ∈ m.gens) (fun n => n ≠ b.selfId) True
  dflt : ∀ g t, (g, some t) ∈ T.tparams →
    t.Over (fun g => g ∈ T.tparams.map (·.1)) (fun n => n ≠ b.selfId) True
  names : (T.assoc.map (·.name)).Nodup
  idents : (T.assoc.map (·.ident)).Nodup ∧ (b.assoc.map (·.ident)).Nodup

end Spade.Trait

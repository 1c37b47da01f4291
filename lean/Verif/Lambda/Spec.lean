/-!
# What lambdas mean (C54)

A small language with lambdas and its meaning: a lambda is a closure over the
variables and generic parameters where it is written, and calling it evaluates its
body with its parameters bound to the arguments.  Variables are looked up by their
identifier; the innermost, latest binding counts.  Operators are left abstract.
-/
namespace Spade.Lambda

/-- Patterns without alternatives; `x` are identifiers. -/
inductive Pat where
  | wild
  | var (x : Nat)
  | bnd (x : Nat) (p : Pat)
  | tup (ps : List Pat)

/-- Expressions. `prim` stands for everything that computes a value from the values
of its operands and of the generic parameters `gs`; in `call` the generic arguments
are computed from the generic parameters `gs`.  `lam` is a lambda with a block as
body; `isFn` is false for entities and pipelines, which take their clock as first
parameter.  `app f clk a` is `f.call(clk, a)` where `a` is a tuple. -/
inductive Exp (V : Type) where
  | var (x : Nat)
  | prim (gs : List Nat) (f : List Int → List V → Option V) (args : List (Exp V))
  | tup (es : List (Exp V))
  | call (u : Nat) (gs : List Nat) (f : List Int → Option (List Int)) (args : List (Exp V))
  | lam (isFn : Bool) (ps : List Pat) (ss : List (Pat × Exp V)) (r : Exp V)
  | app (f : Exp V) (clk : List (Exp V)) (a : Exp V)
  | block (ss : List (Pat × Exp V)) (r : Exp V)

/-- A unit: generic parameters, inputs, body. -/
structure Unit (V : Type) where
  gens : List Nat
  params : List Nat
  body : Exp V

/-- A program: units with their names. -/
abbrev Prog (V : Type) := List (Nat × Unit V)

/-- Values.  A closure holds the generic parameters and variables of the place where
it was made. -/
inductive Val (V : Type) where
  | data (v : V)
  | tup (vs : List (Val V))
  | clo (ρ : List (Nat × Int)) (isFn : Bool) (ps : List Pat) (ss : List (Pat × Exp V)) (r : Exp V)
      (E : List (Nat × Val V))

abbrev Env (V : Type) := List (Nat × Val V)

section
variable {V : Type}

mutual
/-- The variables after matching a value. -/
def Pat.bind : Pat → Val V → Env V → Option (Env V)
  | .wild, _, E => some E
  | .var x, v, E => some ((x, v) :: E)
  | .bnd x p, v, E => (p.bind v E).map fun E' => (x, v) :: E'
  | .tup ps, .tup vs, E => binds ps vs E
  | .tup _, _, _ => none
/-- `Pat.bind` for several values. -/
def binds : List Pat → List (Val V) → Env V → Option (Env V)
  | [], [], E => some E
  | p :: ps, v :: vs, E => (p.bind v E).bind fun E' => binds ps vs E'
  | _, _, _ => none
end

/-- What calls of units and of closures give. -/
structure Calls (V : Type) where
  unit : Nat → List Int → List (Val V) → Option (Val V)
  clo : Val V → List (Val V) → Val V → Option (Val V)

/-- The values of generic parameters. -/
def gens (ρ : List (Nat × Int)) : List Nat → Option (List Int)
  | [] => some []
  | g :: gs => (ρ.lookup g).bind fun i => (gens ρ gs).map (i :: ·)

/-- Values that are no tuples or closures. -/
def datas : List (Val V) → Option (List V)
  | [] => some []
  | .data v :: vs => (datas vs).map (v :: ·)
  | _ => none

mutual
/-- The value of an expression. -/
def Exp.ev (c : Calls V) (ρ : List (Nat × Int)) (E : Env V) : Exp V → Option (Val V)
  | .var x => E.lookup x
  | .prim gs f args => (gens ρ gs).bind fun is => (evs c ρ E args).bind fun vs =>
      (datas vs).bind fun ds => (f is ds).map .data
  | .tup es => (evs c ρ E es).map .tup
  | .call u gs f args => (gens ρ gs).bind fun is => (f is).bind fun js =>
      (evs c ρ E args).bind fun vs => c.unit u js vs
  | .lam isFn ps ss r => some (.clo ρ isFn ps ss r E)
  | .app f clk a => (f.ev c ρ E).bind fun g => (evs c ρ E clk).bind fun cs =>
      (a.ev c ρ E).bind fun v => c.clo g cs v
  | .block ss r => (stms c ρ E ss).bind fun E' => r.ev c ρ E'
/-- The values of several expressions. -/
def evs (c : Calls V) (ρ : List (Nat × Int)) (E : Env V) : List (Exp V) → Option (List (Val V))
  | [] => some []
  | a :: as => (a.ev c ρ E).bind fun v => (evs c ρ E as).map (v :: ·)
/-- The variables after some bindings. -/
def stms (c : Calls V) (ρ : List (Nat × Int)) (E : Env V) : List (Pat × Exp V) → Option (Env V)
  | [] => some E
  | (p, e) :: ss => (e.ev c ρ E).bind fun v => (p.bind v E).bind fun E' => stms c ρ E' ss
end

/-- What calls give if they are nested at most `n` deep.  The parameters of a closure
are its clock, if it has one, followed by its arguments. -/
def Prog.calls (P : Prog V) : Nat → Calls V
  | 0 => ⟨fun _ _ _ => none, fun _ _ _ => none⟩
  | n + 1 =>
    { unit := fun u is vs => (P.lookup u).bind fun w =>
        if w.gens.length = is.length then
          (binds (w.params.map .var) vs []).bind fun E => w.body.ev (P.calls n) (w.gens.zip is) E
        else none
      clo := fun g cs a =>
        match g, a with
        | .clo ρ isFn ps ss r E, .tup vs =>
          if cs.length = (if isFn then 0 else 1) then
            (binds ps (cs ++ vs) E).bind fun E' => (Exp.block ss r).ev (P.calls n) ρ E'
          else none
        | _, _ => none }

/-- The unit `u` gives `v` for generic arguments `is` and arguments `vs`. -/
def Prog.Gives (P : Prog V) (u : Nat) (is : List Int) (vs : List V) (v : V) : Prop :=
  ∃ n, (P.calls n).unit u is (vs.map .data) = some (.data v)

/-! ## Which programs make sense -/

mutual
/-- The identifiers a pattern binds. -/
def Pat.vars : Pat → List Nat
  | .wild => []
  | .var x => [x]
  | .bnd x p => x :: p.vars
  | .tup ps => varss ps
/-- `Pat.vars` on several patterns. -/
def varss : List Pat → List Nat
  | [] => []
  | p :: ps => p.vars ++ varss ps
end

mutual
/-- All variables are in scope (`X`), generic parameters are those of the unit (`G`)
and the first parameter of lambdas that are no functions is `clk`. -/
def Exp.Scoped (clk : Nat) (G : List Nat) (X : Nat → Prop) : Exp V → Prop
  | .var x => X x
  | .prim gs _ args => (∀ g ∈ gs, g ∈ G) ∧ scopeds clk G X args
  | .tup es => scopeds clk G X es
  | .call _ gs _ args => (∀ g ∈ gs, g ∈ G) ∧ scopeds clk G X args
  | .lam isFn ps ss r => (isFn = false → ∃ ps', ps = .var clk :: ps') ∧
      scopedS clk G (fun x => x ∈ varss ps ∨ X x) ss ∧
      r.Scoped clk G (fun x => (∃ s ∈ ss, x ∈ s.1.vars) ∨ x ∈ varss ps ∨ X x)
  | .app f cs a => f.Scoped clk G X ∧ scopeds clk G X cs ∧ a.Scoped clk G X
  | .block ss r => scopedS clk G X ss ∧ r.Scoped clk G (fun x => (∃ s ∈ ss, x ∈ s.1.vars) ∨ X x)
/-- `Exp.Scoped` on several expressions. -/
def scopeds (clk : Nat) (G : List Nat) (X : Nat → Prop) : List (Exp V) → Prop
  | [] => True
  | e :: es => e.Scoped clk G X ∧ scopeds clk G X es
/-- `Exp.Scoped` on statements. -/
def scopedS (clk : Nat) (G : List Nat) (X : Nat → Prop) : List (Pat × Exp V) → Prop
  | [] => True
  | (p, e) :: ss => e.Scoped clk G X ∧ scopedS clk G (fun x => x ∈ p.vars ∨ X x) ss
end

/-- All units make sense. -/
def Prog.Scoped (clk : Nat) (P : Prog V) : Prop :=
  ∀ e ∈ P, e.2.body.Scoped clk e.2.gens (· ∈ e.2.params)

/-! ## Which variables occur -/

mutual
/-- Patterns that are nothing but an identifier, in a pattern. -/
def Pat.plain : Pat → List Nat
  | .wild => []
  | .var x => [x]
  | .bnd _ p => p.plain
  | .tup ps => plains ps
/-- `Pat.plain` on several patterns. -/
def plains : List Pat → List Nat
  | [] => []
  | p :: ps => p.plain ++ plains ps
end

mutual
/-- The variables an expression mentions, used or bound by a plain pattern. -/
def Exp.mentions : Exp V → List Nat
  | .var x => [x]
  | .prim _ _ args => mentionss args
  | .tup es => mentionss es
  | .call _ _ _ args => mentionss args
  | .lam _ ps ss r => plains ps ++ mentionsS ss ++ r.mentions
  | .app f cs a => f.mentions ++ mentionss cs ++ a.mentions
  | .block ss r => mentionsS ss ++ r.mentions
/-- `Exp.mentions` on several expressions. -/
def mentionss : List (Exp V) → List Nat
  | [] => []
  | e :: es => e.mentions ++ mentionss es
/-- `Exp.mentions` on statements. -/
def mentionsS : List (Pat × Exp V) → List Nat
  | [] => []
  | (p, e) :: ss => e.mentions ++ p.plain ++ mentionsS ss
end

mutual
/-- The variables an expression needs from outside. -/
def Exp.free : Exp V → List Nat
  | .var x => [x]
  | .prim _ _ args => frees args
  | .tup es => frees es
  | .call _ _ _ args => frees args
  | .lam _ ps ss r => (freeS ss r.free).filter (· ∉ varss ps)
  | .app f cs a => f.free ++ frees cs ++ a.free
  | .block ss r => freeS ss r.free
/-- `Exp.free` on several expressions. -/
def frees : List (Exp V) → List Nat
  | [] => []
  | e :: es => e.free ++ frees es
/-- `Exp.free` on statements; `X` is what is needed after them. -/
def freeS : List (Pat × Exp V) → List Nat → List Nat
  | [], X => X
  | (p, e) :: ss, X => e.free ++ (freeS ss X).filter (· ∉ p.vars)
end

end
end Spade.Lambda

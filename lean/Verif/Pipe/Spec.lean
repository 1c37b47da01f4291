/-
Specification of pipelines for C27-C30: source expressions and statements of a pipeline body, what
they mean for one input (a *token*), when an expression is ready, and how tokens move through the
stages when stages are stalled.  Nothing here refers to generated registers or to substitution
tables.
-/

namespace Spade.Pipe

/-- Source variables. -/
abbrev Name := Nat

/-- Expressions of a pipeline body.  `op` stands for all expressions that compute their value from
the values of their parts in the same cycle (literals of tuples and arrays, indexing, operators,
calls of functions); `sel` for `match` (scrutinee; guards and arms) and `if` (condition; branches);
`pipe` for the instantiation of a pipeline of the given depth (its first number identifies the
expression); `pref` for `stage(k).x`, with the stage already absolute. -/
inductive Expr where
  | ident (x : Name)
  | pref (stage : Nat) (x : Name)
  | lit (n : Nat)
  | op (f : Nat) (args : List Expr)
  | sel (f : Nat) (scrutinee : Expr) (arms : List Expr)
  | block (names : List Name) (values : List Expr) (result : Expr)
  | pipe (id : Nat) (f : Nat) (depth : Nat) (args : List Expr)
  | stageReady
  | stageValid
deriving Repr

/-- A variable bound by a pattern: its name, whether it is marked `wire`, and whether its type has
no bits. -/
structure Var where
  name : Name
  wire : Bool
  zeroSized : Bool
deriving Repr, DecidableEq

/-- Statements at the top of a pipeline body.  A binding binds the variables of a pattern, each of
them to a part of the value (given by the operation that takes the part). -/
inductive Stmt where
  | letS (vars : List (Var × Nat)) (value : Expr)
  | regS (id : Nat) (vars : List (Var × Nat)) (value : Expr)
  | other
  | marker (cond : Option (Nat × Expr))
deriving Repr

/-- The meaning of the operations, over any type of values. -/
structure Interp (V : Type) where
  lit : Nat → V
  op : Nat → List V → V
  sel : Nat → V → List V → V
  bool : Bool → V
  truth : V → Bool
  truth_bool : ∀ b, truth (bool b) = b

section Meaning
variable {V : Type} (I : Interp V) (val : Name → Int → V) (isWire : Name → Bool)
  (wires : Name → Nat → V)

mutual
/-- The value of an expression for the token `t` (the one that enters the pipeline in cycle `t`) when
the value is produced in cycle `c`.  `val x t` is the value of the variable `x` for token `t`; wires
belong to no token and are read in the cycle where they are used.  `stage(k).x` reads the value of
`x` for the token that is in stage `k`.  Stages that cannot stall are always ready and valid. -/
def meaning (t : Int) (c : Nat) : Expr → V
  | .ident x => if isWire x then wires x c else val x t
  | .pref k x => if isWire x then wires x c else val x ((c : Int) - k)
  | .lit n => I.lit n
  | .op f args => I.op f (meanings t c args)
  | .sel f s arms => I.sel f (meaning t c s) (meanings t c arms)
  | .block _ _ r => meaning t c r
  | .pipe _ f depth args => I.op f (meanings t (c - depth) args)
  | .stageReady => I.bool true
  | .stageValid => I.bool true

def meanings (t : Int) (c : Nat) : List Expr → List V
  | [] => []
  | e :: es => meaning t c e :: meanings t c es
end

end Meaning

mutual
/-- All parts of the expression are ready at the same time, `d` cycles after the stage in which the
expression is written: variables and stage references are ready at once, wires and literals at any
time, and the result of a pipeline comes `depth` cycles after its arguments.  Variables bound in an
inner block have to be ready at once. -/
def ReadyAt (isWire : Name → Bool) : Expr → Nat → Prop
  | .ident x, d => isWire x = true ∨ d = 0
  | .pref _ _, d => d = 0
  | .lit _, _ => True
  | .op _ args, d => ReadyAllAt isWire args d
  | .sel _ s arms, d => ReadyAt isWire s d ∧ ReadyAllAt isWire arms d
  | .block _ values r, d => ReadyAllAt isWire values 0 ∧ ReadyAt isWire r d
  | .pipe _ _ depth args, d => ∃ d', d = d' + depth ∧ ReadyAllAt isWire args d'
  | .stageReady, d => d = 0
  | .stageValid, d => d = 0

def ReadyAllAt (isWire : Name → Bool) : List Expr → Nat → Prop
  | [], _ => True
  | e :: es, d => ReadyAt isWire e d ∧ ReadyAllAt isWire es d
end

mutual
/-- No pipeline is instantiated in the expression. -/
def NoInst : Expr → Prop
  | .op _ args => NoInsts args
  | .sel _ s arms => NoInst s ∧ NoInsts arms
  | .block _ values r => NoInsts values ∧ NoInst r
  | .pipe _ _ _ _ => False
  | _ => True

def NoInsts : List Expr → Prop
  | [] => True
  | e :: es => NoInst e ∧ NoInsts es
end

mutual
/-- Expressions without `match`, `if` and bindings of delayed values, except in the arguments of a
pipeline instance that instantiate no further pipelines. -/
def Straight : Expr → Prop
  | .op _ args => StraightAll args
  | .sel _ _ _ => False
  | .block _ values r => NoInsts values ∧ Straight r
  | .pipe _ _ _ args => StraightAll args ∨ NoInsts args
  | _ => True

def StraightAll : List Expr → Prop
  | [] => True
  | e :: es => Straight e ∧ StraightAll es
end

mutual
/-- The variables an expression refers to (in the stage it is written in). -/
def idents : Expr → List Name
  | .ident x => [x]
  | .op _ args => identsAll args
  | .sel _ s arms => idents s ++ identsAll arms
  | .block _ values r => identsAll values ++ idents r
  | .pipe _ _ _ args => identsAll args
  | _ => []

def identsAll : List Expr → List Name
  | [] => []
  | e :: es => idents e ++ identsAll es
end

mutual
/-- The bindings of inner blocks. -/
def inner : Expr → List (Name × Expr)
  | .op _ args => innerAll args
  | .sel _ s arms => inner s ++ innerAll arms
  | .block names values r => names.zip values ++ innerAll values ++ inner r
  | .pipe _ _ _ args => innerAll args
  | _ => []

def innerAll : List Expr → List (Name × Expr)
  | [] => []
  | e :: es => inner e ++ innerAll es
end

/-- The stage after some statements: the number of register statements among them. -/
def stageAfter : List Stmt → Nat
  | [] => 0
  | .marker _ :: ss => stageAfter ss + 1
  | _ :: ss => stageAfter ss

/-- The bindings of a body: stage, variables and value (and whether it is a register). -/
structure Bind where
  stage : Nat
  isReg : Bool
  vars : List (Var × Nat)
  value : Expr

/-- The bindings of a body that starts in stage `k`. -/
def binds (k : Nat) : List Stmt → List Bind
  | [] => []
  | .letS vars e :: ss => ⟨k, false, vars, e⟩ :: binds k ss
  | .regS _ vars e :: ss => ⟨k, true, vars, e⟩ :: binds k ss
  | .other :: ss => binds k ss
  | .marker _ :: ss => binds (k + 1) ss

/-- The variables bound by some statements. -/
def boundVars (b : List Bind) : List Var := b.flatMap fun b => b.vars.map (·.1)

/-- A variable that belongs to no token: a wire, or a variable without bits. -/
def wireIn (vs : List Var) (x : Name) : Bool :=
  vs.any fun v => decide (v.name = x) && (v.wire || v.zeroSized)

/-- The bindings of inner blocks, with the stage they are in. -/
def localBinds (body : List Stmt) (result : Expr) : List (Nat × Name × Expr) :=
  (binds 0 body).flatMap (fun b => (inner b.value).map (b.stage, ·)) ++
    (inner result).map (stageAfter body, ·)

/-- All variables have different names (names in the compiler are resolved), and an expression refers
to variables of its own inner blocks, to inputs, and to variables bound in the same or an earlier
stage. -/
structure Scoped (inputs : List Var) (body : List Stmt) (result : Expr) : Prop where
  nodup : (inputs.map (·.name) ++ (boundVars (binds 0 body)).map (·.name) ++
    (localBinds body result).map (·.2.1)).Nodup
  visible : ∀ b ∈ binds 0 body ++ [⟨stageAfter body, false, [], result⟩], ∀ x ∈ idents b.value,
    x ∈ (inner b.value).map (·.1) ∨ x ∈ inputs.map (·.name) ∨
    ∃ b' ∈ binds 0 body, b'.stage ≤ b.stage ∧ x ∈ b'.vars.map (·.1.name)

/-- No register statement of the pipeline has a condition. -/
def Unconditional (body : List Stmt) : Prop := ∀ c, .marker c ∈ body → c = none

/-- The signals of a pipeline carry the values of tokens that move one stage per cycle: token `t` is
in stage `k` in cycle `t + k`.  `signal x` is the signal of the variable `x`, `output` that of the
output, and `val x t` the value of `x` for token `t`.
* Inputs: token `t` carries the inputs of cycle `t`.
* A variable bound by `let` in stage `k` has for every token that reaches stage `k` the value of the
  expression for the same token; the value is computed in the `d`-th cycle after the token was in
  stage `k`, where `d` is the delay of the pipelines instantiated in it.
* A variable bound by `reg` has the value of the expression for the previous token.
* Wires belong to no token; they are recomputed every cycle.
* The output of cycle `c` is the value of the result for the token in the last stage. -/
structure Explains {V : Type} (I : Interp V) (inputs : List Var) (body : List Stmt) (result : Expr)
    (signal : Name → Nat → V) (output : Nat → V) (val : Name → Int → V) : Prop where
  of_inputs : ∀ v ∈ inputs, ∀ c : Nat, val v.name c = signal v.name c
  of_lets : ∀ b ∈ binds 0 body, b.isReg = false →
    ∃ d, ReadyAt (wireIn (inputs ++ boundVars (binds 0 body))) b.value d ∧
    ∀ v ∈ b.vars, v.1.wire = false → v.1.zeroSized = false → ∀ t : Int, 0 ≤ t + b.stage →
      val v.1.name t = I.op v.2 [meaning I val (wireIn (inputs ++ boundVars (binds 0 body))) signal
        t (t + b.stage + d).toNat b.value]
  of_regs : ∀ b ∈ binds 0 body, b.isReg = true →
    ∃ d, ReadyAt (wireIn (inputs ++ boundVars (binds 0 body))) b.value d ∧
    ∀ v ∈ b.vars, v.1.wire = false → v.1.zeroSized = false → ∀ t : Int, 0 < t + b.stage →
      val v.1.name t = I.op v.2 [meaning I val (wireIn (inputs ++ boundVars (binds 0 body))) signal
        (t - 1) (t - 1 + b.stage + d).toNat b.value]
  of_wires : ∀ b ∈ binds 0 body, b.isReg = false →
    ∃ d, ReadyAt (wireIn (inputs ++ boundVars (binds 0 body))) b.value d ∧
    ∀ v ∈ b.vars, v.1.wire = true ∨ v.1.zeroSized = true → ∀ c : Nat, d ≤ c →
      signal v.1.name c = I.op v.2 [meaning I val (wireIn (inputs ++ boundVars (binds 0 body)))
        signal ((c : Int) - d - b.stage) c b.value]
  of_locals : ∀ p ∈ localBinds body result, ∀ t : Int, 0 ≤ t + p.1 →
    val p.2.1 t = meaning I val (wireIn (inputs ++ boundVars (binds 0 body))) signal
      t (t + p.1).toNat p.2.2
  of_output : ∀ c : Nat, output c = meaning I val (wireIn (inputs ++ boundVars (binds 0 body))) signal
    ((c : Int) - stageAfter body) c result

/-- The conditions of the register statements: a number that identifies the expression, and the
expression. -/
def conditions : List Stmt → List (Option (Nat × Expr))
  | [] => []
  | .marker c :: ss => c :: conditions ss
  | _ :: ss => conditions ss

/-! ### Tokens in a pipeline that stalls -/

/-- What a stage can hold: the input of some cycle, or what was in the registers in the
beginning. -/
inductive Token where
  | input (cycle : Nat)
  | initial (stage : Nat)
deriving DecidableEq, Repr

section Tokens
variable (cond : Nat → Nat → Bool) (n : Nat)

/-- Stage `i` of a pipeline with `n` register statements can advance in cycle `c`: its own condition
and those of all later stages hold. -/
def advances (i c : Nat) : Bool := (List.range n).all fun m => !(decide (i ≤ m)) || cond m c

/-- The token in stage `i` in cycle `c`, if any.  Stage 0 holds the present input.  When stage `i`
advances its token moves to stage `i + 1`; when only stage `i + 1` advances a gap is left behind it;
otherwise the token of stage `i + 1` stays.  `occupied i` says whether stage `i` holds something
meaningful in the beginning. -/
def token (occupied : Nat → Bool) : Nat → Nat → Option Token
  | 0, c => some (.input c)
  | i + 1, 0 => if occupied (i + 1) then some (.initial (i + 1)) else none
  | i + 1, c + 1 =>
    if advances cond n i c then token occupied i c
    else if advances cond n (i + 1) c then none
    else token occupied (i + 1) c

end Tokens

end Spade.Pipe

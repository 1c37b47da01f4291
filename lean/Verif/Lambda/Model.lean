import Verif.Lambda.Spec
/-!
# Lowering of lambdas

Model of spade-ast-lowering/src/lambda.rs, of the parts of
spade-ast-lowering/src/lib.rs and spade-hir/src/symbol_table.rs that resolve
variables, and of spade-hir-lowering/src/passes/lower_lambda_defs.rs.  Errors are
`none`.  Types are left out; the type of a lambda value is the name of the struct
made for the lambda with its generic arguments.
-/
namespace Spade.Lambda

/-- `NameID`: a number and the identifier. spade-common/src/name.rs -/
abbrev Name := Nat × Nat

/-- Patterns of the HIR.  spade-hir/src/lib.rs (`PatternKind`) -/
inductive HPat where
  | wild
  | var (n : Name)
  | bnd (n : Name) (p : HPat)
  | tup (ps : List HPat)

/-- Expressions of the HIR.  spade-hir/src/expression.rs (`ExprKind`): `lam` is
`LambdaDef` with the lambda's type and unit `L`, the number `k` of the type
parameters made up for it and the outer generic parameters as (name in the lambda's
unit, name in the body); `make` is the call of the constructor of the struct `L`,
`proj` is `TupleIndex` and `field` is `FieldAccess`. -/
inductive HExp (V : Type) where
  | var (n : Name)
  | prim (gs : List Nat) (f : List Int → List V → Option V) (args : List (HExp V))
  | tup (es : List (HExp V))
  | call (u : Nat) (gs : List Nat) (f : List Int → Option (List Int)) (args : List (HExp V))
  | lam (L k : Nat) (outer : List (Nat × Nat)) (clk : Option Name) (ps : List HPat)
      (caps : List (Nat × Name)) (ss : List (HPat × HExp V)) (r : HExp V)
  | make (L k : Nat) (gs : List Nat) (args : List (HExp V))
  | proj (e : HExp V) (i : Nat)
  | field (e : HExp V) (x : Nat)
  | app (f : HExp V) (clk : List (HExp V)) (a : HExp V)
  | block (ss : List (HPat × HExp V)) (r : HExp V)

/-- A unit of the HIR. -/
structure HUnit (V : Type) where
  gens : List Nat
  inputs : List Name
  body : HExp V

/-! ## Scopes -/

/-- `Scope`: symbol_table.rs:498-506.  `barrier` holds the captures collected by the
lookup barrier of a lambda (lambda.rs:92-121). -/
structure Scope where
  vars : List (Nat × Name) := []
  barrier : Option (List (Nat × Name)) := none

/-- The lookup barrier: lambda.rs:96-108. -/
def Scope.touch (s : Scope) (x : Nat) (n : Name) : Scope :=
  match s.barrier with
  | none => s
  | some caps =>
    if caps.any (·.1 == x) then s else { s with barrier := some (caps ++ [(x, n)]) }

/-- `lookup_id` of a variable, which notifies the barriers of the scopes that were
passed: symbol_table.rs:1219-1283.  The innermost scope comes first. -/
def look (x : Nat) : List Scope → Option (Name × List Scope)
  | [] => none
  | s :: ss =>
    match s.vars.lookup x with
    | some n => some (n, s :: ss)
    | none => (look x ss).map fun (n, ss') => (n, s.touch x n :: ss')

/-- The unit made for a lambda, before its body is replaced: lambda.rs:239-384.
`members` are the members of the struct made for it. -/
structure LUnit where
  tparams : List Nat
  arity : Nat
  members : List Nat
  inputs : List Name

/-- The part of `Context` that matters. -/
structure St where
  next : Nat
  scopes : List Scope
  items : List (Nat × LUnit)

/-- `add_local_variable`, `add_thing` for a variable: symbol_table.rs:640-683. -/
def St.add (st : St) (x : Nat) : Name × St :=
  match st.scopes with
  | [] => ((st.next, x), { st with next := st.next + 1 })
  | s :: ss => ((st.next, x),
      { st with next := st.next + 1, scopes := { s with vars := (x, (st.next, x)) :: s.vars } :: ss })

/-- A lookup whose result is not used: a pattern that is an identifier is looked up
as an enum variant first (lib.rs:1652-1654, 1738-1740). -/
def St.touch (st : St) (x : Nat) : St :=
  match look x st.scopes with
  | some (_, ss) => { st with scopes := ss }
  | none => st

mutual
/-- `visit_pattern`: lib.rs:1679-1769.  Declarations (`decl`) are left out. -/
def visitP : Pat → St → HPat × St
  | .wild, st => (.wild, st)
  | .var x, st =>
    let (n, st') := (st.touch x).add x
    (.var n, st')
  | .bnd x p, st =>
    let (q, st₁) := visitP p st
    let (n, st₂) := st₁.add x
    (.bnd n q, st₂)
  | .tup ps, st =>
    let (qs, st') := visitPs ps st
    (.tup qs, st')
/-- `visit_pattern` on several patterns. -/
def visitPs : List Pat → St → List HPat × St
  | [], st => ([], st)
  | p :: ps, st =>
    let (q, st₁) := visitP p st
    let (qs, st₂) := visitPs ps st₁
    (q :: qs, st₂)
end

/-- `close_scope`: symbol_table.rs:603-606, giving the captures of the scope. -/
def St.close (st : St) : List (Nat × Name) × St :=
  match st.scopes with
  | [] => ([], st)
  | s :: ss => (s.barrier.getD [], { st with scopes := ss })

/-- `handle_unit_kind`: lambda.rs:484-567.  The first parameter of entities and
pipelines is the identifier `clk`. -/
def handleKind (clkId : Nat) : Bool → List Pat → Option (Option Nat × List Pat)
  | true, ps => some (none, ps)
  | false, .var x :: ps => if x = clkId then some (some x, ps) else none
  | false, _ => none

/-- `clock` of the lambda: lambda.rs:124-126. -/
def St.addClock (st : St) : Option Nat → Option Name × St
  | none => (none, st)
  | some x =>
    let (n, st') := st.add x
    (some n, st')

/-- The inputs of the unit made for a lambda: lambda.rs:331-352. -/
def lamInputs (selfId clkId argsId i : Nat) : Option Name → List Name
  | none => [(i, selfId), (i + 1, argsId)]
  | some _ => [(i, selfId), (i + 1, clkId), (i + 2, argsId)]

/-- The type, the unit and the `LambdaDef` made for a lambda once its body has been
visited: lambda.rs:138-471.  `selfId`, `clkId` and `argsId` are the identifiers of
the parameters of `call`; `G` are the generic parameters of the unit around. -/
def makeDef {V : Type} (selfId clkId argsId : Nat) (G : List Nat) (clk : Option Name) (ps : List HPat)
    (caps : List (Nat × Name)) (ss : List (HPat × HExp V)) (r : HExp V) (st : St) : HExp V × St :=
  let k := ps.length + 1 + caps.length
  let L := st.next
  let tparams := (List.range (k + G.length)).map (st.next + 1 + ·)
  let i := st.next + 1 + (k + G.length)
  let inputs := lamInputs selfId clkId argsId i clk
  (.lam L k ((tparams.drop k).zip G) clk ps caps ss r,
    { st with
      next := i + 3
      items := (L, { tparams, arity := ps.length, members := caps.map (·.1), inputs }) :: st.items })

section
variable {V : Type}

/-- Identifiers the compiler uses. -/
structure Ids where
  self : Nat
  clk : Nat
  args : Nat

mutual
/-- `visit_expression`: lib.rs:2205-2600, with `visit_lambda` (lambda.rs:67-482) and
`visit_block` (lib.rs:2781-2799).  Generic parameters must be those of the unit
(`G`). -/
def visit (I : Ids) (G : List Nat) : Exp V → St → Option (HExp V × St)
  | .var x, st => (look x st.scopes).map fun (n, ss) => (.var n, { st with scopes := ss })
  | .prim gs f args, st =>
    if gs.all (· ∈ G) then (visits I G args st).map fun (as, st') => (.prim gs f as, st') else none
  | .tup es, st => (visits I G es st).map fun (as, st') => (.tup as, st')
  | .call u gs f args, st =>
    if gs.all (· ∈ G) then (visits I G args st).map fun (as, st') => (.call u gs f as, st') else none
  | .app f clk a, st =>
    (visit I G f st).bind fun (f', st₁) => (visits I G clk st₁).bind fun (clk', st₂) =>
      (visit I G a st₂).map fun (a', st₃) => (.app f' clk' a', st₃)
  | .block ss r, st =>
    (visitS I G ss { st with scopes := {} :: st.scopes }).bind fun (ss', st₁) =>
      (visit I G r st₁).map fun (r', st₂) => (.block ss' r', (st₂.close).2)
  | .lam isFn ps ss r, st =>
    (handleKind I.clk isFn ps).bind fun (clk, ps₁) =>
      let (clk', st₁) := ({ st with scopes := { barrier := some [] } :: st.scopes } : St).addClock clk
      let (ps', st₂) := visitPs ps₁ st₁
      (visitS I G ss { st₂ with scopes := {} :: st₂.scopes }).bind fun (ss', st₃) =>
        (visit I G r st₃).map fun (r', st₄) =>
          let (caps, st₅) := (st₄.close).2.close
          makeDef I.self I.clk I.args G clk' ps' caps ss' r' st₅
/-- `visit_expression` on several expressions. -/
def visits (I : Ids) (G : List Nat) : List (Exp V) → St → Option (List (HExp V) × St)
  | [], st => some ([], st)
  | e :: es, st => (visit I G e st).bind fun (h, st₁) =>
      (visits I G es st₁).map fun (hs, st₂) => (h :: hs, st₂)
/-- The statements of a block: lib.rs:2781-2799, 1892-1908. -/
def visitS (I : Ids) (G : List Nat) : List (Pat × Exp V) → St →
    Option (List (HPat × HExp V) × St)
  | [], st => some ([], st)
  | (p, e) :: ss, st => (visit I G e st).bind fun (h, st₁) =>
      let (q, st₂) := visitP p st₁
      (visitS I G ss st₂).map fun (ss', st₃) => ((q, h) :: ss', st₃)
end

/-- Add inputs to the scope of a unit: lib.rs:1390-1410. -/
def addInputs : List Nat → St → List Name × St
  | [], st => ([], st)
  | x :: xs, st =>
    let (n, st₁) := st.add x
    let (ns, st₂) := addInputs xs st₁
    (n :: ns, st₂)

/-- `visit_unit`: lib.rs:1295-1446. -/
def visitUnit (I : Ids) (u : Unit V) (st : St) : Option (HUnit V × St) :=
  let (ns, st₁) := addInputs u.params { st with scopes := [{}] }
  (visit I u.gens u.body st₁).map fun (b, st₂) =>
    ({ gens := u.gens, inputs := ns, body := b }, st₂)

/-! ## The pass -/

/-- `LambdaReplacement`: lower_lambda_defs.rs:22-28. -/
structure Repl (V : Type) where
  outer : List (Nat × Nat)
  clk : Option Name
  ps : List HPat
  caps : List (Nat × Name)
  ss : List (HPat × HExp V)
  r : HExp V

mutual
/-- `LowerLambdaDefs`: lower_lambda_defs.rs:248-358, children first
(passes/pass.rs:22-26).  Gives the new expression and the replacements.
(The replacements are keyed by the lambda and the types it is used with; they only
differ in types.) -/
def lower : HExp V → HExp V × List (Nat × Repl V)
  | .var n => (.var n, [])
  | .prim gs f args => let (as, rs) := lowers args; (.prim gs f as, rs)
  | .tup es => let (as, rs) := lowers es; (.tup as, rs)
  | .call u gs f args => let (as, rs) := lowers args; (.call u gs f as, rs)
  | .lam L k outer clk ps caps ss r =>
    let (ss', rs₁) := lowerS ss
    let (r', rs₂) := lower r
    (.make L k (outer.map (·.2)) (caps.map fun c => .var c.2),
      rs₁ ++ rs₂ ++ [(L, { outer, clk, ps, caps, ss := ss', r := r' })])
  | .make L k gs args => let (as, rs) := lowers args; (.make L k gs as, rs)
  | .proj e i => let (e', rs) := lower e; (.proj e' i, rs)
  | .field e x => let (e', rs) := lower e; (.field e' x, rs)
  | .app f clk a =>
    let (f', rs₁) := lower f
    let (clk', rs₂) := lowers clk
    let (a', rs₃) := lower a
    (.app f' clk' a', rs₁ ++ rs₂ ++ rs₃)
  | .block ss r =>
    let (ss', rs₁) := lowerS ss
    let (r', rs₂) := lower r
    (.block ss' r', rs₁ ++ rs₂)
/-- The pass on several expressions. -/
def lowers : List (HExp V) → List (HExp V) × List (Nat × Repl V)
  | [] => ([], [])
  | e :: es =>
    let (e', rs₁) := lower e
    let (es', rs₂) := lowers es
    (e' :: es', rs₁ ++ rs₂)
/-- The pass on statements. -/
def lowerS : List (HPat × HExp V) → List (HPat × HExp V) × List (Nat × Repl V)
  | [] => ([], [])
  | (p, e) :: ss =>
    let (e', rs₁) := lower e
    let (ss', rs₂) := lowerS ss
    ((p, e') :: ss', rs₁ ++ rs₂)
end

/-- Arguments are taken out of the tuple: lower_lambda_defs.rs:64-96. -/
def argBindings (args : Name) : Nat → List HPat → List (HPat × HExp V)
  | _, [] => []
  | i, p :: ps => (p, .proj (.var args) i) :: argBindings args (i + 1) ps

/-- `replace_in`: lower_lambda_defs.rs:63-238. -/
def Repl.replaceIn (R : Repl V) (u : LUnit) : Option (HUnit V) :=
  (u.inputs[0]?).bind fun self =>
  (u.inputs[if R.clk.isSome then 2 else 1]?).bind fun args =>
  (match R.clk with
    | none => some []
    | some c => (u.inputs[1]?).map fun n => [(HPat.var c, HExp.var n)]).map fun clock =>
    { gens := u.tparams.map fun p => (R.outer.lookup p).getD p
      inputs := u.inputs
      body := .block (argBindings args 0 R.ps ++ clock ++
        R.caps.map (fun (c : Nat × Name) => (HPat.var c.2, HExp.field (.var self) c.1)) ++ R.ss) R.r }

/-- The code for a lambda: the members of its struct, the number of its arguments and
its unit. -/
structure LCode (V : Type) where
  members : List Nat
  arity : Nat
  unit : HUnit V

/-- A compiled program. -/
structure HProg (V : Type) where
  units : List (Nat × HUnit V)
  lams : List (Nat × LCode V)

/-- The units of the program, visited one after the other. -/
def visitAll (I : Ids) : Prog V → St → Option (List (Nat × HUnit V) × St)
  | [], st => some ([], st)
  | (n, u) :: P, st => (visitUnit I u st).bind fun (h, st₁) =>
      (visitAll I P st₁).map fun (hs, st₂) => ((n, h) :: hs, st₂)

/-- The pass on all units. -/
def lowerAll : List (Nat × HUnit V) → List (Nat × HUnit V) × List (Nat × Repl V)
  | [] => ([], [])
  | (n, u) :: us =>
    let (b, rs₁) := lower u.body
    let (us', rs₂) := lowerAll us
    ((n, { u with body := b }) :: us', rs₁ ++ rs₂)

/-- Replacement of the bodies of the units of lambdas: monomorphisation.rs:345-355. -/
def replaceAll (items : List (Nat × LUnit)) : List (Nat × Repl V) → Option (List (Nat × LCode V))
  | [] => some []
  | (L, R) :: rs => (items.lookup L).bind fun u => (R.replaceIn u).bind fun w =>
      (replaceAll items rs).map fun cs =>
        (L, { members := u.members, arity := u.arity, unit := w }) :: cs

/-- Everything. -/
def compile (I : Ids) (next : Nat) (P : Prog V) : Option (HProg V) :=
  (visitAll I P { next, scopes := [], items := [] }).bind fun (us, st) =>
    let (us', rs) := lowerAll us
    (replaceAll st.items rs).map fun lams => { units := us', lams }

/-! ## What the result of lowering means -/

/-- Values: the value of a struct carries its type `L` with its generic arguments
(`none` for those that are types) and its members. -/
inductive HVal (V : Type) where
  | data (v : V)
  | tup (vs : List (HVal V))
  | str (L : Nat) (targs : List (Option Int)) (fields : List (Nat × HVal V))

abbrev HEnv (V : Type) := List (Name × HVal V)

mutual
/-- The variables after matching a value. -/
def HPat.bind : HPat → HVal V → HEnv V → Option (HEnv V)
  | .wild, _, E => some E
  | .var x, v, E => some ((x, v) :: E)
  | .bnd x p, v, E => (p.bind v E).map fun E' => (x, v) :: E'
  | .tup ps, .tup vs, E => hbinds ps vs E
  | .tup _, _, _ => none
/-- `HPat.bind` for several values. -/
def hbinds : List HPat → List (HVal V) → HEnv V → Option (HEnv V)
  | [], [], E => some E
  | p :: ps, v :: vs, E => (p.bind v E).bind fun E' => hbinds ps vs E'
  | _, _, _ => none
end

/-- What calls of units and of `call` methods give, and the members of structs. -/
structure HCalls (V : Type) where
  unit : Nat → List Int → List (HVal V) → Option (HVal V)
  method : HVal V → List (HVal V) → HVal V → Option (HVal V)
  members : Nat → Option (List Nat)

/-- The values of generic parameters that are numbers. -/
def hgens (ρ : List (Nat × Option Int)) : List Nat → Option (List Int)
  | [] => some []
  | g :: gs => ((ρ.lookup g).bind id).bind fun i => (hgens ρ gs).map (i :: ·)

/-- Values that are no tuples or structs. -/
def hdatas : List (HVal V) → Option (List V)
  | [] => some []
  | .data v :: vs => (hdatas vs).map (v :: ·)
  | _ => none

mutual
/-- The value of an expression after lowering. -/
def HExp.ev (c : HCalls V) (ρ : List (Nat × Option Int)) (E : HEnv V) : HExp V → Option (HVal V)
  | .var n => E.lookup n
  | .prim gs f args => (hgens ρ gs).bind fun is => (hevs c ρ E args).bind fun vs =>
      (hdatas vs).bind fun ds => (f is ds).map .data
  | .tup es => (hevs c ρ E es).map .tup
  | .call u gs f args => (hgens ρ gs).bind fun is => (f is).bind fun js =>
      (hevs c ρ E args).bind fun vs => c.unit u js vs
  | .lam .. => none
  | .make L k gs args => (hgens ρ gs).bind fun is => (hevs c ρ E args).bind fun vs =>
      (c.members L).bind fun ms => if ms.length = vs.length then
        some (.str L (List.replicate k none ++ is.map some) (ms.zip vs)) else none
  | .proj e i => (e.ev c ρ E).bind fun v => match v with | .tup vs => vs[i]? | _ => none
  | .field e x => (e.ev c ρ E).bind fun v => match v with | .str _ _ fs => fs.lookup x | _ => none
  | .app f clk a => (f.ev c ρ E).bind fun g => (hevs c ρ E clk).bind fun cs =>
      (a.ev c ρ E).bind fun v => c.method g cs v
  | .block ss r => (hstms c ρ E ss).bind fun E' => r.ev c ρ E'
/-- The values of several expressions. -/
def hevs (c : HCalls V) (ρ : List (Nat × Option Int)) (E : HEnv V) :
    List (HExp V) → Option (List (HVal V))
  | [] => some []
  | a :: as => (a.ev c ρ E).bind fun v => (hevs c ρ E as).map (v :: ·)
/-- The variables after some bindings. -/
def hstms (c : HCalls V) (ρ : List (Nat × Option Int)) (E : HEnv V) :
    List (HPat × HExp V) → Option (HEnv V)
  | [] => some E
  | (p, e) :: ss => (e.ev c ρ E).bind fun v => (p.bind v E).bind fun E' => hstms c ρ E' ss
end

/-- A call of a unit. -/
def HUnit.run (w : HUnit V) (c : HCalls V) (targs : List (Option Int)) (vs : List (HVal V)) :
    Option (HVal V) :=
  if w.gens.length = targs.length then
    (hbinds (w.inputs.map .var) vs []).bind fun E => w.body.ev c (w.gens.zip targs) E
  else none

/-- What calls give if they are nested at most `n` deep.  `f.call(..)` calls the
unit of the impl for the type of `f` (passes/lower_methods.rs); the type of its last
argument is a tuple with as many elements as the lambda has parameters. -/
def HProg.calls (Q : HProg V) : Nat → HCalls V
  | 0 => ⟨fun _ _ _ => none, fun _ _ _ => none, fun L => (Q.lams.lookup L).map (·.members)⟩
  | n + 1 =>
    { unit := fun u is vs => (Q.units.lookup u).bind fun w => w.run (Q.calls n) (is.map some) vs
      method := fun g cs a =>
        match g, a with
        | .str L targs _, .tup vs => (Q.lams.lookup L).bind fun l =>
          if vs.length = l.arity then l.unit.run (Q.calls n) targs (g :: cs ++ [a]) else none
        | _, _ => none
      members := fun L => (Q.lams.lookup L).map (·.members) }

/-- The compiled unit `u` gives `v`. -/
def HProg.Gives (Q : HProg V) (u : Nat) (is : List Int) (vs : List V) (v : V) : Prop :=
  ∃ n, (Q.calls n).unit u is (vs.map .data) = some (.data v)

end
end Spade.Lambda

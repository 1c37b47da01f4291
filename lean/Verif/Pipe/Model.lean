import Verif.Pipe.Spec

/-
Model of pipeline lowering: /repo/spade-hir-lowering/src/substitution.rs,
/repo/spade-hir-lowering/src/pipelines.rs and the parts of /repo/spade-hir-lowering/src/lib.rs that
resolve references in a pipeline body.

Simplifications.  Expressions are not flattened into one MIR statement per operation: a generated
statement carries a tree of resolved references (`RExpr`).  Calls of entities are treated like calls
of functions.  Errors and panics are `none`.  Hash maps are association lists with the newest entry
first.
-/

namespace Spade.Pipe

/-- `ValueName` (spade-mir/src/lib.rs): a named signal or the signal of an expression. -/
inductive Sig where
  | name (n : Nat)
  | expr (id : Nat)
deriving DecidableEq, Repr

/-- `Substitution` (substitution.rs:12-30). -/
inductive Sub where
  | waiting (stagesLeft originalStage availableAt : Nat) (definition : Name)
  | available (n : Name)
  | wire
  | zeroSized
deriving DecidableEq, Repr

/-- `SubRegister` (substitution.rs:32-36). -/
structure SubRegister where
  original : Name
  previous : Name
  new : Name
deriving DecidableEq, Repr

/-- `Substitutions` (substitution.rs:38-50). -/
structure Subs where
  inner : List (List (Name × Sub))
  live : List Name
  cur : Nat
deriving Repr

/-- `Substitutions::new` (substitution.rs:57-63). -/
def Subs.new : Subs := ⟨[[]], [], 0⟩

/-- Lookup in a hash map. -/
def get (m : List (Name × Sub)) (x : Name) : Option Sub :=
  match m with
  | [] => none
  | (y, s) :: m => if y = x then some s else get m x

/-- The last stage, `inner.last().unwrap()`. -/
def Subs.last (s : Subs) : List (Name × Sub) := s.inner.getLast?.getD []

/-- The loop of `Substitutions::next_stage` (substitution.rs:71-119) over the live variables, with the
substitutions of the last stage, the next number of the symbol table, the registers and the new
substitutions so far.  A variable without entry is a panic. -/
def nextStageLoop (last : List (Name × Sub)) :
    List Name → Nat → List SubRegister → List (Name × Sub) →
    Option (Nat × List SubRegister × List (Name × Sub))
  | [], nid, regs, new => some (nid, regs, new)
  | x :: xs, nid, regs, new =>
    match get last x with
    | none => none
    | some (.waiting left orig availableAt defn) =>
      if left = 1 then nextStageLoop last xs nid regs ((x, .available defn) :: new)
      else nextStageLoop last xs nid regs ((x, .waiting (left - 1) orig availableAt defn) :: new)
    | some (.available previous) =>
      nextStageLoop last xs (nid + 1) (regs ++ [⟨x, previous, nid⟩]) ((x, .available nid) :: new)
    | some .wire => nextStageLoop last xs nid regs ((x, .wire) :: new)
    | some .zeroSized => nextStageLoop last xs nid regs ((x, .zeroSized) :: new)

/-- `Substitutions::next_stage` (substitution.rs:65-125). -/
def nextStage (s : Subs) (nid : Nat) : Option (Nat × List SubRegister × Subs) :=
  match nextStageLoop s.last s.live nid [] [] with
  | none => none
  | some (nid, regs, new) => some (nid, regs, { s with inner := s.inner ++ [new] })

/-- Insert into the map of the last stage. -/
def Subs.insertLast (s : Subs) (x : Name) (sub : Sub) : Subs :=
  { s with inner := s.inner.dropLast ++ [(x, sub) :: s.last] }

/-- `Substitutions::set_available` (substitution.rs:127-153). -/
def setAvailable (s : Subs) (x : Name) (time currentStage : Nat) (zeroSized : Bool) : Subs :=
  let availability :=
    if zeroSized then .zeroSized
    else if time = 0 then .available x
    else .waiting time currentStage (currentStage + time) x
  ({ s with live := s.live ++ [x] }).insertLast x availability

/-- `Substitutions::set_wire` (substitution.rs:155-161). -/
def setWire (s : Subs) (x : Name) : Subs :=
  ({ s with live := s.live ++ [x] }).insertLast x .wire

/-- `Substitutions::lookup` (substitution.rs:163-170): a name without substitution in the current
stage stands for itself.  (`self.inner[self.current_stage]` is always in range.) -/
def Subs.lookup (s : Subs) (x : Name) : Sub :=
  (get (s.inner[s.cur]?.getD []) x).getD (.available x)

/-- `Substitutions::lookup_referenced` (substitution.rs:172-180): `none` for `Undefined` (and for a
stage out of range, which is a panic). -/
def Subs.lookupReferenced (s : Subs) (stage : Nat) (x : Name) : Option Sub :=
  (s.inner[stage]?).bind fun m => get m x

/-- Bind one variable of a pattern (pipelines.rs:80-92, 98-110). -/
def bindVar (time currentStage : Nat) (s : Subs) (v : Var) : Subs :=
  if v.wire then setWire s v.name else setAvailable s v.name time currentStage v.zeroSized

/-- Accumulate one availability (pipelines.rs:645-660).  The outer `none` is the error "All
subexpressions need the same pipeline delay". -/
def mergeAvail (a acc : Option Nat) : Option (Option Nat) :=
  match a, acc with
  | a, none => some a
  | none, prev => some prev
  | some a, some p => if a = p then some (some p) else none

mutual
/-- `available_in` (pipelines.rs:664-799).  The outer `none` is an error, `some none` means always
available.  The scrutinee of a `match`, the condition of an `if` and the statements of a block are
not looked at. -/
def availableIn (s : Subs) : Expr → Option (Option Nat)
  | .ident x =>
    match s.lookup x with
    | .waiting .. => some (some 0)
    | .available _ => some (some 0)
    | .wire => some none
    | .zeroSized => some none
  | .pref _ _ => some (some 0)
  | .lit _ => some none
  | .op _ args => availableAll s args none
  | .sel _ _ arms => availableAll s arms none
  | .block _ _ r => availableIn s r
  | .pipe _ _ depth args =>
    match availableAll s args none with
    | none => none
    | some a => some (some (a.getD 0 + depth))
  | .stageReady => some (some 0)
  | .stageValid => some (some 0)

/-- `try_compute_availability` (pipelines.rs:636-662), with the result so far. -/
def availableAll (s : Subs) : List Expr → Option Nat → Option (Option Nat)
  | [], acc => some acc
  | e :: es, acc =>
    match availableIn s e with
    | none => none
    | some a =>
      match mergeAvail a acc with
      | none => none
      | some acc => availableAll s es acc
end

/-- Expressions over the signals of the generated code. -/
inductive RExpr where
  | sig (s : Sig)
  | lit (n : Nat)
  | op (f : Nat) (args : List RExpr)
  | sel (f : Nat) (scrutinee : RExpr) (arms : List RExpr)
  | const (b : Bool)
deriving Repr

/-- The generated statements: a binding of an expression, an instance of a pipeline, a register, and
the operators of the stage control logic. -/
inductive Eqn where
  | comb (s : Sig) (value : RExpr)
  | inst (s : Sig) (f depth : Nat) (args : List RExpr)
  | reg (s : Sig) (value : RExpr)
  | alias (s a : Sig)
  | and (s a b : Sig)
  | not (s a : Sig)
  | select (s cond a b : Sig)
  | const (s : Sig) (b : Bool)
deriving Repr

/-- The parts of `Context` (lib.rs) that are used to lower an expression of a pipeline;
`signals` is `MaybePipelineContext` (pipelines.rs:26-41): the ready and valid signals. -/
structure Ctx where
  subs : Subs
  signals : Option (List (Option Sig) × List (Option Sig))

/-- Reading `stage.ready` or `stage.valid` (lib.rs:2084-2154): a missing signal is the constant true. -/
def stageSignal (signals : Option (List (Option Sig))) (stage : Nat) : Option RExpr :=
  match signals with
  | none => none
  | some l =>
    match l[stage]? with
    | none => none
    | some (some s) => some (.sig s)
    | some none => some (.const true)

mutual
/-- The signal of an expression: `alias` and `variable` (lib.rs:1109-1270), unfolded through the
operations.  A value that is not ready is an error. -/
def value (c : Ctx) : Expr → Option RExpr
  | .ident x =>
    match c.subs.lookup x with
    | .waiting .. => none
    | .available n => some (.sig (.name n))
    | .wire => some (.sig (.name x))
    | .zeroSized => some (.sig (.name x))
  | .pref k x =>
    match c.subs.lookupReferenced k x with
    | none => none
    | some (.waiting ..) => none
    | some (.available n) => some (.sig (.name n))
    | some .wire => some (.sig (.name x))
    | some .zeroSized => some (.sig (.name x))
  | .lit n => some (.lit n)
  | .op f args => (values c args).map (.op f)
  | .sel f s arms =>
    match value c s with
    | none => none
    | some s => (values c arms).map (.sel f s)
  | .block _ _ r => value c r
  | .pipe id _ _ _ => some (.sig (.expr id))
  | .stageReady => stageSignal (c.signals.map (·.1)) c.subs.cur
  | .stageValid => stageSignal (c.signals.map (·.2)) c.subs.cur

def values (c : Ctx) : List Expr → Option (List RExpr)
  | [] => some []
  | e :: es =>
    match value c e, values c es with
    | some r, some rs => some (r :: rs)
    | _, _ => none
end

/-- Append two lists of statements unless one is an error. -/
def app (a b : Option (List Eqn)) : Option (List Eqn) :=
  match a, b with
  | some a, some b => some (a ++ b)
  | _, _ => none

mutual
/-- The statements generated for an expression: `lower` (lib.rs:1275-2170). -/
def stmts (c : Ctx) : Expr → Option (List Eqn)
  | .ident x => (value c (.ident x)).map fun _ => []
  | .pref k x => (value c (.pref k x)).map fun _ => []
  | .lit _ => some []
  | .op _ args => stmtsAll c args
  | .sel _ s arms => app (stmts c s) (stmtsAll c arms)
  | .block names vs r => app (stmtsBlock c names vs) (stmts c r)
  | .pipe id f depth args =>
    match values c args with
    | none => none
    | some rs => app (stmtsAll c args) (some [.inst (.expr id) f depth rs])
  | .stageReady => (value c .stageReady).map fun _ => []
  | .stageValid => (value c .stageValid).map fun _ => []

def stmtsAll (c : Ctx) : List Expr → Option (List Eqn)
  | [] => some []
  | e :: es => app (stmts c e) (stmtsAll c es)

/-- The bindings of an inner block. -/
def stmtsBlock (c : Ctx) : List Name → List Expr → Option (List Eqn)
  | x :: xs, e :: es =>
    match value c e with
    | none => none
    | some r => app (stmts c e) (app (some [.comb (.name x) r]) (stmtsBlock c xs es))
  | _, [] => some []
  | [], _ :: _ => none
end

/-- What `lower_pipeline` keeps track of. -/
structure St where
  subs : Subs
  /-- next number of the symbol table -/
  nid : Nat
  /-- next number of the expression id tracker -/
  eid : Nat
  eqns : List Eqn
  conds : List (Option Sig)
  stage : Nat

/-- The register for one live variable (pipelines.rs:144-190), with a multiplexer if the stage has an
enable signal. -/
def regEqns (enable : Option Sig) (eid : Nat) (r : SubRegister) : Nat × List Eqn :=
  match enable with
  | some en =>
    (eid + 1,
      [.select (.expr eid) en (.name r.previous) (.name r.new),
       .reg (.name r.new) (.sig (.expr eid))])
  | none => (eid, [.reg (.name r.new) (.sig (.name r.previous))])

/-- The loop over the live variables (pipelines.rs:134-191). -/
def allRegEqns (enable : Option Sig) (eid : Nat) : List SubRegister → Nat × List Eqn
  | [] => (eid, [])
  | r :: rs =>
    let p := regEqns enable eid r
    let q := allRegEqns enable p.1 rs
    (q.1, p.2 ++ q.2)

/-- The condition of a register statement (pipelines.rs:117-130): it is lowered here, before the body,
while `subs.current_stage` is still 0 and there is no pipeline context. -/
def condEqns (s : Subs) : Option (Nat × Expr) → Option (List Eqn × Option Sig)
  | none => some ([], none)
  | some (id, e) =>
    match value ⟨s, none⟩ e, stmts ⟨s, none⟩ e with
    | some r, some l => some (l ++ [.comb (.expr id) r], some (.expr id))
    | _, _ => none

/-- `handle_statement` (pipelines.rs:62-212). -/
def handleStatement (enables : List (Option Sig)) (st : St) : Stmt → Option St
  | .letS vars e =>
    match availableIn st.subs e with
    | none => none
    | some time =>
      some { st with subs := (vars.map (·.1)).foldl (bindVar (time.getD 0) st.stage) st.subs }
  | .regS _ vars e =>
    match availableIn st.subs e with
    | none => none
    | some time =>
      some { st with subs := (vars.map (·.1)).foldl (bindVar (time.getD 0) st.stage) st.subs }
  | .other => some st
  | .marker cond =>
    match condEqns st.subs cond with
    | none => none
    | some (ces, lc) =>
      match nextStage st.subs st.nid with
      | none => none
      | some (nid, regs, subs) =>
        match enables[st.stage]? with
        | none => none
        | some enable =>
          let p := allRegEqns enable st.eid regs
          some { subs := subs, nid := nid, eid := p.1, eqns := st.eqns ++ ces ++ p.2,
                 conds := st.conds ++ [lc], stage := st.stage + 1 }

/-- The loop over the statements (pipelines.rs:279-292). -/
def handleAll (enables : List (Option Sig)) : List Stmt → St → Option St
  | [], st => some st
  | s :: ss, st =>
    match handleStatement enables st s with
    | none => none
    | some st => handleAll enables ss st

/-- Reserve the names of the enable signals (pipelines.rs:248-277), from the last register statement
to the first: from the last one with a condition on, every stage has one.  The list is returned in
source order. -/
def reserveEnables : List Stmt → Nat → Nat × Bool × List (Option Sig)
  | [], nid => (nid, false, [])
  | .marker cond :: ss, nid =>
    let p := reserveEnables ss nid
    let hasEnable := p.2.1 || cond.isSome
    if hasEnable then (p.1 + 1, true, some (.name p.1) :: p.2.2) else (p.1, false, none :: p.2.2)
  | _ :: ss, nid => reserveEnables ss nid

/-- The definitions of the enable signals (pipelines.rs:294-352), from the last stage to the first.
Returns the statements and the current enable. -/
def enableEqns : List (Option Sig × Option Sig) → Option (List Eqn × Option Sig)
  | [] => some ([], none)
  | (localCond, enableName) :: rest =>
    match enableEqns rest with
    | none => none
    | some (es, current) =>
      match localCond, current with
      | some l, none =>
        match enableName with
        | none => none
        | some name => some (es ++ [.alias name l], some name)
      | none, some prev =>
        match enableName with
        | none => none
        | some name => some (es ++ [.alias name prev], some name)
      | some l, some prev =>
        match enableName with
        | none => none
        | some name => some (es ++ [.and name l prev], some name)
      | none, none => some (es, none)

/-- `MaybeConst` (pipelines.rs:496-499). -/
inductive MaybeConst where
  | val (s : Sig)
  | const (b : Bool)
deriving DecidableEq, Repr

/-- `or_const_true` (pipelines.rs:527-537). -/
def orConstTrue : Option Sig → MaybeConst
  | some v => .val v
  | none => .const true

/-- `MaybeConst::to_value_name` (pipelines.rs:502-524).  These functions return the next expression
number, the new statements and the value. -/
def toValueName (eid : Nat) : MaybeConst → Nat × List Eqn × Sig
  | .val n => (eid, [], n)
  | .const v => (eid + 1, [.const (.expr eid) v], .expr eid)

/-- `constexpr_and` (pipelines.rs:539-567). -/
def constexprAnd (eid : Nat) (l r : MaybeConst) : Nat × List Eqn × MaybeConst :=
  match l, r with
  | .val l, .val r => (eid + 1, [.and (.expr eid) l r], .val (.expr eid))
  | .const false, _ => (eid, [], .const false)
  | _, .const false => (eid, [], .const false)
  | l, .const true => (eid, [], l)
  | .const true, r => (eid, [], r)

/-- `constexpr_select` (pipelines.rs:569-605). -/
def constexprSelect (eid : Nat) (onTrue onFalse select : MaybeConst) :
    Nat × List Eqn × MaybeConst :=
  match onTrue, onFalse, select with
  | t, f, .val sel =>
    let t := toValueName (eid + 1) t
    let f := toValueName t.1 f
    (f.1, t.2.1 ++ f.2.1 ++ [.select (.expr eid) sel t.2.2 f.2.2], .val (.expr eid))
  | t, _, .const true => (eid, [], t)
  | _, f, .const false => (eid, [], f)

/-- `constexpr_inv` (pipelines.rs:607-632). -/
def constexprInv (eid : Nat) : MaybeConst → Nat × List Eqn × MaybeConst
  | .val n => (eid + 1, [.not (.expr eid) n], .val (.expr eid))
  | .const b => (eid, [], .const (!b))

/-- The valid signal of one stage (pipelines.rs:402-466).  `name` is the reserved name, `prev` the
valid signal of the previous stage. -/
def validStep (eid : Nat) (name : Sig) (prev : Option Sig) (localCond : Option Sig)
    (select downstream : Option Sig) : Nat × List Eqn × MaybeConst :=
  let mux := constexprSelect eid (orConstTrue prev) (.val name) (orConstTrue select)
  let condInv := constexprInv mux.1 (orConstTrue localCond)
  let stall := constexprAnd condInv.1 condInv.2.2 (orConstTrue downstream)
  let stallInv := constexprInv stall.1 stall.2.2
  let next := constexprAnd stallInv.1 mux.2.2 stallInv.2.2
  (next.1, mux.2.1 ++ condInv.2.1 ++ stall.2.1 ++ stallInv.2.1 ++ next.2.1, next.2.2)

/-- The valid signals of all stages (pipelines.rs:397-466).  `ready` is the list of the ready signals
from this stage on; the last one is `None`. -/
def validEqns : Nat → Nat → Option Sig → List (Option Sig) → List (Option Sig) →
    Option (List Eqn × List (Option Sig))
  | _, _, _, [], _ => some ([], [])
  | _, _, _, _ :: _, [] => none
  | nid, eid, prev, localCond :: conds, select :: ready =>
    let name := Sig.name nid
    let p := validStep eid name prev localCond select (ready.head?.getD none)
    match p.2.2 with
    | .val next =>
      match validEqns (nid + 1) p.1 (some name) conds ready with
      | none => none
      | some (es, vs) => some (p.2.1 ++ [.reg name (.sig next)] ++ es, some name :: vs)
    | .const true =>
      match validEqns (nid + 1) p.1 prev conds ready with
      | none => none
      | some (es, vs) => some (p.2.1 ++ es, none :: vs)
    | .const false => none

/-- What `lower_pipeline` returns: the statements and the context for the body. -/
structure Lowered where
  eqns : List Eqn
  ctx : Ctx

/-- `lower_pipeline` (pipelines.rs:214-494). -/
def lowerPipeline (inputs : List Var) (body : List Stmt) (result : Expr) (nid eid : Nat) :
    Option Lowered :=
  let subs := inputs.foldl (bindVar 0 0) Subs.new
  let en := reserveEnables body nid
  match handleAll en.2.2 body ⟨subs, en.1, eid, [], [], 0⟩ with
  | none => none
  | some st =>
    match enableEqns (st.conds.zip en.2.2) with
    | none => none
    | some (ees, _) =>
      let ready := en.2.2 ++ [none]
      match validEqns st.nid st.eid none st.conds ready with
      | none => none
      | some (ves, vs) =>
        match availableIn st.subs result with
        | none => none
        | some latency =>
          if latency.getD 0 ≠ 0 then none
          else some ⟨st.eqns ++ ees ++ ves, ⟨st.subs, some (ready, none :: vs)⟩⟩

/-- The bindings of the variables of a pattern (lib.rs:391-588). -/
def patEqns (vars : List (Var × Nat)) (r : RExpr) : List Eqn :=
  vars.map fun v => .comb (.name v.1.name) (.op v.2 [r])

/-- Lowering of the statements of the body (lib.rs:939-1102).  A register statement of the pipeline
advances the current stage. -/
def lowerStmts (c : Ctx) : List Stmt → Option (List Eqn × Ctx)
  | [] => some ([], c)
  | .letS vars e :: ss =>
    match stmts c e, value c e, lowerStmts c ss with
    | some l, some r, some (l', c') => some (l ++ patEqns vars r ++ l', c')
    | _, _, _ => none
  | .regS id vars e :: ss =>
    match stmts c e, value c e, lowerStmts c ss with
    | some l, some r, some (l', c') =>
      some (l ++ [.reg (.expr id) r] ++ patEqns vars (.sig (.expr id)) ++ l', c')
    | _, _, _ => none
  | .other :: ss => lowerStmts c ss
  | .marker _ :: ss => lowerStmts { c with subs := { c.subs with cur := c.subs.cur + 1 } } ss

/-- Lowering of a pipeline (lib.rs:3747-3762): the statements and the output. -/
def lowerUnit (inputs : List Var) (body : List Stmt) (result : Expr) (nid eid : Nat) :
    Option (List Eqn × RExpr) :=
  match lowerPipeline inputs body result nid eid with
  | none => none
  | some p =>
    match lowerStmts p.ctx body with
    | none => none
    | some (l, c) =>
      match stmts c result, value c result with
      | some l', some r => some (p.eqns ++ l ++ l', r)
      | _, _ => none

/-! ### Meaning of the generated statements -/

section Sem
variable {V : Type} (I : Interp V) (σ : Sig → Nat → V)

mutual
def RExpr.eval (c : Nat) : RExpr → V
  | .sig s => σ s c
  | .lit n => I.lit n
  | .op f args => I.op f (RExpr.evals c args)
  | .sel f s arms => I.sel f (RExpr.eval c s) (RExpr.evals c arms)
  | .const b => I.bool b

def RExpr.evals (c : Nat) : List RExpr → List V
  | [] => []
  | e :: es => RExpr.eval c e :: RExpr.evals c es
end

/-- The signals `σ` satisfy a generated statement in all cycles.  An instance of a pipeline of depth
`d` gives the result for its arguments `d` cycles later. -/
def Eqn.Holds : Eqn → Prop
  | .comb s r => ∀ c, σ s c = RExpr.eval I σ c r
  | .inst s f d args => ∀ c, σ s (c + d) = I.op f (RExpr.evals I σ c args)
  | .reg s r => ∀ c, σ s (c + 1) = RExpr.eval I σ c r
  | .alias s a => ∀ c, σ s c = σ a c
  | .and s a b => ∀ c, I.truth (σ s c) = (I.truth (σ a c) && I.truth (σ b c))
  | .not s a => ∀ c, I.truth (σ s c) = !I.truth (σ a c)
  | .select s k a b => ∀ c, σ s c = if I.truth (σ k c) then σ a c else σ b c
  | .const s b => ∀ c, σ s c = I.bool b

end Sem

end Spade.Pipe

import Verif.Check.Unify
import Verif.Infer.Require

/-!
# Visiting a unit (C51): model

Model of the part of type inference that walks over a unit, creates type variables and unifies them:
`/repo/spade-typeinference/src/lib.rs` and `/repo/spade-typeinference/src/expression.rs`, and of
`Requirement::check`, `/repo/spade-typeinference/src/requirements.rs`.

Left out: the error type (an error ends inference here, while the code marks the expression and looks
for more errors), methods and lambdas, pipelines, aliases, trait obligations of type declarations,
the `Data` constraints, tristate literals, and named and default arguments, which are matched with
parameters before (`match_args_with_params`). The ids of expressions are distinct, and names are
bound before they are used; AST lowering sees to that.
-/

namespace Spade.Check

open Spade.Infer.Spec (Kind Base GT Val TExpr)
open Spade.Infer (CE VState)

/-- What inference refers to: the declarations (`Context`), the fuel for unification, and the kinds of
the generic parameters of the unit as the symbol table has them. -/
structure Cfg where
  Δ : Decls
  fuel : Nat
  params : List (String × Kind)

/-- Models a generic list, `lib.rs:97-118`: the type variables of generic parameters. -/
abbrev GL := List (String × Nat)

/-- The type variable of a parameter. -/
def GL.var (gl : GL) (g : String) : Option Nat := gl.lookup g

/-! ## Primitive steps -/

/-- Models `unify` where the result is not used, `lib.rs:3344-3423`. -/
def uni (c : Cfg) (a b : Nat) : M PUnit := do
  let _ ← unify c.Δ.impls c.fuel a b
  pure ()

/-- Models `add_equation` for an id, `lib.rs:2946-2962`; a second equation is a panic. -/
def addEq (id v : Nat) : M PUnit := fun S =>
  match S.ids id with
  | some _ => .stuck
  | none => .ok () { S with ids := fun i => if i = id then some v else S.ids i }

/-- Models `add_equation` for a name. -/
def addName (x v : Nat) : M PUnit := fun S =>
  match S.names x with
  | some _ => .stuck
  | none => .ok () { S with names := fun i => if i = x then some v else S.names i }

/-- Models `add_mapped_generic_list` for a call, `lib.rs:2013-2049`; a second list is a panic. -/
def addList (id : Nat) (gl : GL) : M PUnit := fun S =>
  match S.calls id with
  | some _ => .stuck
  | none => .ok () { S with calls := fun i => if i = id then some gl else S.calls i }

/-- Models `add_constraint`, `lib.rs:2964-2982`. -/
def addCon (v : Nat) (e : CE) : M PUnit := fun S => .ok () { S with cons := S.cons ++ [(v, e)] }

/-- Models `add_requirement`, `lib.rs:2984-2989`. -/
def addReq (r : Req) : M PUnit := fun S => .ok () { S with reqs := S.reqs ++ [r] }

/-- Models `get_type` of an expression or pattern, `lib.rs:3824-3890`. -/
def typeOf (id : Nat) : M Nat := fun S =>
  match S.ids id with
  | some v => .ok (S.res v) S
  | none => .stuck

/-- Models `get_type` of a name. -/
def nameTy (x : Nat) : M Nat := fun S =>
  match S.names x with
  | some v => .ok (S.res v) S
  | none => .stuck

/-- Models `new_generic_type`, `lib.rs:549-557`. -/
def newType : M Nat := addVar (.unknown .type [])

/-- Models `new_generic_number`, `lib.rs:621-646`: the type and its size. -/
def newNumber : M (Nat × Nat) := do
  let size ← addVar (.unknown .uint [])
  let t ← addVar (.unknown .type [(trNumber, [size])])
  pure (t, size)

/-- Models `t_bool`. -/
def newBool : M Nat := addVar (.known (.named 0) [])

/-- A known integer, as `new_concrete_int`, `lib.rs:514-516`. -/
def newInt (i : Int) : M Nat := addVar (.known (.int i) [])

/-- Models the start of `visit_expression` and `visit_pattern`, `lib.rs:1369-1373, 2161-2162`. -/
def newExp (id : Nat) : M Nat := do
  let t ← newType
  addEq id t
  pure t

/-! ## Types as written -/

/-- Models `visit_const_generic`, `lib.rs:2827-2886`, after AST lowering (see C20). -/
def constExpr (gl : GL) (e : TExpr) : Option CE :=
  (Infer.lowerConst (fun _ => true) e).bind (Infer.toConstraint gl.var)

mutual
/-- Models `type_var_from_hir`, `lib.rs:356-487`. -/
def specVar (gl : GL) : TSpec → M Nat
  | .declared n ps => do
    let vs ← expVars gl ps
    addVar (.known (.named n) vs)
  | .generic g =>
    match gl.var g with
    | some v => pure v
    | none => .stuck
  | .tuple ts => do
    let vs ← specVars gl ts
    addVar (.known .tuple vs)
  | .array t n => do
    let v ← specVar gl t
    let k ← expVar gl n
    addVar (.known .array [v, k])
  | .inverted t => do
    let v ← specVar gl t
    addVar (.known .inverted [v])
  | .copyView t => do
    let v ← specVar gl t
    addVar (.known .copyView [v])
  | .wildcard => addVar (.unknown .any [])
/-- The same for a list. -/
def specVars (gl : GL) : List TSpec → M (List Nat)
  | [] => pure []
  | t :: ts => do
    let v ← specVar gl t
    let vs ← specVars gl ts
    pure (v :: vs)
/-- Models `hir_type_expr_to_var`, `lib.rs:289-346`. -/
def expVar (gl : GL) : TExp → M Nat
  | .bool b => addVar (.known (.bool b) [])
  | .int i => addVar (.known (.int i) [])
  | .str s => addVar (.known (.str s) [])
  | .spec t => specVar gl t
  | .const e =>
    match constExpr gl e with
    | some ce => do
      let v ← addVar (.unknown .any [])
      addCon v ce
      pure v
    | none => .err
/-- The same for a list. -/
def expVars (gl : GL) : List TExp → M (List Nat)
  | [] => pure []
  | t :: ts => do
    let v ← expVar gl t
    let vs ← expVars gl ts
    pure (v :: vs)
end

/-- The kind of a type-level expression, `visit_const_generic_with_id`, `lib.rs:2765-2812`. -/
def constKind (ps : List (String × Kind)) : TExpr → Option Kind
  | .name n =>
    match ps.lookup n with
    | some .type | some .any | none => none
    | some k => some k
  | .bool _ | .eq _ _ | .neq _ _ | .lt _ _ | .gt _ _ | .le _ _ | .ge _ _ | .not _ | .and _ _
  | .or _ _ | .xor _ _ => some .bool
  | .str _ => some .str
  | .paren a => constKind ps a
  | _ => some .number

/-- Models `visit_const_generic_with_id`, `lib.rs:2759-2825`. -/
def constVar (c : Cfg) (gl : GL) (id : Nat) (e : TExpr) : M Nat :=
  match constKind c.params e, constExpr gl e with
  | some k, some ce => do
    let v ← addVar (.unknown k [])
    addEq id v
    addCon v ce
    pure v
  | _, _ => .err

/-! ## Generic lists -/

/-- Models the creation of the variables in `create_generic_list`, `lib.rs:1871-1909`, with the
explicit generic arguments, which are converted with the caller's generic list. Parameters of the
scope come after those of the unit; they have no explicit arguments. -/
def paramVars (c : Cfg) (prev : GL) : List (String × Kind) → List (Option TExp) → M GL
  | [], _ => pure []
  | (n, k) :: ps, some te :: ts => do
    let v ← addVar (.unknown k [])
    let w ← expVar prev te
    uni c w v
    let rest ← paramVars c prev ps ts
    pure ((n, v) :: rest)
  | (n, k) :: ps, ts => do
    let v ← addVar (.unknown k [])
    let rest ← paramVars c prev ps (ts.drop 1)
    pure ((n, v) :: rest)

/-- Models `visit_trait_spec`, `lib.rs:2676-2697`, for all bounds. -/
def boundVars (gl : GL) : List (Nat × List TExp) → M Traits
  | [] => pure []
  | b :: bs => do
    let vs ← expVars gl b.2
    let rest ← boundVars gl bs
    pure ((b.1, vs) :: rest)

/-- The generic list with another variable for a parameter. -/
def GL.set (gl : GL) (g : String) (v : Nat) : GL := gl.map (fun p => if p.1 = g then (g, v) else p)

/-- The replacement at the end of `visit_trait_bounds`, `lib.rs:2742-2757`: a variable with more
bounds replaces the one of the parameter. When that one has been replaced already (`_` as an explicit
argument), the code overwrites the earlier replacement; this is left out. -/
def boundReplace (old : Nat) (ts : Traits) : TV → M Nat
  | .known _ _ => .stuck
  | .unknown k ts' => fun S =>
    if S.res old = old ∧ old < S.vars.length ∧ k = .type then
      match addVar (.unknown .type (ts' ++ ts)) S with
      | .ok new S' => .ok new (S'.bind old new)
      | .err => .err
      | .stuck => .stuck
    else .stuck

/-- Models `visit_trait_bounds`, `lib.rs:2699-2757`, once the bounds are visited. A known type is not
checked. `lost` records it when the parameter was not given explicitly. -/
def addBounds (gl : GL) (free : Bool) (target : String) (ts : Traits) : M GL :=
  match gl.var target with
  | none => .err
  | some v => do
    let tv ← getVar v
    match tv with
    | .known _ _ => do
      setLost free
      pure gl
    | .unknown k ts' => do
      let new ← boundReplace v ts (.unknown k ts')
      pure (gl.set target new)

/-- Models the visit of one condition in `create_generic_list`, `lib.rs:1923-1999`. Subtraits are
taken to be listed with their supertraits already. -/
def visitWhere (free : String → Bool) (gl : GL) : Where → M GL
  | .bound target bs => do
    let ts ← boundVars gl bs
    if ts.isEmpty then pure gl else addBounds gl (free target) target ts
  | .eq target e =>
    match gl.var target, constExpr gl e with
    | some v, some ce => do
      addCon v ce
      pure gl
    | _, _ => .err
  | .cmp k target e =>
    match gl.var target, constExpr gl e with
    | some v, some ce => do
      let r ← addVar (.unknown .int [])
      addCon r ce
      addReq (.whereCmp k v r)
      pure gl
    | _, _ => .err

/-- Models the loop over conditions, `lib.rs:1923-1999`. -/
def visitWheres (free : String → Bool) : GL → List Where → M GL
  | gl, [] => pure gl
  | gl, w :: ws => do
    let gl' ← visitWhere free gl w
    visitWheres free gl' ws

/-- Whether a parameter has no explicit argument. -/
def freeIn (ps : List (String × Kind)) (ts : List (Option TExp)) (g : String) : Bool :=
  (ps.zip ts).all (fun p => p.2.isNone || p.1.1 != g)

/-- Whether a string occurs twice. -/
def repeatsS : List String → Bool
  | [] => false
  | n :: ns => decide (n ∈ ns) || repeatsS ns

/-- Models `create_generic_list`, `lib.rs:1743-2003`. -/
def createGenericList (c : Cfg) (prev : GL) (ps : List (String × Kind)) (ws : List Where)
    (ts : List (Option TExp)) : M GL :=
  if repeatsS (ps.map (·.1)) then .stuck
  else do
    let gl ← paramVars c prev ps ts
    visitWheres (freeIn ps ts) gl ws

/-! ## Requirements -/

/-- Models the peeling of views, `requirements.rs:114-123`, `expression.rs:289-297`: how many, and what
is inside. -/
def peelTV (go : Nat → M (Nat × Nat)) (id : Nat) : TV → M (Nat × Nat)
  | .known .copyView [v] => do
    let r ← go v
    pure (r.1 + 1, r.2)
  | _ => pure (0, id)

/-- The same with fuel. -/
def peel : Nat → Nat → M (Nat × Nat)
  | 0, _ => .stuck
  | n + 1, id => do
    let tv ← getVar id
    peelTV (peel n) id tv

/-- Models the adding of views, `requirements.rs:199-206`, `expression.rs:325-332`. -/
def wrapViews : Nat → Nat → M Nat
  | 0, v => pure v
  | n + 1, v => do
    let w ← wrapViews n v
    addVar (.known .copyView [w])

/-- Models `ResolvedNamedOrInverted`, `equation.rs`. -/
inductive Named where
  | named (inv : Bool) (s : Nat) (ps : List Nat)
  | unknown
  | other

/-- Models `resolve_named_or_inverted`, `equation.rs:374-394`. -/
def resolveNamed : Nat → Bool → Nat → M Named
  | 0, _, _ => .stuck
  | n + 1, inv, id => do
    let tv ← getVar id
    match tv with
    | .unknown _ _ => pure .unknown
    | .known .inverted [v] => resolveNamed n (!inv) v
    | .known (.named s) ps => pure (.named inv s ps)
    | _ => pure .other

/-- The field of an inverted struct, `requirements.rs:184-195`. -/
def invertOf (raw : Nat) : TV → M Nat
  | .known .inverted [v] => pure v
  | _ => addVar (.known .inverted [raw])

/-- The type of a field, `requirements.rs:126-207`. -/
def fieldVar (Δ : Decls) (layers : Nat) (inv : Bool) (s : Nat) (ps : List Nat) (f : String) : M Nat :=
  match Δ.structs s with
  | none => .err
  | some (gs, fs) =>
    match fs.lookup f with
    | none => .err
    | some spec => do
      let raw ← specVar (gs.zip ps) spec
      let tv ← getVar raw
      let ft ← (if inv then invertOf raw tv else pure raw)
      wrapViews layers ft

/-- What is seen of a type variable. -/
def seenOf : TV → VState
  | .known b _ => .ofVal b.val
  | .unknown _ _ => .unknown

/-- What is seen of the variable. -/
def seenM (id : Nat) : M VState := do
  let tv ← getVar id
  pure (seenOf tv)

/-- The same for a list. -/
def seenAll : List Nat → M (List VState)
  | [] => pure []
  | v :: vs => do
    let s ← seenM v
    let ss ← seenAll vs
    pure (s :: ss)

/-- The names of types that `FitsIntLiteral` looks at, `requirements.rs:330-354`. -/
def tname (n : Nat) : Infer.TName := if n = 1 then .int else if n = 2 then .uint else .other

/-- The target of a literal, `requirements.rs:340-361`. -/
def targetM (id : Nat) : M Infer.Target := do
  let tv ← getVar id
  match tv with
  | .known (.named n) ps => do
    let ss ← seenAll ps
    pure (.named (tname n) ss)
  | .known _ _ => pure .otherKnown
  | .unknown _ _ => pure .unknown

/-- The value of a literal. -/
def litM : CLit → M Infer.CInt
  | .lit v => pure (.lit v)
  | .generic g => do
    let s ← seenM g
    pure (.generic s)

/-- The result of a requirement without replacements. -/
def ofResult : Infer.RResult → M (Option (List (Nat × Nat)))
  | .satisfied => pure (some [])
  | .noChange => pure none
  | .error => .err

/-- The comparison of C22. -/
def Cmp.kind : Cmp → Infer.WKind
  | .neq => .neq
  | .lt => .lt
  | .leq => .leq
  | .gt => .gt
  | .geq => .geq

/-- The first known base in `SharedBase`, `requirements.rs:652-662`. -/
def firstKnown : List Nat → M (Option (Base × Nat))
  | [] => pure none
  | t :: ts => do
    let tv ← getVar t
    match tv with
    | .known b ps => pure (some (b, ps.length))
    | .unknown _ _ => firstKnown ts

/-- Placeholder parameters. -/
def anyVars : Nat → M (List Nat)
  | 0 => pure []
  | n + 1 => do
    let v ← addVar (.unknown .any [])
    let vs ← anyVars n
    pure (v :: vs)

/-- The replacements of `SharedBase`, `requirements.rs:664-688`. -/
def sharedRepl (b : Base) (n : Nat) : List Nat → M (List (Nat × Nat))
  | [] => pure []
  | t :: ts => do
    let vs ← anyVars n
    let v ← addVar (.known b vs)
    let rest ← sharedRepl b n ts
    pure ((t, v) :: rest)

/-- Models `Requirement::check`, `requirements.rs:107-694`: `some` replacements when it is satisfied,
`none` when nothing is known yet. -/
def checkReq (c : Cfg) : Req → M (Option (List (Nat × Nat)))
  | .field t f e => do
    let r ← peel c.fuel t
    let o ← resolveNamed c.fuel false r.2
    match o with
    | .named inv s ps => do
      let v ← fieldVar c.Δ r.1 inv s ps f
      pure (some [(e, v)])
    | .unknown => pure none
    | .other => .err
  | .fits v t => do
    let tg ← targetM t
    let x ← litM v
    ofResult (Infer.checkFits x tg)
  | .endAfterStart s e => do
    let a ← seenM s
    let b ← seenM e
    ofResult (Infer.checkEndAfterStart a b)
  | .inArray i n => do
    let a ← seenM i
    let b ← seenM n
    ofResult (Infer.checkInArray a b)
  | .nonZero n => do
    let a ← seenM n
    ofResult (Infer.checkNonZero a)
  | .whereCmp k l r => do
    let a ← seenM l
    let b ← seenM r
    ofResult (Infer.checkWhere k.kind a b)
  | .sharedBase ts => do
    let o ← firstKnown ts
    match o with
    | some (b, n) => do
      let rs ← sharedRepl b n ts
      pure (some rs)
    | none => pure none

/-- Models the application of replacements, `requirements.rs:718-723`, `lib.rs:3700-3706`. -/
def applyRepl (c : Cfg) : List (Nat × Nat) → M PUnit
  | [] => pure ()
  | (src, dst) :: rs => do
    uni c src dst
    applyRepl c rs

/-- Models `check_or_add`, `requirements.rs:697-727`. -/
def checkOrAdd (c : Cfg) (r : Req) : M PUnit := do
  let o ← checkReq c r
  match o with
  | some rs => applyRepl c rs
  | none => addReq r

/-- Models one round over the requirements in `check_requirements`, `lib.rs:3657-3696`: those to be
kept, and the replacements. -/
def checkAll (c : Cfg) : List Req → M (List Req × List (Nat × Nat))
  | [] => pure ([], [])
  | r :: rs => do
    let o ← checkReq c r
    let rest ← checkAll c rs
    match o with
    | some ps => pure (rest.1, ps ++ rest.2)
    | none => pure (r :: rest.1, rest.2)

/-- The requirements are taken out of the state. -/
def takeReqs : M (List Req) := fun S => .ok S.reqs { S with reqs := [] }

/-- The requirements are put back. -/
def putReqs (rs : List Req) : M PUnit := fun S => .ok () { S with reqs := S.reqs ++ rs }

/-- Models `check_requirements`, `lib.rs:3653-3711`. The code leaves the requirements in the state
while it checks them; none of the checks here looks at them or adds to them. -/
def checkRequirements (c : Cfg) : Nat → M PUnit
  | 0 => .stuck
  | n + 1 => do
    let rs ← takeReqs
    let r ← checkAll c rs
    putReqs r.1
    if r.2.isEmpty then pure ()
    else do
      applyRepl c r.2
      checkRequirements c n

/-! ## Patterns -/

/-- Models the pairwise unification with one type, `lib.rs:2232-2236`. -/
def uniIds (c : Cfg) (v : Nat) : List Nat → M PUnit
  | [] => pure ()
  | id :: ids => do
    let t ← typeOf id
    uni c t v
    uniIds c v ids

/-- The types of ids. -/
def typesOf : List Nat → M (List Nat)
  | [] => pure []
  | id :: ids => do
    let t ← typeOf id
    let ts ← typesOf ids
    pure (t :: ts)

/-- Models the equation for the name in a pattern, `lib.rs:2187-2203`: unless it is declared before,
the name has the type of the pattern after `@`, or of the pattern itself. -/
def bindName (x : Nat) (pre : Bool) (t : Nat) : M PUnit := if pre then pure () else addName x t

mutual
/-- Models `visit_pattern`, `lib.rs:2155-2361`. (When a name was declared before, the pattern after
`@` is not connected to it; `lost` records this.) The default arguments of generic parameters are
left out. -/
def visitPat (c : Cfg) : Pat → M PUnit
  | .int id v => do
    let t ← newExp id
    let n ← newNumber
    addReq (.fits (.lit v) n.1)
    uni c t n.1
  | .bool id _ => do
    let t ← newExp id
    let b ← newBool
    uni c t b
  | .bound id x pre none => do
    let t ← newExp id
    bindName x pre t
    let n ← nameTy x
    uni c t n
  | .bound id x pre (some p) => do
    let t ← newExp id
    visitPat c p
    let tp ← typeOf p.id
    bindName x pre tp
    setLost pre
    let n ← nameTy x
    uni c t n
  | .tuple id ps => do
    let t ← newExp id
    visitPats c ps
    let ts ← typesOf (ps.map Pat.id)
    let u ← addVar (.known .tuple ts)
    uni c t u
  | .array id ps => do
    let t ← newExp id
    visitPats c ps
    match ps.map Pat.id with
    | [] => .err
    | i :: is => do
      let e ← typeOf i
      uniIds c e is
      let n ← newInt ps.length
      let u ← addVar (.known .array [e, n])
      uni c t u
  | .type id v ps => do
    let t ← newExp id
    match c.Δ.variants v with
    | none => .stuck
    | some V => do
      let gl ← createGenericList c [] V.params V.wheres []
      let u ← specVar gl V.self
      uni c t u
      visitFields c gl ps V.fields
/-- The same for a list. -/
def visitPats (c : Cfg) : List Pat → M PUnit
  | [] => pure ()
  | p :: ps => do
    visitPat c p
    visitPats c ps
/-- The fields of a constructor, `lib.rs:2321-2356`. -/
def visitFields (c : Cfg) (gl : GL) : List Pat → List TSpec → M PUnit
  | [], [] => pure ()
  | p :: ps, s :: ss => do
    visitPat c p
    let u ← specVar gl s
    let t ← typeOf p.id
    uni c t u
    visitFields c gl ps ss
  | _, _ => .stuck
end

/-! ## Expressions -/

/-- The type of a literal, `expression.rs:180-203`. -/
def litVar (c : Cfg) : LitKind → M Nat
  | .unsized => do
    let n ← newNumber
    pure n.1
  | .signed sz => do
    let size ← addVar (.unknown .int [])
    let t ← addVar (.known (.named 1) [size])
    litSize c size sz
    pure t
  | .unsigned sz => do
    let size ← addVar (.unknown .uint [])
    let t ← addVar (.known (.named 2) [size])
    litSize c size sz
    pure t
where
  /-- The size of a literal. -/
  litSize (c : Cfg) (size : Nat) : Option Nat → M PUnit
    | none => pure ()
    | some n => do
      let k ← newInt n
      uni c size k

/-- The element of a tuple, `expression.rs:299-345`. -/
def tupleElem (layers i : Nat) : TV → M Nat
  | .known .tuple ts =>
    match ts[i]? with
    | some v => wrapViews layers v
    | none => .err
  | _ => .err

/-- Models the pairwise unification of neighbours, `expression.rs:511-523`. -/
def uniChain (c : Cfg) : List Nat → M PUnit
  | l :: r :: rest => do
    let tr ← typeOf r
    let tl ← typeOf l
    uni c tr tl
    uniChain c (r :: rest)
  | _ => pure ()

/-- The element type of an array literal, `expression.rs:525-530`. -/
def elemVar : List Nat → M Nat
  | [] => newType
  | i :: _ => typeOf i

/-- A bound of a range, `expression.rs:650-658`. -/
def rangeBound (c : Cfg) (gl : GL) (dflt : M Nat) : Option (Nat × TExpr) → M Nat
  | some (id, e) => constVar c gl id e
  | none => dflt

/-- The constraint of sizes `r = a + b` and what follows from it, `expression.rs:836-870`,
`lib.rs:1591-1614`. -/
def addSum (r a b : Nat) : M PUnit := do
  addCon r (.bin .sum (.var a) (.var b))
  addCon a (.bin .sum (.var r) (.sub (.var b)))
  addCon b (.bin .sum (.var r) (.sub (.var a)))

/-- Models `visit_binary_operator`, `expression.rs:804-903`, once the operands are visited. `a`, `b`
and `t` are the types of the operands and of the expression. -/
def binVars (c : Cfg) (a b t : Nat) : BinOp → M PUnit
  | .add | .sub => do
    let i ← newNumber
    let r ← newNumber
    addCon r.2 (.bin .sum (.var i.2) (.int 1))
    addCon i.2 (.bin .sum (.var r.2) (.sub (.int 1)))
    uni c a i.1
    uni c a b
    uni c t r.1
    addReq (.sharedBase [i.1, r.1])
  | .mul => do
    let l ← newNumber
    let r ← newNumber
    let o ← newNumber
    addSum o.2 l.2 r.2
    uni c a l.1
    uni c b r.1
    uni c t o.1
    addReq (.sharedBase [l.1, r.1, o.1])
  | .div | .mod | .shl | .shr | .ashr => do
    let n ← newNumber
    uni c a n.1
    uni c a b
    uni c t b

/-- Models `visit_unary_operator`, `expression.rs:907-948`, once the operand is visited. -/
def unVars (c : Cfg) (a t : Nat) : UnOp → M PUnit
  | .neg => do
    let size ← addVar (.unknown .uint [])
    let n ← addVar (.known (.named 1) [size])
    uni c a n
    uni c t n
  | .bitNot => do
    let n ← newNumber
    uni c a n.1
    uni c t n.1
  | .not => do
    let b ← newBool
    uni c a b
    uni c t b
  | .deref => do
    let i ← addVar (.unknown .type [(trCopy, [])])
    let v ← addVar (.known .copyView [i])
    uni c t i
    uni c a v
  | .ref => do
    let i ← newType
    let v ← addVar (.known .copyView [i])
    uni c t v
    uni c a i

/-- Models `generic_arg!`, `lib.rs:1487-1495`. -/
def genericArg (gl : GL) (ps : List (String × Kind)) (i : Nat) : M Nat :=
  match (ps[i]?).bind (fun p => gl.var p.1) with
  | some v => pure v
  | none => .stuck

/-- Models the width of an address, `lib.rs:1672-1684, 1700-1714`. -/
def addrCon (size n : Nat) : M PUnit :=
  addCon size (.uintBits (.bin .sum (.var n) (.sub (.int 1))))

/-- Models the special functions, `lib.rs:1510-1728`. `args` are the ids of the arguments. -/
def visitSpecial (c : Cfg) (gl : GL) (ps : List (String × Kind)) (args : List Nat) :
    Option Special → M PUnit
  | none => pure ()
  | some .concat => do
    let a ← genericArg gl ps 0
    let b ← genericArg gl ps 1
    let r ← genericArg gl ps 2
    let l ← newNumber
    let q ← newNumber
    let o ← newNumber
    uni c a l.1
    uni c b q.1
    uni c r o.1
    addSum o.2 l.2 q.2
    addReq (.sharedBase [l.1, q.1, o.1])
  | some .trunc => do
    let a ← genericArg gl ps 0
    let r ← genericArg gl ps 1
    let i ← newNumber
    let o ← newNumber
    uni c a i.1
    uni c r o.1
    addReq (.sharedBase [i.1, o.1])
  | some .divMod => do
    let a ← genericArg gl ps 0
    let n ← newNumber
    uni c a n.1
  | some .clockedMemory => do
    let n ← genericArg gl ps 0
    let w ← genericArg gl ps 2
    let size ← addVar (.unknown .uint [])
    let addr ← addVar (.known (.named 2) [size])
    let x ← newType
    let y ← newType
    let tup ← addVar (.known .tuple [x, addr, y])
    let k ← addVar (.unknown .uint [])
    let port ← addVar (.known .array [tup, k])
    addrCon size n
    uni c size w
    match args[1]? with
    | none => .stuck
    | some i => do
      let t ← typeOf i
      uni c t port
  | some .readMemory => do
    let w ← genericArg gl ps 0
    let n ← genericArg gl ps 2
    let size ← addVar (.unknown .uint [])
    let _ ← addVar (.known (.named 2) [size])
    addrCon size n
    uni c size w

/-- Models `type_check_argument_list`, `lib.rs:1152-1215`. -/
def checkArgs (c : Cfg) (gl : GL) : List Nat → List TSpec → M PUnit
  | [], [] => pure ()
  | i :: is, s :: ss => do
    let u ← specVar gl s
    let t ← typeOf i
    uni c t u
    checkArgs c gl is ss
  | _, _ => .err

/-- The result type, `lib.rs:1564-1575`; also `lib.rs:745-789`. -/
def outVar (gl : GL) : Option TSpec → M Nat
  | some s => specVar gl s
  | none => addVar (.known .tuple [])

/-- Models the rest of `handle_function_like`, `lib.rs:1391-1580`, once the arguments are visited. -/
def finishCall (c : Cfg) (gl : GL) (h : Head) (t : Nat) (args : List Nat) : M PUnit := do
  visitSpecial c gl h.params args h.special
  checkArgs c gl args h.inputs
  let o ← outVar gl h.output
  uni c t o

/-- Unifies the type of an id with a type specification that may be missing. -/
def uniSpec (c : Cfg) (id : Nat) : Option Nat → M PUnit
  | none => pure ()
  | some v => do
    let t ← typeOf id
    uni c t v

/-- The type variable of a specification that may be missing. -/
def optVar (gl : GL) : Option TSpec → M (Option Nat)
  | none => pure none
  | some s => do
    let v ← specVar gl s
    pure (some v)

/-- Unifies the types of two ids. -/
def uniId (c : Cfg) (i j : Nat) : M PUnit := do
  let a ← typeOf i
  let b ← typeOf j
  uni c a b

/-- Unifies the type of an id with `bool`. -/
def uniBool (c : Cfg) (i : Nat) : M PUnit := do
  let a ← typeOf i
  let b ← newBool
  uni c a b

/-- Models `Statement::Declaration`, `lib.rs:2418-2424`. -/
def declAll : List Nat → M PUnit
  | [] => pure ()
  | x :: xs => do
    let t ← newType
    addName x t
    declAll xs

mutual
/-- Models `visit_expression`, `lib.rs:1360-1388`, and the functions it calls: `lib.rs:1217-1358` and
`expression.rs`. -/
def visitExp (c : Cfg) (gl : GL) : Exp → M PUnit
  | .var id x => do
    let t ← newExp id
    let n ← nameTy x
    uni c t n
  | .tlBool id _ => do
    let t ← newExp id
    let b ← newBool
    uni c t b
  | .tlInt id g => do
    let t ← newExp id
    let n ← newNumber
    uni c n.1 t
    match gl.var g with
    | none => .err
    | some v => checkOrAdd c (.fits (.generic v) n.1)
  | .int id v k => do
    let t ← newExp id
    let n ← litVar c k
    uni c n t
    checkOrAdd c (.fits (.lit v) n)
  | .bool id _ => do
    let t ← newExp id
    let b ← newBool
    uni c t b
  | .tuple id es => do
    let t ← newExp id
    visitExps c gl es
    let ts ← typesOf (es.map Exp.id)
    let u ← addVar (.known .tuple ts)
    uni c t u
  | .proj id e i => do
    let t ← newExp id
    visitExp c gl e
    let te ← typeOf e.id
    let r ← peel c.fuel te
    let tv ← getVar r.2
    let u ← tupleElem r.1 i tv
    uni c t u
  | .field id e f => do
    let t ← newExp id
    visitExp c gl e
    let te ← typeOf e.id
    checkOrAdd c (.field te f t)
  | .cast id e s => do
    let t ← newExp id
    visitExp c gl e
    let v ← expVar gl s
    let te ← typeOf e.id
    uni c te v
    uni c t v
  | .array id es => do
    let t ← newExp id
    visitExps c gl es
    uniChain c (es.map Exp.id)
    let e ← elemVar (es.map Exp.id)
    let n ← newInt es.length
    let u ← addVar (.known .array [e, n])
    uni c t u
  | .rep id e nid n => do
    let t ← newExp id
    visitExp c gl e
    let te ← typeOf e.id
    let k ← constVar c gl nid n
    let ku ← addVar (.unknown .uint [])
    uni c k ku
    let u ← addVar (.known .array [te, k])
    uni c t u
  | .elem id a i => do
    let t ← newExp id
    visitExp c gl a
    visitExp c gl i
    let x ← newType
    uni c t x
    let n ← addVar (.unknown .uint [])
    let size ← addVar (.unknown .uint [])
    let it ← addVar (.known (.named 2) [size])
    addrCon size n
    let ti ← typeOf i.id
    uni c ti it
    let t' ← typeOf id
    let arr ← addVar (.known .array [t', n])
    checkOrAdd c (.nonZero n)
    let ta ← typeOf a.id
    uni c ta arr
  | .range id a lo hi => do
    let t ← newExp id
    visitExp c gl a
    let x ← newType
    let n ← addVar (.unknown .uint [])
    let inA ← addVar (.known .array [x, n])
    let m ← addVar (.unknown .uint [])
    let outA ← addVar (.known .array [x, m])
    let s ← rangeBound c gl (newInt 0) lo
    let e ← rangeBound c gl (pure n) hi
    addCon m (.bin .sum (.var e) (.sub (.var s)))
    checkOrAdd c (.endAfterStart s e)
    checkOrAdd c (.inArray e n)
    uni c t outA
    let ta ← typeOf a.id
    uni c ta inA
  | .block id ss none => do
    let t ← newExp id
    visitStmts c gl ss
    let u ← addVar (.known .tuple [])
    uni c t u
  | .block id ss (some r) => do
    let t ← newExp id
    visitStmts c gl ss
    visitExp c gl r
    let tr ← typeOf r.id
    uni c t tr
  | .ite id cond a b => do
    let t ← newExp id
    visitExp c gl cond
    visitExp c gl a
    visitExp c gl b
    uniBool c cond.id
    uniId c b.id a.id
    let tb ← typeOf b.id
    uni c t tb
  | .genIf id cid cond a b => do
    let t ← newExp id
    let k ← constVar c gl cid cond
    let kb ← addVar (.unknown .bool [])
    uni c k kb
    visitExp c gl a
    visitExp c gl b
    let ta ← typeOf a.id
    uni c t ta
    let tb ← typeOf b.id
    uni c t tb
  | .mtch id cond arms => do
    let t ← newExp id
    visitExp c gl cond
    visitArms c gl cond.id none arms
    match arms with
    | [] => .stuck
    | .mk _ _ e :: _ => do
      let te ← typeOf e.id
      uni c te t
  | .bin id op a b => do
    let t ← newExp id
    visitExp c gl a
    visitExp c gl b
    let ta ← typeOf a.id
    let tb ← typeOf b.id
    binVars c ta tb t op
  | .un id op a => do
    let t ← newExp id
    visitExp c gl a
    let ta ← typeOf a.id
    unVars c ta t op
  | .call id f ts args => do
    let t ← newExp id
    match c.Δ.heads f with
    | none => .stuck
    | some h => do
      let hgl ← createGenericList c gl h.params h.wheres ts
      addList id hgl
      visitExps c gl args
      finishCall c hgl h t (args.map Exp.id)
/-- Models the visit of several expressions. -/
def visitExps (c : Cfg) (gl : GL) : List Exp → M PUnit
  | [] => pure ()
  | e :: es => do
    visitExp c gl e
    visitExps c gl es
/-- Models the loop over the branches of a `match`, `expression.rs:757-789`. `first` is the id of the
result of the first branch. -/
def visitArms (c : Cfg) (gl : GL) (cond : Nat) : Option Nat → List Arm → M PUnit
  | _, [] => pure ()
  | first, .mk p none e :: as => do
    visitPat c p
    uniId c p.id cond
    visitExp c gl e
    (match first with
    | none => pure ()
    | some f => uniId c f e.id)
    visitArms c gl cond (some (first.getD e.id)) as
  | first, .mk p (some g) e :: as => do
    visitPat c p
    uniId c p.id cond
    visitExp c gl g
    uniBool c g.id
    visitExp c gl e
    (match first with
    | none => pure ()
    | some f => uniId c f e.id)
    visitArms c gl cond (some (first.getD e.id)) as
/-- Models `visit_statement_error`, `lib.rs:2363-2547`, and `visit_register`, `lib.rs:2559-2673`. -/
def visitStmt (c : Cfg) (gl : GL) : Stmt → M PUnit
  | .bind p ty e => do
    visitExp c gl e
    visitPat c p
    uniId c p.id e.id
    let v ← optVar gl ty
    uniSpec c p.id v
  | .expr e => visitExp c gl e
  | .assert e => do
    visitExp c gl e
    uniBool c e.id
  | .decl xs => declAll xs
  | .set a b => do
    visitExp c gl a
    visitExp c gl b
    let x ← newType
    let o ← addVar (.known .inverted [x])
    uniSpec c a.id (some o)
    uniSpec c b.id (some x)
  | .reg p ty clk reset initial value => do
    visitPat c p
    let v ← optVar gl ty
    uniSpec c p.id v
    visitExp c gl clk
    visitExp c gl value
    uniSpec c value.id v
    visitReset c gl value.id reset
    visitInitial c gl value.id initial
    let k ← addVar (.known (.named 3) [])
    uniSpec c clk.id (some k)
    uniId c p.id value.id
/-- The reset of a register, `lib.rs:2592-2637`. -/
def visitReset (c : Cfg) (gl : GL) (value : Nat) : Option (Exp × Exp) → M PUnit
  | none => pure ()
  | some (cond, v) => do
    visitExp c gl cond
    visitExp c gl v
    uniBool c cond.id
    uniId c v.id value
/-- The initial value of a register, `lib.rs:2639-2657`. -/
def visitInitial (c : Cfg) (gl : GL) (value : Nat) : Option Exp → M PUnit
  | none => pure ()
  | some i => do
    visitExp c gl i
    uniId c i.id value
/-- Models the statements of `visit_block`, `lib.rs:2050-2064`. -/
def visitStmts (c : Cfg) (gl : GL) : List Stmt → M PUnit
  | [] => pure ()
  | s :: ss => do
    visitStmt c gl s
    visitStmts c gl ss
end

/-! ## Units -/

mutual
/-- A type variable for a ground type, as monomorphisation makes them,
`spade-hir-lowering/src/monomorphisation.rs:423`. -/
def groundVar : GT → M Nat
  | .node b as => do
    let vs ← groundVars as
    addVar (.known b vs)
/-- The same for a list. -/
def groundVars : List GT → M (List Nat)
  | [] => pure []
  | t :: ts => do
    let v ← groundVar t
    let vs ← groundVars ts
    pure (v :: vs)
end

/-- Models the preprocessing of a unit that is monomorphised,
`spade-hir-lowering/src/monomorphisation.rs:400-427`: its generic parameters get the types it is
monomorphised for. There is none when the unit is checked as written. -/
def monoParams (c : Cfg) (gl : GL) : List (String × GT) → M PUnit
  | [] => pure ()
  | (g, t) :: ps =>
    match gl.var g with
    | none => .err
    | some v => do
      let o ← groundVar t
      uni c v o
      monoParams c gl ps

/-- Models the equations for the inputs, `lib.rs:710-714`. -/
def visitInputs (gl : GL) : List (Nat × TSpec) → M PUnit
  | [] => pure ()
  | (x, s) :: is => do
    let v ← specVar gl s
    addName x v
    visitInputs gl is

/-- Models `visit_unit_with_preprocessing`, `lib.rs:689-830`. -/
def visitUnit (c : Cfg) (mono : List (String × GT)) (u : Unit) : M GL := do
  let gl ← createGenericList c [] u.params u.wheres []
  monoParams c gl mono
  visitInputs gl u.inputs
  visitExp c gl u.body
  let o ← outVar gl u.output
  let t ← typeOf u.body.id
  uni c t o
  checkRequirements c c.fuel
  pure gl

/-- The state before a unit is visited. -/
def St.empty : St :=
  { vars := [], res := id, cons := [], reqs := [], ids := fun _ => none, names := fun _ => none,
    calls := fun _ => none,
    busy := [], lost := false }

/-- Type inference for a unit: its generic list and the final state. -/
def inferUnit (Δ : Decls) (fuel : Nat) (mono : List (String × GT)) (u : Unit) : Out GL :=
  visitUnit ⟨Δ, fuel, u.params⟩ mono u St.empty

end Spade.Check

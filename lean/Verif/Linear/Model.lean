import Verif.Linear.Spec
/-!
# The linearity check (C17)

Models spade-hir-lowering/src/linear_check/{mod,linear_state}.rs.  Errors carry no message: `none`.
Not modelled: registers, pipeline stages, array shorthand literals, expressions whose type is not known.
-/
namespace Spade.Linear

/-- `LinearTree` (linear_state.rs:155-180).  The usage of a leaf is kept in a table, so that a tree can
be shared; `leaf a` is the leaf with entry `a`, `free` is a leaf of unlimited use. -/
inductive Tree where
  | free
  | leaf (a : Nat)
  | node (ts : List Tree)
  | view (t : Tree)

/-- `ItemReference` (linear_state.rs:390-394). -/
inductive Ref where
  | name (n : Nat)
  | expr (i : Nat)
  deriving DecidableEq

/-- `LinearState` (linear_state.rs:413-417): the trees by reference, the references with a tree, the table
of leaves (`true` for consumed) and its size. -/
structure St where
  trees : Ref → Option Tree
  keys : List Ref
  used : Nat → Bool
  next : Nat

/-- `trees.insert`. -/
def St.insert (s : St) (r : Ref) (t : Tree) : St :=
  { s with trees := fun r' => if r' = r then some t else s.trees r', keys := r :: s.keys }

mutual
/-- `LinearTree::try_consume` (linear_state.rs:183-220) -/
def tryConsume : Tree → (Nat → Bool) → Option (Nat → Bool)
  | .free, u => some u
  | .leaf a, u => if u a then none else some fun b => if b = a then true else u b
  | .node ts, u => tryConsumeAll ts u
  | .view _, u => some u
/-- `members.iter().try_for_each` (linear_state.rs:196-217) -/
def tryConsumeAll : List Tree → (Nat → Bool) → Option (Nat → Bool)
  | [], u => some u
  | t :: ts, u => (tryConsume t u).bind (tryConsumeAll ts)
end

mutual
/-- `LinearTree::check_unused` (linear_state.rs:288-331) is `Ok` -/
def checkTree (u : Nat → Bool) : Tree → Bool
  | .free => true
  | .leaf a => u a
  | .node ts => checkTrees u ts
  | .view _ => true
/-- for all members -/
def checkTrees (u : Nat → Bool) : List Tree → Bool
  | [] => true
  | t :: ts => checkTree u t && checkTrees u ts
end

mutual
/-- `build_linear_tree` (linear_state.rs:333-386), with the next free entry of the table -/
def build : LTy → Nat → Tree × Nat
  | .copy, n => (.free, n)
  | .wire, n => (.leaf n, n + 1)
  | .node ts, n => (.node (buildAll ts n).1, (buildAll ts n).2)
  | .view t, n => (.view (build t n).1, (build t n).2)
/-- for all members -/
def buildAll : List LTy → Nat → List Tree × Nat
  | [], n => ([], n)
  | t :: ts, n => ((build t n).1 :: (buildAll ts (build t n).2).1, (buildAll ts (build t n).2).2)
end

/-- `push_type`, `push_new_expression`, `push_new_name` (linear_state.rs:457-484). -/
def St.push (s : St) (r : Ref) (ty : LTy) : St :=
  { s.insert r (build ty s.next).1 with next := (build ty s.next).2 }

/-- `merge` and `add_alias_name` (linear_state.rs:488-530): the expression `i` and the name `n`.  If both
have a tree the code demands that it is the same one; references are inserted once here, so that it is
another one and the check fails. -/
def St.alias (s : St) (i n : Nat) : Option St :=
  match s.trees (.expr i), s.trees (.name n) with
  | some t, none => some (s.insert (.name n) t)
  | none, some t => some (s.insert (.expr i) t)
  | _, _ => none

/-- The loop in `alias_subtree` that looks through views (linear_state.rs:549-551). -/
def Tree.peel : Tree → Tree
  | .view t => t.peel
  | t => t

/-- `assume_tuple`, `assume_array`, `assume_struct` and the index (linear_state.rs:267-286,564-603). -/
def Tree.member (t : Tree) (i : Nat) : Option Tree :=
  match t.peel with
  | .node ts => ts[i]?
  | _ => none

/-- `alias_subtree` (linear_state.rs:532-560): the expression `i` is member `k` of the expression `base`. -/
def St.aliasMember (s : St) (i base k : Nat) : Option St :=
  (s.trees (.expr base)).bind fun t => (t.member k).map fun m => s.insert (.expr i) m

/-- `consume_id`, `consume_expression` (linear_state.rs:683-727).  The loop that collects the trees of all
aliases starts with the tree of the expression.  All its aliases refer to the same tree, so that the loop
ends at the first of them and only that tree is consumed. -/
def St.consume (s : St) (i : Nat) : Option St :=
  (s.trees (.expr i)).bind fun t => (tryConsume t s.used).map fun u => { s with used := u }

mutual
/-- `consume_pattern` (linear_state.rs:649-681) -/
def consumePat : Pat → St → Option St
  | .bind id _ _ _, s => s.consume id
  | .at_ id _ _ _ p, s => (s.consume id).bind (consumePat p)
  | .tuple ps, s => consumePats ps s
  | .variant ps, s => consumePats ps s
  | .lit, s => some s
/-- for all members -/
def consumePats : List Pat → St → Option St
  | [], s => some s
  | p :: ps, s => (consumePat p s).bind (consumePats ps)
end

mutual
/-- `push_pattern` (linear_state.rs:605-647) -/
def pushPat : Pat → St → Option St
  | .bind id n ty pre, s => (if pre then s else s.push (.expr id) ty).alias id n
  | .at_ id n ty pre p, s =>
    ((if pre then s else s.push (.expr id) ty).alias id n).bind fun s =>
    (pushPat p s).bind fun s => (consumePat p s).bind fun s => s.consume id
  | .tuple ps, s => pushPats ps s
  | .variant ps, s => pushPats ps s
  | .lit, s => some s
/-- for all members -/
def pushPats : List Pat → St → Option St
  | [], s => some s
  | p :: ps, s => (pushPat p s).bind (pushPats ps)
end

mutual
/-- `visit_expression` (linear_check/mod.rs:149-426) -/
def visitE : Expr → St → Option St
  | .ident id _ n, s => s.alias id n
  | .tuple id ty es, s => visitConsume es (s.push (.expr id) ty)
  | .field id _ e i, s => (visitE e s).bind fun s => s.aliasMember id e.id i
  | .index id ty e i, s =>
    (visitE e (s.push (.expr id) ty)).bind fun s =>
    if e.ty.linear then i.bind fun i => s.aliasMember id e.id i else s.consume e.id
  | .range id ty e _ _, s => (visitE e (s.push (.expr id) ty)).bind fun s => s.consume e.id
  | .view id ty e, s => visitE e (s.push (.expr id) ty)
  | .binop id ty a b, s =>
    (visitE a (s.push (.expr id) ty)).bind fun s => (visitE b s).bind fun s =>
    (s.consume a.id).bind fun s => s.consume b.id
  | .call id ty reads args, s =>
    if reads then visitOnly args (s.push (.expr id) ty) else visitConsume args (s.push (.expr id) ty)
  | .block id ty ss res, s =>
    (visitSs ss (s.push (.expr id) ty)).bind fun s => (visitE res s).bind fun s => s.consume res.id
  | .blockUnit id ty ss, s => visitSs ss (s.push (.expr id) ty)
  | .ite id ty c a b, s =>
    (visitE c (s.push (.expr id) ty)).bind fun s => (visitE a s).bind fun s => visitE b s
  | .mtch id ty c arms, s => (visitE c (s.push (.expr id) ty)).bind fun s => visitArms arms s
/-- visit and consume each (mod.rs:225-236, 350-372) -/
def visitConsume : Exprs → St → Option St
  | .nil, s => some s
  | .cons e es, s => (visitE e s).bind fun s => (s.consume e.id).bind (visitConsume es)
/-- visit each (mod.rs:350-372) -/
def visitOnly : Exprs → St → Option St
  | .nil, s => some s
  | .cons e es, s => (visitE e s).bind (visitOnly es)
/-- `visit_statement` (mod.rs:77-146) for the statements of a block -/
def visitSs : Stmts → St → Option St
  | .nil, s => some s
  | .let_ p e ss, s =>
    (visitE e s).bind fun s => (s.consume e.id).bind fun s => (pushPat p s).bind (visitSs ss)
  | .set t v ss, s =>
    (visitE t s).bind fun s => (visitE v s).bind fun s =>
    (s.consume t.id).bind fun s => (s.consume v.id).bind (visitSs ss)
  | .expr e ss, s => (visitE e s).bind (visitSs ss)
  | .decl n ty ss, s => visitSs ss (s.push (.name n) ty)
  | .assert _ ss, s => visitSs ss s
/-- the arms of a match (mod.rs:323-331) -/
def visitArms : Arms → St → Option St
  | .nil, s => some s
  | .arm p e as, s => (pushPat p s).bind fun s => (visitE e s).bind (visitArms as)
  | .guarded p g e as, s =>
    (pushPat p s).bind fun s => (visitE g s).bind fun s => (visitE e s).bind (visitArms as)
end

/-- The inputs (mod.rs:47-54). -/
def pushInputs : List (Nat × LTy) → St → St
  | [], s => s
  | (n, t) :: is, s => pushInputs is (s.push (.name n) t)

/-- `check_linear_types` (mod.rs:31-75), with `LinearState::check_unused` (linear_state.rs:431-455). -/
def checkUnit (inputs : List (Nat × LTy)) (body : Expr) : Bool :=
  match (visitE body (pushInputs inputs ⟨fun _ => none, [], fun _ => false, 0⟩)).bind (·.consume body.id) with
  | none => false
  | some s => s.keys.all fun r => match s.trees r with
    | some t => checkTree s.used t
    | none => true

end Spade.Linear

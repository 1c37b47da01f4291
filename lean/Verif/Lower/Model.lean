import Verif.Lower.Spec
/-!
# Lowering of patterns and `match` expressions

Models spade-hir-lowering/src/lib.rs:343-865 and 1888-1928.  Source locations and the split of
statements into primary and secondary ones are dropped.  Names of signals are numbers; `nid` is
the next number the id tracker gives out (`ctx.idtracker.next()`), and `ValueName::Expr(id)` is
`id` itself.  `none` is a panic.
-/
namespace Spade.Lower
open Spade.Codegen

/-- The loop of `all_conditions` (lib.rs:367-383). -/
def andAll : Nat → List Nat → Nat → List Stmt × Nat × Nat
  | result, [], nid => ([], result, nid)
  | result, op :: ops, nid =>
    let r := andAll nid ops (nid + 1)
    (.bind nid .bool .logicalAnd [result, op] :: r.1, r.2)

/-- `all_conditions` (lib.rs:346-385): statements, the name of the result, and the next id. -/
def allConditions (ops : List Nat) (nid : Nat) : List Stmt × Nat × Nat :=
  match ops with
  | [] => ([.const nid .bool (.bool true)], nid, nid + 1)
  | [op] => ([], op, nid)
  | op :: ops => andAll op ops nid

/-- `inner.len().ilog2()` (lib.rs:455), which panics for 0. -/
def ilog2 (n : Nat) : Option Nat := if n = 0 then none else some n.log2

mutual
/-- `lower_no_initial_binding` (lib.rs:391-559).  The case of types with errors is not modelled:
no code is generated for a program with errors. -/
def lowerPat : LPat → Nat → Nat → Option (List Stmt × Nat)
  | .int .., _, nid => some ([], nid)
  | .bool .., _, nid => some ([], nid)
  | .bound .., _, nid => some ([], nid)
  | .boundInner _ _ p, self, nid => do -- lib.rs:410-431
    let r ← lowerPat p p.name nid
    some (.bind p.name p.ty .alias [self] :: r.1, r.2)
  | .tuple _ _ ps, self, nid => lowerMembers .indexTuple self 0 ps nid -- lib.rs:432-453
  | .array _ _ ps, self, nid => do -- lib.rs:454-485
    let w ← ilog2 ps.length
    lowerElements (.int (w + 1)) self 0 ps nid
  | .struct _ _ ps, self, nid => lowerMembers .indexTuple self 0 ps nid -- lib.rs:489-521
  | .variant _ _ i ps, self, nid => lowerMembers (.enumMember i) self 0 ps nid -- lib.rs:522-553
/-- The loops over the members of a tuple (lib.rs:433-452), a struct (lib.rs:492-520) and an enum
variant (lib.rs:525-552): member `k` is read with operator `op k`. -/
def lowerMembers (op : Nat → Op) (self k : Nat) : List LPat → Nat → Option (List Stmt × Nat)
  | [], nid => some ([], nid)
  | p :: ps, nid => do
    let r ← lowerPat p p.name nid
    let r' ← lowerMembers op self (k + 1) ps r.2
    some (.bind p.name p.ty (op k) [self] :: r.1 ++ r'.1, r'.2)
/-- The loop over the elements of an array (lib.rs:456-484). -/
def lowerElements (indexTy : MTy) (self k : Nat) : List LPat → Nat → Option (List Stmt × Nat)
  | [], nid => some ([], nid)
  | p :: ps, nid => do
    let r ← lowerPat p p.name (nid + 1)
    let r' ← lowerElements indexTy self (k + 1) ps r.2
    some (.const nid indexTy (.int k) :: .bind p.name p.ty .indexArray [self, nid] :: r.1 ++ r'.1,
      r'.2)
end

/-- `lower` (lib.rs:565-588). -/
def lower (p : LPat) (self : Nat) (selfTy : MTy) (nid : Nat) : Option (List Stmt × Nat) := do
  let r ← lowerPat p self nid
  some (.bind p.name selfTy .alias [self] :: r.1, r.2)

mutual
/-- `condition` (lib.rs:593-843): statements, the name of the result, and the next id.  `x` is
`value_name` and `c` is `if_cond_name`. -/
def condition : LPat → Nat → Option Nat → Nat → List Stmt × Nat × Nat
  | .int _ ty z, x, c, nid => -- lib.rs:602-662
    match c with
    | some c =>
      ([.const (nid + 1) ty (.int z), .bind (nid + 2) .bool .eq [x, nid + 1],
        .bind nid .bool .logicalAnd [nid + 2, c]], nid, nid + 3)
    | none => ([.const (nid + 1) ty (.int z), .bind nid .bool .eq [x, nid + 1]], nid, nid + 2)
  | .bool _ true, x, some c, nid => -- lib.rs:663-675
    ([.bind nid .bool .logicalAnd [x, c]], nid, nid + 1)
  | .bool _ true, x, none, nid => ([], x, nid + 1) -- lib.rs:676-679
  | .bool _ false, x, some c, nid => -- lib.rs:680-704
    ([.bind (nid + 1) .bool .logicalNot [x], .bind nid .bool .logicalAnd [nid + 1, c]], nid,
      nid + 2)
  | .bool _ false, x, none, nid => -- lib.rs:705-717
    ([.bind nid .bool .logicalNot [x]], nid, nid + 1)
  | .boundInner _ _ p, _, c, nid => -- lib.rs:718-738
    let r := condition p p.name c (nid + 1)
    (r.1 ++ [.bind nid .bool .alias [r.2.1]], r.2)
  | .bound .., _, some c, nid => ([.bind nid .bool .alias [c]], nid, nid + 1) -- lib.rs:739-751
  | .bound .., _, none, nid => -- lib.rs:752-762
    ([.const nid .bool (.bool true)], nid, nid + 1)
  | .tuple _ _ ps, _, c, nid => -- lib.rs:763-787
    let r := conditions ps (nid + 1)
    let a := allConditions (r.2.1 ++ c.toList) r.2.2
    (r.1 ++ a.1, a.2)
  | .array _ _ ps, _, c, nid => -- lib.rs:763-787
    let r := conditions ps (nid + 1)
    let a := allConditions (r.2.1 ++ c.toList) r.2.2
    (r.1 ++ a.1, a.2)
  | .struct _ _ ps, _, c, nid => -- lib.rs:788-841
    let r := conditions ps (nid + 2)
    let a := allConditions ((nid + 1) :: r.2.1 ++ c.toList) r.2.2
    (.const (nid + 1) .bool (.bool true) :: r.1 ++ a.1, a.2)
  | .variant _ _ i ps, x, c, nid => -- lib.rs:788-841
    let r := conditions ps (nid + 2)
    let a := allConditions ((nid + 1) :: r.2.1 ++ c.toList) r.2.2
    (.bind (nid + 1) .bool (.isEnumVariant i) [x] :: r.1 ++ a.1, a.2)
/-- The conditions of the subpatterns, on the names that `lowerPat` binds them to
(lib.rs:764-778,819-827): statements, results, next id. -/
def conditions : List LPat → Nat → List Stmt × List Nat × Nat
  | [], nid => ([], [], nid)
  | p :: ps, nid =>
    let r := condition p p.name none nid
    let r' := conditions ps r.2.2
    (r.1 ++ r'.1, r.2.1 :: r'.2.1, r'.2.2)
end

/-- The loop over the arms of a `match` (lib.rs:1891-1914): statements, the operands of the
`Match` operator, and the next id.  Lowering the guard and the result also advances the id
tracker, which does not matter here. -/
def lowerBranches (operand : Nat) : List Branch → Nat → Option (List Stmt × List Nat × Nat)
  | [], nid => some ([], [], nid)
  | b :: bs, nid => do
    let l ← lower b.pat operand b.pat.ty nid
    let guard := match b.guard with
      | some g => g.1
      | none => []
    let c := condition b.pat operand (b.guard.map (·.2)) l.2
    let r ← lowerBranches operand bs c.2.2
    some (l.1 ++ guard ++ c.1 ++ b.res.1 ++ r.1, c.2.1 :: b.res.2 :: r.2.1, r.2.2)

/-- Lowering of a `match` whose scrutinee is in `operand` (lib.rs:1889-1928). -/
def lowerMatch (operand self : Nat) (ty : MTy) (bs : List Branch) (nid : Nat) :
    Option (List Stmt) := do
  let r ← lowerBranches operand bs nid
  some (r.1 ++ [.bind self ty .match r.2.1])

end Spade.Lower

/-!
# The table of trait implementations

Models spade-hir/src/impl_tab.rs.  Names and generics are numbers.  `none` is a panic
(`unreachable!`).
-/
namespace Spade.Impl

mutual
/-- `TypeSpec` (spade-hir/src/lib.rs:349-369). -/
inductive TySpec where
  | declared (name : Nat) (args : List TyExpr)
  | generic (g : Nat)
  | tuple (inner : List TySpec)
  | array (inner : TySpec) (size : TyExpr)
  | inverted (inner : TySpec)
  | copyView (inner : TySpec)
  | traitSelf
  | wildcard
/-- `TypeExpression` (spade-hir/src/lib.rs:279-289). -/
inductive TyExpr where
  | bool (b : Bool)
  | int (i : Int)
  | str (s : String)
  | spec (t : TySpec)
  | constGeneric
end

/-- `&&` with a right operand that is evaluated only if needed and may panic. -/
def andThen : Option Bool → Option Bool → Option Bool
  | none, _ => none
  | some false, _ => some false
  | some true, b => b

mutual
/-- `type_specs_overlap` (impl_tab.rs:87-136). -/
def specsOverlap : TySpec → TySpec → Option Bool
  | .generic _, _ => some true
  | .declared _ _, .generic _ => some true
  | .declared n as, .declared m bs =>
    if n = m then exprsAllOverlap as bs else some false
  | .declared _ _, _ => some false
  | .tuple _, .generic _ => some true
  | .tuple as, .tuple bs =>
    if as.length = bs.length then specsAllOverlap as bs else some false
  | .tuple _, _ => some false
  | .array _ _, .generic _ => some true
  | .array a n, .array b m => andThen (specsOverlap a b) (exprsOverlap n m)
  | .array _ _, _ => some false
  | .inverted _, .generic _ => some true
  | .inverted a, .inverted b => specsOverlap a b
  | .inverted _, _ => some false
  | .copyView _, .generic _ => some true
  | .copyView a, .copyView b => specsOverlap a b
  | .copyView _, _ => some false
  | .traitSelf, .generic _ => some true
  | .wildcard, .generic _ => some true
  | .traitSelf, _ => none
  | .wildcard, _ => none
/-- `type_exprs_overlap` (impl_tab.rs:138-154). -/
def exprsOverlap : TyExpr → TyExpr → Option Bool
  | .constGeneric, _ => none
  | .spec _, .constGeneric => none
  | .spec a, .spec b => specsOverlap a b
  | .spec _, _ => some true
  | .int _, .constGeneric => none
  | .int _, .spec _ => some true
  | .int a, .int b => some (a = b)
  | .int _, _ => some false
  | .str _, .constGeneric => none
  | .str _, .spec _ => some true
  | .str a, .str b => some (a = b)
  | .str _, _ => some false
  | .bool _, .constGeneric => none
  | .bool _, .spec _ => some true
  | .bool _, _ => some false
/-- `zip(..).all(type_exprs_overlap)` (impl_tab.rs:44-46, 53-55, 95-98). -/
def exprsAllOverlap : List TyExpr → List TyExpr → Option Bool
  | a :: as, b :: bs => andThen (exprsOverlap a b) (exprsAllOverlap as bs)
  | _, _ => some true
/-- `zip(..).all(type_specs_overlap)` (impl_tab.rs:103-106). -/
def specsAllOverlap : List TySpec → List TySpec → Option Bool
  | a :: as, b :: bs => andThen (specsOverlap a b) (specsAllOverlap as bs)
  | _, _ => some true
end

/-- `ImplTarget` (spade-hir/src/lib.rs:1123-1129). -/
inductive Target where
  | array | inverted | copyView | tuple
  | named (n : Nat)
  deriving DecidableEq

/-- What `ImplTab::insert` is given, and one entry of the table: the target, the trait, the arguments
of the target and of the trait, and the identifier of the block. -/
structure Header where
  target : Target
  trait : Nat
  targetArgs : List TyExpr
  traitArgs : List TyExpr
  block : Nat

/-- The two filters applied to one entry of the table (impl_tab.rs:42-56). -/
def clashes (old new : Header) : Option Bool :=
  if old.target = new.target ∧ old.trait = new.trait then
    if old.targetArgs.length = new.targetArgs.length then
      andThen (exprsAllOverlap old.targetArgs new.targetArgs)
        (exprsAllOverlap old.traitArgs new.traitArgs)
    else some false
  else some false

/-- The first clashing entry (impl_tab.rs:41-59). -/
def firstClash : List Header → Header → Option (Option Header)
  | [], _ => some none
  | o :: os, n =>
    match clashes o n with
    | none => none
    | some true => some (some o)
    | some false => firstClash os n

/-- The outcome of `insert`. -/
inductive Outcome where
  | ok (table : List Header)
  | duplicate (previous : Header)
  | panic

/-- `ImplTab::insert` (impl_tab.rs:26-84).  The nested hash maps are one list; the order in which they
are searched only decides which duplicate is reported. -/
def insert (table : List Header) (h : Header) : Outcome :=
  match firstClash table h with
  | none => .panic
  | some (some o) => .duplicate o
  | some none => .ok (table ++ [h])

end Spade.Impl

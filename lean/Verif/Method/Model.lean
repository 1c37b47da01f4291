import Verif.Method.Spec
/-!
# Method resolution

Models spade-typeinference/src/method_resolution.rs and `ensure_unique_anonymous_traits`
(spade-ast-lowering/src/impls.rs:1427-1467).  `none` is a panic (`unreachable!`).  The text of
diagnostics is dropped.
-/
namespace Spade.Method
open Spade.Impl

/-- `Overlap` (method_resolution.rs:275-282). -/
inductive Overlap where
  | yes | no | maybe
  deriving DecidableEq

/-- `all_overlap` on two results, the second of which is computed only if needed
(method_resolution.rs:288-302). -/
def andThen3 : Option Overlap → Option Overlap → Option Overlap
  | none, _ => none
  | some .yes, b => b
  | some .no, _ => some .no
  | some .maybe, _ => some .maybe

/-- `all_overlap` on an array of two results, which are both computed first
(method_resolution.rs:399-403). -/
def both : Option Overlap → Option Overlap → Option Overlap
  | some a, some b => andThen3 (some a) (some b)
  | _, _ => none

mutual
/-- `spec_is_overlapping` (method_resolution.rs:373-423). -/
def specOverlap : TySpec → RTy → Option Overlap
  | .generic _, _ => some .yes
  | .declared _ _, .unknown _ => some .maybe
  | .declared n as, .named m ts =>
    if n = m then
      if as.length = ts.length then exprOverlaps as ts else some .no
    else some .no
  | .declared _ _, _ => some .no
  | .tuple _, .unknown _ => some .maybe
  | .tuple ss, .tuple ts => if ss.length = ts.length then specOverlaps ss ts else some .no
  | .tuple _, _ => some .no
  | .array _ _, .unknown _ => some .maybe
  | .array a e, .array t s => both (specOverlap a t) (exprOverlap e s)
  | .array _ _, _ => some .no
  | .inverted _, .unknown _ => some .maybe
  | .inverted a, .inverted t => specOverlap a t
  | .inverted _, _ => some .no
  | .copyView _, .unknown _ => some .maybe
  | .copyView a, .copyView t => specOverlap a t
  | .copyView _, _ => some .no
  | .traitSelf, .unknown _ => some .maybe
  | .wildcard, .unknown _ => some .maybe
  | .traitSelf, _ => none
  | .wildcard, _ => none
/-- `expr_is_overlapping` (method_resolution.rs:319-355). -/
def exprOverlap : TyExpr → RTy → Option Overlap
  | .bool a, .bool b => some (if a = b then .yes else .no)
  | .int a, .int b => some (if a = b then .yes else .no)
  | .str a, .str b => some (if a = b then .yes else .no)
  | .bool _, .unknown _ => some .maybe
  | .int _, .unknown _ => some .maybe
  | .str _, .unknown _ => some .maybe
  | .bool _, _ => none
  | .int _, _ => none
  | .str _, _ => none
  | .spec s, t => specOverlap s t
  | .constGeneric, _ => none
/-- `exprs_are_overlapping` (method_resolution.rs:357-371) after the comparison of the lengths. -/
def exprOverlaps : List TyExpr → List RTy → Option Overlap
  | e :: es, t :: ts => andThen3 (exprOverlap e t) (exprOverlaps es ts)
  | _, _ => some .yes
/-- `specs_are_overlapping` (method_resolution.rs:304-317) after the comparison of the lengths. -/
def specOverlaps : List TySpec → List RTy → Option Overlap
  | s :: ss, t :: ts => andThen3 (specOverlap s t) (specOverlaps ss ts)
  | _, _ => some .yes
end

/-- The loop that takes off copy views (method_resolution.rs:106-111). -/
def strip : RTy → RTy × Int
  | .copyView t => ((strip t).1, (strip t).2 - 1)
  | t => (t, 0)

/-- `into_impl_target` (method_resolution.rs:33-46). -/
def targetOf : RTy → Option Target
  | .named n _ => some (.named n)
  | .tuple _ => some .tuple
  | .array _ _ => some .array
  | .inverted _ => some .inverted
  | .copyView _ => some .copyView
  | _ => none

/-- `get_impl_target` (spade-ast-lowering/src/impls.rs:320-389), the key under which a block is
registered (`visit_impl_blocks`, spade-typeinference/src/lib.rs:2066-2150). -/
def key : TySpec → Option Target
  | .declared n _ => some (.named n)
  | .tuple _ => some .tuple
  | .array _ _ => some .array
  | .inverted _ => some .inverted
  | .copyView _ => some .copyView
  | _ => none

/-- The functions of that name of the blocks for this target, with the trait and how the block
overlaps with the type (method_resolution.rs:128-160). -/
def candidates (blocks : List Block) (target : Target) (name : Nat) (t : RTy) :
    Option (List (TraitName × Fn × Overlap)) :=
  ((blocks.filter fun b => key b.target = some target).flatMap fun b =>
    (b.fns.filter fun f => f.1 = name).map fun f => (b, f.2)).mapM fun x =>
      (specOverlap x.1.target t).map fun o => (x.1.trait, x.2, o)

/-- The errors of `select_method`. -/
inductive Bad where
  | noMethods | noSuch | ambiguous | static | notStatic
  deriving DecidableEq

/-- The outcome of `select_method`: a panic, an error, not known yet, or a function and the number of
views to add to the receiver. -/
inductive Sel where
  | panic
  | bad (e : Bad)
  | wait
  | ok (f : Fn) (delta : Int)
  deriving DecidableEq

/-- `matches!(trait_name, TraitName::Anonymous(_))`. -/
def TraitName.isAnonymous : TraitName → Bool
  | .anonymous _ => true
  | .named _ => false

/-- The choice among the candidates that match (method_resolution.rs:179-234). -/
def choose : List (TraitName × Fn) → Except Bad Fn
  | [] => .error .noSuch
  | [x] => .ok x.2
  | xs => match xs.find? (fun x => x.1.isAnonymous) with
    | some x => .ok x.2
    | none => .error .ambiguous

/-- The check of the receiver (method_resolution.rs:236-270). -/
def adjust (takesSelf : Bool) (f : Fn) (delta : Int) : Sel :=
  match takesSelf, f.selfness with
  | true, .value => .ok f delta
  | true, .copyView => .ok f (delta + 1)
  | true, .static => .bad .static
  | false, .static => .ok f delta
  | false, _ => .bad .notStatic

/-- `select_method` (method_resolution.rs:93-273). -/
def select (blocks : List Block) (t : RTy) (name : Nat) (takesSelf : Bool) : Sel :=
  match targetOf (strip t).1 with
  | none => .bad .noMethods
  | some target =>
    match candidates blocks target name (strip t).1 with
    | none => .panic
    | some cs =>
      if cs.any (fun c => c.2.2 = .maybe) then .wait
      else
        match choose ((cs.filter fun c => c.2.2 = .yes).map fun c => (c.1, c.2.1)) with
        | .error e => .bad e
        | .ok f => adjust takesSelf f (strip t).2

/-- The inner loop of `ensure_unique_anonymous_traits` (impls.rs:1444-1462): `seen` are the functions
registered so far with the target of their block; the result says whether there is no error. -/
def uniqueFns (target : TySpec) : List (Nat × Fn) → List (Nat × TySpec) →
    Option (Bool × List (Nat × TySpec))
  | [], seen => some (true, seen)
  | f :: fs, seen =>
    let same := seen.filter fun s => s.1 = f.1
    (same.mapM fun s => specsOverlap target s.2).bind fun os =>
      if os.any id then (uniqueFns target fs seen).map fun r => (false, r.2)
      else uniqueFns target fs (seen ++ [(f.1, target)])

/-- The outer loop over the anonymous blocks for one target (impls.rs:1433-1443). -/
def uniqueBlocks : List Block → List (Nat × TySpec) → Option Bool
  | [], _ => some true
  | b :: bs, seen =>
    (uniqueFns b.target b.fns seen).bind fun r => (uniqueBlocks bs r.2).map fun ok => r.1 && ok

/-- `ensure_unique_anonymous_traits` (impls.rs:1427-1467) finds no error.  `find` stops at the first
overlap, here all are computed; the order of the blocks (by position in the source) only decides which
one is reported. -/
def unique (blocks : List Block) (target : Target) : Option Bool :=
  uniqueBlocks (blocks.filter fun b => b.trait.isAnonymous && key b.target = some target) []

end Spade.Method

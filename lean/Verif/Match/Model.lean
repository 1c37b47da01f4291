import Verif.Match.Spec
/-!
# The usefulness algorithm

Models spade-hir-lowering/src/pattern.rs and spade-hir-lowering/src/usefulness.rs.
A `none` result is a panic of the Rust code (`panic!`, `unreachable!`, out-of-range index).
Iterators over `other_ctors` are lists.  Bit widths above `2^128`, which make the Rust code
panic through `expect` (pattern.rs:81,107,260), are not modelled: widths are unbounded.
-/
namespace Spade.Match

/-- `Constructor` (pattern.rs:184-202). -/
inductive Ctor where
  | single
  | bool (b : Bool)
  | variant (i : Nat)
  | range (min max : Int)
  | missing (all : List Ctor)
  | wild

/-- `DeconstructedPattern` (pattern.rs:300-305). -/
inductive DPat where
  | mk (ctor : Ctor) (fields : List DPat) (ty : Ty)

/-- Field access (pattern.rs:302). -/
def DPat.ctor : DPat → Ctor | .mk c _ _ => c
/-- Field access (pattern.rs:303). -/
def DPat.fields : DPat → List DPat | .mk _ fs _ => fs
/-- Field access (pattern.rs:304). -/
def DPat.ty : DPat → Ty | .mk _ _ t => t

/-- `Constructor::as_range` (pattern.rs:292-297). -/
def Ctor.asRange : Ctor → Option (Int × Int)
  | .range lo hi => some (lo, hi)
  | _ => none

/-- Ordered insertion; helper for `Vec::sort` + `dedup` (pattern.rs:38-39). -/
def insertSorted (x : Int) : List Int → List Int
  | [] => [x]
  | y :: ys => if x < y then x :: y :: ys else if x = y then y :: ys else y :: insertSorted x ys

/-- `edges.sort(); edges.dedup()` (pattern.rs:38-39): sorted without duplicates. -/
def sortDedup : List Int → List Int
  | [] => []
  | x :: xs => insertSorted x (sortDedup xs)

/-- The loop of `split_int_range` over the filtered edges (pattern.rs:41-55). -/
def splitEdges (low max : Int) : List Int → List Ctor
  | [] => [.range low max]
  | e :: es => .range low (e - 1) :: splitEdges e max es

/-- `split_int_range` (pattern.rs:27-56). -/
def splitIntRange (min max : Int) (others : List Ctor) : Option (List Ctor) := do
  let rs ← others.mapM Ctor.asRange
  let edges := sortDedup (rs.flatMap fun r => [r.1, r.2])
  pure (splitEdges min max (edges.filter fun e => decide (min < e) && decide (e < max)))

/-- `Constructor::is_covered_by` (pattern.rs:222-246). -/
def Ctor.isCoveredBy : Ctor → Ctor → Option Bool
  | _, .wild => some true
  | .missing _, _ => some false
  | .single, .single => some true
  | .variant i, .variant j => some (i == j)
  | .range slo shi, .range olo ohi => some (decide (olo ≤ slo) && decide (shi ≤ ohi))
  | .bool a, .bool b => some (a == b)
  | _, _ => none

/-- `matches!(other, Constructor::Wildcard)` (pattern.rs:157). -/
def Ctor.isWild : Ctor → Bool
  | .wild => true
  | _ => false

/-- Short-circuiting `iter().any(|other| ctor.is_covered_by(other))` (pattern.rs:167-169). -/
def coveredByAny (c : Ctor) : List Ctor → Option Bool
  | [] => some false
  | o :: os => do
    if ← c.isCoveredBy o then some true else coveredByAny c os

/-- The `missing` list (pattern.rs:164-172). -/
def missingCtors (others : List Ctor) : List Ctor → Option (List Ctor)
  | [] => some []
  | c :: cs => do
    let cov ← coveredByAny c others
    let rest ← missingCtors others cs
    pure (if cov then rest else c :: rest)

/-- `group_missing_constructors` (pattern.rs:152-182). -/
def groupMissing (all others : List Ctor) : Option (List Ctor) := do
  let nonWild := others.filter fun o => !o.isWild
  let missing ← missingCtors nonWild all
  pure (if missing.isEmpty then all else nonWild ++ [.missing missing])

/-- The inner call `ctor.split(ty, vec![])` made for every constructor of an integer column
(pattern.rs:97,123): with no other constructors a wildcard becomes the full range and any
other constructor is kept.  (`split` on a range without edges returns the range itself.) -/
def splitAlone (lo hi : Int) : Ctor → List Ctor
  | .wild => [.range lo hi]
  | c => [c]

/-- `split_wildcard` (pattern.rs:58-146). -/
def splitWildcard (ty : Ty) (others : List Ctor) : Option (List Ctor) :=
  match ty with
  | .error | .tuple _ | .struct _ | .array _ _ | .backward _ | .copyView _ => some [.single]
  | .enum opts => some ((List.range opts.length).map .variant)
  | .int bits =>
    if bits = 0 then some [.range 0 0]
    else
      let lo := -(2 ^ (bits - 1) : Int)
      let hi := (2 ^ (bits - 1) : Int) - 1
      splitIntRange lo hi (others.flatMap (splitAlone lo hi))
  | .uint bits =>
    if bits = 0 then some [.range 0 0]
    else
      let hi := (2 ^ bits : Int) - 1
      splitIntRange 0 hi (others.flatMap (splitAlone 0 hi))
  | .bool => groupMissing [.bool false, .bool true] others
  | .sealed => some []

/-- `Constructor::split` (pattern.rs:209-219). -/
def Ctor.split (c : Ctor) (ty : Ty) (others : List Ctor) : Option (List Ctor) :=
  match c with
  | .wild => splitWildcard ty others
  | .range lo hi => splitIntRange lo hi others
  | _ => some [c]

/-- `Constructor::fields` for `Single` (pattern.rs:250-272). -/
def singleFields : Ty → Option (List Ty)
  | .error => some []
  | .tuple ts => some ts
  | .struct ts => some ts
  | .array t n => some (List.replicate n t)
  | .enum _ => none
  | .int _ | .uint _ | .bool | .sealed => some []
  | .backward _ => some []
  | .copyView t => singleFields t

/-- `Constructor::fields` (pattern.rs:248-285). -/
def Ctor.fields : Ctor → Ty → Option (List Ty)
  | .single, ty => singleFields ty
  | .variant i, .enum opts => opts[i]?
  | .variant _, _ => none
  | .bool _, _ => some []
  | .range _ _, _ => some []
  | .missing _, _ => some []
  | .wild, _ => none

/-- `DeconstructedPattern::wildcard` (pattern.rs:308-314). -/
def DPat.wildcard (ty : Ty) : DPat := .mk .wild [] ty

/-- `DeconstructedPattern::specialize` (pattern.rs:393-398), with `wild_from_ctor`
(pattern.rs:316-323) unfolded. -/
def DPat.specialize (p : DPat) (c : Ctor) : Option (List DPat) :=
  match p.ctor with
  | .wild => (c.fields p.ty).map (·.map DPat.wildcard)
  | _ => some p.fields

mutual
/-- `DeconstructedPattern::from_hir` (pattern.rs:325-391). -/
def fromHir : Pat → Option DPat
  | .int ty z => some (.mk (.range z (z + 1)) [] ty)
  | .bool ty b => some (.mk (.bool b) [] ty)
  | .bound ty => some (.mk .wild [] ty)
  | .boundInner _ p => fromHir p
  | .tuple ty ps => do return .mk .single (← fromHirs ps) ty
  | .array ty ps => do return .mk .single (← fromHirs ps) ty
  | .struct ty ps => do return .mk .single (← fromHirs ps) ty
  | .variant ty i ps => do
    let fs ← fromHirs ps
    match ty with
    | .enum _ => return .mk (.variant i) fs ty
    | _ => none
/-- The `map(..from_hir..).collect()` calls (pattern.rs:341,345,350-353). -/
def fromHirs : List Pat → Option (List DPat)
  | [] => some []
  | p :: ps => do return (← fromHir p) :: (← fromHirs ps)
end

mutual
/-- Termination weight of a type; not in the code. -/
def Ty.weight : Ty → Nat
  | .tuple ts => 1 + weights ts
  | .struct ts => 1 + weights ts
  | .array t n => 1 + n * t.weight
  | .enum os => 1 + weightss os
  | .backward t => 1 + t.weight
  | .copyView t => 1 + t.weight
  | .error | .int _ | .uint _ | .bool | .sealed => 1
/-- Termination weight; not in the code. -/
def weights : List Ty → Nat
  | [] => 0
  | t :: ts => t.weight + weights ts
/-- Termination weight; not in the code. -/
def weightss : List (List Ty) → Nat
  | [] => 0
  | t :: ts => weights t + weightss ts
end

mutual
/-- Termination weight of a pattern; not in the code. -/
def DPat.weight : DPat → Nat
  | .mk c fs ty => match c with
    | .wild => ty.weight
    | _ => 1 + dweights fs
/-- Termination weight; not in the code. -/
def dweights : List DPat → Nat
  | [] => 0
  | p :: ps => p.weight + dweights ps
end

theorem weights_replicate (t : Ty) (n : Nat) : weights (List.replicate n t) = n * t.weight := by
  induction n with
  | zero => simp [weights]
  | succ n ih => simp [List.replicate_succ, weights, ih, Nat.succ_mul, Nat.add_comm]

theorem weights_getElem? {os : List (List Ty)} {i : Nat} {ts} (h : os[i]? = some ts) :
    weights ts ≤ weightss os := by
  induction os generalizing i with
  | nil => simp at h
  | cons o os ih =>
    cases i with
    | zero => simp at h; subst h; simp [weightss]
    | succ i => simp at h; have := ih h; simp [weightss]; omega

theorem singleFields_weight : ∀ (ty : Ty) (fts : List Ty), singleFields ty = some fts →
    weights fts < ty.weight
  | .error, _, h => by simp [singleFields] at h; subst h; simp [weights, Ty.weight]
  | .tuple ts, _, h => by simp [singleFields] at h; subst h; simp [Ty.weight]
  | .struct ts, _, h => by simp [singleFields] at h; subst h; simp [Ty.weight]
  | .array t n, _, h => by
    simp [singleFields] at h; subst h; simp [Ty.weight, weights_replicate]
  | .enum _, _, h => by simp [singleFields] at h
  | .int _, _, h => by simp [singleFields] at h; subst h; simp [weights, Ty.weight]
  | .uint _, _, h => by simp [singleFields] at h; subst h; simp [weights, Ty.weight]
  | .bool, _, h => by simp [singleFields] at h; subst h; simp [weights, Ty.weight]
  | .sealed, _, h => by simp [singleFields] at h; subst h; simp [weights, Ty.weight]
  | .backward t, _, h => by simp [singleFields] at h; subst h; simp [weights, Ty.weight]; omega
  | .copyView t, fts, h => by
    simp only [singleFields] at h
    have := singleFields_weight t fts h
    simp [Ty.weight]; omega

theorem fields_weight {c : Ctor} {ty : Ty} {fts : List Ty} (h : c.fields ty = some fts) :
    weights fts < ty.weight := by
  have hpos : 0 < ty.weight := by cases ty <;> simp [Ty.weight] <;> omega
  cases c with
  | single => exact singleFields_weight ty fts h
  | variant i =>
    cases ty <;> simp only [Ctor.fields, reduceCtorEq] at h
    have := weights_getElem? h
    simp [Ty.weight]; omega
  | bool b => simp [Ctor.fields] at h; subst h; simpa [weights] using hpos
  | range a b => simp [Ctor.fields] at h; subst h; simpa [weights] using hpos
  | missing a => simp [Ctor.fields] at h; subst h; simpa [weights] using hpos
  | wild => simp [Ctor.fields] at h

theorem dweights_wildcards (ts : List Ty) : dweights (ts.map DPat.wildcard) = weights ts := by
  induction ts with
  | nil => rfl
  | cons t ts ih => simp [dweights, weights, ih, DPat.wildcard, DPat.weight]

theorem dweights_append (a b : List DPat) : dweights (a ++ b) = dweights a + dweights b := by
  induction a with
  | nil => simp [dweights]
  | cons p ps ih => simp [dweights, ih]; omega

theorem specialize_weight {p : DPat} {c : Ctor} {fs : List DPat}
    (h : p.specialize c = some fs) : dweights fs < p.weight := by
  obtain ⟨pc, pf, pt⟩ := p
  cases pc with
  | wild =>
    simp only [DPat.specialize, DPat.ctor, DPat.ty, Option.map_eq_some_iff] at h
    obtain ⟨fts, h1, rfl⟩ := h
    rw [dweights_wildcards]
    simpa [DPat.weight] using fields_weight h1
  | _ =>
    simp [DPat.specialize, DPat.ctor, DPat.fields] at h
    subst h; simp [DPat.weight]

/-- A row of the matrix (`PatStack`, usefulness.rs:11-14). -/
abbrev PatStack := List DPat
/-- `Witness` (usefulness.rs:121-122). -/
abbrev Witness := List DPat

/-- `PatStack::pop_head` (usefulness.rs:30-34). -/
def popHead (row : PatStack) (c : Ctor) : Option PatStack :=
  match row with
  | [] => none
  | p :: ps => do return (← p.specialize c) ++ ps

/-- `Matrix::specialize` (usefulness.rs:89-99). -/
def specializeRows (c : Ctor) : List PatStack → Option (List PatStack)
  | [] => some []
  | row :: rows =>
    match row with
    | [] => none
    | p :: ps => do
      let cov ← c.isCoveredBy p.ctor
      let popped ← if cov then (popHead (p :: ps) c).map some else some none
      let rest ← specializeRows c rows
      pure (match popped with
        | some r => r :: rest
        | none => rest)

/-- `Witness::apply_constructor` (usefulness.rs:125-140).  `len - arity` panics on underflow. -/
def applyCtor1 (w : Witness) (c : Ctor) (ty : Ty) : Option Witness := do
  let fts ← c.fields ty
  if w.length < fts.length then none
  else
    let k := w.length - fts.length
    some (w.take k ++ [.mk c (w.drop k).reverse ty])

/-- The body of the loop of `Usefulness::apply_constructor` for one witness
(usefulness.rs:183-192): one new witness per constructor of a `Missing` group. -/
def applyCtorW (c : Ctor) (ty : Ty) (w : Witness) : Option (List Witness) :=
  match c with
  | .missing all => all.mapM fun c' => applyCtor1 w c' ty
  | other => do return [← applyCtor1 w other ty]

/-- `Usefulness::apply_constructor` (usefulness.rs:177-195). -/
def applyCtor (ws : List Witness) (c : Ctor) (ty : Ty) : Option (List Witness) :=
  if ws.isEmpty then some ws
  else do
    let wss ← ws.mapM (applyCtorW c ty)
    pure wss.flatten

/-- `Usefulness::extend` (usefulness.rs:197-203). -/
def extendW (self other : List Witness) : List Witness :=
  match self.isEmpty, other.isEmpty with
  | _, true => self
  | true, _ => other
  | _, _ => self ++ other

/-- `is_useful` (usefulness.rs:218-252).  The result is the list of witnesses.  The loop over
`split_ctors` is a `mapM` followed by the accumulation with `extend`. -/
def isUseful (pats : PatStack) (rows : List PatStack) : Option (List Witness) :=
  match pats with
  | [] => some (if rows.isEmpty then [[]] else [])
  | p :: ps => do
    let heads ← rows.mapM fun row => row.head?.map DPat.ctor
    let ctors ← p.ctor.split p.ty heads
    let us ← ctors.mapM fun c =>
      match h : p.specialize c with
      | none => none
      | some fs => do
        let rows' ← specializeRows c rows
        let u ← isUseful (fs ++ ps) rows'
        applyCtor u c p.ty
    pure (us.foldl extendW [])
termination_by dweights pats
decreasing_by
  simp only [dweights_append, dweights]
  have := specialize_weight h
  omega

/-- The exhaustiveness check performed when a `match` is lowered
(spade-hir-lowering/src/lib.rs:1819-1841).  Arms are given as pattern and "has a guard"; guarded
arms are skipped.  The result is the list of witnesses; the match is accepted iff it is empty.
The check is skipped for scrutinee types containing an error, which only occur after an error
has already been reported; that case is not modelled. -/
def checkMatch (ty : Ty) (arms : List (Pat × Bool)) : Option (List Witness) := do
  let stacks ← (arms.filter fun a => !a.2).mapM fun a => do return [← fromHir a.1]
  isUseful [DPat.wildcard ty] stacks

mutual
/-- `is_trivially_irrefutable` (spade-hir-lowering/src/lib.rs:880-895). -/
def triviallyIrrefutable : Pat → Bool
  | .int _ _ => false
  | .bool _ _ => false
  | .bound _ => true
  | .boundInner _ p => triviallyIrrefutable p
  | .tuple _ ps => allTriviallyIrrefutable ps
  | .array _ ps => allTriviallyIrrefutable ps
  | .struct _ ps => allTriviallyIrrefutable ps
  | .variant _ _ ps => allTriviallyIrrefutable ps
/-- The `all` over sub-patterns (lib.rs:889,892). -/
def allTriviallyIrrefutable : List Pat → Bool
  | [] => true
  | p :: ps => triviallyIrrefutable p && allTriviallyIrrefutable ps
end

/-- The type annotation at the root of a pattern (`pat.id` lookup, lib.rs:901-905). -/
def Pat.ty : Pat → Ty
  | .int t _ | .bool t _ | .bound t | .boundInner t _ | .tuple t _ | .array t _ | .struct t _
  | .variant t _ _ => t

/-- `check_irrefutable` (spade-hir-lowering/src/lib.rs:900-935): `some true` is acceptance. -/
def checkIrrefutable (p : Pat) : Option Bool :=
  if triviallyIrrefutable p then some true
  else do
    let d ← fromHir p
    let ws ← isUseful [DPat.wildcard p.ty] [[d]]
    pure ws.isEmpty

/-- The extra diagnostic pass over guarded arms after a match was found non-exhaustive
(spade-hir-lowering/src/lib.rs:1850-1879): for every witness and every guarded arm, the arm is
added to the unguarded rows and the usefulness of the witness itself is recomputed.  Returns for
each pair whether the hint is attached; `none` is a panic. -/
def diagnoseGuards (ty : Ty) (arms : List (Pat × Bool)) : Option (List Bool) := do
  let stacks ← (arms.filter fun a => !a.2).mapM fun a => do return [← fromHir a.1]
  let ws ← isUseful [DPat.wildcard ty] stacks
  let hs ← ws.mapM fun w => (arms.filter fun a => a.2).mapM fun a => do
    let d ← fromHir a.1
    let u ← isUseful w (stacks ++ [[d]])
    pure u.isEmpty
  pure hs.flatten

end Spade.Match

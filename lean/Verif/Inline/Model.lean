import Verif.Inline.Spec
/-!
# Inlining

Models spade-hir-lowering/src/inline.rs.  The type state (`type_map`, lines 289-313, 120-133) is
metadata for debugging and only modelled as far as it draws names.  A `BTreeMap` from names to names is
an association list without repeated keys, in the order of insertion instead of the order of names:
this only decides which numbers the new names get.
-/
namespace Spade.Inline

open Spade.Mir

variable {Op Ty C Ini : Type}

/-- The two trackers (`NameIdTracker`, `ExprIdTracker`). -/
structure Ids where
  names : Nat
  exprs : Nat

/-- `name_generator` (inline.rs:253-265), also inline.rs:102-110. -/
def fresh (ids : Ids) : Name → Name × Ids
  | .named _ s => (.named ids.names s, { ids with names := ids.names + 1 })
  | .expr _ => (.expr ids.exprs, { ids with exprs := ids.exprs + 1 })

/-- New names for a list of names. -/
def freshAll : Ids → List Name → List (Name × Name) × Ids
  | ids, [] => ([], ids)
  | ids, k :: ks =>
    let (n, ids) := fresh ids k
    let (rest, ids) := freshAll ids ks
    ((k, n) :: rest, ids)

/-- `BTreeMap<Loc<ValueName>, Loc<ValueName>>`. -/
abbrev NMap := List (Name × Name)

/-- `BTreeMap::insert`. -/
def NMap.insert (m : NMap) (k v : Name) : NMap :=
  match m with
  | [] => [(k, v)]
  | (k', v') :: m => if k' = k then (k, v) :: m else (k', v') :: NMap.insert m k v

/-- `collect::<BTreeMap<_, _>>`: later entries replace earlier ones. -/
def NMap.collect (l : List (Name × Name)) : NMap := l.foldl (fun m e => m.insert e.1 e.2) []

def NMap.get (m : NMap) (k : Name) : Option Name := List.lookup k m

def NMap.keys (m : NMap) : List Name := m.map (·.1)

/-- `get_final_name` (inline.rs:40). -/
def finalName (m : NMap) (n : Name) : Name := (m.get n).getD n

/-- `InlinedStatements` (inline.rs:17-29). -/
inductive Item (Op Ty C Ini : Type) where
  | normal (ss : List (Stmt Op Ty C Ini))
  | call (outer inner : Name) (ty : Ty) (target : List (Item Op Ty C Ini)) (nameMap : NMap)
      (inputs : List (Name × Name)) (typeKeys : List Name)

/-- The statements of the callee that define a name (inline.rs:268-287). -/
def definedNames (ss : List (Stmt Op Ty C Ini)) : List Name := ss.filterMap fun s =>
  match s with
  | .binding b => some b.name
  | .register r => some r.name
  | .constant n _ _ => some n
  | .error => none
  | .assert _ => none
  | .set _ _ => none

mutual
/-- `InlinedStatements::finalize` (inline.rs:32-171); `none` is the internal error of lines 144-149. -/
def finalizeItem (m : NMap) (ids : Ids) : Item Op Ty C Ini → Option (List (Stmt Op Ty C Ini) × Ids)
  | .normal ss => some (ss.map (Stmt.rename (finalName m)), ids)
  | .call outer inner ty target nameMap inputs typeKeys => do
    let (drawn, ids) := freshAll ids (nameMap.keys ++ m.keys ++ typeKeys)
    let newMap := NMap.collect (drawn ++ inputs.map (fun e => (e.1, finalName m e.2)))
    let result ← newMap.get inner
    let (body, ids) ← finalizeItems newMap ids target
    some (body ++ [.binding ⟨finalName m outer, .alias, [result], ty⟩], ids)
/-- The loops over the items (inline.rs:157-165,188-196). -/
def finalizeItems (m : NMap) (ids : Ids) : List (Item Op Ty C Ini) →
    Option (List (Stmt Op Ty C Ini) × Ids)
  | [] => some ([], ids)
  | i :: is => do
    let (out, ids) ← finalizeItem m ids i
    let (rest, ids) ← finalizeItems m ids is
    some (out ++ rest, ids)
end

/-- The cache of `perform_inlining`. -/
abbrev Cache (Op Ty C Ini : Type) := List (String × List (Item Op Ty C Ini))

/-- Which of the new names get a type (inline.rs:289-313) depends on the type state of the callee. -/
abbrev Typed := Name → Bool

mutual
/-- `perform_inlining` (inline.rs:202-356); `none` if it does not end within `fuel` nested calls, or
if the unit is not in the map (lines 212-217). -/
def perform (D : Design Op Ty C Ini) (typed : Typed) : Nat → String → Ids → Cache Op Ty C Ini →
    Option (List (Item Op Ty C Ini) × Ids × Cache Op Ty C Ini)
  | 0, _, _, _ => none
  | fuel + 1, name, ids, cache =>
    match cache.lookup name with
    | some items => some (items, ids, cache)
    | none =>
      match D.unit name with
      | none => none
      | some u => do
        let (items, ids, cache) ← performStmts D typed fuel u.entity.stmts [] ids cache
        some (items, ids, (name, items) :: cache)
/-- The loop over the statements (inline.rs:219-345). -/
def performStmts (D : Design Op Ty C Ini) (typed : Typed) : Nat → List (Stmt Op Ty C Ini) →
    List (Stmt Op Ty C Ini) → Ids → Cache Op Ty C Ini →
    Option (List (Item Op Ty C Ini) × Ids × Cache Op Ty C Ini)
  | 0, _, _, _, _ => none
  | _ + 1, [], current, ids, cache => some ([.normal current], ids, cache)
  | fuel + 1, s :: ss, current, ids, cache =>
    match D.inlined s with
    | none => performStmts D typed fuel ss (current ++ [s]) ids cache
    | some (r, e, ty, os) => do
      let inputs := e.inputNames.zip os
      let (inner, ids) := freshAll ids (definedNames e.stmts)
      let typeKeys := (inner.filter (fun p => typed p.1)).map (·.2)
      let (target, ids, cache) ← perform D typed fuel e.name ids cache
      let (rest, ids, cache) ← performStmts D typed fuel ss [] ids cache
      some (.normal current :: .call r e.output ty target (NMap.collect inner) inputs typeKeys :: rest,
        ids, cache)
end

/-- The first loop of `do_inlining` (inline.rs:370-374). -/
def performAll (D : Design Op Ty C Ini) (typed : Typed) (fuel : Nat) : List String → Ids →
    Cache Op Ty C Ini → Option (List (Entity Op Ty C Ini × List (Item Op Ty C Ini)) × Ids)
  | [], ids, _ => some ([], ids)
  | name :: names, ids, cache => do
    let u ← D.unit name
    let (items, ids, cache) ← perform D typed fuel name ids cache
    let (rest, ids) ← performAll D typed fuel names ids cache
    some ((u.entity, items) :: rest, ids)

/-- The second loop of `do_inlining` (inline.rs:376-379), and `InlinedEntity::finalize`
(inline.rs:181-199). -/
def finalizeAll : List (Entity Op Ty C Ini × List (Item Op Ty C Ini)) → Ids →
    Option (List (Entity Op Ty C Ini))
  | [], _ => some []
  | (e, items) :: rest, ids => do
    let (stmts, ids) ← finalizeItems [] ids items
    let es ← finalizeAll rest ids
    some ({ e with stmts := stmts } :: es)

/-- `do_inlining` (inline.rs:358-380): `names` are the units that are not to be inlined, in order. -/
def doInlining (D : Design Op Ty C Ini) (typed : Typed) (fuel : Nat) (names : List String) (ids : Ids) :
    Option (List (Entity Op Ty C Ini)) := do
  let (all, ids) ← performAll D typed fuel names ids []
  finalizeAll all ids

end Spade.Inline

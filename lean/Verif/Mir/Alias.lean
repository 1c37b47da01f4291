import Verif.Mir.Entity
/-!
# Alias flattening

Models spade-mir/src/aliasing.rs.  Hash sets are lists without repetitions; the order in which a
cluster is iterated is an argument `ord`.  The ordered map `edges` is an association list; the code
visits clusters in the order of the smallest name, the model in order of appearance, which only
changes the order in which the new aliases are appended.
-/
namespace Spade.Mir
variable {Op Ty C Ini : Type}

/-- `edges.entry(a).or_insert(vec![]).push(b)` (aliasing.rs:38-45). -/
def pushEdge : List (Name × List Name) → Name → Name → List (Name × List Name)
  | [], a, b => [(a, [b])]
  | (n, l) :: es, a, b => if n = a then (n, l ++ [b]) :: es else (n, l) :: pushEdge es a b

/-- The alias statements, as pairs of name, operand and type (aliasing.rs:32-45); `none` is the panic
of `operands[0]`. -/
def aliasPairs : List (Stmt Op Ty C Ini) → Option (List (Name × Name × Ty))
  | [] => some []
  | .binding ⟨n, .alias, os, ty⟩ :: ss => do
    let o ← os.head?
    let rest ← aliasPairs ss
    some ((n, o, ty) :: rest)
  | _ :: ss => aliasPairs ss

/-- The graph (aliasing.rs:30-52). -/
def buildEdges : List (Name × Name × Ty) → List (Name × List Name) → List (Name × List Name)
  | [], es => es
  | (n, o, _) :: ps, es => buildEdges ps (pushEdge (pushEdge es n o) o n)

/-- The types (aliasing.rs:36-37): the last insertion wins. -/
def aliasTypes : List (Name × Name × Ty) → (Name → Option Ty) → Name → Option Ty
  | [], f => f
  | (n, o, t) :: ps, f => aliasTypes ps fun x => if x = o then some t else if x = n then some t else f x

/-- `edges.remove_entry(&node)` (aliasing.rs:64). -/
def removeEntry : List (Name × List Name) → Name → Option (List Name) × List (Name × List Name)
  | [], _ => (none, [])
  | (n, l) :: es, a =>
    if n = a then (some l, es)
    else let (r, es') := removeEntry es a; (r, (n, l) :: es')

/-- Number of edges left. -/
def edgeCount (es : List (Name × List Name)) : Nat := (es.map (·.2.length)).sum

theorem removeEntry_count : ∀ (es : List (Name × List Name)) (a : Name),
    edgeCount (removeEntry es a).2 + ((removeEntry es a).1.getD []).length = edgeCount es
  | [], _ => rfl
  | (n, l) :: es, a => by
    simp only [removeEntry]
    split
    · simp [edgeCount]; omega
    · have := removeEntry_count es a
      simp only [edgeCount, List.map_cons, List.sum_cons] at this ⊢
      omega

theorem removeEntry_length : ∀ (es : List (Name × List Name)) (a : Name),
    (removeEntry es a).2.length ≤ es.length
  | [], _ => Nat.le_refl _
  | (n, l) :: es, a => by
    simp only [removeEntry]
    split
    · simp
    · simpa using removeEntry_length es a

/-- Insert into a set. -/
def setInsert (s : List Name) (n : Name) : List Name := if n ∈ s then s else s ++ [n]

/-- The inner loop (aliasing.rs:63-70): the queue, the graph and the cluster. -/
def collect (queue : List Name) (edges : List (Name × List Name)) (cluster : List Name) :
    List Name × List (Name × List Name) :=
  match queue with
  | [] => (cluster, edges)
  | n :: q =>
    collect (q ++ (removeEntry edges n).1.getD []) (removeEntry edges n).2 (setInsert cluster n)
termination_by edgeCount edges + queue.length
decreasing_by
  have := removeEntry_count edges n
  simp only [List.length_append, List.length_cons]
  omega

theorem collect_length (queue : List Name) (edges : List (Name × List Name)) (cluster : List Name) :
    (collect queue edges cluster).2.length ≤ edges.length := by
  fun_induction collect queue edges cluster with
  | case1 => exact Nat.le_refl _
  | case2 edges cluster n q ih => exact Nat.le_trans ih (removeEntry_length _ _)

/-- The outer loop (aliasing.rs:58-72). -/
def clusters (edges : List (Name × List Name)) : List (List Name) :=
  match edges with
  | [] => []
  | (source, l) :: es =>
    -- the first round of the inner loop, so that the graph shrinks
    let r := collect l es [source]
    r.1 :: clusters r.2
termination_by edges.length
decreasing_by
  have := collect_length l es [source]
  simp only [List.length_cons]; omega

/-- The sort key (aliasing.rs:85-93). -/
def aliasKey (unaliasable : List Name) (n : Name) : Nat :=
  if n ∈ unaliasable then 0 else match n with
    | .named _ _ => 1
    | .expr _ => 2

/-- First element with the smallest key: `sorted_by_key(..).next()` (aliasing.rs:82-97). -/
def minBy (key : Name → Nat) : List Name → Option Name
  | [] => none
  | n :: ns => match minBy key ns with
    | none => some n
    | some m => if key n ≤ key m then some n else some m

/-- The loop over clusters (aliasing.rs:80-112): pairs of node and representative, and the aliases to
re-create, as pairs of representative and node. -/
def chooseReps (ord : List Name → List Name) (unaliasable : List Name) (types : Name → Option Ty)
    (noBackward : Ty → Bool) : List (List Name) → List (Name × Name) × List (Name × Name)
  | [] => ([], [])
  | c :: cs =>
    let rest := chooseReps ord unaliasable types noBackward cs
    match minBy (aliasKey unaliasable) (ord c) with
    | none => rest
    | some r =>
      let others := (ord c).filter (· ≠ r)
      (others.map (fun n => (n, r)) ++ rest.1,
       (others.filter fun n => match n with
          | .named _ _ => (types n).any noBackward
          | .expr _ => false).map (fun n => (r, n)) ++ rest.2)

/-- `try_rename` (aliasing.rs:9-13). -/
def tryRename (m : List (Name × Name)) (n : Name) : Name := (m.lookup n).getD n

/-- The `retain` closure (aliasing.rs:115-124). -/
def keepStmt (m : List (Name × Name)) : Stmt Op Ty C Ini → Bool
  | .binding ⟨n, .alias, os, _⟩ =>
    !((os.head?.map fun o => (m.lookup o).isSome).getD false) && !(m.lookup n).isSome
  | _ => true

/-- The new statements (aliasing.rs:170-187); `none` is the failing `expect`. -/
def newAliases (types : Name → Option Ty) : List (Name × Name) → Option (List (Stmt Op Ty C Ini))
  | [] => some []
  | (r, n) :: ps => do
    let t ← types r
    let rest ← newAliases types ps
    some (.binding ⟨n, .alias, [r], t⟩ :: rest)

/-- `flatten_aliases` (aliasing.rs:19-190). -/
def flattenAliases (ord : List Name → List Name) (noBackward : Ty → Bool)
    (e : Entity Op Ty C Ini) : Option (Entity Op Ty C Ini) := do
  let pairs ← aliasPairs e.stmts
  let edges := buildEdges pairs []
  let types := aliasTypes pairs fun _ => none
  let (m, fresh) := chooseReps ord e.inputNames types noBackward (clusters edges)
  let kept := (e.stmts.filter (keepStmt m)).map (Stmt.rename (tryRename m))
  let added ← newAliases types fresh
  some { e with stmts := kept ++ added, output := tryRename m e.output }

end Spade.Mir

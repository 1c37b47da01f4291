import Verif.Mir.Entity
import Verif.Codegen.Model
/-!
# Deduplication of mutable wires (C39)

Models spade-mir/src/passes/deduplicate_mut_wires.rs.  The pass looks at types only through
`backward_size() != 0`, here `isMut`, and at operators only through `op_needs_deduplication`, here
`dedup`.
-/
namespace Spade.Mir
variable {Op Ty C Ini : Type} [DecidableEq Op] [DecidableEq Ty]

/-- `op_needs_deduplication` (deduplicate_mut_wires.rs:40-107) for the operators of the code generator.
`IndexMemory` is not among those. -/
def opNeedsDedup : Operator Codegen.Op → Bool
  | .alias => true
  | .other (.indexArray) | .other (.rangeIndexArray _ _) | .other (.rangeIndexBits _ _)
  | .other .constructTuple | .other (.constructEnum _) | .other .constructCopyView
  | .other (.isEnumVariant _) | .other (.enumMember _ _) | .other .select
  | .other (.indexTuple _) | .other .alias => true
  | .other _ => false

/-- `recursive_lookup` (deduplicate_mut_wires.rs:25-38).  `fuel` bounds the depth of the recursion, which
never ends in the code if a name is replaced by itself. -/
def recursiveLookup (m : List (Name × Name)) : Nat → Name → Option Name
  | 0, _ => none
  | fuel + 1, n =>
    match m.lookup n with
    | some next => some ((recursiveLookup m fuel next).getD next)
    | none => none

/-- Operator, operands and type of a binding: the key of `seen_statements`. -/
abbrev DKey (Op Ty : Type) := Operator Op × List Name × Ty

/-- The key of a binding. -/
def Binding.key (b : Binding Op Ty) : DKey Op Ty := (b.operator, b.operands, b.ty)

/-- The first loop of `replace_duplicate_mut_wires` (deduplicate_mut_wires.rs:110-143): the statements seen
so far with the latest name, and the replaced names. -/
def findReplaced (isMut : Ty → Bool) (dedup : Operator Op → Bool) :
    List (Stmt Op Ty C Ini) → List (DKey Op Ty × Name) → List (Name × Name) → List (Name × Name)
  | [], _, m => m
  | .binding b :: ss, seen, m =>
    let m' := if isMut b.ty && dedup b.operator then
        match seen.lookup b.key with
        | some prev => (b.name, (recursiveLookup m (m.length + 1) prev).getD prev) :: m
        | none => m
      else m
    findReplaced isMut dedup ss ((b.key, b.name) :: seen) m'
  | _ :: ss, seen, m => findReplaced isMut dedup ss seen m

/-- `get_replacement` (deduplicate_mut_wires.rs:145). -/
def replacement (m : List (Name × Name)) (n : Name) : Name := (m.lookup n).getD n

/-- The second loop for one statement (deduplicate_mut_wires.rs:147-191). -/
def dedupStmt (m : List (Name × Name)) : Stmt Op Ty C Ini → Option (Stmt Op Ty C Ini)
  | .binding b =>
    if (m.lookup b.name).isSome then none
    else some (.binding { b with operands := b.operands.map (replacement m) })
  | .set t x => if (m.lookup t).isSome then none else some (.set t x)
  | s => some s

/-- One round. -/
def dedupRound (isMut : Ty → Bool) (dedup : Operator Op → Bool) (ss : List (Stmt Op Ty C Ini)) :
    List (Stmt Op Ty C Ini) :=
  ss.filterMap (dedupStmt (findReplaced isMut dedup ss [] []))

/-- Replaced names are names of bindings. -/
theorem findReplaced_bound {isMut : Ty → Bool} {dedup : Operator Op → Bool} :
    ∀ {ss : List (Stmt Op Ty C Ini)} {seen m n r}, (n, r) ∈ findReplaced isMut dedup ss seen m →
    (n, r) ∈ m ∨ ∃ b, .binding b ∈ ss ∧ b.name = n ∧ isMut b.ty = true ∧ dedup b.operator = true
  | [], _, _, _, _, h => Or.inl h
  | s :: ss, seen, m, n, r, h => by
    have lift : ∀ {m' : List (Name × Name)}, ((n, r) ∈ m' ∨ ∃ b, .binding b ∈ ss ∧ b.name = n ∧ isMut b.ty = true ∧
        dedup b.operator = true) → ((n, r) ∈ m' → (n, r) ∈ m ∨ ∃ b, s = .binding b ∧ b.name = n ∧
        isMut b.ty = true ∧ dedup b.operator = true) →
        (n, r) ∈ m ∨ ∃ b, .binding b ∈ s :: ss ∧ b.name = n ∧ isMut b.ty = true ∧ dedup b.operator = true := by
      rintro m' (h1 | ⟨b, hb, h1⟩) hm
      · rcases hm h1 with h2 | ⟨b, rfl, h2⟩
        · exact Or.inl h2
        · exact Or.inr ⟨b, List.mem_cons_self .., h2⟩
      · exact Or.inr ⟨b, List.mem_cons_of_mem _ hb, h1⟩
    cases s with
    | binding b =>
      simp only [findReplaced] at h
      refine lift (findReplaced_bound h) fun hm => ?_
      split at hm
      · next hc =>
        simp only [Bool.and_eq_true] at hc
        split at hm
        · rcases List.mem_cons.1 hm with hm | hm
          · cases hm; exact Or.inr ⟨b, rfl, rfl, hc⟩
          · exact Or.inl hm
        · exact Or.inl hm
      · exact Or.inl hm
    | _ => exact lift (findReplaced_bound (by simpa only [findReplaced] using h)) Or.inl

theorem lookup_isSome_of_mem {α β : Type} [BEq α] [LawfulBEq α] {l : List (α × β)} {a : α} {b : β} (h : (a, b) ∈ l) :
    (l.lookup a).isSome = true := by
  induction l with
  | nil => cases h
  | cons p l ih =>
    rw [List.lookup_cons]
    split
    · rfl
    · next hne =>
      rcases List.mem_cons.1 h with rfl | h
      · simp at hne
      · exact ih h

theorem filterMap_length_lt {α β : Type} {f : α → Option β} : ∀ {l : List α} {a}, a ∈ l → f a = none →
    (l.filterMap f).length < l.length
  | b :: l, a, h, hf => by
    rcases List.mem_cons.1 h with rfl | h
    · rw [List.filterMap_cons_none hf, List.length_cons]
      exact Nat.lt_succ_of_le (List.length_filterMap_le ..)
    · have := filterMap_length_lt h hf
      cases hb : f b with
      | none => rw [List.filterMap_cons_none hb, List.length_cons]; omega
      | some c => rw [List.filterMap_cons_some hb, List.length_cons, List.length_cons]; omega

/-- A round that replaces something removes a statement. -/
theorem dedupRound_shrinks {isMut : Ty → Bool} {dedup : Operator Op → Bool} {ss : List (Stmt Op Ty C Ini)}
    (h : (findReplaced isMut dedup ss [] []).isEmpty = false) :
    (dedupRound isMut dedup ss).length < ss.length := by
  cases hm : findReplaced isMut dedup ss [] [] with
  | nil => rw [hm] at h; cases h
  | cons p m =>
    rcases findReplaced_bound (n := p.1) (r := p.2) (hm ▸ List.mem_cons_self ..) with h | ⟨b, hb, hn, _⟩
    · cases h
    · refine filterMap_length_lt hb ?_
      simp only [dedupStmt]
      rw [hn, lookup_isSome_of_mem (b := p.2) (hm ▸ List.mem_cons_self ..)]
      rfl

/-- `replace_duplicate_mut_wires` (deduplicate_mut_wires.rs:109-200): rounds until nothing is replaced. -/
def dedupStmts (isMut : Ty → Bool) (dedup : Operator Op → Bool) (ss : List (Stmt Op Ty C Ini)) :
    List (Stmt Op Ty C Ini) :=
  if h : (findReplaced isMut dedup ss [] []).isEmpty then dedupRound isMut dedup ss
  else dedupStmts isMut dedup (dedupRound isMut dedup ss)
termination_by ss.length
decreasing_by exact dedupRound_shrinks (by simpa using h)

/-- The pass applied to a unit (spade-hir-lowering/src/lib.rs:3819-3820). -/
def dedupUnit (isMut : Ty → Bool) (dedup : Operator Op → Bool) (e : Entity Op Ty C Ini) : Entity Op Ty C Ini :=
  { e with stmts := dedupStmts isMut dedup e.stmts }

end Spade.Mir

import Verif.Mir.Dedup
import Verif.Mir.AliasProps
/-!
# Deduplication of mutable wires keeps one driver (C39)
-/
namespace Spade.Mir
variable {Op Ty C Ini : Type} [DecidableEq Op] [DecidableEq Ty]

/-! ## What is replaced -/

theorem mem_of_lookup {α β : Type} [BEq α] [LawfulBEq α] : ∀ {l : List (α × β)} {a : α} {b : β},
    l.lookup a = some b → (a, b) ∈ l
  | p :: l, a, b, h => by
    rw [List.lookup_cons] at h
    split at h
    · next he => cases h; simp only [beq_iff_eq] at he; subst he; exact List.mem_cons_self ..
    · exact List.mem_cons_of_mem _ (mem_of_lookup h)

/-- `a` is replaced by `r`: bindings of mutable wires with the same operator, operands and type. -/
structure Dup (isMut : Ty → Bool) (dedup : Operator Op → Bool) (ss : List (Stmt Op Ty C Ini))
    (a r : Name) (ba br : Binding Op Ty) : Prop where
  ina : .binding ba ∈ ss
  inr : .binding br ∈ ss
  na : ba.name = a
  nr : br.name = r
  key : ba.key = br.key
  isMut : isMut ba.ty = true
  dedup : dedup ba.operator = true

/-- The state of the first loop after the statements `pre`. -/
structure Found (isMut : Ty → Bool) (dedup : Operator Op → Bool) (pre : List (Stmt Op Ty C Ini))
    (seen : List (DKey Op Ty × Name)) (m : List (Name × Name)) : Prop where
  seenFrom : ∀ k n, (k, n) ∈ seen → ∃ b, .binding b ∈ pre ∧ b.key = k ∧ b.name = n
  dups : ∀ a r, (a, r) ∈ m → (∃ ba br, Dup isMut dedup pre a r ba br) ∧ m.lookup r = none

theorem defines_mem {ss : List (Stmt Op Ty C Ini)} {b : Binding Op Ty} (h : .binding b ∈ ss) :
    b.name ∈ ss.filterMap Stmt.defines := List.mem_filterMap.2 ⟨_, h, rfl⟩

theorem found_all {isMut : Ty → Bool} {dedup : Operator Op → Bool} :
    ∀ {ss pre : List (Stmt Op Ty C Ini)} {seen m}, ((pre ++ ss).filterMap Stmt.defines).Nodup →
    Found isMut dedup pre seen m →
    ∀ a r, (a, r) ∈ findReplaced isMut dedup ss seen m →
      (∃ ba br, Dup isMut dedup (pre ++ ss) a r ba br) ∧ (findReplaced isMut dedup ss seen m).lookup r = none
  | [], pre, seen, m, _, h, a, r, hm => by simpa [findReplaced] using h.dups a r (by simpa [findReplaced] using hm)
  | s :: ss, pre, seen, m, hn, h, a, r, hm => by
    have ha : pre ++ s :: ss = (pre ++ [s]) ++ ss := by simp
    have lift : ∀ {a r ba br}, Dup isMut dedup pre a r ba br → Dup isMut dedup (pre ++ [s]) a r ba br :=
      fun d => { d with
        ina := List.mem_append.2 (Or.inl d.ina)
        inr := List.mem_append.2 (Or.inl d.inr) }
    cases s with
    | binding b =>
      simp only [findReplaced] at hm ⊢
      rw [ha] at hn ⊢
      have hself : Stmt.binding b ∈ pre ++ [.binding b] := by simp
      have hnot : ∀ b', .binding b' ∈ pre → b'.name ≠ b.name := by
        intro b' hb' he
        rw [List.filterMap_append, List.filterMap_append] at hn
        have := List.nodup_append.1 (List.nodup_append.1 hn).1
        exact this.2.2 _ (defines_mem hb') _ (by simp [Stmt.defines]) he
      refine found_all hn ⟨?_, ?_⟩ a r hm
      · intro k n hk
        rcases List.mem_cons.1 hk with hk | hk
        · cases hk; exact ⟨b, hself, rfl, rfl⟩
        · obtain ⟨b', h1, h2⟩ := h.seenFrom k n hk
          exact ⟨b', List.mem_append.2 (Or.inl h1), h2⟩
      · have old : ∀ a r, (a, r) ∈ m → (∃ ba br, Dup isMut dedup (pre ++ [.binding b]) a r ba br) ∧
            m.lookup r = none := fun a r hr =>
          ⟨(h.dups a r hr).1.imp fun ba => Exists.imp fun br => lift, (h.dups a r hr).2⟩
        intro a r hr
        split at hr
        · next hc =>
          rw [if_pos hc]
          simp only [Bool.and_eq_true] at hc
          split at hr
          · next prev hp =>
            obtain ⟨bp, hbp, hkp, hnp⟩ := h.seenFrom _ _ (mem_of_lookup hp)
            -- the root that is chosen
            obtain ⟨bq, hbq, hkq, hnq, hq0⟩ : ∃ bq, .binding bq ∈ pre ∧ bq.key = b.key ∧
                bq.name = (recursiveLookup m (m.length + 1) prev).getD prev ∧
                m.lookup ((recursiveLookup m (m.length + 1) prev).getD prev) = none := by
              cases hl : m.lookup prev with
              | none =>
                have : (recursiveLookup m (m.length + 1) prev).getD prev = prev := by
                  simp [recursiveLookup, hl]
                rw [this]
                exact ⟨bp, hbp, hkp, hnp, hl⟩
              | some next =>
                obtain ⟨⟨ba, br, d⟩, hd0⟩ := h.dups _ _ (mem_of_lookup hl)
                have hz : ∀ f, recursiveLookup m f next = none := by
                  intro f; cases f with
                  | zero => rfl
                  | succ f => simp [recursiveLookup, hd0]
                have : (recursiveLookup m (m.length + 1) prev).getD prev = next := by
                  simp [recursiveLookup, hl, hz]
                rw [this]
                refine ⟨br, d.inr, ?_, d.nr, hd0⟩
                have hbb : ba = bp := by
                  have hnn : (pre.filterMap Stmt.defines).Nodup := by
                    rw [List.filterMap_append, List.filterMap_append] at hn
                    exact (List.nodup_append.1 (List.nodup_append.1 hn).1).1
                  have := filterMap_unique hnn (a := .binding ba) (b := .binding bp) d.ina hbp
                    (by simp only [Stmt.defines, d.na]; rfl) (by simp only [Stmt.defines, hnp])
                  cases this; rfl
                rw [← d.key, hbb, hkp]
            have hq : (recursiveLookup m (m.length + 1) prev).getD prev ≠ b.name := by
              rw [← hnq]; exact hnot _ hbq
            rcases List.mem_cons.1 hr with hr | hr
            · cases hr
              refine ⟨⟨b, bq, hself, List.mem_append.2 (Or.inl hbq), rfl, hnq, hkq.symm, hc.1, hc.2⟩, ?_⟩
              rw [List.lookup_cons]
              simp only [beq_eq_false_iff_ne.2 hq]
              exact hq0
            · refine ⟨(old a r hr).1, ?_⟩
              obtain ⟨⟨ba, br, d⟩, hd0⟩ := h.dups _ _ hr
              have : r ≠ b.name := by rw [← d.nr]; exact hnot _ d.inr
              rw [List.lookup_cons]
              simp only [beq_eq_false_iff_ne.2 this]
              exact hd0
          · next hp =>
            exact old a r hr
        · next hc =>
          rw [if_neg hc]
          exact old a r hr
    | _ =>
      simp only [findReplaced] at hm ⊢
      rw [ha] at hn ⊢
      refine found_all hn ⟨?_, ?_⟩ a r hm
      · intro k n hk
        obtain ⟨b', h1, h2⟩ := h.seenFrom k n hk
        exact ⟨b', List.mem_append.2 (Or.inl h1), h2⟩
      · intro a r hr
        exact ⟨(h.dups a r hr).1.imp fun ba => Exists.imp fun br => lift, (h.dups a r hr).2⟩

/-- The replaced names of one round. -/
abbrev replaced (isMut : Ty → Bool) (dedup : Operator Op → Bool) (ss : List (Stmt Op Ty C Ini)) :
    List (Name × Name) := findReplaced isMut dedup ss [] []

theorem replaced_dup {isMut : Ty → Bool} {dedup : Operator Op → Bool} {ss : List (Stmt Op Ty C Ini)}
    (hn : (ss.filterMap Stmt.defines).Nodup) {a r : Name} (h : (replaced isMut dedup ss).lookup a = some r) :
    (∃ ba br, Dup isMut dedup ss a r ba br) ∧ (replaced isMut dedup ss).lookup r = none := by
  have := found_all (pre := []) (ss := ss) (seen := []) (m := []) (isMut := isMut) (dedup := dedup) (by simpa using hn)
    ⟨fun _ _ h => by simp at h, fun _ _ h => by simp at h⟩ a r (mem_of_lookup h)
  simpa using this

/-! ## One driver per wire -/

/-- Operator, operands and type of a binding that makes a mutable wire from others. -/
def mutKey (isMut : Ty → Bool) (dedup : Operator Op → Bool) : Stmt Op Ty C Ini → Option (DKey Op Ty)
  | .binding b => if isMut b.ty && dedup b.operator then some b.key else none
  | _ => none

theorem findReplaced_keeps {isMut : Ty → Bool} {dedup : Operator Op → Bool} :
    ∀ {ss : List (Stmt Op Ty C Ini)} {seen m}, findReplaced isMut dedup ss seen m = [] → m = []
  | [], _, _, h => h
  | .binding b :: ss, seen, m, h => by
    have := findReplaced_keeps (by simpa only [findReplaced] using h)
    split at this
    · split at this
      · cases this
      · exact this
    · exact this
  | .register _ :: ss, seen, m, h | .constant _ _ _ :: ss, seen, m, h | .assert _ :: ss, seen, m, h
  | .set _ _ :: ss, seen, m, h | .error :: ss, seen, m, h => findReplaced_keeps (by simpa only [findReplaced] using h)

theorem findReplaced_empty {isMut : Ty → Bool} {dedup : Operator Op → Bool} :
    ∀ {ss : List (Stmt Op Ty C Ini)} {seen}, findReplaced isMut dedup ss seen [] = [] →
    (ss.filterMap (mutKey isMut dedup)).Nodup ∧
      ∀ k n, (k, n) ∈ seen → k ∉ ss.filterMap (mutKey isMut dedup)
  | [], _, _ => by simp
  | s :: ss, seen, h => by
    cases s with
    | binding b =>
      simp only [findReplaced] at h
      by_cases hc : (isMut b.ty && dedup b.operator) = true
      · rw [if_pos hc] at h
        cases hp : seen.lookup b.key with
        | some prev => rw [hp] at h; have := findReplaced_keeps h; cases this
        | none =>
          rw [hp] at h
          obtain ⟨h1, h2⟩ := findReplaced_empty h
          have : mutKey isMut dedup (.binding b : Stmt Op Ty C Ini) = some b.key := by simp only [mutKey, hc, if_true]
          rw [List.filterMap_cons_some this]
          refine ⟨List.nodup_cons.2 ⟨h2 _ _ (List.mem_cons_self ..), h1⟩, ?_⟩
          intro k n hk hm
          rcases List.mem_cons.1 hm with rfl | hm
          · have := lookup_isSome_of_mem hk
            rw [hp] at this; cases this
          · exact h2 k n (List.mem_cons_of_mem _ hk) hm
      · rw [if_neg hc] at h
        obtain ⟨h1, h2⟩ := findReplaced_empty h
        have : mutKey isMut dedup (.binding b : Stmt Op Ty C Ini) = none := by simp only [mutKey, if_neg hc]
        rw [List.filterMap_cons_none this]
        exact ⟨h1, fun k n hk => h2 k n (List.mem_cons_of_mem _ hk)⟩
    | _ =>
      simp only [findReplaced] at h
      rw [List.filterMap_cons_none rfl]
      exact findReplaced_empty h

theorem dedupStmt_nil (s : Stmt Op Ty C Ini) : dedupStmt [] s = some s := by
  have h : (replacement []) = id := by funext n; simp [replacement]
  cases s <;> simp [dedupStmt, h]

theorem dedupRound_nil {isMut : Ty → Bool} {dedup : Operator Op → Bool} {ss : List (Stmt Op Ty C Ini)}
    (h : findReplaced isMut dedup ss [] [] = []) : dedupRound isMut dedup ss = ss := by
  rw [dedupRound, h, show dedupStmt ([] : List (Name × Name)) = (some : Stmt Op Ty C Ini → _) from funext dedupStmt_nil,
    List.filterMap_some]

/-- **C39.** After the pass no two bindings make the same mutable wire from the same operands: every
wire they drive is driven once. -/
theorem C39_one_driver (isMut : Ty → Bool) (dedup : Operator Op → Bool) (e : Entity Op Ty C Ini) :
    ((dedupUnit isMut dedup e).stmts.filterMap (mutKey isMut dedup)).Nodup := by
  have : ∀ ss : List (Stmt Op Ty C Ini), ((dedupStmts isMut dedup ss).filterMap (mutKey isMut dedup)).Nodup := by
    intro ss
    induction ss using dedupStmts.induct isMut dedup with
    | case1 ss h =>
      have h' := List.isEmpty_iff.1 h
      rw [dedupStmts, dif_pos h, dedupRound_nil h']
      exact (findReplaced_empty h').1
    | case2 ss h ih => rw [dedupStmts, dif_neg h]; exact ih
  exact this e.stmts

/-! ## Values -/

/-- Bindings of mutable wires fix the value of the wire, in both directions, from their operands.  Two
bindings with the same operands drive the same wires, so that this is what it means that they do not
conflict. -/
def Determined {V : Type} (isMut : Ty → Bool) (dedup : Operator Op → Bool) (I : Interp Op Ty C Ini V) : Prop :=
  ∀ op ty r r' os, isMut ty = true → dedup (.other op) = true → I.op op ty r os → I.op op ty r' os → r = r'

/-- Names of the same mutable wire: made by the same operator and type from the same wires. -/
inductive Twin (isMut : Ty → Bool) (dedup : Operator Op → Bool) (ss : List (Stmt Op Ty C Ini)) :
    Name → Name → Prop where
  | refl (n) : Twin isMut dedup ss n n
  | symm {a b} : Twin isMut dedup ss a b → Twin isMut dedup ss b a
  | trans {a b c} : Twin isMut dedup ss a b → Twin isMut dedup ss b c → Twin isMut dedup ss a c
  | bind (b b' : Binding Op Ty) : .binding b ∈ ss → .binding b' ∈ ss → b.operator = b'.operator →
      b.ty = b'.ty → isMut b.ty = true → dedup b.operator = true →
      b.operands.length = b'.operands.length →
      (∀ (i : Nat) (o o' : Name), b.operands[i]? = some o → b'.operands[i]? = some o' → Twin isMut dedup ss o o') →
      Twin isMut dedup ss b.name b'.name

/-- What lowering guarantees: every name is defined once, an alias has an operand, and mutable wires occur
only as operands and targets of `set`. -/
structure DedupOk (isMut : Ty → Bool) (ss : List (Stmt Op Ty C Ini)) : Prop where
  nodup : (ss.filterMap Stmt.defines).Nodup
  aliases : ∀ n os t, .binding ⟨n, .alias, os, t⟩ ∈ ss → os ≠ []
  uses : ∀ b : Binding Op Ty, .binding b ∈ ss → isMut b.ty = true → ∀ s ∈ ss, b.name ∈ s.names →
    (∃ b', s = .binding b') ∨ ∃ t x, s = .set t x ∧ x ≠ b.name

/-- If a mutable wire is set, it is set in the same way under all its names. -/
def SetsAgree (isMut : Ty → Bool) (dedup : Operator Op → Bool) (ss : List (Stmt Op Ty C Ini)) : Prop :=
  ∀ a b x, Twin isMut dedup ss a b → .set a x ∈ ss → .set b x ∈ ss

section Round
variable {isMut : Ty → Bool} {dedup : Operator Op → Bool} {ss : List (Stmt Op Ty C Ini)}

theorem mem_round {s' : Stmt Op Ty C Ini} :
    s' ∈ dedupRound isMut dedup ss ↔ ∃ s ∈ ss, dedupStmt (replaced isMut dedup ss) s = some s' :=
  List.mem_filterMap

theorem round_binding {b' : Binding Op Ty} (h : .binding b' ∈ dedupRound isMut dedup ss) :
    ∃ b, .binding b ∈ ss ∧ (replaced isMut dedup ss).lookup b.name = none ∧
      b' = { b with operands := b.operands.map (replacement (replaced isMut dedup ss)) } := by
  obtain ⟨s, hs, h⟩ := mem_round.1 h
  cases s with
  | binding b =>
    simp only [dedupStmt] at h
    split at h
    · cases h
    · next hn => cases h; exact ⟨b, hs, Option.not_isSome_iff_eq_none.1 hn, rfl⟩
  | set t x => simp only [dedupStmt] at h; split at h <;> cases h
  | _ => cases h

theorem binding_round {b : Binding Op Ty} (h : .binding b ∈ ss) (hn : (replaced isMut dedup ss).lookup b.name = none) :
    .binding { b with operands := b.operands.map (replacement (replaced isMut dedup ss)) } ∈
      dedupRound isMut dedup ss :=
  mem_round.2 ⟨_, h, by simp [dedupStmt, hn]⟩

theorem round_set {t x : Name} :
    .set t x ∈ dedupRound isMut dedup ss ↔ .set t x ∈ ss ∧ (replaced isMut dedup ss).lookup t = none := by
  rw [mem_round]
  constructor
  · rintro ⟨s, hs, h⟩
    cases s with
    | set t' x' =>
      simp only [dedupStmt] at h
      split at h
      · cases h
      · next hn => cases h; exact ⟨hs, Option.not_isSome_iff_eq_none.1 hn⟩
    | binding b => simp only [dedupStmt] at h; split at h <;> cases h
    | _ => cases h
  · rintro ⟨h1, h2⟩
    exact ⟨_, h1, by simp [dedupStmt, h2]⟩

/-- The statements that are neither bindings nor `set`. -/
def Stmt.other : Stmt Op Ty C Ini → Prop
  | .binding _ => False
  | .set _ _ => False
  | _ => True

theorem round_other {s : Stmt Op Ty C Ini} (h : s.other) : s ∈ dedupRound isMut dedup ss ↔ s ∈ ss := by
  rw [mem_round]
  constructor
  · rintro ⟨s', hs, h'⟩
    cases s' with
    | binding b => simp only [dedupStmt] at h'; split at h' <;> cases h'; cases h
    | set t' x' => simp only [dedupStmt] at h'; split at h' <;> cases h'; cases h
    | _ => cases h'; exact hs
  · intro hs
    refine ⟨s, hs, ?_⟩
    cases s <;> first | rfl | cases h

theorem round_nodup (h : (ss.filterMap Stmt.defines).Nodup) :
    ((dedupRound isMut dedup ss).filterMap Stmt.defines).Nodup := by
  refine List.Sublist.nodup ?_ h
  have : ∀ l : List (Stmt Op Ty C Ini), List.Sublist
      ((l.filterMap (dedupStmt (replaced isMut dedup ss))).filterMap Stmt.defines) (l.filterMap Stmt.defines) := by
    intro l
    induction l with
    | nil => exact .slnil
    | cons s l ih =>
      cases hs : dedupStmt (replaced isMut dedup ss) s with
      | none =>
        rw [List.filterMap_cons_none hs]
        cases hd : s.defines with
        | none => rw [List.filterMap_cons_none hd]; exact ih
        | some n => rw [List.filterMap_cons_some hd]; exact ih.cons _
      | some s' =>
        rw [List.filterMap_cons_some hs]
        have hsame : s'.defines = s.defines := by
          cases s with
          | binding b => simp only [dedupStmt] at hs; split at hs <;> cases hs; rfl
          | set t x => simp only [dedupStmt] at hs; split at hs <;> cases hs; rfl
          | _ => cases hs; rfl
        cases hd : s.defines with
        | none => rw [List.filterMap_cons_none hd, List.filterMap_cons_none (hsame.trans hd)]; exact ih
        | some n =>
          rw [List.filterMap_cons_some hd, List.filterMap_cons_some (hsame.trans hd)]
          exact ih.cons_cons _
  exact this ss

theorem binding_unique (hn : (ss.filterMap Stmt.defines).Nodup) {b b' : Binding Op Ty} (h : .binding b ∈ ss)
    (h' : .binding b' ∈ ss) (he : b.name = b'.name) : b = b' := by
  have := filterMap_unique hn (a := .binding b) (b := .binding b') h h' (by simp only [Stmt.defines]; rfl)
    (by simp only [Stmt.defines, he])
  cases this; rfl

theorem twin_replacement (hn : (ss.filterMap Stmt.defines).Nodup) (n : Name) :
    Twin isMut dedup ss n (replacement (replaced isMut dedup ss) n) := by
  unfold replacement
  cases h : (replaced isMut dedup ss).lookup n with
  | none => exact .refl n
  | some r =>
    obtain ⟨⟨ba, br, d⟩, _⟩ := replaced_dup hn h
    have hk := d.key
    simp only [Binding.key, Prod.mk.injEq] at hk
    rw [Option.getD_some, ← d.na, ← d.nr]
    refine .bind ba br d.ina d.inr hk.1 hk.2.2 d.isMut d.dedup (by rw [hk.2.1]) ?_
    intro i o o' h1 h2
    rw [hk.2.1] at h1
    rw [h1] at h2; cases h2
    exact .refl _

theorem twin_round (hn : (ss.filterMap Stmt.defines).Nodup) {a b : Name}
    (h : Twin isMut dedup (dedupRound isMut dedup ss) a b) : Twin isMut dedup ss a b := by
  induction h with
  | refl n => exact .refl n
  | symm _ ih => exact ih.symm
  | trans _ _ ih1 ih2 => exact ih1.trans ih2
  | bind b b' hb hb' ho ht hm hd hl _ ih =>
    obtain ⟨c, hc, _, rfl⟩ := round_binding hb
    obtain ⟨c', hc', _, rfl⟩ := round_binding hb'
    refine .bind c c' hc hc' ho ht hm hd (by simpa using hl) ?_
    intro i o o' h1 h2
    refine (twin_replacement hn o).trans (.trans (ih i _ _ ?_ ?_) (twin_replacement hn o').symm)
    · simp [List.getElem?_map, h1]
    · simp [List.getElem?_map, h2]

theorem twin_bound {a b : Name} (h : Twin isMut dedup ss a b) :
    a = b ∨ (∃ c : Binding Op Ty, .binding c ∈ ss ∧ c.name = a) ∧ ∃ c : Binding Op Ty, .binding c ∈ ss ∧ c.name = b := by
  induction h with
  | refl n => exact Or.inl rfl
  | symm _ ih => exact ih.imp Eq.symm And.symm
  | trans _ _ ih1 ih2 =>
    rcases ih1 with rfl | h1
    · exact ih2
    · rcases ih2 with rfl | h2
      · exact Or.inr h1
      · exact Or.inr ⟨h1.1, h2.2⟩
  | bind b b' hb hb' => exact Or.inr ⟨⟨b, hb, rfl⟩, ⟨b', hb', rfl⟩⟩

theorem sets_round (hn : (ss.filterMap Stmt.defines).Nodup) (h : SetsAgree isMut dedup ss) :
    SetsAgree isMut dedup (dedupRound isMut dedup ss) := by
  intro a b x ht hs
  rcases twin_bound ht with rfl | ⟨_, c, hc, rfl⟩
  · exact hs
  · obtain ⟨c0, _, hc1, rfl⟩ := round_binding hc
    exact round_set.2 ⟨h a _ x (twin_round hn ht) (round_set.1 hs).1, hc1⟩

theorem ok_round (h : DedupOk isMut ss) : DedupOk isMut (dedupRound isMut dedup ss) where
  nodup := round_nodup h.nodup
  aliases n os t hb := by
    obtain ⟨b, hb, _, he⟩ := round_binding hb
    rcases b with ⟨bn, bo, bos, bt⟩
    simp only [Binding.mk.injEq] at he
    obtain ⟨rfl, rfl, rfl, rfl⟩ := he
    have := h.aliases _ _ _ hb
    simpa using this
  uses b hb hm s hs hu := by
    obtain ⟨b0, hb0, _, rfl⟩ := round_binding hb
    cases s with
    | binding b' => exact Or.inl ⟨b', rfl⟩
    | set t x => exact h.uses b0 hb0 hm _ (round_set.1 hs).1 hu
    | register r => exact h.uses b0 hb0 hm _ ((round_other (s := (.register r)) trivial).1 hs) hu
    | constant n t c => exact h.uses b0 hb0 hm _ ((round_other (s := (.constant n t c)) trivial).1 hs) hu
    | assert n => exact h.uses b0 hb0 hm _ ((round_other (s := (.assert n)) trivial).1 hs) hu
    | error => exact h.uses b0 hb0 hm _ ((round_other (s := .error) trivial).1 hs) hu

variable {V : Type} {I : Interp Op Ty C Ini V}

theorem value_replacement (hok : DedupOk isMut ss) (hd : Determined isMut dedup I) {v : Name → V}
    (hs : ∀ s ∈ ss, s.Sat I v) (n : Name) : v (replacement (replaced isMut dedup ss) n) = v n := by
  unfold replacement
  cases h : (replaced isMut dedup ss).lookup n with
  | none => rfl
  | some r =>
    obtain ⟨⟨ba, br, d⟩, _⟩ := replaced_dup hok.nodup h
    rw [Option.getD_some, ← d.na, ← d.nr]
    have h1 := hs _ d.ina
    have h2 := hs _ d.inr
    have hk := d.key
    have hm := d.isMut
    have hdd := d.dedup
    have hina := d.ina
    rcases ba with ⟨na, oa, osa, ta⟩
    rcases br with ⟨nr, or, osr, tr⟩
    simp only [Binding.key, Prod.mk.injEq] at hk
    obtain ⟨rfl, rfl, rfl⟩ := hk
    cases oa with
    | other op => exact hd op ta _ _ _ hm hdd h2 h1
    | alias =>
      have := hok.aliases _ _ _ hina
      cases osa with
      | nil => exact (this rfl).elim
      | cons o os =>
        simp only [Stmt.Sat, List.head?_cons, Option.some.injEq, forall_eq'] at h1 h2
        rw [h1, h2]

theorem round_sound (hok : DedupOk isMut ss) (hd : Determined isMut dedup I) {v : Name → V}
    (hs : ∀ s ∈ ss, s.Sat I v) : ∀ s ∈ dedupRound isMut dedup ss, s.Sat I v := by
  intro s h
  have hv := value_replacement hok hd hs
  cases s with
  | binding b =>
    obtain ⟨b0, hb0, _, rfl⟩ := round_binding h
    have := hs _ hb0
    rcases b0 with ⟨n, op, os, ty⟩
    cases op with
    | alias =>
      simp only [Stmt.Sat, List.head?_map, Option.map_eq_some_iff] at this ⊢
      rintro _ ⟨o, ho, rfl⟩
      rw [hv]; exact this o ho
    | other op =>
      simp only [Stmt.Sat, List.map_map] at this ⊢
      rw [show v ∘ replacement (replaced isMut dedup ss) = v from funext hv]
      exact this
  | set t x => exact hs _ (round_set.1 h).1
  | register r => exact hs _ ((round_other (s := (.register r)) trivial).1 h)
  | constant n t c => exact hs _ ((round_other (s := (.constant n t c)) trivial).1 h)
  | assert n => exact hs _ ((round_other (s := (.assert n)) trivial).1 h)
  | error => exact hs _ ((round_other (s := .error) trivial).1 h)

theorem round_complete (hok : DedupOk isMut ss) (hset : SetsAgree isMut dedup ss) {v : Name → V}
    (hs : ∀ s ∈ dedupRound isMut dedup ss, s.Sat I v) :
    ∀ s ∈ ss, s.Sat I (fun n => v (replacement (replaced isMut dedup ss) n)) := by
  intro s h
  -- names that are not replaced
  have fix : ∀ n, (replaced isMut dedup ss).lookup n = none → replacement (replaced isMut dedup ss) n = n := by
    intro n hn; simp [replacement, hn]
  have others : s.other → s.Sat I (fun n => v (replacement (replaced isMut dedup ss) n)) := by
    intro ho
    refine (Stmt.sat_congr I s fun n hn => ?_).1 (hs s ((round_other ho).2 h))
    rw [fix]
    cases hl : (replaced isMut dedup ss).lookup n with
    | none => rfl
    | some r =>
      obtain ⟨⟨ba, br, d⟩, _⟩ := replaced_dup hok.nodup hl
      rcases hok.uses ba d.ina d.isMut s h (by rw [d.na]; exact hn) with ⟨b', rfl⟩ | ⟨t, x, rfl, _⟩ <;> cases ho
  have kept : ∀ b : Binding Op Ty, .binding b ∈ ss → (replaced isMut dedup ss).lookup b.name = none →
      (Stmt.binding b : Stmt Op Ty C Ini).Sat I (fun n => v (replacement (replaced isMut dedup ss) n)) := by
    intro b hb hn
    have := hs _ (binding_round hb hn)
    rcases b with ⟨n, op, os, ty⟩
    cases op with
    | alias =>
      simp only [Stmt.Sat, List.head?_map, Option.map_eq_some_iff] at this ⊢
      intro o ho
      rw [fix n hn]
      exact this _ ⟨o, ho, rfl⟩
    | other op =>
      simp only [Stmt.Sat, List.map_map] at this ⊢
      rw [fix n hn]
      exact this
  cases s with
  | binding b =>
    cases hl : (replaced isMut dedup ss).lookup b.name with
    | none => exact kept b h hl
    | some r =>
      obtain ⟨⟨ba, br, d⟩, hr⟩ := replaced_dup hok.nodup hl
      obtain rfl := binding_unique hok.nodup d.ina h d.na
      have := kept br d.inr (by rw [d.nr]; exact hr)
      have hrep : replacement (replaced isMut dedup ss) ba.name = replacement (replaced isMut dedup ss) br.name := by
        rw [d.nr, fix r hr, replacement, hl]; rfl
      have hk := d.key
      rcases ba with ⟨na, oa, osa, ta⟩
      rcases br with ⟨nr, or, osr, tr⟩
      simp only [Binding.key, Prod.mk.injEq] at hk
      obtain ⟨rfl, rfl, rfl⟩ := hk
      simp only at hrep
      cases oa with
      | alias => simp only [Stmt.Sat, hrep] at this ⊢; exact this
      | other op => simp only [Stmt.Sat, hrep] at this ⊢; exact this
  | set t x =>
    have hx : replacement (replaced isMut dedup ss) x = x := by
      apply fix
      cases hl : (replaced isMut dedup ss).lookup x with
      | none => rfl
      | some r =>
        obtain ⟨⟨ba, br, d⟩, _⟩ := replaced_dup hok.nodup hl
        rcases hok.uses ba d.ina d.isMut _ h (by rw [d.na]; simp [Stmt.names]) with ⟨b', hb'⟩ | ⟨t', x', hx', hne⟩
        · cases hb'
        · cases hx'; exact (hne d.na.symm).elim
    simp only [Stmt.Sat, hx]
    have h1 := hset t _ x (twin_replacement hok.nodup t) h
    refine hs _ (round_set.2 ⟨h1, ?_⟩)
    cases hl : (replaced isMut dedup ss).lookup t with
    | none => rw [fix t hl]; exact hl
    | some r => simpa [replacement, hl] using (replaced_dup hok.nodup hl).2
  | _ => exact others trivial

end Round

/-- **C39 (partial).** The pass keeps exactly the behaviours of the unit: what satisfies the unit
satisfies the result, and what satisfies the result gives, by giving the removed names the value of the
wire that is kept, a behaviour of the unit with the same values everywhere else.
Missing: wires that are `set` under one of their names only; see `C39_counterexample_set`. -/
theorem C39_values_partial {V : Type} (I : Interp Op Ty C Ini V) (isMut : Ty → Bool) (dedup : Operator Op → Bool)
    (hd : Determined isMut dedup I) (e : Entity Op Ty C Ini) (hok : DedupOk isMut e.stmts)
    (hset : SetsAgree isMut dedup e.stmts) :
    (∀ v, e.Sat I v → (dedupUnit isMut dedup e).Sat I v) ∧
    ∀ v', (dedupUnit isMut dedup e).Sat I v' → ∃ v, e.Sat I v ∧
      ∀ n, (∀ b : Binding Op Ty, .binding b ∈ e.stmts → isMut b.ty = true → b.name ≠ n) ∨
        n ∈ (dedupUnit isMut dedup e).defs → v n = v' n := by
  simp only [Entity.Sat, dedupUnit, Entity.defs]
  generalize e.stmts = ss at hok hset
  induction ss using dedupStmts.induct isMut dedup with
  | case1 ss h =>
    rw [dedupStmts, dif_pos h, dedupRound_nil (List.isEmpty_iff.1 h)]
    exact ⟨fun v hv => hv, fun v hv => ⟨v, hv, fun _ _ => rfl⟩⟩
  | case2 ss h ih =>
    rw [dedupStmts, dif_neg h]
    obtain ⟨h1, h2⟩ := ih (ok_round hok) (sets_round hok.nodup hset)
    refine ⟨fun v hv => h1 v (round_sound hok hd hv), fun v' hv' => ?_⟩
    obtain ⟨v, hv, ha⟩ := h2 v' hv'
    refine ⟨_, round_complete hok hset hv, ?_⟩
    intro n hn
    have hnot : (replaced isMut dedup ss).lookup n = none := by
      cases hl : (replaced isMut dedup ss).lookup n with
      | none => rfl
      | some r =>
        obtain ⟨⟨ba, br, d⟩, _⟩ := replaced_dup hok.nodup hl
        rcases hn with hn | hn
        · exact (hn ba d.ina d.isMut d.na).elim
        · -- names defined in the result are defined in the round
          have hsub : ∀ (l : List (Stmt Op Ty C Ini)) (x : Name),
              x ∈ (dedupStmts isMut dedup l).filterMap Stmt.defines → x ∈ l.filterMap Stmt.defines := by
            intro l x
            have one : ∀ (l : List (Stmt Op Ty C Ini)), x ∈ (dedupRound isMut dedup l).filterMap Stmt.defines →
                x ∈ l.filterMap Stmt.defines := by
              intro l hx
              obtain ⟨s', hs', hx⟩ := List.mem_filterMap.1 hx
              obtain ⟨s, hs, he⟩ := mem_round.1 hs'
              refine List.mem_filterMap.2 ⟨s, hs, ?_⟩
              cases s with
              | binding b => simp only [dedupStmt] at he; split at he <;> cases he; exact hx
              | set t y => simp only [dedupStmt] at he; split at he <;> cases he; exact hx
              | _ => cases he; exact hx
            induction l using dedupStmts.induct isMut dedup with
            | case1 l h => rw [dedupStmts, dif_pos h]; exact one l
            | case2 l h ih => rw [dedupStmts, dif_neg h]; exact fun hx => one l (ih hx)
          obtain ⟨s', hs', hx⟩ := List.mem_filterMap.1 (hsub _ _ hn)
          obtain ⟨s, hs, he⟩ := mem_round.1 hs'
          have hsd : s.defines = some n := by
            cases s with
            | binding b => simp only [dedupStmt] at he; split at he <;> cases he; exact hx
            | set t y => simp only [dedupStmt] at he; split at he <;> cases he; exact hx
            | _ => cases he; exact hx
          have hsb : s = .binding ba := filterMap_unique hok.nodup hs d.ina hsd (by simp [Stmt.defines, d.na])
          subst hsb
          simp only [dedupStmt, d.na, hl, Option.isSome_some, if_true] at he
          cases he
    simp only [replacement, hnot, Option.getD_none]
    refine ha n (hn.imp ?_ id)
    intro hn b hb hm
    obtain ⟨b0, hb0, _, rfl⟩ := round_binding hb
    exact hn b0 hb0 hm

/-! ## Examples

A unit with one wire; a wire has a value, and a tuple of wires has one per member. -/

deriving instance DecidableEq for Codegen.Op

/-- Equality of types is decidable. -/
noncomputable local instance : DecidableEq Codegen.MTy := Classical.typeDecidableEq _

/-- Backward parts as lists of bits: member `i` of a tuple is wire `i`. -/
def wires : Interp Codegen.Op Codegen.MTy Unit Unit (List Bool) where
  op op _ r os := match op with
    | .indexTuple i => r = ((os.head?.bind (·[i]?)).map fun b => [b]).getD []
    | _ => True
  reg _ _ _ _ _ _ := True
  const _ _ _ := True
  assert _ := True
  set t x := t = x

/-- `backward_size() != 0`. -/
def mutTy (t : Codegen.MTy) : Bool := t.backSize != 0

/-- Only tuple indexing is deduplicated in the examples below. -/
def indexOnly : Operator Codegen.Op → Bool
  | .other (.indexTuple _) => true
  | _ => false

/-- **C39, counterexample.** `let x = inst read_mut_wire(p.0); set p.0 = a;`: the wire `p.0` is made
twice, under the names `e0` and `e1`, and `e1` is set.  The pass replaces `e1` by `e0` and drops the
statement that sets it: in the unit `p.0` is `a`, in the result it can be anything. -/
theorem C39_counterexample_set :
    let p := Name.named 0 "p"; let a := Name.named 1 "a"
    let w : Codegen.MTy := .backward .bool
    let e : Entity Codegen.Op Codegen.MTy Unit Unit := ⟨"t", [⟨"p", p, .tuple [w], false⟩, ⟨"a", a, .bool, false⟩],
      .expr 2, .bool,
      [.binding ⟨.expr 0, .other (.indexTuple 0), [p], w⟩,
       .binding ⟨.expr 1, .other (.indexTuple 0), [p], w⟩,
       .set (.expr 1) a]⟩
    DedupOk mutTy e.stmts ∧
    (∀ v, e.Sat wires v → (v p)[0]? = (v a)[0]?) ∧
    ∃ v, (dedupUnit mutTy opNeedsDedup e).Sat wires v ∧ v p = [true] ∧ v a = [false] := by
  intro p a w e
  have hd : (dedupUnit mutTy opNeedsDedup e).stmts = [.binding ⟨.expr 0, .other (.indexTuple 0), [p], w⟩] := by
    have hw : mutTy w = true := by simp [mutTy, w, Codegen.MTy.backSize, Codegen.MTy.size]
    have hr : findReplaced mutTy opNeedsDedup e.stmts [] [] = [(.expr 1, .expr 0)] := by
      simp [findReplaced, e, hw, opNeedsDedup, Binding.key, recursiveLookup]
    have hround : dedupRound mutTy opNeedsDedup e.stmts = [.binding ⟨.expr 0, .other (.indexTuple 0), [p], w⟩] := by
      rw [dedupRound, hr]
      rfl
    have hr2 : findReplaced mutTy opNeedsDedup
        ([.binding ⟨.expr 0, .other (.indexTuple 0), [p], w⟩] : List (Stmt _ _ Unit Unit)) [] [] = [] := by
      simp [findReplaced]
    show dedupStmts mutTy opNeedsDedup e.stmts = _
    rw [dedupStmts, dif_neg (by rw [hr]; simp), hround, dedupStmts, dif_pos (by rw [hr2]; rfl), dedupRound_nil hr2]
  refine ⟨⟨?_, ?_, ?_⟩, ?_, ?_⟩
  · show [Name.expr 0, Name.expr 1].Nodup
    simp
  · intro n os t h
    simp [e] at h
  · intro b hb _ s hs hn
    simp only [e, List.mem_cons, List.not_mem_nil, or_false, Stmt.binding.injEq, reduceCtorEq] at hb hs
    rcases hs with rfl | rfl | rfl
    · exact Or.inl ⟨_, rfl⟩
    · exact Or.inl ⟨_, rfl⟩
    · exact Or.inr ⟨_, _, rfl, by rcases hb with rfl | rfl <;> simp [a]⟩
  · intro v hv
    have h1 := hv (.binding ⟨.expr 1, .other (.indexTuple 0), [p], w⟩) (by simp [e])
    have h2 := hv (.set (.expr 1) a) (by simp [e])
    simp only [Stmt.Sat, wires, List.map_cons, List.head?_cons, Option.bind_some] at h1 h2
    rw [← h2, h1]
    cases (v p)[0]? <;> rfl
  · refine ⟨fun n => if n = a then [false] else [true], ?_, by simp [p, a], by simp⟩
    intro s hs
    rw [hd] at hs
    simp only [List.mem_singleton] at hs
    subst hs
    simp [Stmt.Sat, wires, p, a]

/-- `set p.0 = a; let x = inst read_mut_wire(p.0.…)` under both names, and `Determined` holds. -/
example :
    let p := Name.named 0 "p"; let a := Name.named 1 "a"
    let w : Codegen.MTy := .backward .bool
    let ss : List (Stmt Codegen.Op Codegen.MTy Unit Unit) :=
      [.binding ⟨.expr 0, .other (.indexTuple 0), [p], w⟩,
       .binding ⟨.expr 1, .other (.indexTuple 0), [p], w⟩,
       .set (.expr 0) a, .set (.expr 1) a]
    Determined mutTy indexOnly wires ∧ DedupOk mutTy ss ∧ SetsAgree mutTy indexOnly ss ∧
      dedupStmts mutTy indexOnly ss ≠ ss := by
  intro p a w ss
  have hw : mutTy w = true := by simp [mutTy, w, Codegen.MTy.backSize, Codegen.MTy.size]
  refine ⟨?_, ⟨?_, ?_, ?_⟩, ?_, ?_⟩
  · intro op ty r r' os _ hd h1 h2
    cases op <;> simp [indexOnly] at hd
    simp only [wires] at h1 h2
    rw [h1, h2]
  · show [Name.expr 0, Name.expr 1].Nodup
    simp
  · intro n os t h
    simp [ss] at h
  · intro b hb _ s hs hn
    simp only [ss, List.mem_cons, List.not_mem_nil, or_false, Stmt.binding.injEq, reduceCtorEq] at hb hs
    rcases hs with rfl | rfl | rfl | rfl
    · exact Or.inl ⟨_, rfl⟩
    · exact Or.inl ⟨_, rfl⟩
    · exact Or.inr ⟨_, _, rfl, by rcases hb with rfl | rfl <;> simp [a]⟩
    · exact Or.inr ⟨_, _, rfl, by rcases hb with rfl | rfl <;> simp [a]⟩
  · intro n n' x ht hs
    simp only [ss, List.mem_cons, List.not_mem_nil, or_false, Stmt.set.injEq, reduceCtorEq, false_or] at hs ⊢
    have hb := twin_bound ht
    have : n' = n ∨ n' = .expr 0 ∨ n' = .expr 1 := by
      rcases hb with rfl | ⟨_, c, hc, rfl⟩
      · exact Or.inl rfl
      · simp only [ss, List.mem_cons, List.not_mem_nil, or_false, Stmt.binding.injEq, reduceCtorEq] at hc
        rcases hc with rfl | rfl
        · exact Or.inr (Or.inl rfl)
        · exact Or.inr (Or.inr rfl)
    rcases hs with ⟨rfl, rfl⟩ | ⟨rfl, rfl⟩ <;> rcases this with rfl | rfl | rfl <;> simp
  · intro h
    have := C39_one_driver mutTy indexOnly (⟨"t", [], p, w, ss⟩ : Entity _ _ Unit Unit)
    simp only [dedupUnit, h] at this
    simp [ss, mutKey, hw, indexOnly, Binding.key] at this

end Spade.Mir

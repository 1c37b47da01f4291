import Verif.Mono.Model

/-
The invariant of the monomorphisation work list and its preservation by every atomic action.
-/

namespace Spade.Mono

open Spec

variable {P : Type} [DecidableEq P]

/-- The item the main thread has popped but not spawned. -/
def MainPc.held : MainPc P → List (Item P)
  | .spawn i => [i]
  | _ => []

/-- Does the main thread hold the lock between steps? -/
def MainPc.adding : MainPc P → Nat
  | .initAdding _ => 1
  | _ => 0

/-- Has the job not decremented the counter? -/
def Job.active (j : Job P) : Nat :=
  match j.pc with
  | .finishing => 0
  | _ => 1

/-- Does the job hold the lock between steps? -/
def Job.adding (j : Job P) : Nat :=
  match j.pc with
  | .adding _ => 1
  | _ => 0

/-- All items, wherever they are. -/
def allItems (s : State P) : List (Item P) :=
  s.queue ++ (s.main.held ++ (s.jobs.map (·.item) ++ s.results))

/-- The entry of the translation table for an item. -/
def Item.entry (i : Item P) : Key P × Nat := (i.key, i.name)

/-- The requests of a job that have been made are in the table. -/
def JobOk (pg : Prog P) (tr : List (Key P × Nat)) (j : Job P) : Prop :=
  match j.pc with
  | .running todo => ∃ pre, pg.uses j.item.key = pre ++ todo ∧ ∀ k ∈ pre, k ∈ tr.map (·.1)
  | .adding todo => ∃ pre, pg.uses j.item.key = pre ++ todo ∧ ∀ k ∈ pre, k ∈ tr.map (·.1)
  | .finishing => ∀ k ∈ pg.uses j.item.key, k ∈ tr.map (·.1)

/-- The roots requested so far are in the table. -/
def MainOk (pg : Prog P) (tr : List (Key P × Nat)) : MainPc P → Prop
  | .init todo => ∃ pre, pg.roots = pre ++ todo ∧ ∀ r ∈ pre, (⟨r, []⟩ : Key P) ∈ tr.map (·.1)
  | .initAdding todo => ∃ pre, pg.roots = pre ++ todo ∧ ∀ r ∈ pre, (⟨r, []⟩ : Key P) ∈ tr.map (·.1)
  | _ => ∀ r ∈ pg.roots, (⟨r, []⟩ : Key P) ∈ tr.map (·.1)

structure Inv (pg : Prog P) (s : State P) : Prop where
  items : List.Perm ((allItems s).map Item.entry) s.translation
  keys : (s.translation.map (·.1)).Nodup
  names : (s.translation.map (·.2)).Nodup
  nameOk : ∀ e ∈ s.translation,
    (e.1 = ⟨e.2, []⟩ ∧ e.2 ∈ pg.roots) ∨ (pg.firstId ≤ e.2 ∧ e.2 < s.nextId)
  idOk : pg.firstId ≤ s.nextId
  logOk : ∀ e ∈ s.log, e ∈ s.translation
  requested : ∀ k ∈ s.translation.map (·.1), Requested pg k
  lock : s.main.adding + (s.jobs.map Job.adding).sum = if s.lockHeld then 1 else 0
  lockQueue : s.lockHeld = true → s.queue ≠ []
  count : s.remaining + (if s.lockHeld then 1 else 0)
    = s.queue.length + s.main.held.length + (s.jobs.map Job.active).sum
  jobsOk : ∀ j ∈ s.jobs, JobOk pg s.translation j
  mainOk : MainOk pg s.translation s.main
  resultsOk : ∀ i ∈ s.results, ∀ k ∈ pg.uses i.key, k ∈ s.translation.map (·.1)
  doneOk : s.main = .done → s.queue = [] ∧ (s.jobs.map Job.active).sum = 0

theorem lookup_none {tr : List (Key P × Nat)} {k : Key P} (h : lookup tr k = none) :
    k ∉ tr.map (·.1) := by
  simp only [lookup, Option.map_eq_none_iff, List.find?_eq_none, decide_eq_true_eq] at h
  simp only [List.mem_map, not_exists, not_and]
  intro e he
  exact h e he

theorem lookup_some {tr : List (Key P × Nat)} {k : Key P} {n : Nat} (h : lookup tr k = some n) :
    (k, n) ∈ tr := by
  simp only [lookup, Option.map_eq_some_iff] at h
  obtain ⟨e, he, rfl⟩ := h
  have h1 := List.find?_some he
  have h2 := List.mem_of_find?_eq_some he
  simp only [decide_eq_true_eq] at h1
  rw [← h1]
  exact h2

theorem JobOk.mono {pg : Prog P} {tr tr' : List (Key P × Nat)} {j : Job P}
    (hs : ∀ k ∈ tr.map (·.1), k ∈ tr'.map (·.1)) (h : JobOk pg tr j) : JobOk pg tr' j := by
  obtain ⟨i, pc⟩ := j
  cases pc with
  | running todo =>
    obtain ⟨pre, h1, h2⟩ := h
    exact ⟨pre, h1, fun k hk => hs k (h2 k hk)⟩
  | adding todo =>
    obtain ⟨pre, h1, h2⟩ := h
    exact ⟨pre, h1, fun k hk => hs k (h2 k hk)⟩
  | finishing => exact fun k hk => hs k (h k hk)

theorem MainOk.mono {pg : Prog P} {tr tr' : List (Key P × Nat)} {m : MainPc P}
    (hs : ∀ k ∈ tr.map (·.1), k ∈ tr'.map (·.1)) (h : MainOk pg tr m) : MainOk pg tr' m := by
  cases m with
  | init todo =>
    obtain ⟨pre, h1, h2⟩ := h
    exact ⟨pre, h1, fun k hk => hs _ (h2 k hk)⟩
  | initAdding todo =>
    obtain ⟨pre, h1, h2⟩ := h
    exact ⟨pre, h1, fun k hk => hs _ (h2 k hk)⟩
  | _ => exact fun k hk => hs _ (h k hk)

theorem inv_start (pg : Prog P) : Inv pg (start pg) where
  items := by simp [start, allItems, MainPc.held]
  keys := by simp [start]
  names := by simp [start]
  nameOk := by simp [start]
  idOk := Nat.le_refl _
  logOk := by simp [start]
  requested := by simp [start]
  lock := by simp [start, MainPc.adding]
  lockQueue := by simp [start]
  count := by simp [start, MainPc.held]
  jobsOk := by simp [start]
  mainOk := ⟨[], rfl, by simp⟩
  resultsOk := by simp [start]
  doneOk := by simp [start]

/-- The parts of the invariant that adding a new entry to the table preserves. -/
theorem request_new {pg : Prog P} (hid : ∀ r ∈ pg.roots, r < pg.firstId) {s : State P}
    (h : Inv pg s) {k : Key P} (hk : k ∉ s.translation.map (·.1)) {n n' : Nat}
    (hn : (k = ⟨n, []⟩ ∧ n ∈ pg.roots ∧ n' = s.nextId) ∨ (n = s.nextId ∧ n' = s.nextId + 1)) :
    (n ∉ s.translation.map (·.2)) ∧
    (∀ e ∈ (k, n) :: s.translation,
      (e.1 = ⟨e.2, []⟩ ∧ e.2 ∈ pg.roots) ∨ (pg.firstId ≤ e.2 ∧ e.2 < n')) ∧
    pg.firstId ≤ n' := by
  have hle := h.idOk
  refine ⟨fun hmem => ?_, fun e he => ?_, ?_⟩
  · obtain ⟨e, he, rfl⟩ := List.mem_map.1 hmem
    rcases h.nameOk e he with h1 | h1 <;> rcases hn with h2 | h2
    · apply hk
      rw [h2.1, ← h1.1]
      exact List.mem_map.2 ⟨e, he, rfl⟩
    · have := hid _ h1.2
      omega
    · have := hid _ h2.2.1
      omega
    · omega
  · rcases List.mem_cons.1 he with rfl | he
    · rcases hn with h2 | h2
      · exact Or.inl ⟨h2.1, h2.2.1⟩
      · exact Or.inr ⟨by simp only; omega, by simp only; omega⟩
    · rcases h.nameOk e he with h1 | h1
      · exact Or.inl h1
      · exact Or.inr ⟨h1.1, by rcases hn with h2 | h2 <;> omega⟩
  · rcases hn with h2 | h2 <;> omega

theorem sum_map_mid {α : Type} (f : α → Nat) (pre post : List α) (x : α) :
    ((pre ++ x :: post).map f).sum = (pre.map f).sum + f x + (post.map f).sum := by
  simp only [List.map_append, List.map_cons, List.sum_append, List.sum_cons]
  omega


theorem inv_step {pg : Prog P} (hid : ∀ r ∈ pg.roots, r < pg.firstId) {s s' : State P}
    (h : Inv pg s) (hstep : Step pg s s') : Inv pg s' := by
  have hsub : ∀ e : Key P × Nat, ∀ k ∈ s.translation.map (·.1),
      k ∈ (e :: s.translation).map (·.1) := fun e k hk => List.mem_cons_of_mem _ hk
  cases hstep with
  | @initRequest r todo hm hl =>
    have hmain := h.mainOk
    have hlk := h.lock
    have hcount := h.count
    rw [hm] at hmain hlk hcount
    obtain ⟨pre, hp1, hp2⟩ := hmain
    cases hlu : lookup s.translation ⟨r, []⟩ with
    | some n =>
      have hmem := lookup_some hlu
      simp only [request, hlu, Bool.false_eq_true, if_false]
      refine { h with
        items := ?_, logOk := ?_, lock := hlk, count := hcount, mainOk := ?_, doneOk := ?_ }
      · have := h.items
        simpa [allItems, hm, MainPc.held] using this
      · intro e he
        rcases List.mem_cons.1 he with rfl | he
        · exact hmem
        · exact h.logOk e he
      · refine ⟨pre ++ [r], by simp [hp1], fun r' hr' => ?_⟩
        rcases List.mem_append.1 hr' with h' | h'
        · exact hp2 r' h'
        · rw [List.mem_singleton.1 h']
          exact List.mem_map.2 ⟨_, hmem, rfl⟩
      · intro h'
        exact (nomatch h')
    | none =>
      have hk := lookup_none hlu
      have hrr : r ∈ pg.roots := by simp [hp1]
      obtain ⟨hn1, hn2, hn3⟩ := request_new hid h hk (n := r) (n' := s.nextId)
        (Or.inl ⟨rfl, hrr, rfl⟩)
      simp only [request, hlu, if_true]
      refine {
        items := ?_, keys := ?_, names := ?_, nameOk := hn2, idOk := hn3, logOk := ?_,
        requested := ?_, lock := ?_, lockQueue := by simp, count := ?_, jobsOk := ?_, mainOk := ?_,
        resultsOk := ?_, doneOk := ?_ }
      · have := h.items
        simp only [allItems, hm, MainPc.held, List.nil_append, List.map_append, List.map_cons,
          List.map_nil, Item.entry, List.append_assoc, List.cons_append] at this ⊢
        exact List.perm_middle.trans (this.cons _)
      · simp only [List.map_cons]
        exact List.nodup_cons.2 ⟨hk, h.keys⟩
      · simp only [List.map_cons]
        exact List.nodup_cons.2 ⟨hn1, h.names⟩
      · intro e he
        rcases List.mem_cons.1 he with rfl | he
        · exact List.mem_cons_self
        · exact List.mem_cons_of_mem _ (h.logOk e he)
      · intro k hk'
        rcases List.mem_cons.1 hk' with rfl | hk'
        · exact Requested.root hrr
        · exact h.requested k hk'
      · simp only [hl, MainPc.adding, Bool.false_eq_true, if_false] at hlk ⊢
        simp only [if_true]
        omega
      · simp only [hl, MainPc.held, Bool.false_eq_true, if_false, List.length_append,
          List.length_singleton, List.length_nil] at hcount ⊢
        simp only [if_true]
        omega
      · exact fun j hj => (h.jobsOk j hj).mono (hsub _)
      · refine ⟨pre ++ [r], by simp [hp1], fun r' hr' => ?_⟩
        rcases List.mem_append.1 hr' with h' | h'
        · exact hsub _ _ (hp2 r' h')
        · rw [List.mem_singleton.1 h']
          exact List.mem_cons_self
      · exact fun i hi k hk => hsub _ k (h.resultsOk i hi k hk)
      · intro h'
        exact (nomatch h')
  | @initAdd todo hm =>
    have hmain := h.mainOk
    have hlk := h.lock
    have hcount := h.count
    have hit := h.items
    simp only [allItems] at hit
    rw [hm] at hmain hlk hcount hit
    have hheld : s.lockHeld = true := by
      cases hb : s.lockHeld with
      | true => rfl
      | false => simp [hb, MainPc.adding] at hlk
    simp only [hheld, MainPc.adding, MainPc.held, if_true, List.length_nil] at hlk hcount
    simp only [finishRequest]
    refine { h with
      items := hit, lock := ?_, lockQueue := by simp, count := ?_, mainOk := hmain, doneOk := ?_ }
    · simp only [MainPc.adding, Bool.false_eq_true, if_false]
      omega
    · simp only [MainPc.held, Bool.false_eq_true, if_false, List.length_nil]
      omega
    · intro h'
      exact (nomatch h')
  | initDone hm =>
    have hmain := h.mainOk
    have hlk := h.lock
    have hcount := h.count
    have hit := h.items
    simp only [allItems] at hit
    rw [hm] at hmain hlk hcount hit
    obtain ⟨pre, hp1, hp2⟩ := hmain
    refine { h with items := hit, lock := hlk, count := hcount, mainOk := ?_, doneOk := ?_ }
    · intro r hr
      rw [hp1, List.append_nil] at hr
      exact hp2 r hr
    · intro h'
      exact (nomatch h')
  | @popSome i q hm hl hq =>
    have hmain := h.mainOk
    have hlk := h.lock
    have hcount := h.count
    have hit := h.items
    simp only [allItems] at hit
    rw [hm] at hmain hlk hcount hit
    rw [hq] at hcount hit
    refine { h with
      items := ?_, lock := hlk, lockQueue := ?_, count := ?_, mainOk := hmain, doneOk := ?_ }
    · simp only [allItems, MainPc.held]
      refine List.Perm.trans ?_ hit
      refine List.Perm.map _ ?_
      simp only [MainPc.held, List.nil_append, List.cons_append]
      exact List.perm_middle
    · intro h'
      rw [hl] at h'
      exact (nomatch h')
    · simp only [MainPc.held, List.length_cons, List.length_nil] at hcount ⊢
      omega
    · intro h'
      exact (nomatch h')
  | popNone hm hl hq =>
    have hmain := h.mainOk
    have hlk := h.lock
    have hcount := h.count
    have hit := h.items
    simp only [allItems] at hit
    rw [hm] at hmain hlk hcount hit
    exact { h with items := hit, lock := hlk, count := hcount, mainOk := hmain,
                   doneOk := fun h' => (nomatch h') }
  | yieldExecuted hm =>
    have hmain := h.mainOk
    have hlk := h.lock
    have hcount := h.count
    have hit := h.items
    simp only [allItems] at hit
    rw [hm] at hmain hlk hcount hit
    exact { h with items := hit, lock := hlk, count := hcount, mainOk := hmain,
                   doneOk := fun h' => (nomatch h') }
  | yieldIdle hm =>
    have hmain := h.mainOk
    have hlk := h.lock
    have hcount := h.count
    have hit := h.items
    simp only [allItems] at hit
    rw [hm] at hmain hlk hcount hit
    exact { h with items := hit, lock := hlk, count := hcount, mainOk := hmain,
                   doneOk := fun h' => (nomatch h') }
  | checkMore hm _ =>
    have hmain := h.mainOk
    have hlk := h.lock
    have hcount := h.count
    have hit := h.items
    simp only [allItems] at hit
    rw [hm] at hmain hlk hcount hit
    exact { h with items := hit, lock := hlk, count := hcount, mainOk := hmain,
                   doneOk := fun h' => (nomatch h') }
  | checkZero hm hz =>
    have hmain := h.mainOk
    have hlk := h.lock
    have hcount := h.count
    have hit := h.items
    simp only [allItems] at hit
    rw [hm] at hmain hlk hcount hit
    refine { h with items := hit, lock := hlk, count := hcount, mainOk := hmain,
                    doneOk := fun _ => ?_ }
    show s.queue = [] ∧ (s.jobs.map Job.active).sum = 0
    have hle : (s.jobs.map Job.adding).sum ≤ (s.jobs.map Job.active).sum := by
      generalize s.jobs = js
      induction js with
      | nil => simp
      | cons j js ih =>
        have : j.adding ≤ j.active := by
          obtain ⟨i, pc⟩ := j
          cases pc <;> simp [Job.adding, Job.active]
        simp only [List.map_cons, List.sum_cons]
        omega
    cases hb : s.lockHeld with
    | false =>
      simp only [hz, hb, MainPc.held, Bool.false_eq_true, if_false, List.length_nil] at hcount
      exact ⟨List.length_eq_zero_iff.1 (by omega), by omega⟩
    | true =>
      have hq := List.length_pos_iff.2 (h.lockQueue hb)
      simp only [hz, hb, MainPc.held, MainPc.adding, if_true, List.length_nil] at hcount hlk
      omega
  | @spawn i hm =>
    have hmain := h.mainOk
    have hlk := h.lock
    have hcount := h.count
    have hit := h.items
    simp only [allItems] at hit
    rw [hm] at hmain hlk hcount hit
    refine { h with
      items := ?_, lock := ?_, count := ?_, jobsOk := ?_, mainOk := hmain, doneOk := ?_ }
    · simp only [allItems]
      refine List.Perm.trans ?_ hit
      refine List.Perm.map _ ?_
      simp only [MainPc.held, List.nil_append, List.cons_append, List.map_append, List.map_cons,
        List.map_nil, List.append_assoc]
      exact List.Perm.append_left _ List.perm_middle
    · simp only [MainPc.adding, List.map_append, List.map_cons, List.map_nil, List.sum_append,
        List.sum_cons, List.sum_nil, Job.adding] at hlk ⊢
      omega
    · simp only [MainPc.held, List.map_append, List.map_cons, List.map_nil, List.sum_append,
        List.sum_cons, List.sum_nil, Job.active, List.length_cons, List.length_nil] at hcount ⊢
      omega
    · intro j hj
      rcases List.mem_append.1 hj with hj | hj
      · exact h.jobsOk j hj
      · rw [List.mem_singleton.1 hj]
        exact ⟨[], rfl, by simp⟩
    · intro h'
      exact (nomatch h')
  | @jobRequest pre post i k todo hj hl =>
    have hlk := h.lock
    have hcount := h.count
    have hit := h.items
    have hjobs := h.jobsOk
    have hdone := h.doneOk
    simp only [allItems] at hit
    rw [hj] at hlk hcount hit hjobs hdone
    rw [sum_map_mid] at hlk hcount hdone
    have hjk := hjobs _ (List.mem_append_right _ List.mem_cons_self)
    obtain ⟨pre', hp1, hp2⟩ := hjk
    have hreq : Requested pg k := by
      refine Requested.use (k := i.key) ?_ (by simp [hp1])
      refine h.requested _ ?_
      have : i.entry ∈ s.translation := hit.mem_iff.1 (by simp)
      exact List.mem_map.2 ⟨_, this, rfl⟩
    cases hlu : lookup s.translation k with
    | some n =>
      have hmem := lookup_some hlu
      simp only [request, hlu, Bool.false_eq_true, if_false]
      refine { h with
        items := ?_, logOk := ?_, lock := ?_, count := ?_, jobsOk := ?_, doneOk := ?_ }
      · simpa [allItems] using hit
      · intro e he
        rcases List.mem_cons.1 he with rfl | he
        · exact hmem
        · exact h.logOk e he
      · simp only [sum_map_mid]
        simpa [Job.adding] using hlk
      · simp only [sum_map_mid]
        simpa [Job.active] using hcount
      · intro j hj'
        rcases List.mem_append.1 hj' with hj' | hj'
        · exact hjobs j (List.mem_append_left _ hj')
        · rcases List.mem_cons.1 hj' with rfl | hj'
          · refine ⟨pre' ++ [k], by simp [hp1], fun k' hk' => ?_⟩
            rcases List.mem_append.1 hk' with h' | h'
            · exact hp2 k' h'
            · rw [List.mem_singleton.1 h']
              exact List.mem_map.2 ⟨_, hmem, rfl⟩
          · exact hjobs j (List.mem_append_right _ (List.mem_cons_of_mem _ hj'))
      · intro h'
        simp only [sum_map_mid]
        exact hdone h'
    | none =>
      have hk := lookup_none hlu
      obtain ⟨hn1, hn2, hn3⟩ := request_new hid h hk (n := s.nextId) (n' := s.nextId + 1)
        (Or.inr ⟨rfl, rfl⟩)
      simp only [request, hlu, if_true, Bool.false_eq_true, if_false]
      refine {
        items := ?_, keys := ?_, names := ?_, nameOk := hn2, idOk := hn3, logOk := ?_,
        requested := ?_, lock := ?_, lockQueue := by simp, count := ?_, jobsOk := ?_, mainOk := ?_,
        resultsOk := ?_, doneOk := ?_ }
      · simp only [allItems, List.map_append, List.map_cons,
          List.map_nil, Item.entry, List.append_assoc, List.cons_append, List.nil_append] at hit ⊢
        exact List.perm_middle.trans (hit.cons _)
      · simp only [List.map_cons]
        exact List.nodup_cons.2 ⟨hk, h.keys⟩
      · simp only [List.map_cons]
        exact List.nodup_cons.2 ⟨hn1, h.names⟩
      · intro e he
        rcases List.mem_cons.1 he with rfl | he
        · exact List.mem_cons_self
        · exact List.mem_cons_of_mem _ (h.logOk e he)
      · intro k' hk'
        rcases List.mem_cons.1 hk' with rfl | hk'
        · exact hreq
        · exact h.requested k' hk'
      · simp only [sum_map_mid, hl, Job.adding, Bool.false_eq_true, if_false] at hlk ⊢
        simp only [if_true]
        omega
      · simp only [sum_map_mid, hl, Job.active, Bool.false_eq_true, if_false, List.length_append,
          List.length_singleton] at hcount ⊢
        simp only [if_true]
        omega
      · intro j hj'
        rcases List.mem_append.1 hj' with hj' | hj'
        · exact (hjobs j (List.mem_append_left _ hj')).mono (hsub _)
        · rcases List.mem_cons.1 hj' with rfl | hj'
          · refine ⟨pre' ++ [k], by simp [hp1], fun k' hk' => ?_⟩
            rcases List.mem_append.1 hk' with h' | h'
            · exact hsub _ _ (hp2 k' h')
            · rw [List.mem_singleton.1 h']
              exact List.mem_cons_self
          · exact (hjobs j (List.mem_append_right _ (List.mem_cons_of_mem _ hj'))).mono (hsub _)
      · exact h.mainOk.mono (hsub _)
      · exact fun i hi k hk => hsub _ k (h.resultsOk i hi k hk)
      · intro h'
        have := (hdone h').2
        simp only [Job.active] at this
        omega
  | @jobAdd pre post i todo hj =>
    have hlk := h.lock
    have hcount := h.count
    have hit := h.items
    have hjobs := h.jobsOk
    have hdone := h.doneOk
    simp only [allItems] at hit
    rw [hj] at hlk hcount hit hjobs hdone
    rw [sum_map_mid] at hlk hcount hdone
    have hheld : s.lockHeld = true := by
      cases hb : s.lockHeld with
      | true => rfl
      | false =>
        simp only [hb, Job.adding, Bool.false_eq_true, if_false] at hlk
        omega
    simp only [hheld, Job.adding, Job.active, if_true] at hlk hcount
    simp only [finishRequest]
    refine { h with
      items := ?_, lock := ?_, lockQueue := by simp, count := ?_, jobsOk := ?_, doneOk := ?_ }
    · simpa [allItems] using hit
    · simp only [sum_map_mid, Job.adding, Bool.false_eq_true, if_false]
      omega
    · simp only [sum_map_mid, Job.active, Bool.false_eq_true, if_false]
      omega
    · intro j hj'
      rcases List.mem_append.1 hj' with hj' | hj'
      · exact hjobs j (List.mem_append_left _ hj')
      · rcases List.mem_cons.1 hj' with rfl | hj'
        · exact hjobs ⟨i, .adding todo⟩ (List.mem_append_right _ List.mem_cons_self)
        · exact hjobs j (List.mem_append_right _ (List.mem_cons_of_mem _ hj'))
    · intro h'
      simp only [sum_map_mid]
      exact hdone h'
  | @jobSub pre post i hj =>
    have hlk := h.lock
    have hcount := h.count
    have hit := h.items
    have hjobs := h.jobsOk
    have hdone := h.doneOk
    simp only [allItems] at hit
    rw [hj] at hlk hcount hit hjobs hdone
    rw [sum_map_mid] at hlk hcount hdone
    refine { h with
      items := ?_, lock := ?_, count := ?_, jobsOk := ?_, doneOk := ?_ }
    · simpa [allItems] using hit
    · simp only [sum_map_mid, Job.adding] at hlk ⊢
      exact hlk
    · simp only [sum_map_mid, Job.active] at hcount ⊢
      cases hb : s.lockHeld with
      | false =>
        simp only [hb, Bool.false_eq_true, if_false] at hcount ⊢
        omega
      | true =>
        have hq := List.length_pos_iff.2 (h.lockQueue hb)
        simp only [hb, if_true] at hcount ⊢
        omega
    · intro j hj'
      rcases List.mem_append.1 hj' with hj' | hj'
      · exact hjobs j (List.mem_append_left _ hj')
      · rcases List.mem_cons.1 hj' with rfl | hj'
        · obtain ⟨pre', hp1, hp2⟩ := hjobs ⟨i, .running []⟩
            (List.mem_append_right _ List.mem_cons_self)
          intro k hk
          simp only at hp1
          rw [hp1, List.append_nil] at hk
          exact hp2 k hk
        · exact hjobs j (List.mem_append_right _ (List.mem_cons_of_mem _ hj'))
    · intro h'
      have := (hdone h').2
      simp only [Job.active] at this
      omega
  | @jobPush pre post i hj =>
    have hlk := h.lock
    have hcount := h.count
    have hit := h.items
    have hjobs := h.jobsOk
    have hdone := h.doneOk
    simp only [allItems] at hit
    rw [hj] at hlk hcount hit hjobs hdone
    rw [sum_map_mid] at hlk hcount hdone
    simp only [Job.adding, Job.active, Nat.add_zero] at hlk hcount hdone
    refine { h with
      items := ?_, lock := ?_, count := ?_, jobsOk := ?_, resultsOk := ?_, doneOk := ?_ }
    · refine List.Perm.trans ?_ hit
      refine List.Perm.map _ ?_
      simp only [allItems, List.map_append, List.map_cons, List.append_assoc, List.cons_append]
      refine List.Perm.append_left _ (List.Perm.append_left _ (List.Perm.append_left _ ?_))
      rw [← List.append_assoc]
      exact List.perm_append_singleton _ _
    · simpa using hlk
    · simpa using hcount
    · intro j hj'
      rcases List.mem_append.1 hj' with hj' | hj'
      · exact hjobs j (List.mem_append_left _ hj')
      · exact hjobs j (List.mem_append_right _ (List.mem_cons_of_mem _ hj'))
    · intro i' hi'
      rcases List.mem_append.1 hi' with hi' | hi'
      · exact h.resultsOk i' hi'
      · rw [List.mem_singleton.1 hi']
        exact hjobs ⟨i, .finishing⟩ (List.mem_append_right _ List.mem_cons_self)
    · intro h'
      simpa using hdone h'
  | newName =>
    refine { h with nameOk := ?_, idOk := ?_ }
    · intro e he
      rcases h.nameOk e he with h1 | h1
      · exact Or.inl h1
      · exact Or.inr ⟨h1.1, Nat.lt_succ_of_lt h1.2⟩
    · exact Nat.le_succ_of_le h.idOk

theorem inv_reachable {pg : Prog P} (hid : ∀ r ∈ pg.roots, r < pg.firstId) {s : State P}
    (h : Reachable pg s) : Inv pg s := by
  induction h with
  | start => exact inv_start pg
  | step _ hs ih => exact inv_step hid ih hs

end Spade.Mono

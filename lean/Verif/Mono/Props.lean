import Verif.Mono.Invariant

/-
C32: when compilation of all items finishes (without a panic), every monomorphic item requested
directly or transitively has been compiled exactly once, whatever the interleaving of the worker
threads, and two requests get the same name iff they name the same item with the same parameters.
-/

namespace Spade.Mono

open Spec

variable {P : Type} [DecidableEq P]

/-- **C32, completeness and uniqueness.**  In every run that has ended, an item was compiled iff it
was requested directly or transitively, and no item was compiled twice. -/
theorem C32_compiled_exactly_once (pg : Prog P) (hid : ∀ r ∈ pg.roots, r < pg.firstId)
    (s : State P) (hr : Reachable pg s) (hf : Final s) :
    (∀ k, (∃ i ∈ s.results, i.key = k) ↔ Requested pg k) ∧ (s.results.map (·.key)).Nodup := by
  have h := inv_reachable hid hr
  have hq := (h.doneOk hf.1).1
  have hit := h.items
  have hmain := h.mainOk
  simp only [allItems] at hit
  rw [hq, hf.1, hf.2] at hit
  rw [hf.1] at hmain
  simp only [MainPc.held, List.map_nil, List.nil_append] at hit
  have hkeys : List.Perm (s.results.map (·.key)) (s.translation.map (·.1)) := by
    have := hit.map (·.1)
    simpa [Item.entry, Function.comp_def] using this
  refine ⟨fun k => ⟨?_, fun hk => ?_⟩, hkeys.nodup_iff.2 h.keys⟩
  · rintro ⟨i, hi, rfl⟩
    exact h.requested _ (hkeys.mem_iff.1 (List.mem_map.2 ⟨i, hi, rfl⟩))
  · have hmem : k ∈ s.translation.map (·.1) := by
      induction hk with
      | root hr => exact hmain _ hr
      | use _ hu ih =>
        obtain ⟨i, hi, rfl⟩ := List.mem_map.1 (hkeys.mem_iff.2 ih)
        exact h.resultsOk i hi _ hu
    obtain ⟨i, hi, he⟩ := List.mem_map.1 (hkeys.mem_iff.2 hmem)
    exact ⟨i, hi, he⟩

/-- **C32, names.**  At any moment of any run, two answers of `request_compilation` are the same
name iff the requests were for the same item with the same parameters. -/
theorem C32_same_name_iff_same_item (pg : Prog P) (hid : ∀ r ∈ pg.roots, r < pg.firstId)
    (s : State P) (hr : Reachable pg s) {k k' : Key P} {n n' : Nat}
    (hk : (k, n) ∈ s.log) (hk' : (k', n') ∈ s.log) : n = n' ↔ k = k' := by
  have h := inv_reachable hid hr
  have hm := h.logOk _ hk
  have hm' := h.logOk _ hk'
  have key : ∀ {β : Type} (f : Key P × Nat → β), (s.translation.map f).Nodup →
      ∀ {a b : Key P × Nat}, a ∈ s.translation → b ∈ s.translation → f a = f b → a = b := by
    intro β f hnd a b ha hb hab
    generalize s.translation = l at hnd ha hb
    induction l with
    | nil => cases ha
    | cons x xs ih =>
      rw [List.map_cons, List.nodup_cons] at hnd
      rcases List.mem_cons.1 ha with h1 | h1 <;> rcases List.mem_cons.1 hb with h2 | h2
      · rw [h1, h2]
      · exact absurd (List.mem_map.2 ⟨b, h2, by rw [← hab, h1]⟩) hnd.1
      · exact absurd (List.mem_map.2 ⟨a, h1, by rw [hab, h2]⟩) hnd.1
      · exact ih hnd.2 h1 h2
  constructor
  · rintro rfl
    exact (Prod.mk.inj (key (·.2) h.names hm hm' rfl)).1
  · rintro rfl
    exact (Prod.mk.inj (key (·.1) h.keys hm hm' rfl)).2

/-- **C32, requests are served.**  When the run has ended, the name every request was answered with
is the name of the compiled item, and that item is the requested one. -/
theorem C32_requests_are_served (pg : Prog P) (hid : ∀ r ∈ pg.roots, r < pg.firstId)
    (s : State P) (hr : Reachable pg s) (hf : Final s) {k : Key P} {n : Nat}
    (hk : (k, n) ∈ s.log) : (⟨k, n⟩ : Item P) ∈ s.results := by
  have h := inv_reachable hid hr
  have hit := h.items
  simp only [allItems] at hit
  rw [(h.doneOk hf.1).1, hf.1, hf.2] at hit
  simp only [MainPc.held, List.map_nil, List.nil_append] at hit
  obtain ⟨i, hi, he⟩ := List.mem_map.1 (hit.mem_iff.2 (h.logOk _ hk))
  obtain ⟨k', n'⟩ := i
  simp only [Item.entry, Prod.mk.injEq] at he
  rw [← he.1, ← he.2]
  exact hi

/-- **C32, output order.**  The order of the compiled items in the value returned by `compile_items`
is the same for all interleavings: any two finished runs of the same program return the same items in
the same order (only the generated names can differ). -/
theorem C32_output_order_independent_of_schedule (pg : Prog P)
    (hid : ∀ r ∈ pg.roots, r < pg.firstId) (le : Key P → Key P → Bool)
    (htrans : ∀ a b c, le a b = true → le b c = true → le a c = true)
    (htotal : ∀ a b, (le a b || le b a) = true)
    (hanti : ∀ a b, le a b = true → le b a = true → a = b)
    (s s' : State P) (hr : Reachable pg s) (hf : Final s) (hr' : Reachable pg s') (hf' : Final s') :
    (output le s).map (·.key) = (output le s').map (·.key) := by
  have h1 := C32_compiled_exactly_once pg hid s hr hf
  have h2 := C32_compiled_exactly_once pg hid s' hr' hf'
  have hperm : ∀ s : State P, List.Perm ((output le s).map (·.key)) (s.results.map (·.key)) :=
    fun s => (List.mergeSort_perm _ _).map _
  have hsorted : ∀ s : State P,
      ((output le s).map (·.key)).Pairwise (fun a b => le a b = true) := by
    intro s
    rw [List.pairwise_map]
    exact List.pairwise_mergeSort (le := fun a b : Item P => le a.key b.key)
      (fun a b c => htrans _ _ _) (fun a b => htotal _ _) _
  refine List.Perm.eq_of_pairwise (le := fun a b => le a b = true) ?_ (hsorted s) (hsorted s') ?_
  · intro a b _ _ hab hba
    exact hanti a b hab hba
  · refine (hperm s).trans (List.Perm.trans ?_ (hperm s').symm)
    refine (List.perm_ext_iff_of_nodup h1.2 h2.2).2 (fun k => ?_)
    simp only [List.mem_map]
    exact (h1.1 k).trans (h2.1 k).symm


/-! ### Finished runs exist -/

/-- Steps can be repeated. -/
inductive Steps (pg : Prog P) : State P → State P → Prop where
  | refl {s} : Steps pg s s
  | head {s s' s''} : Step pg s s' → Steps pg s' s'' → Steps pg s s''

/-- The work left in the present table. -/
def MainPc.work (pg : Prog P) : MainPc P → Nat
  | .init todo => 2 * todo.length + 4
  | .initAdding todo => 2 * todo.length + 5
  | .pop => 3
  | .yielding => 2
  | .check => 1
  | .spawn i => (pg.uses i.key).length + 8
  | .done => 0

def Job.work (j : Job P) : Nat :=
  match j.pc with
  | .running todo => todo.length + 3
  | .adding todo => todo.length + 4
  | .finishing => 1

def work (pg : Prog P) (s : State P) : Nat :=
  (s.queue.map (fun i => (pg.uses i.key).length + 10)).sum + s.main.work pg
    + (s.jobs.map Job.work).sum

theorem exists_adding : ∀ {js : List (Job P)}, (js.map Job.adding).sum ≠ 0 →
    ∃ pre post i todo, js = pre ++ ⟨i, .adding todo⟩ :: post
  | [], h => absurd rfl h
  | ⟨i, .adding todo⟩ :: js, _ => ⟨[], js, i, todo, rfl⟩
  | ⟨i, .running todo⟩ :: js, h => by
    obtain ⟨pre, post, i', todo', he⟩ := exists_adding (js := js) (by simpa [Job.adding] using h)
    exact ⟨_ :: pre, post, i', todo', by rw [he]; rfl⟩
  | ⟨i, .finishing⟩ :: js, h => by
    obtain ⟨pre, post, i', todo', he⟩ := exists_adding (js := js) (by simpa [Job.adding] using h)
    exact ⟨_ :: pre, post, i', todo', by rw [he]; rfl⟩

theorem request_effect (s : State P) (k : Key P) (b : Bool) :
    (∃ n, request s k b = (false, { s with log := (k, n) :: s.log })) ∨
    (∃ s', request s k b = (true, s') ∧ s'.translation.length = s.translation.length + 1) := by
  unfold request
  cases lookup s.translation k with
  | some n => exact Or.inl ⟨n, rfl⟩
  | none => exact Or.inr ⟨_, rfl, rfl⟩

/-- In every state that is not final some thread can take a step that extends the table or leaves
less work. -/
theorem progress {pg : Prog P} {s : State P} (h : Inv pg s) (hf : ¬ Final s) :
    ∃ s', Steps pg s s' ∧ (s'.translation.length = s.translation.length + 1 ∨
      (s'.translation.length = s.translation.length ∧ work pg s' < work pg s)) := by
  cases hb : s.lockHeld with
  | true =>
    have hlk := h.lock
    rw [hb] at hlk
    by_cases hj : (s.jobs.map Job.adding).sum ≠ 0
    · obtain ⟨pre, post, i, todo, he⟩ := exists_adding hj
      refine ⟨_, .head (Step.jobAdd he) .refl, Or.inr ⟨rfl, ?_⟩⟩
      simp only [work, finishRequest, he, sum_map_mid, Job.work]
      omega
    · cases hm : s.main with
      | initAdding todo =>
        refine ⟨_, .head (Step.initAdd hm) .refl, Or.inr ⟨rfl, ?_⟩⟩
        simp only [work, finishRequest, hm, MainPc.work]
        omega
      | _ =>
        rw [hm] at hlk
        simp only [MainPc.adding, if_true] at hlk
        omega
  | false =>
    have hlk := h.lock
    have hcount := h.count
    rw [hb] at hlk hcount
    simp only [Bool.false_eq_true, if_false] at hlk hcount
    cases hjs : s.jobs with
    | cons j js =>
      obtain ⟨i, pc⟩ := j
      cases pc with
      | running todo =>
        cases todo with
        | nil =>
          refine ⟨_, .head (Step.jobSub (pre := []) hjs) .refl, Or.inr ⟨rfl, ?_⟩⟩
          simp only [work, hjs, List.nil_append, List.map_cons, List.sum_cons, Job.work,
            List.length_nil]
          omega
        | cons k todo =>
          refine ⟨_, .head (Step.jobRequest (pre := []) hjs hb) .refl, ?_⟩
          rcases request_effect s k false with ⟨n, he⟩ | ⟨s', he, hl⟩
          · refine Or.inr ⟨by simp only [he], ?_⟩
            simp only [work, he, hjs, List.nil_append, List.map_cons, List.sum_cons, Job.work,
              List.length_cons, Bool.false_eq_true, if_false]
            omega
          · exact Or.inl (by simp only [he, hl])
      | adding todo =>
        rw [hjs] at hlk
        simp only [List.map_cons, List.sum_cons, Job.adding] at hlk
        omega
      | finishing =>
        refine ⟨_, .head (Step.jobPush (pre := []) hjs) .refl, Or.inr ⟨rfl, ?_⟩⟩
        simp only [work, hjs, List.nil_append, List.map_cons, List.sum_cons, Job.work]
        omega
    | nil =>
      cases hm : s.main with
      | init todo =>
        cases todo with
        | nil =>
          refine ⟨_, .head (Step.initDone hm) .refl, Or.inr ⟨rfl, ?_⟩⟩
          simp only [work, hm, MainPc.work]
          omega
        | cons r todo =>
          refine ⟨_, .head (Step.initRequest hm hb) .refl, ?_⟩
          rcases request_effect s ⟨r, []⟩ true with ⟨n, he⟩ | ⟨s', he, hl⟩
          · refine Or.inr ⟨by simp only [he], ?_⟩
            simp only [work, he, hm, MainPc.work, List.length_cons, Bool.false_eq_true, if_false]
            omega
          · exact Or.inl (by simp only [he, hl])
      | initAdding todo =>
        rw [hm] at hlk
        simp only [MainPc.adding] at hlk
        omega
      | pop =>
        cases hq : s.queue with
        | nil =>
          refine ⟨_, .head (Step.popNone hm hb hq) .refl, Or.inr ⟨rfl, ?_⟩⟩
          simp only [work, hm, MainPc.work]
          omega
        | cons i q =>
          refine ⟨_, .head (Step.popSome hm hb hq) .refl, Or.inr ⟨rfl, ?_⟩⟩
          simp only [work, hm, hq, MainPc.work, List.map_cons, List.sum_cons]
          omega
      | yielding =>
        refine ⟨_, .head (Step.yieldIdle hm) .refl, Or.inr ⟨rfl, ?_⟩⟩
        simp only [work, hm, MainPc.work]
        omega
      | check =>
        rw [hm, hjs] at hcount
        simp only [MainPc.held, List.map_nil, List.sum_nil, List.length_nil] at hcount
        by_cases hz : s.remaining = 0
        · refine ⟨_, .head (Step.checkZero hm hz) .refl, Or.inr ⟨rfl, ?_⟩⟩
          simp only [work, hm, MainPc.work]
          omega
        · cases hq : s.queue with
          | nil =>
            rw [hq] at hcount
            exact absurd hcount hz
          | cons i q =>
            refine ⟨_, .head (Step.checkMore hm hz) (.head (Step.popSome rfl hb hq) .refl),
              Or.inr ⟨rfl, ?_⟩⟩
            simp only [work, hm, hq, MainPc.work, List.map_cons, List.sum_cons]
            omega
      | spawn i =>
        refine ⟨_, .head (Step.spawn hm) .refl, Or.inr ⟨rfl, ?_⟩⟩
        simp only [work, hm, MainPc.work, List.map_append, List.map_cons, List.map_nil,
          List.sum_append, List.sum_cons, List.sum_nil, Job.work]
        omega
      | done => exact absurd ⟨hm, hjs⟩ hf

theorem Reachable.steps {pg : Prog P} {s s' : State P} (hr : Reachable pg s) (h : Steps pg s s') :
    Reachable pg s' := by
  induction h with
  | refl => exact hr
  | head hs _ ih => exact ih (.step hr hs)

theorem Steps.trans {pg : Prog P} {s s' s'' : State P} (h : Steps pg s s') (h' : Steps pg s' s'') :
    Steps pg s s'' := by
  induction h with
  | refl => exact h'
  | head hs _ ih => exact .head hs (ih h')

/-- **C32, no schedule gets stuck.**  If a program requests finitely many items then every run, at
any moment, can be continued to one that has ended: there is no deadlock, no lost item and no
counter value that keeps the loop from ending. -/
theorem C32_every_run_can_finish (pg : Prog P) (hid : ∀ r ∈ pg.roots, r < pg.firstId)
    (items : List (Key P)) (hfin : ∀ k, Requested pg k → k ∈ items)
    (s : State P) (hr : Reachable pg s) : ∃ s', Steps pg s s' ∧ Final s' := by
  have hbound : ∀ s : State P, Reachable pg s → s.translation.length ≤ items.length := by
    intro s hr
    have h := inv_reachable hid hr
    have := List.Nodup.length_le_of_subset h.keys
      (fun k hk => hfin k (h.requested k hk))
    simpa using this
  have main : ∀ a w : Nat, ∀ s : State P, Reachable pg s →
      items.length - s.translation.length = a → work pg s = w → ∃ s', Steps pg s s' ∧ Final s' := by
    intro a
    induction a using Nat.strongRecOn with
    | ind a iha =>
      intro w
      induction w using Nat.strongRecOn with
      | ind w ihw =>
        intro s hr ha hw
        by_cases hf : Final s
        · exact ⟨s, .refl, hf⟩
        · obtain ⟨s', hs, hcase⟩ := progress (inv_reachable hid hr) hf
          have hr' := hr.steps hs
          have hb' := hbound s' hr'
          rcases hcase with h1 | ⟨h1, h2⟩
          · obtain ⟨s'', hs', hf'⟩ := iha (items.length - s'.translation.length) (by omega)
              (work pg s') s' hr' rfl rfl
            exact ⟨s'', hs.trans hs', hf'⟩
          · obtain ⟨s'', hs', hf'⟩ := ihw (work pg s') (by omega) s' hr' (by omega) rfl
            exact ⟨s'', hs.trans hs', hf'⟩
  exact main _ _ s hr rfl rfl

/-! ### The hypotheses are met -/

/-- A program with two units without type parameters, 0 and 1.  Unit 0 instantiates the generic unit
2 with the types 7 and 8, and unit 1 instantiates it with 7; unit 2 with 8 instantiates unit 3 with
itself as parameter. -/
def exampleProg : Prog Nat where
  roots := [0, 1]
  uses := fun k =>
    if k = ⟨0, []⟩ then [⟨2, [7]⟩, ⟨2, [8]⟩, ⟨2, [7]⟩]
    else if k = ⟨1, []⟩ then [⟨2, [7]⟩]
    else if k = ⟨2, [8]⟩ then [⟨3, [8]⟩, ⟨2, [8]⟩]
    else []
  firstId := 4

/-- Finished runs of the example exist, and in all of them exactly these five items are compiled. -/
example : (∃ s, Reachable exampleProg s ∧ Final s) ∧
    ∀ s, Reachable exampleProg s → Final s →
      ∀ k, (∃ i ∈ s.results, i.key = k) ↔
        k ∈ ([⟨0, []⟩, ⟨1, []⟩, ⟨2, [7]⟩, ⟨2, [8]⟩, ⟨3, [8]⟩] : List (Key Nat)) := by
  have hid : ∀ r ∈ exampleProg.roots, r < exampleProg.firstId := by decide
  have hreq : ∀ k, Requested exampleProg k →
      k ∈ ([⟨0, []⟩, ⟨1, []⟩, ⟨2, [7]⟩, ⟨2, [8]⟩, ⟨3, [8]⟩] : List (Key Nat)) := by
    intro k hk
    induction hk with
    | @root s hs =>
      rcases List.mem_cons.1 hs with rfl | hs
      · decide
      · rw [List.mem_singleton.1 hs]
        decide
    | @use k k' _ hu ih =>
      have : ∀ k ∈ ([⟨0, []⟩, ⟨1, []⟩, ⟨2, [7]⟩, ⟨2, [8]⟩, ⟨3, [8]⟩] : List (Key Nat)),
          ∀ k' ∈ exampleProg.uses k,
          k' ∈ ([⟨0, []⟩, ⟨1, []⟩, ⟨2, [7]⟩, ⟨2, [8]⟩, ⟨3, [8]⟩] : List (Key Nat)) := by decide
      exact this k ih k' hu
  constructor
  · obtain ⟨s, hs, hf⟩ := C32_every_run_can_finish exampleProg hid _ hreq _ Reachable.start
    exact ⟨s, Reachable.start.steps hs, hf⟩
  · intro s hr hf k
    rw [(C32_compiled_exactly_once exampleProg hid s hr hf).1 k]
    refine ⟨hreq k, fun hk => ?_⟩
    have h0 : Requested exampleProg ⟨0, []⟩ := .root (by decide)
    have h1 : Requested exampleProg ⟨1, []⟩ := .root (by decide)
    have h2 : Requested exampleProg ⟨2, [7]⟩ := .use h0 (by decide)
    have h3 : Requested exampleProg ⟨2, [8]⟩ := .use h0 (by decide)
    have h4 : Requested exampleProg ⟨3, [8]⟩ := .use h3 (by decide)
    simp only [List.mem_cons, List.not_mem_nil, or_false] at hk
    rcases hk with rfl | rfl | rfl | rfl | rfl <;> assumption

end Spade.Mono

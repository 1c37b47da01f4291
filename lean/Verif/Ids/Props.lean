import Verif.Ids.Model
/-! C36: ids are unique, and interning is injective. -/
namespace Spade.Ids

/-! ## Trackers -/

/-- The calls of `next` that have drawn their id but not returned it. -/
def Drawn (t : Tracker) (i reg : Nat) : Prop := t.threads i = some (.next, [], reg)

structure TInv (start n : Nat) (t : Tracker) : Prop where
  counter : t.counter = wrap (start + n)
  /-- every id that was drawn is one of the first `n` ids -/
  returned : ∀ x ∈ t.returned, ∃ k < n, x = wrap (start + k)
  drawn : ∀ i reg, Drawn t i reg → ∃ k < n, reg = wrap (start + k)
  /-- what is returned or about to be returned is pairwise different, as long as there is no overflow -/
  nodup : n ≤ 2 ^ 64 → t.returned.Nodup
  apart : n ≤ 2 ^ 64 → ∀ i reg, Drawn t i reg → reg ∉ t.returned
  apart' : n ≤ 2 ^ 64 → ∀ i j reg, Drawn t i reg → Drawn t j reg → i = j
  /-- threads inside a call are at a known place -/
  places : ∀ i c code reg, t.threads i = some (c, code, reg) → code = [] ∨ code = c.code

theorem wrap_lt (n : Nat) : wrap n < 2 ^ 64 := Nat.mod_lt _ (by decide)

theorem wrap_wrap (n k : Nat) : wrap (wrap n + k) = wrap (n + k) := by simp [wrap, Nat.add_mod]

theorem wrap_inj {start i j : Nat} (hi : i < 2 ^ 64) (hj : j < 2 ^ 64)
    (h : wrap (start + i) = wrap (start + j)) : i = j := by
  unfold wrap at h
  omega

/-- Whether the action draws an id. -/
def draws (t : Tracker) : Act → Bool
  | .start _ _ => false
  | .step i => match t.threads i with
    | some (.next, _ :: _, _) => true
    | _ => false

theorem act_inv {start n : Nat} {t t' : Tracker} {a : Act} (h : act t a = some t')
    (hi : TInv start n t) : ∃ n', TInv start n' t' ∧ n' = n + (draws t a).toNat := by
  cases a with
  | start i c =>
    simp only [act] at h
    cases hth : t.threads i with
    | some x => simp [hth] at h
    | none =>
      simp only [hth, Option.some.injEq] at h
      subst h
      have hd : ∀ j reg, (if j = i then some (c, c.code, 0) else t.threads j) =
          some (Call.next, ([] : List Instr), reg) → Drawn t j reg := by
        intro j reg hj
        split at hj
        · simp only [Option.some.injEq, Prod.mk.injEq] at hj
          obtain ⟨rfl, hc, _⟩ := hj
          simp [Call.code, nextCode] at hc
        · exact hj
      refine ⟨n, ⟨hi.counter, hi.returned, fun j reg hj => hi.drawn j reg (hd j reg hj),
        hi.nodup, fun hn j reg hj => hi.apart hn j reg (hd j reg hj),
        fun hn j k reg hj hk => hi.apart' hn j k reg (hd j reg hj) (hd k reg hk), ?_⟩, by simp [draws, hth, Call.code, peekCode]⟩
      intro j c' code reg hj
      simp only at hj
      split at hj
      · simp only [Option.some.injEq, Prod.mk.injEq] at hj
        exact Or.inr (by rw [← hj.1, ← hj.2.1])
      · exact hi.places j c' code reg hj
  | step i =>
    simp only [act] at h
    cases hth : t.threads i with
    | none => simp [hth] at h
    | some x =>
      obtain ⟨c, code, reg⟩ := x
      rcases hi.places i c code reg hth with hcode | hcode
      · -- the call returns
        subst hcode
        simp only [hth, Option.some.injEq] at h
        subst h
        cases c with
        | next =>
          have hdi : Drawn t i reg := hth
          have hd : ∀ j r, (if j = i then none else t.threads j) = some (Call.next, ([] : List Instr), r) →
              Drawn t j r ∧ j ≠ i := by
            intro j r hj
            split at hj
            · simp at hj
            · rename_i hne; exact ⟨hj, hne⟩
          refine ⟨n, ⟨hi.counter, ?_, fun j r hj => hi.drawn j r (hd j r hj).1, ?_, ?_,
            fun hn j k r hj hk => hi.apart' hn j k r (hd j r hj).1 (hd k r hk).1, ?_⟩, by simp [draws, hth, Call.code, peekCode]⟩
          · intro x hx
            rcases List.mem_cons.mp hx with rfl | hx
            · exact hi.drawn i _ hdi
            · exact hi.returned x hx
          · intro hn
            exact List.nodup_cons.mpr ⟨hi.apart hn i reg hdi, hi.nodup hn⟩
          · intro hn j r hj
            obtain ⟨hj', hne⟩ := hd j r hj
            intro hm
            rcases List.mem_cons.mp hm with rfl | hm
            · exact hne (hi.apart' hn j i _ hj' hdi)
            · exact hi.apart hn j r hj' hm
          · intro j c' code' r hj
            simp only at hj
            split at hj
            · simp at hj
            · exact hi.places j c' code' r hj
        | peek =>
          have hd : ∀ j r, (if j = i then none else t.threads j) = some (Call.next, ([] : List Instr), r) →
              Drawn t j r := by
            intro j r hj
            split at hj
            · simp at hj
            · exact hj
          refine ⟨n, ⟨hi.counter, hi.returned, fun j r hj => hi.drawn j r (hd j r hj),
            hi.nodup, fun hn j r hj => hi.apart hn j r (hd j r hj),
            fun hn j k r hj hk => hi.apart' hn j k r (hd j r hj) (hd k r hk), ?_⟩, by simp [draws, hth, Call.code, peekCode]⟩
          intro j c' code' r hj
          simp only at hj
          split at hj
          · simp at hj
          · exact hi.places j c' code' r hj
      · subst hcode
        cases c with
        | peek =>
          simp only [hth, Call.code, peekCode, exec, Option.some.injEq] at h
          subst h
          have hd : ∀ j r, (if j = i then some (Call.peek, ([] : List Instr), t.counter) else t.threads j) =
              some (Call.next, ([] : List Instr), r) → Drawn t j r := by
            intro j r hj
            split at hj
            · simp at hj
            · exact hj
          refine ⟨n, ⟨hi.counter, hi.returned, fun j r hj => hi.drawn j r (hd j r hj),
            hi.nodup, fun hn j r hj => hi.apart hn j r (hd j r hj),
            fun hn j k r hj hk => hi.apart' hn j k r (hd j r hj) (hd k r hk), ?_⟩, by simp [draws, hth, Call.code, peekCode]⟩
          intro j c' code' r hj
          simp only at hj
          split at hj
          · simp only [Option.some.injEq, Prod.mk.injEq] at hj
            exact Or.inl hj.2.1.symm
          · exact hi.places j c' code' r hj
        | next =>
          simp only [hth, Call.code, nextCode, exec, Option.some.injEq] at h
          subst h
          have hd : ∀ j r, (if j = i then some (Call.next, ([] : List Instr), t.counter) else t.threads j) =
              some (Call.next, ([] : List Instr), r) → (j = i ∧ r = t.counter) ∨ (j ≠ i ∧ Drawn t j r) := by
            intro j r hj
            split at hj
            · rename_i hji
              simp only [Option.some.injEq, Prod.mk.injEq, true_and] at hj
              exact Or.inl ⟨hji, hj.symm⟩
            · rename_i hji; exact Or.inr ⟨hji, hj⟩
          have hnew : n + 1 ≤ 2 ^ 64 → ∀ k < n, wrap (start + n) ≠ wrap (start + k) := by
            intro hn k hk he
            have := wrap_inj (by omega) (by omega) he
            omega
          refine ⟨n + 1, ⟨?_, ?_, ?_, fun hn => hi.nodup (by omega), ?_, ?_, ?_⟩,
            by simp [draws, hth, Call.code, nextCode]⟩
          · show wrap (t.counter + 1) = _
            rw [hi.counter, wrap_wrap, Nat.add_assoc]
          · intro x hx
            obtain ⟨k, hk, e⟩ := hi.returned x hx
            exact ⟨k, by omega, e⟩
          · intro j r hj
            rcases hd j r hj with ⟨_, rfl⟩ | ⟨_, hj⟩
            · exact ⟨n, by omega, hi.counter⟩
            · obtain ⟨k, hk, e⟩ := hi.drawn j r hj
              exact ⟨k, by omega, e⟩
          · intro hn j r hj
            rcases hd j r hj with ⟨_, rfl⟩ | ⟨_, hj⟩
            · intro hm
              obtain ⟨k, hk, e⟩ := hi.returned _ hm
              rw [hi.counter] at e
              exact hnew hn k hk e
            · exact hi.apart (by omega) j r hj
          · intro hn j k r hj hk
            rcases hd j r hj with ⟨rfl, rfl⟩ | ⟨hj', hj⟩
            · rcases hd k _ hk with ⟨rfl, _⟩ | ⟨_, hk⟩
              · rfl
              · obtain ⟨l, hl, e⟩ := hi.drawn _ _ hk
                rw [hi.counter] at e
                exact absurd e (hnew hn l hl)
            · rcases hd k _ hk with ⟨_, e'⟩ | ⟨_, hk⟩
              · obtain ⟨l, hl, e⟩ := hi.drawn j r hj
                rw [e', hi.counter] at e
                exact absurd e (hnew hn l hl)
              · exact hi.apart' (by omega) j k r hj hk
          · intro j c' code' r hj
            simp only at hj
            split at hj
            · simp only [Option.some.injEq, Prod.mk.injEq] at hj
              exact Or.inl hj.2.1.symm
            · exact hi.places j c' code' r hj

/-- How many calls of `next` a schedule starts. -/
def nextsStarted (as : List Act) : Nat :=
  as.countP (fun a => match a with | .start _ .next => true | _ => false)

/-- The threads that have started `next` but not drawn an id yet. -/
structure Pending (t : Tracker) (p : List Nat) : Prop where
  nodup : p.Nodup
  mem : ∀ i, i ∈ p ↔ ∃ reg, t.threads i = some (.next, nextCode, reg)

theorem act_pending {t t' : Tracker} {a : Act} (h : act t a = some t') {start n : Nat}
    (hi : TInv start n t) {p : List Nat} (hp : Pending t p) :
    ∃ p', Pending t' p' ∧
      p'.length + (draws t a).toNat = p.length + nextsStarted [a] := by
  cases a with
  | start i c =>
    simp only [act] at h
    cases hth : t.threads i with
    | some x => simp [hth] at h
    | none =>
      simp only [hth, Option.some.injEq] at h
      subst h
      have hni : i ∉ p := by
        intro hm
        obtain ⟨reg, e⟩ := (hp.mem i).mp hm
        rw [hth] at e; cases e
      cases c with
      | next =>
        refine ⟨i :: p, ⟨List.nodup_cons.mpr ⟨hni, hp.nodup⟩, ?_⟩, by simp [nextsStarted, draws]⟩
        intro j
        by_cases hj : j = i
        · simp [hj, Call.code]
        · simp [hj, hp.mem]
      | peek =>
        refine ⟨p, ⟨hp.nodup, ?_⟩, by simp [nextsStarted, draws]⟩
        intro j
        by_cases hj : j = i
        · simp [hj, hni]
        · simp [hj, hp.mem]
  | step i =>
    simp only [act] at h
    cases hth : t.threads i with
    | none => simp [hth] at h
    | some x =>
      obtain ⟨c, code, reg⟩ := x
      rcases hi.places i c code reg hth with hcode | hcode
      · subst hcode
        simp only [hth, Option.some.injEq] at h
        subst h
        have hni : i ∉ p := by
          intro hm
          obtain ⟨reg, e⟩ := (hp.mem i).mp hm
          rw [hth] at e; simp [nextCode] at e
        refine ⟨p, ⟨hp.nodup, ?_⟩, ?_⟩
        · intro j
          by_cases hj : j = i
          · simp [hj, hni]
          · simp [hj, hp.mem]
        · simp [draws, hth, nextsStarted]
      · subst hcode
        cases c with
        | peek =>
          simp only [hth, Call.code, peekCode, Option.some.injEq] at h
          subst h
          have hni : i ∉ p := by
            intro hm
            obtain ⟨reg, e⟩ := (hp.mem i).mp hm
            rw [hth] at e; simp at e
          refine ⟨p, ⟨hp.nodup, ?_⟩, ?_⟩
          · intro j
            by_cases hj : j = i
            · simp [hj, hni]
            · simp [hj, hp.mem]
          · simp [draws, hth, nextsStarted]
        | next =>
          have hmem : i ∈ p := (hp.mem i).mpr ⟨reg, hth⟩
          simp only [hth, Call.code, nextCode, Option.some.injEq] at h
          subst h
          refine ⟨p.erase i, ⟨hp.nodup.erase i, ?_⟩, ?_⟩
          · intro j
            rw [hp.nodup.mem_erase_iff, hp.mem]
            by_cases hj : j = i
            · simp [hj, nextCode]
            · simp [hj]
          · have hpos := List.length_pos_of_mem hmem
            have hdr : draws t (.step i) = true := by simp [draws, hth, Call.code, nextCode]
            rw [hdr, List.length_erase_of_mem hmem]
            simp [nextsStarted]
            omega

theorem runActs_inv {as : List Act} : ∀ {t t' : Tracker} {start n : Nat} {p : List Nat},
    runActs t as = some t' → TInv start n t → Pending t p →
    ∃ n' p', TInv start n' t' ∧ Pending t' p' ∧ n' + p'.length = n + p.length + nextsStarted as := by
  induction as with
  | nil =>
    intro t t' start n p h hi hp
    simp only [runActs, Option.some.injEq] at h
    subst h
    exact ⟨n, p, hi, hp, by simp [nextsStarted]⟩
  | cons a as ih =>
    intro t t' start n p h hi hp
    simp only [runActs] at h
    cases ha : act t a with
    | none => simp [ha] at h
    | some t1 =>
      simp only [ha, Option.bind_some] at h
      obtain ⟨n1, hi1, hn1⟩ := act_inv ha hi
      obtain ⟨p1, hp1, hl1⟩ := act_pending ha hi hp
      obtain ⟨n2, p2, hi2, hp2, hl2⟩ := ih h hi1 hp1
      refine ⟨n2, p2, hi2, hp2, ?_⟩
      have hsplit : nextsStarted (a :: as) = nextsStarted [a] + nextsStarted as := by
        simp only [nextsStarted, List.countP_cons, List.countP_nil]; omega
      rw [hsplit]
      omega

theorem newAt_inv (start : Nat) : TInv start 0 (newAt start) :=
  ⟨rfl, by simp [newAt], by simp [newAt, Drawn], by simp [newAt], by simp [newAt], by simp [newAt, Drawn],
    by simp [newAt]⟩

theorem newAt_pending (start : Nat) : Pending (newAt start) [] := ⟨by simp, by simp [newAt]⟩

/-- **C36, trackers.**  Whatever the threads do, and however they are interleaved, no two calls of
`next` on one tracker return the same id, unless there are more than 2^64 of them. -/
theorem C36_tracker (start : Nat) (as : List Act) (t : Tracker) (h : runActs (newAt start) as = some t)
    (hn : nextsStarted as ≤ 2 ^ 64) : t.returned.Nodup := by
  obtain ⟨n, p, hi, _, hl⟩ := runActs_inv h (newAt_inv start) (newAt_pending start)
  simp only [List.length_nil, Nat.zero_add] at hl
  exact hi.nodup (by omega)

/-- The ids come from the counter: each one is the start plus the number of an earlier call. -/
theorem C36_tracker_range (start : Nat) (as : List Act) (t : Tracker)
    (h : runActs (newAt start) as = some t) :
    ∀ id ∈ t.returned, ∃ k < nextsStarted as, id = (start + k) % 2 ^ 64 := by
  obtain ⟨n, p, hi, _, hl⟩ := runActs_inv h (newAt_inv start) (newAt_pending start)
  simp only [List.length_nil, Nat.zero_add] at hl
  intro id hid
  obtain ⟨k, hk, e⟩ := hi.returned id hid
  exact ⟨k, by omega, e⟩

/-- Every call can be completed: a thread that has started `next` returns after two steps of its own,
whatever the state. -/
theorem C36_tracker_progress (t : Tracker) (i : Nat) (h : t.threads i = none) :
    ∃ t', runActs t [.start i .next, .step i, .step i] = some t' ∧
      t'.returned = t.counter :: t.returned ∧ t'.threads i = none := by
  refine ⟨{ counter := wrap (t.counter + 1), threads := fun j => if j = i then none else
        (if j = i then some (Call.next, [], t.counter) else if j = i then some (.next, nextCode, 0)
          else t.threads j), returned := t.counter :: t.returned }, ?_, rfl, by simp⟩
  simp [runActs, act, h, Call.code, nextCode, exec]

/-- Two threads that overlap. -/
example : ∃ t, runActs (newAt 5) [.start 0 .next, .start 1 .next, .step 1, .step 0, .start 2 .peek,
    .step 2, .step 0, .step 1, .step 2] = some t ∧ t.returned = [5, 6] ∧ nextsStarted [.start 0 .next,
    .start 1 .next, .step 1, .step 0, .start 2 .peek, .step 2, .step 0, .step 1, .step 2] ≤ 2 ^ 64 :=
  ⟨_, rfl, rfl, by decide⟩

/-! ## Freezing the symbol table -/

/-- The next id that `add` or `new_name` will hand out. -/
def Symtab.next : Symtab → Nat
  | .live n => n
  | .frozen _ o => o

theorem symRun_seq {ops : List SymOp} (hop : .innerNext ∉ ops) : ∀ {s : Symtab} {start : Nat} {ids : List Nat},
    s.next = wrap start → symRun s ops = some ids →
    ids = (List.range ids.length).map (fun k => wrap (start + k)) := by
  induction ops with
  | nil => intro s start ids _ h; simp only [symRun, Option.some.injEq] at h; simp [← h]
  | cons op ops ih =>
    intro s start ids hs h
    simp only [List.mem_cons, not_or] at hop
    simp only [symRun, Option.bind_eq_bind, Option.bind_eq_some_iff] at h
    obtain ⟨⟨s', id⟩, hst, ids', hr, he⟩ := h
    simp only [Option.some.injEq] at he
    subst he
    have hcase : (id = none ∧ s'.next = s.next) ∨ (id = some s.next ∧ s'.next = wrap (s.next + 1)) := by
      cases s <;> cases op <;> simp [symStep] at hst <;> simp_all [Symtab.next] <;>
        (obtain ⟨rfl, rfl⟩ := hst; simp [Symtab.next])
    rcases hcase with ⟨rfl, hn⟩ | ⟨rfl, hn⟩
    · simpa using ih hop.2 (by rw [hn, hs]) hr
    · have := ih hop.2 (start := start + 1) (by rw [hn, hs, wrap_wrap]) hr
      simp only [Option.toList_some, List.cons_append, List.nil_append, List.length_cons]
      rw [List.range_succ_eq_map, List.map_cons, List.map_map, hs]
      simp only [Nat.add_zero]
      congr 1
      conv => lhs; rw [this]
      apply List.map_congr_left
      intro k _
      simp [Nat.add_assoc, Nat.add_comm 1 k]

/-- **C36, symbol table.**  However often the table is frozen and unfrozen, no id is given to two
things, as long as a frozen table is only asked for new names. -/
theorem C36_symtab_partial (start : Nat) (ops : List SymOp) (ids : List Nat)
    (hstart : start < 2 ^ 64) (h : symRun (.live start) ops = some ids) (hop : .innerNext ∉ ops)
    (hlen : ids.length ≤ 2 ^ 64) : ids.Nodup := by
  have hs : Symtab.next (.live start) = wrap start := by
    simp [Symtab.next, wrap, Nat.mod_eq_of_lt hstart]
  rw [symRun_seq hop hs h, List.nodup_iff_pairwise_ne, List.pairwise_map]
  refine List.Pairwise.imp_of_mem ?_ (List.nodup_range (n := ids.length))
  intro a b ha hb hne e
  simp only [List.mem_range] at ha hb
  exact hne (wrap_inj (by omega) (by omega) e)

example : symRun (.live 7) [.add, .freeze, .newName, .newName, .unfreeze, .add] = some [7, 8, 9, 10] := rfl

/-- **Departure from C36.**  The tracker of the table inside a frozen one is accessible, and hands out
the ids that the frozen table hands out as well.  Code generation passes it to the inliner
(spade-compiler/src/lib.rs:558,737), while the lowering of pipelines and the monomorphisation take their
names from the frozen table (spade-hir-lowering/src/substitution.rs:109, monomorphisation.rs:125). -/
theorem C36_counterexample_inner_tracker :
    ∃ ids, symRun (.live 7) [.freeze, .newName, .innerNext] = some ids ∧ ¬ ids.Nodup :=
  ⟨[7, 7], rfl, by decide⟩

end Spade.Ids

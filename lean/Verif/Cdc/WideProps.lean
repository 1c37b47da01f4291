import Verif.Cdc.WideInv
/-! # Wide values are transferred unharmed, in order, and get through -/
namespace Spade.Cdc

variable {T : Type} [DecidableEq T]

/-! ## Values are in order -/

/-- `L` are the initial value and the inputs so far; the value in transfer is number `k` and the
output is number `j` of them. -/
def Inv (s : Wide T) (L : List T) (k j : Nat) : Prop :=
  ∃ p val, AtPhase s p val ∧ L[k]? = some val ∧ L[j]? = some s.out ∧ j ≤ k

theorem lt_of_getElem? {α} {L : List α} {i : Nat} {v : α} (h : L[i]? = some v) : i < L.length := by
  rcases Nat.lt_or_ge i L.length with h' | h'
  · exact h'
  · rw [List.getElem?_eq_none h'] at h; cases h

theorem append_get {α} {L M : List α} {i : Nat} {v : α} (h : L[i]? = some v) :
    (L ++ M)[i]? = some v := by
  rw [List.getElem?_append_left (lt_of_getElem? h)]; exact h

theorem Inv.step {s : Wide T} {L : List T} {k j : Nat} (h : Inv s L k j) (e : Edge T)
    (he : e.running = true) :
    ∃ k' j', Inv (s.step e) (L ++ e.input.toList) k' j' ∧ j ≤ j' := by
  obtain ⟨p, val, hp, hk, hj, hle⟩ := h
  obtain ⟨q, -, hq, ho⟩ := hp.step e he
  have hjl := lt_of_getElem? hj
  -- the new value in transfer
  have hk' : ∃ k', k ≤ k' ∧ (L ++ e.input.toList)[k']? = some (newVal p q val e.input) := by
    unfold newVal
    cases hi : e.input with
    | none => exact ⟨k, Nat.le_refl _, by simpa using hk⟩
    | some i =>
      dsimp only
      split
      · exact ⟨L.length, Nat.le_of_lt (lt_of_getElem? hk), by simp⟩
      · exact ⟨k, Nat.le_refl _, append_get hk⟩
  obtain ⟨k', hkk, hk'⟩ := hk'
  by_cases hc : p = 3 ∧ q ≠ 3
  · refine ⟨k', k, ⟨q, _, hq, hk', ?_, hkk⟩, hle⟩
    rw [ho, newOut, if_pos hc]
    exact append_get hk
  · refine ⟨k', j, ⟨q, _, hq, hk', ?_, by omega⟩, Nat.le_refl _⟩
    rw [ho, newOut, if_neg hc]
    exact append_get hj

theorem Inv.history : ∀ (evs : List (Edge T)) {s : Wide T} {L : List T} {k j : Nat},
    Inv s L k j → (∀ e ∈ evs, e.running = true) →
    ∃ pos : Nat → Nat, pos 0 = j ∧ (∀ n, pos n ≤ pos (n + 1)) ∧
      ∀ n ≤ evs.length, (L ++ inputs (evs.take n))[pos n]? = some (s.run (evs.take n)).out
  | [], s, L, k, j, h, _ => by
    obtain ⟨p, val, hp, hk, hj, hle⟩ := h
    refine ⟨fun _ => j, rfl, fun _ => Nat.le_refl _, ?_⟩
    intro n hn
    simpa [inputs, Wide.run] using hj
  | e :: es, s, L, k, j, h, hr => by
    obtain ⟨k', j', h', hjj⟩ := h.step e (hr e (by simp))
    obtain ⟨pos, h0, hm, hall⟩ := Inv.history es h' fun e' he' => hr e' (by simp [he'])
    refine ⟨fun n => match n with | 0 => j | n + 1 => pos n, rfl, ?_, ?_⟩
    · intro n
      cases n with
      | zero => simpa [h0] using hjj
      | succ n => exact hm n
    · intro n hn
      cases n with
      | zero =>
        obtain ⟨p, val, hp, hk, hj, hle⟩ := h
        simpa [inputs, Wide.run] using hj
      | succ n =>
        have := hall n (by simpa using hn)
        rw [List.take_succ_cons]
        show (L ++ inputs (e :: es.take n))[pos n]? = some ((s.step e).run (es.take n)).out
        rw [← this]
        congr 1
        rw [List.append_assoc]
        congr 1
        unfold inputs
        cases hi : e.input <;> simp [hi]

/-! ## Reset -/

/-- The registers during a reset. -/
structure Cleared (s : Wide T) (x : T) (first : Bool) (ks kd : Nat) : Prop where
  tx : (first = true ∨ 1 ≤ ks) → s.tx = .init
  rx : (first = true ∨ 1 ≤ kd) → s.rx = .waitReceive ∧ s.out = x
  a1 : first = true → 1 ≤ ks → s.a1 = false
  a2 : first = true → 2 ≤ ks → s.a2 = false
  v1 : first = true → 1 ≤ kd → s.v1 = false
  v2 : first = true → 2 ≤ kd → s.v2 = false

/-- An edge of the source clock. -/
def Edge.s (e : Edge T) : Nat := if e.isSrc then 1 else 0
/-- An edge of the destination clock. -/
def Edge.d (e : Edge T) : Nat := if e.isDst then 1 else 0

omit [DecidableEq T] in
theorem countP_src (e : Edge T) (es : List (Edge T)) :
    (e :: es).countP Edge.isSrc = e.s + es.countP Edge.isSrc := by
  rw [List.countP_cons, Edge.s]; omega

omit [DecidableEq T] in
theorem countP_dst (e : Edge T) (es : List (Edge T)) :
    (e :: es).countP Edge.isDst = e.d + es.countP Edge.isDst := by
  rw [List.countP_cons, Edge.d]; omega

theorem Cleared.step {s : Wide T} {x : T} {first : Bool} {ks kd : Nat} (h : Cleared s x first ks kd)
    (e : Edge T) (he : e.Resetting x) : Cleared (s.step e) x first (ks + e.s) (kd + e.d) := by
  have hack : first = true → s.rx.ack = false := fun hf => by rw [(h.rx (.inl hf)).1]; rfl
  have hval : first = true → s.tx.valid = false := fun hf => by rw [h.tx (.inl hf)]; rfl
  cases e with
  | src i rst =>
    simp only [Edge.Resetting] at he; subst he
    exact ⟨fun _ => rfl, h.rx, fun hf _ => hack hf,
      fun hf hk => h.a1 hf (by simp [Edge.s, Edge.isSrc] at hk; omega), h.v1, h.v2⟩
  | dst i rst =>
    simp only [Edge.Resetting] at he; obtain ⟨rfl, rfl⟩ := he
    exact ⟨h.tx, fun _ => ⟨rfl, rfl⟩, h.a1, h.a2, fun hf _ => hval hf,
      fun hf hk => h.v1 hf (by simp [Edge.d, Edge.isDst] at hk; omega)⟩
  | both i srst init drst l =>
    simp only [Edge.Resetting] at he; obtain ⟨rfl, rfl, rfl⟩ := he
    refine ⟨fun _ => rfl, fun _ => ⟨rfl, rfl⟩, fun hf _ => ?_,
      fun hf hk => h.a1 hf (by simp [Edge.s, Edge.isSrc] at hk; omega), fun hf _ => ?_,
      fun hf hk => h.v1 hf (by simp [Edge.d, Edge.isDst] at hk; omega)⟩
    · show (if l.ack then Rx.ack .waitReceive else s.rx.ack) = false
      rw [hack hf]; cases l.ack <;> rfl
    · show (if l.valid then Tx.valid (T := T) .init else s.tx.valid) = false
      rw [hval hf]; cases l.valid <;> rfl

theorem Cleared.run {x : T} {first : Bool} : ∀ (es : List (Edge T)) {s : Wide T} {ks kd : Nat},
    Cleared s x first ks kd → (∀ e ∈ es, e.Resetting x) →
    Cleared (s.run es) x first (ks + es.countP Edge.isSrc) (kd + es.countP Edge.isDst)
  | [], _, _, _, h, _ => h
  | e :: es, s, ks, kd, h, he => by
    have := Cleared.run es (h.step e (he e (by simp))) fun e' he' => he e' (by simp [he'])
    rw [countP_src, countP_dst, ← Nat.add_assoc, ← Nat.add_assoc]
    exact this

theorem Wide.run_append : ∀ (a b : List (Edge T)) (s : Wide T), s.run (a ++ b) = (s.run a).run b
  | [], _, _ => rfl
  | e :: a, b, s => Wide.run_append a b (s.step e)

theorem phase_of_reset (s : Wide T) (x : T) (pre : List (Edge T)) (h : LongReset x pre) :
    AtPhase (s.run pre) 13 x ∧ (s.run pre).out = x := by
  obtain ⟨hall, a, b, rfl, h1, h2, h3, h4⟩ := h
  have c1 := Cleared.run a (s := s) (x := x) (first := false) (ks := 0) (kd := 0)
    ⟨by simp, by simp, by simp, by simp, by simp, by simp⟩ fun e he => hall e (by simp [he])
  have t1 := c1.tx (.inr (by omega))
  have t2 := c1.rx (.inr (by omega))
  have c2 := Cleared.run b (s := s.run a) (x := x) (first := true) (ks := 0) (kd := 0)
    ⟨fun _ => t1, fun _ => t2, by omega, by omega, by omega, by omega⟩
    fun e he => hall e (by simp [he])
  rw [Wide.run_append]
  exact ⟨⟨by omega, c2.tx (.inl rfl), (c2.rx (.inl rfl)).1, c2.a1 rfl (by omega), c2.a2 rfl (by omega),
    c2.v1 rfl (by omega), c2.v2 rfl (by omega)⟩, (c2.rx (.inl rfl)).2⟩

/-- **C56.** "This guarantees that all values sent between the domains are valid, but some values may
be skipped": from any state, after a long reset with initial value `x`, whatever edges of the clocks
come in whatever order or at the same time, the output is always the initial value or one that the
input had at an edge of the source clock, and never an earlier one than it was before: after `n`
edges it is number `pos n`. -/
theorem C56_sync_wide_valid_and_in_order (s : Wide T) (x : T) (pre evs : List (Edge T))
    (hpre : LongReset x pre) (hrun : ∀ e ∈ evs, e.running = true) :
    ∃ pos : Nat → Nat, (∀ n, pos n ≤ pos (n + 1)) ∧ ∀ n ≤ evs.length,
      (x :: inputs (evs.take n))[pos n]? = some ((s.run pre).run (evs.take n)).out := by
  obtain ⟨hp, ho⟩ := phase_of_reset s x pre hpre
  obtain ⟨pos, -, hm, hall⟩ := Inv.history evs (s := s.run pre) (L := [x]) (k := 0) (j := 0)
    ⟨13, x, hp, rfl, by rw [ho]; rfl, Nat.le_refl _⟩ hrun
  exact ⟨pos, hm, fun n hn => by simpa using hall n hn⟩

/-! ## Values get through -/

/-- How much of the present input has got through: nothing (0), it is in transfer (1), or it is the
output (2). -/
def newStage (p q st : Nat) : Nat :=
  if st = 2 then 2 else if st = 1 then (if p = 3 ∧ q ≠ 3 then 2 else 1)
  else if reads p q then 1 else 0

/-- How often the turn has to change until the input is the output. -/
def rank (p st : Nat) : Nat :=
  if st = 2 then 0
  else if st = 1 then (if p = 0 then 2 else 1)
  else if p = 0 then 6 else if p ≤ 3 then 5 else if p ≤ 6 then 4 else if p ≤ 9 then 3 else 2

/-- How many edges of one clock are needed until it is the turn of the other. -/
def needs (p : Nat) : Nat :=
  if p = 0 then 1 else if p ≤ 3 then 4 - p else if p ≤ 6 then 7 - p else if p ≤ 9 then 10 - p
  else if p ≤ 12 then 14 - p else 2

/-- Stage 1 is only between reading a value and setting the output. -/
def StageOk (p st : Nat) : Prop := st = 1 → p ≤ 3

theorem rank_step (src dst : Bool) {p q st : Nat} (hp : p < 14) (hst : st < 3)
    (hok : StageOk p st) (hf : Follows src dst p q) :
    StageOk q (newStage p q st) ∧ newStage p q st < 3 ∧
    (newStage p q st = 2 → st = 2 ∨ p = 3 ∧ q ≠ 3 ∧ st = 1) ∧
    (newStage p q st = 1 → st = 1 ∨ reads p q = true ∧ src = true) ∧
    rank q (newStage p q st) ≤ rank p st ∧
    (rank q (newStage p q st) = rank p st → rank p st ≠ 0 → srcTurn q = srcTurn p ∧
      needs q + (if srcTurn p then (if src then 1 else 0) else (if dst then 1 else 0)) ≤ needs p) := by
  have hs : st = 0 ∨ st = 1 ∨ st = 2 := by omega
  unfold Follows at hf
  rcases phases hp with h | h | h | h | h | h | h | h | h | h | h | h | h | h <;> subst h <;>
    cases src <;> cases dst <;>
    simp [srcTurn, nextPhase] at hf <;>
    rcases hs with h | h | h <;> subst h <;>
    (try (simp [StageOk] at hok)) <;>
    (try (rcases hf with h | h)) <;> subst_vars <;>
    simp [newStage, StageOk, reads, rank, needs, srcTurn]

theorem rank_parity {p st : Nat} (hp : p < 14) (hst : st < 3) (hok : StageOk p st)
    (h : rank p st ≠ 0) :
    srcTurn p = decide (rank p st % 2 = 0) ∧ 1 ≤ needs p ∧
      (srcTurn p = true → needs p ≤ 4) ∧ (srcTurn p = false → needs p ≤ 3) ∧ rank p st ≤ 6 := by
  have hs : st = 0 ∨ st = 1 ∨ st = 2 := by omega
  rcases phases hp with h' | h' | h' | h' | h' | h' | h' | h' | h' | h' | h' | h' | h' | h' <;>
    subst h' <;> rcases hs with h' | h' | h' <;> subst h' <;>
    (try (simp [StageOk] at hok)) <;> simp [rank, needs, srcTurn] at *

/-- Progress of the input `y`. -/
def Live (y : T) (s : Wide T) (p st : Nat) : Prop :=
  ∃ val, AtPhase s p val ∧ st < 3 ∧ StageOk p st ∧ (st ≠ 0 → val = y) ∧ (st = 2 → s.out = y)

theorem Live.step {y : T} {s : Wide T} {p st : Nat} (h : Live y s p st) (e : Edge T)
    (he : e.running = true) (hy : ∀ i, e.input = some i → i = y) :
    ∃ q, Follows e.isSrc e.isDst p q ∧ Live y (s.step e) q (newStage p q st) := by
  obtain ⟨val, hp, hst, hok, hv, ho⟩ := h
  obtain ⟨q, hf, hq, hout⟩ := hp.step e he
  obtain ⟨r1, r2, r3, r4, -⟩ := rank_step _ _ hp.lt hst hok hf
  refine ⟨q, hf, _, hq, r2, r1, ?_, ?_⟩
  · intro hne
    by_cases h0 : st = 0
    · subst h0
      have : newStage p q 0 = 1 := by
        rcases (show newStage p q 0 = 1 ∨ newStage p q 0 = 2 by omega) with h | h
        · exact h
        · rcases r3 h with h | h
          · omega
          · omega
      rcases r4 this with h | ⟨hr, hs⟩
      · omega
      · unfold newVal
        cases hi : e.input with
        | none => cases e <;> simp [Edge.isSrc] at hs <;> simp [Edge.input] at hi
        | some i => simp [hr, hy i hi]
    · have hv' := hv h0
      unfold newVal
      cases hi : e.input with
      | none => exact hv'
      | some i =>
        dsimp only
        split
        · exact hy i hi
        · exact hv'
  · intro h2
    rw [hout, newOut]
    split
    · exact hv (by rcases r3 h2 with h | h <;> omega)
    · next hc =>
      rcases r3 h2 with h | h
      · exact ho h
      · exact absurd ⟨h.1, h.2.1⟩ hc

/-- The rank gets smaller if the clock whose turn it is rises often enough. -/
theorem Live.progress {y : T} : ∀ (es : List (Edge T)) {s : Wide T} {p st : Nat}, Live y s p st →
    (∀ e ∈ es, e.running = true ∧ ∀ i, e.input = some i → i = y) →
    ∃ p' st', Live y (s.run es) p' st' ∧ rank p' st' ≤ rank p st ∧
      (rank p st ≠ 0 →
        needs p ≤ (if srcTurn p then es.countP Edge.isSrc else es.countP Edge.isDst) →
        rank p' st' < rank p st)
  | [], s, p, st, h, _ => by
    refine ⟨p, st, h, Nat.le_refl _, ?_⟩
    intro hne hn
    obtain ⟨val, hp, hst, hok, -⟩ := h
    have := (rank_parity hp.lt hst hok hne).2.1
    simp at hn
    omega
  | e :: es, s, p, st, h, hes => by
    have he := hes e (by simp)
    obtain ⟨q, hf, hq⟩ := h.step e he.1 he.2
    obtain ⟨p', st', hl, hle, hlt⟩ := hq.progress es fun e' he' => hes e' (by simp [he'])
    obtain ⟨val, hp, hst, hok, -⟩ := h
    obtain ⟨-, -, -, -, r5, r6⟩ := rank_step _ _ hp.lt hst hok hf
    refine ⟨p', st', hl, by omega, ?_⟩
    intro hne hn
    by_cases heq : rank q (newStage p q st) = rank p st
    · obtain ⟨ht, hneed⟩ := r6 heq hne
      rw [← heq]
      apply hlt (by omega)
      rw [ht]
      rw [countP_src, countP_dst] at hn
      unfold Edge.s Edge.d at hn
      cases hc : srcTurn p <;> simp only [hc, if_true, if_false, Bool.false_eq_true] at hn hneed ⊢ <;>
        omega
    · omega

theorem Live.round {y : T} {es : List (Edge T)} {s : Wide T} {p st : Nat} (h : Live y s p st)
    (hr : Round es) (hes : ∀ e ∈ es, e.running = true ∧ ∀ i, e.input = some i → i = y) :
    ∃ p' st', Live y (s.run es) p' st' ∧ rank p' st' ≤ (rank p st - 1) / 2 * 2 := by
  obtain ⟨a, b, rfl, ha, hb⟩ := hr
  obtain ⟨p1, st1, h1, l1, t1⟩ := h.progress a fun e he => hes e (by simp [he])
  obtain ⟨p2, st2, h2, l2, t2⟩ := h1.progress b fun e he => hes e (by simp [he])
  rw [Wide.run_append]
  refine ⟨p2, st2, h2, ?_⟩
  obtain ⟨val, hp, hst, hok, -⟩ := h
  obtain ⟨val1, hp1, hst1, hok1, -⟩ := h1
  by_cases h0 : rank p st = 0
  · omega
  · obtain ⟨par, n1, n2, n3, -⟩ := rank_parity hp.lt hst hok h0
    by_cases he : rank p st % 2 = 0
    · -- it is the turn of the source clock
      rw [he] at par
      have hlt : rank p1 st1 < rank p st := t1 h0 (by rw [par]; simp; have := n2 par; omega)
      by_cases h01 : rank p1 st1 = 0
      · omega
      · obtain ⟨par1, m1, m2, m3, -⟩ := rank_parity hp1.lt hst1 hok1 h01
        by_cases he1 : rank p1 st1 % 2 = 0
        · omega
        · have hf : srcTurn p1 = false := by rw [par1]; simpa using he1
          have := t2 h01 (by rw [hf]; simp; have := m3 hf; omega)
          omega
    · by_cases h01 : rank p1 st1 = 0
      · omega
      · obtain ⟨par1, m1, m2, m3, -⟩ := rank_parity hp1.lt hst1 hok1 h01
        by_cases he1 : rank p1 st1 % 2 = 0
        · omega
        · have hf : srcTurn p1 = false := by rw [par1]; simpa using he1
          have := t2 h01 (by rw [hf]; simp; have := m3 hf; omega)
          omega

theorem phase_run : ∀ (evs : List (Edge T)) {s : Wide T} {p : Nat} {val : T}, AtPhase s p val →
    (∀ e ∈ evs, e.running = true) → ∃ p' val', AtPhase (s.run evs) p' val'
  | [], _, p, val, h, _ => ⟨p, val, h⟩
  | e :: es, s, p, val, h, hr => by
    obtain ⟨q, -, hq, -⟩ := h.step e (hr e (by simp))
    exact phase_run es hq fun e' he' => hr e' (by simp [he'])

/-- **C56.** A value that stays gets through: if, at some time after a long reset, the input is `y` for
three rounds of edges of the clocks, then the output is `y`. -/
theorem C56_sync_wide_delivers (s : Wide T) (x y : T) (pre evs a b c : List (Edge T))
    (hpre : LongReset x pre) (hrun : ∀ e ∈ evs ++ (a ++ b ++ c), e.running = true)
    (ha : Round a) (hb : Round b) (hc : Round c) (hy : ∀ i ∈ inputs (a ++ b ++ c), i = y) :
    ((s.run pre).run (evs ++ (a ++ b ++ c))).out = y := by
  have hes : ∀ e ∈ a ++ b ++ c, e.running = true ∧ ∀ i, e.input = some i → i = y := fun e he =>
    ⟨hrun e (List.mem_append_right _ he), fun i hi =>
      hy i (List.mem_filterMap.mpr ⟨e, he, hi⟩)⟩
  obtain ⟨p, val, hp⟩ := phase_run evs (phase_of_reset s x pre hpre).1 fun e he =>
    hrun e (List.mem_append_left _ he)
  have h0 : Live y ((s.run pre).run evs) p 0 := ⟨val, hp, by omega, fun h => by omega,
    fun h => absurd rfl h, fun h => by omega⟩
  have r0 : rank p 0 ≤ 6 := by
    by_cases h : rank p 0 = 0
    · omega
    · exact (rank_parity hp.lt (by omega) (fun h => by omega) h).2.2.2.2
  obtain ⟨p1, st1, h1, r1⟩ := h0.round ha fun e he => hes e (by simp [he])
  obtain ⟨p2, st2, h2, r2⟩ := h1.round hb fun e he => hes e (by simp [he])
  obtain ⟨p3, st3, h3, r3⟩ := h2.round hc fun e he => hes e (by simp [he])
  rw [Wide.run_append, Wide.run_append, Wide.run_append]
  have hz : rank p3 st3 = 0 := by omega
  obtain ⟨val3, hp3, hst3, hok3, -, ho⟩ := h3
  apply ho
  unfold rank at hz
  split at hz
  · assumption
  · exfalso
    split at hz
    · split at hz <;> omega
    · split at hz
      · omega
      · split at hz
        · omega
        · split at hz
          · omega
          · split at hz <;> omega

end Spade.Cdc

import Verif.Cdc.HandProps
/-! # The theorems about `handshake` -/
namespace Spade.Cdc

variable {T : Type} [DecidableEq T]

/-! ## Progress -/

/-- How often the turn has to change until the transfer is over. -/
def hRank (p : Nat) : Nat :=
  if p = 0 then 0 else if p = 1 then 5 else if p ≤ 4 then 4 else if p ≤ 7 then 3
  else if p ≤ 10 then 2 else 1

/-- How many edges of one clock are needed until it is the turn of the other. -/
def hNeeds (p : Nat) : Nat :=
  if p = 1 then 1 else if p ≤ 4 then 5 - p else if p ≤ 7 then 8 - p else if p ≤ 10 then 11 - p
  else 13 - p

theorem hRank_step (src dst : Bool) {p q : Nat} (hp : p < 13) (hf : HFollows src dst p q) :
    hRank q ≤ hRank p ∧ (hRank q = hRank p → hRank p ≠ 0 → hTurn q = hTurn p ∧
      hNeeds q + (if hTurn p then (if src then 1 else 0) else (if dst then 1 else 0)) ≤ hNeeds p) := by
  unfold HFollows at hf
  rcases hphases hp with h | h | h | h | h | h | h | h | h | h | h | h | h <;> subst h <;>
    cases src <;> cases dst <;> simp [hTurn, hNext] at hf <;>
    (try (rcases hf with h | h)) <;> subst_vars <;> simp [hRank, hNeeds, hTurn]

theorem hRank_facts {p : Nat} (hp : p < 13) :
    (hRank p ≠ 0 → hTurn p = decide (hRank p % 2 = 1) ∧ 1 ≤ hNeeds p) ∧
    (hRank p = 5 → hNeeds p ≤ 1) ∧ (hRank p = 4 → hNeeds p ≤ 3) ∧ (hRank p = 3 → hNeeds p ≤ 3) ∧
    (hRank p = 2 → hNeeds p ≤ 3) ∧ (hRank p = 1 → hNeeds p ≤ 2) ∧ hRank p ≤ 5 ∧
    (hRank p = 0 → p = 0) := by
  rcases hphases hp with h | h | h | h | h | h | h | h | h | h | h | h | h <;> subst h <;>
    simp [hRank, hNeeds, hTurn]

omit [DecidableEq T] in
theorem hcount_src (e : HEdge T) (es : List (HEdge T)) : (e :: es).countP HEdge.isSrc =
    es.countP HEdge.isSrc + (if e.isSrc then 1 else 0) := List.countP_cons ..

omit [DecidableEq T] in
theorem hcount_dst (e : HEdge T) (es : List (HEdge T)) : (e :: es).countP HEdge.isDst =
    es.countP HEdge.isDst + (if e.isDst then 1 else 0) := List.countP_cons ..

/-- What is received while nothing is sent, and how far the transfer gets. -/
theorem HInv.wait : ∀ (es : List (HEdge T)) {s : Hand T} {p : Nat} {pend : List T},
    HInv s p pend → Quiet es →
    ∃ q pend', HInv (s.run es) q pend' ∧ pend = received (s.trace es) ++ pend' ∧
      hRank q ≤ hRank p ∧
      (hRank p ≠ 0 →
        hNeeds p ≤ (if hTurn p then es.countP HEdge.isSrc else es.countP HEdge.isDst) →
        hRank q < hRank p)
  | [], s, p, pend, h, _ => by
    refine ⟨p, pend, h, rfl, Nat.le_refl _, ?_⟩
    intro hne hn
    obtain ⟨val, hp, -⟩ := h
    have := ((hRank_facts hp.lt).1 hne).2
    simp at hn
    omega
  | e :: es, s, p, pend, h, hq => by
    have he := hq e (by simp)
    obtain ⟨q, pend1, hf, h1, hpend⟩ := h.quiet e he.1 he.2
    obtain ⟨q', pend', h', hp', hle, hlt⟩ := h1.wait es fun e' he' => hq e' (by simp [he'])
    obtain ⟨val, hp, -⟩ := h
    obtain ⟨r1, r2⟩ := hRank_step _ _ hp.lt hf
    refine ⟨q', pend', h', ?_, by omega, ?_⟩
    · rw [hpend, hp', ← List.append_assoc]; rfl
    · intro hne hn
      by_cases heq : hRank q = hRank p
      · obtain ⟨ht, hneed⟩ := r2 heq hne
        rw [← heq]
        apply hlt (by omega)
        rw [ht]
        rw [hcount_src, hcount_dst] at hn
        cases hc : hTurn p <;> simp only [hc, if_true, if_false, Bool.false_eq_true] at hn hneed ⊢ <;>
          omega
      · omega

theorem Hand.run_append : ∀ (a b : List (HEdge T)) (s : Hand T), s.run (a ++ b) = (s.run a).run b
  | [], _, _ => rfl
  | e :: a, b, s => Hand.run_append a b (s.step e)

theorem received_append : ∀ (a b : List (HEdge T)) (s : Hand T),
    received (s.trace (a ++ b)) = received (s.trace a) ++ received ((s.run a).trace b)
  | [], _, _ => rfl
  | e :: a, b, s => by
    show _ ++ received ((s.step e).trace (a ++ b)) = _
    rw [received_append a b]
    show _ = (_ ++ _) ++ _
    rw [List.append_assoc]; rfl

omit [DecidableEq T] in
theorem Quiet.left {a b : List (HEdge T)} (h : Quiet (a ++ b)) : Quiet a :=
  fun e he => h e (by simp [he])
omit [DecidableEq T] in
theorem Quiet.right {a b : List (HEdge T)} (h : Quiet (a ++ b)) : Quiet b :=
  fun e he => h e (by simp [he])

/-- After a gap the transfer is over, and what was in transfer has been received. -/
theorem HInv.gap {es : List (HEdge T)} {s : Hand T} {p : Nat} {pend : List T} (h : HInv s p pend)
    (hq : Quiet es) (hg : Gap es) : HInv (s.run es) 0 [] ∧ received (s.trace es) = pend := by
  obtain ⟨a, b, c, d, e, rfl, ha, hb, hc, hd, he⟩ := hg
  have key : ∀ {es : List (HEdge T)} {s : Hand T} {p : Nat} {pend : List T} (k : Nat),
      HInv s p pend → Quiet es → hRank p ≤ k + 1 →
      (k = 4 → 1 ≤ es.countP HEdge.isSrc) → (k = 3 → 3 ≤ es.countP HEdge.isDst) →
      (k = 2 → 3 ≤ es.countP HEdge.isSrc) → (k = 1 → 3 ≤ es.countP HEdge.isDst) →
      (k = 0 → 2 ≤ es.countP HEdge.isSrc) → k ≤ 4 →
      ∃ q pend', HInv (s.run es) q pend' ∧ pend = received (s.trace es) ++ pend' ∧ hRank q ≤ k := by
    intro es s p pend k h hq hr h4 h3 h2 h1 h0 hk
    obtain ⟨q, pend', hi, hp, hle, hlt⟩ := h.wait es hq
    refine ⟨q, pend', hi, hp, ?_⟩
    by_cases hk' : hRank p ≤ k
    · omega
    · have hk'' : hRank p = k + 1 := by omega
      obtain ⟨val, hph, -⟩ := h
      obtain ⟨f1, f5, f4, f3, f2, f1', -, -⟩ := hRank_facts hph.lt
      have hne : hRank p ≠ 0 := by omega
      have ht := (f1 hne).1
      have : hRank q < hRank p := by
        apply hlt hne
        rw [ht, hk'']
        have : k = 0 ∨ k = 1 ∨ k = 2 ∨ k = 3 ∨ k = 4 := by omega
        rcases this with h | h | h | h | h <;> subst h <;> simp <;> omega
      omega
  have hr0 : hRank p ≤ 5 := by
    obtain ⟨val, hph, -⟩ := h
    exact (hRank_facts hph.lt).2.2.2.2.2.2.1
  obtain ⟨p1, pend1, i1, e1, r1⟩ := key 4 h hq.left.left.left.left hr0 (fun _ => ha) (by omega)
    (by omega) (by omega) (by omega) (by omega)
  obtain ⟨p2, pend2, i2, e2, r2⟩ := key 3 i1 hq.left.left.left.right r1 (by omega) (fun _ => hb)
    (by omega) (by omega) (by omega) (by omega)
  obtain ⟨p3, pend3, i3, e3, r3⟩ := key 2 i2 hq.left.left.right r2 (by omega) (by omega)
    (fun _ => hc) (by omega) (by omega) (by omega)
  obtain ⟨p4, pend4, i4, e4, r4⟩ := key 1 i3 hq.left.right r3 (by omega) (by omega) (by omega)
    (fun _ => hd) (by omega) (by omega)
  obtain ⟨p5, pend5, i5, e5, r5⟩ := key 0 i4 hq.right r4 (by omega) (by omega) (by omega)
    (by omega) (fun _ => he) (by omega)
  have h5 : p5 = 0 := by
    obtain ⟨val, hph, -⟩ := i5
    exact (hRank_facts hph.lt).2.2.2.2.2.2.2 (by omega)
  subst h5
  have hpend5 : pend5 = [] := by
    obtain ⟨val, hph, hc⟩ := i5
    rcases hc with ⟨h1, _⟩ | ⟨h1, _⟩ | ⟨_, h, _⟩
    · omega
    · omega
    · exact h
  subst hpend5
  simp only [Hand.run_append, received_append]
  refine ⟨i5, ?_⟩
  rw [e1, e2, e3, e4, e5]
  simp only [List.append_nil, List.append_assoc]

/-! ## Reset -/

/-- The registers during a reset. -/
structure HCleared (s : Hand T) (first : Bool) (ks kd : Nat) : Prop where
  tx : (first = true ∨ 1 ≤ ks) → s.tx = .waitData
  rx : (first = true ∨ 1 ≤ kd) → s.rx = .waitValid ∧ s.out = none
  a1 : first = true → 1 ≤ ks → s.a1 = false
  a2 : first = true → 2 ≤ ks → s.a2 = false
  v1 : first = true → 1 ≤ kd → s.v1 = false
  v2 : first = true → 2 ≤ kd → s.v2 = false

theorem HCleared.step {s : Hand T} {first : Bool} {ks kd : Nat} (h : HCleared s first ks kd)
    (e : HEdge T) (he : e.resetting = true) :
    HCleared (s.step e) first (ks + if e.isSrc then 1 else 0) (kd + if e.isDst then 1 else 0) := by
  have hack : first = true → s.rx.ack = false := fun hf => by rw [(h.rx (.inl hf)).1]; rfl
  have hval : first = true → s.tx.valid = false := fun hf => by rw [h.tx (.inl hf)]; rfl
  cases e with
  | src i rst =>
    simp only [HEdge.resetting] at he; subst he
    exact ⟨fun _ => rfl, h.rx, fun hf _ => hack hf,
      fun hf hk => h.a1 hf (by simp [HEdge.isSrc] at hk; omega), h.v1, h.v2⟩
  | dst rst =>
    simp only [HEdge.resetting] at he; subst he
    exact ⟨h.tx, fun _ => ⟨rfl, rfl⟩, h.a1, h.a2, fun hf _ => hval hf,
      fun hf hk => h.v1 hf (by simp [HEdge.isDst] at hk; omega)⟩
  | both i srst drst l =>
    simp only [HEdge.resetting, Bool.and_eq_true] at he; obtain ⟨rfl, rfl⟩ := he
    refine ⟨fun _ => rfl, fun _ => ⟨rfl, rfl⟩, fun hf _ => ?_,
      fun hf hk => h.a1 hf (by simp [HEdge.isSrc] at hk; omega), fun hf _ => ?_,
      fun hf hk => h.v1 hf (by simp [HEdge.isDst] at hk; omega)⟩
    · show (if l.ack then HRx.ack .waitValid else s.rx.ack) = false
      rw [hack hf]; cases l.ack <;> rfl
    · show (if l.valid then HTx.valid .waitData else s.tx.valid) = false
      rw [hval hf]; cases l.valid <;> rfl

theorem HCleared.run {first : Bool} : ∀ (es : List (HEdge T)) {s : Hand T} {ks kd : Nat},
    HCleared s first ks kd → (∀ e ∈ es, e.resetting = true) →
    HCleared (s.run es) first (ks + es.countP HEdge.isSrc) (kd + es.countP HEdge.isDst)
  | [], _, _, _, h, _ => h
  | e :: es, s, ks, kd, h, he => by
    have := HCleared.run es (h.step e (he e (by simp))) fun e' he' => he e' (by simp [he'])
    rw [hcount_src, hcount_dst, Nat.add_comm (es.countP _), Nat.add_comm (es.countP HEdge.isDst),
      ← Nat.add_assoc, ← Nat.add_assoc]
    exact this

theorem hinv_of_reset (s : Hand T) (pre : List (HEdge T)) (h : HLongReset pre) :
    HInv (s.run pre) 0 [] := by
  obtain ⟨hall, a, b, rfl, h1, h2, h3, h4⟩ := h
  have c1 := HCleared.run a (s := s) (first := false) (ks := 0) (kd := 0)
    ⟨by simp, by simp, by simp, by simp, by simp, by simp⟩ fun e he => hall e (by simp [he])
  have t1 := c1.tx (.inr (by omega))
  have t2 := c1.rx (.inr (by omega))
  have c2 := HCleared.run b (s := s.run a) (first := true) (ks := 0) (kd := 0)
    ⟨fun _ => t1, fun _ => t2, by omega, by omega, by omega, by omega⟩
    fun e he => hall e (by simp [he])
  rw [Hand.run_append]
  exact ⟨((s.run a).run b).held, ⟨by omega, c2.tx (.inl rfl), (c2.rx (.inl rfl)).1,
    c2.a1 rfl (by omega), c2.a2 rfl (by omega), c2.v1 rfl (by omega), c2.v2 rfl (by omega),
    fun h => absurd rfl h⟩, .inr (.inr ⟨.inl rfl, rfl, (c2.rx (.inl rfl)).2⟩)⟩

/-! ## Main theorem -/

omit [DecidableEq T] in
theorem sent_quiet {g : List (HEdge T)} (h : Quiet g) : sent g = [] := by
  induction g with
  | nil => rfl
  | cons e g ih =>
    rw [sent, List.filterMap_cons_none (h e (by simp)).1]
    exact ih fun e' he' => h e' (by simp [he'])

omit [DecidableEq T] in
theorem sent_append (a b : List (HEdge T)) : sent (a ++ b) = sent a ++ sent b :=
  List.filterMap_append ..

omit [DecidableEq T] in
theorem sent_cons {e : HEdge T} {v : T} (h : e.data = some v) (es : List (HEdge T)) :
    sent (e :: es) = v :: sent es := by
  rw [sent, List.filterMap_cons_some h]; rfl

theorem quiet_zero {g : List (HEdge T)} {s : Hand T} (h : HInv s 0 []) (hq : Quiet g) :
    HInv (s.run g) 0 [] ∧ received (s.trace g) = [] := by
  obtain ⟨q, pend', hi, hp, hle, -⟩ := h.wait g hq
  have hq0 : q = 0 := by
    obtain ⟨val, hph, -⟩ := hi
    exact (hRank_facts hph.lt).2.2.2.2.2.2.2 (by simpa [hRank] using hle)
  subst hq0
  have := List.append_eq_nil_iff.mp hp.symm
  rw [this.2] at hi
  exact ⟨hi, this.1⟩

theorem spaced_main {es : List (HEdge T)} (h : Spaced es) : ∀ {s : Hand T}, HInv s 0 [] →
    ∃ p pend, HInv (s.run es) p pend ∧ sent es = received (s.trace es) ++ pend := by
  induction h with
  | @quiet g hq =>
    intro s hs
    obtain ⟨h0, r0⟩ := quiet_zero hs hq
    exact ⟨0, [], h0, by rw [sent_quiet hq, r0]; rfl⟩
  | @last g e v g' hq hd he hq' =>
    intro s hs
    obtain ⟨h0, r0⟩ := quiet_zero hs hq
    obtain ⟨h1, r1⟩ := h0.send e hd he
    obtain ⟨q, pend', hi, hp, -, -⟩ := h1.wait g' hq'
    refine ⟨q, pend', ?_, ?_⟩
    · rw [Hand.run_append]; exact hi
    · rw [sent_append, sent_quiet hq, sent_cons hd, sent_quiet hq', received_append, r0]
      show [v] = ((s.run g).gives e ++ _) ++ pend'
      rw [r1]
      exact hp
  | @more g e v g' es hq hd he hq' hg _ ih =>
    intro s hs
    obtain ⟨h0, r0⟩ := quiet_zero hs hq
    obtain ⟨h1, r1⟩ := h0.send e hd he
    obtain ⟨h2, r2⟩ := h1.gap hq' hg
    obtain ⟨p, pend, hi, hp⟩ := ih h2
    refine ⟨p, pend, ?_, ?_⟩
    · rw [Hand.run_append]
      show HInv (((s.run g).step e).run (g' ++ es)) p pend
      rw [Hand.run_append]; exact hi
    rw [sent_append, sent_quiet hq, sent_cons hd, sent_append, sent_quiet hq', received_append, r0,
      hp]
    show v :: (_ ++ pend) = ((s.run g).gives e ++
      received (((s.run g).step e).trace (g' ++ es))) ++ pend
    rw [r1, received_append, r2]
    simp

/-- **C57.** From any state, after a long reset, if values are not sent too frequently then each value
that is sent is received exactly once, in the same order and unharmed, whatever edges of the two
clocks come in whatever order or at the same time; at most the last one has not been received yet. -/
theorem C57_handshake_once_and_in_order (s : Hand T) (pre es : List (HEdge T)) (hpre : HLongReset pre)
    (h : Spaced es) :
    ∃ pend, sent es = received ((s.run pre).trace es) ++ pend ∧ pend.length ≤ 1 := by
  obtain ⟨p, pend, hi, hp⟩ := spaced_main h (hinv_of_reset s pre hpre)
  refine ⟨pend, hp, ?_⟩
  obtain ⟨val, -, hc⟩ := hi
  rcases hc with ⟨_, _, h, _⟩ | ⟨_, _, h, _⟩ | ⟨_, h, _⟩ <;> simp [h]

/-- **C57.** After enough time everything that was sent has been received. -/
theorem C57_handshake_delivers (s : Hand T) (pre es g : List (HEdge T)) (hpre : HLongReset pre)
    (h : Spaced es) (hq : Quiet g) (hg : Gap g) :
    received ((s.run pre).trace (es ++ g)) = sent es := by
  obtain ⟨p, pend, hi, hp⟩ := spaced_main h (hinv_of_reset s pre hpre)
  rw [received_append, (hi.gap hq hg).2, hp]

end Spade.Cdc

import Verif.Entity.Machine
/-!
# Entities in order have no combinational loops
-/
namespace Spade.Entity
open Spade.Codegen Spade.Lower Spade.Expr

theorem eseq_mono : ∀ {is : List EItem} {S S' : Nat → Prop}, (∀ n, S n → S' n) → ESeq S is → ESeq S' is
  | [], _, _, _, _ => trivial
  | _ :: _, _, _, h, hs => ⟨fun n hn => h n (hs.1 n hn), eseq_mono (fun n hn => hn.imp (h n) id) hs.2⟩

theorem eseq_append : ∀ {is is' : List EItem} {S : Nat → Prop}, ESeq S is →
    ESeq (fun n => S n ∨ n ∈ eDefs is) is' → ESeq S (is ++ is')
  | [], _, S, _, h => eseq_mono (fun n hn => by simpa [eDefs] using hn) h
  | i :: is, is', S, h1, h2 => by
    refine ⟨h1.1, eseq_append h1.2 (eseq_mono ?_ h2)⟩
    intro n hn
    rw [eDefs_cons, List.mem_append] at hn
    rcases hn with h | h | h
    · exact .inl (.inl h)
    · exact .inl (.inr h)
    · exact .inr h

theorem eseq_of_seq : ∀ {is : List Item} {S : Nat → Prop}, Seq S is → ESeq S (is.map .item)
  | [], _, _ => trivial
  | _ :: _, _, h => ⟨h.1, eseq_of_seq h.2⟩

/-- Statements in order can be numbered. -/
theorem eseq_rank : ∀ {is : List EItem} {S : Nat → Prop}, ESeq S is → (∀ n ∈ eDefs is, ¬ S n) →
    (eDefs is).Nodup → ∀ (f : Nat → Nat) (k : Nat), (∀ n, S n → f n < k) →
    ∃ rank : Nat → Nat, (∀ n, S n → rank n = f n) ∧
      ∀ i ∈ is, ∀ n ∈ i.now, ∀ m ∈ i.defs, rank n < rank m
  | [], _, _, _, _, f, _, _ => ⟨f, fun _ _ => rfl, by simp⟩
  | i :: is, S, hs, hS, hd, f, k, hk => by
    rw [eDefs_cons] at hd hS
    obtain ⟨_, d2, d3⟩ := List.nodup_append.1 hd
    have hi : ∀ n, S n → n ∉ i.defs := fun n h hn => hS n (List.mem_append_left _ hn) h
    obtain ⟨rank, h1, h2⟩ := eseq_rank hs.2 (by
        rintro n hn (h | h)
        · exact hS n (List.mem_append_right _ hn) h
        · exact d3 n h n hn rfl) d2 (fun n => if n ∈ i.defs then k else f n) (k + 1) (by
        rintro n (h | h)
        · have := hk n h
          simp only [hi n h, if_false]; omega
        · simp [h])
    have hr : ∀ n, S n → rank n = f n := fun n h => by
      rw [h1 n (.inl h)]; simp [hi n h]
    refine ⟨rank, hr, fun j hj n hn m hm => ?_⟩
    rcases List.mem_cons.1 hj with rfl | hj
    · rw [hr n (hs.1 n hn), h1 m (.inr hm)]
      simpa [hm] using hk n (hs.1 n hn)
    · exact h2 j hj n hn m hm

/-- The statements of a lowered statement of an entity: first registers, then the rest. -/
theorem estm_split {s : EStm} {nid : Nat} {r : List EItem × Nat} {S T : Nat → Prop}
    (hl : lowerEStm s nid = some r) (hs : s.Scoped S) (hd : s.names.Nodup)
    (hb : ∀ n ∈ s.names, n < nid)
    (hc : ∀ g, s = .reg g → ∃ n ty, g.clock = .var n ty ∧ T n)
    (hm : ∀ g, s = .mem g → ∃ n ty, g.clock = .var n ty ∧ T n) :
    ∃ mid pre, r.1.Perm (mid ++ pre) ∧ ESeq T mid ∧ ESeq S pre ∧ (∀ n ∈ s.regVars, n ∈ eDefs mid) ∧
      ∀ n ∈ s.vars, n ∈ eDefs mid ∨ n ∈ eDefs pre := by
  obtain ⟨hp, hv⟩ := estm_names hl hs hd hb
  cases s with
  | stm s =>
    refine ⟨[], r.1, by simp, trivial, ?_, by simp [EStm.regVars], fun n hn => .inr (hv n hn)⟩
    simp only [lowerEStm, Option.bind_eq_bind, Option.bind_eq_some_iff, Option.some.injEq] at hl
    obtain ⟨a, ha, rfl⟩ := hl
    exact eseq_of_seq (stms_names [s] ha hs hd hb).1.seq
  | inst id ty p u args =>
    refine ⟨[], r.1, by simp, trivial, ?_, by simp [EStm.regVars], fun n hn => .inr (hv n hn)⟩
    simp only [EStm.names, List.append_assoc] at hd hb
    simp only [lowerEStm, Option.bind_eq_bind, Option.bind_eq_some_iff, Option.some.injEq] at hl
    obtain ⟨a, ha, l, hl, rfl⟩ := hl
    obtain ⟨d1, e1⟩ := left_of hd hb
    obtain ⟨a1, a2⟩ := exprs_names args ha hs d1 e1
    obtain ⟨d2, e2⟩ := right_of hd hb a1.drv.le
    obtain ⟨d3, e3⟩ := right_of d2 e2 (Nat.le_refl _)
    obtain ⟨_, l2, _⟩ := lower_names (S := fun n => n = id) hl rfl d3 e3
    refine eseq_append (eseq_append (eseq_of_seq a1.seq) ⟨?_, trivial⟩) ?_
    · intro n hn
      simp only [EItem.now, List.mem_map] at hn
      obtain ⟨e, he, rfl⟩ := hn
      rw [eDefs_item]
      exact a2 e he
    · rw [its_items]
      refine eseq_mono ?_ (eseq_of_seq l2)
      rintro n rfl
      exact .inr (by simp [eDefs_append, eDefs, EItem.defs])
  | reg g =>
    obtain ⟨cn, cty, hcl, hcT⟩ := hc g rfl
    rw [reg_names_eq] at hd hb
    simp only [lowerEStm, Option.bind_eq_bind, Option.bind_eq_some_iff, Option.some.injEq] at hl
    obtain ⟨c, hc, tr, htr, rv, hrv, i, hi, v, hv', ss, hss, l, hl, rfl⟩ := hl
    obtain ⟨s1, s2, s3, s4⟩ := hs
    have st : ∀ e, g.reset.map (·.1) = some e → e.Scoped S := by
      intro e he
      obtain ⟨x, hx, rfl⟩ := Option.map_eq_some_iff.1 he
      exact (s2 x.1 x.2 hx).1
    have sr : ∀ e, g.reset.map (·.2) = some e → e.Scoped S := by
      intro e he
      obtain ⟨x, hx, rfl⟩ := Option.map_eq_some_iff.1 he
      exact (s2 x.1 x.2 hx).2
    obtain ⟨da, db, dab⟩ := List.nodup_append.1 hd
    have ba : ∀ n ∈ _, n < nid := fun n hn => hb n (List.mem_append_left _ hn)
    have bp : ∀ n ∈ [g.p.name] ++ subnames g.p, n < nid := fun n hn => hb n (List.mem_append_right _ hn)
    obtain ⟨d1, e1⟩ := left_of da ba
    obtain ⟨c1, c2⟩ := expr_names g.clock hc s1 d1 e1
    obtain ⟨d2, e2⟩ := right_of da ba c1.drv.le
    obtain ⟨d3, e3⟩ := left_of d2 e2
    obtain ⟨t1, t2⟩ := opt_names htr st d3 e3
    obtain ⟨d4, e4⟩ := right_of d2 e2 t1.drv.le
    obtain ⟨d5, e5⟩ := left_of d4 e4
    obtain ⟨r1, r2⟩ := opt_names hrv sr d5 e5
    obtain ⟨d6, e6⟩ := right_of d4 e4 r1.drv.le
    obtain ⟨d7, e7⟩ := left_of d6 e6
    obtain ⟨i1, i2⟩ := opt_names hi s3 d7 e7
    obtain ⟨d8, e8⟩ := right_of d6 e6 i1.drv.le
    obtain ⟨v1, v2⟩ := expr_names g.value hv' s4 d8 e8
    have hle : nid ≤ v.2 := by
      have := c1.drv.le; have := t1.drv.le; have := r1.drv.le; have := i1.drv.le
      have := v1.drv.le; omega
    have hsl : v.2 ≤ ss.2 := initial_le hss s3 d7 (bound_trans e7 (by
      have := i1.drv.le; have := v1.drv.le; omega))
    have p1 : Part S _ nid v.2 (c.1 ++ (tr.1 ++ (rv.1 ++ (i.1 ++ v.1)))) :=
      c1.append ((t1.append ((r1.append ((i1.append (v1.mono fun _ => .inl) d6 e6).mono
        fun _ => .inl) d4 e4).mono fun _ => .inl) d2 e2).mono fun _ => .inl) da ba
    obtain ⟨q1, q2, q3⟩ := List.nodup_append.1 db
    obtain ⟨l1, l2, l3⟩ := pat_names g.p (S := fun n => n = g.p.name) hl rfl q2
      (fun n hn => Nat.lt_of_lt_of_le (bp n (List.mem_append_right _ hn)) (by omega))
    have hmid : ∀ n ∈ patVars g.p, n ∈ eDefs ([EItem.reg g.p.name g.p.ty g.clock.variable
        (g.reset.map fun x => (x.1.variable, x.2.variable)) ss.1 g.value.variable] ++
        l.1.map fun s => .item (.stmt s)) := by
      intro n hn
      have := vars_names g.p n hn
      simp only [patNames, List.mem_cons] at this
      rw [eDefs_append, List.mem_append]
      rcases this with rfl | h
      · exact .inl (by simp [eDefs, EItem.defs])
      · refine .inr ?_
        rw [its_items, eDefs_item]
        exact l3 n h
    refine ⟨_, (c.1 ++ (tr.1 ++ (rv.1 ++ (i.1 ++ v.1)))).map .item, ?_, ?_, eseq_of_seq p1.seq, hmid,
      fun n hn => .inl (hmid n hn)⟩
    · refine List.Perm.trans ?_ List.perm_append_comm
      simp only [List.append_assoc, List.map_append]
      exact List.Perm.refl _
    · refine eseq_append (is := [_]) ⟨?_, trivial⟩ ?_
      · intro n hn
        simp only [EItem.now, List.mem_singleton] at hn
        rw [hn, hcl]
        exact hcT
      · rw [its_items]
        refine eseq_mono ?_ (eseq_of_seq l2)
        rintro n rfl
        exact .inr (by simp [eDefs, EItem.defs])
  | read id ty p m addr =>
    refine ⟨[], r.1, by simp, trivial, ?_, by simp [EStm.regVars], fun n hn => .inr (hv n hn)⟩
    simp only [EStm.names, List.append_assoc] at hd hb
    simp only [lowerEStm, Option.bind_eq_bind, Option.bind_eq_some_iff, Option.some.injEq] at hl
    obtain ⟨a, ha, l, hl, rfl⟩ := hl
    obtain ⟨d1, e1⟩ := left_of hd hb
    obtain ⟨a1, a2⟩ := expr_names addr ha hs.2 d1 e1
    obtain ⟨d2, e2⟩ := right_of hd hb a1.drv.le
    obtain ⟨d3, e3⟩ := right_of d2 e2 (Nat.le_refl _)
    obtain ⟨_, l2, _⟩ := lower_names (S := fun n => n = id) hl rfl d3 e3
    refine eseq_append (eseq_append (eseq_of_seq a1.seq) ⟨?_, trivial⟩) ?_
    · intro n hn
      simp only [EItem.now, List.mem_cons, List.not_mem_nil, or_false] at hn
      rw [eDefs_item]
      rcases hn with rfl | rfl
      · exact .inl hs.1
      · exact a2
    · rw [its_items]
      refine eseq_mono ?_ (eseq_of_seq l2)
      rintro n rfl
      exact .inr (by simp [eDefs_append, eDefs, EItem.defs])
  | mem g =>
    obtain ⟨cn, cty, hcl, hcT⟩ := hm g rfl
    rw [mem_names_eq] at hd hb
    simp only [lowerEStm, Option.bind_eq_bind, Option.bind_eq_some_iff, Option.some.injEq] at hl
    obtain ⟨c, hc, w, hw, i, hi, ss, hss, rfl⟩ := hl
    obtain ⟨s1, s2, s3⟩ := hs
    obtain ⟨da, db, dab⟩ := List.nodup_append.1 hd
    have ba : ∀ n ∈ _, n < nid := fun n hn => hb n (List.mem_append_left _ hn)
    obtain ⟨d1, e1⟩ := left_of da ba
    obtain ⟨c1, c2⟩ := expr_names g.clock hc s1 d1 e1
    obtain ⟨d2, e2⟩ := right_of da ba c1.drv.le
    obtain ⟨d3, e3⟩ := left_of d2 e2
    obtain ⟨w1, w2⟩ := expr_names g.writes hw s2 d3 e3
    obtain ⟨d4, e4⟩ := right_of d2 e2 w1.drv.le
    obtain ⟨i1, i2⟩ := opt_names hi s3 d4 e4
    have p1 : Part S _ nid i.2 (c.1 ++ (w.1 ++ i.1)) :=
      c1.append ((w1.append (i1.mono fun _ => .inl) d2 e2).mono fun _ => .inl) da ba
    have hmid : ∀ n ∈ (EStm.mem g).regVars, n ∈ eDefs [EItem.mem g.id g.elem g.len g.clock.variable
        g.writes.variable ss.1, .item (.stmt (.bind g.name g.ty .alias [g.id]))] := by
      intro n hn
      rw [List.mem_singleton.1 hn]
      simp [eDefs, EItem.defs, Item.defs, target]
    refine ⟨_, (c.1 ++ (w.1 ++ i.1)).map .item, ?_, ?_, eseq_of_seq p1.seq, hmid,
      fun n hn => .inl (hmid n hn)⟩
    · refine List.Perm.trans ?_ List.perm_append_comm
      simp only [List.append_assoc, List.map_append]
      exact List.Perm.refl _
    · refine ⟨?_, ?_, trivial⟩
      · intro n hn
        simp only [EItem.now, List.mem_singleton] at hn
        rw [hn, hcl]
        exact hcT
      · intro n hn
        exact .inr hn

theorem estms_split {T : Nat → Prop} : ∀ {ss : List EStm} {nid : Nat} {r : List EItem × Nat}
    {S : Nat → Prop}, lowerEStms ss nid = some r → InOrder S ss → (ss.flatMap EStm.names).Nodup →
    (∀ n ∈ ss.flatMap EStm.names, n < nid) →
    (∀ g, .reg g ∈ ss → ∃ n ty, g.clock = .var n ty ∧ T n) →
    (∀ g, .mem g ∈ ss → ∃ n ty, g.clock = .var n ty ∧ T n) →
    ∃ mid pre, r.1.Perm (mid ++ pre) ∧ ESeq T mid ∧
      (ESeq (fun n => S n ∨ n ∈ eDefs mid) pre) ∧
      (∀ n ∈ ss.flatMap EStm.regVars, n ∈ eDefs mid) ∧
      ∀ n ∈ ss.flatMap EStm.vars, n ∈ eDefs mid ∨ n ∈ eDefs pre
  | [], nid, r, S, hl, _, _, _, _, _ => by
    simp only [lowerEStms, Option.some.injEq] at hl
    subst hl
    exact ⟨[], [], .refl _, trivial, trivial, by simp, by simp⟩
  | s :: ss, nid, r, S, hl, hs, hd, hb, hc, hm => by
    simp only [lowerEStms, Option.bind_eq_bind, Option.bind_eq_some_iff, Option.some.injEq] at hl
    obtain ⟨a, ha, b, hb', rfl⟩ := hl
    simp only [List.flatMap_cons] at hd hb ⊢
    obtain ⟨d1, e1⟩ := left_of hd hb
    obtain ⟨d2, e2⟩ := right_of hd hb (estm_names ha hs.1 d1 e1).1.drv.le
    obtain ⟨m1, p1, x1, x2, x3, x4, x5⟩ := estm_split (T := T) ha hs.1 d1 e1
      (fun g hg => hc g (by simp [hg])) (fun g hg => hm g (by simp [hg]))
    obtain ⟨m2, p2, y1, y2, y3, y4, y5⟩ := estms_split hb' hs.2 d2 e2
      (fun g hg => hc g (List.mem_cons_of_mem _ hg)) (fun g hg => hm g (List.mem_cons_of_mem _ hg))
    refine ⟨m1 ++ m2, p1 ++ p2, ?_, eseq_append x2 (eseq_mono (fun _ => .inl) y2), ?_, ?_, ?_⟩
    · refine (x1.append y1).trans ?_
      simp only [List.append_assoc]
      refine List.Perm.append_left m1 ?_
      rw [← List.append_assoc, ← List.append_assoc]
      exact List.Perm.append_right p2 List.perm_append_comm
    · refine eseq_append (eseq_mono (fun _ => .inl) x3) (eseq_mono ?_ y3)
      intro n hn
      rw [eDefs_append, List.mem_append]
      rcases hn with (h | h) | h
      · exact .inl (.inl h)
      · rcases x5 n h with h | h
        · exact .inl (.inr (.inl h))
        · exact .inr h
      · exact .inl (.inr (.inr h))
    · intro n hn
      rw [eDefs_append, List.mem_append]
      rcases List.mem_append.1 hn with h | h
      · exact .inl (x4 n h)
      · exact .inr (y4 n h)
    · intro n hn
      simp only [eDefs_append, List.mem_append]
      rcases List.mem_append.1 hn with h | h
      · exact (x5 n h).imp .inl .inl
      · exact (y5 n h).imp .inr .inr

/-- C48.  The hardware generated for an entity whose clocks are parameters and whose variables are
defined before they are used, except for those of registers and memories, has no combinational loop, if all
names are resolved. -/
theorem C48_no_loops (E : Ent) (nid : Nat) (h : HEnt) (hE : E.Resolved nid) (ho : E.Ordered)
    (hl : lowerEnt E nid = some h) : LoopFree h := by
  obtain ⟨n1, _, _⟩ := C48_driven_once E nid h hE hl
  simp only [lowerEnt, Option.bind_eq_bind, Option.bind_eq_some_iff, Option.some.injEq] at hl
  obtain ⟨a, ha, b, hb, rfl⟩ := hl
  obtain ⟨d1, d2, d3⟩ := List.nodup_append.1 hE.distinct
  have g : ∀ n ∈ E.names, n < nid := fun n hn => hE.given n (List.mem_append_right _ hn)
  unfold Ent.names at d2 g
  obtain ⟨f1, e1⟩ := left_of d2 g
  obtain ⟨a1, a2⟩ := estms_names ha hE.inScope.1 f1 e1
  obtain ⟨f2, e2⟩ := right_of d2 g a1.drv.le
  obtain ⟨b1, b2⟩ := expr_names E.result hb hE.inScope.2 f2 e2
  obtain ⟨mid, pre, x1, x2, x3, x4, x5⟩ := estms_split (T := fun n => n ∈ E.params.map (·.1)) ha
    ho.order f1 e1 ho.clocks ho.memClocks
  have hperm : (a.1 ++ b.1.map EItem.item).Perm (mid ++ (pre ++ b.1.map .item)) := by
    rw [← List.append_assoc]
    exact List.Perm.append_right _ x1
  have hseq : ESeq (fun n => n ∈ E.params.map (·.1)) (mid ++ (pre ++ b.1.map .item)) := by
    refine eseq_append x2 (eseq_append (eseq_mono ?_ x3) (eseq_mono ?_ (eseq_of_seq b1.seq)))
    · rintro n ((h | h) | h)
      · exact .inl h
      · exact .inr (x4 n h)
      · exact .inr h
    · rintro n (h | h)
      · exact .inl (.inl h)
      · rcases x5 n h with h | h
        · exact .inl (.inr h)
        · exact .inr h
  have hdefs : (eDefs (a.1 ++ b.1.map EItem.item)).Perm (eDefs (mid ++ (pre ++ b.1.map .item))) :=
    hperm.flatMap_right _
  obtain ⟨_, k2, k3⟩ := List.nodup_append.1 n1
  obtain ⟨rank, _, hr⟩ := eseq_rank hseq (fun n hn h => k3 n h n (hdefs.mem_iff.2 hn) rfl)
    (hdefs.nodup_iff.1 k2) (fun _ => 0) 1 (fun _ _ => by omega)
  exact ⟨rank, fun i hi => hr i (hperm.mem_iff.1 hi)⟩

end Spade.Entity

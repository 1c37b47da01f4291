import Verif.Entity.Model
import Verif.Entity.Accept
import Verif.Expr.Names
/-!
# Every signal of an entity is driven once
-/
namespace Spade.Entity
open Spade.Codegen Spade.Lower Spade.Expr

theorem eDefs_cons {i : EItem} {is : List EItem} : eDefs (i :: is) = i.defs ++ eDefs is := by
  simp [eDefs]

theorem eDefs_append {is is' : List EItem} : eDefs (is ++ is') = eDefs is ++ eDefs is' := by
  simp [eDefs]

theorem eDefs_item : ∀ {is : List Item}, eDefs (is.map .item) = defsAll is
  | [] => rfl
  | i :: is => by
    rw [List.map_cons, eDefs_cons, eDefs_item, defsAll_cons]
    rfl

theorem seq_reads : ∀ {is : List Item} {S : Nat → Prop}, Seq S is →
    ∀ i ∈ is, ∀ n ∈ i.reads, S n ∨ n ∈ defsAll is
  | i :: is, S, h, j, hj, n, hn => by
    rw [defsAll_cons, List.mem_append]
    rcases List.mem_cons.1 hj with rfl | hj
    · exact .inl (h.1 n hn)
    · rcases seq_reads h.2 j hj n hn with (h | h) | h
      · exact .inl h
      · exact .inr (.inl h)
      · exact .inr (.inr h)

/-- Statements that drive different signals, from `S` and each other. -/
structure EPart (S : Nat → Prop) (N : List Nat) (lo hi : Nat) (is : List EItem) : Prop where
  drv : Drv N lo hi (eDefs is)
  reads : ∀ i ∈ is, ∀ n ∈ i.reads, S n ∨ n ∈ eDefs is

theorem EPart.nil {S : Nat → Prop} {lo : Nat} : EPart S [] lo lo [] := ⟨Drv.nil, by simp⟩

theorem EPart.of {S : Nat → Prop} {N : List Nat} {lo hi : Nat} {is : List Item}
    (h : Part S N lo hi is) : EPart S N lo hi (is.map .item) := by
  refine ⟨by rw [eDefs_item]; exact h.drv, ?_⟩
  intro i hi n hn
  obtain ⟨j, hj, rfl⟩ := List.mem_map.1 hi
  rw [eDefs_item]
  exact seq_reads h.seq j hj n hn

theorem EPart.append {S : Nat → Prop} {N M : List Nat} {lo mid hi : Nat} {is is' : List EItem}
    (h : EPart S N lo mid is) (h' : EPart (fun n => S n ∨ n ∈ eDefs is) M mid hi is')
    (hd : (N ++ M).Nodup) (hb : ∀ n ∈ N ++ M, n < lo) : EPart S (N ++ M) lo hi (is ++ is') := by
  refine ⟨by rw [eDefs_append]; exact h.drv.append h'.drv hd hb, ?_⟩
  intro i hi n hn
  rw [eDefs_append, List.mem_append]
  rcases List.mem_append.1 hi with hi | hi
  · exact (h.reads i hi n hn).imp id .inl
  · rcases h'.reads i hi n hn with (h | h) | h
    · exact .inl h
    · exact .inr (.inl h)
    · exact .inr (.inr h)

theorem EPart.mono {S S' : Nat → Prop} {N : List Nat} {lo hi : Nat} {is : List EItem}
    (hs : ∀ n, S n → S' n) (h : EPart S N lo hi is) : EPart S' N lo hi is :=
  ⟨h.drv, fun i hi n hn => (h.reads i hi n hn).imp (hs n) id⟩

/-- The names of an expression that may be missing. -/
def optNames : Option Expr → List Nat
  | none => []
  | some e => e.names

theorem opt_names {o : Option Expr} {nid : Nat} {r : List Item × Nat} {S : Nat → Prop}
    (hl : lowerOpt o nid = some r) (hs : ∀ e, o = some e → e.Scoped S) (hd : (optNames o).Nodup)
    (hb : ∀ n ∈ optNames o, n < nid) : Part S (optNames o) nid r.2 r.1 ∧
      ∀ e, o = some e → S e.variable ∨ e.variable ∈ defsAll r.1 := by
  cases o with
  | none =>
    simp only [lowerOpt, Option.some.injEq] at hl
    subst hl
    exact ⟨Part.nil, by simp⟩
  | some e =>
    obtain ⟨h1, h2⟩ := expr_names e hl (hs e rfl) hd hb
    exact ⟨h1, fun e' he => by cases he; exact h2⟩

/-- The names of a register in the order in which its parts are lowered. -/
theorem reg_names_eq (r : Reg) : (EStm.reg r).names =
    (r.clock.names ++ (optNames (r.reset.map (·.1)) ++ (optNames (r.reset.map (·.2)) ++
      (optNames r.initial ++ r.value.names)))) ++ ([r.p.name] ++ subnames r.p) := by
  cases h1 : r.reset <;> cases h2 : r.initial <;>
    simp [EStm.names, optNames, h1, h2, patNames, List.append_assoc]

theorem initial_le {o : Option Expr} {nid : Nat} {r : Option (List Stmt) × Nat} {S : Nat → Prop}
    (hl : lowerInitial o nid = some r) (hs : ∀ e, o = some e → e.Scoped S) (hd : (optNames o).Nodup)
    (hb : ∀ n ∈ optNames o, n < nid) : nid ≤ r.2 := by
  cases o with
  | none =>
    simp only [lowerInitial, Option.some.injEq] at hl
    subst hl
    exact Nat.le_refl _
  | some e =>
    simp only [lowerInitial, Option.ite_none_right_eq_some, Option.bind_eq_bind,
      Option.bind_eq_some_iff, Option.some.injEq] at hl
    obtain ⟨_, a, ha, ss, _, rfl⟩ := hl
    exact (expr_names e ha (hs e rfl) hd hb).1.drv.le

theorem inits_le {S : Nat → Prop} : ∀ {es : List Expr} {nid : Nat} {r : List (List Stmt) × Nat},
    lowerInits es nid = some r → Exprs.Scoped S es → (Exprs.names es).Nodup →
    (∀ n ∈ Exprs.names es, n < nid) → nid ≤ r.2
  | [], nid, r, hl, _, _, _ => by
    simp only [lowerInits, Option.some.injEq] at hl
    subst hl
    exact Nat.le_refl _
  | e :: es, nid, r, hl, hs, hd, hb => by
    simp only [lowerInits, Option.bind_eq_bind, Option.bind_eq_some_iff, Option.some.injEq] at hl
    obtain ⟨a, ha, ss, _, b, hb', rfl⟩ := hl
    simp only [Exprs.names] at hd hb
    obtain ⟨d1, e1⟩ := left_of hd hb
    have h1 := (expr_names e ha hs.1 d1 e1).1.drv.le
    obtain ⟨d2, e2⟩ := right_of hd hb h1
    exact Nat.le_trans h1 (inits_le (r := b) hb' hs.2 d2 e2)

theorem memInit_le {o : Option Expr} {nid : Nat} {r : Option (List (List Stmt)) × Nat}
    {S : Nat → Prop} (hl : lowerMemInit o nid = some r) (hs : ∀ e, o = some e → e.Scoped S)
    (hd : (optNames o).Nodup) (hb : ∀ n ∈ optNames o, n < nid) : nid ≤ r.2 := by
  cases o with
  | none =>
    simp only [lowerMemInit, Option.some.injEq] at hl
    subst hl
    exact Nat.le_refl _
  | some e =>
    simp only [lowerMemInit, Option.ite_none_right_eq_some] at hl
    replace hs := hs e rfl
    replace hl := hl.2
    cases e <;> first | (simp at hl; done) | skip
    case array id ty es =>
      obtain ⟨a, ha, rfl⟩ := Option.map_eq_some_iff.1 hl
      simp only [optNames, Expr.names] at hd hb
      exact inits_le ha hs (List.nodup_append.1 hd).1 (fun n h => hb n (by simp [h]))
    case rep id ty e n =>
      simp only [Option.bind_eq_bind, Option.bind_eq_some_iff, Option.some.injEq] at hl
      obtain ⟨a, ha, ss, _, rfl⟩ := hl
      simp only [optNames, Expr.names] at hd hb
      exact (expr_names e ha hs (List.nodup_append.1 hd).1 (fun n h => hb n (by simp [h]))).1.drv.le

/-- The names of a memory in the order in which its parts are lowered. -/
theorem mem_names_eq (m : Mem) : (EStm.mem m).names =
    (m.clock.names ++ (m.writes.names ++ optNames m.initial)) ++ ([m.id] ++ [m.name]) := by
  cases h2 : m.initial <;> simp [EStm.names, optNames, h2, List.append_assoc]

theorem its_items (ss : List Stmt) :
    (ss.map fun s => EItem.item (.stmt s)) = (its ss).map EItem.item := by
  simp [its, List.map_map, Function.comp_def]

theorem estm_names {s : EStm} {nid : Nat} {r : List EItem × Nat} {S : Nat → Prop}
    (hl : lowerEStm s nid = some r) (hs : s.Scoped S) (hd : s.names.Nodup)
    (hb : ∀ n ∈ s.names, n < nid) :
    EPart S s.names nid r.2 r.1 ∧ ∀ n ∈ s.vars, n ∈ eDefs r.1 := by
  cases s with
  | stm s =>
    simp only [lowerEStm, Option.bind_eq_bind, Option.bind_eq_some_iff, Option.some.injEq] at hl
    obtain ⟨a, ha, rfl⟩ := hl
    obtain ⟨h1, h2⟩ := stms_names [s] ha hs hd hb
    refine ⟨EPart.of h1, fun n hn => ?_⟩
    rw [eDefs_item]
    cases s with
    | bind p e =>
      have hn' : n ∈ patNames p := vars_names p n hn
      simp only [lowerStms, Option.bind_eq_bind, Option.bind_eq_some_iff, Option.some.injEq] at ha
      obtain ⟨c, hc, l, hl, b, rfl, rfl⟩ := ha
      simp only [EStm.names, Stms.names, List.append_nil] at hd hb
      obtain ⟨d1, d2, d3⟩ := List.nodup_append.1 hd
      have hle := (expr_names e hc hs.1 d1 (fun n hn => hb n (List.mem_append_left _ hn))).1.drv.le
      have := (lower_names (S := fun _ => True) hl trivial d2
        (fun n hn => Nat.lt_of_lt_of_le (hb n (List.mem_append_right _ hn)) hle)).2.2 n hn'
      simp only [List.append_nil, defsAll_append, List.mem_append]
      exact .inr this
    | expr e => simp [EStm.vars] at hn
    | assert e => simp [EStm.vars] at hn
    | decl => simp [EStm.vars] at hn
  | reg g =>
    rw [reg_names_eq] at hd hb ⊢
    simp only [lowerEStm, Option.bind_eq_bind, Option.bind_eq_some_iff, Option.some.injEq] at hl
    obtain ⟨c, hc, tr, htr, rv, hrv, i, hi, v, hv, ss, hss, l, hl, rfl⟩ := hl
    obtain ⟨s1, s2, s3, s4⟩ := hs
    have st : ∀ e, g.reset.map (·.1) = some e → e.Scoped S := by
      intro e he
      obtain ⟨x, hx, rfl⟩ := Option.map_eq_some_iff.1 he
      exact (s2 x.1 x.2 hx).1
    have sr : ∀ e, g.reset.map (·.2) = some e → e.Scoped S := by
      intro e he
      obtain ⟨x, hx, rfl⟩ := Option.map_eq_some_iff.1 he
      exact (s2 x.1 x.2 hx).2
    obtain ⟨da, db, dab⟩ := List.nodup_append.1 hd
    have ba : ∀ n ∈ _, n < nid := fun n hn => hb n (List.mem_append_left _ hn)
    have bp : ∀ n ∈ [g.p.name] ++ subnames g.p, n < nid := fun n hn => hb n (List.mem_append_right _ hn)
    obtain ⟨d1, e1⟩ := left_of da ba
    obtain ⟨c1, c2⟩ := expr_names g.clock hc s1 d1 e1
    obtain ⟨d2, e2⟩ := right_of da ba c1.drv.le
    obtain ⟨d3, e3⟩ := left_of d2 e2
    obtain ⟨t1, t2⟩ := opt_names htr st d3 e3
    obtain ⟨d4, e4⟩ := right_of d2 e2 t1.drv.le
    obtain ⟨d5, e5⟩ := left_of d4 e4
    obtain ⟨r1, r2⟩ := opt_names hrv sr d5 e5
    obtain ⟨d6, e6⟩ := right_of d4 e4 r1.drv.le
    obtain ⟨d7, e7⟩ := left_of d6 e6
    obtain ⟨i1, i2⟩ := opt_names hi s3 d7 e7
    obtain ⟨d8, e8⟩ := right_of d6 e6 i1.drv.le
    obtain ⟨v1, v2⟩ := expr_names g.value hv s4 d8 e8
    have hle : nid ≤ v.2 := by
      have := c1.drv.le; have := t1.drv.le; have := r1.drv.le; have := i1.drv.le
      have := v1.drv.le; omega
    have hsl : v.2 ≤ ss.2 := initial_le hss s3 d7 (bound_trans e7 (by
      have := i1.drv.le; have := v1.drv.le; omega))
    have p1 : Part S _ nid v.2 (c.1 ++ (tr.1 ++ (rv.1 ++ (i.1 ++ v.1)))) :=
      c1.append ((t1.append ((r1.append ((i1.append (v1.mono fun _ => .inl) d6 e6).mono
        fun _ => .inl) d4 e4).mono fun _ => .inl) d2 e2).mono fun _ => .inl) da ba
    have hdefs : ∀ n, n ∈ defsAll c.1 ∨ n ∈ defsAll tr.1 ∨ n ∈ defsAll rv.1 ∨ n ∈ defsAll v.1 →
        n ∈ defsAll (c.1 ++ (tr.1 ++ (rv.1 ++ (i.1 ++ v.1)))) := by
      intro n h
      simp only [defsAll_append, List.mem_append]
      rcases h with h | h | h | h <;> simp [h]
    let it : EItem := .reg g.p.name g.p.ty g.clock.variable
      (g.reset.map fun x => (x.1.variable, x.2.variable)) ss.1 g.value.variable
    obtain ⟨q1, q2, q3⟩ := List.nodup_append.1 db
    obtain ⟨l1, l2, l3⟩ := pat_names g.p (S := fun n => n = g.p.name) hl rfl q2
      (fun n hn => Nat.lt_of_lt_of_le (bp n (List.mem_append_right _ hn)) (by omega))
    have p2 : EPart (fun n => S n ∨ n ∈ defsAll (c.1 ++ (tr.1 ++ (rv.1 ++ (i.1 ++ v.1)))))
        [g.p.name] v.2 ss.2 [it] := by
      refine ⟨?_, ?_⟩
      · exact (Drv.one (n := g.p.name) (lo := v.2)).extend hsl
      · intro j hj n hn
        rw [List.mem_singleton.1 hj] at hn
        refine .inl ?_
        simp only [it, EItem.reads] at hn
        rcases List.mem_cons.1 hn with rfl | hn
        · exact c2.imp id fun h => hdefs _ (.inl h)
        · rcases List.mem_cons.1 hn with rfl | hn
          · exact v2.imp id fun h => hdefs _ (.inr (.inr (.inr h)))
          · cases hre : g.reset with
            | none => rw [hre] at hn; simp at hn
            | some x =>
              rw [hre] at hn t2 r2
              simp only [Option.map_some, List.mem_cons, List.not_mem_nil, or_false] at hn
              rcases hn with rfl | rfl
              · exact (t2 x.1 rfl).imp id fun h => hdefs _ (.inr (.inl h))
              · exact (r2 x.2 rfl).imp id fun h => hdefs _ (.inr (.inr (.inl h)))
    have p3 : EPart (fun n => n = g.p.name) (subnames g.p) ss.2 l.2
        (l.1.map fun s => .item (.stmt s)) := by
      rw [its_items]
      exact EPart.of ⟨l1, l2⟩
    have p4 := p2.append (p3.mono (fun n h => .inr (by simp [eDefs, it, EItem.defs, h])))
      db (bound_trans bp hle)
    have p5 := (EPart.of p1).append (p4.mono (fun n h => by rw [eDefs_item]; exact h)) hd hb
    refine ⟨?_, ?_⟩
    · simpa [it, List.append_assoc] using p5
    · intro n hn
      have : n ∈ patNames g.p := vars_names g.p n hn
      simp only [patNames, List.mem_cons] at this
      simp only [eDefs_append, List.mem_append]
      rcases this with rfl | h
      · exact .inl (.inr (by simp [eDefs, EItem.defs]))
      · refine .inr ?_
        rw [its_items, eDefs_item]
        exact l3 n h
  | inst id ty p u args =>
    simp only [EStm.names, List.append_assoc] at hd hb ⊢
    simp only [lowerEStm, Option.bind_eq_bind, Option.bind_eq_some_iff, Option.some.injEq] at hl
    obtain ⟨a, ha, l, hl, rfl⟩ := hl
    obtain ⟨d1, e1⟩ := left_of hd hb
    obtain ⟨a1, a2⟩ := exprs_names args ha hs d1 e1
    obtain ⟨d2, e2⟩ := right_of hd hb a1.drv.le
    obtain ⟨d3, e3⟩ := right_of d2 e2 (Nat.le_refl _)
    obtain ⟨l1, l2, l3⟩ := lower_names (S := fun n => n = id) hl rfl d3 e3
    have p1 : EPart (fun n => S n ∨ n ∈ eDefs (a.1.map EItem.item)) [id] a.2 a.2
        [.inst id ty u (args.map Expr.variable)] := by
      refine ⟨by simpa [eDefs, EItem.defs] using Drv.one, ?_⟩
      intro j hj n hn
      rw [List.mem_singleton.1 hj] at hn
      simp only [EItem.reads, List.mem_map] at hn
      obtain ⟨e, he, rfl⟩ := hn
      rw [eDefs_item]
      exact .inl (a2 e he)
    have p2 : EPart (fun n => n = id) (patNames p) a.2 l.2 (l.1.map fun s => .item (.stmt s)) := by
      rw [its_items]
      exact EPart.of ⟨l1, l2⟩
    have p3 := p1.append (p2.mono (fun n h => .inr (by simp [eDefs, EItem.defs, h]))) d2 e2
    have p4 := (EPart.of a1).append p3 hd hb
    refine ⟨by simpa [List.append_assoc] using p4, ?_⟩
    intro n hn
    simp only [eDefs_append, List.mem_append]
    refine .inr ?_
    rw [its_items, eDefs_item]
    exact l3 n (vars_names p n hn)
  | mem g =>
    rw [mem_names_eq] at hd hb ⊢
    simp only [lowerEStm, Option.bind_eq_bind, Option.bind_eq_some_iff, Option.some.injEq] at hl
    obtain ⟨c, hc, w, hw, i, hi, ss, hss, rfl⟩ := hl
    obtain ⟨s1, s2, s3⟩ := hs
    obtain ⟨da, db, dab⟩ := List.nodup_append.1 hd
    have ba : ∀ n ∈ _, n < nid := fun n hn => hb n (List.mem_append_left _ hn)
    have bp : ∀ n ∈ [g.id] ++ [g.name], n < nid := fun n hn => hb n (List.mem_append_right _ hn)
    obtain ⟨d1, e1⟩ := left_of da ba
    obtain ⟨c1, c2⟩ := expr_names g.clock hc s1 d1 e1
    obtain ⟨d2, e2⟩ := right_of da ba c1.drv.le
    obtain ⟨d3, e3⟩ := left_of d2 e2
    obtain ⟨w1, w2⟩ := expr_names g.writes hw s2 d3 e3
    obtain ⟨d4, e4⟩ := right_of d2 e2 w1.drv.le
    obtain ⟨i1, i2⟩ := opt_names hi s3 d4 e4
    have hle : nid ≤ i.2 := by
      have := c1.drv.le; have := w1.drv.le; have := i1.drv.le; omega
    have hsl : i.2 ≤ ss.2 := memInit_le hss s3 d4 (bound_trans e4 i1.drv.le)
    have p1 : Part S _ nid i.2 (c.1 ++ (w.1 ++ i.1)) :=
      c1.append ((w1.append (i1.mono fun _ => .inl) d2 e2).mono fun _ => .inl) da ba
    let it : EItem := .mem g.id g.elem g.len g.clock.variable g.writes.variable ss.1
    have p2 : EPart (fun n => S n ∨ n ∈ defsAll (c.1 ++ (w.1 ++ i.1))) [g.id] i.2 ss.2 [it] := by
      refine ⟨?_, ?_⟩
      · exact (Drv.one (n := g.id) (lo := i.2)).extend hsl
      · intro j hj n hn
        rw [List.mem_singleton.1 hj] at hn
        refine .inl ?_
        simp only [it, EItem.reads, List.mem_cons, List.not_mem_nil, or_false] at hn
        simp only [defsAll_append, List.mem_append]
        rcases hn with rfl | rfl
        · exact c2.imp id fun h => .inl h
        · exact w2.imp id fun h => .inr (.inl h)
    have p3 : EPart (fun n => n = g.id) [g.name] ss.2 ss.2
        [.item (.stmt (.bind g.name g.ty .alias [g.id]))] := by
      refine ⟨Drv.one, ?_⟩
      intro j hj n hn
      rw [List.mem_singleton.1 hj] at hn
      exact .inl (List.mem_singleton.1 hn)
    have p4 := p2.append (p3.mono (fun n h => .inr (by simp [eDefs, it, EItem.defs, h])))
      db (bound_trans bp hle)
    have p5 := (EPart.of p1).append (p4.mono (fun n h => by rw [eDefs_item]; exact h)) hd hb
    refine ⟨?_, ?_⟩
    · simpa [it, List.append_assoc] using p5
    · intro n hn
      rw [List.mem_singleton.1 hn]
      simp [eDefs, EItem.defs, Item.defs, target]
  | read id ty p m addr =>
    simp only [EStm.names, List.append_assoc] at hd hb ⊢
    simp only [lowerEStm, Option.bind_eq_bind, Option.bind_eq_some_iff, Option.some.injEq] at hl
    obtain ⟨a, ha, l, hl, rfl⟩ := hl
    obtain ⟨d1, e1⟩ := left_of hd hb
    obtain ⟨a1, a2⟩ := expr_names addr ha hs.2 d1 e1
    obtain ⟨d2, e2⟩ := right_of hd hb a1.drv.le
    obtain ⟨d3, e3⟩ := right_of d2 e2 (Nat.le_refl _)
    obtain ⟨l1, l2, l3⟩ := lower_names (S := fun n => n = id) hl rfl d3 e3
    have p1 : EPart (fun n => S n ∨ n ∈ eDefs (a.1.map EItem.item)) [id] a.2 a.2
        [.read id ty m addr.variable] := by
      refine ⟨by simpa [eDefs, EItem.defs] using Drv.one, ?_⟩
      intro j hj n hn
      rw [List.mem_singleton.1 hj] at hn
      simp only [EItem.reads, List.mem_cons, List.not_mem_nil, or_false] at hn
      rw [eDefs_item]
      rcases hn with rfl | rfl
      · exact .inl (.inl hs.1)
      · exact .inl a2
    have p2 : EPart (fun n => n = id) (patNames p) a.2 l.2 (l.1.map fun s => .item (.stmt s)) := by
      rw [its_items]
      exact EPart.of ⟨l1, l2⟩
    have p3 := p1.append (p2.mono (fun n h => .inr (by simp [eDefs, EItem.defs, h]))) d2 e2
    have p4 := (EPart.of a1).append p3 hd hb
    refine ⟨by simpa [List.append_assoc] using p4, ?_⟩
    intro n hn
    simp only [eDefs_append, List.mem_append]
    refine .inr ?_
    rw [its_items, eDefs_item]
    exact l3 n (vars_names p n hn)

theorem estms_names {S : Nat → Prop} : ∀ {ss : List EStm} {nid : Nat} {r : List EItem × Nat},
    lowerEStms ss nid = some r → (∀ s ∈ ss, s.Scoped S) → (ss.flatMap EStm.names).Nodup →
    (∀ n ∈ ss.flatMap EStm.names, n < nid) →
    EPart S (ss.flatMap EStm.names) nid r.2 r.1 ∧ ∀ n ∈ ss.flatMap EStm.vars, n ∈ eDefs r.1
  | [], nid, r, hl, _, _, _ => by
    simp only [lowerEStms, Option.some.injEq] at hl
    subst hl
    exact ⟨EPart.nil, by simp⟩
  | s :: ss, nid, r, hl, hs, hd, hb => by
    simp only [lowerEStms, Option.bind_eq_bind, Option.bind_eq_some_iff, Option.some.injEq] at hl
    obtain ⟨a, ha, b, hb', rfl⟩ := hl
    simp only [List.flatMap_cons] at hd hb ⊢
    obtain ⟨d1, e1⟩ := left_of hd hb
    obtain ⟨a1, a2⟩ := estm_names ha (hs s (by simp)) d1 e1
    obtain ⟨d2, e2⟩ := right_of hd hb a1.drv.le
    obtain ⟨b1, b2⟩ := estms_names hb' (fun s h => hs s (List.mem_cons_of_mem _ h)) d2 e2
    refine ⟨a1.append (b1.mono fun _ => .inl) hd hb, fun n hn => ?_⟩
    rw [eDefs_append, List.mem_append]
    rcases List.mem_append.1 hn with h | h
    · exact .inl (a2 n h)
    · exact .inr (b2 n h)

/-- C48.  Every signal of a generated entity is an input or driven by exactly one statement,
statements only read such signals, and the output is one of them. -/
theorem C48_driven_once (E : Ent) (nid : Nat) (h : HEnt) (hE : E.Resolved nid)
    (hl : lowerEnt E nid = some h) :
    (h.inputs.map (·.1) ++ eDefs h.items).Nodup ∧
    (∀ i ∈ h.items, ∀ n ∈ i.reads, n ∈ h.inputs.map (·.1) ++ eDefs h.items) ∧
    h.output ∈ h.inputs.map (·.1) ++ eDefs h.items := by
  simp only [lowerEnt, Option.bind_eq_bind, Option.bind_eq_some_iff, Option.some.injEq] at hl
  obtain ⟨a, ha, b, hb, rfl⟩ := hl
  obtain ⟨d1, d2, d3⟩ := List.nodup_append.1 hE.distinct
  have g : ∀ n ∈ E.names, n < nid := fun n hn => hE.given n (List.mem_append_right _ hn)
  unfold Ent.names at d2 g
  obtain ⟨f1, e1⟩ := left_of d2 g
  obtain ⟨a1, a2⟩ := estms_names ha hE.inScope.1 f1 e1
  obtain ⟨f2, e2⟩ := right_of d2 g a1.drv.le
  obtain ⟨b1, b2⟩ := expr_names E.result hb hE.inScope.2 f2 e2
  have p := a1.append ((EPart.of b1).mono fun _ => .inl) d2 g
  have hscope : ∀ n, E.InScope n → n ∈ E.params.map (·.1) ++ eDefs (a.1 ++ b.1.map .item) := by
    rintro n (h | h)
    · exact List.mem_append_left _ h
    · exact List.mem_append_right _ (by rw [eDefs_append]; exact List.mem_append_left _ (a2 n h))
  refine ⟨List.nodup_append.2 ⟨d1, p.drv.nodup, ?_⟩, ?_, ?_⟩
  · rintro x hx y hy rfl
    rcases p.drv.mem x hy with h | h
    · exact d3 x hx x h rfl
    · have := hE.given x (List.mem_append_left _ hx)
      omega
  · intro i hi n hn
    rcases p.reads i hi n hn with h | h
    · exact hscope n h
    · exact List.mem_append_right _ h
  · rcases b2 with h | h
    · exact hscope _ h
    · refine List.mem_append_right _ ?_
      rw [eDefs_append, eDefs_item]
      exact List.mem_append_right _ h

end Spade.Entity

import Verif.Expr.Model
import Verif.Expr.Accept
/-!
# Every signal is driven once, from signals driven before it
-/
namespace Spade.Expr
open Spade.Codegen Spade.Lower

theorem defsAll_append {is is' : List Item} : defsAll (is ++ is') = defsAll is ++ defsAll is' := by
  simp [defsAll]

theorem defsAll_cons {i : Item} {is : List Item} : defsAll (i :: is) = i.defs ++ defsAll is := by
  simp [defsAll]

theorem defsAll_nil : defsAll [] = [] := rfl

theorem seq_mono : ∀ {is : List Item} {S S' : Nat → Prop}, (∀ n, S n → S' n) → Seq S is → Seq S' is
  | [], _, _, _, _ => trivial
  | _ :: _, _, _, h, hs => ⟨fun n hn => h n (hs.1 n hn), seq_mono (fun n hn => hn.imp (h n) id) hs.2⟩

theorem seq_append : ∀ {is is' : List Item} {S : Nat → Prop}, Seq S is →
    Seq (fun n => S n ∨ n ∈ defsAll is) is' → Seq S (is ++ is')
  | [], _, S, _, h => seq_mono (fun n hn => by simpa [defsAll] using hn) h
  | i :: is, is', S, h1, h2 => by
    refine ⟨h1.1, seq_append h1.2 (seq_mono ?_ h2)⟩
    intro n hn
    rw [defsAll_cons, List.mem_append] at hn
    rcases hn with h | h | h
    · exact .inl (.inl h)
    · exact .inl (.inr h)
    · exact .inr h

/-- Different signals, with names in `N` or given out between `lo` and `hi`. -/
structure Drv (N : List Nat) (lo hi : Nat) (l : List Nat) : Prop where
  le : lo ≤ hi
  nodup : l.Nodup
  mem : ∀ n ∈ l, n ∈ N ∨ lo ≤ n ∧ n < hi

theorem Drv.nil {N : List Nat} {lo : Nat} : Drv N lo lo [] :=
  ⟨Nat.le_refl _, List.nodup_nil, by simp⟩

theorem Drv.one {lo n : Nat} : Drv [n] lo lo [n] :=
  ⟨Nat.le_refl _, by simp, by simp⟩

theorem Drv.append {N M l l' : List Nat} {lo mid hi : Nat} (h : Drv N lo mid l) (h' : Drv M mid hi l')
    (hd : (N ++ M).Nodup) (hb : ∀ n ∈ N ++ M, n < lo) : Drv (N ++ M) lo hi (l ++ l') := by
  rw [List.nodup_append] at hd
  have h1 := h.le
  have h2 := h'.le
  refine ⟨by omega, List.nodup_append.2 ⟨h.nodup, h'.nodup, ?_⟩, ?_⟩
  · rintro a ha b hb' rfl
    rcases h.mem a ha with h3 | h3 <;> rcases h'.mem a hb' with h4 | h4
    · exact hd.2.2 a h3 a h4 rfl
    · have := hb a (List.mem_append_left _ h3); omega
    · have := hb a (List.mem_append_right _ h4); omega
    · omega
  · intro n hn
    rcases List.mem_append.1 hn with hn | hn
    · rcases h.mem n hn with h3 | h3
      · exact .inl (List.mem_append_left _ h3)
      · exact .inr ⟨h3.1, by omega⟩
    · rcases h'.mem n hn with h3 | h3
      · exact .inl (List.mem_append_right _ h3)
      · exact .inr ⟨by omega, h3.2⟩

theorem Drv.widen {N l : List Nat} {lo lo' hi : Nat} (h : Drv N lo hi l) (hlo : lo' ≤ lo) :
    Drv N lo' hi l :=
  ⟨Nat.le_trans hlo h.le, h.nodup, fun n hn => (h.mem n hn).imp id fun h => ⟨by omega, h.2⟩⟩

theorem Drv.extend {N l : List Nat} {lo hi hi' : Nat} (h : Drv N lo hi l) (hhi : hi ≤ hi') :
    Drv N lo hi' l :=
  ⟨Nat.le_trans h.le hhi, h.nodup, fun n hn => (h.mem n hn).imp id fun h => ⟨h.1, by omega⟩⟩

theorem Drv.fresh {l l' : List Nat} {lo mid hi : Nat} (h : Drv [] lo mid l) (h' : Drv [] mid hi l') :
    Drv [] lo hi (l ++ l') := h.append h' (by simp) (by simp)

theorem Drv.new {lo : Nat} : Drv [] lo (lo + 1) [lo] := ⟨by omega, by simp, by simp⟩

/-- The items of statements. -/
abbrev its (ss : List Stmt) : List Item := ss.map .stmt

theorem names_bound {N M : List Nat} {lo hi : Nat} (h : ∀ n ∈ N ++ M, n < lo) (hl : lo ≤ hi) :
    (∀ n ∈ N, n < lo) ∧ ∀ n ∈ M, n < hi :=
  ⟨fun n hn => h n (List.mem_append_left _ hn),
    fun n hn => Nat.lt_of_lt_of_le (h n (List.mem_append_right _ hn)) hl⟩

/-! ## Patterns -/

mutual
theorem pat_names : ∀ (p : LPat) {self nid : Nat} {r : List Stmt × Nat} {S : Nat → Prop},
    lowerPat p self nid = some r → S self → (subnames p).Nodup → (∀ n ∈ subnames p, n < nid) →
    Drv (subnames p) nid r.2 (defsAll (its r.1)) ∧ Seq S (its r.1) ∧
      ∀ n ∈ subnames p, n ∈ defsAll (its r.1)
  | .int _ _ _, self, nid, r, S, hl, _, _, _ | .bool _ _, self, nid, r, S, hl, _, _, _
  | .bound _ _, self, nid, r, S, hl, _, _, _ => by
    simp only [lowerPat, Option.some.injEq] at hl
    subst hl
    exact ⟨Drv.nil, trivial, by simp [subnames]⟩
  | .boundInner _ t p, self, nid, r, S, hl, hS, hn, hb => by
    simp only [lowerPat, Option.bind_eq_bind, Option.bind_eq_some_iff, Option.some.injEq] at hl
    obtain ⟨r1, h1, rfl⟩ := hl
    simp only [subnames] at hn hb ⊢
    have hn' : ([p.name] ++ subnames p).Nodup := hn
    obtain ⟨a, b, c⟩ := pat_names p (S := fun n => S n ∨ n = p.name) h1 (.inr rfl)
      (List.nodup_cons.1 hn).2 fun n h => hb n (List.mem_cons_of_mem _ h)
    refine ⟨?_, ⟨by simpa [Item.reads] using hS, ?_⟩, ?_⟩
    · have := Drv.append (Drv.one (lo := nid) (n := p.name)) a hn' hb
      simpa [defsAll, Item.defs, target] using this
    · exact seq_mono (fun n h => by simpa [Item.defs, target] using h) b
    · intro n hm
      rcases List.mem_cons.1 hm with rfl | hm
      · simp [defsAll, Item.defs, target]
      · have := c n hm
        simp only [List.map_cons, defsAll_cons]
        exact List.mem_append_right _ this
  | .tuple _ _ ps, self, nid, r, S, hl, hS, hn, hb => by
    simp only [lowerPat] at hl
    exact members_names ps hl hS hn hb
  | .struct _ _ ps, self, nid, r, S, hl, hS, hn, hb => by
    simp only [lowerPat] at hl
    exact members_names ps hl hS hn hb
  | .variant _ _ _ ps, self, nid, r, S, hl, hS, hn, hb => by
    simp only [lowerPat] at hl
    exact members_names ps hl hS hn hb
  | .array _ _ ps, self, nid, r, S, hl, hS, hn, hb => by
    simp only [lowerPat, Option.bind_eq_bind, Option.bind_eq_some_iff] at hl
    obtain ⟨w, _, hl⟩ := hl
    exact elements_names ps hl hS hn hb
theorem members_names {op : Nat → Op} {self : Nat} : ∀ (ps : List LPat) {k nid : Nat}
    {r : List Stmt × Nat} {S : Nat → Prop}, lowerMembers op self k ps nid = some r → S self →
    (namesAll ps).Nodup → (∀ n ∈ namesAll ps, n < nid) →
    Drv (namesAll ps) nid r.2 (defsAll (its r.1)) ∧ Seq S (its r.1) ∧
      ∀ n ∈ namesAll ps, n ∈ defsAll (its r.1)
  | [], k, nid, r, S, hl, _, _, _ => by
    simp only [lowerMembers, Option.some.injEq] at hl
    subst hl
    exact ⟨Drv.nil, trivial, by simp [namesAll]⟩
  | p :: ps, k, nid, r, S, hl, hS, hn, hb => by
    simp only [lowerMembers, Option.bind_eq_bind, Option.bind_eq_some_iff, Option.some.injEq] at hl
    obtain ⟨r1, h1, r2, h2, rfl⟩ := hl
    simp only [namesAll] at hn hb ⊢
    have hn' : ([p.name] ++ subnames p ++ namesAll ps).Nodup := hn
    have hb' : ∀ n ∈ [p.name] ++ subnames p ++ namesAll ps, n < nid := hb
    have hn1 := (List.nodup_append.1 hn').1
    have hn2 := (List.nodup_append.1 hn').2.1
    have hb1 := fun n h => hb' n (List.mem_append_left _ h)
    obtain ⟨a, b, c⟩ := pat_names p (S := fun n => S n ∨ n = p.name) h1 (.inr rfl)
      (List.nodup_append.1 hn1).2.1 fun n h => hb1 n (List.mem_append_right _ h)
    obtain ⟨a', b', c'⟩ := members_names ps (S := S) h2 hS hn2 fun n h =>
      Nat.lt_of_lt_of_le (hb' n (List.mem_append_right _ h)) a.le
    refine ⟨?_, ⟨by simpa [Item.reads] using hS, ?_⟩, ?_⟩
    · have := ((Drv.one (lo := nid) (n := p.name)).append a hn1 hb1).append a' hn' hb'
      simpa [defsAll, Item.defs, target, List.map_append] using this
    · simp only [List.append_eq, List.map_append]
      refine seq_append (seq_mono (fun n h => by simpa [Item.defs, target] using h) b)
        (seq_mono (fun n h => .inl (.inl h)) b')
    · intro n hm
      simp only [List.map_cons, List.cons_append, defsAll_cons, List.map_append, defsAll_append,
        List.mem_append]
      rcases List.mem_append.1 hm with hm | hm
      · rcases List.mem_cons.1 hm with rfl | hm
        · exact .inl (by simp [Item.defs, target])
        · exact .inr (.inl (c n hm))
      · exact .inr (.inr (c' n hm))
theorem elements_names {it : MTy} {self : Nat} : ∀ (ps : List LPat) {k nid : Nat}
    {r : List Stmt × Nat} {S : Nat → Prop}, lowerElements it self k ps nid = some r → S self →
    (namesAll ps).Nodup → (∀ n ∈ namesAll ps, n < nid) →
    Drv (namesAll ps) nid r.2 (defsAll (its r.1)) ∧ Seq S (its r.1) ∧
      ∀ n ∈ namesAll ps, n ∈ defsAll (its r.1)
  | [], k, nid, r, S, hl, _, _, _ => by
    simp only [lowerElements, Option.some.injEq] at hl
    subst hl
    exact ⟨Drv.nil, trivial, by simp [namesAll]⟩
  | p :: ps, k, nid, r, S, hl, hS, hn, hb => by
    simp only [lowerElements, Option.bind_eq_bind, Option.bind_eq_some_iff, Option.some.injEq] at hl
    obtain ⟨r1, h1, r2, h2, rfl⟩ := hl
    simp only [namesAll] at hn hb ⊢
    have hn' : ([] ++ ([p.name] ++ subnames p ++ namesAll ps)).Nodup := hn
    have hb' : ∀ n ∈ [] ++ ([p.name] ++ subnames p ++ namesAll ps), n < nid := hb
    have hb1' : ∀ n ∈ [p.name] ++ subnames p ++ namesAll ps, n < nid + 1 := fun n h =>
      Nat.lt_succ_of_lt (hb n h)
    have hn1 := (List.nodup_append.1 hn').1
    have hn2 : ([p.name] ++ subnames p ++ namesAll ps).Nodup := hn
    have hn3 := (List.nodup_append.1 hn2).1
    have hb1 := fun n h => hb1' n (List.mem_append_left _ h)
    obtain ⟨a, b, c⟩ := pat_names p (S := fun n => S n ∨ n = p.name) h1 (.inr rfl)
      (List.nodup_append.1 hn3).2.1 fun n h => hb1 n (List.mem_append_right _ h)
    obtain ⟨a', b', c'⟩ := elements_names ps (S := S) h2 hS (List.nodup_append.1 hn2).2.1 fun n h =>
      Nat.lt_of_lt_of_le (hb1' n (List.mem_append_right _ h)) a.le
    refine ⟨?_, ⟨by simp [Item.reads], ⟨?_, ?_⟩⟩, ?_⟩
    · have := Drv.new.append (((Drv.one (lo := nid + 1) (n := p.name)).append a hn3 hb1).append a' hn2
        hb1') hn' hb'
      simpa [defsAll, Item.defs, target, List.map_append] using this
    · intro n hr
      simp only [Item.reads, List.mem_cons, List.not_mem_nil, or_false] at hr
      rcases hr with rfl | rfl
      · exact .inl hS
      · exact .inr (by simp [Item.defs, target])
    · simp only [List.append_eq, List.map_append]
      refine seq_append (seq_mono (fun n h => ?_) b) (seq_mono (fun n h => .inl (.inl (.inl h))) b')
      rcases h with h | h
      · exact .inl (.inl h)
      · exact .inr (by simp [Item.defs, target, h])
    · intro n hm
      simp only [List.map_cons, List.cons_append, defsAll_cons, List.map_append, defsAll_append,
        List.mem_append]
      rcases List.mem_append.1 hm with hm | hm
      · rcases List.mem_cons.1 hm with rfl | hm
        · exact .inr (.inl (by simp [Item.defs, target]))
        · exact .inr (.inr (.inl (c n hm)))
      · exact .inr (.inr (.inr (c' n hm)))
end

theorem lower_names {p : LPat} {self nid : Nat} {t : MTy} {r : List Stmt × Nat} {S : Nat → Prop}
    (hl : lower p self t nid = some r) (hS : S self) (hn : (patNames p).Nodup)
    (hb : ∀ n ∈ patNames p, n < nid) :
    Drv (patNames p) nid r.2 (defsAll (its r.1)) ∧ Seq S (its r.1) ∧
      ∀ n ∈ patNames p, n ∈ defsAll (its r.1) := by
  simp only [lower, Option.bind_eq_bind, Option.bind_eq_some_iff, Option.some.injEq] at hl
  obtain ⟨r1, h1, rfl⟩ := hl
  have hn' : ([p.name] ++ subnames p).Nodup := hn
  obtain ⟨a, b, c⟩ := pat_names p (S := fun n => S n ∨ n = p.name) h1 (.inl hS)
    (List.nodup_cons.1 hn).2 fun n h => hb n (List.mem_cons_of_mem _ h)
  refine ⟨?_, ⟨by simpa [Item.reads] using hS, ?_⟩, ?_⟩
  · have := Drv.append (Drv.one (lo := nid) (n := p.name)) a hn' hb
    simpa [defsAll, Item.defs, target, patNames] using this
  · exact seq_mono (fun n h => by simpa [Item.defs, target] using h) b
  · intro n hm
    rcases List.mem_cons.1 hm with rfl | hm
    · simp [defsAll, Item.defs, target]
    · have := c n hm
      simp only [List.map_cons, defsAll_cons]
      exact List.mem_append_right _ this

mutual
theorem vars_names : ∀ (p : LPat), ∀ n ∈ patVars p, n ∈ patNames p
  | .int _ _ _, n, h | .bool _ _, n, h => by simp [patVars] at h
  | .bound _ _, n, h => by simpa [patVars, patNames, LPat.name, subnames] using h
  | .boundInner m t p, n, h => by
    simp only [patVars, List.mem_cons] at h
    rcases h with rfl | h
    · simp [patNames, LPat.name]
    · exact List.mem_cons_of_mem _ (vars_names p n h)
  | .tuple _ _ ps, n, h | .array _ _ ps, n, h | .struct _ _ ps, n, h | .variant _ _ _ ps, n, h =>
    List.mem_cons_of_mem _ (varss_names ps n h)
theorem varss_names : ∀ (ps : List LPat), ∀ n ∈ patsVars ps, n ∈ namesAll ps
  | [], n, h => by simp [patsVars] at h
  | p :: ps, n, h => by
    simp only [patsVars, List.mem_append] at h
    simp only [namesAll, List.mem_append]
    rcases h with h | h
    · exact .inl (vars_names p n h)
    · exact .inr (varss_names ps n h)
end

/-! ## Conditions -/

theorem andAll_names : ∀ (ops : List Nat) {x nid : Nat} {S : Nat → Prop}, S x → (∀ o ∈ ops, S o) →
    Drv [] nid (andAll x ops nid).2.2 (defsAll (its (andAll x ops nid).1)) ∧
    Seq S (its (andAll x ops nid).1) ∧
    (S (andAll x ops nid).2.1 ∨ (andAll x ops nid).2.1 ∈ defsAll (its (andAll x ops nid).1))
  | [], x, nid, S, hx, _ => ⟨Drv.nil, trivial, .inl hx⟩
  | op :: ops, x, nid, S, hx, ho => by
    simp only [andAll]
    obtain ⟨a, b, c⟩ := andAll_names ops (x := nid) (nid := nid + 1) (S := fun n => S n ∨ n = nid)
      (.inr rfl) fun o h => .inl (ho o (List.mem_cons_of_mem _ h))
    refine ⟨?_, ⟨?_, seq_mono (fun n h => by simpa [Item.defs, target] using h) b⟩, ?_⟩
    · have := Drv.new.fresh a
      simpa [defsAll, Item.defs, target] using this
    · intro n hn
      simp only [Item.reads, List.mem_cons, List.not_mem_nil, or_false] at hn
      rcases hn with rfl | rfl
      · exact hx
      · exact ho _ List.mem_cons_self
    · simp only [List.map_cons, defsAll_cons, List.mem_append]
      rcases c with (c | c) | c
      · exact .inl c
      · exact .inr (.inl (by simp [Item.defs, target, c]))
      · exact .inr (.inr c)

theorem allConditions_names {ops : List Nat} {nid : Nat} {S : Nat → Prop} (ho : ∀ o ∈ ops, S o) :
    Drv [] nid (allConditions ops nid).2.2 (defsAll (its (allConditions ops nid).1)) ∧
    Seq S (its (allConditions ops nid).1) ∧
    (S (allConditions ops nid).2.1 ∨
      (allConditions ops nid).2.1 ∈ defsAll (its (allConditions ops nid).1)) := by
  match ops with
  | [] =>
    refine ⟨Drv.new, ⟨by simp [Item.reads], trivial⟩, .inr ?_⟩
    simp [allConditions, defsAll, Item.defs, target]
  | [op] => exact ⟨Drv.nil, trivial, .inl (ho op (by simp))⟩
  | op :: op' :: ops =>
    exact andAll_names _ (ho op (by simp)) fun o h => ho o (List.mem_cons_of_mem _ h)

mutual
theorem condition_names : ∀ (p : LPat) {x : Nat} {c : Option Nat} {nid : Nat} {S : Nat → Prop},
    S x → (∀ n ∈ subnames p, S n) → (∀ g, c = some g → S g) →
    Drv [] nid (condition p x c nid).2.2 (defsAll (its (condition p x c nid).1)) ∧
    Seq S (its (condition p x c nid).1) ∧
    (S (condition p x c nid).2.1 ∨
      (condition p x c nid).2.1 ∈ defsAll (its (condition p x c nid).1))
  | .int _ ty z, x, c, nid, S, hx, hp, hc => by
    cases c with
    | none =>
      simp only [condition]
      refine ⟨⟨by omega, by simp [defsAll, Item.defs, target], ?_⟩, ⟨by simp [Item.reads], ?_, trivial⟩,
        .inr (by simp [defsAll, Item.defs, target])⟩
      · intro n hn
        simp only [defsAll, Item.defs, target, List.map_cons, List.map_nil, List.flatMap_cons,
          List.flatMap_nil, List.append_nil, List.mem_append, List.mem_singleton] at hn
        omega
      · intro n hn
        simp only [Item.reads, List.mem_cons, List.not_mem_nil, or_false] at hn
        rcases hn with rfl | rfl
        · exact .inl hx
        · exact .inr (by simp [Item.defs, target])
    | some g =>
      simp only [condition]
      refine ⟨⟨by omega, ?_, ?_⟩, ⟨by simp [Item.reads], ?_, ?_, trivial⟩,
        .inr (by simp [defsAll, Item.defs, target])⟩
      · simp [defsAll, Item.defs, target]
      · intro n hn
        simp only [defsAll, Item.defs, target, List.map_cons, List.map_nil, List.flatMap_cons,
          List.flatMap_nil, List.append_nil, List.mem_append, List.mem_singleton] at hn
        omega
      · intro n hn
        simp only [Item.reads, List.mem_cons, List.not_mem_nil, or_false] at hn
        rcases hn with rfl | rfl
        · exact .inl hx
        · exact .inr (by simp [Item.defs, target])
      · intro n hn
        simp only [Item.reads, List.mem_cons, List.not_mem_nil, or_false] at hn
        rcases hn with rfl | rfl
        · exact .inr (by simp [Item.defs, target])
        · exact .inl (.inl (hc _ rfl))
  | .bool _ b, x, c, nid, S, hx, hp, hc => by
    cases b <;> cases c <;> simp only [condition]
    · refine ⟨Drv.new, ⟨by simpa [Item.reads] using hx, trivial⟩,
        .inr (by simp [defsAll, Item.defs, target])⟩
    · rename_i g
      refine ⟨⟨by omega, ?_, ?_⟩, ⟨by simpa [Item.reads] using hx, ?_, trivial⟩,
        .inr (by simp [defsAll, Item.defs, target])⟩
      · simp [defsAll, Item.defs, target]
      · intro n hn
        simp only [defsAll, Item.defs, target, List.map_cons, List.map_nil, List.flatMap_cons,
          List.flatMap_nil, List.append_nil, List.mem_append, List.mem_singleton] at hn
        omega
      · intro n hn
        simp only [Item.reads, List.mem_cons, List.not_mem_nil, or_false] at hn
        rcases hn with rfl | rfl
        · exact .inr (by simp [Item.defs, target])
        · exact .inl (hc _ rfl)
    · exact ⟨(Drv.nil (N := []) (lo := nid)).extend (by omega), trivial, .inl hx⟩
    · rename_i g
      refine ⟨Drv.new, ⟨?_, trivial⟩, .inr (by simp [defsAll, Item.defs, target])⟩
      intro n hn
      simp only [Item.reads, List.mem_cons, List.not_mem_nil, or_false] at hn
      rcases hn with rfl | rfl
      · exact hx
      · exact hc _ rfl
  | .bound _ t, x, c, nid, S, hx, hp, hc => by
    cases c <;> simp only [condition]
    · exact ⟨Drv.new, ⟨by simp [Item.reads], trivial⟩, .inr (by simp [defsAll, Item.defs, target])⟩
    · refine ⟨Drv.new, ⟨by simpa [Item.reads] using hc _ rfl, trivial⟩,
        .inr (by simp [defsAll, Item.defs, target])⟩
  | .boundInner _ t p, x, c, nid, S, hx, hp, hc => by
    simp only [condition]
    simp only [subnames, List.mem_cons, forall_eq_or_imp] at hp
    obtain ⟨a, b, d⟩ := condition_names p (x := p.name) (c := c) (nid := nid + 1) hp.1 hp.2 hc
    simp only [its, List.map_append, defsAll_append]
    refine ⟨⟨?_, ?_, ?_⟩, seq_append b ⟨?_, trivial⟩, ?_⟩
    · have := a.le; omega
    · rw [List.nodup_append]
      refine ⟨a.nodup, by simp [defsAll, Item.defs], ?_⟩
      rintro n hn m hm rfl
      simp only [defsAll, Item.defs, target, List.map_cons, List.map_nil, List.flatMap_cons,
        List.flatMap_nil, List.append_nil, List.mem_singleton] at hm
      have := a.mem n hn
      simp only [List.not_mem_nil, false_or] at this
      omega
    · intro n hn
      have := a.le
      rcases List.mem_append.1 hn with hn | hn
      · have := a.mem n hn
        simp only [List.not_mem_nil, false_or] at this ⊢
        omega
      · simp only [defsAll, Item.defs, target, List.map_cons, List.map_nil, List.flatMap_cons,
          List.flatMap_nil, List.append_nil, List.mem_singleton] at hn
        simp only [List.not_mem_nil, false_or]
        omega
    · simpa [Item.reads] using d
    · rcases d with d | d
      · exact .inl d
      · exact .inr (List.mem_append_left _ d)
  | .tuple _ t ps, x, c, nid, S, hx, hp, hc => by
    simp only [condition]
    obtain ⟨a, b, d⟩ := conditions_names ps (nid := nid + 1) hp
    obtain ⟨a', b', d'⟩ := allConditions_names (ops := (conditions ps (nid + 1)).2.1 ++ c.toList)
      (nid := (conditions ps (nid + 1)).2.2)
      (S := fun n => S n ∨ n ∈ defsAll (its (conditions ps (nid + 1)).1)) (fun o h => by
        rcases List.mem_append.1 h with h | h
        · exact d o h
        · exact .inl (hc o (Option.mem_toList.1 h)))
    simp only [its, List.map_append, defsAll_append]
    refine ⟨(a.fresh a').widen (by omega), seq_append b b', ?_⟩
    rw [List.mem_append, ← or_assoc]; exact d'
  | .array _ t ps, x, c, nid, S, hx, hp, hc => by
    simp only [condition]
    obtain ⟨a, b, d⟩ := conditions_names ps (nid := nid + 1) hp
    obtain ⟨a', b', d'⟩ := allConditions_names (ops := (conditions ps (nid + 1)).2.1 ++ c.toList)
      (nid := (conditions ps (nid + 1)).2.2)
      (S := fun n => S n ∨ n ∈ defsAll (its (conditions ps (nid + 1)).1)) (fun o h => by
        rcases List.mem_append.1 h with h | h
        · exact d o h
        · exact .inl (hc o (Option.mem_toList.1 h)))
    simp only [its, List.map_append, defsAll_append]
    refine ⟨(a.fresh a').widen (by omega), seq_append b b', ?_⟩
    rw [List.mem_append, ← or_assoc]; exact d'
  | .struct _ t ps, x, c, nid, S, hx, hp, hc => by
    simp only [condition]
    obtain ⟨a, b, d⟩ := conditions_names ps (nid := nid + 2) (S := fun n => S n ∨ n = nid + 1)
      fun n h => .inl (hp n h)
    obtain ⟨a', b', d'⟩ := allConditions_names
      (ops := (nid + 1) :: (conditions ps (nid + 2)).2.1 ++ c.toList)
      (nid := (conditions ps (nid + 2)).2.2)
      (S := fun n => (S n ∨ n = nid + 1) ∨ n ∈ defsAll (its (conditions ps (nid + 2)).1))
      (fun o h => by
        simp only [List.cons_append, List.mem_cons, List.mem_append] at h
        rcases h with rfl | h | h
        · exact .inl (.inr rfl)
        · exact d o h
        · exact .inl (.inl (hc o (Option.mem_toList.1 h))))
    simp only [its, List.cons_append, List.map_cons, List.map_append, defsAll_cons, defsAll_append]
    refine ⟨?_, ⟨by simp [Item.reads], ?_⟩, ?_⟩
    · exact ((Drv.new (lo := nid + 1)).fresh (a.fresh a')).widen (by omega)
    · exact seq_mono (fun n h => by simpa [Item.defs, target] using h) (seq_append b b')
    · rw [List.mem_append, List.mem_append]
      rcases d' with ((h | h) | h) | h
      · exact .inl h
      · exact .inr (.inl (by simp only [Item.defs, target, List.mem_singleton]; exact h))
      · exact .inr (.inr (.inl h))
      · exact .inr (.inr (.inr h))
  | .variant _ t i ps, x, c, nid, S, hx, hp, hc => by
    simp only [condition]
    obtain ⟨a, b, d⟩ := conditions_names ps (nid := nid + 2) (S := fun n => S n ∨ n = nid + 1)
      fun n h => .inl (hp n h)
    obtain ⟨a', b', d'⟩ := allConditions_names
      (ops := (nid + 1) :: (conditions ps (nid + 2)).2.1 ++ c.toList)
      (nid := (conditions ps (nid + 2)).2.2)
      (S := fun n => (S n ∨ n = nid + 1) ∨ n ∈ defsAll (its (conditions ps (nid + 2)).1))
      (fun o h => by
        simp only [List.cons_append, List.mem_cons, List.mem_append] at h
        rcases h with rfl | h | h
        · exact .inl (.inr rfl)
        · exact d o h
        · exact .inl (.inl (hc o (Option.mem_toList.1 h))))
    simp only [its, List.cons_append, List.map_cons, List.map_append, defsAll_cons, defsAll_append]
    refine ⟨?_, ⟨by simpa [Item.reads] using hx, ?_⟩, ?_⟩
    · exact ((Drv.new (lo := nid + 1)).fresh (a.fresh a')).widen (by omega)
    · exact seq_mono (fun n h => by simpa [Item.defs, target] using h) (seq_append b b')
    · rw [List.mem_append, List.mem_append]
      rcases d' with ((h | h) | h) | h
      · exact .inl h
      · exact .inr (.inl (by simp only [Item.defs, target, List.mem_singleton]; exact h))
      · exact .inr (.inr (.inl h))
      · exact .inr (.inr (.inr h))
theorem conditions_names : ∀ (ps : List LPat) {nid : Nat} {S : Nat → Prop},
    (∀ n ∈ namesAll ps, S n) →
    Drv [] nid (conditions ps nid).2.2 (defsAll (its (conditions ps nid).1)) ∧
    Seq S (its (conditions ps nid).1) ∧
    ∀ o ∈ (conditions ps nid).2.1, S o ∨ o ∈ defsAll (its (conditions ps nid).1)
  | [], nid, S, _ => ⟨Drv.nil, trivial, by simp [conditions]⟩
  | p :: ps, nid, S, hp => by
    simp only [namesAll, List.cons_append, List.mem_cons, List.mem_append, or_imp, forall_and,
      forall_eq] at hp
    simp only [conditions]
    obtain ⟨a, b, c⟩ := condition_names p (x := p.name) (c := none) (nid := nid) hp.1 hp.2.1
      (by intro _ h; cases h)
    obtain ⟨a', b', c'⟩ := conditions_names ps (nid := (condition p p.name none nid).2.2) (S := S)
      hp.2.2
    simp only [its, List.map_append, defsAll_append]
    refine ⟨a.fresh a', seq_append b (seq_mono (fun _ => .inl) b'), ?_⟩
    intro o ho
    rw [List.mem_append]
    rcases List.mem_cons.1 ho with rfl | ho
    · exact c.imp id .inl
    · exact (c' o ho).imp id .inr
end

/-! ## Expressions -/

/-- Items in order which drive different signals. -/
structure Part (S : Nat → Prop) (N : List Nat) (lo hi : Nat) (is : List Item) : Prop where
  drv : Drv N lo hi (defsAll is)
  seq : Seq S is

theorem Part.nil {S : Nat → Prop} {lo : Nat} : Part S [] lo lo [] := ⟨Drv.nil, trivial⟩

theorem Part.append {S : Nat → Prop} {N M : List Nat} {lo mid hi : Nat} {is is' : List Item}
    (h : Part S N lo mid is) (h' : Part (fun n => S n ∨ n ∈ defsAll is) M mid hi is')
    (hd : (N ++ M).Nodup) (hb : ∀ n ∈ N ++ M, n < lo) : Part S (N ++ M) lo hi (is ++ is') :=
  ⟨by rw [defsAll_append]; exact h.drv.append h'.drv hd hb, seq_append h.seq h'.seq⟩

theorem Part.mono {S S' : Nat → Prop} {N : List Nat} {lo hi : Nat} {is : List Item}
    (hs : ∀ n, S n → S' n) (h : Part S N lo hi is) : Part S' N lo hi is :=
  ⟨h.drv, seq_mono hs h.seq⟩

theorem Part.one {S : Nat → Prop} {lo id : Nat} {i : Item} (hi : i.defs = [id])
    (hr : ∀ n ∈ i.reads, S n) : Part S [id] lo lo [i] :=
  ⟨by simpa [defsAll, hi] using Drv.one, hr, trivial⟩

theorem Part.close {S : Nat → Prop} {N : List Nat} {lo hi id : Nat} {is : List Item} {i : Item}
    (h : Part S N lo hi is) (he : i.defs = [id]) (hr : ∀ n ∈ i.reads, S n ∨ n ∈ defsAll is)
    (hd : (N ++ [id]).Nodup) (hb : ∀ n ∈ N ++ [id], n < lo) :
    Part S (N ++ [id]) lo hi (is ++ [i]) ∧ (S id ∨ id ∈ defsAll (is ++ [i])) :=
  ⟨h.append (Part.one he hr) hd hb, .inr (by simp [defsAll_append, defsAll, he])⟩

theorem Part.fresh {S : Nat → Prop} {N : List Nat} {lo mid hi : Nat} {is is' : List Item}
    (h : Part S N lo mid is) (h' : Part (fun n => S n ∨ n ∈ defsAll is) [] mid hi is')
    (hd : N.Nodup) (hb : ∀ n ∈ N, n < lo) : Part S N lo hi (is ++ is') := by
  have := h.append h' (by simpa using hd) (by simpa using hb)
  simpa using this

theorem or_append {S : Nat → Prop} {x : Nat} {is is' : List Item} (h : S x ∨ x ∈ defsAll is) :
    S x ∨ x ∈ defsAll (is ++ is') := by
  rw [defsAll_append, List.mem_append]; exact h.imp id .inl

theorem or_append' {S : Nat → Prop} {x : Nat} {is is' : List Item} (h : S x ∨ x ∈ defsAll is') :
    S x ∨ x ∈ defsAll (is ++ is') := by
  rw [defsAll_append, List.mem_append]; exact h.imp id .inr

theorem lowerCall_defs {id : Nat} {ty : MTy} {f : Callee} {ts : List MTy} {ops : List Nat} {i : Item}
    (h : lowerCall id ty f ts ops = some i) : i.defs = [id] ∧ i.reads = ops := by
  cases f <;> simp only [lowerCall, Option.some.injEq, Option.map_eq_some_iff] at h
  · obtain ⟨_, _, rfl⟩ := h; exact ⟨rfl, rfl⟩
  all_goals (subst h; exact ⟨rfl, rfl⟩)

theorem bound_trans {N : List Nat} {lo hi : Nat} (h : ∀ n ∈ N, n < lo) (hl : lo ≤ hi) :
    ∀ n ∈ N, n < hi := fun n hn => Nat.lt_of_lt_of_le (h n hn) hl

theorem left_of {N M : List Nat} {lo : Nat} (hd : (N ++ M).Nodup) (hb : ∀ n ∈ N ++ M, n < lo) :
    N.Nodup ∧ ∀ n ∈ N, n < lo :=
  ⟨(List.nodup_append.1 hd).1, fun n h => hb n (List.mem_append_left _ h)⟩

theorem right_of {N M : List Nat} {lo hi : Nat} (hd : (N ++ M).Nodup) (hb : ∀ n ∈ N ++ M, n < lo)
    (hl : lo ≤ hi) : M.Nodup ∧ ∀ n ∈ M, n < hi :=
  ⟨(List.nodup_append.1 hd).2.1, fun n h => Nat.lt_of_lt_of_le (hb n (List.mem_append_right _ h)) hl⟩

mutual
theorem expr_names : ∀ (e : Expr) {nid : Nat} {r : List Item × Nat} {S : Nat → Prop},
    lowerE e nid = some r → e.Scoped S → e.names.Nodup → (∀ n ∈ e.names, n < nid) →
    Part S e.names nid r.2 r.1 ∧ (S e.variable ∨ e.variable ∈ defsAll r.1)
  | .var n t, nid, r, S, hl, hs, hd, hb => by
    simp only [lowerE, Option.some.injEq] at hl
    subst hl
    exact ⟨Part.nil, .inl hs⟩
  | .int id t z, nid, r, S, hl, hs, hd, hb => by
    simp only [lowerE, Option.some.injEq] at hl
    subst hl
    exact ⟨Part.one rfl (by simp [Item.reads]),
      .inr (by simp [defsAll, Item.defs, target, Expr.variable])⟩
  | .bool id b, nid, r, S, hl, hs, hd, hb => by
    simp only [lowerE, Option.some.injEq] at hl
    subst hl
    exact ⟨Part.one rfl (by simp [Item.reads]),
      .inr (by simp [defsAll, Item.defs, target, Expr.variable])⟩
  | .bin id t op l r', nid, r, S, hl, hs, hd, hb => by
    simp only [lowerE, Option.bind_eq_bind, Option.bind_eq_some_iff] at hl
    obtain ⟨a, ha, b, hb', o, _, hl⟩ := hl
    split at hl
    · simp only [Option.some.injEq] at hl
      subst hl
      simp only [Expr.names] at hd hb ⊢
      obtain ⟨d1, b1⟩ := left_of hd hb
      obtain ⟨d2, b2⟩ := left_of d1 b1
      obtain ⟨p, v⟩ := expr_names l ha hs.1 d2 b2
      obtain ⟨d3, b3⟩ := right_of d1 b1 p.drv.le
      obtain ⟨p', v'⟩ := expr_names r' hb' hs.2 d3 b3
      refine (p.append (p'.mono fun _ => .inl) d1 b1).close (id := id) rfl ?_ hd hb
      simp only [Item.reads, List.mem_cons, List.not_mem_nil, or_false]
      rintro n (rfl | rfl)
      · exact or_append v
      · exact or_append' v'
    · cases hl
  | .un id t op e, nid, r, S, hl, hs, hd, hb => by
    simp only [lowerE, Option.bind_eq_bind, Option.bind_eq_some_iff, Option.some.injEq] at hl
    obtain ⟨a, ha, rfl⟩ := hl
    simp only [Expr.names] at hd hb ⊢
    obtain ⟨d1, b1⟩ := left_of hd hb
    obtain ⟨p, v⟩ := expr_names e ha hs d1 b1
    exact p.close (id := id) rfl (by simpa [Item.reads] using v) hd hb
  | .tuple id t es, nid, r, S, hl, hs, hd, hb => by
    simp only [lowerE, Option.bind_eq_bind, Option.bind_eq_some_iff, Option.some.injEq] at hl
    obtain ⟨a, ha, rfl⟩ := hl
    simp only [Expr.names] at hd hb ⊢
    obtain ⟨d1, b1⟩ := left_of hd hb
    obtain ⟨p, v⟩ := exprs_names es ha hs d1 b1
    exact p.close (id := id) rfl (by simpa [Item.reads] using v) hd hb
  | .proj id t e k, nid, r, S, hl, hs, hd, hb => by
    simp only [lowerE, Option.bind_eq_bind, Option.bind_eq_some_iff, Option.some.injEq] at hl
    obtain ⟨a, ha, rfl⟩ := hl
    simp only [Expr.names] at hd hb ⊢
    obtain ⟨d1, b1⟩ := left_of hd hb
    obtain ⟨p, v⟩ := expr_names e ha hs d1 b1
    exact p.close (id := id) rfl (by simpa [Item.reads] using v) hd hb
  | .field id t e fs f, nid, r, S, hl, hs, hd, hb => by
    simp only [lowerE, Option.bind_eq_bind, Option.bind_eq_some_iff, Option.some.injEq] at hl
    obtain ⟨a, ha, _, _, rfl⟩ := hl
    simp only [Expr.names] at hd hb ⊢
    obtain ⟨d1, b1⟩ := left_of hd hb
    obtain ⟨p, v⟩ := expr_names e ha hs d1 b1
    exact p.close (id := id) rfl (by simpa [Item.reads] using v) hd hb
  | .cast id t e, nid, r, S, hl, hs, hd, hb => by
    simp only [lowerE, Option.bind_eq_bind, Option.bind_eq_some_iff, Option.some.injEq] at hl
    obtain ⟨a, ha, rfl⟩ := hl
    simp only [Expr.names] at hd hb ⊢
    obtain ⟨d1, b1⟩ := left_of hd hb
    obtain ⟨p, v⟩ := expr_names e ha hs d1 b1
    exact p.close (id := id) rfl (by simpa [Item.reads] using v) hd hb
  | .array id t es, nid, r, S, hl, hs, hd, hb => by
    simp only [lowerE, Option.bind_eq_bind, Option.bind_eq_some_iff, Option.some.injEq] at hl
    obtain ⟨a, ha, rfl⟩ := hl
    simp only [Expr.names] at hd hb ⊢
    obtain ⟨d1, b1⟩ := left_of hd hb
    obtain ⟨p, v⟩ := exprs_names es ha hs d1 b1
    exact p.close (id := id) rfl (by simpa [Item.reads] using v) hd hb
  | .rep id t e n, nid, r, S, hl, hs, hd, hb => by
    simp only [lowerE, Option.bind_eq_bind, Option.bind_eq_some_iff, Option.some.injEq] at hl
    obtain ⟨a, ha, rfl⟩ := hl
    simp only [Expr.names] at hd hb ⊢
    obtain ⟨d1, b1⟩ := left_of hd hb
    obtain ⟨p, v⟩ := expr_names e ha hs d1 b1
    refine p.close (id := id) rfl ?_ hd hb
    intro m hm
    rw [List.eq_of_mem_replicate hm]
    exact v
  | .elem id t e i, nid, r, S, hl, hs, hd, hb => by
    simp only [lowerE, Option.bind_eq_bind, Option.bind_eq_some_iff, Option.some.injEq] at hl
    obtain ⟨a, ha, b, hb', rfl⟩ := hl
    simp only [Expr.names] at hd hb ⊢
    obtain ⟨d1, b1⟩ := left_of hd hb
    obtain ⟨d2, b2⟩ := left_of d1 b1
    obtain ⟨p, v⟩ := expr_names e ha hs.1 d2 b2
    obtain ⟨d3, b3⟩ := right_of d1 b1 p.drv.le
    obtain ⟨p', v'⟩ := expr_names i hb' hs.2 d3 b3
    refine (p.append (p'.mono fun _ => .inl) d1 b1).close (id := id) rfl ?_ hd hb
    simp only [Item.reads, List.mem_cons, List.not_mem_nil, or_false]
    rintro n (rfl | rfl)
    · exact or_append v
    · exact or_append' v'
  | .range id t e a0 b0, nid, r, S, hl, hs, hd, hb => by
    simp only [lowerE, Option.bind_eq_bind, Option.bind_eq_some_iff, Option.some.injEq] at hl
    obtain ⟨a, ha, _, _, rfl⟩ := hl
    simp only [Expr.names] at hd hb ⊢
    obtain ⟨d1, b1⟩ := left_of hd hb
    obtain ⟨p, v⟩ := expr_names e ha hs d1 b1
    exact p.close (id := id) rfl (by simpa [Item.reads] using v) hd hb
  | .block id ss e, nid, r, S, hl, hs, hd, hb => by
    simp only [lowerE, Option.bind_eq_bind, Option.bind_eq_some_iff, Option.some.injEq] at hl
    obtain ⟨a, ha, b, hb', rfl⟩ := hl
    simp only [Expr.names] at hd hb ⊢
    obtain ⟨d1, b1⟩ := left_of hd hb
    obtain ⟨p, v⟩ := stms_names ss ha hs.1 d1 b1
    obtain ⟨d3, b3⟩ := right_of hd hb p.drv.le
    obtain ⟨p', v'⟩ := expr_names e hb' hs.2 d3 b3
    refine ⟨p.append (p'.mono v) hd hb, ?_⟩
    rcases v' with v' | v'
    · exact or_append (v _ v')
    · exact or_append' (.inr v')
  | .unitBlock id ss, nid, r, S, hl, hs, hd, hb => by
    simp only [lowerE, Option.bind_eq_bind, Option.bind_eq_some_iff, Option.some.injEq] at hl
    obtain ⟨a, ha, rfl⟩ := hl
    simp only [Expr.names] at hd hb ⊢
    obtain ⟨d1, b1⟩ := left_of hd hb
    obtain ⟨p, v⟩ := stms_names ss ha hs d1 b1
    exact p.close (id := id) rfl (by simp [Item.reads]) hd hb
  | .ite id t c x y, nid, r, S, hl, hs, hd, hb => by
    simp only [lowerE, Option.bind_eq_bind, Option.bind_eq_some_iff, Option.some.injEq] at hl
    obtain ⟨a, ha, b, hb', d, hd', rfl⟩ := hl
    simp only [Expr.names] at hd hb ⊢
    obtain ⟨d1, b1⟩ := left_of hd hb
    obtain ⟨d2, b2⟩ := left_of d1 b1
    obtain ⟨d4, b4⟩ := left_of d2 b2
    obtain ⟨p, v⟩ := expr_names c ha hs.1 d4 b4
    obtain ⟨d3, b3⟩ := right_of d2 b2 p.drv.le
    obtain ⟨p', v'⟩ := expr_names x hb' hs.2.1 d3 b3
    have q := p.append (p'.mono fun _ => .inl) d2 b2
    obtain ⟨d5, b5⟩ := right_of d1 b1 q.drv.le
    obtain ⟨p'', v''⟩ := expr_names y hd' hs.2.2 d5 b5
    refine (q.append (p''.mono fun _ => .inl) d1 b1).close (id := id) rfl ?_ hd hb
    simp only [Item.reads, List.mem_cons, List.not_mem_nil, or_false]
    rintro n (rfl | rfl | rfl)
    · exact or_append (or_append v)
    · exact or_append (or_append' v')
    · exact or_append' v''
  | .match id t e arms, nid, r, S, hl, hs, hd, hb => by
    simp only [lowerE, Option.bind_eq_bind, Option.bind_eq_some_iff, Option.some.injEq] at hl
    obtain ⟨a, ha, b, hb', rfl⟩ := hl
    simp only [Expr.names] at hd hb ⊢
    obtain ⟨d1, b1⟩ := left_of hd hb
    obtain ⟨d2, b2⟩ := left_of d1 b1
    obtain ⟨p, v⟩ := expr_names e ha hs.1 d2 b2
    obtain ⟨d3, b3⟩ := right_of d1 b1 p.drv.le
    obtain ⟨p', v'⟩ := arms_names arms (S := S) (T := fun n => S n ∨ n ∈ defsAll a.1) hb' v
      (fun _ => .inl) hs.2 d3 b3
    refine (p.append p' d1 b1).close (id := id) rfl ?_ hd hb
    intro n hn
    rcases v' n hn with (h | h) | h
    · exact .inl h
    · exact or_append (.inr h)
    · exact or_append' (.inr h)
  | .call id t f es, nid, r, S, hl, hs, hd, hb => by
    simp only [lowerE, Option.bind_eq_bind, Option.bind_eq_some_iff, Option.some.injEq] at hl
    obtain ⟨a, ha, i, hi, rfl⟩ := hl
    simp only [Expr.names] at hd hb ⊢
    obtain ⟨d1, b1⟩ := left_of hd hb
    obtain ⟨p, v⟩ := exprs_names es ha hs d1 b1
    obtain ⟨hi1, hi2⟩ := lowerCall_defs hi
    exact p.close (id := id) hi1 (by rw [hi2]; simpa using v) hd hb
theorem exprs_names : ∀ (es : List Expr) {nid : Nat} {r : List Item × Nat} {S : Nat → Prop},
    lowerEs es nid = some r → Exprs.Scoped S es → (Exprs.names es).Nodup →
    (∀ n ∈ Exprs.names es, n < nid) →
    Part S (Exprs.names es) nid r.2 r.1 ∧ ∀ e ∈ es, S e.variable ∨ e.variable ∈ defsAll r.1
  | [], nid, r, S, hl, hs, hd, hb => by
    simp only [lowerEs, Option.some.injEq] at hl
    subst hl
    exact ⟨Part.nil, by simp⟩
  | e :: es, nid, r, S, hl, hs, hd, hb => by
    simp only [lowerEs, Option.bind_eq_bind, Option.bind_eq_some_iff, Option.some.injEq] at hl
    obtain ⟨a, ha, b, hb', rfl⟩ := hl
    simp only [Exprs.names] at hd hb ⊢
    obtain ⟨d1, b1⟩ := left_of hd hb
    obtain ⟨p, v⟩ := expr_names e ha hs.1 d1 b1
    obtain ⟨d3, b3⟩ := right_of hd hb p.drv.le
    obtain ⟨p', v'⟩ := exprs_names es hb' hs.2 d3 b3
    refine ⟨p.append (p'.mono fun _ => .inl) hd hb, ?_⟩
    intro e' he
    rcases List.mem_cons.1 he with rfl | he
    · exact or_append v
    · exact or_append' (v' e' he)
theorem stms_names : ∀ (ss : List Stm) {nid : Nat} {r : List Item × Nat} {S : Nat → Prop},
    lowerStms ss nid = some r → Stms.Scoped S ss → (Stms.names ss).Nodup →
    (∀ n ∈ Stms.names ss, n < nid) →
    Part S (Stms.names ss) nid r.2 r.1 ∧ ∀ n, scope S ss n → S n ∨ n ∈ defsAll r.1
  | [], nid, r, S, hl, hs, hd, hb => by
    simp only [lowerStms, Option.some.injEq] at hl
    subst hl
    exact ⟨Part.nil, fun _ => .inl⟩
  | .bind p e :: ss, nid, r, S, hl, hs, hd, hb => by
    simp only [lowerStms, Option.bind_eq_bind, Option.bind_eq_some_iff, Option.some.injEq] at hl
    obtain ⟨a, ha, l, hl', b, hb', rfl⟩ := hl
    simp only [Stms.names] at hd hb ⊢
    obtain ⟨d1, b1⟩ := left_of hd hb
    obtain ⟨d2, b2⟩ := left_of d1 b1
    obtain ⟨q, v⟩ := expr_names e ha hs.1 d2 b2
    obtain ⟨d3, b3⟩ := right_of d1 b1 q.drv.le
    obtain ⟨q1, q2, q3⟩ := lower_names (S := fun n => S n ∨ n ∈ defsAll a.1) hl' v d3 b3
    have q' := q.append ⟨q1, q2⟩ d1 b1
    obtain ⟨d4, b4⟩ := right_of hd hb q'.drv.le
    obtain ⟨w, x⟩ := stms_names ss hb' hs.2 d4 b4
    have hm : ∀ n, (S n ∨ n ∈ patVars p) → S n ∨ n ∈ defsAll (a.1 ++ its l.1) := by
      rintro n (h | h)
      · exact .inl h
      · exact or_append' (.inr (q3 n (vars_names p n h)))
    refine ⟨q'.append (w.mono hm) hd hb, ?_⟩
    intro n hn
    rcases x n hn with h | h
    · exact or_append (hm n h)
    · exact or_append' (.inr h)
  | .expr e :: ss, nid, r, S, hl, hs, hd, hb => by
    simp only [lowerStms, Option.bind_eq_bind, Option.bind_eq_some_iff, Option.some.injEq] at hl
    obtain ⟨a, ha, b, hb', rfl⟩ := hl
    simp only [Stms.names] at hd hb ⊢
    obtain ⟨d1, b1⟩ := left_of hd hb
    obtain ⟨p, v⟩ := expr_names e ha hs.1 d1 b1
    obtain ⟨d3, b3⟩ := right_of hd hb p.drv.le
    obtain ⟨p', v'⟩ := stms_names ss hb' hs.2 d3 b3
    exact ⟨p.append (p'.mono fun _ => .inl) hd hb, fun n hn => or_append' (v' n hn)⟩
  | .assert e :: ss, nid, r, S, hl, hs, hd, hb => by
    simp only [lowerStms, Option.bind_eq_bind, Option.bind_eq_some_iff, Option.some.injEq] at hl
    obtain ⟨a, ha, b, hb', rfl⟩ := hl
    simp only [Stms.names] at hd hb ⊢
    obtain ⟨d1, b1⟩ := left_of hd hb
    obtain ⟨p, v⟩ := expr_names e ha hs.1 d1 b1
    obtain ⟨d3, b3⟩ := right_of hd hb p.drv.le
    obtain ⟨p', v'⟩ := stms_names ss hb' hs.2 d3 b3
    have q : Part S e.names nid a.2 (a.1 ++ [.assert e.variable]) :=
      p.fresh ⟨Drv.nil, by simpa [Seq, Item.reads] using v⟩ d1 b1
    exact ⟨q.append (p'.mono fun _ => .inl) hd hb, fun n hn => or_append' (v' n hn)⟩
  | .decl :: ss, nid, r, S, hl, hs, hd, hb => by
    simp only [lowerStms] at hl
    exact stms_names ss hl hs hd hb
theorem arms_names {operand : Nat} : ∀ (as : List Arm) {nid : Nat} {r : List Item × List Nat × Nat}
    {S T : Nat → Prop}, lowerArms operand as nid = some r → T operand → (∀ n, S n → T n) →
    Arms.Scoped S as → (Arms.names as).Nodup → (∀ n ∈ Arms.names as, n < nid) →
    Part T (Arms.names as) nid r.2.2 r.1 ∧ ∀ n ∈ r.2.1, T n ∨ n ∈ defsAll r.1
  | [], nid, r, S, T, hl, _, _, hs, hd, hb => by
    simp only [lowerArms, Option.some.injEq] at hl
    subst hl
    exact ⟨Part.nil, by simp⟩
  | .plain p e :: as, nid, r, S, T, hl, hT, hST, hs, hd, hb => by
    simp only [lowerArms, Option.bind_eq_bind, Option.bind_eq_some_iff, Option.some.injEq] at hl
    obtain ⟨l, hl', b, hb', c, hc', rfl⟩ := hl
    simp only [Arms.names] at hd hb ⊢
    obtain ⟨d1, b1⟩ := left_of hd hb
    obtain ⟨d2, b2⟩ := left_of d1 b1
    obtain ⟨q1, q2, q3⟩ := lower_names (S := T) hl' hT d2 b2
    obtain ⟨x1, x2, x3⟩ := condition_names p (x := operand) (c := none) (nid := l.2)
      (S := fun n => T n ∨ n ∈ defsAll (its l.1)) (.inl hT)
      (fun n h => .inr (q3 n (List.mem_cons_of_mem _ h))) (by intro _ h; cases h)
    have q : Part T (patNames p) nid _ (its l.1 ++ its (condition p operand none l.2).1) :=
      Part.fresh ⟨q1, q2⟩ ⟨x1, x2⟩ d2 b2
    obtain ⟨d3, b3⟩ := right_of d1 b1 q.drv.le
    obtain ⟨w, v⟩ := expr_names e hb' hs.1 d3 b3
    have hm : ∀ n, (S n ∨ n ∈ patVars p) →
        T n ∨ n ∈ defsAll (its l.1 ++ its (condition p operand none l.2).1) := by
      rintro n (h | h)
      · exact .inl (hST n h)
      · exact or_append (.inr (q3 n (vars_names p n h)))
    have q' := q.append (w.mono hm) d1 b1
    obtain ⟨d4, b4⟩ := right_of hd hb q'.drv.le
    obtain ⟨y1, y2⟩ := arms_names as hc' hT hST hs.2 d4 b4
    refine ⟨q'.append (y1.mono fun _ => .inl) hd hb, ?_⟩
    intro n hn
    simp only [List.mem_cons] at hn
    rcases hn with rfl | rfl | hn
    · refine or_append (or_append ?_)
      rcases x3 with x3 | x3
      · exact or_append x3
      · exact or_append' (.inr x3)
    · rcases v with v | v
      · exact or_append (or_append (hm _ v))
      · exact or_append (or_append' (.inr v))
    · exact or_append' (y2 n hn)
  | .guarded p g e :: as, nid, r, S, T, hl, hT, hST, hs, hd, hb => by
    simp only [lowerArms, Option.bind_eq_bind, Option.bind_eq_some_iff, Option.some.injEq] at hl
    obtain ⟨l, hl', a, ha, b, hb', c, hc', rfl⟩ := hl
    simp only [Arms.names] at hd hb ⊢
    obtain ⟨d1, b1⟩ := left_of hd hb
    obtain ⟨d2, b2⟩ := left_of d1 b1
    obtain ⟨d0, b0⟩ := left_of d2 b2
    obtain ⟨q1, q2, q3⟩ := lower_names (S := T) hl' hT d0 b0
    obtain ⟨d5, b5⟩ := right_of d2 b2 q1.le
    obtain ⟨w0, v0⟩ := expr_names g ha hs.1 d5 b5
    have hm0 : ∀ n, (S n ∨ n ∈ patVars p) → T n ∨ n ∈ defsAll (its l.1) := by
      rintro n (h | h)
      · exact .inl (hST n h)
      · exact .inr (q3 n (vars_names p n h))
    have q0 : Part T (patNames p ++ g.names) nid a.2 (its l.1 ++ a.1) :=
      Part.append ⟨q1, q2⟩ (w0.mono hm0) d2 b2
    obtain ⟨x1, x2, x3⟩ := condition_names p (x := operand) (c := some g.variable) (nid := a.2)
      (S := fun n => T n ∨ n ∈ defsAll (its l.1 ++ a.1)) (.inl hT)
      (fun n h => or_append (.inr (q3 n (List.mem_cons_of_mem _ h)))) (by
        rintro _ ⟨⟩
        rcases v0 with v | v
        · exact or_append (hm0 _ v)
        · exact or_append' (.inr v))
    have q : Part T (patNames p ++ g.names) nid _
        (its l.1 ++ a.1 ++ its (condition p operand (some g.variable) a.2).1) :=
      Part.fresh q0 ⟨x1, x2⟩ d2 b2
    obtain ⟨d3, b3⟩ := right_of d1 b1 q.drv.le
    obtain ⟨w, v⟩ := expr_names e hb' hs.2.1 d3 b3
    have hm : ∀ n, (S n ∨ n ∈ patVars p) → T n ∨
        n ∈ defsAll (its l.1 ++ a.1 ++ its (condition p operand (some g.variable) a.2).1) :=
      fun n h => or_append (or_append (hm0 n h))
    have q' := q.append (w.mono hm) d1 b1
    obtain ⟨d4, b4⟩ := right_of hd hb q'.drv.le
    obtain ⟨y1, y2⟩ := arms_names as hc' hT hST hs.2.2 d4 b4
    refine ⟨q'.append (y1.mono fun _ => .inl) hd hb, ?_⟩
    intro n hn
    simp only [List.mem_cons] at hn
    rcases hn with rfl | rfl | hn
    · refine or_append (or_append ?_)
      rcases x3 with x3 | x3
      · exact or_append x3
      · exact or_append' (.inr x3)
    · rcases v with v | v
      · exact or_append (or_append (hm _ v))
      · exact or_append (or_append' (.inr v))
    · exact or_append' (y2 n hn)
end

end Spade.Expr

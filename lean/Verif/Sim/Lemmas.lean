import Verif.Sim.Model
/-! Lemmas on parts of ports. -/
namespace Spade.Sim

open Spade.Codegen
open Spade.Vcd (Str Ty)

theorem wires_struct (d : Dir) (ns : List Str) (ts : List Ty) :
    wires d (Ty.struct ns ts).toMir = (ts.map fun t => wires d t.toMir).sum := by
  cases d
  · simp only [wires, Ty.toMir, MTy.size]
    induction ts with
    | nil => simp [Vcd.toMirs, sizes]
    | cons t ts ih => simp only [Vcd.toMirs, sizes, List.map_cons, List.sum_cons, ih]
  · simp only [wires, Ty.toMir, MTy.backSize]
    induction ts with
    | nil => simp [Vcd.toMirs, backSizes]
    | cons t ts ih => simp only [Vcd.toMirs, backSizes, List.map_cons, List.sum_cons, ih]

variable {α β : Type}

theorem Part.length {d : Dir} {t v : Ty} {p : List Str} {bits sub : List α} (h : Part d t p bits v sub) :
    bits.length = wires d t.toMir ∧ sub.length = wires d v.toMir := by
  induction h with
  | here h => exact ⟨h, h⟩
  | field h1 h2 h3 h4 h5 h6 ih =>
    refine ⟨?_, ih.2⟩
    rw [wires_struct, ← h4, List.length_flatten]

theorem Part.map (g : α → β) {d : Dir} {t v : Ty} {p : List Str} {bits sub : List α}
    (h : Part d t p bits v sub) : Part d t p (bits.map g) v (sub.map g) := by
  induction h with
  | here h => exact .here (by simpa using h)
  | @field ns ts f u path v i bss b sub h1 h2 h3 h4 h5 h6 ih =>
    rw [List.map_flatten]
    refine .field (i := i) h1 h2 h3 ?_ ?_ ih
    · rw [← h4, List.map_map]; apply List.map_congr_left; intro l _; simp
    · simp [h5]

theorem Part.mem {d : Dir} {t v : Ty} {p : List Str} {bits sub : List α}
    (h : Part d t p bits v sub) : ∀ a ∈ sub, a ∈ bits := by
  induction h with
  | here h => exact fun a h => h
  | @field ns ts f u path v i bss b sub h1 h2 h3 h4 h5 h6 ih =>
    intro a ha
    exact List.mem_flatten.mpr ⟨b, List.mem_of_getElem? h5, ih a ha⟩

/-- The first place of a name is one place. -/
theorem first_unique {ns : List Str} {i j : Nat} {f : Str} (h1 : ns[i]? = some f) (h2 : f ∉ ns.take i)
    (h3 : ns[j]? = some f) (h4 : f ∉ ns.take j) : i = j := by
  rcases Nat.lt_trichotomy i j with h | h | h
  · refine absurd ?_ h4
    exact List.mem_iff_getElem?.mpr ⟨i, by rw [List.getElem?_take_of_lt h, h1]⟩
  · exact h
  · refine absurd ?_ h2
    exact List.mem_iff_getElem?.mpr ⟨j, by rw [List.getElem?_take_of_lt h, h3]⟩

theorem flatten_inj : ∀ {a b : List (List α)}, a.map List.length = b.map List.length →
    a.flatten = b.flatten → a = b
  | [], [], _, _ => rfl
  | [], _ :: _, h, _ => by simp at h
  | _ :: _, [], h, _ => by simp at h
  | x :: a, y :: b, h, e => by
    simp only [List.map_cons, List.cons.injEq] at h
    simp only [List.flatten_cons] at e
    obtain ⟨e1, e2⟩ := List.append_inj e h.1
    rw [e1, flatten_inj h.2 e2]

theorem Part.unique {d : Dir} {t v : Ty} {p : List Str} {bits sub : List α}
    (h : Part d t p bits v sub) : ∀ {v' : Ty} {sub' : List α}, Part d t p bits v' sub' → v = v' ∧ sub = sub' := by
  induction h with
  | here h => intro v' sub' h'; cases h'; exact ⟨rfl, rfl⟩
  | @field ns ts f u path v i bss b sub h1 h2 h3 h4 h5 h6 ih =>
    intro v' sub' h'
    generalize hb : bss.flatten = bits at h'
    cases h' with
    | @field _ _ _ u' _ _ j bss' b' _ g1 g2 g3 g4 g5 g6 =>
      have hij := first_unique h1 h2 g1 g2
      subst hij
      have hbb := flatten_inj (h4.trans g4.symm) hb
      subst hbb
      rw [h3] at g3; cases g3
      rw [h5] at g5; cases g5
      exact ih g6

theorem Part.snoc {d : Dir} {t v w : Ty} {p q : List Str} {bits sub s : List α}
    (h : Part d t p bits v sub) (h' : Part d v q sub w s) : Part d t (p ++ q) bits w s := by
  induction h with
  | here h => exact h'
  | field h1 h2 h3 h4 h5 h6 ih => exact .field h1 h2 h3 h4 h5 (ih h')

theorem nodup_flatten {bss : List (List α)} (h : bss.flatten.Nodup) {i j : Nat} {a b : List α}
    (hi : bss[i]? = some a) (hj : bss[j]? = some b) (hij : i ≠ j) : ∀ x ∈ a, x ∉ b := by
  induction bss generalizing i j with
  | nil => simp at hi
  | cons l bss ih =>
    rw [List.flatten_cons, List.nodup_append] at h
    match i, j with
    | 0, 0 => exact absurd rfl hij
    | 0, j + 1 =>
      simp only [List.getElem?_cons_zero, Option.some.injEq, List.getElem?_cons_succ] at hi hj
      subst hi
      intro x hx hb
      exact h.2.2 x hx x (List.mem_flatten.mpr ⟨b, List.mem_of_getElem? hj, hb⟩) rfl
    | i + 1, 0 =>
      simp only [List.getElem?_cons_zero, Option.some.injEq, List.getElem?_cons_succ] at hi hj
      subst hj
      intro x hx hb
      exact h.2.2 x hb x (List.mem_flatten.mpr ⟨a, List.mem_of_getElem? hi, hx⟩) rfl
    | i + 1, j + 1 =>
      simp only [List.getElem?_cons_succ] at hi hj
      exact ih h.2.1 hi hj (by omega)

/-- Parts at paths that part do not share wires. -/
theorem Part.disjoint {d : Dir} {v w : Ty} {f g : Str} (hfg : f ≠ g) {p' q' : List Str} : ∀ (c : List Str)
    {t : Ty} {bits s s' : List α}, bits.Nodup → Part d t (c ++ f :: p') bits v s →
    Part d t (c ++ g :: q') bits w s' → ∀ x ∈ s, x ∉ s'
  | [], t, bits, s, s', hn, h, h' => by
    simp only [List.nil_append] at h h'
    cases h with
    | @field ns ts _ u _ _ i bss b sub h1 h2 h3 h4 h5 h6 =>
      generalize hb : bss.flatten = bits at h' hn
      cases h' with
      | @field _ _ _ u' _ _ j bss' b' _ g1 g2 g3 g4 g5 g6 =>
        have hbb := flatten_inj (h4.trans g4.symm) hb
        subst hbb
        have hij : i ≠ j := by
          intro hc; subst hc
          rw [h1] at g1; cases g1
          exact hfg rfl
        intro x hx hx'
        exact nodup_flatten hn h5 g5 hij x (h6.mem x hx) (g6.mem x hx')
  | e :: c, t, bits, s, s', hn, h, h' => by
    simp only [List.cons_append] at h h'
    cases h with
    | @field ns ts _ u _ _ i bss b sub h1 h2 h3 h4 h5 h6 =>
      generalize hb : bss.flatten = bits at h' hn
      cases h' with
      | @field _ _ _ u' _ _ j bss' b' _ g1 g2 g3 g4 g5 g6 =>
        have hbb := flatten_inj (h4.trans g4.symm) hb
        subst hbb
        have hij := first_unique h1 h2 g1 g2
        subst hij
        rw [h3] at g3; cases g3
        rw [h5] at g5; cases g5
        refine Part.disjoint hfg c ?_ h6 g6
        exact (List.pairwise_flatten.mp hn).1 b (List.mem_of_getElem? h5)

/-! ## Splitting positions -/

/-- Positions split by sizes. -/
theorem split_range : ∀ (szs : List Nat) (a : Nat), ∃ bss : List (List Nat), bss.map List.length = szs ∧
    bss.flatten = List.range' a szs.sum ∧
    ∀ (i w : Nat), szs[i]? = some w → bss[i]? = some (List.range' (a + (szs.take i).sum) w)
  | [], a => ⟨[], rfl, rfl, by intro i w h; simp at h⟩
  | n :: szs, a => by
    obtain ⟨bss, h1, h2, h3⟩ := split_range szs (a + n)
    refine ⟨List.range' a n :: bss, by simp [h1], ?_, ?_⟩
    · rw [List.flatten_cons, h2, List.sum_cons, List.range'_append_1]
    · intro i w hi
      match i with
      | 0 =>
        simp only [List.getElem?_cons_zero, Option.some.injEq] at hi
        subst hi
        simp
      | i + 1 =>
        simp only [List.getElem?_cons_succ] at hi
        rw [List.getElem?_cons_succ, h3 i w hi]
        simp [Nat.add_assoc]

theorem locate_first (size : Ty → Nat) : ∀ (ns : List Str) (ts : List Ty) (i : Nat) (f : Str) (u : Ty),
    ns[i]? = some f → f ∉ ns.take i → ts[i]? = some u →
    locate size f (ns.zip ts) = (((ts.map size).take i).sum, size u)
  | [], _, i, f, u, h, _, _ => by simp at h
  | _ :: _, [], i, f, u, _, _, h => by simp at h
  | n :: ns, t :: ts, 0, f, u, h1, h2, h3 => by
    simp only [List.getElem?_cons_zero, Option.some.injEq] at h1 h3
    subst h1 h3
    simp [locate]
  | n :: ns, t :: ts, i + 1, f, u, h1, h2, h3 => by
    simp only [List.getElem?_cons_succ] at h1 h3
    simp only [List.take_succ_cons, List.mem_cons, not_or] at h2
    have ih := locate_first size ns ts i f u h1 h2.2 h3
    simp only [List.zip_cons_cons, locate, Ne.symm h2.1, ↓reduceIte, ih, List.map_cons, List.take_succ_cons,
      List.sum_cons]

theorem argType_first : ∀ (ns : List Str) (ts : List Ty) (f : Str) (u : Ty), argType ns ts f = some u →
    ∃ i : Nat, ns[i]? = some f ∧ f ∉ ns.take i ∧ ts[i]? = some u
  | [], ts, f, u, h => by simp [argType] at h
  | _ :: _, [], f, u, h => by simp [argType] at h
  | n :: ns, t :: ts, f, u, h => by
    simp only [argType, List.zip_cons_cons, List.find?_cons] at h
    by_cases hn : n = f
    · subst hn
      simp only [beq_self_eq_true, Option.map_some, Option.some.injEq] at h
      exact ⟨0, rfl, by simp, by simpa using h⟩
    · have hb : (n == f) = false := by simpa using hn
      simp only [hb] at h
      obtain ⟨i, h1, h2, h3⟩ := argType_first ns ts f u h
      exact ⟨i + 1, by simpa using h1, by simp [h2, Ne.symm hn], by simpa using h3⟩

theorem argType_of_first : ∀ (ns : List Str) (ts : List Ty) (f : Str) (u : Ty) (i : Nat),
    ns[i]? = some f → f ∉ ns.take i → ts[i]? = some u → argType ns ts f = some u
  | [], ts, f, u, i, h, _, _ => by simp at h
  | _ :: _, [], f, u, i, _, _, h => by simp at h
  | n :: ns, t :: ts, f, u, 0, h1, _, h3 => by
    simp only [List.getElem?_cons_zero, Option.some.injEq] at h1 h3
    subst h1 h3
    simp [argType]
  | n :: ns, t :: ts, f, u, i + 1, h1, h2, h3 => by
    simp only [List.getElem?_cons_succ] at h1 h3
    simp only [List.take_succ_cons, List.mem_cons, not_or] at h2
    have ih := argType_of_first ns ts f u i h1 h2.2 h3
    have hb : (n == f) = false := by simpa using Ne.symm h2.1
    simpa [argType, hb] using ih

/-! ## Types -/

theorem resolves_get (b : Bool) : ∀ (ts : List Ty) (i : Nat), (resolves b ts)[i]? = (ts[i]?).map (resolve b)
  | [], i => by simp [resolves]
  | t :: ts, 0 => by simp [resolves]
  | t :: ts, i + 1 => by simpa [resolves] using resolves_get b ts i

theorem resolve_named : ∀ (t : Ty) (b b' : Bool) (ns : List Str) (ts : List Ty),
    namedOrInverted b t = some (b', ns, ts) → resolve b t = .struct ns (resolves b' ts)
  | .struct _ _, b, b', ns, ts, h => by
    simp only [namedOrInverted, Option.some.injEq, Prod.mk.injEq] at h
    obtain ⟨rfl, rfl, rfl⟩ := h
    simp [resolve]
  | .backward t, b, b', ns, ts, h => by
    simp only [namedOrInverted] at h
    rw [resolve]
    exact resolve_named t (!b) b' ns ts h
  | .error, b, b', ns, ts, h => by simp [namedOrInverted] at h
  | .int _, b, b', ns, ts, h => by simp [namedOrInverted] at h
  | .uint _, b, b', ns, ts, h => by simp [namedOrInverted] at h
  | .bool, b, b', ns, ts, h => by simp [namedOrInverted] at h
  | .memory _ _, b, b', ns, ts, h => by simp [namedOrInverted] at h
  | .inout _, b, b', ns, ts, h => by simp [namedOrInverted] at h
  | .tuple _, b, b', ns, ts, h => by simp [namedOrInverted] at h
  | .array _ _, b, b', ns, ts, h => by simp [namedOrInverted] at h
  | .enum _ _, b, b', ns, ts, h => by simp [namedOrInverted] at h
  | .copyView _, b, b', ns, ts, h => by simp [namedOrInverted] at h

theorem named_resolve : ∀ (t : Ty) (b : Bool) (ns : List Str) (ts' : List Ty),
    resolve b t = .struct ns ts' → ∃ b' ts, namedOrInverted b t = some (b', ns, ts) ∧ ts' = resolves b' ts
  | .struct ms us, b, ns, ts', h => by
    simp only [resolve, Ty.struct.injEq] at h
    obtain ⟨rfl, rfl⟩ := h
    exact ⟨b, us, rfl, rfl⟩
  | .backward t, b, ns, ts', h => by
    rw [resolve] at h
    exact named_resolve t (!b) ns ts' h
  | .error, b, ns, ts', h => by simp [resolve] at h
  | .int _, b, ns, ts', h => by cases b <;> simp [resolve] at h
  | .uint _, b, ns, ts', h => by cases b <;> simp [resolve] at h
  | .bool, b, ns, ts', h => by cases b <;> simp [resolve] at h
  | .memory _ _, b, ns, ts', h => by cases b <;> simp [resolve] at h
  | .inout _, b, ns, ts', h => by cases b <;> simp [resolve] at h
  | .tuple _, b, ns, ts', h => by simp [resolve] at h
  | .array _ _, b, ns, ts', h => by simp [resolve] at h
  | .enum _ _, b, ns, ts', h => by cases b <;> simp [resolve] at h
  | .copyView _, b, ns, ts', h => by cases b <;> simp [resolve] at h

/-- The type of a field is the type that the hardware has for it. -/
theorem fieldType_hw {t u : Ty} {f : Str} (h : fieldType t f = some u) : ∃ (ns : List Str) (ts : List Ty) (i : Nat),
    hw t = .struct ns ts ∧ ns[i]? = some f ∧ f ∉ ns.take i ∧ ts[i]? = some (hw u) := by
  unfold fieldType at h
  split at h
  · cases h
  · rename_i inv ns ts hn
    split at h
    · cases h
    · rename_i raw hr
      obtain ⟨i, h1, h2, h3⟩ := argType_first ns ts f raw hr
      refine ⟨ns, resolves inv ts, i, resolve_named t false inv ns ts hn, h1, h2, ?_⟩
      rw [resolves_get, h3, Option.map_some, Option.some.injEq]
      cases inv with
      | false => simp only [Bool.false_eq_true, ↓reduceIte, Option.some.injEq] at h; rw [h]; rfl
      | true =>
        simp only [↓reduceIte] at h
        split at h
        · simp only [Option.some.injEq] at h
          subst h
          rw [resolve]; rfl
        · simp only [Option.some.injEq] at h
          subst h
          rw [hw, resolve]; rfl

/-- Fields of hardware types have types. -/
theorem fieldType_of_hw {t : Ty} {ns : List Str} {ts : List Ty} {i : Nat} {f : Str} {v : Ty}
    (h : hw t = .struct ns ts) (h1 : ns[i]? = some f) (h2 : f ∉ ns.take i) (h3 : ts[i]? = some v) :
    ∃ u, fieldType t f = some u ∧ hw u = v := by
  obtain ⟨inv, us, hn, rfl⟩ := named_resolve t false ns ts h
  rw [resolves_get, Option.map_eq_some_iff] at h3
  obtain ⟨raw, h4, rfl⟩ := h3
  have ha := argType_of_first ns us f raw i h1 h2 h4
  simp only [fieldType, hn, ha]
  cases inv with
  | false => exact ⟨raw, by simp, rfl⟩
  | true =>
    simp only [↓reduceIte]
    split
    · exact ⟨_, rfl, by rw [resolve]; rfl⟩
    · exact ⟨_, rfl, by rw [hw, resolve]; rfl⟩

end Spade.Sim

import Verif.Entity.Machine
import Verif.Entity.Props
/-!
# C48: entities have a history for all inputs
-/
namespace Spade.Entity
open Spade.Verilog Spade.Codegen Spade.Lower Spade.Expr
open Spade.Match (Val)

/-! ## Initial values -/

mutual
theorem foldable_ev {P : Prog} {sig : Nat → Option (List MTy × MTy)} {Γ : Nat → MTy} : ∀ (e : Expr),
    Foldable e → e.Ok sig Γ → ∃ v, Ev P (fun _ => none) e v ∧ ((∃ n, e.ty = .int n) → ∃ z, v = .int z)
  | .int _ ty z, _, _ => ⟨_, .int, fun _ => ⟨z, rfl⟩⟩
  | .bool _ b, _, _ => ⟨_, .bool, by rintro ⟨n, h⟩; cases h⟩
  | .bin _ ty op l r, hf, ho => by
    obtain ⟨h1, ⟨n, rfl⟩, h3, h4⟩ := hf
    obtain ⟨o1, _, _, o4, o5⟩ := ho
    obtain ⟨v, hv, hvi⟩ := foldable_ev (P := P) l h3 o4
    obtain ⟨w, hw, hwi⟩ := foldable_ev (P := P) r h4 o5
    have ht : (∃ n, l.ty = .int n) ∧ ∃ n, r.ty = .int n := by
      generalize l.ty = A at o1
      generalize r.ty = B at o1
      rcases h1 with rfl | rfl <;> cases o1 <;> simp
    obtain ⟨x, rfl⟩ := hvi ht.1
    obtain ⟨y, rfl⟩ := hwi ht.2
    rcases h1 with rfl | rfl
    · exact ⟨_, .bin hv hw rfl, fun _ => ⟨_, rfl⟩⟩
    · exact ⟨_, .bin hv hw rfl, fun _ => ⟨_, rfl⟩⟩
  | .un _ ty op e, hf, ho => by
    obtain ⟨rfl, h2, _⟩ := hf
    obtain ⟨o1, o2⟩ := ho
    obtain ⟨v, hv, hvi⟩ := foldable_ev (P := P) e h2 o2
    have ht : ∃ n, e.ty = .int n := by
      generalize e.ty = A at o1
      cases o1; exact ⟨_, rfl⟩
    obtain ⟨x, rfl⟩ := hvi ht
    exact ⟨_, .un hv .neg, fun _ => ⟨_, rfl⟩⟩
  | .tuple _ ty es, hf, ho => by
    obtain ⟨vs, h⟩ := foldables_ev es hf ho.2
    refine ⟨_, .tuple h, ?_⟩
    rintro ⟨n, h⟩
    simp only [Expr.ty] at h
    rw [ho.1] at h; cases h
  | .array _ ty es, hf, ho => by
    obtain ⟨vs, h⟩ := foldables_ev es hf ho.2
    refine ⟨_, .array h, ?_⟩
    rintro ⟨n, h⟩
    obtain ⟨⟨t, ht, _⟩, _⟩ := ho
    simp only [Expr.ty] at h
    rw [ht] at h; cases h
  | .call _ ty (.variant i) es, hf, ho => by
    obtain ⟨vs, h⟩ := foldables_ev es hf ho.2
    refine ⟨_, .variant h, ?_⟩
    rintro ⟨n, h⟩
    obtain ⟨⟨t, ht, _⟩, _⟩ := ho
    simp only [Expr.ty] at h
    rw [ht] at h; cases h
  | .call _ ty .struct es, hf, ho => by
    obtain ⟨vs, h⟩ := foldables_ev es hf ho.2
    refine ⟨_, .struct h, ?_⟩
    rintro ⟨n, h⟩
    simp only [Expr.ty] at h
    rw [ho.1] at h; cases h
  | .cast _ ty e, hf, ho => by
    obtain ⟨v, hv, hvi⟩ := foldable_ev e hf ho.2
    refine ⟨_, .cast hv, ?_⟩
    simp only [Expr.ty]
    rw [ho.1]
    exact hvi
  | .rep _ ty e n, hf, ho => by
    obtain ⟨v, hv, _⟩ := foldable_ev e hf ho.2
    refine ⟨_, .rep hv, ?_⟩
    rintro ⟨n, h⟩
    simp only [Expr.ty] at h
    rw [ho.1] at h; cases h
  | .var .., hf, _ | .proj .., hf, _ | .field .., hf, _ | .elem .., hf, _ | .range .., hf, _
  | .block .., hf, _ | .unitBlock .., hf, _ | .ite .., hf, _ | .match .., hf, _
  | .call _ _ (.intr _) _, hf, _ | .call _ _ (.unit _) _, hf, _ => by
    simp only [Foldable] at hf
theorem foldables_ev {P : Prog} {sig : Nat → Option (List MTy × MTy)} {Γ : Nat → MTy} :
    ∀ (es : List Expr), Foldables es → Exprs.Ok sig Γ es → ∃ vs, Evs P (fun _ => none) es vs
  | [], _, _ => ⟨[], .nil⟩
  | e :: es, hf, ho => by
    obtain ⟨v, hv, _⟩ := foldable_ev e hf.1 ho.1
    obtain ⟨vs, hvs⟩ := foldables_ev es hf.2 ho.2
    exact ⟨v :: vs, .cons hv hvs⟩
end

/-- C47.  The compile time evaluator gives a literal for every initial value it is meant to support,
and the bits of the literal encode the value of the expression, whatever the bits are that the
literal leaves open. -/
theorem C47_initial_value (P : Prog) (sig : Nat → Option (List MTy × MTy)) (Γ : Nat → MTy) (e : Expr)
    (nid : Nat) (r : List Item × Nat) (hf : Foldable e) (hd : e.names.Nodup) (ho : e.Ok sig Γ)
    (hl : lowerE e nid = some r) :
    ∃ v ss V str, Ev P (fun _ => none) e v ∧ stmtsOf r.1 = some ss ∧ evalStatements ss = some V ∧
      V.asString = some str ∧ (∃ b, Fills str b) ∧ ∀ b, Fills str b → Enc e.ty v b := by
  obtain ⟨v, hv, _⟩ := foldable_ev (P := P) e hf ho
  obtain ⟨ss, new, newT, V, q1, q2, _, _, _, _, _, q8⟩ := (ev_folds hv hf hd ho hl).run
  have := q2 [] [] [] none
  simp only [List.append_nil, evalStmts] at this
  obtain ⟨str, hs, he⟩ := q8.str
  exact ⟨v, ss, V, str, hv, q1, by simp [evalStatements, this], hs, fills_exists str, he⟩

/-! ## Statements -/

variable {P : Prog} {D : Ents} {H : Nat → Option HUnit} {HE : Nat → Option HEnt} {Γ : Nat → MTy}
  {Ms : Nat → Mach}

theorem fine_items {is : List Item} (hA : ∀ L, Answers H P.sig L) (ht : ∀ i ∈ is, i.Typed Γ)
    (hi : ItemsTotal P.sig Γ is) : ∀ i ∈ is.map EItem.item, Fine H HE P.sig Γ Ms i := by
  intro i h
  obtain ⟨j, hj, rfl⟩ := List.mem_map.1 h
  exact ⟨hA _, ht j hj, hi j hj⟩

theorem opt_total {o : Option Expr} {nid : Nat} {r : List Item × Nat}
    (hl : lowerOpt o nid = some r) (ho : ∀ e, o = some e → e.Ok P.sig Γ ∧ e.Armed)
    (ht : ∀ i ∈ r.1, i.Typed Γ) : ItemsTotal P.sig Γ r.1 ∧ ∀ e, o = some e → Γ e.variable = e.ty := by
  cases o with
  | none =>
    simp only [lowerOpt, Option.some.injEq] at hl
    subst hl
    exact ⟨its_nil, by simp⟩
  | some e =>
    refine ⟨expr_total e (ho e rfl).1 (ho e rfl).2 hl ht, fun e' he => ?_⟩
    cases he
    exact typed_variable e (ho e rfl).1 hl ht

theorem upd_lengths {w len : Nat} : ∀ {cs : List (Bool × Bits × Bits)} {m : Nat → Bits},
    (∀ c ∈ cs, c.2.2.length = w) → (∀ a, a < len → (m a).length = w) →
    ∀ a, a < len → (cs.foldl upd m a).length = w
  | [], _, _, hm => hm
  | c :: cs, m, hc, hm => by
    refine upd_lengths (m := upd m c) (fun c h => hc c (List.mem_cons_of_mem _ h)) fun a ha => ?_
    unfold upd
    split
    · exact hc c (by simp)
    · exact hm a ha

/-- The statements of a memory can be executed. -/
theorem mem_stores {sig : Nat → Option (List MTy × MTy)} {m : Mem} {x : Nat} (ho : m.Ok sig Γ)
    (hx : Γ x = m.portsTy) :
    ∃ ps, memPorts (.memory m.elem m.len) (Γ x) (fwd x) = some ps ∧
      ∀ (ρ : Env) (xs : Nat → Bool), Fits Γ ρ x → ∀ f : Nat → Bits,
        (∀ a, a < m.len → (f a).length = m.elem.size) → ∃ f', storeAll ρ xs m.elem.size ps f = some f' ∧
        ∀ a, a < m.len → (f' a).length = m.elem.size := by
  have key : ∀ (ρ : Env) (xs : Nat → Bool), Fits Γ ρ x →
      ∃ ps, memPorts (.memory m.elem m.len) m.portsTy (fwd x) = some ps ∧
      ∀ f : Nat → Bits, (∀ a, a < m.len → (f a).length = m.elem.size) →
        ∃ f', storeAll ρ xs m.elem.size ps f = some f' ∧
        ∀ a, a < m.len → (f' a).length = m.elem.size := by
    intro ρ xs hf
    have hl : (ρ (fwd x)).length = (1 + m.width + m.elem.size) * m.ports := by
      rw [hf, hx]
      simp only [Mem.portsTy, MTy.size, sizes]
      congr 1
      omega
    obtain ⟨cs, c1, c2, c3⟩ := ports_exist (aw := m.width) (dw := m.elem.size) m.ports _ hl
    obtain ⟨ps, q1, q2⟩ := memPorts_store (xs := xs) (t' := .bool) ho.width ho.elem ho.len
      (by rw [hf, hx]; exact ho.size) c2 c3
    rw [c1] at q1
    exact ⟨ps, q1, fun f hf => ⟨_, q2 f, upd_lengths (fun c hc => (c3 c hc).2) hf⟩⟩
  obtain ⟨ps, h1, _⟩ := key (fun _ => List.replicate (Γ x).size false) (fun _ => false) (by simp [Fits])
  rw [hx]
  refine ⟨ps, h1, fun ρ xs hf => ?_⟩
  obtain ⟨ps', h1', h2⟩ := key ρ xs hf
  rw [h1] at h1'
  cases h1'
  exact h2

/-- The initial values of a memory can be evaluated. -/
theorem mem_starts {m : Mem} {e : Expr} {nid : Nat} {r : Option (List (List Stmt)) × Nat}
    (ho : m.Ok P.sig Γ) (he : m.initial = some e) (hl : lowerMemInit (some e) nid = some r) :
    ∀ sss, r.1 = some sss → ∃ b : Bits, b.length = m.elem.size * m.len ∧ ∀ (a : Nat) ss, sss[a]? = some ss →
      ∃ v str, evalStatements ss = some v ∧ v.asString = some str ∧
        (a < m.len → Fills str (word m.elem.size b a)) := by
  intro sss hs
  obtain ⟨f1, f2, f3, f4⟩ := ho.initial e he
  obtain ⟨v, hv, _⟩ := foldable_ev (P := P) e f1 f4
  obtain ⟨vs, rfl⟩ : ∃ vs, v = .tup vs := by
    simp only [lowerMemInit, Option.ite_none_right_eq_some] at hl
    replace hl := hl.2
    cases e <;> first | (simp at hl; done) | skip
    all_goals (cases hv; exact ⟨_, rfl⟩)
  obtain ⟨k0, sss', k1, k2, k3⟩ := memInit_literal hv f1 f2 f4 f3 hl
  rw [hs] at k1
  cases k1
  have hw : ∀ a : Nat, ∃ b : Bits, b.length = m.elem.size ∧ ∀ ss, sss[a]? = some ss → ∃ v str,
      evalStatements ss = some v ∧ v.asString = some str ∧ Fills str b := by
    intro a
    cases hss : sss[a]? with
    | none => exact ⟨List.replicate m.elem.size false, by simp, by simp⟩
    | some ss =>
      have hlt := (List.getElem?_eq_some_iff.1 hss).1
      obtain ⟨V, str, w1, w2, w3⟩ := k3 a ss (vs[a]'(by omega)) hss (List.getElem?_eq_getElem _)
      obtain ⟨b, hb⟩ := fills_exists str
      refine ⟨b, enc_length (w3 b hb), fun ss' h => ?_⟩
      cases h
      exact ⟨V, str, w1, w2, hb⟩
  have ⟨f, hf⟩ : ∃ f : Nat → Bits, ∀ a : Nat, (f a).length = m.elem.size ∧ ∀ ss, sss[a]? = some ss →
      ∃ v str, evalStatements ss = some v ∧ v.asString = some str ∧ Fills str (f a) :=
    ⟨fun a => (hw a).choose, fun a => (hw a).choose_spec⟩
  refine ⟨words f m.len, words_length fun a _ => (hf a).1, fun a ss hss => ?_⟩
  obtain ⟨V, str, w1, w2, w3⟩ := (hf a).2 ss hss
  refine ⟨V, str, w1, w2, fun ha => ?_⟩
  rw [word_words (fun a _ => (hf a).1) ha]
  exact w3

theorem estm_fine {s : EStm} {nid : Nat} {r : List EItem × Nat} (hA : ∀ L, Answers H P.sig L)
    (hl : lowerEStm s nid = some r) (ho : s.Ok P.sig D Γ) (ha : s.Armed)
    (ht : ∀ i ∈ r.1, i.Typed Γ)
    (hM : ∀ id ty p u args, s = .inst id ty p u args → (∀ E, D u = some E →
      ((args.map Expr.variable).map fun o => (Γ o).size) = E.params.map (fun p => p.2.size) →
      (Γ id).size = E.result.ty.size →
      (Ms id).Good H HE u ((args.map Expr.variable).map fun o => (Γ o).size) (Γ id).size))
    (hD : ∀ u ∈ s.insts, ∃ E, D u = some E) :
    ∀ i ∈ r.1, Fine H HE P.sig Γ Ms i := by
  cases s with
  | stm s =>
    simp only [lowerEStm, Option.bind_eq_bind, Option.bind_eq_some_iff, Option.some.injEq] at hl
    obtain ⟨a, ha', rfl⟩ := hl
    have ht' : ∀ i ∈ a.1, i.Typed Γ := fun i hi => ht (.item i) (List.mem_map_of_mem hi)
    exact fine_items hA ht' (stms_total [s] ho ha ha' ht')
  | reg g =>
    simp only [lowerEStm, Option.bind_eq_bind, Option.bind_eq_some_iff, Option.some.injEq] at hl
    obtain ⟨c, hc, tr, htr, rv, hrv, i, hi, v, hv, ss, hss, l, hl, rfl⟩ := hl
    obtain ⟨a1, a2, a3, a4⟩ := ha
    simp only [List.map_append, List.mem_append, or_imp, forall_and, List.mem_map, forall_exists_index,
      and_imp, forall_apply_eq_imp_iff₂, List.mem_singleton, forall_eq] at ht
    obtain ⟨⟨⟨⟨⟨⟨t1, t2⟩, t3⟩, t4⟩, t5⟩, t6⟩, t7⟩ := ht
    have htc : Γ g.p.name = g.p.ty := t6
    have c1 := expr_total g.clock ho.clock.2 a1 hc t1
    obtain ⟨r1, r1'⟩ := opt_total htr (fun e he => by
      obtain ⟨x, hx, rfl⟩ := Option.map_eq_some_iff.1 he
      exact ⟨(ho.reset x.1 x.2 hx).2.1, (a2 x.1 x.2 hx).1⟩) t2
    obtain ⟨r2, r2'⟩ := opt_total hrv (fun e he => by
      obtain ⟨x, hx, rfl⟩ := Option.map_eq_some_iff.1 he
      exact ⟨(ho.reset x.1 x.2 hx).2.2.2, (a2 x.1 x.2 hx).2⟩) t3
    obtain ⟨i1, _⟩ := opt_total hi (fun e he => ⟨(ho.initial e he).2.2.2, a3 e he⟩) t4
    have v1 := expr_total g.value ho.value.2 a4 hv t5
    have v2 := typed_variable g.value ho.value.2 hv t5
    have l1 := (pat_total g.p ho.pat.1 htc ho.pat.2.2 hl (fun s hs => t7 s hs)).1
    intro j hj
    simp only [List.append_assoc, List.map_append, List.mem_append] at hj
    rcases hj with hj | hj | hj | hj | hj | hj | hj
    · exact fine_items hA t1 c1 j hj
    · exact fine_items hA t2 r1 j hj
    · exact fine_items hA t3 r2 j hj
    · exact fine_items hA t4 i1 j hj
    · exact fine_items hA t5 v1 j hj
    · rw [List.mem_singleton.1 hj]
      refine ⟨htc, ?_, by rw [v2, htc, ho.value.1], ?_⟩
      · intro ss' he
        cases hin : g.initial with
        | none => rw [hin] at hss; simp [lowerInitial] at hss; rw [← hss] at he; cases he
        | some e =>
          rw [hin] at hss
          simp only [lowerInitial, Option.ite_none_right_eq_some, Option.bind_eq_bind,
            Option.bind_eq_some_iff, Option.some.injEq] at hss
          obtain ⟨_, a, ha, ss'', hss'', rfl⟩ := hss
          cases he
          obtain ⟨f1, f2, f3, f4⟩ := ho.initial e hin
          obtain ⟨w, ss3, V, str, _, w2, w3, w4, ⟨b, w5⟩, w6⟩ := C47_initial_value P P.sig Γ e _ a f1 f2 f4 ha
          rw [hss''] at w2
          cases w2
          refine ⟨V, str, b, w3, w4, w5, ?_⟩
          rw [enc_length (w6 b w5), f3, htc]
      · intro tv rv' he
        obtain ⟨x, hx, hx'⟩ := Option.map_eq_some_iff.1 he
        cases hx'
        rw [r2' x.2 (by rw [hx]; rfl), htc, (ho.reset x.1 x.2 hx).2.2.1]
    · rw [its_items] at hj
      exact fine_items hA (fun i hi => by
        obtain ⟨s, hs, rfl⟩ := List.mem_map.1 hi
        exact t7 s hs) (its_stmts l1) j hj
  | inst id ty p u args =>
    obtain ⟨hp, hpt, hargs, hsig⟩ := ho
    simp only [lowerEStm, Option.bind_eq_bind, Option.bind_eq_some_iff, Option.some.injEq] at hl
    obtain ⟨c, hc, l, hl, rfl⟩ := hl
    simp only [List.mem_append, or_imp, forall_and, List.mem_map, forall_exists_index,
      and_imp, forall_apply_eq_imp_iff₂, List.mem_singleton, forall_eq] at ht
    obtain ⟨⟨t1, t2⟩, t3⟩ := ht
    have t2' : Γ id = ty := t2
    have c1 := exprs_total args hargs ha hc t1
    have c2 := typed_variables args hargs hc t1
    have l1 := (lower_total hp.1 (t2'.trans hpt.symm) hp.2.2 hl (fun s hs => t3 s hs)).1
    intro j hj
    simp only [List.append_assoc, List.mem_append] at hj
    rcases hj with hj | hj | hj
    · exact fine_items hA t1 c1 j hj
    · rw [List.mem_singleton.1 hj]
      obtain ⟨E, hE⟩ := hD u (by simp [EStm.insts])
      obtain ⟨s1, s2⟩ := hsig E hE
      refine ⟨t2', hM id ty p u args rfl E hE ?_ (by rw [t2', s2])⟩
      have : (args.map Expr.variable).map (fun o => (Γ o).size) =
          ((args.map Expr.variable).map Γ).map MTy.size := by simp only [List.map_map]; rfl
      rw [this, c2, s1, List.map_map]
      rfl
    · rw [its_items] at hj
      exact fine_items hA (fun i hi => by
        obtain ⟨s, hs, rfl⟩ := List.mem_map.1 hi
        exact t3 s hs) (its_stmts l1) j hj
  | mem g =>
    obtain ⟨ho, hnm⟩ := ho
    simp only [lowerEStm, Option.bind_eq_bind, Option.bind_eq_some_iff, Option.some.injEq] at hl
    obtain ⟨c, hc, w, hw, i, hi, ss, hss, rfl⟩ := hl
    obtain ⟨a1, a2, a3⟩ := ha
    simp only [List.map_append, List.mem_append, or_imp, forall_and, List.mem_map, forall_exists_index,
      and_imp, forall_apply_eq_imp_iff₂, List.mem_cons, List.not_mem_nil, or_false, forall_eq] at ht
    obtain ⟨⟨⟨t1, t2⟩, t3⟩, t4, t5⟩ := ht
    have htm : Γ g.id = .memory g.elem g.len := t4
    have c1 := expr_total g.clock ho.clock.2 a1 hc t1
    have w1 := expr_total g.writes ho.writes.2 a2 hw t2
    have w2 := typed_variable g.writes ho.writes.2 hw t2
    obtain ⟨i1, _⟩ := opt_total hi (fun e he => ⟨(ho.initial e he).2.2.2, a3 e he⟩) t3
    intro j hj
    simp only [List.append_assoc, List.map_append, List.mem_append, List.mem_cons, List.not_mem_nil,
      or_false] at hj
    rcases hj with hj | hj | hj | rfl | rfl
    · exact fine_items hA t1 c1 j hj
    · exact fine_items hA t2 w1 j hj
    · exact fine_items hA t3 i1 j hj
    · refine ⟨htm, ?_, mem_stores ho (w2.trans ho.writes.1)⟩
      intro sss hsss
      cases hin : g.initial with
      | none => rw [hin] at hss; simp [lowerMemInit] at hss; rw [← hss] at hsss; cases hsss
      | some e =>
        rw [hin] at hss
        obtain ⟨b, b1, b2⟩ := mem_starts ho hin hss sss hsss
        exact ⟨b, by rw [b1, htm]; rfl, b2⟩
    · refine ⟨hA _, t5, total_alias ?_⟩
      rw [htm]
      rfl
  | read id ty p m addr =>
    obtain ⟨hp, hpt, hm, hao, k, hk, hk0⟩ := ho
    simp only [lowerEStm, Option.bind_eq_bind, Option.bind_eq_some_iff, Option.some.injEq] at hl
    obtain ⟨c, hc, l, hl, rfl⟩ := hl
    simp only [List.mem_append, or_imp, forall_and, List.mem_map, forall_exists_index,
      and_imp, forall_apply_eq_imp_iff₂, List.mem_singleton, forall_eq] at ht
    obtain ⟨⟨t1, t2⟩, t3⟩ := ht
    have t2' : Γ id = ty := t2
    have c1 := expr_total addr hao ha hc t1
    have c2 := typed_variable addr hao hc t1
    have l1 := (lower_total hp.1 (t2'.trans hpt.symm) hp.2.2 hl (fun s hs => t3 s hs)).1
    intro j hj
    simp only [List.append_assoc, List.mem_append] at hj
    rcases hj with hj | hj | hj
    · exact fine_items hA t1 c1 j hj
    · rw [List.mem_singleton.1 hj]
      refine ⟨t2', hm, ?_⟩
      rw [c2, hk]
      exact hk0
    · rw [its_items] at hj
      exact fine_items hA (fun i hi => by
        obtain ⟨s, hs, rfl⟩ := List.mem_map.1 hi
        exact t3 s hs) (its_stmts l1) j hj

theorem estms_fine {ss : List EStm} : ∀ {nid : Nat} {r : List EItem × Nat},
    lowerEStms ss nid = some r →
    (∀ s ∈ ss, ∀ m a, lowerEStm s m = some a → (∀ i ∈ a.1, i ∈ r.1) →
      ∀ i ∈ a.1, Fine H HE P.sig Γ Ms i) → ∀ i ∈ r.1, Fine H HE P.sig Γ Ms i := by
  induction ss with
  | nil =>
    intro nid r hl _
    simp only [lowerEStms, Option.some.injEq] at hl
    subst hl
    simp
  | cons s ss ih =>
    intro nid r hl h
    simp only [lowerEStms, Option.bind_eq_bind, Option.bind_eq_some_iff, Option.some.injEq] at hl
    obtain ⟨a, ha, b, hb, rfl⟩ := hl
    intro i hi
    rcases List.mem_append.1 hi with hi | hi
    · exact h s (by simp) _ a ha (fun i h => List.mem_append_left _ h) i hi
    · exact ih hb (fun s hs m c hc hm => h s (List.mem_cons_of_mem _ hs) m c hc
        fun i hi => List.mem_append_right _ (hm i hi)) i hi

theorem defs_unique {i j : EItem} {n : Nat} (hni : n ∈ i.defs) (hnj : n ∈ j.defs) {is : List EItem}
    (hd : (eDefs is).Nodup) (hi : i ∈ is) (hj : j ∈ is) : i = j := by
  induction is with
  | nil => cases hi
  | cons k is ih =>
    rw [eDefs_cons] at hd
    obtain ⟨_, d2, d3⟩ := List.nodup_append.1 hd
    have hmem : ∀ {l : EItem}, l ∈ is → n ∈ l.defs → n ∈ eDefs is := fun hl hn =>
      List.mem_flatMap.2 ⟨_, hl, hn⟩
    rcases List.mem_cons.1 hi with h1 | h1
    · rcases List.mem_cons.1 hj with h2 | h2
      · rw [h1, h2]
      · rw [h1] at hni
        exact absurd rfl (d3 n hni n (hmem h2 hnj))
    · rcases List.mem_cons.1 hj with h2 | h2
      · rw [h2] at hnj
        exact absurd rfl (d3 n hnj n (hmem h1 hni))
      · exact ih d2 h1 h2

theorem Mach.Good.nonempty {M : Mach} {u : Nat} {ws : List Nat} {w : Nat} (h : M.Good H HE u ws w) :
    Nonempty M.S := by
  obtain ⟨s, _⟩ := h.start (ws.map fun w => List.replicate w false) (by
    rw [List.map_map]
    simp [Function.comp_def])
  exact ⟨s⟩

/-- A machine for an entity, if there are machines for the entities it instantiates. -/
theorem entity_machine {enids : Nat → Nat} {u : Nat} {E : Ent} {h : HEnt} (hD : D.Ok P)
    (hA : ∀ L, Answers H P.sig L) (hu : D u = some E) (hR : E.Resolved (enids u))
    (hl : lowerEnt E (enids u) = some h) (ht : ∀ i ∈ h.items, i.Typed h.types) (hf : LoopFree h)
    (hsub : ∀ s ∈ E.body, ∀ v ∈ s.insts, ∃ E', D v = some E' ∧
      ∃ M : Mach, M.Good H (lowerEnts D enids) v (E'.params.map fun p => p.2.size) E'.result.ty.size) :
    ∃ M : Mach, M.Good H (lowerEnts D enids) u (E.params.map fun p => p.2.size) E.result.ty.size := by
  obtain ⟨n1, n2, n3⟩ := C48_driven_once E (enids u) h hR hl
  have hu' : lowerEnts D enids u = some h := by simp [lowerEnts, hu, hl]
  simp only [lowerEnt, Option.bind_eq_bind, Option.bind_eq_some_iff, Option.some.injEq] at hl
  obtain ⟨a, ha, b, hb, rfl⟩ := hl
  obtain ⟨o1, o2, o3⟩ := hD u E hu
  simp only at ht n1 n2
  have n1' := (List.nodup_append.1 n1).2.1
  have hty : ∀ i ∈ b.1, i.Typed E.types := fun i hi =>
    ht (.item i) (List.mem_append_right _ (List.mem_map_of_mem hi))
  have hMs : ∀ n, ∃ M : Mach, Nonempty M.S ∧ ∀ ty p v args, EStm.inst n ty p v args ∈ E.body →
      ∀ E', D v = some E' →
      M.Good H (lowerEnts D enids) v (E'.params.map fun p => p.2.size) E'.result.ty.size := by
    intro n
    by_cases hn : ∃ ty p v args, EStm.inst n ty p v args ∈ E.body
    · obtain ⟨ty, p, v, args, hs⟩ := hn
      obtain ⟨E', hE', M, hM⟩ := hsub _ hs v (by simp [EStm.insts])
      refine ⟨M, hM.nonempty, fun ty2 p2 v2 args2 hs2 E2 hE2 => ?_⟩
      have hin : ∀ {ty p v args}, EStm.inst n ty p v args ∈ E.body →
          EItem.inst n ty v (args.map Expr.variable) ∈ a.1 ++ b.1.map .item := by
        intro ty p v args hs
        obtain ⟨m, c, hc, hi⟩ := lowerEStms_mem ha hs
        refine List.mem_append_left _ (hi _ ?_)
        simp only [lowerEStm, Option.bind_eq_bind, Option.bind_eq_some_iff, Option.some.injEq] at hc
        obtain ⟨x, _, y, _, rfl⟩ := hc
        simp
      have := defs_unique (n := n) (by simp [EItem.defs]) (by simp [EItem.defs]) n1' (hin hs) (hin hs2)
      simp only [EItem.inst.injEq] at this
      obtain ⟨_, _, rfl, _⟩ := this
      rw [hE'] at hE2
      cases hE2
      exact hM
    · exact ⟨⟨Unit, fun _ _ => True, fun _ _ _ => True, fun _ => []⟩, ⟨()⟩,
        fun ty p v args hs => absurd ⟨ty, p, v, args, hs⟩ hn⟩
  have ⟨Ms, hMs'⟩ : ∃ Ms : Nat → Mach, ∀ n, Nonempty (Ms n).S ∧ ∀ ty p v args,
      EStm.inst n ty p v args ∈ E.body → ∀ E', D v = some E' →
      (Ms n).Good H (lowerEnts D enids) v (E'.params.map fun p => p.2.size) E'.result.ty.size :=
    ⟨fun n => (hMs n).choose, fun n => (hMs n).choose_spec⟩
  have hfine : ∀ i ∈ a.1 ++ b.1.map EItem.item, Fine H (lowerEnts D enids) P.sig E.types Ms i := by
    intro i hi
    rcases List.mem_append.1 hi with hi | hi
    · refine estms_fine ha (fun s hs m c hc hm => ?_) i hi
      refine estm_fine hA hc (o2 s hs) (hR.armed.1 s hs)
        (fun i hi => ht i (List.mem_append_left _ (hm i hi))) ?_ ?_
      · rintro id ty p v args rfl E' hE' w1 w2
        rw [w1, w2]
        exact (hMs' id).2 ty p v args hs E' hE'
      · intro v hv
        obtain ⟨E', hE', _⟩ := hsub s hs v hv
        exact ⟨E', hE'⟩
    · exact fine_items hA hty (expr_total E.result o3 hR.armed.2 hb hty) i hi
  have hnow : ∀ (i : EItem), ∀ n ∈ i.now, n ∈ i.reads := by
    intro i n hn
    cases i with
    | item => exact hn
    | reg => simp only [EItem.now, List.mem_singleton] at hn; simp [EItem.reads, hn]
    | inst => exact hn
    | mem => simp only [EItem.now, List.mem_singleton] at hn; simp [EItem.reads, hn]
    | read => exact hn
  have := machine_good (Ms := Ms) (H := H) (sig := P.sig) hu' (fun n => (hMs' n).1) hfine o1 n1
    (fun i hi n hn => List.mem_append.1 (n2 i hi n (hnow i n hn))) hf
  have hw : (E.types E.result.variable).size = E.result.ty.size := by
    rw [typed_variable E.result o3 hb hty]
  rw [← hw]
  exact ⟨_, this⟩

/-! ## The property -/

/-- The generated hardware has the shape the property needs: every function and entity is lowered,
to signals with the types of the statements that drive them. -/
structure Generated (P : Prog) (D : Ents) (nids enids : Nat → Nat) : Prop where
  units : ∀ u f, P u = some f → ∃ h, lowerFn f (nids u) = some h ∧ ∀ i ∈ h.items, i.Typed h.types
  entities : ∀ u E, D u = some E → ∃ h, lowerEnt E (enids u) = some h ∧
    (∀ i ∈ h.items, i.Typed h.types) ∧ LoopFree h

/-- What the front end guarantees for functions and entities together. -/
structure Accepted (P : Prog) (D : Ents) (nids enids : Nat → Nat) : Prop where
  progOk : P.Ok
  progAcyclic : P.Acyclic
  progResolved : ∀ u f, P u = some f → f.Resolved (nids u)
  entsOk : D.Ok P
  entsAcyclic : D.Acyclic
  entsResolved : ∀ u E, D u = some E → E.Resolved (enids u)

/-- C48.  Take functions and entities that type check, whose names are resolved, none of which
instantiates itself, and which are lowered to hardware without combinational loops.  For every history
of inputs of the widths of its parameters, every entity produces a history of outputs of the width of
its result. -/
theorem C48_entity_has_history (P : Prog) (D : Ents) (nids enids : Nat → Nat)
    (hacc : Accepted P D nids enids) (hgen : Generated P D nids enids) (u : Nat) (E : Ent)
    (hu : D u = some E) (ins : Nat → List Bits)
    (hins : ∀ t, (ins t).map List.length = E.params.map fun p => p.2.size) :
    ∃ out, EProduces (lowerProg P nids) (lowerEnts D enids) u ins out ∧
      ∀ t, (out t).length = E.result.ty.size := by
  have hA : ∀ L, Answers (lowerProg P nids) P.sig L := by
    intro L v _ ts ty hsig ins' hins'
    simp only [Prog.sig, Option.map_eq_some_iff, Prod.mk.injEq] at hsig
    obtain ⟨g, hg, rfl, rfl⟩ := hsig
    exact C46_unit_has_output P nids hacc.progOk hacc.progAcyclic hacc.progResolved hgen.units v g hg
      ins' (by rw [List.map_map] at hins'; exact hins')
  obtain ⟨rank, hrank⟩ := hacc.entsAcyclic
  suffices ∀ k u E, rank u < k → D u = some E → ∃ M : Mach, M.Good (lowerProg P nids)
      (lowerEnts D enids) u (E.params.map fun p => p.2.size) E.result.ty.size by
    obtain ⟨M, hM⟩ := this (rank u + 1) u E (by omega) hu
    exact hM.history ins hins
  intro k
  induction k with
  | zero => intro u E h; omega
  | succ k ih =>
    intro u E hk hu
    obtain ⟨h, hl, ht, hf⟩ := hgen.entities u E hu
    refine entity_machine hacc.entsOk hA hu (hacc.entsResolved u E hu) hl ht hf ?_
    intro s hs v hv
    obtain ⟨⟨E', hE'⟩, hlt⟩ := hrank u E hu s hs v hv
    exact ⟨E', hE', ih v E' (by omega) hE'⟩

/-- The widths of inputs that encode values. -/
def InputsFit (params : List (Nat × MTy)) (bits : Nat → List Bits) : Prop :=
  ∀ t, (bits t).map List.length = params.map fun p => p.2.size

/-- C48 with C47.  In such a program, for every history of inputs there is a history of the hardware,
and at every time at which the source says what the result is, the output of every such history is
that value. -/
theorem C48_entity_runs (P : Prog) (D : Ents) (nids enids : Nat → Nat)
    (hacc : Accepted P D nids enids) (hgen : Generated P D nids enids) (u : Nat) (E : Ent)
    (hu : D u = some E) (ins : Inputs) (bits : Nat → List Bits) (hfit : InputsFit E.params bits)
    (hin : InputsEncode E.params ins bits) :
    (∃ out, EProduces (lowerProg P nids) (lowerEnts D enids) u bits out) ∧
    ∀ out, EProduces (lowerProg P nids) (lowerEnts D enids) u bits out →
      ∀ t v, Gives P D u ins t E.result v → Enc E.result.ty v (out t) := by
  refine ⟨?_, fun out hout t v hv => C47_entity_value_partial P D nids enids u E ins bits out t v
    hacc.progOk hacc.entsOk hu hv hin hout⟩
  obtain ⟨out, ho, _⟩ := C48_entity_has_history P D nids enids hacc hgen u E hu bits hfit
  exact ⟨out, ho⟩

end Spade.Entity

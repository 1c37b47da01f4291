import Verif.Entity.Fold
import Verif.Entity.Model
/-!
# Initial values of memories, and what their write ports do
-/
namespace Spade.Entity
open Spade.Verilog Spade.Codegen Spade.Lower Spade.Expr
open Spade.Match (Val)

theorem fills_exists : ∀ s : List (Option Bool), ∃ b, Fills s b
  | [] => ⟨[], trivial⟩
  | none :: s => by
    obtain ⟨b, h⟩ := fills_exists s
    exact ⟨false :: b, h⟩
  | some c :: s => by
    obtain ⟨b, h⟩ := fills_exists s
    exact ⟨c :: b, rfl, h⟩

/-- The evaluated statements give a literal that stands for a value. -/
def Literal (ss : List Stmt) (t : MTy) (v : Val) : Prop :=
  ∃ V str, evalStatements ss = some V ∧ V.asString = some str ∧ ∀ b, Fills str b → Enc t v b

theorem init_literal {P : Prog} {sig : Nat → Option (List MTy × MTy)} {Γ : Nat → MTy} {e : Expr} {v : Val}
    {nid : Nat} {r : List Item × Nat} {ss : List Stmt} (h : Ev P (fun _ => none) e v) (hf : Foldable e)
    (hd : e.names.Nodup) (ho : e.Ok sig Γ) (hl : lowerE e nid = some r) (hs : stmtsOf r.1 = some ss) :
    Literal ss e.ty v := by
  obtain ⟨ss', new, newT, V, q1, q2, _, _, _, _, _, q8⟩ := (ev_folds h hf hd ho hl).run
  rw [hs] at q1
  cases q1
  have := q2 [] [] [] none
  simp only [List.append_nil, evalStmts] at this
  obtain ⟨s, hs, he⟩ := q8.str
  exact ⟨V, s, by simp [evalStatements, this], hs, he⟩

theorem inits_literal {P : Prog} {sig : Nat → Option (List MTy × MTy)} {Γ : Nat → MTy} {t : MTy} :
    ∀ {es : List Expr} {vs : List Val} {nid : Nat} {r : List (List Stmt) × Nat},
    Evs P (fun _ => none) es vs → Foldables es → (Exprs.names es).Nodup → Exprs.Ok sig Γ es →
    (∀ e ∈ es, e.ty = t) → lowerInits es nid = some r →
    vs.length = es.length ∧ r.1.length = vs.length ∧ ∀ (a : Nat) ss v, r.1[a]? = some ss → vs[a]? = some v → Literal ss t v
  | [], vs, nid, r, h, _, _, _, _, hl => by
    simp only [lowerInits, Option.some.injEq] at hl
    subst hl
    cases h
    exact ⟨rfl, rfl, by simp⟩
  | e :: es, vs, nid, r, h, hf, hd, ho, ht, hl => by
    simp only [lowerInits, Option.bind_eq_bind, Option.bind_eq_some_iff, Option.some.injEq] at hl
    obtain ⟨a, ha, ss, hss, b, hb, rfl⟩ := hl
    simp only [Exprs.names] at hd
    obtain ⟨d1, d2, _⟩ := List.nodup_append.1 hd
    cases h with
    | cons h1 h2 =>
    obtain ⟨l0, l1, l2⟩ := inits_literal (r := b) h2 hf.2 d2 ho.2
      (fun e he => ht e (List.mem_cons_of_mem _ he)) hb
    refine ⟨by simp [l0], by simp [l1], fun k ss' v hk hv => ?_⟩
    cases k with
    | zero =>
      simp only [List.getElem?_cons_zero, Option.some.injEq] at hk hv
      subst hk hv
      rw [← ht e (by simp)]
      exact init_literal h1 hf.1 d1 ho.1 ha hss
    | succ k => exact l2 k ss' v (by simpa using hk) (by simpa using hv)

theorem memInit_literal {P : Prog} {sig : Nat → Option (List MTy × MTy)} {Γ : Nat → MTy} {t : MTy}
    {len : Nat} {e : Expr} {vs : List Val} {nid : Nat} {r : Option (List (List Stmt)) × Nat}
    (h : Ev P (fun _ => none) e (.tup vs)) (hf : Foldable e) (hd : e.names.Nodup) (ho : e.Ok sig Γ)
    (ht : e.ty = .array t len) (hl : lowerMemInit (some e) nid = some r) :
    vs.length = len ∧ ∃ sss, r.1 = some sss ∧ sss.length = vs.length ∧
      ∀ (a : Nat) ss v, sss[a]? = some ss → vs[a]? = some v → Literal ss t v := by
  simp only [lowerMemInit, Option.ite_none_right_eq_some] at hl
  replace hl := hl.2
  cases e <;> first | (simp at hl; done) | skip
  case array id ty es =>
    obtain ⟨a, ha, rfl⟩ := Option.map_eq_some_iff.1 hl
    simp only [Expr.names] at hd
    obtain ⟨⟨t', rfl, ht'⟩, ho⟩ := ho
    simp only [Expr.ty, MTy.array.injEq] at ht
    rw [ht.1] at ht'
    cases h with
    | array h =>
    obtain ⟨l0, l1, l2⟩ := inits_literal h hf (List.nodup_append.1 hd).1 ho ht' ha
    exact ⟨l0.trans ht.2, _, rfl, l1, l2⟩
  case rep id ty e n =>
    simp only [Option.bind_eq_bind, Option.bind_eq_some_iff, Option.some.injEq] at hl
    obtain ⟨a, ha, ss, hss, rfl⟩ := hl
    simp only [Expr.names] at hd
    obtain ⟨rfl, ho⟩ := ho
    simp only [Expr.ty, MTy.array.injEq] at ht
    cases h with
    | rep h =>
    refine ⟨by simp [ht.2], _, rfl, by simp, fun k ss' v hk hv => ?_⟩
    simp only [List.getElem?_replicate, Option.ite_none_right_eq_some, Option.some.injEq] at hk hv
    rw [← hk.2, ← hv.2, ← ht.1]
    exact init_literal h hf (List.nodup_append.1 hd).1 ho ha hss

/-! ## Write ports -/

theorem enc_nat {w : Nat} {z : Int} {b : Bits} (h : Enc (.uint w) (.int z) b) :
    (toNat b : Int) = z ∧ b.length = w := by
  cases h with
  | uint h =>
  refine ⟨?_, ofInt_length _ _⟩
  rw [toNat_ofInt, Int.emod_eq_of_lt h.1 h.2]

theorem port_bits {aw : Nat} {t : MTy} {w : Val} {b : Bits}
    (h : Enc (.tuple [.bool, .uint aw, t]) w b) :
    ∃ (c : Bool × Bits × Bits) (z : Int) (v : Val), w = .tup [.bool c.1, .int z, v] ∧
      b = portBits c ∧ (toNat c.2.1 : Int) = z ∧ c.2.1.length = aw ∧ Enc t v c.2.2 := by
  cases h with
  | tuple h =>
  cases h with
  | cons h1 h =>
  cases h with
  | cons h2 h =>
  cases h with
  | cons h3 h =>
  cases h
  cases h1 with
  | bool =>
  rename_i v b c x
  cases h2 with
  | uint h2 =>
  rename_i z
  obtain ⟨k1, k2⟩ := enc_nat (.uint h2)
  exact ⟨(x, ofInt aw z, c), z, b, rfl, by simp [portBits], k1, k2, h3⟩

theorem ports_last {aw : Nat} {t : MTy} : ∀ {n : Nat} {ws : List Val} {bss : List Bits},
    EncAll (List.replicate n (.tuple [.bool, .uint aw, t])) ws bss →
    ∃ cs : List (Bool × Bits × Bits), cs.length = n ∧ bss = cs.map portBits ∧
      (∀ c ∈ cs, c.2.1.length = aw ∧ c.2.2.length = t.size) ∧
      ∀ (m : Nat → Bits) (a : Nat), (lastWrite ws a = none → cs.foldl upd m a = m a) ∧
        ∀ v, lastWrite ws a = some v → Enc t v (cs.foldl upd m a)
  | 0, ws, bss, h => by
    cases h
    exact ⟨[], rfl, rfl, by simp, by simp [lastWrite]⟩
  | n + 1, ws, bss, h => by
    cases h with
    | cons h1 h2 =>
    obtain ⟨c, z, v, rfl, rfl, k1, k2, k3⟩ := port_bits h1
    obtain ⟨cs, q1, rfl, q3, q4⟩ := ports_last h2
    refine ⟨c :: cs, by simp [q1], rfl, ?_, fun m a => ?_⟩
    · intro c' hc'
      rcases List.mem_cons.1 hc' with rfl | hc'
      · exact ⟨k2, enc_length k3⟩
      · exact q3 c' hc'
    · obtain ⟨r1, r2⟩ := q4 (upd m c) a
      simp only [lastWrite, List.foldl_cons]
      cases hlw : lastWrite _ a with
      | some x =>
        refine ⟨by simp, fun v' hv' => ?_⟩
        simp only [Option.some_or, Option.some.injEq] at hv'
        subst hv'
        exact r2 x hlw
      | none =>
        rw [r1 hlw]
        simp only [Option.none_or]
        obtain ⟨b, addr, data⟩ := c
        simp only at k1
        cases b with
        | false => exact ⟨fun _ => by simp [upd], by simp [written]⟩
        | true =>
          simp only [written, upd, true_and]
          by_cases hz : z = (a : Int)
          · have : a = toNat addr := by omega
            rw [if_pos hz, if_pos this]
            exact ⟨by simp, fun v' hv' => by cases hv'; exact k3⟩
          · have : ¬ a = toNat addr := by omega
            rw [if_neg hz, if_neg this]
            exact ⟨fun _ => rfl, by simp⟩

end Spade.Entity

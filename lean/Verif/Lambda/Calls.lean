import Verif.Lambda.Main
/-!
# The code made for lambdas behaves like closures: calls
-/
namespace Spade.Lambda

variable {V : Type}
section
variable {I : Ids} {Q : HProg V} {items : List (Nat × LUnit)}

theorem name_ne {i j a b : Nat} (h : i ≠ j) : (((i, a) : Name) == (j, b)) = false :=
  beq_eq_false_iff_ne.mpr fun e => h (congrArg Prod.fst e)

theorem zip_lookup_isSome {β : Type} {x : Nat} : ∀ {a : List Nat} {b : List β}, a.length = b.length →
    x ∈ a → ((a.zip b).lookup x).isSome
  | [], _, _, h => nomatch h
  | _ :: _, [], h, _ => by simp at h
  | y :: a, v :: b, h, hm => by
    simp only [List.zip_cons_cons, List.lookup_cons]
    by_cases he : x = y
    · simp [he]
    · simp only [beq_eq_false_iff_ne.mpr he]
      exact zip_lookup_isSome (by simpa using h) ((List.mem_cons.mp hm).resolve_left he)

theorem lookup_isSome_of_mem {β : Type} {x : Nat} : ∀ {a : List (Nat × β)}, x ∈ a.map (·.1) →
    (a.lookup x).isSome
  | [], h => nomatch h
  | (y, v) :: a, hm => by
    simp only [List.lookup_cons]
    by_cases he : x = y
    · simp [he]
    · simp only [beq_eq_false_iff_ne.mpr he]
      exact lookup_isSome_of_mem ((List.mem_cons.mp hm).resolve_left he)

/-- The body of a lambda's unit, after its arguments and its clock have been bound. -/
theorem body_sim {c : Calls V} {d : HCalls V} (hcd : CallsOk I Q items c d) {G ρ ρ'}
    (hρ : GenOk G ρ ρ') {st st₂ st₄ : St} {ss r ss' r'} {E E' : Env V} {F F' : HEnv V} {caps : List (Nat × Name)}
    {self : Name} {L targs fs} (hi : st.Inv) (hG : ∀ g ∈ G, g < st.next)
    (hp : PStep (st.push (some [])) st₂) (hv : visit I G (.block ss r) st₂ = some (.block ss' r', st₄))
    (hf : Fin items st₄) (hc : Code Q items (lower (.block ss' r')).2) (hcaps : caps = st₄.close.1)
    (hself : F.lookup self = some (.str L targs fs)) (hlt : st₄.next ≤ self.1)
    (hfs : fs.map (·.1) = caps.map (·.1)) (hrel : relF I Q items fs E)
    (hb : BExt I Q items (st.push (some [])) st₂ E F F' E') :
    OptRel (relV I Q items)
      ((HExp.block (caps.map (fun (c : Nat × Name) => (HPat.var c.2, HExp.field (.var self) c.1)) ++
        (lowerS ss').1) (lower r').1).ev d ρ' F') ((Exp.block ss r).ev c ρ E') := by
  obtain ⟨e4, k4⟩ := visit_step hv hp.inv
  obtain ⟨s, t, hs, hcl, hg, hn, hbg, _⟩ := close_step (hp.trans e4.pstep)
  have hinv := e4.inv.scopes
  rw [hs] at hinv
  obtain ⟨cs, hcs⟩ : ∃ cs, s.barrier = some cs := by
    unfold BGrow at hbg
    cases h : s.barrier with
    | none => simp only [h] at hbg
    | some cs => exact ⟨cs, rfl⟩
  have hcaps' : caps = cs := by rw [hcaps, hcl, hcs]; rfl
  have hcap : ∀ c ∈ caps, resolve c.1 st.scopes = some c.2 := by
    intro c hcm
    have := (hinv.2.1 cs hcs c (hcaps' ▸ hcm)).resolve
    rwa [hg.resolve] at this
  have hp1 : st.next ≤ st₂.next := hp.next
  have hself' : F'.lookup self = some (.str L targs fs) := by
    rw [hb.frame self (Or.inr (Nat.le_trans e4.next hlt)), hself]
  obtain ⟨F'', hF, hl⟩ := caps_sim (d := d) (ρ := ρ') (cs := caps) hself' (by
    intro c hcm
    obtain ⟨h1, h2⟩ := hi.scopes.resolve (hcap c hcm)
    refine ⟨h2, ?_, ?_⟩
    · intro he
      rw [he] at h1
      have := e4.next
      omega
    · exact lookup_isSome_of_mem (hfs ▸ List.mem_map.mpr ⟨c, hcm, rfl⟩))
  have e : (HExp.block (caps.map (fun (c : Nat × Name) => (HPat.var c.2, HExp.field (.var self) c.1)) ++
        (lowerS ss').1) (lower r').1).ev d ρ' F' = (lower (HExp.block ss' r')).1.ev d ρ' F'' := by
    simp only [HExp.ev, lower, hstms_append, hF, Option.bind_some]
  rw [e]
  refine sim hcd hρ hv hp.inv (fun g hg => Nat.lt_of_lt_of_le (hG g hg) hp1) hf hc ?_
  intro x n hr hm
  rcases hb.res x n hr with ⟨hlt', hr', he⟩ | ⟨hge, v, t, h1, h2, h3⟩
  · -- from outside
    have hx := (hi.scopes.resolve (show resolve x st.scopes = some n from hr')).2
    have hr2 := (hp.inv.scopes.resolve hr).1
    have hmem : (x, n) ∈ caps := by
      rcases k4 n hm with h | h
      · omega
      · rw [hs] at h
        rcases h with h | ⟨_, h, _⟩
        · have h1 : st.next ≤ n.1 := hn _ (mem_of_lookup h)
          have h2 : n.1 < st.next := hlt'
          omega
        · rw [hcaps', ← hx]
          exact h cs hcs
    obtain ⟨t, ht⟩ := Option.isSome_iff_exists.mp
      (lookup_isSome_of_mem (a := fs) (x := x) (hfs ▸ List.mem_map.mpr ⟨_, hmem, rfl⟩))
    obtain ⟨v, h1, h2⟩ := relF_mem hrel (mem_of_lookup ht)
    refine ⟨v, t, he.trans h1, ?_, h2⟩
    rw [hl n, if_pos (List.mem_map.mpr ⟨_, hmem, rfl⟩), hx, ht]
  · refine ⟨v, t, h1, ?_, h3⟩
    rw [hl n, if_neg, h2]
    intro hmem
    obtain ⟨c, hcm, rfl⟩ := List.mem_map.mp hmem
    have h4 := (hi.scopes.resolve (hcap c hcm)).1
    have h5 : st.next ≤ c.2.1 := hge
    omega

/-- Calling a lambda. -/
theorem method_sim {c : Calls V} {d : HCalls V} (hcd : CallsOk I Q items c d)
    {L targs fs ρ isFn ps ss} {r : Exp V} {E cts cs ts vs}
    (h : relV I Q items (.str L targs fs) (.clo ρ isFn ps ss r E)) (hcs : relVs I Q items cts cs)
    (hvs : relVs I Q items ts vs) :
    OptRel (relV I Q items)
      ((Q.lams.lookup L).bind fun l => if ts.length = l.arity then
        l.unit.run d targs (.str L targs fs :: cts ++ [.tup ts]) else none)
      (if cs.length = (if isFn then 0 else 1) then
        (binds ps (cs ++ vs) E).bind fun E' => (Exp.block ss r).ev c ρ E' else none) := by
  have hrel := h
  simp only [relV] at h
  obtain ⟨⟨G, st, st', k, outer, clk, ps', caps, ss', r', l, hi, hG, hv, hf, hc, hms, hl, hgl, hρ⟩, hF⟩ := h
  obtain ⟨clk₀, ps₁, st₄, man, outs, i, l', hk, hclk, hps, hvb, hcaps, m1, m1', m2, m3, m4, m5, m6, m7, m8,
      m9, m10, m11, e4, hst⟩ := lam_code hi hv hf hc
  rw [hl] at m8
  injection m8 with m8
  subst m8
  rw [hl, Option.bind_some]
  have hlen := relVs_length hvs
  have hclen := relVs_length hcs
  have hpl : ps'.length = ps₁.length := by rw [hps, visitPs_length]
  have ea := addClock_step (c := clk₀) (push_inv' hi)
  have eb := visitPs_step (ps := ps₁) ea.inv
  have hcb : Code Q items (lower (.block ss' r')).2 := by
    simp only [lower] at hc ⊢
    exact hc.left
  cases isFn with
  | true =>
    simp only [handleKind, Option.some.injEq, Prod.mk.injEq] at hk
    obtain ⟨rfl, rfl⟩ := hk
    simp only [St.addClock] at hclk hps hvb e4 ea eb
    subst hclk
    simp only [Repl.replaceIn, lamInputs, Option.isSome_none, Bool.false_eq_true, if_false,
      List.getElem?_cons_zero, List.getElem?_cons_succ, Option.bind_some, Option.map_some,
      Option.some.injEq] at m11
    simp only [if_true]
    by_cases hc0 : cs.length = 0
    · rw [if_pos hc0]
      have hcs0 : cs = [] := List.eq_nil_of_length_eq_zero hc0
      have hct0 : cts = [] := List.eq_nil_of_length_eq_zero (hclen.trans hc0)
      subst hcs0 hct0
      rw [List.nil_append]
      by_cases har : ts.length = l.arity
      · rw [if_pos har]
        unfold HUnit.run
        rw [if_pos hgl]
        have hin : hbinds (l.unit.inputs.map .var) (HVal.str L targs fs :: [] ++ [.tup ts]) [] =
            some [((i + 1, I.args), .tup ts), ((i, I.self), .str L targs fs)] := by
          rw [← m11]
          rfl
        rw [hin, Option.bind_some]
        have hbody : l.unit.body = .block (argBindings (i + 1, I.args) 0 ps' ++
            (caps.map (fun (c : Nat × Name) => (HPat.var c.2, HExp.field (.var (i, I.self)) c.1)) ++
              (lowerS ss').1)) (lower r').1 := by
          rw [← m11]
          simp
        rw [hbody]
        have ha := args_sim (I := I) (Q := Q) (items := items) (d := d) (ρ := l.unit.gens.zip targs)
          (args := (i + 1, I.args)) (ts := ts) (ps := ps) (i := 0) (E := E)
          (F := [((i + 1, I.args), .tup ts), ((i, I.self), .str L targs fs)]) (push_inv' hi)
          (by simpa using hvs) (by rw [← hpl, ← m10, ← har, hlen])
          (Nat.le_trans e4.next (Nat.le_succ_of_le m6)) (by simp)
        rw [← hps] at ha
        have e := ha.bind (S := relV I Q items) (f := fun F' => (HExp.block (caps.map
          (fun (c : Nat × Name) => (HPat.var c.2, HExp.field (.var (i, I.self)) c.1)) ++
              (lowerS ss').1) (lower r').1).ev d (l.unit.gens.zip targs) F')
          (g := fun E' => (Exp.block ss r).ev c ρ E') (fun F' E' hb =>
          body_sim hcd hρ hi hG (ea.trans eb) hvb (hf.step hst) hcb hcaps (by
            rw [List.lookup_cons, name_ne (by omega), List.lookup_cons, beq_self_eq_true]) m6 hms hF hb)
        simp only [HExp.ev, hstms_append, Option.bind_assoc] at e ⊢
        exact e
      · rw [if_neg har, binds_length (by rw [← hpl, ← m10, ← hlen]; exact Ne.symm har)]
        trivial
    · rw [if_neg hc0]
      split
      · unfold HUnit.run
        rw [if_pos hgl, ← m11]
        cases cts with
        | nil => exact absurd (hclen.symm.trans rfl) hc0
        | cons ct cts => cases cts <;> trivial
      · trivial
  | false =>
    cases ps with
    | nil => simp only [handleKind, reduceCtorEq] at hk
    | cons p ps =>
      cases p with
      | wild => simp only [handleKind, reduceCtorEq] at hk
      | bnd => simp only [handleKind, reduceCtorEq] at hk
      | tup => simp only [handleKind, reduceCtorEq] at hk
      | var x =>
        simp only [handleKind] at hk
        split at hk
        · rename_i hx
          simp only [Option.some.injEq, Prod.mk.injEq] at hk
          obtain ⟨rfl, rfl⟩ := hk
          have hclk' : clk = some ((st.push (some [])).add x).1 := hclk
          clear hclk
          subst hclk'
          replace hps : ps' = (visitPs ps ((st.push (some [])).add x).2).1 := hps
          replace hvb : visit I G (.block ss r) (visitPs ps ((st.push (some [])).add x).2).2 =
            some (.block ss' r', st₄) := hvb
          replace e4 : EStep ((visitPs ps ((st.push (some [])).add x).2).2) st₄ := e4
          replace ea : PStep (st.push (some [])) ((st.push (some [])).add x).2 := ea
          replace eb : PStep ((st.push (some [])).add x).2 (visitPs ps ((st.push (some [])).add x).2).2 := eb
          simp only [Repl.replaceIn, lamInputs, Option.isSome_some, if_true,
            List.getElem?_cons_zero, List.getElem?_cons_succ, Option.bind_some, Option.map_some,
            Option.some.injEq] at m11
          simp only [Bool.false_eq_true, if_false]
          by_cases hc1 : cs.length = 1
          · rw [if_pos hc1]
            obtain ⟨cv, rfl⟩ := List.length_eq_one_iff.mp hc1
            obtain ⟨ct, rfl⟩ := List.length_eq_one_iff.mp (hclen.trans hc1)
            simp only [relVs, and_true] at hcs
            rw [List.singleton_append]
            simp only [binds, Pat.bind, Option.bind_some]
            by_cases har : ts.length = l.arity
            · rw [if_pos har]
              unfold HUnit.run
              rw [if_pos hgl]
              have hin : hbinds (l.unit.inputs.map .var) (HVal.str L targs fs :: [ct] ++ [.tup ts]) [] =
                  some [((i + 2, I.args), .tup ts), ((i + 1, I.clk), ct), ((i, I.self), .str L targs fs)] := by
                rw [← m11]
                rfl
              rw [hin, Option.bind_some]
              have hbody : l.unit.body = .block (argBindings (i + 2, I.args) 0 ps' ++
                  ((HPat.var ((st.push (some [])).add x).1, HExp.var (i + 1, I.clk)) ::
                  (caps.map (fun (c : Nat × Name) => (HPat.var c.2, HExp.field (.var (i, I.self)) c.1)) ++
                    (lowerS ss').1))) (lower r').1 := by
                rw [← m11]
                simp
              rw [hbody]
              have ha := args_sim (I := I) (Q := Q) (items := items) (d := d) (ρ := l.unit.gens.zip targs)
                (args := (i + 2, I.args)) (ts := ts) (ps := ps) (i := 0) (E := (x, cv) :: E)
                (F := [((i + 2, I.args), .tup ts), ((i + 1, I.clk), ct), ((i, I.self), .str L targs fs)]) ea.inv
                (by simpa using hvs) (by rw [← hpl, ← m10, ← har, hlen])
                (Nat.le_trans e4.next (Nat.le_trans m6 (Nat.le_add_right _ 2))) (by simp)
              rw [← hps] at ha
              have e := ha.bind (S := relV I Q items)
                (f := fun F' => (HExp.block ((HPat.var ((st.push (some [])).add x).1, HExp.var (i + 1, I.clk)) ::
                  (caps.map (fun (c : Nat × Name) => (HPat.var c.2, HExp.field (.var (i, I.self)) c.1)) ++
                    (lowerS ss').1)) (lower r').1).ev d (l.unit.gens.zip targs) F')
                (g := fun E' => (Exp.block ss r).ev c ρ E') (fun F' E' hb => by
                  have hck : F'.lookup (i + 1, I.clk) = some ct := by
                    rw [hb.frame _ (Or.inr (Nat.le_trans e4.next (Nat.le_succ_of_le m6)))]
                    rw [List.lookup_cons, name_ne (by omega), List.lookup_cons, beq_self_eq_true]
                  have hadd : BExt I Q items (st.push (some [])) ((st.push (some [])).add x).2 E
                      [((i + 2, I.args), .tup ts), ((i + 1, I.clk), ct), ((i, I.self), .str L targs fs)]
                      ((((st.push (some [])).add x).1, ct) ::
                        [((i + 2, I.args), .tup ts), ((i + 1, I.clk), ct), ((i, I.self), .str L targs fs)])
                      ((x, cv) :: E) := BExt.add (push_inv' hi) hcs
                  have hb' : BExt I Q items (st.push (some [])) (visitPs ps ((st.push (some [])).add x).2).2 E
                      [((i + 2, I.args), .tup ts), ((i + 1, I.clk), ct), ((i, I.self), .str L targs fs)]
                      ((((st.push (some [])).add x).1, ct) :: F') E' := by
                    refine hadd.trans ea.next eb.next ⟨fun n hn => ?_, fun y n hr => ?_⟩
                    · rw [List.lookup_cons, List.lookup_cons]
                      split
                      · rfl
                      · exact hb.frame n hn
                    · rcases hb.res y n hr with h | ⟨hge, v, t, h1, h2, h3⟩
                      · exact Or.inl h
                      · refine Or.inr ⟨hge, v, t, h1, ?_, h3⟩
                        rw [List.lookup_cons]
                        have : (n == ((st.push (some [])).add x).1) = false := by
                          rw [beq_eq_false_iff_ne, add_name]
                          intro he
                          rw [add_next, he] at hge
                          simp only at hge
                          omega
                        rw [this]
                        exact h2
                  have := body_sim hcd hρ hi hG (ea.trans eb) hvb (hf.step hst) hcb hcaps
                    (self := (i, I.self)) (L := L) (targs := targs) (fs := fs) (by
                      rw [List.lookup_cons, name_ne (by omega), List.lookup_cons, name_ne (by omega),
                        List.lookup_cons, beq_self_eq_true]) m6 hms hF hb'
                  simp only [HExp.ev, hstms, hck, Option.bind_some, HPat.bind] at this ⊢
                  exact this)
              simp only [HExp.ev, hstms_append, Option.bind_assoc] at e ⊢
              exact e
            · rw [if_neg har, binds_length (by rw [← hpl, ← m10, ← hlen]; exact Ne.symm har)]
              trivial
          · rw [if_neg hc1]
            split
            · unfold HUnit.run
              rw [if_pos hgl, ← m11]
              cases cts with
              | nil => trivial
              | cons ct cts =>
                cases cts with
                | nil => exact absurd (hclen.symm.trans rfl) hc1
                | cons ct' cts => cases cts <;> trivial
            · trivial
        · cases hk

end
end Spade.Lambda

import Verif.Lambda.Visit
/-!
# The code made for lambdas behaves like closures
-/
namespace Spade.Lambda

variable {V : Type}

/-- The code for the replacements is in the program. -/
def Code (Q : HProg V) (items : List (Nat × LUnit)) (rs : List (Nat × Repl V)) : Prop :=
  ∀ x ∈ rs, ∃ u w, items.lookup x.1 = some u ∧ x.2.replaceIn u = some w ∧
    Q.lams.lookup x.1 = some { members := u.members, arity := u.arity, unit := w }

/-- The items are those of the final state. -/
def Fin (items : List (Nat × LUnit)) (st : St) : Prop :=
  ∀ L u, st.items.lookup L = some u → items.lookup L = some u

/-- Generic parameters have the same values. -/
def GenOk (G : List Nat) (ρ : List (Nat × Int)) (ρ' : List (Nat × Option Int)) : Prop :=
  ∀ g ∈ G, ∃ i, ρ.lookup g = some i ∧ ρ'.lookup g = some (some i)

/-- `L` is the struct made for the lambda, for generic arguments that agree with
those of the closure. -/
def LamOk (I : Ids) (Q : HProg V) (items : List (Nat × LUnit)) (L : Nat) (targs : List (Option Int))
    (ms : List Nat) (ρ : List (Nat × Int)) (isFn : Bool) (ps : List Pat) (ss : List (Pat × Exp V))
    (r : Exp V) : Prop :=
  ∃ G st st' k outer clk ps' caps ss' r' l, st.Inv ∧ (∀ g ∈ G, g < st.next) ∧
    visit I G (.lam isFn ps ss r) st = some (.lam L k outer clk ps' caps ss' r', st') ∧
    Fin items st' ∧ Code Q items (lower (.lam L k outer clk ps' caps ss' r')).2 ∧
    ms = caps.map (·.1) ∧ Q.lams.lookup L = some l ∧ l.unit.gens.length = targs.length ∧
    GenOk G ρ (l.unit.gens.zip targs)

mutual
/-- The value after lowering stands for the value. -/
def relV (I : Ids) (Q : HProg V) (items : List (Nat × LUnit)) : HVal V → Val V → Prop
  | .data a, .data b => a = b
  | .tup ts, .tup vs => relVs I Q items ts vs
  | .str L targs fs, .clo ρ isFn ps ss r E =>
    LamOk I Q items L targs (fs.map (·.1)) ρ isFn ps ss r ∧ relF I Q items fs E
  | _, _ => False
/-- `relV` on lists. -/
def relVs (I : Ids) (Q : HProg V) (items : List (Nat × LUnit)) : List (HVal V) → List (Val V) → Prop
  | [], [] => True
  | t :: ts, v :: vs => relV I Q items t v ∧ relVs I Q items ts vs
  | _, _ => False
/-- The members of a struct stand for variables. -/
def relF (I : Ids) (Q : HProg V) (items : List (Nat × LUnit)) : List (Nat × HVal V) → Env V → Prop
  | [], _ => True
  | (x, t) :: fs, E => (∃ v, E.lookup x = some v ∧ relV I Q items t v) ∧ relF I Q items fs E
end

/-- Both fail or both succeed with related results. -/
def OptRel {α β : Type} (R : α → β → Prop) : Option α → Option β → Prop
  | none, none => True
  | some a, some b => R a b
  | _, _ => False

theorem OptRel.bind {α β γ δ : Type} {R : α → β → Prop} {S : γ → δ → Prop} {a : Option α} {b : Option β}
    {f : α → Option γ} {g : β → Option δ} (h : OptRel R a b)
    (hf : ∀ x y, R x y → OptRel S (f x) (g y)) : OptRel S (a.bind f) (b.bind g) := by
  cases a <;> cases b
  · trivial
  · exact h.elim
  · exact h.elim
  · exact hf _ _ h

theorem OptRel.map {α β γ δ : Type} {R : α → β → Prop} {S : γ → δ → Prop} {a : Option α} {b : Option β}
    {f : α → γ} {g : β → δ} (h : OptRel R a b)
    (hf : ∀ x y, R x y → S (f x) (g y)) : OptRel S (a.map f) (b.map g) := by
  cases a <;> cases b
  · trivial
  · exact h.elim
  · exact h.elim
  · exact hf _ _ h

theorem OptRel.imp {α β : Type} {R S : α → β → Prop} {a : Option α} {b : Option β}
    (h : OptRel R a b) (hf : ∀ x y, R x y → S x y) : OptRel S a b := by
  cases a <;> cases b
  · trivial
  · exact h.elim
  · exact h.elim
  · exact hf _ _ h

/-- Variables that are needed have related values. -/
def Agree (I : Ids) (Q : HProg V) (items : List (Nat × LUnit)) (E : Env V) (F : HEnv V)
    (ss : List Scope) (N : List Name) : Prop :=
  ∀ x n, resolve x ss = some n → n ∈ N →
    ∃ v t, E.lookup x = some v ∧ F.lookup n = some t ∧ relV I Q items t v

/-- Calls agree. -/
structure CallsOk (I : Ids) (Q : HProg V) (items : List (Nat × LUnit)) (c : Calls V) (d : HCalls V) :
    Prop where
  unit : ∀ u is ts vs, relVs I Q items ts vs →
    OptRel (relV I Q items) (d.unit u is ts) (c.unit u is vs)
  method : ∀ t v ts vs t' v', relV I Q items t v → relVs I Q items ts vs → relV I Q items t' v' →
    OptRel (relV I Q items) (d.method t ts t') (c.clo v vs v')
  members : ∀ L, d.members L = (Q.lams.lookup L).map (·.members)

section
variable {I : Ids} {Q : HProg V} {items : List (Nat × LUnit)}

theorem relVs_length : ∀ {ts : List (HVal V)} {vs}, relVs I Q items ts vs → ts.length = vs.length
  | [], [], _ => rfl
  | _ :: _, _ :: _, h => by
    simp only [relVs] at h
    simp only [List.length_cons, relVs_length h.2]
  | [], _ :: _, h => by simp only [relVs] at h
  | _ :: _, [], h => by simp only [relVs] at h

theorem relF_mem : ∀ {fs : List (Nat × HVal V)} {E x t}, relF I Q items fs E → (x, t) ∈ fs →
    ∃ v, E.lookup x = some v ∧ relV I Q items t v
  | (y, s) :: fs, E, x, t, h, hm => by
    simp only [relF] at h
    rcases List.mem_cons.mp hm with hm | hm
    · simp only [Prod.mk.injEq] at hm
      obtain ⟨rfl, rfl⟩ := hm
      exact h.1
    · exact relF_mem h.2 hm

theorem relV_datas : ∀ {ts : List (HVal V)} {vs}, relVs I Q items ts vs → hdatas ts = datas vs
  | [], [], _ => rfl
  | t :: ts, v :: vs, h => by
    simp only [relVs] at h
    have ih := relV_datas h.2
    cases t <;> cases v <;> simp only [relV] at h <;> try (exact h.1.elim)
    · simp only [hdatas, datas, ih, h.1]
    · rfl
    · rfl
  | [], _ :: _, h => by simp only [relVs] at h
  | _ :: _, [], h => by simp only [relVs] at h

theorem relVs_data : ∀ (vs : List V), relVs I Q items (vs.map .data) (vs.map .data)
  | [] => trivial
  | v :: vs => by
    simp only [List.map_cons, relVs, relV, true_and]
    exact relVs_data vs

theorem relVs_get : ∀ {ts : List (HVal V)} {vs} {i : Nat} {t v}, relVs I Q items ts vs →
    ts[i]? = some t → vs[i]? = some v → relV I Q items t v
  | [], [], i, t, v, _, h, _ => by simp at h
  | t :: ts, v :: vs, i, _, _, h, h1, h2 => by
    simp only [relVs] at h
    cases i with
    | zero =>
      simp only [List.getElem?_cons_zero, Option.some.injEq] at h1 h2
      subst h1 h2
      exact h.1
    | succ i =>
      simp only [List.getElem?_cons_succ] at h1 h2
      exact relVs_get h.2 h1 h2
  | [], _ :: _, _, _, _, h, _, _ => by simp only [relVs] at h
  | _ :: _, [], _, _, _, h, _, _ => by simp only [relVs] at h

/-! ## Generic parameters -/

theorem GenOk.gens {G ρ ρ'} (h : GenOk G ρ ρ') : ∀ {gs : List Nat}, (∀ g ∈ gs, g ∈ G) →
    ∃ is, gens ρ gs = some is ∧ hgens ρ' gs = some is
  | [], _ => ⟨[], rfl, rfl⟩
  | g :: gs, hm => by
    obtain ⟨i, h1, h2⟩ := h g (hm g (List.mem_cons_self ..))
    obtain ⟨is, h3, h4⟩ := GenOk.gens h (gs := gs) (fun g hg => hm g (List.mem_cons_of_mem _ hg))
    exact ⟨i :: is, by simp [Lambda.gens, h1, h3], by simp [hgens, h2, h4]⟩

theorem hgens_zip {ρ : List (Nat × Option Int)} : ∀ {G : List Nat} {is}, hgens ρ G = some is →
    G.length = is.length ∧ ∀ g ∈ G, (G.zip (is.map some)).lookup g = ρ.lookup g
  | [], is, h => by
    simp only [hgens, Option.some.injEq] at h
    subst h
    exact ⟨rfl, fun _ h => nomatch h⟩
  | g :: G, is, h => by
    simp only [hgens, Option.bind_eq_some_iff, Option.map_eq_some_iff] at h
    obtain ⟨i, ⟨o, h1, h2⟩, js, h3, rfl⟩ := h
    obtain ⟨hl, hz⟩ := hgens_zip h3
    refine ⟨by simp [hl], fun g' hg' => ?_⟩
    simp only [List.map_cons, List.zip_cons_cons, List.lookup_cons]
    by_cases he : g' = g
    · subst he
      simp only [beq_self_eq_true]
      rw [h1]
      simp only [id_eq] at h2
      rw [h2]
    · simp only [beq_eq_false_iff_ne.mpr he]
      rcases List.mem_cons.mp hg' with h' | h'
      · exact absurd h' he
      · exact hz g' h'

theorem lookup_append_none {α β : Type} [BEq α] {x : α} : ∀ {a b : List (α × β)}, a.lookup x = none →
    (a ++ b).lookup x = b.lookup x
  | [], _, _ => rfl
  | (y, v) :: a, b, h => by
    rw [List.lookup_cons] at h
    rw [List.cons_append, List.lookup_cons]
    split at h
    · cases h
    · rename_i hb
      exact lookup_append_none h

theorem lookup_zip_none {β : Type} {x : Nat} : ∀ {a : List Nat} {b : List β}, x ∉ a →
    (a.zip b).lookup x = none
  | [], _, _ => rfl
  | _ :: _, [], _ => rfl
  | y :: a, v :: b, h => by
    simp only [List.zip_cons_cons, List.lookup_cons]
    have : (x == y) = false := beq_eq_false_iff_ne.mpr fun e => h (by simp [e])
    rw [this]
    exact lookup_zip_none fun hm => h (List.mem_cons_of_mem _ hm)

/-- The generic parameters of the unit of a lambda. -/
theorem map_lookup : ∀ {a b G : List Nat}, b.Nodup → (∀ x ∈ a, x ∉ b) → b.length = G.length →
    (a ++ b).map (fun p => ((b.zip G).lookup p).getD p) = a ++ G := by
  have hb : ∀ {b G : List Nat}, b.Nodup → b.length = G.length →
      b.map (fun p => ((b.zip G).lookup p).getD p) = G := by
    intro b
    induction b with
    | nil => intro G _ h; cases G with
      | nil => rfl
      | cons => simp at h
    | cons x b ih =>
      intro G hn hl
      cases G with
      | nil => simp at hl
      | cons g G =>
        rw [List.nodup_cons] at hn
        simp only [List.map_cons, List.zip_cons_cons, List.lookup_cons, beq_self_eq_true,
          Option.getD_some, List.cons.injEq, true_and]
        rw [← ih (G := G) hn.2 (by simpa using hl)]
        apply List.map_congr_left
        intro p hp
        have : (p == x) = false := beq_eq_false_iff_ne.mpr fun e => hn.1 (e ▸ hp)
        simp only [this]
        have hih := ih (G := G) hn.2 (by simpa using hl)
        rw [hih]
  intro a b G hn hd hl
  rw [List.map_append, hb hn hl]
  congr 1
  conv => rhs; rw [← List.map_id a]
  apply List.map_congr_left
  intro p hp
  rw [lookup_zip_none (hd p hp)]
  rfl

/-! ## Patterns -/

/-- The environments after binding the variables of a pattern. -/
structure BExt (I : Ids) (Q : HProg V) (items : List (Nat × LUnit)) (st st' : St)
    (E : Env V) (F : HEnv V) (F' : HEnv V) (E' : Env V) : Prop where
  frame : ∀ n : Name, n.1 < st.next ∨ st'.next ≤ n.1 → F'.lookup n = F.lookup n
  res : ∀ x n, resolve x st'.scopes = some n →
    (n.1 < st.next ∧ resolve x st.scopes = some n ∧ E'.lookup x = E.lookup x) ∨
    (st.next ≤ n.1 ∧ ∃ v t, E'.lookup x = some v ∧ F'.lookup n = some t ∧ relV I Q items t v)

theorem BExt.refl {st st' : St} {E : Env V} {F : HEnv V} (h : EStep st st') (hi : st.Inv) :
    BExt I Q items st st' E F F E :=
  ⟨fun _ _ => rfl, fun x n hr => by
    rw [h.grow.resolve] at hr
    exact Or.inl ⟨(hi.scopes.resolve hr).1, hr, rfl⟩⟩

theorem BExt.trans {a b c : St} {E E' E'' : Env V} {F F' F'' : HEnv V}
    (hab : a.next ≤ b.next) (hbc : b.next ≤ c.next)
    (h : BExt I Q items a b E F F' E') (h' : BExt I Q items b c E' F' F'' E'') :
    BExt I Q items a c E F F'' E'' := by
  refine ⟨fun n hn => ?_, fun x n hr => ?_⟩
  · rw [h'.frame n (by omega), h.frame n (by omega)]
  · rcases h'.res x n hr with ⟨hlt, hr', he⟩ | ⟨hge, hrel⟩
    · rcases h.res x n hr' with ⟨hlt', hr'', he'⟩ | ⟨hge, v, t, h1, h2, h3⟩
      · exact Or.inl ⟨hlt', hr'', he.trans he'⟩
      · exact Or.inr ⟨hge, v, t, he.trans h1, (h'.frame n (Or.inl hlt)).trans h2, h3⟩
    · exact Or.inr ⟨Nat.le_trans hab hge, hrel⟩

theorem BExt.add {st : St} {E : Env V} {F : HEnv V} {x : Nat} {t v} (hi : st.Inv)
    (h : relV I Q items t v) :
    BExt I Q items st (st.add x).2 E F (((st.add x).1, t) :: F) ((x, v) :: E) := by
  rw [add_name]
  refine ⟨fun n hn => ?_, fun y n hr => ?_⟩
  · rw [add_next] at hn
    rw [List.lookup_cons]
    have : (n == (st.next, x)) = false := by
      rw [beq_eq_false_iff_ne]
      rintro rfl
      simp only at hn
      omega
    rw [this]
  · rcases add_resolve hr with ⟨rfl, rfl⟩ | ⟨hne, hr'⟩
    · exact Or.inr ⟨Nat.le_refl _, v, t, by simp, by simp, h⟩
    · refine Or.inl ⟨(hi.scopes.resolve hr').1, hr', ?_⟩
      rw [List.lookup_cons, beq_eq_false_iff_ne.mpr hne]

mutual
theorem bind_sim : ∀ {p : Pat} {st : St} {E : Env V} {F : HEnv V} {t v}, st.Inv →
    relV I Q items t v →
    OptRel (BExt I Q items st (visitP p st).2 E F) ((visitP p st).1.bind t F) (p.bind v E)
  | .wild, st, E, F, t, v, hi, h => by
    simp only [visitP, HPat.bind, Pat.bind]
    exact .refl (.refl hi) hi
  | .var x, st, E, F, t, v, hi, h => by
    simp only [visitP, HPat.bind, Pat.bind]
    have e := touch_step (x := x) hi
    exact (BExt.refl e hi).trans e.next (add_step e.inv).next (BExt.add e.inv h)
  | .bnd x p, st, E, F, t, v, hi, h => by
    simp only [visitP, HPat.bind, Pat.bind]
    have e := visitP_step (p := p) hi
    exact (bind_sim (p := p) hi h).map fun F' E' hb =>
      hb.trans e.next (add_step e.inv).next (BExt.add e.inv h)
  | .tup ps, st, E, F, t, v, hi, h => by
    simp only [visitP]
    cases t <;> cases v <;> simp only [relV] at h
    · trivial
    · simp only [HPat.bind, Pat.bind]
      exact binds_sim hi h
    · trivial
theorem binds_sim : ∀ {ps : List Pat} {st : St} {E : Env V} {F : HEnv V} {ts vs}, st.Inv →
    relVs I Q items ts vs →
    OptRel (BExt I Q items st (visitPs ps st).2 E F) (hbinds (visitPs ps st).1 ts F) (binds ps vs E)
  | [], st, E, F, ts, vs, hi, h => by
    cases ts <;> cases vs <;> simp only [relVs] at h
    · exact BExt.refl (.refl hi) hi
    · trivial
  | p :: ps, st, E, F, ts, vs, hi, h => by
    cases ts <;> cases vs <;> simp only [relVs] at h
    · trivial
    · simp only [visitPs, hbinds, binds]
      have e := visitP_step (p := p) hi
      exact (bind_sim (p := p) hi h.1).bind fun F' E' hb =>
        (binds_sim e.inv h.2).imp fun _ _ hb' => hb.trans e.next (visitPs_step e.inv).next hb'
end

theorem binds_length : ∀ {ps : List Pat} {vs : List (Val V)} {E}, ps.length ≠ vs.length →
    binds ps vs E = none
  | [], [], _, h => absurd rfl h
  | [], _ :: _, _, _ => rfl
  | _ :: _, [], _, _ => rfl
  | p :: ps, v :: vs, E, h => by
    simp only [binds]
    cases p.bind v E with
    | none => rfl
    | some E' => exact binds_length (by simpa using h)

/-- The arguments of a lambda, taken out of their tuple. -/
theorem args_sim {d : HCalls V} {ρ} {args : Name} {ts : List (HVal V)} :
    ∀ {ps : List Pat} {i : Nat} {st : St} {E : Env V} {F : HEnv V} {vs}, st.Inv →
    relVs I Q items (ts.drop i) vs → ps.length = vs.length →
    (visitPs ps st).2.next ≤ args.1 → F.lookup args = some (.tup ts) →
    OptRel (BExt I Q items st (visitPs ps st).2 E F)
      (hstms d ρ F (argBindings args i (visitPs ps st).1)) (binds ps vs E)
  | [], i, st, E, F, vs, hi, h, hl, _, _ => by
    cases vs with
    | nil => exact BExt.refl (.refl hi) hi
    | cons => simp at hl
  | p :: ps, i, st, E, F, vs, hi, h, hl, hn, ha => by
    cases vs with
    | nil => simp at hl
    | cons v vs =>
      cases hd : ts.drop i with
      | nil => rw [hd] at h; simp only [relVs] at h
      | cons t ts' =>
        have hg : ts[i]? = some t := by
          have := List.getElem?_drop (xs := ts) (i := i) (j := 0)
          rw [hd] at this
          simpa using this.symm
        have hd' : ts.drop (i + 1) = ts' := by
          rw [← List.tail_drop, hd]
          rfl
        rw [hd] at h
        simp only [relVs] at h
        simp only [visitPs] at hn ⊢
        simp only [argBindings, hstms, HExp.ev, ha, Option.bind_some, hg, binds]
        have e := visitP_step (p := p) hi
        have e' := visitPs_step (ps := ps) e.inv
        refine (bind_sim (p := p) hi h.1).bind fun F' E' hb => ?_
        refine (args_sim (i := i + 1) (st := (visitP p st).2) (F := F') (E := E') e.inv
          (hd' ▸ h.2) (by simpa using hl) hn ?_).imp fun _ _ hb' => hb.trans e.next e'.next hb'
        rw [hb.frame args (Or.inr (Nat.le_trans e'.next hn)), ha]

/-- The variables that a lambda captured, taken out of its struct. -/
theorem caps_sim {d : HCalls V} {ρ} {self : Name} {L targs} {fs : List (Nat × HVal V)} :
    ∀ {cs : List (Nat × Name)} {F : HEnv V}, F.lookup self = some (.str L targs fs) →
    (∀ c ∈ cs, c.2.2 = c.1 ∧ c.2 ≠ self ∧ (fs.lookup c.1).isSome) →
    ∃ F', hstms d ρ F (cs.map fun c => (HPat.var c.2, HExp.field (.var self) c.1)) = some F' ∧
      ∀ n, F'.lookup n = if n ∈ cs.map (·.2) then fs.lookup n.2 else F.lookup n
  | [], F, _, _ => ⟨F, rfl, fun n => by simp⟩
  | c :: cs, F, hs, hc => by
    obtain ⟨h1, h2, h3⟩ := hc c (List.mem_cons_self ..)
    obtain ⟨t, ht⟩ := Option.isSome_iff_exists.mp h3
    obtain ⟨F', hF, hl⟩ := caps_sim (cs := cs) (F := (c.2, t) :: F) (d := d) (ρ := ρ) (by
      rw [List.lookup_cons, beq_eq_false_iff_ne.mpr (Ne.symm h2)]; exact hs)
      (fun c hm => hc c (List.mem_cons_of_mem _ hm))
    refine ⟨F', ?_, fun n => ?_⟩
    · simp only [List.map_cons, hstms, HExp.ev, hs, Option.bind_some, ht, HPat.bind]
      exact hF
    · rw [hl n]
      by_cases hn : n ∈ cs.map (·.2)
      · simp only [hn, ite_true, List.map_cons, List.mem_cons, or_true]
      · rw [if_neg hn, List.lookup_cons]
        by_cases he : n = c.2
        · subst he
          simp only [beq_self_eq_true, List.map_cons, List.mem_cons, true_or, ite_true]
          rw [h1, ht]
        · simp only [beq_eq_false_iff_ne.mpr he]
          rw [if_neg]
          simp only [List.map_cons, List.mem_cons, not_or]
          exact ⟨he, hn⟩

theorem hstms_append {d : HCalls V} {ρ} : ∀ {a b : List (HPat × HExp V)} {F},
    hstms d ρ F (a ++ b) = (hstms d ρ F a).bind fun F' => hstms d ρ F' b
  | [], b, F => rfl
  | (p, e) :: a, b, F => by
    simp only [List.cons_append, hstms]
    cases e.ev d ρ F with
    | none => rfl
    | some v =>
      simp only [Option.bind_some]
      cases p.bind v F with
      | none => rfl
      | some F' =>
        simp only [Option.bind_some]
        exact hstms_append

/-! ## Expressions -/

theorem Agree.sub {E : Env V} {F ss ss' N N'} (h : Agree I Q items E F ss N)
    (hs : Grow ss ss') (hn : ∀ n ∈ N', n ∈ N) : Agree I Q items E F ss' N' :=
  fun x n hr hm => h x n (hs.resolve ▸ hr) (hn n hm)

theorem Fin.step {st st' : St} (h : Fin items st') (hs : Step st st') : Fin items st :=
  fun L u hl => h L u (hs.items L u hl)

theorem Code.left {a b : List (Nat × Repl V)} (h : Code Q items (a ++ b)) : Code Q items a :=
  fun x hx => h x (List.mem_append_left _ hx)
theorem Code.right {a b : List (Nat × Repl V)} (h : Code Q items (a ++ b)) : Code Q items b :=
  fun x hx => h x (List.mem_append_right _ hx)

theorem hevs_vars {d : HCalls V} {ρ} {E : Env V} {F : HEnv V} {caps : List (Nat × Name)}
    (h : ∀ c ∈ caps, ∃ v t, E.lookup c.1 = some v ∧ F.lookup c.2 = some t ∧ relV I Q items t v) :
    ∃ ts, hevs d ρ F (caps.map fun c => .var c.2) = some ts ∧ ts.length = caps.length ∧
      relF I Q items ((caps.map (·.1)).zip ts) E := by
  induction caps with
  | nil => exact ⟨[], rfl, rfl, by simp [relF]⟩
  | cons c caps ih =>
    obtain ⟨v, t, h1, h2, h3⟩ := h c (List.mem_cons_self ..)
    obtain ⟨ts, h4, h5, h6⟩ := ih fun c hc => h c (List.mem_cons_of_mem _ hc)
    refine ⟨t :: ts, by simp [hevs, HExp.ev, h2, h4], by simp [h5], ?_⟩
    simp only [List.map_cons, List.zip_cons_cons, relF]
    exact ⟨⟨v, h1, h3⟩, h6⟩

/-- The parts of what is made for a lambda. -/
theorem makeDef_parts {s c a : Nat} {G : List Nat} {clk ps caps} {ss : List (HPat × HExp V)} {r}
    {st st' : St} {h} (hd : (h, st') = makeDef s c a G clk ps caps ss r st) :
    ∃ (man outs : List Nat) (i : Nat), man.length = ps.length + 1 + caps.length ∧
      outs.length = G.length ∧ (∀ x ∈ man, x ∉ outs) ∧ outs.Nodup ∧ (∀ x ∈ man, st.next ≤ x) ∧
      st.next ≤ i ∧
      h = .lam st.next (ps.length + 1 + caps.length) (outs.zip G) clk ps caps ss r ∧
      st'.items.lookup st.next = some
        { tparams := man ++ outs, arity := ps.length, members := caps.map (·.1),
          inputs := lamInputs s c a i clk } := by
  unfold makeDef at hd
  simp only [Prod.mk.injEq] at hd
  obtain ⟨rfl, rfl⟩ := hd
  let tp := (List.range (ps.length + 1 + caps.length + G.length)).map (st.next + 1 + ·)
  have hnd : tp.Nodup := by
    refine List.Pairwise.map _ (R := (· ≠ ·)) ?_ List.nodup_range
    intro a b hne he
    omega
  have hsp : tp.take (ps.length + 1 + caps.length) ++ tp.drop (ps.length + 1 + caps.length) = tp := List.take_append_drop _ tp
  have hlen : tp.length = ps.length + 1 + caps.length + G.length := by simp [tp]
  refine ⟨tp.take (ps.length + 1 + caps.length), tp.drop (ps.length + 1 + caps.length), st.next + 1 + (ps.length + 1 + caps.length + G.length), ?_, ?_, ?_, ?_, ?_, by omega, rfl, ?_⟩
  · rw [List.length_take, hlen]; omega
  · rw [List.length_drop, hlen]; omega
  · rw [← hsp] at hnd
    intro x hx hx'
    exact (List.nodup_append.mp hnd).2.2 x hx x hx' rfl
  · rw [← hsp] at hnd
    exact (List.nodup_append.mp hnd).2.1
  · intro x hx
    have := List.mem_of_mem_take hx
    simp only [tp, List.mem_map] at this
    obtain ⟨j, _, rfl⟩ := this
    omega
  · simp only [List.lookup_cons, beq_self_eq_true, hsp]
    rfl

end
end Spade.Lambda

import Verif.Lambda.Model
/-!
# Scopes and captures
-/
namespace Spade.Lambda

/-- What a variable is resolved to. -/
def resolve (x : Nat) : List Scope → Option Name
  | [] => none
  | s :: ss => match s.vars.lookup x with
    | some n => some n
    | none => resolve x ss

/-- `x` resolves to `n`, and all barriers passed on the way know. -/
def Recorded (x : Nat) (n : Name) : List Scope → Prop
  | [] => False
  | s :: ss => s.vars.lookup x = some n ∨
      (s.vars.lookup x = none ∧ (∀ caps, s.barrier = some caps → (x, n) ∈ caps) ∧ Recorded x n ss)

/-- Captures are only added. -/
def BGrow (s t : Scope) : Prop :=
  match s.barrier, t.barrier with
  | none, none => True
  | some a, some b => ∀ c ∈ a, c ∈ b
  | _, _ => False

/-- Variables stay and captures are only added. -/
def Grow : List Scope → List Scope → Prop
  | [], [] => True
  | s :: ss, t :: ts => s.vars = t.vars ∧ BGrow s t ∧ Grow ss ts
  | _, _ => False

/-- The same, but variables numbered `lo` and up are added to the innermost scope. -/
def TGrow (lo : Nat) : List Scope → List Scope → Prop
  | [], [] => True
  | s :: ss, t :: ts => (∃ new, t.vars = new ++ s.vars ∧ ∀ e ∈ new, lo ≤ e.2.1) ∧ BGrow s t ∧ Grow ss ts
  | _, _ => False

/-- Names belong to their identifiers and are numbered below `next`; captures are what
they resolve to, and outer barriers know them. -/
def Inv (next : Nat) : List Scope → Prop
  | [] => True
  | s :: ss => (∀ e ∈ s.vars, e.2.1 < next ∧ e.2.2 = e.1) ∧
      (∀ caps, s.barrier = some caps → ∀ c ∈ caps, Recorded c.1 c.2 ss) ∧ Inv next ss

theorem mem_of_lookup {α : Type} : ∀ {l : List (Nat × α)} {x : Nat} {a : α},
    l.lookup x = some a → (x, a) ∈ l
  | [], _, _, h => by simp at h
  | (y, b) :: l, x, a, h => by
    rw [List.lookup_cons] at h
    split at h
    · rename_i hb
      injection h with h
      rw [beq_iff_eq] at hb
      rw [hb, h]
      exact List.mem_cons_self ..
    · exact List.mem_cons_of_mem _ (mem_of_lookup h)

theorem BGrow.refl (s : Scope) : BGrow s s := by
  unfold BGrow
  cases s.barrier <;> simp

theorem BGrow.trans {s t u : Scope} (h : BGrow s t) (h' : BGrow t u) : BGrow s u := by
  unfold BGrow at *
  cases hs : s.barrier <;> cases ht : t.barrier <;> cases hu : u.barrier <;>
    simp only [hs, ht, hu] at h h' ⊢
  exact fun c hc => h' c (h c hc)

theorem Grow.refl : ∀ ss, Grow ss ss
  | [] => trivial
  | s :: ss => ⟨rfl, .refl s, .refl ss⟩

theorem Grow.trans : ∀ {a b c}, Grow a b → Grow b c → Grow a c
  | [], [], [], _, _ => trivial
  | _ :: _, _ :: _, _ :: _, h, h' => ⟨h.1.trans h'.1, h.2.1.trans h'.2.1, h.2.2.trans h'.2.2⟩
  | [], _ :: _, _, h, _ => h.elim
  | _ :: _, [], _, h, _ => h.elim
  | [], [], _ :: _, _, h => h.elim
  | _ :: _, _ :: _, [], _, h => h.elim

theorem Grow.top {lo : Nat} : ∀ {a b}, Grow a b → TGrow lo a b
  | [], [], _ => trivial
  | _ :: _, _ :: _, h => ⟨⟨[], by simp [h.1], (fun _ h => nomatch h)⟩, h.2⟩
  | [], _ :: _, h => h.elim
  | _ :: _, [], h => h.elim

theorem TGrow.mono {lo lo' : Nat} (hl : lo' ≤ lo) : ∀ {a b}, TGrow lo a b → TGrow lo' a b
  | [], [], _ => trivial
  | _ :: _, _ :: _, ⟨⟨new, h, h1⟩, h'⟩ =>
    ⟨⟨new, h, fun e he => Nat.le_trans hl (h1 e he)⟩, h'⟩
  | [], _ :: _, h => h.elim
  | _ :: _, [], h => h.elim

theorem TGrow.trans {lo : Nat} : ∀ {a b c}, TGrow lo a b → TGrow lo b c → TGrow lo a c
  | [], [], [], _, _ => trivial
  | _ :: _, _ :: _, _ :: _, ⟨⟨n, h, h1⟩, h2, h3⟩, ⟨⟨n', h', h1'⟩, h2', h3'⟩ =>
    ⟨⟨n' ++ n, by rw [h', h, List.append_assoc], fun e he =>
      (List.mem_append.mp he).elim (h1' e) (h1 e)⟩, h2.trans h2', h3.trans h3'⟩
  | [], _ :: _, _, h, _ => h.elim
  | _ :: _, [], _, h, _ => h.elim
  | [], [], _ :: _, _, h => h.elim
  | _ :: _, _ :: _, [], _, h => h.elim

theorem Grow.resolve {x : Nat} : ∀ {a b}, Grow a b → resolve x b = resolve x a
  | [], [], _ => rfl
  | s :: ss, t :: ts, h => by
    simp only [Lambda.resolve, h.1, h.2.2.resolve]
  | [], _ :: _, h => h.elim
  | _ :: _, [], h => h.elim

theorem Recorded.resolve {x n} : ∀ {ss}, Recorded x n ss → Lambda.resolve x ss = some n
  | [], h => h.elim
  | s :: ss, h => by
    rcases h with h | ⟨h, _, h'⟩
    · simp only [Lambda.resolve, h]
    · simp only [Lambda.resolve, h, h'.resolve]

theorem Recorded.grow {x n} : ∀ {a b}, Recorded x n a → Grow a b → Recorded x n b
  | [], _, h, _ => h.elim
  | s :: ss, t :: ts, h, g => by
    rcases h with h | ⟨h, hc, h'⟩
    · exact Or.inl (g.1 ▸ h)
    · refine Or.inr ⟨g.1 ▸ h, fun caps hcaps => ?_, h'.grow g.2.2⟩
      have hb := g.2.1
      unfold BGrow at hb
      rw [hcaps] at hb
      cases hs : s.barrier with
      | none => simp only [hs] at hb
      | some a => simp only [hs] at hb; exact hb _ (hc a hs)
  | _ :: _, [], _, g => g.elim

theorem Inv.resolve {next x n} : ∀ {ss}, Inv next ss → Lambda.resolve x ss = some n →
    n.1 < next ∧ n.2 = x
  | [], _, h => by simp only [Lambda.resolve, reduceCtorEq] at h
  | s :: ss, hi, h => by
    simp only [Lambda.resolve] at h
    split at h
    · rename_i m hm
      injection h with h
      subst h
      exact hi.1 _ (mem_of_lookup hm)
    · exact Inv.resolve hi.2.2 h

theorem Inv.mono {next next'} (hl : next ≤ next') : ∀ {ss}, Inv next ss → Inv next' ss
  | [], _ => trivial
  | _ :: _, h => ⟨fun e he => ⟨Nat.lt_of_lt_of_le (h.1 e he).1 hl, (h.1 e he).2⟩, h.2.1, h.2.2.mono hl⟩

theorem look_some {x n} : ∀ {ss ss'}, look x ss = some (n, ss') → ∀ {next}, Inv next ss →
    Grow ss ss' ∧ Recorded x n ss' ∧ Inv next ss'
  | [], _, h, _, _ => by simp only [look, reduceCtorEq] at h
  | s :: ss, ss', h, next, hi => by
    simp only [look] at h
    cases hl : s.vars.lookup x with
    | some m =>
      rw [hl] at h
      simp only [Option.some.injEq, Prod.mk.injEq] at h
      obtain ⟨rfl, rfl⟩ := h
      exact ⟨.refl _, Or.inl hl, hi⟩
    | none =>
      rw [hl] at h
      rw [Option.map_eq_some_iff] at h
      obtain ⟨⟨m, ts⟩, ht, h⟩ := h
      simp only [Prod.mk.injEq] at h
      obtain ⟨rfl, rfl⟩ := h
      obtain ⟨hg, hr, hi'⟩ := look_some ht hi.2.2
      have hv : (s.touch x m).vars = s.vars := by
        unfold Scope.touch
        split
        · rfl
        · split <;> rfl
      unfold Scope.touch
      cases hb : s.barrier with
      | none =>
        simp only [hb]
        exact ⟨⟨rfl, .refl _, hg⟩, Or.inr ⟨hl, fun caps hc => (by simp [hb] at hc), hr⟩,
          hi.1, fun caps hc => (by simp [hb] at hc), hi'⟩
      | some caps =>
        simp only [hb]
        split
        · rename_i ha
          rw [List.any_eq_true] at ha
          obtain ⟨⟨y, n'⟩, hmem, hy⟩ := ha
          rw [beq_iff_eq] at hy
          simp only at hy
          subst hy
          have hn : n' = m := by
            have h1 := (hi.2.1 caps hb _ hmem).resolve
            have h2 := hr.resolve
            rw [hg.resolve, h1] at h2
            injection h2
          subst hn
          refine ⟨⟨rfl, .refl _, hg⟩, Or.inr ⟨hl, fun c hc => ?_, hr⟩, hi.1, fun c hc e he => ?_, hi'⟩
          · rw [hb] at hc; injection hc with hc; exact hc ▸ hmem
          · exact (hi.2.1 c hc e he).grow hg
        · refine ⟨⟨rfl, ?_, hg⟩, Or.inr ⟨hl, fun c hc => ?_, hr⟩, hi.1, fun c hc e he => ?_, hi'⟩
          · simp only [BGrow, hb]
            exact fun c hc => List.mem_append_left _ hc
          · simp only [Option.some.injEq] at hc
            subst hc
            simp
          · simp only [Option.some.injEq] at hc
            subst hc
            rcases List.mem_append.mp he with he | he
            · exact (hi.2.1 caps hb e he).grow hg
            · rw [List.mem_singleton] at he
              subst he
              exact hr

theorem look_isSome {x n} : ∀ {ss}, resolve x ss = some n → ∃ ss', look x ss = some (n, ss')
  | [], h => by simp only [resolve, reduceCtorEq] at h
  | s :: ss, h => by
    simp only [resolve] at h
    cases hl : s.vars.lookup x with
    | some m =>
      rw [hl] at h
      exact ⟨s :: ss, by simp only [look, hl]; rw [Option.some.inj h]⟩
    | none =>
      rw [hl] at h
      obtain ⟨ss', h'⟩ := look_isSome h
      exact ⟨s.touch x n :: ss', by simp only [look, hl, h', Option.map_some]⟩

/-! ## States -/

/-- The state is as it should be. -/
structure St.Inv (st : St) : Prop where
  scopes : Lambda.Inv st.next st.scopes
  items : ∀ e ∈ st.items, e.1 < st.next

/-- Numbers only grow and items stay. -/
structure Step (st st' : St) : Prop where
  next : st.next ≤ st'.next
  items : ∀ L u, st.items.lookup L = some u → st'.items.lookup L = some u

theorem Step.refl (st : St) : Step st st := ⟨Nat.le_refl _, fun _ _ h => h⟩
theorem Step.trans {a b c : St} (h : Step a b) (h' : Step b c) : Step a c :=
  ⟨Nat.le_trans h.next h'.next, fun L u hl => h'.items L u (h.items L u hl)⟩

/-- An expression has been visited. -/
structure EStep (st st' : St) : Prop extends Step st st' where
  grow : Grow st.scopes st'.scopes
  inv : st'.Inv

/-- A pattern or statement has been visited. -/
structure PStep (st st' : St) : Prop extends Step st st' where
  grow : TGrow st.next st.scopes st'.scopes
  inv : st'.Inv

theorem EStep.refl {st : St} (h : st.Inv) : EStep st st := ⟨.refl _, .refl _, h⟩
theorem EStep.trans {a b c : St} (h : EStep a b) (h' : EStep b c) : EStep a c :=
  ⟨h.toStep.trans h'.toStep, h.grow.trans h'.grow, h'.inv⟩
theorem EStep.pstep {a b : St} (h : EStep a b) : PStep a b := ⟨h.toStep, h.grow.top, h.inv⟩
theorem PStep.trans {a b c : St} (h : PStep a b) (h' : PStep b c) : PStep a c :=
  ⟨h.toStep.trans h'.toStep, h.grow.trans (h'.grow.mono h.next), h'.inv⟩

theorem touch_step {st : St} {x : Nat} (hi : st.Inv) : EStep st (st.touch x) := by
  unfold St.touch
  split
  · rename_i n ss h
    obtain ⟨hg, _, hi'⟩ := look_some h hi.scopes
    exact ⟨⟨Nat.le_refl _, fun _ _ h => h⟩, hg, ⟨hi', hi.items⟩⟩
  · exact .refl hi

theorem add_next (st : St) (x : Nat) : (st.add x).2.next = st.next + 1 := by
  unfold St.add
  split <;> rfl
theorem add_items (st : St) (x : Nat) : (st.add x).2.items = st.items := by
  unfold St.add
  split <;> rfl
theorem add_name (st : St) (x : Nat) : (st.add x).1 = (st.next, x) := by
  unfold St.add
  split <;> rfl

theorem touch_next (st : St) (x : Nat) : (st.touch x).next = st.next := by
  unfold St.touch
  split <;> rfl

theorem add_step {st : St} {x : Nat} (hi : st.Inv) : PStep st (st.add x).2 := by
  refine ⟨⟨by rw [add_next]; omega, fun _ _ h => by rw [add_items]; exact h⟩, ?_, ⟨?_, ?_⟩⟩
  · unfold St.add
    split
    · rename_i h; simp only [h, TGrow]
    · rename_i s ss h
      simp only [h]
      exact ⟨⟨[(x, (st.next, x))], rfl, fun e he => by
        rw [List.mem_singleton] at he; subst he; exact Nat.le_refl _⟩, .refl _, .refl _⟩
  · unfold St.add
    split
    · rename_i h; simp only [h, Lambda.Inv]
    · rename_i s ss h
      have hs := hi.scopes
      rw [h] at hs
      have hs' := hs.mono (Nat.le_succ st.next)
      refine ⟨fun e he => ?_, hs'.2.1, hs'.2.2⟩
      rcases List.mem_cons.mp he with rfl | he
      · exact ⟨Nat.lt_succ_self _, rfl⟩
      · exact hs'.1 e he
  · intro e he
    rw [add_items] at he
    rw [add_next]
    have := hi.items e he
    omega

/-- Resolution after adding a variable. -/
theorem add_resolve {st : St} {x y : Nat} {n : Name}
    (h : resolve y (st.add x).2.scopes = some n) :
    (y = x ∧ n = (st.next, x)) ∨ (y ≠ x ∧ resolve y st.scopes = some n) := by
  unfold St.add at h
  split at h
  · rename_i hs
    simp only [hs, resolve, reduceCtorEq] at h
  · rename_i s ss hs
    by_cases hy : y = x
    · subst hy
      simp only [resolve, List.lookup_cons, beq_self_eq_true, Option.some.injEq] at h
      exact Or.inl ⟨rfl, h.symm⟩
    · simp only [resolve, List.lookup_cons, beq_eq_false_iff_ne.mpr hy] at h
      exact Or.inr ⟨hy, by simp only [hs, resolve]; exact h⟩

mutual
theorem visitP_step : ∀ {p : Pat} {st : St}, st.Inv → PStep st (visitP p st).2
  | .wild, st, hi => (EStep.refl hi).pstep
  | .var x, st, hi => by
    simp only [visitP]
    have h := touch_step (x := x) hi
    exact h.pstep.trans (add_step h.inv)
  | .bnd x p, st, hi => by
    simp only [visitP]
    have h := visitP_step (p := p) hi
    exact h.trans (add_step h.inv)
  | .tup ps, st, hi => by
    simp only [visitP]
    exact visitPs_step hi
theorem visitPs_step : ∀ {ps : List Pat} {st : St}, st.Inv → PStep st (visitPs ps st).2
  | [], st, hi => (EStep.refl hi).pstep
  | p :: ps, st, hi => by
    simp only [visitPs]
    have h := visitP_step (p := p) hi
    exact h.trans (visitPs_step h.inv)
end

theorem visitPs_length : ∀ {ps : List Pat} {st : St}, (visitPs ps st).1.length = ps.length
  | [], _ => rfl
  | p :: ps, st => by simp only [visitPs, List.length_cons, visitPs_length]

/-! ## Blocks -/

/-- Open a scope. -/
def St.push (st : St) (b : Option (List (Nat × Name))) : St :=
  { st with scopes := { barrier := b } :: st.scopes }

theorem push_inv {st : St} (hi : st.Inv) : (st.push none).Inv :=
  ⟨⟨(fun _ h => nomatch h), (fun _ h => nomatch h), hi.scopes⟩, hi.items⟩

theorem push_inv' {st : St} (hi : st.Inv) : (st.push (some [])).Inv :=
  ⟨⟨(fun _ h => nomatch h), (fun caps h c hc => by injection h with h; subst h; cases hc), hi.scopes⟩,
    hi.items⟩

/-- The scope on top after `push` and what follows. -/
theorem close_step {st st' : St} {b} (h : PStep (st.push b) st') :
    ∃ s ss, st'.scopes = s :: ss ∧ st'.close = (s.barrier.getD [], { st' with scopes := ss }) ∧
      Grow st.scopes ss ∧ (∀ e ∈ s.vars, st.next ≤ e.2.1) ∧ BGrow { barrier := b } s ∧
      EStep st st'.close.2 := by
  have hg := h.grow
  unfold St.push at hg
  cases hs : st'.scopes with
  | nil => rw [hs] at hg; exact hg.elim
  | cons s ss =>
    rw [hs] at hg
    obtain ⟨⟨new, hn, hlo⟩, hb, hgr⟩ := hg
    have hc : st'.close = (s.barrier.getD [], { st' with scopes := ss }) := by
      simp only [St.close, hs]
    have hi := h.inv.scopes
    rw [hs] at hi
    refine ⟨s, ss, rfl, hc, hgr, fun e he => ?_, hb, ?_⟩
    · rw [hn, List.append_nil] at he
      exact hlo e he
    · rw [hc]
      exact ⟨⟨h.next, h.items⟩, hgr, ⟨hi.2.2, h.inv.items⟩⟩

/-! ## What is captured -/

section
variable {V : Type}

mutual
/-- The variables an expression needs from outside, and perhaps some it binds itself. -/
def hnames : HExp V → List Name
  | .var n => [n]
  | .prim _ _ args => hnamess args
  | .tup es => hnamess es
  | .call _ _ _ args => hnamess args
  | .lam _ _ _ _ _ caps _ _ => caps.map (·.2)
  | .make _ _ _ args => hnamess args
  | .proj e _ => hnames e
  | .field e _ => hnames e
  | .app f clk a => hnames f ++ hnamess clk ++ hnames a
  | .block ss r => hnamesS ss ++ hnames r
def hnamess : List (HExp V) → List Name
  | [] => []
  | e :: es => hnames e ++ hnamess es
def hnamesS : List (HPat × HExp V) → List Name
  | [] => []
  | (_, e) :: ss => hnames e ++ hnamesS ss
end

/-- All the names are known to the barriers or new. -/
def Known (lo : Nat) (N : List Name) (ss : List Scope) : Prop :=
  ∀ n ∈ N, lo ≤ n.1 ∨ Recorded n.2 n ss

theorem Known.grow {lo N a b} (h : Known lo N a) (g : Grow a b) : Known lo N b :=
  fun n hn => (h n hn).imp id (fun h => h.grow g)

theorem Known.append {lo N M a} (h : Known lo N a) (h' : Known lo M a) : Known lo (N ++ M) a :=
  fun n hn => (List.mem_append.mp hn).elim (h n) (h' n)

theorem Known.mono {lo lo' N a} (hl : lo' ≤ lo) (h : Known lo N a) : Known lo' N a :=
  fun n hn => (h n hn).imp (Nat.le_trans hl) id

/-- Names that are known inside a scope with new variables only, are known outside. -/
theorem Known.pop {lo N s ss} (h : Known lo N (s :: ss)) (hs : ∀ e ∈ s.vars, lo ≤ e.2.1) :
    Known lo N ss := by
  intro n hn
  rcases h n hn with h | h | ⟨_, _, h⟩
  · exact Or.inl h
  · exact Or.inl (hs _ (mem_of_lookup h))
  · exact Or.inr h

end
end Spade.Lambda

import Verif.GenIf.Model
/-!
# Lemmas about evaluation, absorption and lowering
-/
namespace Spade.GenIf
section
variable {V : Type}

/-- `g` gives at least what `f` gives, on the units of `p`. -/
def Below (p : Nat → Prop) (f g : Calls V) : Prop :=
  ∀ u, p u → ∀ ρ a v, f u ρ a = some v → g u ρ a = some v

mutual
theorem ev_mono {p} {f g : Calls V} (h : Below p f g) {ρ : Gens} : ∀ {e : Exp V} {E : Vars V} {v : V},
    e.Over p → e.ev f ρ E = some v → e.ev g ρ E = some v
  | .var x, E, v, _, he => by simpa only [Exp.ev] using he
  | .prim k args, E, v, ho, he => by
    simp only [Exp.Over] at ho
    simp only [Exp.ev, Option.bind_eq_some_iff] at he ⊢
    obtain ⟨vs, h1, h2⟩ := he
    exact ⟨vs, evs_mono h ho h1, h2⟩
  | .call u targs args, E, v, ho, he => by
    simp only [Exp.Over] at ho
    simp only [Exp.ev, Option.bind_eq_some_iff] at he ⊢
    obtain ⟨ρ', h1, vs, h2, h3⟩ := he
    exact ⟨ρ', h1, vs, evs_mono h ho.2 h2, h u ho.1 _ _ _ h3⟩
  | .gif c t e, E, v, ho, he => by
    simp only [Exp.Over] at ho
    simp only [Exp.ev, Option.bind_eq_some_iff] at he ⊢
    obtain ⟨b, h1, h2⟩ := he
    refine ⟨b, h1, ?_⟩
    split
    · rename_i hb; rw [if_pos hb] at h2; exact ev_mono h ho.1 h2
    · rename_i hb; rw [if_neg hb] at h2; exact ev_mono h ho.2 h2
  | .block ss r, E, v, ho, he => by
    simp only [Exp.Over] at ho
    simp only [Exp.ev, Option.bind_eq_some_iff] at he ⊢
    obtain ⟨E', h1, h2⟩ := he
    exact ⟨E', stms_mono h ho.1 h1, ev_mono h ho.2 h2⟩
theorem evs_mono {p} {f g : Calls V} (h : Below p f g) {ρ : Gens} :
    ∀ {es : List (Exp V)} {E : Vars V} {vs : List V},
    oversE p es → evs f ρ E es = some vs → evs g ρ E es = some vs
  | [], E, v, _, he => by simpa only [evs] using he
  | a :: as, E, v, ho, he => by
    simp only [oversE] at ho
    simp only [evs, Option.bind_eq_some_iff, Option.map_eq_some_iff] at he ⊢
    obtain ⟨x, h1, xs, h2, h3⟩ := he
    exact ⟨x, ev_mono h ho.1 h1, xs, evs_mono h ho.2 h2, h3⟩
theorem stms_mono {p} {f g : Calls V} (h : Below p f g) {ρ : Gens} :
    ∀ {ss : List (Stm V)} {E E' : Vars V},
    oversS p ss → stms f ρ E ss = some E' → stms g ρ E ss = some E'
  | [], E, v, _, he => by simpa only [stms] using he
  | .bind x e :: ss, E, v, ho, he => by
    simp only [oversS] at ho
    simp only [stms, Option.bind_eq_some_iff] at he ⊢
    obtain ⟨w, h1, h2⟩ := he
    exact ⟨w, ev_mono h ho.1 h1, stms_mono h ho.2 h2⟩
  | .reg k :: ss, E, v, ho, he => by
    simp only [oversS] at ho
    simp only [stms] at he ⊢
    exact stms_mono h ho he
end

mutual
theorem over_true : ∀ e : Exp V, e.Over (fun _ => True)
  | .var x => by simp only [Exp.Over]
  | .prim k args => by simp only [Exp.Over]; exact overE_true args
  | .call u targs args => by simp only [Exp.Over]; exact ⟨trivial, overE_true args⟩
  | .gif c t e => by simp only [Exp.Over]; exact ⟨over_true t, over_true e⟩
  | .block ss r => by simp only [Exp.Over]; exact ⟨overS_true ss, over_true r⟩
theorem overE_true : ∀ es : List (Exp V), oversE (fun _ => True) es
  | [] => by simp only [oversE]
  | a :: as => by simp only [oversE]; exact ⟨over_true a, overE_true as⟩
theorem overS_true : ∀ ss : List (Stm V), oversS (fun _ => True) ss
  | [] => by simp only [oversS]
  | .bind x e :: ss => by simp only [oversS]; exact ⟨over_true e, overS_true ss⟩
  | .reg k :: ss => by simp only [oversS]; exact overS_true ss
end

theorem run_iff {u : Unit V} {f : Calls V} {ρ : Gens} {args : List V} {v : V} :
    u.run f ρ args = some v ↔
    u.params.length = args.length ∧ u.deep ρ ∧ u.body.ev f ρ (u.params.zip args) = some v := by
  unfold Unit.run
  by_cases h : u.params.length = args.length ∧ u.deep ρ
  · rw [if_pos h]; exact ⟨fun e => ⟨h.1, h.2, e⟩, fun e => e.2.2⟩
  · rw [if_neg h]; exact ⟨fun e => (nomatch e), fun e => (h ⟨e.1, e.2.1⟩).elim⟩

theorem run_mono {p} {u : Unit V} {f g : Calls V} (h : Below p f g) (ho : u.body.Over p)
    {ρ : Gens} {args : List V} {v : V} (hr : u.run f ρ args = some v) :
    u.run g ρ args = some v := by
  rw [run_iff] at hr ⊢
  exact ⟨hr.1, hr.2.1, ev_mono h ho hr.2.2⟩

theorem calls_succ {P : Prog V} : ∀ n, Below (fun _ => True) (P.calls n) (P.calls (n + 1))
  | 0, u, _, ρ, a, v, h => by simp only [Prog.calls, reduceCtorEq] at h
  | n + 1, u, _, ρ, a, v, h => by
    rw [Prog.calls, Option.bind_eq_some_iff] at h ⊢
    obtain ⟨w, hw, hr⟩ := h
    exact ⟨w, hw, run_mono (calls_succ n) (over_true _) hr⟩

theorem calls_add {P : Prog V} (n k : Nat) :
    Below (fun _ => True) (P.calls n) (P.calls (n + k)) := by
  induction k with
  | zero => exact fun _ _ _ _ _ h => h
  | succ k ih => exact fun u _ ρ a v h => calls_succ (n + k) u trivial _ _ _ (ih u trivial _ _ _ h)

/-! ## Absorption -/

theorem stms_append {f : Calls V} {ρ : Gens} : ∀ (ss ts : List (Stm V)) (E : Vars V),
    stms f ρ E (ss ++ ts) = (stms f ρ E ss).bind fun E' => stms f ρ E' ts
  | [], ts, E => by simp only [List.nil_append, stms, Option.bind_some]
  | .bind x e :: ss, ts, E => by
    simp only [List.cons_append, stms]
    cases e.ev f ρ E with
    | none => rfl
    | some v => simp only [Option.bind_some]; exact stms_append ss ts _
  | .reg k :: ss, ts, E => by
    simp only [List.cons_append, stms]; exact stms_append ss ts _

theorem regs_append {ρ : Gens} : ∀ (ss ts : List (Stm V)),
    regs ρ (ss ++ ts) = regs ρ ss + regs ρ ts
  | [], ts => by simp [regs]
  | .bind x e :: ss, ts => by simp only [List.cons_append, regs, regs_append ss ts]
  | .reg k :: ss, ts => by simp only [List.cons_append, regs, regs_append ss ts]; omega

theorem wrap_ev {f : Calls V} {ρ : Gens} {E : Vars V} (e : Exp V) :
    (wrap e).ev f ρ E = e.ev f ρ E := by
  cases e <;> simp only [wrap]
  simp only [Exp.ev, stms, Option.bind_some]

theorem wrap_stages {ρ : Gens} (e : Exp V) : (wrap e).stages ρ = e.stages ρ := by
  cases e <;> simp only [wrap]
  simp only [Exp.stages, regs, Nat.zero_add, Option.map_id']

theorem absorb_ev {f : Calls V} {ρ : Gens} {E : Vars V} {ss : List (Stm V)} :
    ∀ {t t' : Exp V}, absorb ss t = some t' →
    t'.ev f ρ E = (stms f ρ E ss).bind fun E' => t.ev f ρ E'
  | .gif c t e, x, h => by
    simp only [absorb, Option.bind_eq_some_iff, Option.map_eq_some_iff] at h
    obtain ⟨t', ht, e', he, rfl⟩ := h
    simp only [Exp.ev, absorb_ev ht, absorb_ev he]
    cases c ρ with
    | none => cases stms f ρ E ss <;> rfl
    | some b => cases b <;> simp
  | .block ts r, x, h => by
    simp only [absorb, Option.some.injEq] at h
    subst h
    simp only [Exp.ev, stms_append, Option.bind_assoc]
  | .var _, x, h => by simp [absorb] at h
  | .prim _ _, x, h => by simp [absorb] at h
  | .call _ _ _, x, h => by simp [absorb] at h

theorem absorb_stages {ρ : Gens} {ss : List (Stm V)} :
    ∀ {t t' : Exp V}, absorb ss t = some t' →
    t'.stages ρ = (t.stages ρ).map fun n => regs ρ ss + n
  | .gif c t e, x, h => by
    simp only [absorb, Option.bind_eq_some_iff, Option.map_eq_some_iff] at h
    obtain ⟨t', ht, e', he, rfl⟩ := h
    simp only [Exp.stages, absorb_stages ht, absorb_stages he]
    cases c ρ with
    | none => rfl
    | some b => cases b <;> simp
  | .block ts r, x, h => by
    simp only [absorb, Option.some.injEq] at h
    subst h
    simp only [Exp.stages, regs_append, Option.map_map]
    congr 1
    funext n
    exact Nat.add_assoc ..
  | .var _, x, h => by simp [absorb] at h
  | .prim _ _, x, h => by simp [absorb] at h
  | .call _ _ _, x, h => by simp [absorb] at h

theorem noGifS_append : ∀ {ss ts : List (Stm V)}, noGifS ss → noGifS ts → noGifS (ss ++ ts)
  | [], ts, _, h => h
  | .bind x e :: ss, ts, h, h' => by
    simp only [List.cons_append, noGifS] at h ⊢; exact ⟨h.1, noGifS_append h.2 h'⟩
  | .reg k :: ss, ts, h, h' => by
    simp only [List.cons_append, noGifS] at h ⊢; exact noGifS_append h h'

theorem absorb_tail {ss : List (Stm V)} (hs : noGifS ss) :
    ∀ {t t' : Exp V}, absorb ss t = some t' → t.Tail → t'.Tail
  | .gif c t e, x, h, ht => by
    simp only [absorb, Option.bind_eq_some_iff, Option.map_eq_some_iff] at h
    obtain ⟨t', h1, e', h2, rfl⟩ := h
    simp only [Exp.Tail] at ht ⊢
    exact ⟨absorb_tail hs h1 ht.1, absorb_tail hs h2 ht.2⟩
  | .block ts r, x, h, ht => by
    simp only [absorb, Option.some.injEq] at h
    subst h
    simp only [Exp.Tail] at ht ⊢
    exact ⟨noGifS_append hs ht.1, ht.2⟩
  | .var _, x, h, _ => by simp [absorb] at h
  | .prim _ _, x, h, _ => by simp [absorb] at h
  | .call _ _ _, x, h, _ => by simp [absorb] at h

theorem wrap_tail {e : Exp V} (h : e.Tail) : (wrap e).Tail := by
  cases e <;> simp only [wrap] <;> try exact h
  simp only [Exp.Tail] at h ⊢
  exact ⟨by simp only [noGifS], Or.inr ⟨by simp only [Exp.IsGif], h⟩⟩

theorem wrap_isGif (e : Exp V) : ¬ (wrap e).IsGif := by
  cases e <;> simp [wrap, Exp.IsGif]

/-! ## Lowering -/

mutual
theorem lower_ev {f : Calls V} {ρ : Gens} : ∀ {ok : Bool} {e e' : Exp V} (E : Vars V),
    lower ρ ok e = some e' → e'.ev f ρ E = e.ev f ρ E
  | ok, .var x, e', E, h => by simp only [lower, Option.some.injEq] at h; subst h; rfl
  | ok, .prim k args, e', E, h => by
    simp only [lower, Option.map_eq_some_iff] at h
    obtain ⟨as, ha, rfl⟩ := h
    simp only [Exp.ev, lowerE_ev E ha]
  | ok, .call u targs args, e', E, h => by
    simp only [lower, Option.map_eq_some_iff] at h
    obtain ⟨as, ha, rfl⟩ := h
    simp only [Exp.ev, lowerE_ev E ha]
  | ok, .gif c t e, x, E, h => by
    simp only [lower, Option.bind_eq_some_iff] at h
    obtain ⟨t', ht, e', he, h⟩ := h
    split at h
    · obtain ⟨b, hb, rfl⟩ := Option.map_eq_some_iff.mp h
      simp only [Exp.ev, hb, Option.bind_some]
      cases b
      · exact lower_ev E he
      · exact lower_ev E ht
    · cases h
  | ok, .block ss r, x, E, h => by
    simp only [lower, Option.bind_eq_some_iff, Option.map_eq_some_iff] at h
    obtain ⟨ss', hs, r', hr, rfl⟩ := h
    simp only [Exp.ev, lowerS_ev E hs]
    congr 1
    funext E'
    exact lower_ev E' hr
theorem lowerE_ev {f : Calls V} {ρ : Gens} : ∀ {es es' : List (Exp V)} (E : Vars V),
    lowerE ρ es = some es' → evs f ρ E es' = evs f ρ E es
  | [], _, E, h => by simp only [lowerE, Option.some.injEq] at h; subst h; rfl
  | a :: as, x, E, h => by
    simp only [lowerE, Option.bind_eq_some_iff, Option.map_eq_some_iff] at h
    obtain ⟨a', ha, as', has, rfl⟩ := h
    simp only [evs, lower_ev E ha, lowerE_ev E has]
theorem lowerS_ev {f : Calls V} {ρ : Gens} : ∀ {ok : Bool} {ss ss' : List (Stm V)} (E : Vars V),
    lowerS ρ ok ss = some ss' → stms f ρ E ss' = stms f ρ E ss
  | _, [], _, E, h => by simp only [lowerS, Option.some.injEq] at h; subst h; rfl
  | _, .bind y e :: ss, x, E, h => by
    simp only [lowerS, Option.bind_eq_some_iff, Option.map_eq_some_iff] at h
    obtain ⟨e', he, ss', hs, rfl⟩ := h
    simp only [stms, lower_ev E he]
    congr 1
    funext v
    exact lowerS_ev _ hs
  | _, .reg k :: ss, x, E, h => by
    simp only [lowerS, Option.map_eq_some_iff] at h
    obtain ⟨ss', hs, rfl⟩ := h
    simp only [stms, lowerS_ev _ hs]
end

theorem lowerS_regs {ρ : Gens} : ∀ {ok : Bool} {ss ss' : List (Stm V)},
    lowerS ρ ok ss = some ss' → regs ρ ss' = regs ρ ss
  | _, [], _, h => by simp only [lowerS, Option.some.injEq] at h; subst h; rfl
  | _, .bind y e :: ss, x, h => by
    simp only [lowerS, Option.bind_eq_some_iff, Option.map_eq_some_iff] at h
    obtain ⟨e', he, ss', hs, rfl⟩ := h
    simp only [regs, lowerS_regs hs]
  | _, .reg k :: ss, x, h => by
    simp only [lowerS, Option.map_eq_some_iff] at h
    obtain ⟨ss', hs, rfl⟩ := h
    simp only [regs, lowerS_regs hs]

theorem lower_stages {ρ : Gens} : ∀ {ok : Bool} {e e' : Exp V},
    lower ρ ok e = some e' → e'.stages ρ = e.stages ρ
  | ok, .var x, e', h => by simp only [lower, Option.some.injEq] at h; subst h; rfl
  | ok, .prim k args, e', h => by
    simp only [lower, Option.map_eq_some_iff] at h
    obtain ⟨as, ha, rfl⟩ := h
    simp only [Exp.stages]
  | ok, .call u targs args, e', h => by
    simp only [lower, Option.map_eq_some_iff] at h
    obtain ⟨as, ha, rfl⟩ := h
    simp only [Exp.stages]
  | ok, .gif c t e, x, h => by
    simp only [lower, Option.bind_eq_some_iff] at h
    obtain ⟨t', ht, e', he, h⟩ := h
    split at h
    · obtain ⟨b, hb, rfl⟩ := Option.map_eq_some_iff.mp h
      simp only [Exp.stages, hb, Option.bind_some]
      cases b
      · exact lower_stages he
      · exact lower_stages ht
    · cases h
  | ok, .block ss r, x, h => by
    simp only [lower, Option.bind_eq_some_iff, Option.map_eq_some_iff] at h
    obtain ⟨ss', hs, r', hr, rfl⟩ := h
    simp only [Exp.stages, lowerS_regs hs, lower_stages hr]

mutual
theorem lower_noGif {ρ : Gens} : ∀ {ok : Bool} {e e' : Exp V},
    lower ρ ok e = some e' → e'.NoGif
  | ok, .var x, e', h => by
    simp only [lower, Option.some.injEq] at h; subst h; simp only [Exp.NoGif]
  | ok, .prim k args, e', h => by
    simp only [lower, Option.map_eq_some_iff] at h
    obtain ⟨as, ha, rfl⟩ := h
    simp only [Exp.NoGif]; exact lowerE_noGif ha
  | ok, .call u targs args, e', h => by
    simp only [lower, Option.map_eq_some_iff] at h
    obtain ⟨as, ha, rfl⟩ := h
    simp only [Exp.NoGif]; exact lowerE_noGif ha
  | ok, .gif c t e, x, h => by
    simp only [lower, Option.bind_eq_some_iff] at h
    obtain ⟨t', ht, e', he, h⟩ := h
    split at h
    · obtain ⟨b, hb, rfl⟩ := Option.map_eq_some_iff.mp h
      cases b
      · exact lower_noGif he
      · exact lower_noGif ht
    · cases h
  | ok, .block ss r, x, h => by
    simp only [lower, Option.bind_eq_some_iff, Option.map_eq_some_iff] at h
    obtain ⟨ss', hs, r', hr, rfl⟩ := h
    simp only [Exp.NoGif]; exact ⟨lowerS_noGif hs, lower_noGif hr⟩
theorem lowerE_noGif {ρ : Gens} : ∀ {es es' : List (Exp V)},
    lowerE ρ es = some es' → noGifE es'
  | [], _, h => by simp only [lowerE, Option.some.injEq] at h; subst h; simp only [noGifE]
  | a :: as, x, h => by
    simp only [lowerE, Option.bind_eq_some_iff, Option.map_eq_some_iff] at h
    obtain ⟨a', ha, as', has, rfl⟩ := h
    simp only [noGifE]; exact ⟨lower_noGif ha, lowerE_noGif has⟩
theorem lowerS_noGif {ρ : Gens} : ∀ {ok : Bool} {ss ss' : List (Stm V)},
    lowerS ρ ok ss = some ss' → noGifS ss'
  | _, [], _, h => by simp only [lowerS, Option.some.injEq] at h; subst h; simp only [noGifS]
  | _, .bind y e :: ss, x, h => by
    simp only [lowerS, Option.bind_eq_some_iff, Option.map_eq_some_iff] at h
    obtain ⟨e', he, ss', hs, rfl⟩ := h
    simp only [noGifS]; exact ⟨lower_noGif he, lowerS_noGif hs⟩
  | _, .reg k :: ss, x, h => by
    simp only [lowerS, Option.map_eq_some_iff] at h
    obtain ⟨ss', hs, rfl⟩ := h
    simp only [noGifS]; exact lowerS_noGif hs
end

mutual
/-- Lowering leaves expressions without `gen if` alone. -/
theorem lower_id {ρ : Gens} : ∀ {ok : Bool} {e : Exp V}, e.NoGif → lower ρ ok e = some e
  | ok, .var x, _ => by simp only [lower]
  | ok, .prim k args, h => by
    simp only [Exp.NoGif] at h; simp only [lower, lowerE_id h, Option.map_some]
  | ok, .call u targs args, h => by
    simp only [Exp.NoGif] at h; simp only [lower, lowerE_id h, Option.map_some]
  | ok, .gif c t e, h => by simp only [Exp.NoGif] at h
  | ok, .block ss r, h => by
    simp only [Exp.NoGif] at h
    simp only [lower, lowerS_id h.1, lower_id h.2, Option.map_some, Option.bind_some]
theorem lowerE_id {ρ : Gens} : ∀ {es : List (Exp V)}, noGifE es → lowerE ρ es = some es
  | [], _ => by simp only [lowerE]
  | a :: as, h => by
    simp only [noGifE] at h
    simp only [lowerE, lower_id h.1, lowerE_id h.2, Option.map_some, Option.bind_some]
theorem lowerS_id {ρ : Gens} : ∀ {ok : Bool} {ss : List (Stm V)}, noGifS ss → lowerS ρ ok ss = some ss
  | _, [], _ => by simp only [lowerS]
  | _, .bind y e :: ss, h => by
    simp only [noGifS] at h
    simp only [lowerS, lower_id h.1, lowerS_id h.2, Option.map_some, Option.bind_some]
  | _, .reg k :: ss, h => by
    simp only [noGifS] at h
    simp only [lowerS, lowerS_id h, Option.map_some]
end

end
end Spade.GenIf

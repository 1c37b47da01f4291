import Verif.Method.Model
/-!
# Overlap of headers and types
-/
namespace Spade.Method
open Spade.Impl

variable {al : Nat → Option TySpec}

theorem andThen3_yes {a b} (h : andThen3 a b = some .yes) : a = some .yes ∧ b = some .yes := by
  match a, b, h with
  | some .yes, some .yes, _ => exact ⟨rfl, rfl⟩

theorem andThen3_no {a b} (h : andThen3 a b = some .no) :
    a = some .no ∨ (a = some .yes ∧ b = some .no) := by
  match a, b, h with
  | some .no, _, _ => exact .inl rfl
  | some .yes, some .no, _ => exact .inr ⟨rfl, rfl⟩

theorem andThen3_maybe {a b} (h : andThen3 a b = some .maybe) :
    a = some .maybe ∨ b = some .maybe := by
  match a, b, h with
  | some .maybe, _, _ => exact .inl rfl
  | some .yes, some .maybe, _ => exact .inr rfl

theorem both_eq {a b o} (h : both a b = some o) : andThen3 a b = some o := by
  match a, b, h with
  | some _, some _, h => exact h

theorem both_some {a b o} (h : both a b = some o) : ∃ x y, a = some x ∧ b = some y := by
  match a, b, h with
  | some x, some y, _ => exact ⟨x, y, rfl, rfl⟩

theorem compls_length {τ} : ∀ {ts : List RTy} {cs}, Compls τ ts cs → ts.length = cs.length
  | _, _, .nil => rfl
  | _, _, .cons _ h => by simp [compls_length h]

theorem instEs_length {σ} : ∀ {ts : List TyExpr} {cs}, InstEs al σ ts cs → ts.length = cs.length
  | _, _, .nil => rfl
  | _, _, .cons _ h => by simp [instEs_length h]

theorem instSs_length {σ} : ∀ {ts : List TySpec} {cs}, InstSs al σ ts cs → ts.length = cs.length
  | _, _, .nil => rfl
  | _, _, .cons _ h => by simp [instSs_length h]

theorem refines_length {τ} : ∀ {ts : List RTy}, (refines τ ts).length = ts.length
  | [] => rfl
  | _ :: ts => by simp [refines, refines_length (ts := ts)]

/-! ## `no` means that the header never applies -/

mutual
theorem no_sound {σ τ} : ∀ (s : TySpec) (t : RTy) (c : Con), HeadS al s → Compl τ t c →
    InstS al σ s c → specOverlap s t ≠ some .no
  | .generic _, _, _, _, _, _ => by simp [specOverlap]
  | .declared n as, t, c, h, hc, hi => by
    obtain ⟨cs, rfl, hj⟩ := hi.named_inv h.1
    cases hc with
    | unknown => simp [specOverlap]
    | @named _ ts _ hc =>
      have hl : as.length = ts.length := by rw [instEs_length hj, compls_length hc]
      simp only [specOverlap, hl, if_true]
      exact nos_sound as ts cs h.2 hc hj
  | .tuple ss, t, c, h, hc, hi => by
    cases hi with
    | tuple hi => cases hc with
      | unknown => simp [specOverlap]
      | @tuple ts cs hc =>
        have hl : ss.length = ts.length := by rw [instSs_length hi, compls_length hc]
        simp only [specOverlap, hl, if_true]
        exact nosS_sound ss ts _ h hc hi
  | .array a e, t, c, h, hc, hi => by
    cases hi with
    | array h1 h2 => cases hc with
      | unknown => simp [specOverlap]
      | array c1 c2 =>
        simp only [specOverlap]
        intro hn
        rcases andThen3_no (both_eq hn) with h3 | ⟨_, h3⟩
        · exact no_sound a _ _ h.1 c1 h1 h3
        · exact noE_sound e _ _ h.2 c2 h2 h3
  | .inverted a, t, c, h, hc, hi => by
    cases hi with
    | inverted h1 => cases hc with
      | unknown => simp [specOverlap]
      | inverted c1 =>
        simp only [specOverlap]
        exact no_sound a _ _ h c1 h1
  | .copyView a, t, c, h, hc, hi => by
    cases hi with
    | copyView h1 => cases hc with
      | unknown => simp [specOverlap]
      | copyView c1 =>
        simp only [specOverlap]
        exact no_sound a _ _ h c1 h1
  | .traitSelf, _, _, h, _, _ | .wildcard, _, _, h, _, _ => h.elim
theorem noE_sound {σ τ} : ∀ (s : TyExpr) (t : RTy) (c : Con), HeadE al s → Compl τ t c →
    InstE al σ s c → exprOverlap s t ≠ some .no
  | .bool _, _, _, _, hc, hi | .int _, _, _, _, hc, hi | .str _, _, _, _, hc, hi => by
    cases hi; cases hc <;> simp [exprOverlap]
  | .spec s, t, c, h, hc, hi => by
    cases hi with
    | spec hi => simpa only [exprOverlap] using no_sound s t c h hc hi
  | .constGeneric, _, _, h, _, _ => h.elim
theorem nos_sound {σ τ} : ∀ (s : List TyExpr) (t : List RTy) (c : List Con), HeadEs al s →
    Compls τ t c → InstEs al σ s c → exprOverlaps s t ≠ some .no
  | [], _, _, _, _, _ => by simp [exprOverlaps]
  | s :: ss, t, c, h, hc, hi => by
    cases hi with
    | cons i1 i2 => cases hc with
      | cons c1 c2 =>
        simp only [exprOverlaps]
        intro hn
        rcases andThen3_no hn with h3 | ⟨_, h3⟩
        · exact noE_sound s _ _ h.1 c1 i1 h3
        · exact nos_sound ss _ _ h.2 c2 i2 h3
theorem nosS_sound {σ τ} : ∀ (s : List TySpec) (t : List RTy) (c : List Con), HeadSs al s →
    Compls τ t c → InstSs al σ s c → specOverlaps s t ≠ some .no
  | [], _, _, _, _, _ => by simp [specOverlaps]
  | s :: ss, t, c, h, hc, hi => by
    cases hi with
    | cons i1 i2 => cases hc with
      | cons c1 c2 =>
        simp only [specOverlaps]
        intro hn
        rcases andThen3_no hn with h3 | ⟨_, h3⟩
        · exact no_sound s _ _ h.1 c1 i1 h3
        · exact nosS_sound ss _ _ h.2 c2 i2 h3
end

/-! ## `yes` means that it always applies -/

mutual
theorem instS_congr {σ σ'} : ∀ (s : TySpec) (c : Con), HeadS al s → (∀ g ∈ gensS s, σ g = σ' g) →
    InstS al σ s c → InstS al σ' s c
  | .generic g, c, _, he, hi => by
    cases hi
    rw [he g (by simp [gensS])]
    exact .generic g
  | .declared n as, c, h, he, hi => by
    obtain ⟨cs, rfl, hj⟩ := hi.named_inv h.1
    exact .named h.1 (instEs_congr as cs h.2 he hj)
  | .tuple ss, c, h, he, hi => by
    cases hi with
    | tuple hi => exact .tuple (instSs_congr ss _ h he hi)
  | .array a e, c, h, he, hi => by
    simp only [gensS, List.mem_append, or_imp, forall_and] at he
    cases hi with
    | array h1 h2 => exact .array (instS_congr a _ h.1 he.1 h1) (instE_congr e _ h.2 he.2 h2)
  | .inverted a, c, h, he, hi => by
    cases hi with
    | inverted h1 => exact .inverted (instS_congr a _ h he h1)
  | .copyView a, c, h, he, hi => by
    cases hi with
    | copyView h1 => exact .copyView (instS_congr a _ h he h1)
  | .traitSelf, _, h, _, _ | .wildcard, _, h, _, _ => h.elim
theorem instE_congr {σ σ'} : ∀ (s : TyExpr) (c : Con), HeadE al s → (∀ g ∈ gensE s, σ g = σ' g) →
    InstE al σ s c → InstE al σ' s c
  | .bool _, _, _, _, .bool _ => .bool _
  | .int _, _, _, _, .int _ => .int _
  | .str _, _, _, _, .str _ => .str _
  | .spec s, c, h, he, hi => by
    cases hi with
    | spec hi => exact .spec (instS_congr s c h he hi)
  | .constGeneric, _, h, _, _ => h.elim
theorem instEs_congr {σ σ'} : ∀ (s : List TyExpr) (c : List Con), HeadEs al s →
    (∀ g ∈ gensEs s, σ g = σ' g) → InstEs al σ s c → InstEs al σ' s c
  | [], _, _, _, .nil => .nil
  | s :: ss, _, h, he, .cons h1 h2 => by
    simp only [gensEs, List.mem_append, or_imp, forall_and] at he
    exact .cons (instE_congr s _ h.1 he.1 h1) (instEs_congr ss _ h.2 he.2 h2)
theorem instSs_congr {σ σ'} : ∀ (s : List TySpec) (c : List Con), HeadSs al s →
    (∀ g ∈ gensSs s, σ g = σ' g) → InstSs al σ s c → InstSs al σ' s c
  | [], _, _, _, .nil => .nil
  | s :: ss, _, h, he, .cons h1 h2 => by
    simp only [gensSs, List.mem_append, or_imp, forall_and] at he
    exact .cons (instS_congr s _ h.1 he.1 h1) (instSs_congr ss _ h.2 he.2 h2)
end

/-- Take `σ` on the generics `l`, `σ'` elsewhere. -/
def glue (l : List Nat) (σ σ' : Nat → Con) (g : Nat) : Con := if g ∈ l then σ g else σ' g

theorem glue_left {l : List Nat} {σ σ' : Nat → Con} : ∀ g ∈ l, σ g = glue l σ σ' g := by
  intro g hg
  simp [glue, hg]

theorem glue_right {l l' : List Nat} {σ σ' : Nat → Con} (hd : (l ++ l').Nodup) :
    ∀ g ∈ l', σ' g = glue l σ σ' g := by
  intro g hg
  have : g ∉ l := fun h => (List.nodup_append.1 hd).2.2 g h g hg rfl
  simp [glue, this]

mutual
theorem yes_sound {τ} : ∀ (s : TySpec) (t : RTy) (c : Con), HeadS al s → (gensS s).Nodup →
    Compl τ t c → specOverlap s t = some .yes → ∃ σ, InstS al σ s c
  | .generic g, _, c, _, _, _, _ => ⟨fun _ => c, .generic g⟩
  | .declared n as, t, c, h, hd, hc, ho => by
    cases hc with
    | @named m ts cs hc =>
      simp only [specOverlap] at ho
      split at ho
      · split at ho
        · rename_i hn hl
          subst hn
          obtain ⟨σ, hσ⟩ := yess_sound as ts cs h.2 hd hc hl ho
          exact ⟨σ, .named h.1 hσ⟩
        · cases ho
      · cases ho
    | _ => simp [specOverlap] at ho
  | .tuple ss, t, c, h, hd, hc, ho => by
    cases hc with
    | @tuple ts cs hc =>
      simp only [specOverlap] at ho
      split at ho
      · rename_i hl
        obtain ⟨σ, hσ⟩ := yessS_sound ss ts cs h hd hc hl ho
        exact ⟨σ, .tuple hσ⟩
      · cases ho
    | _ => simp [specOverlap] at ho
  | .array a e, t, c, h, hd, hc, ho => by
    cases hc with
    | array c1 c2 =>
      simp only [specOverlap] at ho
      obtain ⟨h1, h2⟩ := andThen3_yes (both_eq ho)
      simp only [gensS] at hd
      obtain ⟨σ1, i1⟩ := yes_sound a _ _ h.1 (List.nodup_append.1 hd).1 c1 h1
      obtain ⟨σ2, i2⟩ := yesE_sound e _ _ h.2 (List.nodup_append.1 hd).2.1 c2 h2
      exact ⟨glue (gensS a) σ1 σ2, .array (instS_congr a _ h.1 glue_left i1)
        (instE_congr e _ h.2 (glue_right hd) i2)⟩
    | _ => simp [specOverlap] at ho
  | .inverted a, t, c, h, hd, hc, ho => by
    cases hc with
    | inverted c1 =>
      simp only [specOverlap] at ho
      obtain ⟨σ, i⟩ := yes_sound a _ _ h hd c1 ho
      exact ⟨σ, .inverted i⟩
    | _ => simp [specOverlap] at ho
  | .copyView a, t, c, h, hd, hc, ho => by
    cases hc with
    | copyView c1 =>
      simp only [specOverlap] at ho
      obtain ⟨σ, i⟩ := yes_sound a _ _ h hd c1 ho
      exact ⟨σ, .copyView i⟩
    | _ => simp [specOverlap] at ho
  | .traitSelf, _, _, h, _, _, _ | .wildcard, _, _, h, _, _, _ => h.elim
theorem yesE_sound {τ} : ∀ (s : TyExpr) (t : RTy) (c : Con), HeadE al s → (gensE s).Nodup →
    Compl τ t c → exprOverlap s t = some .yes → ∃ σ, InstE al σ s c
  | .bool b, _, _, _, _, hc, ho => by
    cases hc <;> simp [exprOverlap] at ho
    subst ho
    exact ⟨fun _ => .bool b, .bool b⟩
  | .int b, _, _, _, _, hc, ho => by
    cases hc <;> simp [exprOverlap] at ho
    subst ho
    exact ⟨fun _ => .int b, .int b⟩
  | .str b, _, _, _, _, hc, ho => by
    cases hc <;> simp [exprOverlap] at ho
    subst ho
    exact ⟨fun _ => .str b, .str b⟩
  | .spec s, t, c, h, hd, hc, ho => by
    simp only [exprOverlap] at ho
    obtain ⟨σ, i⟩ := yes_sound s t c h hd hc ho
    exact ⟨σ, .spec i⟩
  | .constGeneric, _, _, h, _, _, _ => h.elim
theorem yess_sound {τ} : ∀ (s : List TyExpr) (t : List RTy) (c : List Con), HeadEs al s →
    (gensEs s).Nodup → Compls τ t c → s.length = t.length → exprOverlaps s t = some .yes →
    ∃ σ, InstEs al σ s c
  | [], _, _, _, _, .nil, _, _ => ⟨fun _ => .bool true, .nil⟩
  | s :: ss, _, _, h, hd, .cons c1 c2, hl, ho => by
    simp only [exprOverlaps] at ho
    obtain ⟨h1, h2⟩ := andThen3_yes ho
    simp only [gensEs] at hd
    obtain ⟨σ1, i1⟩ := yesE_sound s _ _ h.1 (List.nodup_append.1 hd).1 c1 h1
    obtain ⟨σ2, i2⟩ := yess_sound ss _ _ h.2 (List.nodup_append.1 hd).2.1 c2 (by simpa using hl) h2
    exact ⟨glue (gensE s) σ1 σ2, .cons (instE_congr s _ h.1 glue_left i1)
      (instEs_congr ss _ h.2 (glue_right hd) i2)⟩
  | [], _, _, _, _, .cons _ _, hl, _ => by simp at hl
  | _ :: _, _, _, _, _, .nil, hl, _ => by simp at hl
theorem yessS_sound {τ} : ∀ (s : List TySpec) (t : List RTy) (c : List Con), HeadSs al s →
    (gensSs s).Nodup → Compls τ t c → s.length = t.length → specOverlaps s t = some .yes →
    ∃ σ, InstSs al σ s c
  | [], _, _, _, _, .nil, _, _ => ⟨fun _ => .bool true, .nil⟩
  | s :: ss, _, _, h, hd, .cons c1 c2, hl, ho => by
    simp only [specOverlaps] at ho
    obtain ⟨h1, h2⟩ := andThen3_yes ho
    simp only [gensSs] at hd
    obtain ⟨σ1, i1⟩ := yes_sound s _ _ h.1 (List.nodup_append.1 hd).1 c1 h1
    obtain ⟨σ2, i2⟩ := yessS_sound ss _ _ h.2 (List.nodup_append.1 hd).2.1 c2 (by simpa using hl) h2
    exact ⟨glue (gensS s) σ1 σ2, .cons (instS_congr s _ h.1 glue_left i1)
      (instSs_congr ss _ h.2 (glue_right hd) i2)⟩
  | [], _, _, _, _, .cons _ _, hl, _ => by simp at hl
  | _ :: _, _, _, _, _, .nil, hl, _ => by simp at hl
end

/-! ## More knowledge does not change a definite answer -/

/-- The answer is the same, or there is a panic. -/
def SameOr (a : Option Overlap) (o : Overlap) : Prop := a = some o ∨ a = none

theorem sameOr_andThen {a b a' b' : Option Overlap} {o : Overlap} (ho : o ≠ .maybe)
    (h : andThen3 a b = some o) (ha : ∀ o, o ≠ .maybe → a = some o → SameOr a' o)
    (hb : ∀ o, o ≠ .maybe → b = some o → SameOr b' o) : SameOr (andThen3 a' b') o := by
  cases o with
  | maybe => exact absurd rfl ho
  | yes =>
    obtain ⟨h1, h2⟩ := andThen3_yes h
    rcases ha _ ho h1 with h3 | h3
    · rcases hb _ ho h2 with h4 | h4
      · rw [h3, h4]; exact .inl rfl
      · rw [h3, h4]; exact .inr rfl
    · rw [h3]; exact .inr rfl
  | no =>
    rcases andThen3_no h with h1 | ⟨h1, h2⟩
    · rcases ha _ ho h1 with h3 | h3 <;> rw [h3]
      · exact .inl rfl
      · exact .inr rfl
    · rcases ha _ (by simp) h1 with h3 | h3
      · rcases hb _ ho h2 with h4 | h4
        · rw [h3, h4]; exact .inl rfl
        · rw [h3, h4]; exact .inr rfl
      · rw [h3]; exact .inr rfl

theorem sameOr_both {a b a' b' : Option Overlap} {o : Overlap} (ho : o ≠ .maybe)
    (h : both a b = some o) (ha : ∀ o, o ≠ .maybe → a = some o → SameOr a' o)
    (hb : ∀ o, o ≠ .maybe → b = some o → SameOr b' o) : SameOr (both a' b') o := by
  have := sameOr_andThen ho (both_eq h) ha hb
  match a', b' with
  | some _, some _ => exact this
  | none, _ => exact .inr rfl
  | some _, none => exact .inr rfl

mutual
theorem stable {τ} : ∀ (s : TySpec) (t : RTy) (o : Overlap), o ≠ .maybe →
    specOverlap s t = some o → SameOr (specOverlap s (t.refine τ)) o
  | .generic _, _, _, _, h => by simpa [specOverlap, SameOr] using h
  | .declared n as, t, o, ho, h => by
    cases t with
    | named m ts =>
      simp only [RTy.refine, specOverlap, refines_length] at h ⊢
      split
      · split
        · rename_i h1 h2
          rw [if_pos h1, if_pos h2] at h
          exact stables as ts o ho h
        · rename_i h1 h2
          rw [if_pos h1, if_neg h2] at h
          exact .inl h
      · rename_i h1
        rw [if_neg h1] at h
        exact .inl h
    | unknown n => simp [specOverlap] at h; exact absurd h.symm ho
    | _ => simp only [RTy.refine, specOverlap] at h ⊢; exact .inl h
  | .tuple ss, t, o, ho, h => by
    cases t with
    | tuple ts =>
      simp only [RTy.refine, specOverlap, refines_length] at h ⊢
      split
      · rename_i h1
        rw [if_pos h1] at h
        exact stablesS ss ts o ho h
      · rename_i h1
        rw [if_neg h1] at h
        exact .inl h
    | unknown n => simp [specOverlap] at h; exact absurd h.symm ho
    | _ => simp only [RTy.refine, specOverlap] at h ⊢; exact .inl h
  | .array a e, t, o, ho, h => by
    cases t with
    | array t s =>
      simp only [RTy.refine, specOverlap] at h ⊢
      exact sameOr_both ho h (fun o ho h => stable a t o ho h) (fun o ho h => stableE e s o ho h)
    | unknown n => simp [specOverlap] at h; exact absurd h.symm ho
    | _ => simp only [RTy.refine, specOverlap] at h ⊢; exact .inl h
  | .inverted a, t, o, ho, h => by
    cases t with
    | inverted t =>
      simp only [RTy.refine, specOverlap] at h ⊢
      exact stable a t o ho h
    | unknown n => simp [specOverlap] at h; exact absurd h.symm ho
    | _ => simp only [RTy.refine, specOverlap] at h ⊢; exact .inl h
  | .copyView a, t, o, ho, h => by
    cases t with
    | copyView t =>
      simp only [RTy.refine, specOverlap] at h ⊢
      exact stable a t o ho h
    | unknown n => simp [specOverlap] at h; exact absurd h.symm ho
    | _ => simp only [RTy.refine, specOverlap] at h ⊢; exact .inl h
  | .traitSelf, t, o, ho, h | .wildcard, t, o, ho, h => by
    cases t <;> simp [specOverlap] at h
    exact absurd h.symm ho
theorem stableE {τ} : ∀ (s : TyExpr) (t : RTy) (o : Overlap), o ≠ .maybe →
    exprOverlap s t = some o → SameOr (exprOverlap s (t.refine τ)) o
  | .bool _, t, o, ho, h | .int _, t, o, ho, h | .str _, t, o, ho, h => by
    cases t <;> simp only [exprOverlap, Option.some.injEq, reduceCtorEq] at h
    · exact absurd h.symm ho
    · simp only [RTy.refine, exprOverlap]; exact .inl (by rw [h])
  | .spec s, t, o, ho, h => by
    simp only [exprOverlap] at h ⊢
    exact stable s t o ho h
  | .constGeneric, _, _, _, h => by simp [exprOverlap] at h
theorem stables {τ} : ∀ (s : List TyExpr) (t : List RTy) (o : Overlap), o ≠ .maybe →
    exprOverlaps s t = some o → SameOr (exprOverlaps s (refines τ t)) o
  | [], t, o, _, h => by cases t <;> simp_all [exprOverlaps, refines, SameOr]
  | _ :: _, [], o, _, h => by simp_all [exprOverlaps, refines, SameOr]
  | s :: ss, t :: ts, o, ho, h => by
    simp only [exprOverlaps, refines] at h ⊢
    exact sameOr_andThen ho h (fun o ho h => stableE s t o ho h) (fun o ho h => stables ss ts o ho h)
theorem stablesS {τ} : ∀ (s : List TySpec) (t : List RTy) (o : Overlap), o ≠ .maybe →
    specOverlaps s t = some o → SameOr (specOverlaps s (refines τ t)) o
  | [], t, o, _, h => by cases t <;> simp_all [specOverlaps, refines, SameOr]
  | _ :: _, [], o, _, h => by simp_all [specOverlaps, refines, SameOr]
  | s :: ss, t :: ts, o, ho, h => by
    simp only [specOverlaps, refines] at h ⊢
    exact sameOr_andThen ho h (fun o ho h => stable s t o ho h) (fun o ho h => stablesS ss ts o ho h)
end

/-! ## Known types give definite answers -/

mutual
theorem definite : ∀ (s : TySpec) (t : RTy), t.Known → specOverlap s t ≠ some .maybe
  | .generic _, _, _ => by simp [specOverlap]
  | .declared n as, t, h => by
    cases t with
    | named m ts =>
      simp only [specOverlap]
      split
      · split
        · exact definites as ts h
        · simp
      · simp
    | unknown n => exact h.elim
    | _ => simp [specOverlap]
  | .tuple ss, t, h => by
    cases t with
    | tuple ts =>
      simp only [specOverlap]
      split
      · exact definitesS ss ts h
      · simp
    | unknown n => exact h.elim
    | _ => simp [specOverlap]
  | .array a e, t, h => by
    cases t with
    | array t s =>
      simp only [specOverlap]
      intro hm
      rcases andThen3_maybe (both_eq hm) with h1 | h1
      · exact definite a t h.1 h1
      · exact definiteE e s h.2 h1
    | unknown n => exact h.elim
    | _ => simp [specOverlap]
  | .inverted a, t, h => by
    cases t with
    | inverted t => simp only [specOverlap]; exact definite a t h
    | unknown n => exact h.elim
    | _ => simp [specOverlap]
  | .copyView a, t, h => by
    cases t with
    | copyView t => simp only [specOverlap]; exact definite a t h
    | unknown n => exact h.elim
    | _ => simp [specOverlap]
  | .traitSelf, t, h | .wildcard, t, h => by
    cases t <;> simp [specOverlap]
    exact h.elim
theorem definiteE : ∀ (s : TyExpr) (t : RTy), t.Known → exprOverlap s t ≠ some .maybe
  | .bool _, t, h | .int _, t, h | .str _, t, h => by
    cases t <;> simp only [exprOverlap] <;> first | exact h.elim | (try split) <;> simp
  | .spec s, t, h => by simp only [exprOverlap]; exact definite s t h
  | .constGeneric, _, _ => by simp [exprOverlap]
theorem definites : ∀ (s : List TyExpr) (t : List RTy), Knowns t → exprOverlaps s t ≠ some .maybe
  | [], t, _ => by cases t <;> simp [exprOverlaps]
  | _ :: _, [], _ => by simp [exprOverlaps]
  | s :: ss, t :: ts, h => by
    simp only [exprOverlaps]
    intro hm
    rcases andThen3_maybe hm with h1 | h1
    · exact definiteE s t h.1 h1
    · exact definites ss ts h.2 h1
theorem definitesS : ∀ (s : List TySpec) (t : List RTy), Knowns t → specOverlaps s t ≠ some .maybe
  | [], t, _ => by cases t <;> simp [specOverlaps]
  | _ :: _, [], _ => by simp [specOverlaps]
  | s :: ss, t :: ts, h => by
    simp only [specOverlaps]
    intro hm
    rcases andThen3_maybe hm with h1 | h1
    · exact definite s t h.1 h1
    · exact definitesS ss ts h.2 h1
end

end Spade.Method

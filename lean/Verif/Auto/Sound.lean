import Verif.Auto.Model
import Verif.Decl.Layout

/-! # What implements `Data` can be stored, what implements `Copy` can be read (C66) -/

namespace Spade.Auto

open Spade.Check (TSpec TExp Impl IGen ITy trCopy Implements)
open Spade.Decl
open Spade.Infer.Spec (Base GT)

mutual
/-- No `&T` in the type. -/
def noView : TSpec → Bool
  | .declared _ ps => noViewArgs ps
  | .generic _ => true
  | .tuple ts => noViews ts
  | .array t k => noView t && noViewArg k
  | .inverted t => noView t
  | .copyView _ => false
  | .wildcard => true
/-- The same for the members of a tuple. -/
def noViews : List TSpec → Bool
  | [] => true
  | t :: ts => noView t && noViews ts
/-- The same for a generic argument. -/
def noViewArg : TExp → Bool
  | .spec t => noView t
  | .bool _ | .int _ | .str _ | .const _ => true
/-- The same for generic arguments. -/
def noViewArgs : List TExp → Bool
  | [] => true
  | e :: es => noViewArg e && noViewArgs es
end

/-- No `&T` on the right-hand side of a declaration. -/
def kindNoView : Decl.Kind → Bool
  | .prim _ => true
  | .enum os => os.all (fun o => o.2.all (fun m => noView m.2))
  | .struct ms => ms.all (fun m => noView m.2)
  | .alias t => noView t

theorem bad_or {r : Res Bool} {q : Res Bool}
    (h : r.bind (fun b => if b then .ok true else q) = .ok false) : r = .ok false ∧ q = .ok false := by
  obtain ⟨b, h1, h2⟩ := Res.bind_ok h
  cases b with
  | true => simp at h2
  | false => exact ⟨h1, by simpa using h2⟩

section
variable {a : Auto} {D : Nat → List Conc → Res Conc} {σ : String → Option Conc} {W : Nat → Res Bool}

mutual
theorem specConc_fit (hσ : ∀ g c, σ g = some c → Fit a c)
    (hD : ∀ n ps c, D n ps = .ok c → W n = .ok false → (∀ p ∈ ps, Fit a p) → Fit a c) :
    ∀ (t : TSpec) {c : Conc}, (a = .copy ∨ noView t = true) → specBad W t = .ok false →
    specConc D σ t = .ok c → Fit a c
  | .declared n ps, c, hv, hb, hc => by
    simp only [specBad] at hb
    obtain ⟨hn, hps⟩ := bad_or hb
    simp only [specConc] at hc
    obtain ⟨cs, h1, h2⟩ := Res.bind_ok hc
    exact hD n cs c h2 hn (argConcs_fit hσ hD ps (by simpa [noView] using hv) hps h1)
  | .generic g, c, _, _, hc => by
    simp only [specConc] at hc
    cases hg : σ g with
    | none => rw [hg] at hc; cases hc
    | some x => rw [hg] at hc; cases hc; exact hσ g _ hg
  | .tuple ts, c, hv, hb, hc => by
    simp only [specConc] at hc
    obtain ⟨cs, h1, h2⟩ := Res.bind_ok hc
    cases h2
    exact .tuple (specConcs_fit hσ hD ts (by simpa [noView] using hv)
      (by simpa [specBad] using hb) h1)
  | .array t k, c, hv, hb, hc => by
    simp only [specConc] at hc
    obtain ⟨s, _, h2⟩ := Res.bind_ok hc
    cases s with
    | int i =>
      obtain ⟨c', h3, h4⟩ := Res.bind_ok h2
      cases h4
      refine .array (specConc_fit hσ hD t (hv.imp id (fun h => ?_)) (by simpa [specBad] using hb) h3)
      simp only [noView, Bool.and_eq_true] at h
      exact h.1
    | _ => cases h2
  | .inverted t, c, _, hb, _ => by simp [specBad] at hb
  | .copyView t, c, hv, _, hc => by
    simp only [specConc] at hc
    obtain ⟨c', _, h4⟩ := Res.bind_ok hc
    cases h4
    rcases hv with rfl | hv
    · exact .readView rfl
    · simp [noView] at hv
  | .wildcard, c, _, hb, _ => by simp [specBad] at hb
theorem specConcs_fit (hσ : ∀ g c, σ g = some c → Fit a c)
    (hD : ∀ n ps c, D n ps = .ok c → W n = .ok false → (∀ p ∈ ps, Fit a p) → Fit a c) :
    ∀ (ts : List TSpec) {cs : List Conc}, (a = .copy ∨ noViews ts = true) →
    specsBad W ts = .ok false → specConcs D σ ts = .ok cs → ∀ c ∈ cs, Fit a c
  | [], cs, _, _, hc => by cases hc; simp
  | t :: ts, cs, hv, hb, hc => by
    simp only [specsBad] at hb
    obtain ⟨ht, hts⟩ := bad_or hb
    simp only [specConcs] at hc
    obtain ⟨c, h1, h2⟩ := Res.bind_ok hc
    obtain ⟨cs', h3, h4⟩ := Res.bind_ok h2
    cases h4
    simp only [noViews, Bool.and_eq_true] at hv
    intro x hx
    rcases List.mem_cons.mp hx with rfl | hx
    · exact specConc_fit hσ hD t (hv.imp id (·.1)) ht h1
    · exact specConcs_fit hσ hD ts (hv.imp id (·.2)) hts h3 x hx
theorem expConc_fit (hσ : ∀ g c, σ g = some c → Fit a c)
    (hD : ∀ n ps c, D n ps = .ok c → W n = .ok false → (∀ p ∈ ps, Fit a p) → Fit a c) :
    ∀ (e : TExp) {c : Conc}, (a = .copy ∨ noViewArg e = true) → expBad W e = .ok false →
    expConc D σ e = .ok c → Fit a c
  | .spec t, c, hv, hb, hc =>
    specConc_fit hσ hD t (by simpa [noViewArg] using hv) (by simpa [expBad] using hb)
      (by simpa [expConc] using hc)
  | .bool b, c, _, _, hc => by cases hc; exact .bool
  | .int i, c, _, _, hc => by cases hc; exact .int
  | .str s, c, _, _, hc => by cases hc; exact .str
  | .const _, c, _, _, hc => by cases hc
theorem argConcs_fit (hσ : ∀ g c, σ g = some c → Fit a c)
    (hD : ∀ n ps c, D n ps = .ok c → W n = .ok false → (∀ p ∈ ps, Fit a p) → Fit a c) :
    ∀ (es : List TExp) {cs : List Conc}, (a = .copy ∨ noViewArgs es = true) →
    expsBad W es = .ok false → argConcs D σ es = .ok cs → ∀ c ∈ cs, Fit a c
  | [], cs, _, _, hc => by cases hc; simp
  | e :: es, cs, hv, hb, hc => by
    simp only [expsBad] at hb
    obtain ⟨ht, hts⟩ := bad_or hb
    simp only [argConcs] at hc
    obtain ⟨c, h1, h2⟩ := Res.bind_ok hc
    obtain ⟨cs', h3, h4⟩ := Res.bind_ok h2
    cases h4
    simp only [noViewArgs, Bool.and_eq_true] at hv
    intro x hx
    rcases List.mem_cons.mp hx with rfl | hx
    · exact expConc_fit hσ hD e (hv.imp id (·.1)) ht h1
    · exact argConcs_fit hσ hD es (hv.imp id (·.2)) hts h3 x hx
end

theorem memberConcs_mem : ∀ (ms : List (String × TSpec)) {cs : List (String × Conc)},
    memberConcs D σ ms = .ok cs → ∀ c ∈ cs, ∃ m ∈ ms, specConc D σ m.2 = .ok c.2
  | [], cs, h => by cases h; simp
  | m :: ms, cs, h => by
    simp only [memberConcs] at h
    obtain ⟨c, h1, h2⟩ := Res.bind_ok h
    obtain ⟨cs', h3, h4⟩ := Res.bind_ok h2
    cases h4
    intro x hx
    rcases List.mem_cons.mp hx with rfl | hx
    · exact ⟨m, by simp, h1⟩
    · obtain ⟨m', hm, he⟩ := memberConcs_mem ms h3 x hx
      exact ⟨m', by simp [hm], he⟩

theorem optionConcs_mem : ∀ (os : List (String × List (String × TSpec)))
    {cs : List (String × List (String × Conc))}, optionConcs D σ os = .ok cs → ∀ c ∈ cs,
    ∃ o ∈ os, memberConcs D σ o.2 = .ok c.2
  | [], cs, h => by cases h; simp
  | m :: ms, cs, h => by
    simp only [optionConcs] at h
    obtain ⟨c, h1, h2⟩ := Res.bind_ok h
    obtain ⟨cs', h3, h4⟩ := Res.bind_ok h2
    cases h4
    intro x hx
    rcases List.mem_cons.mp hx with rfl | hx
    · exact ⟨m, by simp, h1⟩
    · obtain ⟨m', hm, he⟩ := optionConcs_mem ms h3 x hx
      exact ⟨m', by simp [hm], he⟩

theorem membersBad_mem : ∀ (ms : List (String × TSpec)), membersBad W ms = .ok false →
    ∀ m ∈ ms, specBad W m.2 = .ok false
  | [], _ => by simp
  | m :: ms, h => by
    simp only [membersBad] at h
    obtain ⟨h1, h2⟩ := bad_or h
    intro x hx
    rcases List.mem_cons.mp hx with rfl | hx
    · exact h1
    · exact membersBad_mem ms h2 x hx

end

/-! ## Without a witness against `Data` there is none against `Copy` -/

section
variable {V W : Nat → Res Bool} (hW : ∀ n, V n = .ok false → W n = .ok false)
include hW

mutual
theorem specBad_mono : ∀ (t : TSpec), specBad V t = .ok false → specBad W t = .ok false
  | .declared n ps, h => by
    simp only [specBad] at h ⊢
    obtain ⟨h1, h2⟩ := bad_or h
    rw [hW n h1, Res.bind]
    simpa using expsBad_mono ps h2
  | .generic g, h => by simp [specBad]
  | .tuple ts, h => by simp only [specBad] at h ⊢; exact specsBad_mono ts h
  | .array t _, h => by simp only [specBad] at h ⊢; exact specBad_mono t h
  | .inverted _, h => by simp [specBad] at h
  | .copyView _, h => by simp [specBad]
  | .wildcard, h => by simp [specBad] at h
theorem specsBad_mono : ∀ (ts : List TSpec), specsBad V ts = .ok false → specsBad W ts = .ok false
  | [], _ => by simp [specsBad]
  | t :: ts, h => by
    simp only [specsBad] at h ⊢
    obtain ⟨h1, h2⟩ := bad_or h
    rw [specBad_mono t h1, Res.bind]
    simpa using specsBad_mono ts h2
theorem expBad_mono : ∀ (e : TExp), expBad V e = .ok false → expBad W e = .ok false
  | .spec t, h => by simp only [expBad] at h ⊢; exact specBad_mono t h
  | .bool _, _ | .int _, _ | .str _, _ | .const _, _ => by simp [expBad]
theorem expsBad_mono : ∀ (es : List TExp), expsBad V es = .ok false → expsBad W es = .ok false
  | [], _ => by simp [expsBad]
  | e :: es, h => by
    simp only [expsBad] at h ⊢
    obtain ⟨h1, h2⟩ := bad_or h
    rw [expBad_mono e h1, Res.bind]
    simpa using expsBad_mono es h2
end

theorem membersBad_mono : ∀ (ms : List (String × TSpec)), membersBad V ms = .ok false →
    membersBad W ms = .ok false
  | [], _ => by simp [membersBad]
  | m :: ms, h => by
    simp only [membersBad] at h ⊢
    obtain ⟨h1, h2⟩ := bad_or h
    rw [specBad_mono hW m.2 h1, Res.bind]
    simpa using membersBad_mono ms h2

end

theorem primBad_iff {a : Auto} {p : String} : primBad a p = false ↔ p ∈ a.prims := by
  cases a <;> simp only [primBad, Auto.prims, Bool.not_eq_false', List.contains_iff_mem]

theorem prims_data {a : Auto} {p : String} (h : primBad .data p = false) : primBad a p = false := by
  cases a with
  | data => exact h
  | copy =>
    rw [primBad_iff] at h ⊢
    simp [Auto.prims] at h ⊢
    rcases h with h | h | h <;> simp [h]

theorem declBad_data {a : Auto} {T : List TypeDecl} : ∀ {k n : Nat},
    declBad .data T k n = .ok false → declBad a T k n = .ok false
  | 0, n, h => by simp [declBad] at h
  | k + 1, n, h => by
    simp only [declBad] at h ⊢
    cases hf : find T n with
    | none => rw [hf] at h; cases h
    | some d =>
      rw [hf] at h
      simp only at h ⊢
      cases hk : d.kind with
      | prim p =>
        rw [hk] at h
        simp only [kindBad, Res.ok.injEq] at h ⊢
        exact prims_data h
      | enum os => simp [kindBad]
      | struct ms =>
        rw [hk] at h
        exact membersBad_mono (fun n h => declBad_data h) ms h
      | alias t =>
        rw [hk] at h
        exact specBad_mono (fun n h => declBad_data h) t h

/-! ## Declarations -/

theorem lookup_mem {ps : List String} {cs : List Conc} {g : String} {c : Conc}
    (h : (ps.zip cs).lookup g = some c) : c ∈ cs := by
  have : (g, c) ∈ ps.zip cs := by
    generalize ps.zip cs = l at h
    induction l with
    | nil => simp at h
    | cons x l ih =>
      obtain ⟨k, v⟩ := x
      simp only [List.lookup_cons] at h
      split at h
      · next he =>
        simp only [beq_iff_eq] at he
        cases h
        simp [he]
      · exact List.mem_cons_of_mem _ (ih h)
  exact (List.of_mem_zip this).2

/-- A declaration without a witness, applied to fit types, is fit. -/
theorem layout_fit {a : Auto} {T : List TypeDecl} {k : Nat} (he : EnumsAccepted T k)
    (hv : a = .copy ∨ ∀ d ∈ T, kindNoView d.kind = true) : ∀ (j n w : Nat) {ps : List Conc} {c : Conc},
    layout T j n ps = .ok c → declBad a T w n = .ok false → (∀ p ∈ ps, Fit a p) → Fit a c
  | 0, n, w, ps, c, h, _, _ => by simp [layout] at h
  | j + 1, n, 0, ps, c, _, h, _ => by simp [declBad] at h
  | j + 1, n, w + 1, ps, c, hl, hb, hps => by
    rw [layout] at hl
    rw [declBad] at hb
    cases hf : find T n with
    | none => rw [hf] at hl; cases hl
    | some d =>
      obtain ⟨hd, hdn⟩ := find_mem hf
      rw [hf] at hl hb
      simp only at hl hb
      split at hl
      · have hσ : ∀ g c, (d.params.zip ps).lookup g = some c → Fit a c :=
          fun g c h => hps c (lookup_mem h)
        have hv' := hv.imp id (fun h => h d hd)
        cases hk : d.kind with
        | prim p =>
          rw [hk] at hl hb
          cases hl
          simp only [kindBad, Res.ok.injEq, primBad_iff] at hb
          exact .single hb hps
        | enum os =>
          rw [hk] at hl hv'
          simp only [kindConc] at hl
          obtain ⟨cs, h1, h2⟩ := Res.bind_ok hl
          cases h2
          refine .enum (fun o ho m hm => ?_)
          obtain ⟨o', ho', h3⟩ := optionConcs_mem os h1 o ho
          obtain ⟨m', hm', h4⟩ := memberConcs_mem o'.2 h3 m hm
          refine specConc_fit hσ (W := declBad a T k)
            (fun n ps c h1 h2 h3 => layout_fit he hv j n k h1 h2 h3) m'.2 (hv'.imp id (fun h => ?_))
            (specBad_mono (fun n h => declBad_data h) m'.2 (he d hd os hk o' ho' m' hm')) h4
          simp only [kindNoView, List.all_eq_true] at h
          exact h o' ho' m' hm'
        | struct ms =>
          rw [hk] at hl hv' hb
          simp only [kindConc] at hl
          obtain ⟨cs, h1, h2⟩ := Res.bind_ok hl
          cases h2
          refine .struct (fun m hm => ?_)
          obtain ⟨m', hm', h4⟩ := memberConcs_mem ms h1 m hm
          refine specConc_fit hσ (W := declBad a T w)
            (fun n ps c h1 h2 h3 => layout_fit he hv j n w h1 h2 h3) m'.2 (hv'.imp id (fun h => ?_))
            (membersBad_mem ms hb m' hm') h4
          simp only [kindNoView, List.all_eq_true] at h
          exact h m' hm'
        | alias t =>
          rw [hk] at hl hv' hb
          exact specConc_fit hσ (W := declBad a T w)
            (fun n ps c h1 h2 h3 => layout_fit he hv j n w h1 h2 h3) t hv' hb hl
      · cases hl

/-! ## Implementations -/

theorem Auto.trait_inj {a b : Auto} (h : a.trait = b.trait) : a = b := by
  cases a <;> cases b <;> first | rfl | (simp [Auto.trait, trCopy, trData] at h)

theorem insts_range {σ : Nat → GT} (n : Nat) :
    ITy.insts σ ((List.range n).map .gen) = (List.range n).map σ := by
  generalize List.range n = l
  induction l with
  | nil => rfl
  | cons x l ih => simp [ITy.insts, ITy.inst, ih]

theorem groundConcs_mem {D : Nat → List Conc → Res Conc} : ∀ {ts : List GT} {cs : List Conc},
    groundConcs D ts = .ok cs → ∀ c ∈ cs, ∃ t ∈ ts, groundConc D t = .ok c
  | [], cs, h => by cases h; simp
  | t :: ts, cs, h => by
    simp only [groundConcs] at h
    obtain ⟨c, h1, h2⟩ := Res.bind_ok h
    obtain ⟨cs', h3, h4⟩ := Res.bind_ok h2
    cases h4
    intro x hx
    rcases List.mem_cons.mp hx with rfl | hx
    · exact ⟨t, by simp, h1⟩
    · obtain ⟨m', hm, he⟩ := groundConcs_mem h3 x hx
      exact ⟨m', by simp [hm], he⟩

/-- Type-level values have no wires. -/
theorem value_fit {a : Auto} {D : Nat → List Conc → Res Conc} {k : Infer.Spec.Kind} {t : GT} {c : Conc}
    (hk : k.Holds t.head.val) (h1 : k ≠ .any) (h2 : k ≠ .type) (h : groundConc D t = .ok c) :
    Fit a c := by
  obtain ⟨b, args⟩ := t
  simp only [groundConc] at h
  obtain ⟨cs, _, h4⟩ := Res.bind_ok h
  cases k <;> cases b <;> simp_all [Infer.Spec.Kind.Holds, GT.head, Base.val] <;>
    (cases cs <;> simp [headConc] at h4; subst h4; constructor)

/-- Which of the implementations are of the trait. -/
theorem implsOf_trait {T : List TypeDecl} {k : Nat} {S : Nat → List IGen} {others : List Impl}
    (ho : ∀ i ∈ others, i.trait ≠ trCopy ∧ i.trait ≠ trData) {a : Auto} {i : Impl}
    (h : i ∈ implsOf T k S others) (ht : a.trait = i.trait) :
    i = arrayImpl a ∨ (∃ n, n < 9 ∧ i = tupleImpl a n) ∨
      ∃ d ∈ T, declBad a T k d.name = .ok false ∧ i = autoImpl a d.name (S d.name) := by
  have core : ∀ b, i ∈ coreImpls b → i = arrayImpl a ∨ (∃ n, n < 9 ∧ i = tupleImpl a n) := by
    intro b hb
    have : i.trait = b.trait := by
      simp only [coreImpls, List.mem_cons, List.mem_map] at hb
      rcases hb with rfl | ⟨n, _, rfl⟩ <;> rfl
    obtain rfl := Auto.trait_inj (ht.trans this)
    simp only [coreImpls, List.mem_cons, List.mem_map, List.mem_range] at hb
    rcases hb with rfl | ⟨n, hn, rfl⟩
    · exact .inl rfl
    · exact .inr ⟨n, hn, rfl⟩
  have auto : ∀ b, i ∈ autoImpls b T k S → ∃ d ∈ T, declBad a T k d.name = .ok false ∧
      i = autoImpl a d.name (S d.name) := by
    intro b hb
    simp only [autoImpls, List.mem_filterMap] at hb
    obtain ⟨d, hd, hb⟩ := hb
    split at hb
    · next hw =>
      cases hb
      obtain rfl := Auto.trait_inj (a := a) (b := b) ht
      exact ⟨d, hd, hw, rfl⟩
    · cases hb
  simp only [implsOf, List.mem_append] at h
  rcases h with (((h | h) | h) | h) | h
  · rcases core _ h with h | h
    · exact .inl h
    · exact .inr (.inl h)
  · rcases core _ h with h | h
    · exact .inl h
    · exact .inr (.inl h)
  · exact .inr (.inr (auto _ h))
  · exact .inr (.inr (auto _ h))
  · have := ho i h
    cases a
    · exact absurd ht.symm this.1
    · exact absurd ht.symm this.2

/-- What implements the trait is fit. -/
theorem implements_fit {T : List TypeDecl} {k : Nat} {S : Nat → List IGen} {others : List Impl}
    (ho : ∀ i ∈ others, i.trait ≠ trCopy ∧ i.trait ≠ trData)
    (hS : ∀ d ∈ T, ∀ g ∈ S d.name, g.kind ≠ .any) (he : EnumsAccepted T k) {t : GT} {tr : Nat}
    {as : List GT} (h : Implements (implsOf T k S others) t tr as) :
    ∀ (a : Auto), (a = .copy ∨ ∀ d ∈ T, kindNoView d.kind = true) → tr = a.trait → ∀ (j : Nat) {c : Conc},
    groundConc (layout T j) t = .ok c → Fit a c := by
  induction h with
  | @mk i σ t tr as hi hk _ htr has ht ih =>
    intro a hv ha j c hc
    subst ht
    rw [htr] at ha
    simp only [groundConc] at hc
    obtain ⟨cs, h1, h2⟩ := Res.bind_ok hc
    have elem : ∀ (l : List GT), groundConcs (layout T j) l = .ok cs →
        (∀ t ∈ l, ∃ g p, t = σ g ∧ i.gens[g]? = some p ∧
          (p.kind = .type ∧ (a.trait, []) ∈ p.bounds ∨ p.kind ≠ .any ∧ p.kind ≠ .type)) →
        ∀ c ∈ cs, Fit a c := by
      intro l hl hg x hx
      obtain ⟨t, ht, htc⟩ := groundConcs_mem hl x hx
      obtain ⟨g, p, rfl, hp, hb⟩ := hg t ht
      rcases hb with ⟨_, hb⟩ | ⟨hb1, hb2⟩
      · exact ih g p hp _ hb a hv rfl j htc
      · exact value_fit (hk g p hp) hb1 hb2 htc
    rcases implsOf_trait ho hi ha.symm with rfl | ⟨n, hn, rfl⟩ | ⟨d, hd, hw, rfl⟩
    · have hall := elem _ h1 (by
        intro t ht
        simp only [arrayImpl, ITy.insts, ITy.inst, List.mem_cons, List.not_mem_nil, or_false] at ht
        rcases ht with rfl | rfl
        · exact ⟨0, _, rfl, rfl, .inl ⟨rfl, by simp⟩⟩
        · exact ⟨1, _, rfl, rfl, .inr (by simp)⟩)
      simp only [arrayImpl] at h2
      unfold headConc at h2
      split at h2 <;> first | contradiction | skip
      next heq =>
        cases h2
        exact .array (hall _ (by simp))
    · rw [show (tupleImpl a n).args = (List.range n).map .gen from rfl, insts_range] at h1
      have hall := elem _ h1 (by
        intro t ht
        simp only [List.mem_map, List.mem_range] at ht
        obtain ⟨g, hg, rfl⟩ := ht
        exact ⟨g, ⟨.type, [(a.trait, [])]⟩, rfl, by simp [tupleImpl, hg], .inl ⟨rfl, by simp⟩⟩)
      simp only [tupleImpl, headConc] at h2
      cases h2
      exact .tuple hall
    · rw [show (autoImpl a d.name (S d.name)).args = (List.range (S d.name).length).map .gen from rfl,
        insts_range] at h1
      have hall := elem _ h1 (by
        intro t ht
        simp only [List.mem_map, List.mem_range] at ht
        obtain ⟨g, hg, rfl⟩ := ht
        have hm : (S d.name)[g] ∈ S d.name := List.getElem_mem hg
        by_cases hty : (S d.name)[g].kind = .type
        · refine ⟨g, { (S d.name)[g] with bounds := (S d.name)[g].bounds ++ [(a.trait, [])] }, rfl, ?_,
            .inl ⟨hty, by simp⟩⟩
          simp [autoImpl, autoGens, hg, hty]
        · refine ⟨g, (S d.name)[g], rfl, ?_, .inr ⟨hS d hd _ hm, hty⟩⟩
          simp [autoImpl, autoGens, hg, hty])
      simp only [autoImpl, headConc] at h2
      exact layout_fit he hv j d.name k h2 hw hall

end Spade.Auto

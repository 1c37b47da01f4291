import Verif.Auto.Sound

/-! # What can be stored implements `Data`, what can be read implements `Copy` (C66) -/

namespace Spade.Auto

open Spade.Check (TSpec TExp Impl IGen ITy trCopy Implements)
open Spade.Decl
open Spade.Infer.Spec (Base GT)

mutual
/-- The generic parameter occurs in the type; for `Copy`, not only in a view. -/
def occurs (a : Auto) (g : String) : TSpec → Bool
  | .declared _ ps => occursArgs a g ps
  | .generic h => g == h
  | .tuple ts => occursAny a g ts
  | .array t k => occurs a g t || occursArg a g k
  | .inverted t => occurs a g t
  | .copyView t => a == .data && occurs a g t
  | .wildcard => false
/-- The same for the members of a tuple. -/
def occursAny (a : Auto) (g : String) : List TSpec → Bool
  | [] => false
  | t :: ts => occurs a g t || occursAny a g ts
/-- The same for a generic argument. -/
def occursArg (a : Auto) (g : String) : TExp → Bool
  | .spec t => occurs a g t
  | .bool _ | .int _ | .str _ | .const _ => false
/-- The same for generic arguments. -/
def occursArgs (a : Auto) (g : String) : List TExp → Bool
  | [] => false
  | e :: es => occursArg a g e || occursArgs a g es
end

/-- The generic parameter occurs on the right-hand side. -/
def kindOccurs (a : Auto) (g : String) : Decl.Kind → Bool
  | .prim _ => true
  | .enum os => os.any (fun o => o.2.any (fun m => occurs a g m.2))
  | .struct ms => ms.any (fun m => occurs a g m.2)
  | .alias t => occurs a g t

/-- All parameters of all declarations are used. -/
def NoPhantom (a : Auto) (T : List TypeDecl) : Prop :=
  ∀ d ∈ T, d.params.Nodup ∧ ∀ g ∈ d.params, kindOccurs a g d.kind = true

section
variable {a : Auto} {D : Nat → List Conc → Res Conc} {σ : String → Option Conc}

/-! ## Parts of what is fit are fit -/

section
variable (hD : ∀ n ps c, D n ps = .ok c → Fit a c → ∀ p ∈ ps, Fit a p) {g : String} {p : Conc}
  (hg : σ g = some p)
include hD hg

mutual
theorem specConc_part : ∀ (t : TSpec) {c : Conc}, occurs a g t = true → specConc D σ t = .ok c →
    Fit a c → Fit a p
  | .declared n ps, c, ho, hc, hf => by
    simp only [specConc] at hc
    obtain ⟨cs, h1, h2⟩ := Res.bind_ok hc
    exact argConcs_part ps (by simpa [occurs] using ho) h1 (hD n cs c h2 hf)
  | .generic h, c, ho, hc, hf => by
    simp only [occurs, beq_iff_eq] at ho
    subst ho
    simp only [specConc, hg] at hc
    cases hc
    exact hf
  | .tuple ts, c, ho, hc, hf => by
    simp only [specConc] at hc
    obtain ⟨cs, h1, h2⟩ := Res.bind_ok hc
    cases h2
    cases hf with
    | tuple hf => exact specConcs_part ts (by simpa [occurs] using ho) h1 hf
  | .array t k, c, ho, hc, hf => by
    simp only [specConc] at hc
    obtain ⟨s, h1, h2⟩ := Res.bind_ok hc
    cases s with
    | int i =>
      obtain ⟨c', h3, h4⟩ := Res.bind_ok h2
      cases h4
      simp only [occurs, Bool.or_eq_true] at ho
      rcases ho with ho | ho
      · cases hf with
        | array hf => exact specConc_part t ho h3 hf
      · exact expConc_part k ho h1 .int
    | _ => cases h2
  | .inverted t, c, ho, hc, hf => by
    simp only [specConc] at hc
    obtain ⟨c', _, h4⟩ := Res.bind_ok hc
    cases h4
    cases hf
  | .copyView t, c, ho, hc, hf => by
    simp only [specConc] at hc
    obtain ⟨c', h3, h4⟩ := Res.bind_ok hc
    cases h4
    simp only [occurs, Bool.and_eq_true, beq_iff_eq] at ho
    cases hf with
    | readView h => rw [ho.1] at h; cases h
    | view hf => exact specConc_part t ho.2 h3 hf
  | .wildcard, c, ho, _, _ => by simp [occurs] at ho
theorem specConcs_part : ∀ (ts : List TSpec) {cs : List Conc}, occursAny a g ts = true →
    specConcs D σ ts = .ok cs → (∀ c ∈ cs, Fit a c) → Fit a p
  | [], cs, ho, _, _ => by simp [occursAny] at ho
  | t :: ts, cs, ho, hc, hf => by
    simp only [specConcs] at hc
    obtain ⟨c, h1, h2⟩ := Res.bind_ok hc
    obtain ⟨cs', h3, h4⟩ := Res.bind_ok h2
    cases h4
    simp only [occursAny, Bool.or_eq_true] at ho
    rcases ho with ho | ho
    · exact specConc_part t ho h1 (hf c (by simp))
    · exact specConcs_part ts ho h3 (fun x hx => hf x (by simp [hx]))
theorem expConc_part : ∀ (e : TExp) {c : Conc}, occursArg a g e = true → expConc D σ e = .ok c →
    Fit a c → Fit a p
  | .spec t, c, ho, hc, hf =>
    specConc_part t (by simpa [occursArg] using ho) (by simpa [expConc] using hc) hf
  | .bool _, c, ho, _, _ | .int _, c, ho, _, _ | .str _, c, ho, _, _ | .const _, c, ho, _, _ => by
    simp [occursArg] at ho
theorem argConcs_part : ∀ (es : List TExp) {cs : List Conc}, occursArgs a g es = true →
    argConcs D σ es = .ok cs → (∀ c ∈ cs, Fit a c) → Fit a p
  | [], cs, ho, _, _ => by simp [occursArgs] at ho
  | e :: es, cs, ho, hc, hf => by
    simp only [argConcs] at hc
    obtain ⟨c, h1, h2⟩ := Res.bind_ok hc
    obtain ⟨cs', h3, h4⟩ := Res.bind_ok h2
    cases h4
    simp only [occursArgs, Bool.or_eq_true] at ho
    rcases ho with ho | ho
    · exact expConc_part e ho h1 (hf c (by simp))
    · exact argConcs_part es ho h3 (fun x hx => hf x (by simp [hx]))
end
end

theorem memberConcs_of_mem : ∀ (ms : List (String × TSpec)) {cs : List (String × Conc)},
    memberConcs D σ ms = .ok cs → ∀ m ∈ ms, ∃ c ∈ cs, specConc D σ m.2 = .ok c.2
  | [], cs, h => by simp
  | m :: ms, cs, h => by
    simp only [memberConcs] at h
    obtain ⟨c, h1, h2⟩ := Res.bind_ok h
    obtain ⟨cs', h3, h4⟩ := Res.bind_ok h2
    cases h4
    intro x hx
    rcases List.mem_cons.mp hx with rfl | hx
    · exact ⟨(x.1, c), by simp, h1⟩
    · obtain ⟨m', hm, he⟩ := memberConcs_of_mem ms h3 x hx
      exact ⟨m', by simp [hm], he⟩

theorem optionConcs_of_mem : ∀ (os : List (String × List (String × TSpec)))
    {cs : List (String × List (String × Conc))}, optionConcs D σ os = .ok cs → ∀ o ∈ os,
    ∃ c ∈ cs, memberConcs D σ o.2 = .ok c.2
  | [], cs, h => by simp
  | m :: ms, cs, h => by
    simp only [optionConcs] at h
    obtain ⟨c, h1, h2⟩ := Res.bind_ok h
    obtain ⟨cs', h3, h4⟩ := Res.bind_ok h2
    cases h4
    intro x hx
    rcases List.mem_cons.mp hx with rfl | hx
    · exact ⟨(x.1, c), by simp, h1⟩
    · obtain ⟨m', hm, he⟩ := optionConcs_of_mem ms h3 x hx
      exact ⟨m', by simp [hm], he⟩

end

theorem lookup_of_mem : ∀ {ps : List String} {cs : List Conc}, ps.length = cs.length → ps.Nodup →
    ∀ c ∈ cs, ∃ g ∈ ps, (ps.zip cs).lookup g = some c
  | [], [], _, _, c, hc => by simp at hc
  | [], _ :: _, h, _, _, _ => by simp at h
  | _ :: _, [], h, _, _, _ => by simp at h
  | p :: ps, x :: cs, h, hn, c, hc => by
    simp only [List.nodup_cons] at hn
    rcases List.mem_cons.mp hc with rfl | hc
    · exact ⟨p, by simp, by simp⟩
    · obtain ⟨g, hg, hl⟩ := lookup_of_mem (by simpa using h) hn.2 c hc
      refine ⟨g, by simp [hg], ?_⟩
      have : g ≠ p := fun h => hn.1 (h ▸ hg)
      rw [List.zip_cons_cons, List.lookup_cons, beq_false_of_ne this]
      exact hl

/-- The arguments of a fit type are fit. -/
theorem layout_part {a : Auto} {T : List TypeDecl} (hp : NoPhantom a T) : ∀ (j n : Nat)
    {ps : List Conc} {c : Conc}, layout T j n ps = .ok c → Fit a c → ∀ p ∈ ps, Fit a p
  | 0, n, ps, c, h, _, _, _ => by simp [layout] at h
  | j + 1, n, ps, c, hl, hf, p, hm => by
    rw [layout] at hl
    cases hfd : find T n with
    | none => rw [hfd] at hl; cases hl
    | some d =>
      obtain ⟨hd, hdn⟩ := find_mem hfd
      rw [hfd] at hl
      simp only at hl
      split at hl
      · next hlen =>
        obtain ⟨hnd, hocc⟩ := hp d hd
        obtain ⟨g, hg, hlk⟩ := lookup_of_mem hlen.symm hnd p hm
        have ho := hocc g hg
        have hD : ∀ n ps c, layout T j n ps = .ok c → Fit a c → ∀ p ∈ ps, Fit a p :=
          fun n ps c h1 h2 => layout_part hp j n h1 h2
        cases hk : d.kind with
        | prim q =>
          rw [hk] at hl
          cases hl
          cases hf with
          | single _ h => exact h p hm
        | enum os =>
          rw [hk] at hl ho
          simp only [kindConc] at hl
          obtain ⟨cs, h1, h2⟩ := Res.bind_ok hl
          cases h2
          simp only [kindOccurs, List.any_eq_true] at ho
          obtain ⟨o, ho, m, hm, hoc⟩ := ho
          obtain ⟨o', ho', h3⟩ := optionConcs_of_mem os h1 o ho
          obtain ⟨m', hm', h4⟩ := memberConcs_of_mem o.2 h3 m hm
          cases hf with
          | enum hf =>
            exact specConc_part (σ := fun g => (d.params.zip ps).lookup g) hD hlk m.2 hoc h4
              (hf o' ho' m' hm')
        | struct ms =>
          rw [hk] at hl ho
          simp only [kindConc] at hl
          obtain ⟨cs, h1, h2⟩ := Res.bind_ok hl
          cases h2
          simp only [kindOccurs, List.any_eq_true] at ho
          obtain ⟨m, hm, hoc⟩ := ho
          obtain ⟨m', hm', h4⟩ := memberConcs_of_mem ms h1 m hm
          cases hf with
          | struct hf =>
            exact specConc_part (σ := fun g => (d.params.zip ps).lookup g) hD hlk m.2 hoc h4
              (hf m' hm')
        | alias t =>
          rw [hk] at hl ho
          exact specConc_part (σ := fun g => (d.params.zip ps).lookup g) hD hlk t ho hl hf
      · cases hl

/-! ## What is fit has no witness -/

theorem good_or {r q : Res Bool} (hr : r = .ok false) (hq : q = .ok false) :
    r.bind (fun b => if b then .ok true else q) = .ok false := by
  subst hr
  simp [Res.bind, hq]

section
variable {a : Auto} {D : Nat → List Conc → Res Conc} {σ : String → Option Conc} {W : Nat → Res Bool}
  (hD : ∀ n ps c, D n ps = .ok c → Fit a c → ∀ p ∈ ps, Fit a p)
  (hW : ∀ n ps c, D n ps = .ok c → Fit a c → W n = .ok false)
include hD hW

mutual
theorem specBad_of_fit : ∀ (t : TSpec) {c : Conc}, specConc D σ t = .ok c → Fit a c →
    specBad W t = .ok false
  | .declared n ps, c, hc, hf => by
    simp only [specConc] at hc
    obtain ⟨cs, h1, h2⟩ := Res.bind_ok hc
    exact good_or (hW n cs c h2 hf) (expsBad_of_fit ps h1 (hD n cs c h2 hf))
  | .generic h, c, hc, hf => by simp [specBad]
  | .tuple ts, c, hc, hf => by
    simp only [specConc] at hc
    obtain ⟨cs, h1, h2⟩ := Res.bind_ok hc
    cases h2
    cases hf with
    | tuple hf => simpa [specBad] using specsBad_of_fit ts h1 hf
  | .array t k, c, hc, hf => by
    simp only [specConc] at hc
    obtain ⟨s, h1, h2⟩ := Res.bind_ok hc
    cases s with
    | int i =>
      obtain ⟨c', h3, h4⟩ := Res.bind_ok h2
      cases h4
      cases hf with
      | array hf => simpa [specBad] using specBad_of_fit t h3 hf
    | _ => cases h2
  | .inverted t, c, hc, hf => by
    simp only [specConc] at hc
    obtain ⟨c', _, h4⟩ := Res.bind_ok hc
    cases h4
    cases hf
  | .copyView t, c, hc, hf => by simp [specBad]
  | .wildcard, c, hc, _ => by simp [specConc] at hc
theorem specsBad_of_fit : ∀ (ts : List TSpec) {cs : List Conc},
    specConcs D σ ts = .ok cs → (∀ c ∈ cs, Fit a c) → specsBad W ts = .ok false
  | [], cs, _, _ => by simp [specsBad]
  | t :: ts, cs, hc, hf => by
    simp only [specConcs] at hc
    obtain ⟨c, h1, h2⟩ := Res.bind_ok hc
    obtain ⟨cs', h3, h4⟩ := Res.bind_ok h2
    cases h4
    exact good_or (specBad_of_fit t h1 (hf c (by simp)))
      (specsBad_of_fit ts h3 (fun x hx => hf x (by simp [hx])))
theorem expBad_of_fit : ∀ (e : TExp) {c : Conc}, expConc D σ e = .ok c → Fit a c →
    expBad W e = .ok false
  | .spec t, c, hc, hf => by
    simpa [expBad] using specBad_of_fit t (by simpa [expConc] using hc) hf
  | .bool _, c, _, _ | .int _, c, _, _ | .str _, c, _, _ | .const _, c, _, _ => by simp [expBad]
theorem expsBad_of_fit : ∀ (es : List TExp) {cs : List Conc},
    argConcs D σ es = .ok cs → (∀ c ∈ cs, Fit a c) → expsBad W es = .ok false
  | [], cs, _, _ => by simp [expsBad]
  | e :: es, cs, hc, hf => by
    simp only [argConcs] at hc
    obtain ⟨c, h1, h2⟩ := Res.bind_ok hc
    obtain ⟨cs', h3, h4⟩ := Res.bind_ok h2
    cases h4
    exact good_or (expBad_of_fit e h1 (hf c (by simp)))
      (expsBad_of_fit es h3 (fun x hx => hf x (by simp [hx])))
end

theorem membersBad_of_fit : ∀ (ms : List (String × TSpec)) {cs : List (String × Conc)},
    memberConcs D σ ms = .ok cs → (∀ c ∈ cs, Fit a c.2) → membersBad W ms = .ok false
  | [], cs, _, _ => by simp [membersBad]
  | m :: ms, cs, hc, hf => by
    simp only [memberConcs] at hc
    obtain ⟨c, h1, h2⟩ := Res.bind_ok hc
    obtain ⟨cs', h3, h4⟩ := Res.bind_ok h2
    cases h4
    exact good_or (specBad_of_fit hD hW m.2 h1 (hf (m.1, c) (by simp)))
      (membersBad_of_fit ms h3 (fun x hx => hf x (by simp [hx])))

end

/-- A declaration that is fit with some arguments has no witness. -/
theorem declBad_of_fit {a : Auto} {T : List TypeDecl} (hp : NoPhantom a T) : ∀ (j n : Nat)
    {ps : List Conc} {c : Conc}, layout T j n ps = .ok c → Fit a c → declBad a T j n = .ok false
  | 0, n, ps, c, h, _ => by simp [layout] at h
  | j + 1, n, ps, c, hl, hf => by
    rw [layout] at hl
    rw [declBad]
    cases hfd : find T n with
    | none => rw [hfd] at hl; cases hl
    | some d =>
      rw [hfd] at hl
      simp only at hl ⊢
      split at hl
      · have hD : ∀ n ps c, layout T j n ps = .ok c → Fit a c → ∀ p ∈ ps, Fit a p :=
          fun n ps c h1 h2 => layout_part hp j n h1 h2
        have hW : ∀ n ps c, layout T j n ps = .ok c → Fit a c → declBad a T j n = .ok false :=
          fun n ps c h1 h2 => declBad_of_fit hp j n h1 h2
        cases hk : d.kind with
        | prim q =>
          rw [hk] at hl
          cases hl
          cases hf with
          | single h _ => simp [kindBad, primBad_iff.mpr h]
        | enum os => simp [kindBad]
        | struct ms =>
          rw [hk] at hl
          simp only [kindConc] at hl
          obtain ⟨cs, h1, h2⟩ := Res.bind_ok hl
          cases h2
          cases hf with
          | struct hf => exact membersBad_of_fit hD hW ms h1 hf
        | alias t =>
          rw [hk] at hl
          exact specBad_of_fit hD hW t hl hf
      · cases hl

/-! ## Types -/

/-- The generic arguments of the type have the kinds and satisfy the bounds of the declarations,
array sizes are numbers that are not negative, tuples have at most eight members, and there is no
`&T`. -/
inductive Formed (impls : List Impl) (S : Nat → List IGen) : GT → Prop
  | named {n : Nat} {args : List GT} : args.length = (S n).length →
      (∀ (g : Nat) (p : IGen) (t : GT), (S n)[g]? = some p → args[g]? = some t →
        p.kind.Holds t.head.val) →
      (∀ (g : Nat) (p : IGen) (t : GT), (S n)[g]? = some p → args[g]? = some t → ∀ b ∈ p.bounds,
        Implements impls t b.1 (ITy.insts (fun i => args.getD i (.node .tuple [])) b.2)) →
      (∀ t ∈ args, Formed impls S t) → Formed impls S (.node (.named n) args)
  | tuple {args : List GT} : args.length ≤ 8 → (∀ t ∈ args, ∃ l, t.head.val = .type l) →
      (∀ t ∈ args, Formed impls S t) → Formed impls S (.node .tuple args)
  | array {t : GT} {i : Int} : (∃ l, t.head.val = .type l) → 0 ≤ i → Formed impls S t →
      Formed impls S (.node .array [t, .node (.int i) []])
  | inverted {t : GT} : Formed impls S t → Formed impls S (.node .inverted [t])
  | int {i : Int} : Formed impls S (.node (.int i) [])
  | bool {b : Bool} : Formed impls S (.node (.bool b) [])
  | str {s : String} : Formed impls S (.node (.str s) [])

theorem groundConcs_of_mem {D : Nat → List Conc → Res Conc} : ∀ {ts : List GT} {cs : List Conc},
    groundConcs D ts = .ok cs → ∀ t ∈ ts, ∃ c ∈ cs, groundConc D t = .ok c
  | [], cs, h => by simp
  | t :: ts, cs, h => by
    simp only [groundConcs] at h
    obtain ⟨c, h1, h2⟩ := Res.bind_ok h
    obtain ⟨cs', h3, h4⟩ := Res.bind_ok h2
    cases h4
    intro x hx
    rcases List.mem_cons.mp hx with rfl | hx
    · exact ⟨c, by simp, h1⟩
    · obtain ⟨m', hm, he⟩ := groundConcs_of_mem h3 x hx
      exact ⟨m', by simp [hm], he⟩

theorem map_getD (args : List GT) (d : GT) :
    (List.range args.length).map (fun i => args.getD i d) = args := by
  apply List.ext_getElem
  · simp
  · intro i h1 h2
    simp [h2]

theorem core_mem {T : List TypeDecl} {k : Nat} {S : Nat → List IGen} {others : List Impl} {a : Auto}
    {i : Impl} (h : i ∈ coreImpls a) : i ∈ implsOf T k S others := by
  cases a <;> simp [implsOf, h]

theorem auto_mem {T : List TypeDecl} {k : Nat} {S : Nat → List IGen} {others : List Impl} {a : Auto}
    {i : Impl} (h : i ∈ autoImpls a T k S) : i ∈ implsOf T k S others := by
  cases a <;> simp [implsOf, h]

/-- What is fit implements the trait. -/
theorem fit_implements {T : List TypeDecl} {k : Nat} {S : Nat → List IGen} {others : List Impl}
    {a : Auto} (hp : NoPhantom a T) {t : GT} (h : Formed (implsOf T k S others) S t) :
    (∃ l, t.head.val = .type l) → ∀ {c : Conc}, groundConc (layout T k) t = .ok c → Fit a c →
    Implements (implsOf T k S others) t a.trait [] := by
  induction h with
  | @named n args hlen hkinds hbounds _ ih =>
    intro _ c hc hf
    simp only [groundConc] at hc
    obtain ⟨cs, h1, h2⟩ := Res.bind_ok hc
    simp only [headConc] at h2
    have hw := declBad_of_fit hp k n h2 hf
    have hps := layout_part hp k n h2 hf
    have hT : ∃ d ∈ T, d.name = n := by
      cases k with
      | zero => simp [layout] at h2
      | succ k =>
        rw [layout] at h2
        cases hfd : find T n with
        | none => rw [hfd] at h2; cases h2
        | some d => exact ⟨d, find_mem hfd⟩
    obtain ⟨d, hd, rfl⟩ := hT
    have hi : autoImpl a d.name (S d.name) ∈ autoImpls a T k S := by
      simp only [autoImpls, List.mem_filterMap]
      exact ⟨d, hd, by rw [hw]⟩
    have arg : ∀ g, g < (S d.name).length →
        args[g]? = some (args.getD g (.node .tuple [])) := by
      intro g hg
      rw [← hlen] at hg
      simp [hg]
    have gens : ∀ g p, (autoImpl a d.name (S d.name)).gens[g]? = some p → ∃ q, (S d.name)[g]? = some q ∧
        g < (S d.name).length ∧ p.kind = q.kind ∧
        ∀ b ∈ p.bounds, b ∈ q.bounds ∨ q.kind = .type ∧ b = (a.trait, []) := by
      intro g p hg
      simp only [autoImpl, autoGens, List.getElem?_map, Option.map_eq_some_iff] at hg
      obtain ⟨q, hq, rfl⟩ := hg
      have hlt : g < (S d.name).length := by
        rcases Nat.lt_or_ge g (S d.name).length with h | h
        · exact h
        · rw [List.getElem?_eq_none h] at hq; cases hq
      refine ⟨q, hq, hlt, ?_, ?_⟩
      · split <;> rfl
      · intro b hb
        split at hb
        · next hty =>
          simp only [List.mem_append, List.mem_singleton] at hb
          exact hb.imp id (fun h => ⟨hty, h⟩)
        · exact .inl hb
    refine .mk (i := autoImpl a d.name (S d.name)) (σ := fun i => args.getD i (.node .tuple []))
      (auto_mem hi) ?_ ?_ rfl rfl ?_
    · intro g p hg
      obtain ⟨q, hq, hlt, hkq, _⟩ := gens g p hg
      rw [hkq]
      exact hkinds g q _ hq (arg g hlt)
    · intro g p hg b hb
      obtain ⟨q, hq, hlt, hkq, hbs⟩ := gens g p hg
      rcases hbs b hb with hb | ⟨hty, rfl⟩
      · exact hbounds g q _ hq (arg g hlt) b hb
      · have hm : args.getD g (.node .tuple []) ∈ args := List.mem_of_getElem? (arg g hlt)
        obtain ⟨x, hx, hxc⟩ := groundConcs_of_mem h1 _ hm
        have hk := hkinds g q _ hq (arg g hlt)
        rw [hty] at hk
        exact ih _ hm hk hxc (hps x hx)
    · rw [show (autoImpl a d.name (S d.name)).args = (List.range (S d.name).length).map .gen from rfl,
        insts_range, ← hlen, map_getD]
      rfl
  | @tuple args hlen hty _ ih =>
    intro _ c hc hf
    simp only [groundConc] at hc
    obtain ⟨cs, h1, h2⟩ := Res.bind_ok hc
    simp only [headConc] at h2
    cases h2
    cases hf with
    | tuple hf =>
      have arg : ∀ g p, (tupleImpl a args.length).gens[g]? = some p →
          p = ⟨.type, [(a.trait, [])]⟩ ∧ args.getD g (.node .tuple []) ∈ args := by
        intro g p hg
        simp only [tupleImpl, List.getElem?_replicate] at hg
        split at hg
        · next hlt =>
          cases hg
          refine ⟨rfl, List.mem_of_getElem? (i := g) ?_⟩
          simp [hlt]
        · cases hg
      refine .mk (i := tupleImpl a args.length) (σ := fun i => args.getD i (.node .tuple []))
        (core_mem (a := a) ?_) ?_ ?_ rfl rfl ?_
      · simp only [coreImpls, List.mem_cons, List.mem_map, List.mem_range]
        exact .inr ⟨_, by omega, rfl⟩
      · intro g p hg
        obtain ⟨rfl, hm⟩ := arg g p hg
        exact hty _ hm
      · intro g p hg b hb
        obtain ⟨rfl, hm⟩ := arg g p hg
        simp only [List.mem_singleton] at hb
        subst hb
        obtain ⟨x, hx, hxc⟩ := groundConcs_of_mem h1 _ hm
        exact ih _ hm (hty _ hm) hxc (hf x hx)
      · rw [show (tupleImpl a args.length).args = (List.range args.length).map .gen from rfl,
          insts_range, map_getD]
        rfl
  | @array t i hty hi _ ih =>
    intro _ c hc hf
    simp only [groundConc, groundConcs] at hc
    obtain ⟨cs, h1, h2⟩ := Res.bind_ok hc
    obtain ⟨x, h3, h4⟩ := Res.bind_ok h1
    simp only [Res.bind, headConc] at h4
    cases h4
    simp only [headConc] at h2
    cases h2
    cases hf with
    | array hf =>
      refine .mk (i := arrayImpl a) (σ := fun g => if g = 0 then t else .node (.int i) [])
        (core_mem (a := a) (by simp [coreImpls])) ?_ ?_ rfl rfl (by simp [arrayImpl, ITy.insts, ITy.inst])
      · intro g p hg
        match g, hg with
        | 0, hg => cases hg; simpa [Infer.Spec.Kind.Holds] using hty
        | 1, hg => cases hg; exact ⟨i, hi, rfl⟩
        | g + 2, hg => simp [arrayImpl] at hg
      · intro g p hg b hb
        match g, hg with
        | 0, hg =>
          cases hg
          simp only [List.mem_singleton] at hb
          subst hb
          exact ih hty h3 hf
        | 1, hg => cases hg; simp at hb
        | g + 2, hg => simp [arrayImpl] at hg
  | inverted _ _ =>
    intro _ c hc hf
    simp only [groundConc, groundConcs] at hc
    obtain ⟨cs, h1, h2⟩ := Res.bind_ok hc
    obtain ⟨x, h3, h4⟩ := Res.bind_ok h1
    simp only [Res.bind] at h4
    cases h4
    simp only [headConc] at h2
    cases h2
    cases hf
  | int => rintro ⟨l, hl⟩; cases hl
  | bool => rintro ⟨l, hl⟩; cases hl
  | str => rintro ⟨l, hl⟩; cases hl

end Spade.Auto

import Verif.Trait.Lemmas
/-!
# C52: an accepted `impl` honours its trait
-/
namespace Spade.Trait

/-! ## Reading impl and trait in one environment -/

section
variable {T : TraitDecl} {b : Block} {m u : Head} {c : Choice} {remap : List (Nat × Nat)}

/-- Reads the parameters of both sides. -/
def joint (T : TraitDecl) (b : Block) (m : Head) (c : Choice) : Env where
  un := c.un
  bin := c.bin
  gen g := if g ∈ T.tparams.map (·.1) ∨ g ∈ m.gens then c.σ g else c.ρ g
  self := some c.S
  alias n := if n = b.selfId then some c.S else none
  name := assocName T b

/-- Reads the parameters of both sides, but neither `Self` nor associated types. -/
def bare (T : TraitDecl) (m : Head) (c : Choice) : Env where
  un := c.un
  bin := c.bin
  gen g := if g ∈ T.tparams.map (·.1) ∨ g ∈ m.gens then c.σ g else c.ρ g
  self := none
  alias _ := none
  name n := n

/-- Reads the parameters of the trait. -/
def traitSide (T : TraitDecl) (b : Block) (c : Choice) : Env where
  un := c.un
  bin := c.bin
  gen := c.σ
  self := some c.S
  alias n := if n = b.selfId then some c.S else none
  name := assocName T b

theorem assocName_other {n : Nat} (h : n ∉ T.assoc.map (·.name)) : assocName T b n = n := by
  unfold assocName
  rw [find_absent (f := Assoc.name) h]

theorem joint_impl {t : Ty}
    (h : t.Over (fun g => g ∉ T.tparams.map (·.1) ∧ g ∉ m.gens)
      (fun n => n ∉ T.assoc.map (·.name)) False) :
    t.den (joint T b m c) = t.den (c.implEnv b) := by
  refine Ty.den_congr (E := joint T b m c) (F := c.implEnv b)
    ⟨rfl, rfl, fun g hg => ?_, fun n _ => rfl, fun n hn _ => ?_,
    False.elim⟩ h
  · show (if _ then _ else _) = _
    rw [if_neg (fun hc => hc.elim hg.1 hg.2)]
    rfl
  · exact assocName_other hn

theorem joint_default {t : Ty}
    (h : t.Over (fun g => g ∈ T.tparams.map (·.1)) (fun n => n ≠ b.selfId) True) :
    t.den (joint T b m c) = t.den (c.traitEnv T b) := by
  refine Ty.den_congr (E := joint T b m c) (F := c.traitEnv T b)
    ⟨rfl, rfl, fun g hg => ?_, fun n hn => ?_, fun n _ _ => rfl,
    fun _ => rfl⟩ h
  · show (if _ then _ else _) = _
    rw [if_pos (Or.inl hg)]
    rfl
  · show (if _ then _ else _) = _
    rw [if_neg hn]
    rfl

theorem traitSide_trait {p : Gen → Prop} {t : Ty}
    (h : t.Over p (fun n => n ≠ b.selfId) True) :
    t.den (traitSide T b c) = t.den (c.traitEnv T b) := by
  refine Ty.den_congr (E := traitSide T b c) (F := c.traitEnv T b)
    ⟨rfl, rfl, fun g _ => rfl, fun n hn => ?_, fun n _ _ => rfl,
    fun _ => rfl⟩ h
  show (if _ then _ else _) = _
  rw [if_neg hn]
  rfl

theorem CG.over_and {p p' : Gen → Prop} :
    ∀ {c : CG}, c.Over p → c.Over p' → c.Over (fun g => p g ∧ p' g)
  | .name _, h, h' => ⟨h, h'⟩
  | .un _ a, h, h' => by
    simp only [CG.Over] at h h' ⊢; exact CG.over_and h h'
  | .bin _ a c, h, h' => by
    simp only [CG.Over] at h h' ⊢; exact ⟨CG.over_and h.1 h'.1, CG.over_and h.2 h'.2⟩
  | .int _, _, _ => by simp only [CG.Over]
  | .bool _, _, _ => by simp only [CG.Over]
  | .str _, _, _ => by simp only [CG.Over]

mutual
theorem Ty.over_and {p p' : Gen → Prop} {q q' : Nat → Prop} {s s' : Prop} :
    ∀ {t : Ty}, t.Over p q s → t.Over p' q' s' →
    t.Over (fun g => p g ∧ p' g) (fun n => q n ∧ q' n) (s ∧ s')
  | .decl n args, h, h' => by
    simp only [Ty.Over] at h h' ⊢; exact ⟨⟨h.1, h'.1⟩, overs_and h.2 h'.2⟩
  | .gen g, h, h' => by simp only [Ty.Over] at h h' ⊢; exact ⟨h, h'⟩
  | .tup ts, h, h' => by simp only [Ty.Over] at h h' ⊢; exact overs_and h h'
  | .arr a c, h, h' => by
    simp only [Ty.Over] at h h' ⊢; exact ⟨Ty.over_and h.1 h'.1, Ty.over_and h.2 h'.2⟩
  | .inv t, h, h' => by simp only [Ty.Over] at h h' ⊢; exact Ty.over_and h h'
  | .copy t, h, h' => by simp only [Ty.Over] at h h' ⊢; exact Ty.over_and h h'
  | .self, h, h' => by simp only [Ty.Over] at h h' ⊢; exact ⟨h, h'⟩
  | .wild, _, _ => by simp only [Ty.Over]
  | .bool _, _, _ => by simp only [Ty.Over]
  | .int _, _, _ => by simp only [Ty.Over]
  | .str _, _, _ => by simp only [Ty.Over]
  | .cg k, h, h' => by simp only [Ty.Over] at h h' ⊢; exact CG.over_and h h'
theorem overs_and {p p' : Gen → Prop} {q q' : Nat → Prop} {s s' : Prop} :
    ∀ {ts : List Ty}, overs p q s ts → overs p' q' s' ts →
    overs (fun g => p g ∧ p' g) (fun n => q n ∧ q' n) (s ∧ s') ts
  | [], _, _ => by simp only [overs]
  | t :: ts, h, h' => by
    simp only [overs] at h h' ⊢; exact ⟨Ty.over_and h.1 h'.1, overs_and h.2 h'.2⟩
end

theorem joint_unfolds (hs : Scoped T b) (hm : m ∈ T.methods)
    (hr : checkAssoc T b.assoc [] = some remap) (hc : c.Fits T b m u) :
    Unfolds b.target b.selfId remap c.S (bare T m c) (joint T b m c) where
  un := rfl
  bin := rfl
  gen := rfl
  alias _ := rfl
  name _ := rfl
  jalias _ := rfl
  jname n _ := (remap_assocName hs hr n).symm
  jself := rfl
  target := by
    rw [← hc.self]
    have h1 := hs.head m hm _ (List.mem_cons_self ..)
    have h2 := Ty.over_and h1 hs.target
    refine Ty.den_congr (E := bare T m c) (F := c.implEnv b)
      ⟨rfl, rfl, fun g hg => ?_, fun n hn => ?_, fun n hn _ => rfl,
      fun h => h.1.elim⟩ h2
    · show (if _ then _ else _) = _
      rw [if_neg (fun h => h.elim hg.1.1 hg.1.2)]
      rfl
    · show _ = (if _ then _ else _)
      rw [if_neg hn.2]
      rfl

theorem joint_puts (hs : Scoped T b) (hm : m ∈ T.methods) (hu : u ∈ b.units)
    {ia : List Ty} (hf : fillArgs b.argList T.tparams = some ia) (hc : c.Fits T b m u) :
    Puts { tp := T.tparams.map (·.1), mp := m.gens, ia := ia, im := u.gens.map Ty.gen }
      (fun g => g ∈ T.tparams.map (·.1) ∨ g ∈ m.gens) (fun n => n ≠ b.selfId)
      (joint T b m c) (traitSide T b c) where
  un := rfl
  bin := rfl
  self := rfl
  alias := rfl
  name := rfl
  gen g hg := by
    show (if _ then _ else _) = _
    rw [if_pos hg]
    rfl
  find g a h := by
    show _ = c.σ g
    simp only [Subst.find] at h
    split at h
    · rename_i i hi
      have hg := findPos_get hi
      obtain ⟨g', d, hp, hd⟩ := fillArgs_get hf h
      rw [List.getElem?_map, hp] at hg
      injection hg with hg
      have hg : g' = g := hg
      subst hg
      rcases hd with hd | ⟨hd, rfl⟩
      · rw [hc.arg i g' d a hp hd,
          joint_impl (hs.head m hm a (List.mem_cons_of_mem _ (List.mem_of_getElem? hd)))]
      · rw [hc.dflt i g' a hp hd, joint_default (hs.dflt g' a (List.mem_of_getElem? hp))]
    · split at h
      · rename_i i hi
        have hg := findPos_get hi
        rw [List.getElem?_map] at h
        obtain ⟨k, hk, rfl⟩ := Option.map_eq_some_iff.mp h
        rw [hc.meth i g k hg hk]
        have hn := hs.gens u hu m hm k (List.mem_of_getElem? hk)
        show (if _ then _ else _) = _
        rw [if_neg (fun h => h.elim hn.1 hn.2)]
      · cases h

/-- A type of the impl and a type of the trait which are found equal mean the same. -/
theorem same_meaning (hs : Scoped T b) (hm : m ∈ T.methods) (hu : u ∈ b.units)
    (hr : checkAssoc T b.assoc [] = some remap)
    {ia : List Ty} (hf : fillArgs b.argList T.tparams = some ia) (hc : c.Fits T b m u)
    {tu tm t' : Ty} (htu : tu ∈ u.out :: u.params.map (·.2))
    (htm : tm.Over (fun g => g ∈ T.tparams.map (·.1) ∨ g ∈ m.gens) (fun n => n ≠ b.selfId) True)
    (hmap : mapTy { tp := T.tparams.map (·.1), mp := m.gens, ia := ia, im := u.gens.map Ty.gen } tm
      = some t')
    (heq : resolve b.target b.selfId remap t' = resolve b.target b.selfId remap tu) :
    tu.den (c.implEnv b) = tm.den (c.traitEnv T b) := by
  rw [← joint_impl (hs.impl u hu m hm tu htu),
    ← den_resolve (joint_unfolds hs hm hr hc) tu, ← heq,
    den_resolve (joint_unfolds hs hm hr hc) t',
    den_mapTy (joint_puts hs hm hu hf hc) htm hmap, traitSide_trait htm]

theorem checkParams_names {target : Ty} {selfId : Nat} {remap : List (Nat × Nat)} :
    ∀ {us ms : List (Nat × Ty)}, checkParams target selfId remap us ms = true →
    us.map (·.1) = ms.map (·.1)
  | [], [], _ => rfl
  | (n, t) :: us, (n', t') :: ms, h => by
    simp only [checkParams, Bool.and_eq_true, decide_eq_true_eq] at h
    simp [h.1.1, checkParams_names h.2]
  | [], _ :: _, h => by simp [checkParams] at h
  | _ :: _, [], h => by simp [checkParams] at h

theorem checkParams_get {target : Ty} {selfId : Nat} {remap : List (Nat × Nat)} :
    ∀ {us ms : List (Nat × Ty)} {i : Nat} {p q : Nat × Ty},
    checkParams target selfId remap us ms = true → us[i]? = some p → ms[i]? = some q →
    resolve target selfId remap q.2 = resolve target selfId remap p.2
  | [], _, _, _, _, _, h, _ => by simp at h
  | _ :: _, [], _, _, _, _, _, h => by simp at h
  | (n, t) :: us, (n', t') :: ms, i, p, q, h, hp, hq => by
    simp only [checkParams, Bool.and_eq_true, decide_eq_true_eq] at h
    cases i with
    | zero =>
      simp only [List.getElem?_cons_zero, Option.some.injEq] at hp hq
      subst hp; subst hq
      exact h.1.2
    | succ i => exact checkParams_get (i := i) h.2 (by simpa using hp) (by simpa using hq)

/-- A method which passes the checks is what the trait promises. -/
theorem checkMethod_honours (hs : Scoped T b) (hm : m ∈ T.methods) (hu : u ∈ b.units)
    (hr : checkAssoc T b.assoc [] = some remap) (hn : u.name = m.name)
    (h : checkMethod T b remap m u = true) : Honours T b m u := by
  simp only [checkMethod, Bool.and_eq_true, decide_eq_true_eq] at h
  obtain ⟨⟨h1, h2⟩, h3⟩ := h
  split at h3
  · cases h3
  · rename_i ps o hmap
    simp only [Bool.and_eq_true, decide_eq_true_eq] at h3
    simp only [mapMethod, Option.bind_eq_some_iff] at hmap
    obtain ⟨ia, hf, tys, htys, hmap⟩ := hmap
    have hlen := mapTys_length htys
    have hps : ps = (m.params.map (·.1)).zip tys := by
      split at hmap
      · injection hmap with hmap; exact (congrArg Prod.fst hmap).symm
      · obtain ⟨x, _, hx⟩ := Option.map_eq_some_iff.mp hmap
        exact (congrArg Prod.fst hx).symm
    have hfst : ps.map (·.1) = m.params.map (·.1) := by
      rw [hps, List.map_fst_zip]
      simp [hlen]
    refine ⟨hn, h1, h2, ?_, fun c hc i tu tm htu htm => ?_, fun c hc => ?_⟩
    · rw [checkParams_names h3.2, hfst]
    · obtain ⟨x, hx, hxm⟩ := mapTys_get (i := i) (t := tm.2) htys
        (by rw [List.getElem?_map, htm]; rfl)
      have hq : ps[i]? = some (tm.1, x) := by
        rw [hps, List.getElem?_zip_eq_some]
        exact ⟨by rw [List.getElem?_map, htm]; rfl, hx⟩
      exact same_meaning hs hm hu hr hf hc
        (List.mem_cons_of_mem _ (List.mem_map_of_mem (List.mem_of_getElem? htu)))
        (hs.trait m hm tm.2
          (List.mem_cons_of_mem _ (List.mem_map_of_mem (List.mem_of_getElem? htm)))) hxm
        (checkParams_get h3.2 htu hq)
    · have hout : mapTy ⟨T.tparams.map (·.1), m.gens, ia, u.gens.map Ty.gen⟩ m.out
          = some (o.getD (.tup [])) := by
        unfold Head.out
        split at hmap
        · rename_i ho
          injection hmap with hmap
          rw [ho, ← show none = o from congrArg Prod.snd hmap]
          rfl
        · rename_i t ho
          obtain ⟨x, hx, he⟩ := Option.map_eq_some_iff.mp hmap
          rw [ho, ← show some x = o from congrArg Prod.snd he]
          exact hx
      exact same_meaning hs hm hu hr hf hc (List.mem_cons_self ..)
        (hs.trait m hm m.out (List.mem_cons_self ..)) hout h3.1.symm

end

/-! ## The property -/

theorem lookupLast_mem {ms : List Head} {n : Nat} {m : Head} (h : lookupLast ms n = some m) :
    m ∈ ms ∧ m.name = n := by
  obtain ⟨h1, h2⟩ := find_mem (f := Head.name) h
  exact ⟨by simpa using h1, h2⟩

theorem lookupLast_unique {ms : List Head} {m : Head} (hn : (ms.map (·.name)).Nodup)
    (h : m ∈ ms) : lookupLast ms m.name = some m := by
  unfold lookupLast
  refine find_unique Head.name ?_ (by simpa using h)
  rw [List.map_reverse]
  exact List.pairwise_reverse.mpr (hn.imp fun h => h.symm)

theorem checkUnits_spec {T : TraitDecl} {b : Block} {remap : List (Nat × Nat)} :
    ∀ {us acc done : List Head}, checkUnits T b remap us acc = some done →
    done = us.reverse ++ acc ∧
    (∀ u ∈ us, ∃ m, lookupLast T.methods u.name = some m ∧ checkMethod T b remap m u = true) ∧
    ((acc.map (·.name)).Nodup → (done.map (·.name)).Nodup)
  | [], acc, done, h => by
    simp only [checkUnits, Option.some.injEq] at h
    subst h
    exact ⟨rfl, (fun u hu => nomatch hu), id⟩
  | u :: us, acc, done, h => by
    simp only [checkUnits] at h
    split at h
    · cases h
    · rename_i m hm
      split at h
      · cases h
      · rename_i hd
        split at h
        · rename_i hc
          obtain ⟨h1, h2, h3⟩ := checkUnits_spec h
          refine ⟨by simp [h1], fun v hv => ?_, fun hn => h3 ?_⟩
          · rcases List.mem_cons.mp hv with rfl | hv
            · exact ⟨m, hm, hc⟩
            · exact h2 v hv
          · rw [List.map_cons, List.nodup_cons]
            refine ⟨fun hmem => hd ?_, hn⟩
            obtain ⟨w, hw, he⟩ := List.mem_map.mp hmem
            exact List.any_eq_true.mpr ⟨w, hw, by simpa using he⟩
        · cases h

theorem checkAssoc_arity {T : TraitDecl} (hI : (T.assoc.map (·.ident)).Nodup) :
    ∀ {as : List Assoc} {acc r : List (Nat × Nat)} {t a : Assoc},
    checkAssoc T as acc = some r → t ∈ as → a ∈ T.assoc → t.ident = a.ident →
    t.arity = a.arity
  | [], _, _, _, _, _, h, _, _ => by cases h
  | b :: bs, acc, r, t, a, h, ht, ha, he => by
    simp only [checkAssoc] at h
    split at h
    · cases h
    · rename_i t' ht'
      split at h
      · rename_i har
        rcases List.mem_cons.mp ht with rfl | ht
        · have hu := find_unique Assoc.ident hI ha
          rw [← he, ht'] at hu
          injection hu with hu
          rw [har, hu]
        · exact checkAssoc_arity hI h ht ha he
      · cases h

/-- **C52.** An accepted `impl` honours its trait: it has exactly one unit for
each method the trait declares and no others, each with the safety, the number of
type parameters, the argument names and, whatever types it is used at, the argument
and result types the trait declares; and these units are the ones recorded for the
impl.

Partial: the trait's methods have distinct names (see
`C52_counterexample_duplicate_method`), and neither the kind of the unit nor the
bounds on its type parameters are covered (see `C52_counterexample_kind` and
`C52_counterexample_bound`). -/
theorem C52_impl_honours_trait_partial (T : TraitDecl) (b : Block) (fns : List Head)
    (h : checkImpl T b = some fns) (hs : Scoped T b) (hn : (T.methods.map (·.name)).Nodup) :
    (∀ m ∈ T.methods, ∃ u ∈ b.units, Honours T b m u ∧ ∀ v ∈ b.units, v.name = m.name → v = u) ∧
    (∀ u ∈ b.units, ∃ m ∈ T.methods, Honours T b m u) ∧
    (∀ u, u ∈ fns ↔ u ∈ b.units) ∧
    (∀ a ∈ T.assoc, ∃ t ∈ b.assoc, t.ident = a.ident ∧ t.arity = a.arity) := by
  simp only [checkImpl] at h
  split at h
  · simp only [Option.bind_eq_some_iff] at h
    obtain ⟨remap, hr, done, hd, h⟩ := h
    split at h
    · rename_i hall
      injection h with h
      subst h
      simp only [Bool.and_eq_true, List.all_eq_true, List.any_eq_true, decide_eq_true_eq] at hall
      obtain ⟨h1, h2, h3⟩ := checkUnits_spec hd
      rw [List.append_nil] at h1
      have hnd : (b.units.map (·.name)).Nodup := by
        have := h3 (by simp)
        rw [h1, List.map_reverse] at this
        exact (List.pairwise_reverse.mp this).imp fun h => h.symm
      have hmem : ∀ u, u ∈ done ↔ u ∈ b.units := fun u => by rw [h1, List.mem_reverse]
      have huse : ∀ u ∈ b.units, ∃ m ∈ T.methods, Honours T b m u := fun u hu => by
        obtain ⟨m, hm, hc⟩ := h2 u hu
        obtain ⟨hm1, hm2⟩ := lookupLast_mem hm
        exact ⟨m, hm1, checkMethod_honours hs hm1 hu hr hm2.symm hc⟩
      refine ⟨fun m hm => ?_, huse, hmem, fun a ha => ?_⟩
      · obtain ⟨u, hu, hun⟩ := hall.2 m hm
        rw [hmem] at hu
        obtain ⟨m', hm', hc⟩ := h2 u hu
        rw [hun, lookupLast_unique hn hm] at hm'
        injection hm' with hm'
        subst hm'
        refine ⟨u, hu, checkMethod_honours hs hm hu hr hun hc, fun v hv he => ?_⟩
        have e1 := find_unique Head.name hnd hv
        have e2 := find_unique Head.name hnd hu
        rw [hun, ← he, e1] at e2
        exact Option.some.inj e2
      · obtain ⟨t, ht, hid⟩ := hall.1 a ha
        exact ⟨t, ht, hid, checkAssoc_arity hs.idents.1 hr ht ha hid⟩
    · cases h
  · cases h

end Spade.Trait

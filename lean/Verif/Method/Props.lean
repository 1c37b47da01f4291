import Verif.Method.Lemmas
import Verif.Util
/-!
# Method calls resolve to the method they mean (C49)
-/
namespace Spade.Method
open Spade.Impl

variable {al : Nat → Option TySpec}

/-! ## Kinds -/

/-- Kind of a type or type-level value; `κ` gives the kinds of the variables. -/
def RTy.kind (κ : Nat → Kind) : RTy → Kind
  | .unknown n => κ n
  | .bool _ => .bool
  | .int _ => .int
  | .str _ => .str
  | _ => .type

mutual
/-- Well-kinded types: parameters have the declared number and kinds. -/
def RTy.WK (S : Sig) (κ : Nat → Kind) : RTy → Prop
  | .named n ts => ts.map (·.kind κ) = S.params n ∧ WKs S κ ts
  | .tuple ts => WKs S κ ts
  | .array t s => t.WK S κ ∧ s.kind κ = .int ∧ s.WK S κ
  | .inverted t | .copyView t => t.WK S κ
  | _ => True
/-- All of them. -/
def WKs (S : Sig) (κ : Nat → Kind) : List RTy → Prop
  | [] => True
  | t :: ts => t.WK S κ ∧ WKs S κ ts
end

section
variable {S : Sig} {κ : Nat → Kind}

theorem andThen3_ne {a b} (ha : a ≠ none) (hb : b ≠ none) : andThen3 a b ≠ none := by
  match a, b, ha, hb with
  | some .yes, some _, _, _ => simp [andThen3]
  | some .no, some _, _, _ => simp [andThen3]
  | some .maybe, some _, _, _ => simp [andThen3]

theorem both_ne {a b} (ha : a ≠ none) (hb : b ≠ none) : both a b ≠ none := by
  match a, b, ha, hb with
  | some _, some _, h1, h2 => exact andThen3_ne h1 h2

mutual
theorem no_panic : ∀ (s : TySpec) (t : RTy), HeadS al s → WKS S s → t.WK S κ →
    specOverlap s t ≠ none
  | .generic _, _, _, _, _ => by simp [specOverlap]
  | .declared n as, t, h, hs, ht => by
    cases t with
    | named m ts =>
      simp only [specOverlap]
      split
      · split
        · rename_i hn _
          subst hn
          exact no_panics as ts h.2 hs.2 ht.2 (hs.1.trans ht.1.symm)
        · simp
      · simp
    | _ => simp [specOverlap]
  | .tuple ss, t, h, hs, ht => by
    cases t with
    | tuple ts =>
      simp only [specOverlap]
      split
      · exact no_panicsS ss ts h hs.2 ht
      · simp
    | _ => simp [specOverlap]
  | .array a e, t, h, hs, ht => by
    cases t with
    | array t s =>
      simp only [specOverlap]
      exact both_ne (no_panic a t h.1 hs.2.1 ht.1)
        (no_panicE e s h.2 hs.2.2.2 ht.2.2 (hs.2.2.1.trans ht.2.1.symm))
    | _ => simp [specOverlap]
  | .inverted a, t, h, hs, ht => by
    cases t with
    | inverted t => simp only [specOverlap]; exact no_panic a t h hs.2 ht
    | _ => simp [specOverlap]
  | .copyView a, t, h, hs, ht => by
    cases t with
    | copyView t => simp only [specOverlap]; exact no_panic a t h hs.2 ht
    | _ => simp [specOverlap]
  | .traitSelf, _, h, _, _ | .wildcard, _, h, _, _ => h.elim
theorem no_panicE : ∀ (s : TyExpr) (t : RTy), HeadE al s → WKE S s → t.WK S κ →
    s.kind S = t.kind κ → exprOverlap s t ≠ none
  | .bool _, t, _, _, _, hk | .int _, t, _, _, _, hk | .str _, t, _, _, _, hk => by
    cases t <;> simp_all [exprOverlap, TyExpr.kind, RTy.kind]
  | .spec s, t, h, hs, ht, _ => by simp only [exprOverlap]; exact no_panic s t h hs ht
  | .constGeneric, _, h, _, _, _ => h.elim
theorem no_panics : ∀ (s : List TyExpr) (t : List RTy), HeadEs al s → WKEs S s → WKs S κ t →
    s.map (·.kind S) = t.map (·.kind κ) → exprOverlaps s t ≠ none
  | [], t, _, _, _, _ => by cases t <;> simp [exprOverlaps]
  | _ :: _, [], _, _, _, _ => by simp [exprOverlaps]
  | s :: ss, t :: ts, h, hs, ht, hk => by
    simp only [List.map_cons, List.cons.injEq] at hk
    simp only [exprOverlaps]
    exact andThen3_ne (no_panicE s t h.1 hs.1 ht.1 hk.1) (no_panics ss ts h.2 hs.2 ht.2 hk.2)
theorem no_panicsS : ∀ (s : List TySpec) (t : List RTy), HeadSs al s → WKSs S s → WKs S κ t →
    specOverlaps s t ≠ none
  | [], t, _, _, _ => by cases t <;> simp [specOverlaps]
  | _ :: _, [], _, _, _ => by simp [specOverlaps]
  | s :: ss, t :: ts, h, hs, ht => by
    simp only [specOverlaps]
    exact andThen3_ne (no_panic s t h.1 hs.1 ht.1) (no_panicsS ss ts h.2 hs.2 ht.2)
end
end

/-! ## Anonymous impls -/

theorem mapM_each {α β : Type} {f : α → Option β} : ∀ {l : List α} {ys}, l.mapM f = some ys →
    Each (fun x y => f x = some y) l ys
  | [], ys, h => by
    simp only [List.mapM_nil] at h
    cases h
    exact .nil
  | x :: l, ys, h => by
    simp only [List.mapM_cons, Option.bind_eq_bind, Option.bind_eq_some_iff] at h
    obtain ⟨y, hy, zs, hz, h⟩ := h
    cases h
    exact .cons hy (mapM_each hz)

theorem each_mapM {α β : Type} {f : α → Option β} {l : List α} {ys : List β}
    (h : Each (fun x y => f x = some y) l ys) : l.mapM f = some ys := by
  induction h with
  | nil => rfl
  | cons h1 _ ih => simp [h1, ih]

theorem each_left {α β : Type} {R : α → β → Prop} {l : List α} {ys : List β} (h : Each R l ys) :
    ∀ x ∈ l, ∃ y ∈ ys, R x y := by
  induction h with
  | nil => simp
  | cons h1 _ ih =>
    intro x hx
    rcases List.mem_cons.1 hx with rfl | hx
    · exact ⟨_, by simp, h1⟩
    · obtain ⟨y, hy, hr⟩ := ih x hx
      exact ⟨y, by simp [hy], hr⟩

theorem each_right {α β : Type} {R : α → β → Prop} {l : List α} {ys : List β} (h : Each R l ys) :
    ∀ y ∈ ys, ∃ x ∈ l, R x y := by
  induction h with
  | nil => simp
  | cons h1 _ ih =>
    intro x hx
    rcases List.mem_cons.1 hx with rfl | hx
    · exact ⟨_, by simp, h1⟩
    · obtain ⟨y, hy, hr⟩ := ih x hx
      exact ⟨y, by simp [hy], hr⟩

theorem uniqueFns_true {target : TySpec} : ∀ {fns : List (Nat × Fn)} {seen seen'},
    uniqueFns target fns seen = some (true, seen') →
    (∀ f ∈ fns, ∀ s ∈ seen, s.1 = f.1 → specsOverlap target s.2 = some false) ∧
    (∀ s ∈ seen, s ∈ seen') ∧ ∀ f ∈ fns, (f.1, target) ∈ seen'
  | [], seen, seen', h => by
    simp only [uniqueFns, Option.some.injEq, Prod.mk.injEq, true_and] at h
    subst h
    simp
  | f :: fs, seen, seen', h => by
    simp only [uniqueFns, Option.bind_eq_some_iff] at h
    obtain ⟨os, ho, h⟩ := h
    split at h
    · obtain ⟨r, _, hr⟩ := Option.map_eq_some_iff.1 h
      cases hr
    · rename_i hn
      obtain ⟨h1, h2, h3⟩ := uniqueFns_true h
      have key : ∀ s ∈ seen, s.1 = f.1 → specsOverlap target s.2 = some false := by
        intro s hs hsf
        have hm : s ∈ seen.filter fun s => s.1 = f.1 := by simp [hs, hsf]
        obtain ⟨o, hom, hoe⟩ := each_left (mapM_each ho) s hm
        cases o with
        | false => exact hoe
        | true => exact absurd (List.any_eq_true.2 ⟨true, hom, rfl⟩) hn
      refine ⟨?_, fun s hs => h2 s (by simp [hs]), ?_⟩
      · intro g hg s hs hsg
        rcases List.mem_cons.1 hg with rfl | hg
        · exact key s hs hsg
        · exact h1 g hg s (by simp [hs]) hsg
      · intro g hg
        rcases List.mem_cons.1 hg with rfl | hg
        · exact h2 _ (by simp)
        · exact h3 g hg

/-- Two blocks have no function of the same name and overlapping targets. -/
def Apart (a b : Block) : Prop :=
  ∀ f ∈ a.fns, ∀ g ∈ b.fns, f.1 = g.1 → specsOverlap b.target a.target = some false

theorem uniqueBlocks_true : ∀ {bs : List Block} {seen}, uniqueBlocks bs seen = some true →
    (∀ b ∈ bs, ∀ f ∈ b.fns, ∀ s ∈ seen, s.1 = f.1 → specsOverlap b.target s.2 = some false) ∧
    bs.Pairwise Apart
  | [], _, _ => by simp
  | b :: bs, seen, h => by
    simp only [uniqueBlocks, Option.bind_eq_some_iff] at h
    obtain ⟨⟨ok, seen'⟩, h1, h2⟩ := h
    obtain ⟨ok', h2, h3⟩ := Option.map_eq_some_iff.1 h2
    simp only [Bool.and_eq_true] at h3
    obtain ⟨rfl, rfl⟩ := h3
    obtain ⟨u1, u2, u3⟩ := uniqueFns_true h1
    obtain ⟨v1, v2⟩ := uniqueBlocks_true h2
    refine ⟨?_, List.pairwise_cons.2 ⟨?_, v2⟩⟩
    · intro c hc f hf s hs hsf
      rcases List.mem_cons.1 hc with rfl | hc
      · exact u1 f hf s hs hsf
      · exact v1 c hc f hf s (u2 s hs) hsf
    · intro c hc f hf g hg hfg
      exact v1 c hc g hg (f.1, b.target) (u3 f hf) hfg

theorem pairwise_mem {α : Type} {R : α → α → Prop} : ∀ {l : List α}, l.Pairwise R → ∀ {a b}, a ∈ l →
    b ∈ l → a = b ∨ R a b ∨ R b a
  | [], _, _, _, h, _ => by simp at h
  | x :: l, hp, a, b, ha, hb => by
    obtain ⟨h1, h2⟩ := List.pairwise_cons.1 hp
    rcases List.mem_cons.1 ha with ha | ha <;> rcases List.mem_cons.1 hb with hb | hb
    · exact .inl (ha.trans hb.symm)
    · exact .inr (.inl (ha ▸ h1 _ hb))
    · exact .inr (.inr (hb ▸ h1 _ ha))
    · exact pairwise_mem h2 ha hb

/-! ## Accepted impl blocks -/

/-- What the compiler checks about the impl blocks of a program: the targets are legal and the
anonymous blocks are unique; functions are different units.  The targets are free of aliases and
booleans (`PlainS`), for which `C26_counterexample_alias` and `C26_counterexample_bool` show that
the checks fail, and each generic occurs once in a target. -/
structure Accepted (al : Nat → Option TySpec) (blocks : List Block) : Prop where
  heads : ∀ b ∈ blocks, HeadS al b.target ∧ PlainS al b.target ∧ key b.target ≠ none
  linear : ∀ b ∈ blocks, (gensS b.target).Nodup
  names : ∀ b ∈ blocks, (b.fns.map (·.1)).Nodup
  units : (blocks.flatMap fun b => b.fns.map (·.2)).Nodup
  unique : ∀ target, unique blocks target = some true

theorem key_inst {σ} : ∀ {s : TySpec} {t : RTy} {c : Con} {τ}, HeadS al s → key s ≠ none →
    Compl τ t c → InstS al σ s c → targetOf t ≠ none → key s = targetOf t
  | .generic _, _, _, _, _, h, _, _, _ => absurd rfl h
  | .declared n as, t, c, _, h, _, hc, hi, ht => by
    obtain ⟨cs, rfl, _⟩ := hi.named_inv h.1
    cases hc with
    | unknown => exact absurd rfl ht
    | named => rfl
  | .tuple _, t, c, _, h, _, hc, hi, ht | .array _ _, t, c, _, h, _, hc, hi, ht
  | .inverted _, t, c, _, h, _, hc, hi, ht | .copyView _, t, c, _, h, _, hc, hi, ht => by
    cases hi; cases hc <;> first | exact absurd rfl ht | rfl
  | .traitSelf, _, _, _, h, _, _, _, _ | .wildcard, _, _, _, h, _, _, _, _ => h.elim

theorem names_inj {b : Block} (h : (b.fns.map (·.1)).Nodup) {name : Nat} {f g : Fn}
    (hf : (name, f) ∈ b.fns) (hg : (name, g) ∈ b.fns) : g = f := by
  have : ∀ {l : List (Nat × Fn)}, (l.map (·.1)).Nodup → (name, f) ∈ l → (name, g) ∈ l → g = f := by
    intro l
    induction l with
    | nil => intro _ h; simp at h
    | cons x l ih =>
      intro hn h1 h2
      simp only [List.map_cons, List.nodup_cons, List.mem_map, not_exists, not_and] at hn
      rcases List.mem_cons.1 h1 with k1 | k1 <;> rcases List.mem_cons.1 h2 with k2 | k2
      · subst k1; cases k2; rfl
      · subst k1; exact absurd rfl (hn.1 (name, g) k2)
      · subst k2; exact absurd rfl (hn.1 (name, f) k1)
      · exact ih hn.2 k1 k2
  exact this h hf hg

/-- At most one anonymous block offers a method for a type. -/
theorem own_unique {blocks : List Block} (ha : Accepted al blocks) {t : RTy} {τ} {c : Con}
    (hc : Compl τ t c) (ht : targetOf t ≠ none) {name : Nat} {b b' : Block} {i j : Nat} {f f' : Fn}
    (hb : b ∈ blocks) (hb' : b' ∈ blocks) (hi : b.trait = .anonymous i) (hj : b'.trait = .anonymous j)
    (ho : Offers al b c name f) (ho' : Offers al b' c name f') : f' = f := by
  obtain ⟨⟨σ, hs⟩, hf⟩ := ho
  obtain ⟨⟨σ', hs'⟩, hf'⟩ := ho'
  obtain ⟨p1, p2, p3⟩ := ha.heads b hb
  obtain ⟨q1, q2, q3⟩ := ha.heads b' hb'
  have k1 := key_inst p1 p3 hc hs ht
  have k2 := key_inst q1 q3 hc hs' ht
  obtain ⟨target, htt⟩ := Option.ne_none_iff_exists'.1 ht
  have hu := (uniqueBlocks_true (ha.unique target)).2
  have m1 : b ∈ blocks.filter fun b => b.trait.isAnonymous && key b.target = some target := by
    simp [hb, hi, TraitName.isAnonymous, k1, htt]
  have m2 : b' ∈ blocks.filter fun b => b.trait.isAnonymous && key b.target = some target := by
    simp [hb', hj, TraitName.isAnonymous, k2, htt]
  rcases pairwise_mem hu m1 m2 with rfl | h | h
  · exact names_inj (ha.names b hb) hf hf'
  · exact absurd (h _ hf _ hf' rfl) (specsOverlap_sound _ _ c q2 p2 hs' hs)
  · exact absurd (h _ hf' _ hf rfl) (specsOverlap_sound _ _ c p2 q2 hs hs')

/-! ## Views -/

theorem strip_compl {τ} : ∀ {t : RTy} {c : Con}, Compl τ t c → targetOf (strip t).1 ≠ none →
    Compl τ (strip t).1 (base c) ∧ (strip t).2 = -(views c : Int)
  | .copyView t, _, .copyView h, ht => by
    simp only [strip] at ht ⊢
    obtain ⟨h1, h2⟩ := strip_compl h ht
    refine ⟨h1, ?_⟩
    rw [h2]
    simp only [views]
    omega
  | .unknown _, _, _, ht => absurd rfl ht
  | .named _ _, _, .named h, _ => ⟨.named h, rfl⟩
  | .tuple _, _, .tuple h, _ => ⟨.tuple h, rfl⟩
  | .array _ _, _, .array h h', _ => ⟨.array h h', rfl⟩
  | .inverted _, _, .inverted h, _ => ⟨.inverted h, rfl⟩
  | .bool _, _, .bool, _ => ⟨.bool, rfl⟩
  | .int _, _, .int, _ => ⟨.int, rfl⟩
  | .str _, _, .str, _ => ⟨.str, rfl⟩

/-! ## Candidates -/

/-- The functions of that name of the blocks for the target. -/
def pool (blocks : List Block) (target : Target) (name : Nat) : List (Block × Fn) :=
  (blocks.filter fun b => key b.target = some target).flatMap fun b =>
    (b.fns.filter fun f => f.1 = name).map fun f => (b, f.2)

theorem mem_pool {blocks : List Block} {target : Target} {name : Nat} {x : Block × Fn} :
    x ∈ pool blocks target name ↔ x.1 ∈ blocks ∧ key x.1.target = some target ∧
      (name, x.2) ∈ x.1.fns := by
  simp only [pool, List.mem_flatMap, List.mem_filter, List.mem_map, decide_eq_true_eq]
  constructor
  · rintro ⟨b, ⟨h1, h2⟩, f, ⟨h3, h4⟩, rfl⟩
    subst h4
    exact ⟨h1, h2, h3⟩
  · rintro ⟨h1, h2, h3⟩
    exact ⟨x.1, ⟨h1, h2⟩, _, ⟨h3, rfl⟩, rfl⟩

theorem sublist_flatMap {α β : Type} {f g : α → List β} (h : ∀ a, (f a).Sublist (g a)) :
    ∀ l : List α, (l.flatMap f).Sublist (l.flatMap g)
  | [] => by simp
  | a :: l => by
    simp only [List.flatMap_cons]
    exact (h a).append (sublist_flatMap h l)

theorem pool_units {blocks : List Block} (h : (blocks.flatMap fun b => b.fns.map (·.2)).Nodup)
    {target : Target} {name : Nat} : ((pool blocks target name).map (·.2)).Nodup := by
  refine List.Sublist.nodup ?_ h
  rw [pool, List.map_flatMap]
  have h1 : ∀ b : Block, (((b.fns.filter fun f => f.1 = name).map fun f => (b, f.2)).map (·.2)).Sublist
      (b.fns.map (·.2)) := by
    intro b
    rw [List.map_map]
    exact (List.filter_sublist).map _
  refine (sublist_flatMap h1 _).trans ?_
  have h2 : ∀ (p : Block → Bool) (l : List Block),
      ((l.filter p).flatMap fun b => b.fns.map (·.2)).Sublist (l.flatMap fun b => b.fns.map (·.2)) := by
    intro p l
    induction l with
    | nil => simp
    | cons b l ih =>
      simp only [List.filter_cons, List.flatMap_cons]
      split
      · simp only [List.flatMap_cons]
        exact (List.Sublist.refl _).append ih
      · exact ih.trans (List.sublist_append_right _ _)
  exact h2 _ _

theorem candidates_each {blocks : List Block} {target : Target} {name : Nat} {t : RTy} {cs}
    (h : candidates blocks target name t = some cs) :
    Each (fun (x : Block × Fn) y => ∃ o, specOverlap x.1.target t = some o ∧ y = (x.1.trait, x.2, o))
      (pool blocks target name) cs := by
  refine (mapM_each h).imp ?_
  intro x y hxy
  obtain ⟨o, ho, rfl⟩ := Option.map_eq_some_iff.1 hxy
  exact ⟨o, ho, rfl⟩

/-- The candidates that match. -/
def matching (cs : List (TraitName × Fn × Overlap)) : List (TraitName × Fn) :=
  (cs.filter fun c => c.2.2 = .yes).map fun c => (c.1, c.2.1)

theorem mem_matching {cs : List (TraitName × Fn × Overlap)} {x : TraitName × Fn} :
    x ∈ matching cs ↔ (x.1, x.2, .yes) ∈ cs := by
  simp only [matching, List.mem_map, List.mem_filter, decide_eq_true_eq]
  constructor
  · rintro ⟨⟨a, b, c⟩, ⟨h1, h2⟩, rfl⟩
    cases h2
    exact h1
  · intro h
    exact ⟨_, ⟨h, rfl⟩, rfl⟩

section
variable {blocks : List Block} {target : Target} {name : Nat} {t : RTy} {c : Con} {τ : Nat → Con}
  {cs : List (TraitName × Fn × Overlap)}

/-- The candidates that match are those that are offered. -/
theorem matching_offers (ha : Accepted al blocks) (hc : Compl τ t c) (ht : targetOf t = some target)
    (h : candidates blocks target name t = some cs) {x : TraitName × Fn} (hx : x ∈ matching cs) :
    ∃ b ∈ blocks, b.trait = x.1 ∧ Offers al b c name x.2 := by
  obtain ⟨y, hy, o, ho, he⟩ := each_right (candidates_each h) _ (mem_matching.1 hx)
  simp only [Prod.mk.injEq] at he
  obtain ⟨he1, he2, rfl⟩ := he
  obtain ⟨p1, p2, p3⟩ := mem_pool.1 hy
  rw [he1, he2]
  exact ⟨y.1, p1, rfl, yes_sound _ _ c (ha.heads _ p1).1 (ha.linear _ p1) hc ho, p3⟩

theorem offers_matching (ha : Accepted al blocks) (hc : Compl τ t c) (ht : targetOf t = some target)
    (h : candidates blocks target name t = some cs) (hm : ¬ cs.any (fun c => c.2.2 = .maybe))
    {b : Block} {f : Fn} (hb : b ∈ blocks) (ho : Offers al b c name f) :
    (b.trait, f) ∈ matching cs := by
  obtain ⟨⟨σ, hs⟩, hf⟩ := ho
  obtain ⟨p1, p2, p3⟩ := ha.heads b hb
  have hk : key b.target = some target := by
    rw [key_inst p1 p3 hc hs (by rw [ht]; simp), ht]
  obtain ⟨y, hy, o, ho, rfl⟩ := each_left (candidates_each h) (b, f) (mem_pool.2 ⟨hb, hk, hf⟩)
  rw [mem_matching]
  cases o with
  | yes => exact hy
  | no => exact absurd ho (no_sound _ _ c p1 hc hs)
  | maybe => exact absurd (List.any_eq_true.2 ⟨_, hy, by simp⟩) hm

theorem matching_units (ha : Accepted al blocks)
    (h : candidates blocks target name t = some cs) : ((matching cs).map (·.2)).Nodup := by
  have h1 : cs.map (·.2.1) = (pool blocks target name).map (·.2) := by
    have := candidates_each h
    generalize pool blocks target name = l at this
    clear h
    induction this with
    | nil => rfl
    | cons h1 _ ih =>
      obtain ⟨o, _, rfl⟩ := h1
      simp [ih]
  have h2 : ((matching cs).map (·.2)).Sublist (cs.map (·.2.1)) := by
    rw [matching, List.map_map]
    exact (List.filter_sublist).map _
  exact h2.nodup (h1 ▸ pool_units ha.units)

end

theorem choose_ok {xs : List (TraitName × Fn)} {f : Fn} (h : choose xs = .ok f) :
    (∃ x, xs = [x] ∧ x.2 = f) ∨ ∃ x ∈ xs, x.1.isAnonymous = true ∧ x.2 = f := by
  match xs, h with
  | [x], h => simp only [choose, Except.ok.injEq] at h; exact .inl ⟨x, rfl, h⟩
  | x :: y :: zs, h =>
    simp only [choose] at h
    split at h
    · rename_i z hz
      simp only [Except.ok.injEq] at h
      exact .inr ⟨z, List.mem_of_find?_eq_some hz, by simpa using List.find?_some hz, h⟩
    · cases h

theorem adjust_ok {s : Bool} {f g : Fn} {d e : Int} (h : adjust s f d = .ok g e) :
    g = f ∧ (s = true ↔ f.selfness ≠ .static) ∧ e = d + f.selfness.wants := by
  simp only [adjust] at h
  split at h <;> cases h <;> simp_all [Selfness.wants]

/-- **C49** A method call that resolves, possibly before the type of the receiver is fully known,
resolves to what the name means for the type the receiver turns out to have, whatever that is; it is
a method exactly if it is called with a receiver, and the receiver gets the number of views that the
method wants. -/
theorem C49_resolves (al : Nat → Option TySpec) (blocks : List Block) (ha : Accepted al blocks)
    (t : RTy) (name : Nat) (takesSelf : Bool) (f : Fn) (delta : Int)
    (hs : select blocks t name takesSelf = .ok f delta) (τ : Nat → Con) (c : Con) (hc : Compl τ t c) :
    Means al blocks (base c) name f ∧ (takesSelf = true ↔ f.selfness ≠ .static) ∧
      (views c : Int) + delta = f.selfness.wants := by
  simp only [select] at hs
  split at hs
  · cases hs
  · rename_i target ht
    split at hs
    · cases hs
    · rename_i cs hcs
      split at hs
      · cases hs
      · rename_i hm
        split at hs
        · cases hs
        · rename_i g hg
          obtain ⟨rfl, h1, h2⟩ := adjust_ok hs
          obtain ⟨hc', hv⟩ := strip_compl hc (by rw [ht]; simp)
          refine ⟨?_, h1, by omega⟩
          have hne : targetOf (strip t).1 ≠ none := by rw [ht]; simp
          rcases choose_ok hg with ⟨x, hx, rfl⟩ | ⟨x, hx, hxa, rfl⟩
          · have hx' : x ∈ matching cs := by rw [matching, hx]; simp
            obtain ⟨b, hb, _, ho⟩ := matching_offers ha hc' ht hcs hx'
            refine .trait hb ho ?_
            intro b' hb' f' ho'
            have := offers_matching ha hc' ht hcs hm hb' ho'
            rw [matching, hx] at this
            rw [← List.mem_singleton.1 this]
          · obtain ⟨b, hb, hbt, ho⟩ := matching_offers ha hc' ht hcs hx
            cases hxt : x.1 with
            | named n => rw [hxt] at hxa; cases hxa
            | anonymous i =>
              refine .own hb (hbt.trans hxt) ho ?_
              intro b' hb' j f' hj ho'
              exact own_unique ha hc' hne hb hb' (hbt.trans hxt) hj ho ho'

theorem strip_known : ∀ {t : RTy}, t.Known → (strip t).1.Known
  | .copyView t, h => by simp only [strip]; exact strip_known (t := t) h
  | .named _ _, h | .tuple _, h | .array _ _, h | .inverted _, h => h
  | .bool _, h | .int _, h | .str _, h => h
  | .unknown _, h | .error, h => h.elim

theorem strip_wk {S : Sig} {κ : Nat → Kind} : ∀ {t : RTy}, t.WK S κ → (strip t).1.WK S κ
  | .copyView t, h => by simp only [strip]; exact strip_wk (t := t) h
  | .named _ _, h | .tuple _, h | .array _ _, h | .inverted _, h => h
  | .bool _, h | .int _, h | .str _, h | .unknown _, h | .error, h => h

theorem candidates_some {S : Sig} {κ : Nat → Kind} {blocks : List Block} (ha : Accepted al blocks)
    (hw : ∀ b ∈ blocks, WKS S b.target) {t : RTy} (ht : t.WK S κ) (target : Target) (name : Nat) :
    ∃ cs, candidates blocks target name t = some cs := by
  have : ∀ (l : List (Block × Fn)), (∀ x ∈ l, x.1 ∈ blocks) →
      ∃ cs, l.mapM (fun x => (specOverlap x.1.target t).map fun o => (x.1.trait, x.2, o)) = some cs := by
    intro l
    induction l with
    | nil => intro _; exact ⟨[], rfl⟩
    | cons x l ih =>
      intro hl
      obtain ⟨cs, hcs⟩ := ih fun y hy => hl y (by simp [hy])
      have hx := hl x (by simp)
      obtain ⟨o, ho⟩ := Option.ne_none_iff_exists'.1
        (no_panic x.1.target t (ha.heads _ hx).1 (hw _ hx) ht)
      exact ⟨_, by simp only [List.mapM_cons, ho, hcs]; rfl⟩
  exact this (pool blocks target name) fun x hx => (mem_pool.1 hx).1

theorem all_eq_single {α : Type} {a : α} : ∀ {l : List α}, l.Nodup → (∀ x ∈ l, x = a) → a ∈ l → l = [a]
  | [], _, _, h => by simp at h
  | [x], _, h, _ => by rw [h x (by simp)]
  | x :: y :: l, hn, h, _ => by
    have h1 := h x (by simp)
    have h2 := h y (by simp)
    simp [h1, h2] at hn

/-- **C49** If the type of the receiver is known and the name means something for it, then the call
resolves to that or is rejected for calling a method without or a function with a receiver. -/
theorem C49_decides (al : Nat → Option TySpec) (blocks : List Block) (ha : Accepted al blocks)
    (S : Sig) (hw : ∀ b ∈ blocks, WKS S b.target) (κ : Nat → Kind) (t : RTy) (hwk : t.WK S κ)
    (hk : t.Known) (τ : Nat → Con) (c : Con) (hc : Compl τ t c) (name : Nat) (takesSelf : Bool)
    (f : Fn) (hm : Means al blocks (base c) name f) :
    if takesSelf = true ↔ f.selfness ≠ .static then
      select blocks t name takesSelf = .ok f (f.selfness.wants - views c)
    else select blocks t name takesSelf = .bad (if takesSelf then .static else .notStatic) := by
  have hoff : ∃ b ∈ blocks, Offers al b (base c) name f := by
    cases hm with
    | own hb _ ho _ => exact ⟨_, hb, ho⟩
    | trait hb ho _ => exact ⟨_, hb, ho⟩
  obtain ⟨b, hb, ho⟩ := hoff
  have hne : targetOf (strip t).1 ≠ none := by
    intro hn
    -- the base of a known type that is not a target is a value, and no header stands for that
    obtain ⟨⟨σ, hs⟩, _⟩ := ho
    obtain ⟨p1, p2, p3⟩ := ha.heads b hb
    have : ∀ {t : RTy} {c : Con}, t.Known → Compl τ t c → targetOf (strip t).1 = none →
        key b.target ≠ none → ¬ InstS al σ b.target (base c) := by
      intro t
      induction t using RTy.rec (motive_2 := fun _ => True) with
      | copyView t ih =>
        intro c hk hc hn hkey
        cases hc with
        | copyView hc =>
          have := ih hk hc hn hkey
          exact this
      | unknown => intro c hk; exact hk.elim
      | error => intro c hk; exact hk.elim
      | bool v | int v | str v =>
        intro c hk hc hn hkey hi
        cases hc
        simp only [base] at hi
        cases htg : b.target <;> rw [htg] at hi hkey p1 <;> first
          | exact absurd rfl hkey
          | (obtain ⟨_, h, _⟩ := hi.named_inv p1.1; cases h)
          | cases hi
      | named | tuple | array | inverted => intro c hk hc hn; simp [strip, targetOf] at hn
      | nil | cons => trivial
    exact this hk hc hn p3 hs
  obtain ⟨target, ht⟩ := Option.ne_none_iff_exists'.1 hne
  obtain ⟨cs, hcs⟩ := candidates_some ha hw (strip_wk hwk) target name
  obtain ⟨hc', hv⟩ := strip_compl hc hne
  have hmay : ¬ cs.any (fun c => c.2.2 = .maybe) := by
    intro h
    obtain ⟨x, hx, hx'⟩ := List.any_eq_true.1 h
    obtain ⟨y, _, o, ho, rfl⟩ := each_right (candidates_each hcs) x hx
    simp only [decide_eq_true_eq] at hx'
    subst hx'
    exact definite _ _ (strip_known hk) ho
  have hmem := offers_matching ha hc' ht hcs hmay hb ho
  have hch : choose (matching cs) = .ok f := by
    cases hm with
    | trait hb1 ho1 hu =>
      have hall : ∀ x ∈ (matching cs).map (·.2), x = f := by
        intro x hx
        obtain ⟨y, hy, rfl⟩ := List.mem_map.1 hx
        obtain ⟨b', hb', _, ho'⟩ := matching_offers ha hc' ht hcs hy
        exact hu b' hb' _ ho'
      have := all_eq_single (matching_units ha hcs) hall (List.mem_map.2 ⟨_, hmem, rfl⟩)
      obtain ⟨x, hx, hx2⟩ := List.map_eq_singleton_iff.1 this
      rw [hx]
      simp [choose, hx2]
    | @own b1 i _ hb1 hi ho1 hu =>
      have hm1 := offers_matching ha hc' ht hcs hmay hb1 ho1
      rw [hi] at hm1
      match hmc : matching cs with
      | [] => rw [hmc] at hm1; simp at hm1
      | [x] => rw [hmc] at hm1; simp only [choose]; rw [← List.mem_singleton.1 hm1]
      | x :: y :: zs =>
        simp only [choose]
        cases hf : (x :: y :: zs).find? (fun x => x.1.isAnonymous) with
        | none =>
          have := List.find?_eq_none.1 hf _ (hmc ▸ hm1)
          simp [TraitName.isAnonymous] at this
        | some z =>
          have hz : z ∈ matching cs := hmc ▸ List.mem_of_find?_eq_some hf
          have hza := List.find?_some hf
          obtain ⟨b', hb', hbt, ho'⟩ := matching_offers ha hc' ht hcs hz
          cases hzt : z.1 with
          | named n => rw [hzt] at hza; cases hza
          | anonymous j => simp only [hu b' hb' j z.2 (hbt.trans hzt) ho']
  have hsel : select blocks t name takesSelf = adjust takesSelf f (strip t).2 := by
    simp only [select, ht, hcs, if_neg hmay]
    show (match choose (matching cs) with | .error e => Sel.bad e | .ok f => adjust takesSelf f (strip t).2) = _
    rw [hch]
  rw [hsel, hv]
  cases takesSelf <;> cases hsf : f.selfness <;>
    simp [adjust, hsf, Selfness.wants, Int.add_comm, Int.sub_eq_add_neg]

/-- **C49** What is known later does not change the outcome: once a call has resolved or is rejected,
it resolves or is rejected in the same way whatever the unknown parts of the type turn out to be.
(`noMethods` is left out, see `C49_counterexample_view`.) -/
theorem C49_stable (al : Nat → Option TySpec) (blocks : List Block) (ha : Accepted al blocks)
    (S : Sig) (hw : ∀ b ∈ blocks, WKS S b.target) (t : RTy) (name : Nat) (takesSelf : Bool)
    (τ : Nat → RTy) (κ : Nat → Kind) (hwk : (t.refine τ).WK S κ) (r : Sel)
    (hs : select blocks t name takesSelf = r) (h1 : r ≠ .wait) (h2 : r ≠ .bad .noMethods)
    (h3 : r ≠ .panic) : select blocks (t.refine τ) name takesSelf = r := by
  have hstrip : ∀ {t : RTy}, targetOf (strip t).1 ≠ none →
      strip (t.refine τ) = ((strip t).1.refine τ, (strip t).2) := by
    intro t
    induction t using RTy.rec (motive_2 := fun _ => True) with
    | copyView t ih => intro h; simp only [strip, RTy.refine]; rw [ih h]
    | nil | cons => trivial
    | unknown => intro h; exact absurd rfl h
    | _ => intro _; simp [strip, RTy.refine]
  have htar : ∀ {t : RTy}, targetOf t ≠ none → targetOf (t.refine τ) = targetOf t := by
    intro t h
    cases t <;> first | rfl | exact absurd rfl h
  simp only [select] at hs
  split at hs
  · exact absurd hs.symm h2
  · rename_i target ht
    have hne : targetOf (strip t).1 ≠ none := by rw [ht]; simp
    split at hs
    · exact absurd hs.symm h3
    · rename_i cs hcs
      split at hs
      · exact absurd hs.symm h1
      · rename_i hm
        have hwk' := strip_wk hwk
        rw [hstrip hne] at hwk'
        obtain ⟨cs', hcs'⟩ := candidates_some ha hw hwk' target name
        have e1 := candidates_each hcs
        have e2 := candidates_each hcs'
        have hmay : ∀ x ∈ cs, x.2.2 ≠ .maybe := by
          intro x hx hx'
          exact hm (List.any_eq_true.2 ⟨x, hx, by simp [hx']⟩)
        have : cs' = cs := by
          clear hs hcs hcs' hm
          generalize pool blocks target name = l at e1 e2
          induction e1 generalizing cs' with
          | nil => cases e2; rfl
          | @cons a b as bs r1 e1 ih =>
            cases e2 with
            | cons r2 e2 =>
              obtain ⟨o, ho, rfl⟩ := r1
              obtain ⟨o', ho', rfl⟩ := r2
              rw [ih _ (fun x hx => hmay x (by simp [hx])) e2]
              rcases stable (τ := τ) _ _ o (hmay (a.1.trait, a.2, o) (by simp)) ho with h | h
              · rw [h] at ho'
                cases ho'
                rfl
              · rw [h] at ho'
                cases ho'
        subst this
        simp only [select, hstrip hne, htar hne, ht, hcs', if_neg hm]
        exact hs

end Spade.Method

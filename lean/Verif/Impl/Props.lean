import Verif.Impl.Model
/-!
# Trait implementations are coherent (C26)
-/
namespace Spade.Impl

/-! ## Specification -/

/-- Concrete types and type level values. -/
inductive Con where
  | named (n : Nat) (args : List Con)
  | tuple (args : List Con)
  | array (elem size : Con)
  | inverted (t : Con)
  | copyView (t : Con)
  | bool (b : Bool)
  | int (i : Int)
  | str (s : String)

mutual
/-- `InstS al σ t c`: the concrete type `c` is what `t` stands for when the generics stand for `σ` and
the type aliases for `al`. Const generics may stand for anything; `Self` in a trait definition and
wildcards are not allowed in the header of an impl (spade-ast-lowering/src/lib.rs:560-575) and stand
for nothing. -/
inductive InstS (al : Nat → Option TySpec) (σ : Nat → Con) : TySpec → Con → Prop where
  | generic (g) : InstS al σ (.generic g) (σ g)
  | named {n as cs} : al n = none → InstEs al σ as cs → InstS al σ (.declared n as) (.named n cs)
  | alias {n t c} : al n = some t → InstS al σ t c → InstS al σ (.declared n []) c
  | tuple {ts cs} : InstSs al σ ts cs → InstS al σ (.tuple ts) (.tuple cs)
  | array {t e c n} : InstS al σ t c → InstE al σ e n → InstS al σ (.array t e) (.array c n)
  | inverted {t c} : InstS al σ t c → InstS al σ (.inverted t) (.inverted c)
  | copyView {t c} : InstS al σ t c → InstS al σ (.copyView t) (.copyView c)
/-- The same for type expressions. -/
inductive InstE (al : Nat → Option TySpec) (σ : Nat → Con) : TyExpr → Con → Prop where
  | bool (b) : InstE al σ (.bool b) (.bool b)
  | int (i) : InstE al σ (.int i) (.int i)
  | str (s) : InstE al σ (.str s) (.str s)
  | spec {t c} : InstS al σ t c → InstE al σ (.spec t) c
  | const (c) : InstE al σ .constGeneric c
/-- The same for lists of type expressions. -/
inductive InstEs (al : Nat → Option TySpec) (σ : Nat → Con) : List TyExpr → List Con → Prop where
  | nil : InstEs al σ [] []
  | cons {e es c cs} : InstE al σ e c → InstEs al σ es cs → InstEs al σ (e :: es) (c :: cs)
/-- The same for lists of types. -/
inductive InstSs (al : Nat → Option TySpec) (σ : Nat → Con) : List TySpec → List Con → Prop where
  | nil : InstSs al σ [] []
  | cons {t ts c cs} : InstS al σ t c → InstSs al σ ts cs → InstSs al σ (t :: ts) (c :: cs)
end

/-- The impl applies to the concrete target type with arguments `cs`, as an implementation of the
trait with arguments `ds`. -/
def Header.AppliesTo (al : Nat → Option TySpec) (h : Header) (target : Target) (cs : List Con)
    (trait : Nat) (ds : List Con) : Prop :=
  h.target = target ∧ h.trait = trait ∧
    ∃ σ, InstEs al σ h.targetArgs cs ∧ InstEs al σ h.traitArgs ds

/-- `Registered hs t`: the impls `hs` have been registered one after the other, each was accepted, and
the table is now `t`. -/
inductive Registered : List Header → List Header → Prop where
  | empty : Registered [] []
  | insert {hs t t' h} : Registered hs t → insert t h = .ok t' → Registered (hs ++ [h]) t'

mutual
/-- No boolean type level value and no type alias occurs. -/
def PlainS (al : Nat → Option TySpec) : TySpec → Prop
  | .declared n as => al n = none ∧ PlainEs al as
  | .generic _ => True
  | .tuple ts => PlainSs al ts
  | .array t e => PlainS al t ∧ PlainE al e
  | .inverted t => PlainS al t
  | .copyView t => PlainS al t
  | .traitSelf => True
  | .wildcard => True
/-- The same for type expressions. -/
def PlainE (al : Nat → Option TySpec) : TyExpr → Prop
  | .bool _ => False
  | .spec t => PlainS al t
  | _ => True
/-- The same for lists of type expressions. -/
def PlainEs (al : Nat → Option TySpec) : List TyExpr → Prop
  | [] => True
  | e :: es => PlainE al e ∧ PlainEs al es
/-- The same for lists of types. -/
def PlainSs (al : Nat → Option TySpec) : List TySpec → Prop
  | [] => True
  | t :: ts => PlainS al t ∧ PlainSs al ts
end

/-! ## Proof -/

theorem andThen_false {a b} (h : andThen a b = some false) :
    a = some false ∨ (a = some true ∧ b = some false) := by
  match a, b, h with
  | some false, _, _ => exact Or.inl rfl
  | some true, some false, _ => exact Or.inr ⟨rfl, rfl⟩

section
variable {al : Nat → Option TySpec} {σ τ : Nat → Con}

theorem InstS.named_inv {n as c} (hn : al n = none) (h : InstS al σ (.declared n as) c) :
    ∃ cs, c = .named n cs ∧ InstEs al σ as cs := by
  cases h with
  | named _ h => exact ⟨_, rfl, h⟩
  | alias h _ => rw [hn] at h; cases h

mutual
theorem specsOverlap_sound : ∀ (a b : TySpec) (c : Con), PlainS al a → PlainS al b →
    InstS al σ a c → InstS al τ b c → specsOverlap a b ≠ some false
  | .generic _, _, _, _, _, _, _ => by simp [specsOverlap]
  | a, .generic _, _, _, _, _, _ => by cases a <;> simp [specsOverlap]
  | .declared n as, b, c, ha, hb, h, h' => by
    obtain ⟨cs, rfl, hcs⟩ := h.named_inv ha.1
    cases b with
    | declared m bs =>
      obtain ⟨ds, hd, hds⟩ := h'.named_inv hb.1
      cases hd
      simp only [specsOverlap, if_true]
      exact exprsAllOverlap_sound as bs cs ha.2 hb.2 hcs hds
    | generic => simp [specsOverlap]
    | _ => cases h'
  | .tuple as, b, c, ha, hb, h, h' => by
    cases h with
    | tuple h =>
      cases b with
      | tuple bs =>
        cases h' with
        | tuple h' =>
          simp only [specsOverlap]
          split
          · exact specsAllOverlap_sound as bs _ ha hb h h'
          · rename_i hne
            exact (hne ((InstSs_length h).trans (InstSs_length h').symm)).elim
      | generic => simp [specsOverlap]
      | declared m bs => obtain ⟨_, hd, _⟩ := h'.named_inv hb.1; cases hd
      | _ => cases h'
  | .array a n, b, c, ha, hb, h, h' => by
    cases h with
    | array h1 h2 =>
      cases b with
      | array b m =>
        cases h' with
        | array h1' h2' =>
          simp only [specsOverlap]
          intro hf
          rcases andThen_false hf with hf | ⟨_, hf⟩
          · exact specsOverlap_sound a b _ ha.1 hb.1 h1 h1' hf
          · exact exprsOverlap_sound n m _ ha.2 hb.2 h2 h2' hf
      | generic => simp [specsOverlap]
      | declared m bs => obtain ⟨_, hd, _⟩ := h'.named_inv hb.1; cases hd
      | _ => cases h'
  | .inverted a, b, c, ha, hb, h, h' => by
    cases h with
    | inverted h =>
      cases b with
      | inverted b =>
        cases h' with
        | inverted h' =>
          simp only [specsOverlap]
          exact specsOverlap_sound a b _ ha hb h h'
      | generic => simp [specsOverlap]
      | declared m bs => obtain ⟨_, hd, _⟩ := h'.named_inv hb.1; cases hd
      | _ => cases h'
  | .copyView a, b, c, ha, hb, h, h' => by
    cases h with
    | copyView h =>
      cases b with
      | copyView b =>
        cases h' with
        | copyView h' =>
          simp only [specsOverlap]
          exact specsOverlap_sound a b _ ha hb h h'
      | generic => simp [specsOverlap]
      | declared m bs => obtain ⟨_, hd, _⟩ := h'.named_inv hb.1; cases hd
      | _ => cases h'
  | .traitSelf, _, _, _, _, h, _ => by cases h
  | .wildcard, _, _, _, _, h, _ => by cases h
theorem exprsOverlap_sound : ∀ (a b : TyExpr) (c : Con), PlainE al a → PlainE al b →
    InstE al σ a c → InstE al τ b c → exprsOverlap a b ≠ some false
  | .bool _, _, _, ha, _, _, _ => ha.elim
  | _, .bool _, _, _, hb, _, _ => hb.elim
  | .constGeneric, _, _, _, _, _, _ => by simp [exprsOverlap]
  | a, .constGeneric, _, _, _, _, _ => by cases a <;> simp [exprsOverlap]
  | .spec a, .spec b, c, ha, hb, h, h' => by
    cases h with
    | spec h => cases h' with
      | spec h' => simp only [exprsOverlap]; exact specsOverlap_sound a b c ha hb h h'
  | .spec a, .int _, c, ha, hb, h, h' => by simp [exprsOverlap]
  | .spec a, .str _, c, ha, hb, h, h' => by simp [exprsOverlap]
  | .int _, .spec _, c, ha, hb, h, h' => by simp [exprsOverlap]
  | .str _, .spec _, c, ha, hb, h, h' => by simp [exprsOverlap]
  | .int _, .int _, c, ha, hb, h, h' => by cases h; cases h'; simp [exprsOverlap]
  | .str _, .str _, c, ha, hb, h, h' => by cases h; cases h'; simp [exprsOverlap]
  | .int _, .str _, c, ha, hb, h, h' => by cases h; cases h'
  | .str _, .int _, c, ha, hb, h, h' => by cases h; cases h'
theorem exprsAllOverlap_sound : ∀ (as bs : List TyExpr) (cs : List Con), PlainEs al as →
    PlainEs al bs → InstEs al σ as cs → InstEs al τ bs cs → exprsAllOverlap as bs ≠ some false
  | [], _, _, _, _, _, _ => by simp [exprsAllOverlap]
  | _ :: _, [], _, _, _, _, _ => by simp [exprsAllOverlap]
  | a :: as, b :: bs, c, ha, hb, h, h' => by
    cases h with
    | cons h1 h2 => cases h' with
      | cons h1' h2' =>
        simp only [exprsAllOverlap]
        intro hf
        rcases andThen_false hf with hf | ⟨_, hf⟩
        · exact exprsOverlap_sound a b _ ha.1 hb.1 h1 h1' hf
        · exact exprsAllOverlap_sound as bs _ ha.2 hb.2 h2 h2' hf
theorem specsAllOverlap_sound : ∀ (as bs : List TySpec) (cs : List Con), PlainSs al as →
    PlainSs al bs → InstSs al σ as cs → InstSs al τ bs cs → specsAllOverlap as bs ≠ some false
  | [], _, _, _, _, _, _ => by simp [specsAllOverlap]
  | _ :: _, [], _, _, _, _, _ => by simp [specsAllOverlap]
  | a :: as, b :: bs, c, ha, hb, h, h' => by
    cases h with
    | cons h1 h2 => cases h' with
      | cons h1' h2' =>
        simp only [specsAllOverlap]
        intro hf
        rcases andThen_false hf with hf | ⟨_, hf⟩
        · exact specsOverlap_sound a b _ ha.1 hb.1 h1 h1' hf
        · exact specsAllOverlap_sound as bs _ ha.2 hb.2 h2 h2' hf
theorem InstSs_length {σ} : ∀ {as : List TySpec} {cs : List Con}, InstSs al σ as cs →
    as.length = cs.length
  | [], _, h => by cases h; rfl
  | _ :: as, _, h => by cases h with | cons h1 h2 => simp [InstSs_length h2]
end
end

theorem firstClash_none : ∀ {t : List Header} {h}, firstClash t h = some none →
    ∀ o ∈ t, clashes o h = some false
  | [], _, _, _, ho => by cases ho
  | o :: os, h, hf, o', ho => by
    simp only [firstClash] at hf
    cases hc : clashes o h with
    | none => simp [hc] at hf
    | some b => cases b with
      | true => simp [hc] at hf
      | false =>
        rw [hc] at hf
        cases ho with
        | head => exact hc
        | tail _ ho => exact firstClash_none hf o' ho

theorem firstClash_some : ∀ {t : List Header} {h o}, firstClash t h = some (some o) →
    o ∈ t ∧ clashes o h = some true
  | o' :: os, h, o, hf => by
    simp only [firstClash] at hf
    cases hc : clashes o' h with
    | none => simp [hc] at hf
    | some b => cases b with
      | true => simp only [hc, Option.some.injEq] at hf; subst hf; exact ⟨by simp, hc⟩
      | false =>
        rw [hc] at hf
        have := firstClash_some hf
        exact ⟨List.mem_cons_of_mem _ this.1, this.2⟩

/-- The table holds the accepted impls and is pairwise free of clashes, in the order of
registration. -/
theorem registered_pairwise {hs t : List Header} (h : Registered hs t) :
    t = hs ∧ t.Pairwise fun a b => clashes a b = some false := by
  induction h with
  | empty => exact ⟨rfl, List.Pairwise.nil⟩
  | @insert hs t t' h _ hi ih =>
    obtain ⟨rfl, ih⟩ := ih
    simp only [insert] at hi
    cases hf : firstClash t h with
    | none => simp [hf] at hi
    | some x => cases x with
      | some o => simp [hf] at hi
      | none =>
        simp only [hf, Outcome.ok.injEq] at hi; subst hi
        rw [List.pairwise_append]
        refine ⟨rfl, ih, List.pairwise_singleton _ _, fun a ha b hb => ?_⟩
        simp only [List.mem_singleton] at hb; subst hb
        exact firstClash_none hf a ha

/-- C26, for impls whose headers mention neither boolean type level values nor type aliases: after
any history of accepted registrations, no two impls of a trait apply to a common concrete type (with
common trait arguments). -/
theorem C26_coherent_partial (al : Nat → Option TySpec) (hs table : List Header)
    (hr : Registered hs table)
    (hp : ∀ h ∈ hs, PlainEs al h.targetArgs ∧ PlainEs al h.traitArgs)
    (i j : Nat) (hij : i < j) (a b : Header) (ha : hs[i]? = some a) (hb : hs[j]? = some b)
    (target : Target) (cs : List Con) (trait : Nat) (ds : List Con) :
    ¬ (a.AppliesTo al target cs trait ds ∧ b.AppliesTo al target cs trait ds) := by
  rintro ⟨⟨rfl, rfl, σ, h1, h2⟩, h3, h4, τ, h5, h6⟩
  have hpa := hp a (List.mem_of_getElem? ha)
  have hpb := hp b (List.mem_of_getElem? hb)
  have hc : clashes a b = some false := by
    have := (registered_pairwise hr).1 ▸ (registered_pairwise hr).2
    rw [List.pairwise_iff_getElem] at this
    obtain ⟨l1, rfl⟩ := List.getElem?_eq_some_iff.1 ha
    obtain ⟨l2, rfl⟩ := List.getElem?_eq_some_iff.1 hb
    exact this i j l1 l2 hij
  have hlen : ∀ {σ : Nat → Con} {as cs}, InstEs al σ as cs → as.length = cs.length := by
    intro σ as
    induction as with
    | nil => intro cs h; cases h; rfl
    | cons _ _ ih => intro cs h; cases h with | cons _ h => simp [ih h]
  simp only [clashes, h3, h4, and_self, if_true, (hlen h1).trans (hlen h5).symm] at hc
  rcases andThen_false hc with hf | ⟨_, hf⟩
  · exact exprsAllOverlap_sound _ _ _ hpa.1 hpb.1 h1 h5 hf
  · exact exprsAllOverlap_sound _ _ _ hpa.2 hpb.2 h2 h6 hf

theorem registered_two {a b : Header} (h : clashes a b = some false) :
    ∃ table, Registered [a, b] table := by
  refine ⟨[a, b], .insert (hs := [a]) (t := [a]) (h := b) (.insert (hs := []) (t := []) .empty rfl) ?_⟩
  simp [insert, firstClash, h]

/-- The hypotheses of `C26_coherent_partial` are met by `impl<T> Tr for S<T, 1>` and
`impl Tr for S<int, 2>`. -/
example : ∃ hs, (∃ table, Registered hs table) ∧ hs.length = 2 ∧
    ∀ h ∈ hs, PlainEs (fun _ => none) h.targetArgs ∧ PlainEs (fun _ => none) h.traitArgs := by
  refine ⟨[⟨.named 0, 0, [.spec (.generic 0), .int 1], [], 0⟩,
    ⟨.named 0, 0, [.spec (.declared 1 []), .int 2], [], 1⟩], ?_, rfl, ?_⟩
  · exact registered_two (by
      simp [clashes, exprsAllOverlap, exprsOverlap, specsOverlap, andThen])
  · intro h hh
    simp only [List.mem_cons, List.not_mem_nil, or_false] at hh
    rcases hh with rfl | rfl <;> simp [PlainEs, PlainE, PlainS]

/-- C26 is false for boolean type level values: `impl Tr for S<true>` is accepted twice, because
`type_exprs_overlap` has no case for two booleans. -/
theorem C26_counterexample_bool : ∃ (a b : Header),
    (∃ table, Registered [a, b] table) ∧
    ∃ target cs trait ds, a.AppliesTo (fun _ => none) target cs trait ds ∧
      b.AppliesTo (fun _ => none) target cs trait ds := by
  refine ⟨⟨.named 0, 0, [.bool true], [], 0⟩, ⟨.named 0, 0, [.bool true], [], 1⟩, ?_,
    .named 0, [.bool true], 0, [], ?_, ?_⟩
  · exact registered_two (by
      simp [clashes, exprsAllOverlap, exprsOverlap, specsOverlap, andThen])
  · exact ⟨rfl, rfl, fun _ => .bool true, .cons (.bool _) .nil, .nil⟩
  · exact ⟨rfl, rfl, fun _ => .bool true, .cons (.bool _) .nil, .nil⟩

/-- C26 is false for type aliases: with `type Byte = uint<8>`, both `impl Tr for S<Byte>` and
`impl Tr for S<uint<8>>` are accepted, because only the names are compared. -/
theorem C26_counterexample_alias : ∃ (al : Nat → Option TySpec)
    (a b : Header), (∃ table, Registered [a, b] table) ∧
    (∀ n t, al n = some t → PlainS al t) ∧
    ∃ target cs trait ds, a.AppliesTo al target cs trait ds ∧
      b.AppliesTo al target cs trait ds := by
  -- 1 is `uint`, 2 is `Byte`
  let al : Nat → Option TySpec := fun n => if n = 2 then some (.declared 1 [.int 8]) else none
  have huint : ∀ σ, InstS al σ (.declared 1 [.int 8]) (.named 1 [.int 8]) := fun σ =>
    .named (by simp [al]) (.cons (.int _) .nil)
  refine ⟨al, ⟨.named 0, 0, [.spec (.declared 2 [])], [], 0⟩,
    ⟨.named 0, 0, [.spec (.declared 1 [.int 8])], [], 1⟩, ?_, ?_,
    .named 0, [.named 1 [.int 8]], 0, [], ?_, ?_⟩
  · exact registered_two (by
      simp [clashes, exprsAllOverlap, exprsOverlap, specsOverlap, andThen])
  · intro n t h
    simp only [al] at h
    split at h
    · cases h; simp [PlainS, PlainEs, PlainE, al]
    · cases h
  · exact ⟨rfl, rfl, fun _ => .int 0, .cons (.spec (.alias (t := .declared 1 [.int 8])
      (by simp [al]) (huint _))) .nil, .nil⟩
  · exact ⟨rfl, rfl, fun _ => .int 0, .cons (.spec (huint _)) .nil, .nil⟩

/-! ## Rejections are justified

The check ignores that two occurrences of a generic stand for the same type.  Up to that, every
rejection is real: there is a concrete type that fits both headers when each occurrence of a generic
is filled independently. -/

/-- `MetaType` of a type or type level value. -/
inductive Kind where
  | type | int | bool | str
  deriving DecidableEq

/-- Kind of a concrete type. -/
def Con.kind : Con → Kind
  | .bool _ => .bool
  | .int _ => .int
  | .str _ => .str
  | _ => .type

/-- Kinds of generics and of the parameters of named types and traits. -/
structure Sig where
  gen : Nat → Kind
  params : Nat → List Kind
  traitParams : Nat → List Kind

/-- Kind of a type. -/
def TySpec.kind (S : Sig) : TySpec → Kind
  | .generic g => S.gen g
  | _ => .type

/-- Kind of a type expression. -/
def TyExpr.kind (S : Sig) : TyExpr → Kind
  | .bool _ => .bool
  | .int _ => .int
  | .str _ => .str
  | .spec t => t.kind S
  | .constGeneric => .int

mutual
/-- Well-kinded types. -/
def WKS (S : Sig) : TySpec → Prop
  | .declared n as => as.map (·.kind S) = S.params n ∧ WKEs S as
  | .generic _ => True
  | .tuple ts => (∀ k ∈ ts.map (·.kind S), k = .type) ∧ WKSs S ts
  | .array t e => t.kind S = .type ∧ WKS S t ∧ e.kind S = .int ∧ WKE S e
  | .inverted t => t.kind S = .type ∧ WKS S t
  | .copyView t => t.kind S = .type ∧ WKS S t
  | .traitSelf => False
  | .wildcard => False
/-- Well-kinded type expressions. -/
def WKE (S : Sig) : TyExpr → Prop
  | .spec t => WKS S t
  | _ => True
/-- Well-kinded lists. -/
def WKEs (S : Sig) : List TyExpr → Prop
  | [] => True
  | e :: es => WKE S e ∧ WKEs S es
/-- Well-kinded lists. -/
def WKSs (S : Sig) : List TySpec → Prop
  | [] => True
  | t :: ts => WKS S t ∧ WKSs S ts
end

mutual
/-- `c` fits `t` when each occurrence of a generic is filled independently. -/
inductive FitsS (S : Sig) : TySpec → Con → Prop where
  | generic (g c) : c.kind = S.gen g → FitsS S (.generic g) c
  | named {n as cs} : FitsEs S as cs → FitsS S (.declared n as) (.named n cs)
  | tuple {ts cs} : FitsSs S ts cs → FitsS S (.tuple ts) (.tuple cs)
  | array {t e c n} : FitsS S t c → FitsE S e n → FitsS S (.array t e) (.array c n)
  | inverted {t c} : FitsS S t c → FitsS S (.inverted t) (.inverted c)
  | copyView {t c} : FitsS S t c → FitsS S (.copyView t) (.copyView c)
/-- The same for type expressions. -/
inductive FitsE (S : Sig) : TyExpr → Con → Prop where
  | bool (b) : FitsE S (.bool b) (.bool b)
  | int (i) : FitsE S (.int i) (.int i)
  | str (s) : FitsE S (.str s) (.str s)
  | spec {t c} : FitsS S t c → FitsE S (.spec t) c
  | const (i) : FitsE S .constGeneric (.int i)
/-- The same for lists. -/
inductive FitsEs (S : Sig) : List TyExpr → List Con → Prop where
  | nil : FitsEs S [] []
  | cons {e es c cs} : FitsE S e c → FitsEs S es cs → FitsEs S (e :: es) (c :: cs)
/-- The same for lists. -/
inductive FitsSs (S : Sig) : List TySpec → List Con → Prop where
  | nil : FitsSs S [] []
  | cons {t ts c cs} : FitsS S t c → FitsSs S ts cs → FitsSs S (t :: ts) (c :: cs)
end

section
variable {S : Sig}

theorem kind_inhabited (k : Kind) : ∃ c : Con, c.kind = k := by
  cases k
  · exact ⟨.tuple [], rfl⟩
  · exact ⟨.int 0, rfl⟩
  · exact ⟨.bool true, rfl⟩
  · exact ⟨.str "", rfl⟩

mutual
theorem fits_someS : ∀ (t : TySpec), WKS S t → ∃ c, FitsS S t c ∧ c.kind = t.kind S
  | .generic g, _ => by
    obtain ⟨c, hc⟩ := kind_inhabited (S.gen g)
    exact ⟨c, .generic g c hc, hc⟩
  | .declared n as, h => by
    obtain ⟨cs, hc⟩ := fits_someEs as h.2
    exact ⟨_, .named hc, rfl⟩
  | .tuple ts, h => by
    obtain ⟨cs, hc⟩ := fits_someSs ts h.2
    exact ⟨_, .tuple hc, rfl⟩
  | .array t e, h => by
    obtain ⟨c, hc, _⟩ := fits_someS t h.2.1
    obtain ⟨n, hn, _⟩ := fits_someE e h.2.2.2
    exact ⟨_, .array hc hn, rfl⟩
  | .inverted t, h => by
    obtain ⟨c, hc, _⟩ := fits_someS t h.2
    exact ⟨_, .inverted hc, rfl⟩
  | .copyView t, h => by
    obtain ⟨c, hc, _⟩ := fits_someS t h.2
    exact ⟨_, .copyView hc, rfl⟩
  | .traitSelf, h => h.elim
  | .wildcard, h => h.elim
theorem fits_someE : ∀ (t : TyExpr), WKE S t → ∃ c, FitsE S t c ∧ c.kind = t.kind S
  | .bool b, _ => ⟨_, .bool b, rfl⟩
  | .int b, _ => ⟨_, .int b, rfl⟩
  | .str b, _ => ⟨_, .str b, rfl⟩
  | .constGeneric, _ => ⟨_, .const 0, rfl⟩
  | .spec t, h => by
    obtain ⟨c, hc, hk⟩ := fits_someS t h
    exact ⟨c, .spec hc, hk⟩
theorem fits_someEs : ∀ (ts : List TyExpr), WKEs S ts → ∃ cs, FitsEs S ts cs
  | [], _ => ⟨_, .nil⟩
  | t :: ts, h => by
    obtain ⟨c, hc, _⟩ := fits_someE t h.1
    obtain ⟨cs, hcs⟩ := fits_someEs ts h.2
    exact ⟨_, .cons hc hcs⟩
theorem fits_someSs : ∀ (ts : List TySpec), WKSs S ts → ∃ cs, FitsSs S ts cs
  | [], _ => ⟨_, .nil⟩
  | t :: ts, h => by
    obtain ⟨c, hc, _⟩ := fits_someS t h.1
    obtain ⟨cs, hcs⟩ := fits_someSs ts h.2
    exact ⟨_, .cons hc hcs⟩
end

theorem andThen_true {a b} (h : andThen a b = some true) : a = some true ∧ b = some true := by
  match a, b, h with
  | some true, some true, _ => exact ⟨rfl, rfl⟩

theorem generic_left {g : Nat} {b : TySpec} (hb : WKS S b) (hk : S.gen g = b.kind S) :
    ∃ c, FitsS S (.generic g) c ∧ FitsS S b c ∧ c.kind = S.gen g := by
  obtain ⟨c, hc, hck⟩ := fits_someS b hb
  exact ⟨c, .generic g c (hck.trans hk.symm), hc, hck.trans hk.symm⟩

theorem generic_right {g : Nat} {a : TySpec} (ha : WKS S a) (hk : a.kind S = S.gen g) :
    ∃ c, FitsS S a c ∧ FitsS S (.generic g) c ∧ c.kind = a.kind S := by
  obtain ⟨c, hc, hck⟩ := fits_someS a ha
  exact ⟨c, hc, .generic g c (hck.trans hk), hck⟩

mutual
theorem specsOverlap_complete : ∀ (a b : TySpec), WKS S a → WKS S b → a.kind S = b.kind S →
    specsOverlap a b = some true → ∃ c, FitsS S a c ∧ FitsS S b c ∧ c.kind = a.kind S
  | .generic g, b, _, hb, hk, _ => generic_left hb hk
  | .declared n as, b, ha, hb, hk, h => by
    cases b with
    | generic g => exact generic_right ha hk
    | declared m bs =>
      simp only [specsOverlap] at h
      split at h
      · rename_i hnm; subst hnm
        obtain ⟨cs, h1, h2⟩ := exprsAllOverlap_complete as bs ha.2 hb.2 (ha.1.trans hb.1.symm) h
        exact ⟨_, .named h1, .named h2, rfl⟩
      · cases h
    | _ => simp [specsOverlap] at h
  | .tuple as, b, ha, hb, hk, h => by
    cases b with
    | generic g => exact generic_right ha hk
    | tuple bs =>
      simp only [specsOverlap] at h
      split at h
      · rename_i hl
        obtain ⟨cs, h1, h2⟩ := specsAllOverlap_complete as bs ha.2 hb.2 hl ha.1 hb.1 h
        exact ⟨_, .tuple h1, .tuple h2, rfl⟩
      · cases h
    | _ => simp [specsOverlap] at h
  | .array a n, b, ha, hb, hk, h => by
    cases b with
    | generic g => exact generic_right ha hk
    | array b m =>
      simp only [specsOverlap] at h
      obtain ⟨c, h1, h2, _⟩ := specsOverlap_complete a b ha.2.1 hb.2.1 (ha.1.trans hb.1.symm)
        (andThen_true h).1
      obtain ⟨d, h3, h4, _⟩ := exprsOverlap_complete n m ha.2.2.2 hb.2.2.2
        (ha.2.2.1.trans hb.2.2.1.symm) (andThen_true h).2
      exact ⟨_, .array h1 h3, .array h2 h4, rfl⟩
    | _ => simp [specsOverlap] at h
  | .inverted a, b, ha, hb, hk, h => by
    cases b with
    | generic g => exact generic_right ha hk
    | inverted b =>
      simp only [specsOverlap] at h
      obtain ⟨c, h1, h2, _⟩ := specsOverlap_complete a b ha.2 hb.2 (ha.1.trans hb.1.symm) h
      exact ⟨_, .inverted h1, .inverted h2, rfl⟩
    | _ => simp [specsOverlap] at h
  | .copyView a, b, ha, hb, hk, h => by
    cases b with
    | generic g => exact generic_right ha hk
    | copyView b =>
      simp only [specsOverlap] at h
      obtain ⟨c, h1, h2, _⟩ := specsOverlap_complete a b ha.2 hb.2 (ha.1.trans hb.1.symm) h
      exact ⟨_, .copyView h1, .copyView h2, rfl⟩
    | _ => simp [specsOverlap] at h
  | .traitSelf, _, ha, _, _, _ => ha.elim
  | .wildcard, _, ha, _, _, _ => ha.elim
theorem exprsOverlap_complete : ∀ (a b : TyExpr), WKE S a → WKE S b → a.kind S = b.kind S →
    exprsOverlap a b = some true → ∃ c, FitsE S a c ∧ FitsE S b c ∧ c.kind = a.kind S
  | .spec a, .spec b, ha, hb, hk, h => by
    simp only [exprsOverlap] at h
    obtain ⟨c, h1, h2, h3⟩ := specsOverlap_complete a b ha hb hk h
    exact ⟨c, .spec h1, .spec h2, h3⟩
  | .spec a, .bool x, ha, _, hk, _ => by
    cases a <;> simp [TyExpr.kind, TySpec.kind] at hk
    exact ⟨.bool x, .spec (.generic _ _ hk.symm), .bool x, hk.symm⟩
  | .spec a, .int x, ha, _, hk, _ => by
    cases a <;> simp [TyExpr.kind, TySpec.kind] at hk
    exact ⟨.int x, .spec (.generic _ _ hk.symm), .int x, hk.symm⟩
  | .spec a, .str x, ha, _, hk, _ => by
    cases a <;> simp [TyExpr.kind, TySpec.kind] at hk
    exact ⟨.str x, .spec (.generic _ _ hk.symm), .str x, hk.symm⟩
  | .bool x, .spec a, _, ha, hk, _ => by
    cases a <;> simp [TyExpr.kind, TySpec.kind] at hk
    exact ⟨.bool x, .bool x, .spec (.generic _ _ hk), rfl⟩
  | .int x, .spec a, _, ha, hk, _ => by
    cases a <;> simp [TyExpr.kind, TySpec.kind] at hk
    exact ⟨.int x, .int x, .spec (.generic _ _ hk), rfl⟩
  | .str x, .spec a, _, ha, hk, _ => by
    cases a <;> simp [TyExpr.kind, TySpec.kind] at hk
    exact ⟨.str x, .str x, .spec (.generic _ _ hk), rfl⟩
  | .int x, .int y, _, _, _, h => by
    simp only [exprsOverlap, Option.some.injEq, decide_eq_true_eq] at h; subst h
    exact ⟨_, .int x, .int x, rfl⟩
  | .str x, .str y, _, _, _, h => by
    simp only [exprsOverlap, Option.some.injEq, decide_eq_true_eq] at h; subst h
    exact ⟨_, .str x, .str x, rfl⟩
  | .bool _, .bool _, _, _, _, h => by simp [exprsOverlap] at h
  | .bool _, .int _, _, _, _, h => by simp [exprsOverlap] at h
  | .bool _, .str _, _, _, _, h => by simp [exprsOverlap] at h
  | .int _, .bool _, _, _, _, h => by simp [exprsOverlap] at h
  | .int _, .str _, _, _, _, h => by simp [exprsOverlap] at h
  | .str _, .bool _, _, _, _, h => by simp [exprsOverlap] at h
  | .str _, .int _, _, _, _, h => by simp [exprsOverlap] at h
  | .constGeneric, _, _, _, _, h => by simp [exprsOverlap] at h
  | .spec _, .constGeneric, _, _, _, h => by simp [exprsOverlap] at h
  | .bool _, .constGeneric, _, _, _, h => by simp [exprsOverlap] at h
  | .int _, .constGeneric, _, _, _, h => by simp [exprsOverlap] at h
  | .str _, .constGeneric, _, _, _, h => by simp [exprsOverlap] at h
theorem exprsAllOverlap_complete : ∀ (as bs : List TyExpr), WKEs S as → WKEs S bs →
    as.map (·.kind S) = bs.map (·.kind S) → exprsAllOverlap as bs = some true →
    ∃ cs, FitsEs S as cs ∧ FitsEs S bs cs
  | [], [], _, _, _, _ => ⟨_, .nil, .nil⟩
  | a :: as, b :: bs, ha, hb, hk, h => by
    simp only [List.map_cons, List.cons.injEq] at hk
    simp only [exprsAllOverlap] at h
    obtain ⟨c, h1, h2, _⟩ := exprsOverlap_complete a b ha.1 hb.1 hk.1 (andThen_true h).1
    obtain ⟨cs, h3, h4⟩ := exprsAllOverlap_complete as bs ha.2 hb.2 hk.2 (andThen_true h).2
    exact ⟨_, .cons h1 h3, .cons h2 h4⟩
  | [], _ :: _, _, _, hk, _ => by simp at hk
  | _ :: _, [], _, _, hk, _ => by simp at hk
theorem specsAllOverlap_complete : ∀ (as bs : List TySpec), WKSs S as → WKSs S bs →
    as.length = bs.length → (∀ k ∈ as.map (·.kind S), k = .type) →
    (∀ k ∈ bs.map (·.kind S), k = .type) → specsAllOverlap as bs = some true →
    ∃ cs, FitsSs S as cs ∧ FitsSs S bs cs
  | [], [], _, _, _, _, _, _ => ⟨_, .nil, .nil⟩
  | a :: as, b :: bs, ha, hb, hl, hka, hkb, h => by
    simp only [specsAllOverlap] at h
    have e1 : a.kind S = .type := hka _ (by simp)
    have e2 : b.kind S = .type := hkb _ (by simp)
    obtain ⟨c, h1, h2, _⟩ := specsOverlap_complete a b ha.1 hb.1 (e1.trans e2.symm)
      (andThen_true h).1
    obtain ⟨cs, h3, h4⟩ := specsAllOverlap_complete as bs ha.2 hb.2 (by simpa using hl)
      (fun k hk => hka k (by simp only [List.map_cons]; exact List.mem_cons_of_mem _ hk))
      (fun k hk => hkb k (by simp only [List.map_cons]; exact List.mem_cons_of_mem _ hk))
      (andThen_true h).2
    exact ⟨_, .cons h1 h3, .cons h2 h4⟩
  | [], _ :: _, _, _, hk, _, _, _ => by simp at hk
  | _ :: _, [], _, _, hk, _, _, _ => by simp at hk
end

/-- Kinds of the arguments of a target with `n` of them. -/
def Target.kinds (S : Sig) (n : Nat) : Target → List Kind
  | .array => [.type, .int]
  | .inverted => [.type]
  | .copyView => [.type]
  | .tuple => List.replicate n .type
  | .named m => S.params m

/-- Well-kinded headers. -/
def Header.WK (S : Sig) (h : Header) : Prop :=
  h.targetArgs.map (·.kind S) = h.target.kinds S h.targetArgs.length ∧ WKEs S h.targetArgs ∧
  h.traitArgs.map (·.kind S) = S.traitParams h.trait ∧ WKEs S h.traitArgs

end

/-- C26, the other direction: a registration is only refused as a duplicate if an earlier impl of the
same trait for the same kind of target fits a common concrete type, when each occurrence of a generic
is filled independently. -/
theorem C26_rejection_justified (S : Sig) (table : List Header) (h o : Header)
    (hw : h.WK S) (hwt : ∀ x ∈ table, x.WK S) (hi : insert table h = .duplicate o) :
    o ∈ table ∧ o.target = h.target ∧ o.trait = h.trait ∧
    ∃ cs ds, FitsEs S o.targetArgs cs ∧ FitsEs S h.targetArgs cs ∧
      FitsEs S o.traitArgs ds ∧ FitsEs S h.traitArgs ds := by
  simp only [insert] at hi
  cases hf : firstClash table h with
  | none => simp [hf] at hi
  | some x => cases x with
    | none => simp [hf] at hi
    | some o' =>
      simp only [hf, Outcome.duplicate.injEq] at hi; subst hi
      obtain ⟨hm, hc⟩ := firstClash_some hf
      have ho := hwt _ hm
      simp only [clashes] at hc
      split at hc
      · rename_i he
        split at hc
        · rename_i hl
          obtain ⟨cs, h1, h2⟩ := exprsAllOverlap_complete _ _ ho.2.1 hw.2.1
            (by rw [ho.1, hw.1, he.1, hl]) (andThen_true hc).1
          obtain ⟨ds, h3, h4⟩ := exprsAllOverlap_complete _ _ ho.2.2.2 hw.2.2.2
            (by rw [ho.2.2.1, hw.2.2.1, he.2]) (andThen_true hc).2
          exact ⟨hm, he.1, he.2, cs, ds, h1, h2, h3, h4⟩
        · cases hc
      · cases hc

/-- The hypotheses of `C26_rejection_justified` are met: `impl<T> Tr for S<T>` after
`impl Tr for S<(int, int)>`. -/
example : ∃ (S : Sig) (table : List Header) (h o : Header), h.WK S ∧ (∀ x ∈ table, x.WK S) ∧
    insert table h = .duplicate o := by
  refine ⟨⟨fun _ => .type, fun n => if n = 0 then [.type] else [], fun _ => []⟩,
    [⟨.named 0, 0, [.spec (.tuple [.declared 1 [], .declared 1 []])], [], 0⟩],
    ⟨.named 0, 0, [.spec (.generic 0)], [], 1⟩,
    ⟨.named 0, 0, [.spec (.tuple [.declared 1 [], .declared 1 []])], [], 0⟩, ?_, ?_,
    by simp [insert, firstClash, clashes, exprsAllOverlap, exprsOverlap, specsOverlap, andThen]⟩
  · simp [Header.WK, Target.kinds, WKEs, WKE, WKS, TyExpr.kind, TySpec.kind]
  · simp [Header.WK, Target.kinds, WKEs, WKE, WKS, WKSs, TyExpr.kind, TySpec.kind]

end Spade.Impl

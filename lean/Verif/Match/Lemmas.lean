import Verif.Match.Model
/-! Proof machinery for the usefulness algorithm. -/
namespace Spade.Match

/-! ### Generic facts about `mapM` in `Option` -/

theorem mapM_some {α β : Type} {f : α → Option β} : ∀ {l : List α},
    (∀ x ∈ l, ∃ y, f x = some y) →
    ∃ ys, l.mapM f = some ys ∧ (∀ y ∈ ys, ∃ x ∈ l, f x = some y) ∧
      (∀ x ∈ l, ∃ y ∈ ys, f x = some y)
  | [], _ => ⟨[], by simp⟩
  | a :: l, h => by
    obtain ⟨b, hb⟩ := h a (by simp)
    obtain ⟨ys, h1, h2, h3⟩ := mapM_some (l := l) (fun x hx => h x (by simp [hx]))
    refine ⟨b :: ys, ?_, ?_, ?_⟩
    · simp [List.mapM_cons, hb, h1]
    · intro y hy
      rcases List.mem_cons.1 hy with rfl | hy
      · exact ⟨a, by simp, hb⟩
      · obtain ⟨x, hx, e⟩ := h2 y hy; exact ⟨x, by simp [hx], e⟩
    · intro x hx
      rcases List.mem_cons.1 hx with rfl | hx
      · exact ⟨b, by simp, hb⟩
      · obtain ⟨y, hy, e⟩ := h3 x hx; exact ⟨y, by simp [hy], e⟩

theorem mapM_eq_some {α β : Type} {f : α → Option β} : ∀ {l : List α} {ys},
    l.mapM f = some ys → (∀ y ∈ ys, ∃ x ∈ l, f x = some y) ∧ (∀ x ∈ l, ∃ y ∈ ys, f x = some y)
  | [], ys, h => by simp at h; subst h; simp
  | a :: l, ys, h => by
    rw [List.mapM_cons] at h
    simp only [Option.bind_eq_bind, Option.bind_eq_some_iff, Option.pure_def, Option.some.injEq] at h
    obtain ⟨b, hb, ys', h', rfl⟩ := h
    obtain ⟨h2, h3⟩ := mapM_eq_some h'
    refine ⟨?_, ?_⟩
    · intro y hy
      rcases List.mem_cons.1 hy with rfl | hy
      · exact ⟨a, by simp, hb⟩
      · obtain ⟨x, hx, e⟩ := h2 y hy; exact ⟨x, by simp [hx], e⟩
    · intro x hx
      rcases List.mem_cons.1 hx with rfl | hx
      · exact ⟨b, by simp, hb⟩
      · obtain ⟨y, hy, e⟩ := h3 x hx; exact ⟨y, by simp [hy], e⟩

theorem extendW_eq (a b : List Witness) : extendW a b = a ++ b := by
  cases a <;> cases b <;> simp [extendW]

theorem foldl_extendW (us : List (List Witness)) (acc : List Witness) :
    us.foldl extendW acc = acc ++ us.flatten := by
  induction us generalizing acc with
  | nil => simp
  | cons u us ih => simp [ih, extendW_eq]

/-! ### Well-typed rows and the meaning of deconstructed patterns -/

mutual
/-- Deconstructed patterns produced from well-typed source patterns. -/
inductive DWT : DPat → Ty → Prop
  | wild {ty} : DWT (.mk .wild [] ty) ty
  | tuple {fs ts} : DWTs fs ts → DWT (.mk .single fs (.tuple ts)) (.tuple ts)
  | struct {fs ts} : DWTs fs ts → DWT (.mk .single fs (.struct ts)) (.struct ts)
  | array {fs t n} : DWTs fs (List.replicate n t) → DWT (.mk .single fs (.array t n)) (.array t n)
  | variant {i fs opts ts} : opts[i]? = some ts → DWTs fs ts →
      DWT (.mk (.variant i) fs (.enum opts)) (.enum opts)
  | bool {b} : DWT (.mk (.bool b) [] .bool) .bool
  | int {z n} : DWT (.mk (.range z (z + 1)) [] (.int n)) (.int n)
  | uint {z n} : DWT (.mk (.range z (z + 1)) [] (.uint n)) (.uint n)
/-- Pointwise. -/
inductive DWTs : List DPat → List Ty → Prop
  | nil : DWTs [] []
  | cons {p t ps ts} : DWT p t → DWTs ps ts → DWTs (p :: ps) (t :: ts)
end

/-- The parts of a value that the fields of its constructor match against. -/
def valArgs : Val → List Val
  | .tup vs => vs
  | .variant _ vs => vs
  | .view v => valArgs v
  | _ => []

mutual
/-- Meaning of a deconstructed pattern; `R lo hi z` says when an integer range holds `z`. -/
def DM (R : Int → Int → Int → Prop) : DPat → Val → Prop
  | .mk c fs _, v => match c with
    | .wild => True
    | .single => DMs R fs (valArgs v)
    | .bool b => v = .bool b
    | .variant i => (∃ vs, v = .variant i vs) ∧ DMs R fs (valArgs v)
    | .range lo hi => ∃ z, v = .int z ∧ R lo hi z
    | .missing _ => False
/-- Pointwise. -/
def DMs (R : Int → Int → Int → Prop) : List DPat → List Val → Prop
  | [], [] => True
  | p :: ps, v :: vs => DM R p v ∧ DMs R ps vs
  | _, _ => False
end

/-- Ranges as the algorithm treats them: both ends included. -/
def Incl (lo hi z : Int) : Prop := lo ≤ z ∧ z ≤ hi
/-- Ranges as `from_hir` builds them: upper end excluded. -/
def Excl (lo hi z : Int) : Prop := lo ≤ z ∧ z < hi

theorem HasTys.length_eq : ∀ {vs ts}, HasTys vs ts → vs.length = ts.length
  | _, _, .nil => rfl
  | _, _, .cons _ h => by simp [h.length_eq]

theorem DWTs.length_eq : ∀ {ps ts}, DWTs ps ts → ps.length = ts.length
  | _, _, .nil => rfl
  | _, _, .cons _ h => by simp [h.length_eq]

theorem HasTys.append : ∀ {vs ts vs' ts'}, HasTys vs ts → HasTys vs' ts' →
    HasTys (vs ++ vs') (ts ++ ts')
  | _, _, _, _, .nil, h => h
  | _, _, _, _, .cons a b, h => .cons a (b.append h)

theorem DWTs.append : ∀ {vs ts vs' ts'}, DWTs vs ts → DWTs vs' ts' →
    DWTs (vs ++ vs') (ts ++ ts')
  | _, _, _, _, .nil, h => h
  | _, _, _, _, .cons a b, h => .cons a (b.append h)

theorem HasTys.split_append : ∀ {ts vs ts'}, HasTys vs (ts ++ ts') →
    ∃ a b, vs = a ++ b ∧ HasTys a ts ∧ HasTys b ts'
  | [], vs, _, h => ⟨[], vs, rfl, .nil, h⟩
  | _ :: ts, _, _, .cons h1 h2 => by
    obtain ⟨a, b, rfl, ha, hb⟩ := HasTys.split_append (ts := ts) h2
    exact ⟨_ :: a, b, rfl, .cons h1 ha, hb⟩

theorem DWTs.wildcards (ts : List Ty) : DWTs (ts.map DPat.wildcard) ts := by
  induction ts with
  | nil => exact .nil
  | cons t ts ih => exact .cons .wild ih

theorem DMs_length {R} : ∀ {ps vs}, DMs R ps vs → ps.length = vs.length
  | [], [], _ => rfl
  | p :: ps, v :: vs, h => by simp [DMs] at h; simp [DMs_length h.2]
  | [], _ :: _, h => by simp [DMs] at h
  | _ :: _, [], h => by simp [DMs] at h

theorem DMs_append {R} : ∀ {a b vs ws}, a.length = vs.length →
    (DMs R (a ++ b) (vs ++ ws) ↔ DMs R a vs ∧ DMs R b ws)
  | [], b, [], ws, _ => by simp [DMs]
  | p :: a, b, v :: vs, ws, h => by
    have := DMs_append (R := R) (a := a) (b := b) (vs := vs) (ws := ws) (by simpa using h)
    simp [DMs, this, and_assoc]
  | [], _, _ :: _, _, h => by simp at h
  | _ :: _, _, [], _, h => by simp at h

theorem DMs_wildcards {R} : ∀ {ts : List Ty} {vs : List Val}, ts.length = vs.length →
    DMs R (ts.map DPat.wildcard) vs
  | [], [], _ => by simp [DMs]
  | _ :: ts, _ :: vs, h => by
    simp only [List.map_cons, DMs, DPat.wildcard, DM, true_and]
    exact DMs_wildcards (by simpa using h)
  | [], _ :: _, h => by simp at h
  | _ :: _, [], h => by simp at h

/-! ### Constructors produced by splitting -/

/-- Types whose wildcards split into the single constructor. -/
def splitsSingle : Ty → Prop
  | .error | .tuple _ | .struct _ | .array _ _ | .backward _ | .copyView _ => True
  | _ => False

/-- Constructors that splitting a wildcard of type `ty` can produce. -/
inductive CtorOk : Ctor → Ty → Prop
  | single {ty fts} : splitsSingle ty → singleFields ty = some fts → CtorOk .single ty
  | variant {i opts ts} : opts[i]? = some ts → CtorOk (.variant i) (.enum opts)
  | bool {b} : CtorOk (.bool b) .bool
  | missing {all} : (∀ c ∈ all, ∃ b, c = .bool b) → CtorOk (.missing all) .bool
  | int {lo hi n} : CtorOk (.range lo hi) (.int n)
  | uint {lo hi n} : CtorOk (.range lo hi) (.uint n)

/-- The value is built with the constructor. -/
def InCtor (c : Ctor) (v : Val) : Prop := match c with
  | .single => True
  | .bool b => v = .bool b
  | .variant i => ∃ vs, v = .variant i vs
  | .range lo hi => ∃ z, v = .int z ∧ lo ≤ z ∧ z ≤ hi
  | .missing all => ∃ b, v = .bool b ∧ .bool b ∈ all
  | .wild => False

theorem CtorOk.fields_some {c ty} (h : CtorOk c ty) : ∃ fts, c.fields ty = some fts := by
  cases h with
  | single _ h => exact ⟨_, h⟩
  | variant h => exact ⟨_, h⟩
  | _ => exact ⟨[], rfl⟩

theorem covered_some {c d ty} (hc : CtorOk c ty) (hd : DWT d ty) :
    ∃ b, c.isCoveredBy d.ctor = some b := by
  cases hd <;> cases hc <;> simp_all [Ctor.isCoveredBy, DPat.ctor, singleFields, splitsSingle]

theorem specialize_some {c d ty fts} (hc : CtorOk c ty) (hf : c.fields ty = some fts)
    (hd : DWT d ty) (hcov : c.isCoveredBy d.ctor = some true) :
    ∃ fs, d.specialize c = some fs ∧ DWTs fs fts := by
  cases hd with
  | wild =>
    refine ⟨fts.map DPat.wildcard, ?_, DWTs.wildcards _⟩
    simp [DPat.specialize, DPat.ctor, DPat.ty, hf]
  | tuple h =>
    cases hc
    simp [Ctor.fields, singleFields] at hf; subst hf
    exact ⟨_, rfl, h⟩
  | struct h =>
    cases hc
    simp [Ctor.fields, singleFields] at hf; subst hf
    exact ⟨_, rfl, h⟩
  | array h =>
    cases hc
    simp [Ctor.fields, singleFields] at hf; subst hf
    exact ⟨_, rfl, h⟩
  | variant h1 h2 =>
    cases hc with
    | single _ h => simp [singleFields] at h
    | variant h =>
      simp [DPat.ctor, Ctor.isCoveredBy] at hcov
      subst hcov
      simp only [Ctor.fields] at hf
      rw [h1] at hf; cases hf
      exact ⟨_, rfl, h2⟩
  | bool =>
    cases hc <;> simp [Ctor.isCoveredBy, DPat.ctor] at hcov
    simp [Ctor.fields] at hf; subst hf
    exact ⟨[], rfl, .nil⟩
  | int =>
    cases hc <;> simp [Ctor.isCoveredBy, DPat.ctor] at hcov
    simp [Ctor.fields] at hf; subst hf
    exact ⟨[], rfl, .nil⟩
  | uint =>
    cases hc <;> simp [Ctor.isCoveredBy, DPat.ctor] at hcov
    simp [Ctor.fields] at hf; subst hf
    exact ⟨[], rfl, .nil⟩

/-- The rows kept by `Matrix::specialize`. -/
def RowFrom (c : Ctor) (rows : List PatStack) (r : PatStack) : Prop :=
  ∃ p ps fs, (p :: ps) ∈ rows ∧ c.isCoveredBy p.ctor = some true ∧
    p.specialize c = some fs ∧ r = fs ++ ps

theorem specializeRows_some {c ty tys fts} (hc : CtorOk c ty) (hf : c.fields ty = some fts) :
    ∀ {rows : List PatStack}, (∀ r ∈ rows, DWTs r (ty :: tys)) →
    ∃ rows', specializeRows c rows = some rows' ∧ (∀ r ∈ rows', DWTs r (fts ++ tys)) ∧
      (∀ r, r ∈ rows' ↔ RowFrom c rows r)
  | [], _ => ⟨[], rfl, by simp, by simp [RowFrom]⟩
  | row :: rows, h => by
    obtain ⟨rows', h1, h2, h3⟩ := specializeRows_some hc hf (rows := rows)
      (fun r hr => h r (by simp [hr]))
    cases h row (by simp) with
    | @cons p _ ps _ hp hps =>
    obtain ⟨b, hb⟩ := covered_some hc hp
    cases b with
    | false =>
      refine ⟨rows', ?_, h2, ?_⟩
      · simp [specializeRows, hb, h1]
      · intro r
        rw [h3]
        constructor
        · rintro ⟨q, qs, fs, hq, e⟩; exact ⟨q, qs, fs, by simp [hq], e⟩
        · rintro ⟨q, qs, fs, hq, e1, e2⟩
          rcases List.mem_cons.1 hq with hq | hq
          · cases hq; rw [hb] at e1; cases e1
          · exact ⟨q, qs, fs, hq, e1, e2⟩
    | true =>
      obtain ⟨fs, hfs, hwt⟩ := specialize_some hc hf hp hb
      refine ⟨(fs ++ ps) :: rows', ?_, ?_, ?_⟩
      · simp [specializeRows, hb, h1, popHead, hfs]
      · intro r hr
        rcases List.mem_cons.1 hr with rfl | hr
        · exact hwt.append hps
        · exact h2 r hr
      · intro r
        rw [List.mem_cons, h3]
        constructor
        · rintro (rfl | ⟨q, qs, fs', hq, e⟩)
          · exact ⟨p, ps, fs, by simp, hb, hfs, rfl⟩
          · exact ⟨q, qs, fs', by simp [hq], e⟩
        · rintro ⟨q, qs, fs', hq, e1, e2, e3⟩
          rcases List.mem_cons.1 hq with hq | hq
          · cases hq; rw [hfs] at e2; cases e2; exact .inl e3
          · exact .inr ⟨q, qs, fs', hq, e1, e2, e3⟩

/-! ### Integer ranges -/

theorem mem_insertSorted {x y : Int} : ∀ {l : List Int}, y ∈ insertSorted x l ↔ y = x ∨ y ∈ l
  | [] => by simp [insertSorted]
  | z :: l => by
    simp only [insertSorted]
    split
    · simp
    · split
      · rename_i h; subst h; simp
      · simp [mem_insertSorted (l := l)]
        constructor <;> rintro (h | h | h) <;> simp [h]

theorem mem_sortDedup {y : Int} : ∀ {l : List Int}, y ∈ sortDedup l ↔ y ∈ l
  | [] => by simp [sortDedup]
  | x :: l => by simp [sortDedup, mem_insertSorted, mem_sortDedup (l := l)]

theorem insertSorted_sorted {x : Int} : ∀ {l : List Int}, l.Pairwise (· < ·) →
    (insertSorted x l).Pairwise (· < ·)
  | [], _ => by simp [insertSorted]
  | z :: l, h => by
    have hz := List.pairwise_cons.1 h
    simp only [insertSorted]
    split
    · rename_i hx
      refine List.pairwise_cons.2 ⟨?_, h⟩
      intro a ha
      rcases List.mem_cons.1 ha with rfl | ha
      · exact hx
      · have := hz.1 a ha; omega
    · split
      · exact h
      · refine List.pairwise_cons.2 ⟨?_, insertSorted_sorted hz.2⟩
        intro a ha
        rcases mem_insertSorted.1 ha with rfl | ha
        · omega
        · exact hz.1 a ha

theorem sortDedup_sorted : ∀ {l : List Int}, (sortDedup l).Pairwise (· < ·)
  | [] => by simp [sortDedup]
  | _ :: l => insertSorted_sorted (sortDedup_sorted (l := l))

theorem splitEdges_mem {low max : Int} : ∀ {es : List Int}, es.Pairwise (· < ·) →
    (∀ e ∈ es, low < e ∧ e < max) → low ≤ max →
    ∀ c ∈ splitEdges low max es, ∃ lo hi, c = .range lo hi ∧ low ≤ lo ∧ lo ≤ hi ∧ hi ≤ max ∧
      (∀ e ∈ es, lo < e → hi < e) ∧ (lo < max → low < max)
  | [], _, _, hl, c, hc => by
    simp [splitEdges] at hc; subst hc
    exact ⟨low, max, rfl, by omega, hl, by omega, by simp, by omega⟩
  | e :: es, hs, he, hl, c, hc => by
    have hs' := List.pairwise_cons.1 hs
    have h0 := he e (by simp)
    simp only [splitEdges, List.mem_cons] at hc
    rcases hc with rfl | hc
    · refine ⟨low, e - 1, rfl, by omega, by omega, by omega, ?_, by omega⟩
      intro e' he' _
      rcases List.mem_cons.1 he' with rfl | he'
      · omega
      · have := hs'.1 e' he'; omega
    · obtain ⟨lo, hi, h1, h2, h3, h4, h5, h6⟩ := splitEdges_mem (low := e) (max := max) hs'.2
        (fun e' he' => ⟨hs'.1 e' he', (he e' (by simp [he'])).2⟩) (by omega) c hc
      refine ⟨lo, hi, h1, by omega, h3, h4, ?_, by omega⟩
      intro e' he' hlt
      rcases List.mem_cons.1 he' with rfl | he'
      · omega
      · exact h5 e' he' hlt

theorem splitEdges_cover {low max z : Int} : ∀ {es : List Int}, low ≤ z → z ≤ max →
    ∃ lo hi, .range lo hi ∈ splitEdges low max es ∧ lo ≤ z ∧ z ≤ hi
  | [], h1, h2 => ⟨low, max, by simp [splitEdges], h1, h2⟩
  | e :: es, h1, h2 => by
    by_cases h : z < e
    · exact ⟨low, e - 1, by simp [splitEdges], h1, by omega⟩
    · obtain ⟨lo, hi, h3, h4, h5⟩ := splitEdges_cover (low := e) (max := max) (z := z) (es := es)
        (by omega) h2
      exact ⟨lo, hi, by simp [splitEdges, h3], h4, h5⟩

/-- Heads of an integer column: wildcards and literal ranges. -/
def IntHead (c : Ctor) : Prop := c = .wild ∨ ∃ z, c = .range z (z + 1)

theorem splitInt_spec {min max : Int} (hmm : min < max) {heads : List Ctor}
    (hh : ∀ c ∈ heads, IntHead c) :
    ∃ cs, splitIntRange min max (heads.flatMap (splitAlone min max)) = some cs ∧
      (∀ z, min ≤ z → z ≤ max → ∃ lo hi, .range lo hi ∈ cs ∧ lo ≤ z ∧ z ≤ hi) ∧
      (∀ c ∈ cs, ∃ lo hi, c = .range lo hi ∧ min ≤ lo ∧ lo ≤ hi ∧ hi ≤ max ∧
        ∀ z, .range z (z + 1) ∈ heads → z = lo → hi ≤ z + 1) := by
  have hr : ∀ c ∈ heads.flatMap (splitAlone min max), ∃ r, c.asRange = some r := by
    intro c hc
    obtain ⟨h, hm, hc⟩ := List.mem_flatMap.1 hc
    rcases hh h hm with rfl | ⟨z, rfl⟩
    · simp [splitAlone] at hc; subst hc; exact ⟨_, rfl⟩
    · simp [splitAlone] at hc; subst hc; exact ⟨_, rfl⟩
  obtain ⟨rs, h1, h2, h3⟩ := mapM_some hr
  have hsorted : (List.filter (fun e => decide (min < e) && decide (e < max))
      (sortDedup (rs.flatMap fun r => [r.1, r.2]))).Pairwise (· < ·) :=
    sortDedup_sorted.filter _
  refine ⟨splitEdges min max (List.filter (fun e => decide (min < e) && decide (e < max))
      (sortDedup (rs.flatMap fun r => [r.1, r.2]))), ?_, ?_, ?_⟩
  · simp only [splitIntRange, h1]; rfl
  · intro z hz1 hz2; exact splitEdges_cover hz1 hz2
  · intro c hc
    obtain ⟨lo, hi, e1, e2, e3, e4, e5, _⟩ := splitEdges_mem hsorted (by
      intro e he; simp at he; exact he.2) (by omega) c hc
    refine ⟨lo, hi, e1, e2, e3, e4, ?_⟩
    intro z hz hzl
    by_cases hlt : z + 1 < max
    · have hmem : .range z (z + 1) ∈ heads.flatMap (splitAlone min max) :=
        List.mem_flatMap.2 ⟨_, hz, by simp [splitAlone]⟩
      obtain ⟨r, hr1, hr2⟩ := h3 _ hmem
      simp [Ctor.asRange] at hr2
      subst hr2
      have := e5 (z + 1) (by
        simp only [List.mem_filter, Bool.and_eq_true, decide_eq_true_eq, mem_sortDedup,
          List.mem_flatMap]
        exact ⟨⟨_, hr1, by simp⟩, by omega, hlt⟩) (by omega)
      omega
    · omega

/-! ### Booleans -/

/-- Heads of a boolean column. -/
def BoolHead (c : Ctor) : Prop := c = .wild ∨ ∃ b, c = .bool b

theorem coveredByAny_bool {b : Bool} : ∀ {os : List Ctor}, (∀ o ∈ os, ∃ b, o = .bool b) →
    (coveredByAny (.bool b) os = some true ∧ .bool b ∈ os) ∨
    (coveredByAny (.bool b) os = some false ∧ .bool b ∉ os)
  | [], _ => by simp [coveredByAny]
  | o :: os, h => by
    obtain ⟨b', rfl⟩ := h o (by simp)
    have ih := coveredByAny_bool (b := b) (os := os) (fun o ho => h o (by simp [ho]))
    by_cases e : b = b'
    · subst e; simp [coveredByAny, Ctor.isCoveredBy]
    · simp [coveredByAny, Ctor.isCoveredBy, e]
      simpa using ih

theorem groupMissing_spec {heads : List Ctor} (hh : ∀ c ∈ heads, BoolHead c) :
    ∃ cs, groupMissing [.bool false, .bool true] heads = some cs ∧
      (∀ b, ∃ c ∈ cs, InCtor c (.bool b)) ∧
      (∀ c ∈ cs, (∃ b, c = .bool b) ∨ (∃ all, c = .missing all ∧ all ≠ [] ∧
        ∀ c' ∈ all, ∃ b, c' = .bool b ∧ .bool b ∉ heads)) := by
  generalize hnwd : (heads.filter fun o => !o.isWild) = nw
  have hnw : ∀ o ∈ nw, ∃ b, o = .bool b := by
    intro o ho
    simp only [← hnwd, List.mem_filter] at ho
    rcases hh o ho.1 with rfl | h
    · simp [Ctor.isWild] at ho
    · exact h
  have hmem : ∀ b, Ctor.bool b ∈ nw ↔ Ctor.bool b ∈ heads := by
    intro b
    simp [← hnwd, Ctor.isWild]
  have hF := coveredByAny_bool (b := false) hnw
  have hT := coveredByAny_bool (b := true) hnw
  rw [hmem] at hF hT
  have hkeep : ∀ c ∈ nw, ∃ b, c = .bool b := hnw
  simp only [groupMissing, missingCtors, hnwd]
  rcases hF with ⟨hF, mF⟩ | ⟨hF, mF⟩ <;> rcases hT with ⟨hT, mT⟩ | ⟨hT, mT⟩ <;> rw [hF, hT]
  · refine ⟨[.bool false, .bool true], rfl, ?_, ?_⟩
    · intro b; cases b <;> simp [InCtor]
    · intro c hc; simp at hc; rcases hc with rfl | rfl <;> exact .inl ⟨_, rfl⟩
  · refine ⟨nw ++ [.missing [.bool true]], rfl, ?_, ?_⟩
    · intro b; cases b
      · exact ⟨.bool false, by simp [hmem, mF], rfl⟩
      · exact ⟨.missing [.bool true], by simp, true, rfl, by simp⟩
    · intro c hc; simp only [List.mem_append, List.mem_singleton] at hc
      rcases hc with hc | rfl
      · exact .inl (hkeep c hc)
      · exact .inr ⟨_, rfl, by simp, by simpa using mT⟩
  · refine ⟨nw ++ [.missing [.bool false]], rfl, ?_, ?_⟩
    · intro b; cases b
      · exact ⟨.missing [.bool false], by simp, false, rfl, by simp⟩
      · exact ⟨.bool true, by simp [hmem, mT], rfl⟩
    · intro c hc; simp only [List.mem_append, List.mem_singleton] at hc
      rcases hc with hc | rfl
      · exact .inl (hkeep c hc)
      · exact .inr ⟨_, rfl, by simp, by simpa using mF⟩
  · refine ⟨nw ++ [.missing [.bool false, .bool true]], rfl, ?_, ?_⟩
    · intro b; exact ⟨.missing [.bool false, .bool true], by simp, b, rfl, by cases b <;> simp⟩
    · intro c hc; simp only [List.mem_append, List.mem_singleton] at hc
      rcases hc with hc | rfl
      · exact .inl (hkeep c hc)
      · refine .inr ⟨_, rfl, by simp, ?_⟩
        intro c' hc'; simp at hc'
        rcases hc' with rfl | rfl
        · exact ⟨false, rfl, mF⟩
        · exact ⟨true, rfl, mT⟩

/-! ### Splitting a wildcard -/

/-- The constructors a (possibly grouped) constructor stands for in witnesses. -/
def Atom (c' c : Ctor) : Prop := match c with
  | .missing all => c' ∈ all
  | c => c' = c

theorem noOpaques_replicate {t : Ty} {n : Nat} (h : n = 0 ∨ NoOpaque t) :
    NoOpaques (List.replicate n t) := by
  induction n with
  | zero => simp [NoOpaques]
  | succ n ih =>
    have : NoOpaque t := by rcases h with h | h; (· omega); exact h
    simp [List.replicate_succ, NoOpaques, this, ih (.inr this)]

theorem noEnumViews_replicate {t : Ty} {n : Nat} (h : NoEnumView t) :
    NoEnumViews (List.replicate n t) := by
  induction n with
  | zero => simp [NoEnumViews]
  | succ n ih => simp [List.replicate_succ, NoEnumViews, h, ih]

theorem noOpaques_getElem? : ∀ {os : List (List Ty)} {i : Nat} {ts}, os[i]? = some ts →
    NoOpaquess os → NoOpaques ts
  | [], _, _, h, _ => by simp at h
  | o :: os, 0, _, h, hn => by simp at h; subst h; simp [NoOpaquess] at hn; exact hn.1
  | o :: os, i + 1, _, h, hn => by
    simp at h; simp [NoOpaquess] at hn; exact noOpaques_getElem? h hn.2

theorem noEnumViews_getElem? : ∀ {os : List (List Ty)} {i : Nat} {ts}, os[i]? = some ts →
    NoEnumViewss os → NoEnumViews ts
  | [], _, _, h, _ => by simp at h
  | o :: os, 0, _, h, hn => by simp at h; subst h; simp [NoEnumViewss] at hn; exact hn.1
  | o :: os, i + 1, _, h, hn => by
    simp at h; simp [NoEnumViewss] at hn; exact noEnumViews_getElem? h hn.2

theorem noOpaques_append : ∀ {a b : List Ty}, NoOpaques (a ++ b) ↔ NoOpaques a ∧ NoOpaques b
  | [], b => by simp [NoOpaques]
  | t :: a, b => by simp [NoOpaques, noOpaques_append (a := a), and_assoc]

theorem noEnumViews_append : ∀ {a b : List Ty},
    NoEnumViews (a ++ b) ↔ NoEnumViews a ∧ NoEnumViews b
  | [], b => by simp [NoEnumViews]
  | t :: a, b => by simp [NoEnumViews, noEnumViews_append (a := a), and_assoc]

theorem singleFields_noOpaque : ∀ (ty : Ty) (fts), singleFields ty = some fts → NoOpaque ty →
    NoOpaques fts
  | .error, _, h, _ => by simp [singleFields] at h; subst h; simp [NoOpaques]
  | .tuple ts, _, h, n => by simp [singleFields] at h; subst h; simpa [NoOpaque] using n
  | .struct ts, _, h, n => by simp [singleFields] at h; subst h; simpa [NoOpaque] using n
  | .array t n, _, h, hn => by
    simp [singleFields] at h; subst h; exact noOpaques_replicate (by simpa [NoOpaque] using hn)
  | .enum _, _, h, _ => by simp [singleFields] at h
  | .int _, _, h, _ => by simp [singleFields] at h; subst h; simp [NoOpaques]
  | .uint _, _, h, _ => by simp [singleFields] at h; subst h; simp [NoOpaques]
  | .bool, _, h, _ => by simp [singleFields] at h; subst h; simp [NoOpaques]
  | .sealed, _, h, _ => by simp [singleFields] at h; subst h; simp [NoOpaques]
  | .backward t, _, h, _ => by simp [singleFields] at h; subst h; simp [NoOpaques]
  | .copyView t, fts, h, hn => singleFields_noOpaque t fts (by simpa [singleFields] using h)
      (by simpa [NoOpaque] using hn)

theorem singleFields_noEnumView : ∀ (ty : Ty) (fts), singleFields ty = some fts →
    NoEnumView ty → NoEnumViews fts
  | .error, _, h, _ => by simp [singleFields] at h; subst h; simp [NoEnumViews]
  | .tuple ts, _, h, n => by simp [singleFields] at h; subst h; simpa [NoEnumView] using n
  | .struct ts, _, h, n => by simp [singleFields] at h; subst h; simpa [NoEnumView] using n
  | .array t n, _, h, hn => by
    simp [singleFields] at h; subst h; exact noEnumViews_replicate (by simpa [NoEnumView] using hn)
  | .enum _, _, h, _ => by simp [singleFields] at h
  | .int _, _, h, _ => by simp [singleFields] at h; subst h; simp [NoEnumViews]
  | .uint _, _, h, _ => by simp [singleFields] at h; subst h; simp [NoEnumViews]
  | .bool, _, h, _ => by simp [singleFields] at h; subst h; simp [NoEnumViews]
  | .sealed, _, h, _ => by simp [singleFields] at h; subst h; simp [NoEnumViews]
  | .backward t, _, h, _ => by simp [singleFields] at h; subst h; simp [NoEnumViews]
  | .copyView t, fts, h, hn => singleFields_noEnumView t fts (by simpa [singleFields] using h)
      (by simp [NoEnumView] at hn; exact hn.2)

theorem singleFields_some : ∀ (ty : Ty), ¬ viewOfEnum ty → ∃ fts, singleFields ty = some fts
  | .error, _ => ⟨_, rfl⟩
  | .tuple _, _ => ⟨_, rfl⟩
  | .struct _, _ => ⟨_, rfl⟩
  | .array _ _, _ => ⟨_, rfl⟩
  | .enum _, h => by simp [viewOfEnum] at h
  | .int _, _ => ⟨_, rfl⟩
  | .uint _, _ => ⟨_, rfl⟩
  | .bool, _ => ⟨_, rfl⟩
  | .sealed, _ => ⟨_, rfl⟩
  | .backward _, _ => ⟨_, rfl⟩
  | .copyView t, h => singleFields_some t (by simpa [viewOfEnum] using h)

theorem singleFields_hasTys : ∀ (ty : Ty) (fts v), singleFields ty = some fts → HasTy v ty →
    HasTys (valArgs v) fts
  | .error, _, _, h, hv => by simp [singleFields] at h; subst h; cases hv; exact .nil
  | .tuple ts, _, _, h, hv => by
    simp [singleFields] at h; subst h; cases hv; assumption
  | .struct ts, _, _, h, hv => by
    simp [singleFields] at h; subst h; cases hv; assumption
  | .array t n, _, _, h, hv => by
    simp [singleFields] at h; subst h; cases hv; assumption
  | .enum _, _, _, h, _ => by simp [singleFields] at h
  | .int _, _, _, h, hv => by simp [singleFields] at h; subst h; cases hv; exact .nil
  | .uint _, _, _, h, hv => by simp [singleFields] at h; subst h; cases hv; exact .nil
  | .bool, _, _, h, hv => by simp [singleFields] at h; subst h; cases hv; exact .nil
  | .sealed, _, _, h, hv => by simp [singleFields] at h; subst h; cases hv; exact .nil
  | .backward _, _, _, h, hv => by simp [singleFields] at h; subst h; cases hv; exact .nil
  | .copyView t, fts, v, h, hv => by
    cases hv with
    | copyView hv =>
      simp only [valArgs]
      exact singleFields_hasTys t fts _ (by simpa [singleFields] using h) hv

theorem intMin_le_max (n : Nat) : intMin n ≤ 0 ∧ 0 ≤ intMax n := by
  unfold intMin intMax
  have : (0 : Int) < 2 ^ (n - 1) := Int.pow_pos (by omega)
  split <;> omega

theorem uintMax_nonneg (n : Nat) : 0 ≤ uintMax n := by
  unfold uintMax
  have : (0 : Int) < 2 ^ n := Int.pow_pos (by omega)
  omega

theorem singleFields_build : ∀ (ty : Ty) (fts args), singleFields ty = some fts →
    HasTys args fts → ∃ v, HasTy v ty ∧ valArgs v = args
  | .error, _, _, h, hv => by
    simp [singleFields] at h; subst h; cases hv; exact ⟨.opq, .error, rfl⟩
  | .tuple ts, _, args, h, hv => by
    simp [singleFields] at h; subst h; exact ⟨.tup args, .tuple hv, rfl⟩
  | .struct ts, _, args, h, hv => by
    simp [singleFields] at h; subst h; exact ⟨.tup args, .struct hv, rfl⟩
  | .array t n, _, args, h, hv => by
    simp [singleFields] at h; subst h; exact ⟨.tup args, .array hv, rfl⟩
  | .enum _, _, _, h, _ => by simp [singleFields] at h
  | .int n, _, _, h, hv => by
    simp [singleFields] at h; subst h; cases hv
    exact ⟨.int 0, .int (intMin_le_max n).1 (intMin_le_max n).2, rfl⟩
  | .uint n, _, _, h, hv => by
    simp [singleFields] at h; subst h; cases hv
    exact ⟨.int 0, .uint (by omega) (uintMax_nonneg n), rfl⟩
  | .bool, _, _, h, hv => by
    simp [singleFields] at h; subst h; cases hv; exact ⟨.bool true, .bool, rfl⟩
  | .sealed, _, _, h, hv => by
    simp [singleFields] at h; subst h; cases hv; exact ⟨.opq, .sealed, rfl⟩
  | .backward _, _, _, h, hv => by
    simp [singleFields] at h; subst h; cases hv; exact ⟨.opq, .backward, rfl⟩
  | .copyView t, fts, args, h, hv => by
    obtain ⟨v, h1, h2⟩ := singleFields_build t fts args (by simpa [singleFields] using h) hv
    exact ⟨.view v, .copyView h1, by simpa [valArgs] using h2⟩

theorem CtorOk.noOpaque {c ty fts} (h : CtorOk c ty) (hf : c.fields ty = some fts)
    (hn : NoOpaque ty) : NoOpaques fts := by
  cases h with
  | single _ h => exact singleFields_noOpaque _ _ hf hn
  | variant h => exact noOpaques_getElem? hf (by simpa [NoOpaque] using hn)
  | _ => simp [Ctor.fields] at hf; subst hf; simp [NoOpaques]

theorem CtorOk.noEnumView {c ty fts} (h : CtorOk c ty) (hf : c.fields ty = some fts)
    (hn : NoEnumView ty) : NoEnumViews fts := by
  cases h with
  | single _ h => exact singleFields_noEnumView _ _ hf hn
  | variant h => exact noEnumViews_getElem? hf (by simpa [NoEnumView] using hn)
  | _ => simp [Ctor.fields] at hf; subst hf; simp [NoEnumViews]

theorem CtorOk.hasTys {c ty fts v} (h : CtorOk c ty) (hf : c.fields ty = some fts)
    (hv : HasTy v ty) (hc : InCtor c v) : HasTys (valArgs v) fts := by
  cases h with
  | single _ h => exact singleFields_hasTys _ _ _ hf hv
  | variant h =>
    obtain ⟨vs, rfl⟩ := hc
    cases hv with
    | enum h1 h2 => simp [Ctor.fields] at hf; rw [h1] at hf; cases hf; exact h2
  | bool => cases hv; simp [Ctor.fields] at hf; subst hf; exact .nil
  | missing => cases hv; simp [Ctor.fields] at hf; subst hf; exact .nil
  | int => cases hv; simp [Ctor.fields] at hf; subst hf; exact .nil
  | uint => cases hv; simp [Ctor.fields] at hf; subst hf; exact .nil

/-- If a row survives specialisation and its fields match then the row matched. -/
theorem match_of_specialized {c ty d v fs} (hc : CtorOk c ty) (hd : DWT d ty)
    (hv : HasTy v ty) (hin : InCtor c v) (hcov : c.isCoveredBy d.ctor = some true)
    (hs : d.specialize c = some fs) (hm : DMs Incl fs (valArgs v)) : DM Incl d v := by
  cases hd with
  | wild => simp [DM]
  | tuple h => simp [DPat.specialize, DPat.ctor, DPat.fields] at hs; subst hs; simpa [DM] using hm
  | struct h => simp [DPat.specialize, DPat.ctor, DPat.fields] at hs; subst hs; simpa [DM] using hm
  | array h => simp [DPat.specialize, DPat.ctor, DPat.fields] at hs; subst hs; simpa [DM] using hm
  | variant h1 h2 =>
    simp [DPat.specialize, DPat.ctor, DPat.fields] at hs; subst hs
    cases hc with
    | single _ h => simp [singleFields] at h
    | variant h =>
      simp [DPat.ctor, Ctor.isCoveredBy] at hcov
      subst hcov
      simp only [DM]
      exact ⟨hin, hm⟩
  | bool =>
    cases hc with
    | single h _ => simp [splitsSingle] at h
    | bool => simp [DPat.ctor, Ctor.isCoveredBy] at hcov; subst hcov; simp only [DM]; exact hin
    | missing => simp [DPat.ctor, Ctor.isCoveredBy] at hcov
  | int =>
    cases hc with
    | single h _ => simp [splitsSingle] at h
    | int =>
      simp [DPat.ctor, Ctor.isCoveredBy] at hcov
      obtain ⟨z, rfl, h1, h2⟩ := hin
      exact ⟨z, rfl, by omega, by omega⟩
  | uint =>
    cases hc with
    | single h _ => simp [splitsSingle] at h
    | uint =>
      simp [DPat.ctor, Ctor.isCoveredBy] at hcov
      obtain ⟨z, rfl, h1, h2⟩ := hin
      exact ⟨z, rfl, by omega, by omega⟩

/-- What splitting guarantees for a value chosen to be missed by the matrix. -/
def BuildOk (c : Ctor) (ty : Ty) (heads : List Ctor) : Prop :=
  (∃ c', Atom c' c) ∧ ∀ c' fts args, Atom c' c → c.fields ty = some fts → HasTys args fts →
    c'.fields ty = some fts ∧ ∃ v, HasTy v ty ∧ valArgs v = args ∧
      (∀ wfs, DMs Incl wfs args → DM Incl (.mk c' wfs ty) v) ∧
      ∀ d, DWT d ty → d.ctor ∈ heads → DM Excl d v →
        c.isCoveredBy d.ctor = some true ∧ ∀ fs, d.specialize c = some fs → DMs Excl fs args

theorem excl_succ {z lo : Int} (h : Excl z (z + 1) lo) : z = lo := by
  unfold Excl at h; omega

theorem buildOk_int {n lo hi heads} (h0 : HasTy (.int lo) (.int n)) (hlh : lo ≤ hi)
    (hh : ∀ z, .range z (z + 1) ∈ heads → z = lo → hi ≤ z + 1) :
    BuildOk (.range lo hi) (.int n) heads := by
  refine ⟨⟨_, rfl⟩, ?_⟩
  intro c' fts args ha hf ht
  simp only [Atom] at ha; subst ha
  refine ⟨hf, .int lo, h0, ?_, ?_, ?_⟩
  · simp [Ctor.fields] at hf; subst hf; cases ht; rfl
  · intro _ _; exact ⟨lo, rfl, by omega, hlh⟩
  · intro d hd hm hdm
    have hnil : args = [] := by simp [Ctor.fields] at hf; subst hf; cases ht; rfl
    subst hnil
    cases hd with
    | wild =>
      refine ⟨rfl, ?_⟩
      intro fs hfs
      simp [DPat.specialize, DPat.ctor, DPat.ty, Ctor.fields] at hfs
      subst hfs; simp [DMs]
    | int =>
      simp only [DM] at hdm
      obtain ⟨z, hz, he⟩ := hdm
      cases hz
      have := excl_succ he; subst this
      have := hh _ hm rfl
      refine ⟨by simp [DPat.ctor, Ctor.isCoveredBy, this], ?_⟩
      intro fs hfs
      simp [DPat.specialize, DPat.ctor, DPat.fields] at hfs
      subst hfs; simp [DMs]

theorem buildOk_uint {n lo hi heads} (h0 : HasTy (.int lo) (.uint n)) (hlh : lo ≤ hi)
    (hh : ∀ z, .range z (z + 1) ∈ heads → z = lo → hi ≤ z + 1) :
    BuildOk (.range lo hi) (.uint n) heads := by
  refine ⟨⟨_, rfl⟩, ?_⟩
  intro c' fts args ha hf ht
  simp only [Atom] at ha; subst ha
  refine ⟨hf, .int lo, h0, ?_, ?_, ?_⟩
  · simp [Ctor.fields] at hf; subst hf; cases ht; rfl
  · intro _ _; exact ⟨lo, rfl, by omega, hlh⟩
  · intro d hd hm hdm
    have hnil : args = [] := by simp [Ctor.fields] at hf; subst hf; cases ht; rfl
    subst hnil
    cases hd with
    | wild =>
      refine ⟨rfl, ?_⟩
      intro fs hfs
      simp [DPat.specialize, DPat.ctor, DPat.ty, Ctor.fields] at hfs
      subst hfs; simp [DMs]
    | uint =>
      simp only [DM] at hdm
      obtain ⟨z, hz, he⟩ := hdm
      cases hz
      have := excl_succ he; subst this
      have := hh _ hm rfl
      refine ⟨by simp [DPat.ctor, Ctor.isCoveredBy, this], ?_⟩
      intro fs hfs
      simp [DPat.specialize, DPat.ctor, DPat.fields] at hfs
      subst hfs; simp [DMs]

theorem buildOk_single {ty heads} (hs : splitsSingle ty) : BuildOk .single ty heads := by
  refine ⟨⟨_, rfl⟩, ?_⟩
  intro c' fts args ha hf ht
  simp only [Atom] at ha; subst ha
  obtain ⟨v, hv, hva⟩ := singleFields_build ty fts args hf ht
  refine ⟨hf, v, hv, hva, ?_, ?_⟩
  · intro wfs hw; simp only [DM]; rw [hva]; exact hw
  · intro d hd _ hm
    cases hd with
    | wild =>
      refine ⟨rfl, ?_⟩
      intro fs hfs
      simp only [DPat.specialize, DPat.ctor, DPat.ty, hf, Option.map_some, Option.some.injEq] at hfs
      subst hfs; exact DMs_wildcards ht.length_eq.symm
    | tuple h =>
      refine ⟨rfl, ?_⟩
      intro fs hfs
      simp [DPat.specialize, DPat.ctor, DPat.fields] at hfs; subst hfs
      simp only [DM] at hm; rwa [hva] at hm
    | struct h =>
      refine ⟨rfl, ?_⟩
      intro fs hfs
      simp [DPat.specialize, DPat.ctor, DPat.fields] at hfs; subst hfs
      simp only [DM] at hm; rwa [hva] at hm
    | array h =>
      refine ⟨rfl, ?_⟩
      intro fs hfs
      simp [DPat.specialize, DPat.ctor, DPat.fields] at hfs; subst hfs
      simp only [DM] at hm; rwa [hva] at hm
    | _ => simp [splitsSingle] at hs

theorem buildOk_variant {opts i ts heads} (hi : opts[i]? = some ts) :
    BuildOk (.variant i) (.enum opts) heads := by
  refine ⟨⟨_, rfl⟩, ?_⟩
  intro c' fts args ha hf ht
  simp only [Atom] at ha; subst ha
  have hf' := hf
  simp only [Ctor.fields] at hf'
  refine ⟨hf, .variant i args, .enum hf' ht, rfl, ?_, ?_⟩
  · intro wfs hw; simp only [DM]; exact ⟨⟨_, rfl⟩, hw⟩
  · intro d hd _ hm
    cases hd with
    | wild =>
      refine ⟨rfl, ?_⟩
      intro fs hfs
      simp only [DPat.specialize, DPat.ctor, DPat.ty, hf, Option.map_some, Option.some.injEq] at hfs
      subst hfs; exact DMs_wildcards ht.length_eq.symm
    | variant h1 h2 =>
      simp only [DM] at hm
      obtain ⟨⟨vs, hvs⟩, hm⟩ := hm
      cases hvs
      refine ⟨by simp [DPat.ctor, Ctor.isCoveredBy], ?_⟩
      intro fs hfs
      simp [DPat.specialize, DPat.ctor, DPat.fields] at hfs; subst hfs
      exact hm

theorem buildOk_bool {b heads} : BuildOk (.bool b) .bool heads := by
  refine ⟨⟨_, rfl⟩, ?_⟩
  intro c' fts args ha hf ht
  simp only [Atom] at ha; subst ha
  have hnil : args = [] := by simp [Ctor.fields] at hf; subst hf; cases ht; rfl
  subst hnil
  refine ⟨hf, .bool b, .bool, rfl, fun _ _ => by simp [DM], ?_⟩
  intro d hd _ hm
  cases hd with
  | wild =>
    refine ⟨rfl, ?_⟩
    intro fs hfs
    simp [DPat.specialize, DPat.ctor, DPat.ty, Ctor.fields] at hfs
    subst hfs; simp [DMs]
  | bool =>
    simp [DM] at hm
    refine ⟨by simp [DPat.ctor, Ctor.isCoveredBy, hm], ?_⟩
    intro fs hfs
    simp [DPat.specialize, DPat.ctor, DPat.fields] at hfs
    subst hfs; simp [DMs]

theorem buildOk_missing {all heads} (hne : all ≠ [])
    (h : ∀ c' ∈ all, ∃ b, c' = .bool b ∧ .bool b ∉ heads) :
    BuildOk (.missing all) .bool heads := by
  refine ⟨?_, ?_⟩
  · cases all with
    | nil => simp at hne
    | cons a l => exact ⟨a, by simp [Atom]⟩
  intro c' fts args ha hf ht
  obtain ⟨b, rfl, hb⟩ := h c' ha
  have hnil : args = [] := by simp [Ctor.fields] at hf; subst hf; cases ht; rfl
  subst hnil
  refine ⟨hf, .bool b, .bool, rfl, fun _ _ => by simp [DM], ?_⟩
  intro d hd hdh hm
  cases hd with
  | wild =>
    refine ⟨rfl, ?_⟩
    intro fs hfs
    simp [DPat.specialize, DPat.ctor, DPat.ty, Ctor.fields] at hfs
    subst hfs; simp [DMs]
  | bool =>
    simp [DM] at hm
    subst hm
    exact absurd hdh hb

theorem splitWildcard_spec {ty : Ty} {heads : List Ctor} (hev : NoEnumView ty)
    (hh : ∀ c ∈ heads, ∃ d, DWT d ty ∧ d.ctor = c) :
    ∃ cs, splitWildcard ty heads = some cs ∧ (∀ c ∈ cs, CtorOk c ty) ∧
      (NoOpaque ty → ∀ v, HasTy v ty → ∃ c ∈ cs, InCtor c v) ∧
      (∀ c ∈ cs, BuildOk c ty heads) := by
  have hsingle : ∀ {ty : Ty}, splitsSingle ty → NoEnumView ty →
      ∃ cs, (some [Ctor.single] : Option (List Ctor)) = some cs ∧ (∀ c ∈ cs, CtorOk c ty) ∧
      (NoOpaque ty → ∀ v, HasTy v ty → ∃ c ∈ cs, InCtor c v) ∧
      (∀ c ∈ cs, BuildOk c ty heads) := by
    intro ty hs hev
    refine ⟨[.single], rfl, ?_, ?_, ?_⟩
    · intro c hc; simp at hc; subst hc
      have : ∃ fts, singleFields ty = some fts := by
        apply singleFields_some
        cases ty <;> simp_all [viewOfEnum, splitsSingle, NoEnumView]
      obtain ⟨fts, h⟩ := this
      exact .single hs h
    · intro _ v _; exact ⟨.single, by simp, trivial⟩
    · intro c hc; simp at hc; subst hc; exact buildOk_single hs
  have hint : ∀ n, (ty = .int n ∨ ty = .uint n) → ∀ c ∈ heads, IntHead c := by
    intro n hty c hc
    obtain ⟨d, hd, rfl⟩ := hh c hc
    rcases hty with rfl | rfl <;> cases hd <;> simp [IntHead, DPat.ctor]
  cases ty with
  | error => exact hsingle (by simp [splitsSingle]) hev
  | tuple ts => exact hsingle (by simp [splitsSingle]) hev
  | struct ts => exact hsingle (by simp [splitsSingle]) hev
  | array t n => exact hsingle (by simp [splitsSingle]) hev
  | backward t => exact hsingle (by simp [splitsSingle]) hev
  | copyView t => exact hsingle (by simp [splitsSingle]) hev
  | sealed =>
    refine ⟨[], rfl, by simp, ?_, by simp⟩
    intro h; simp [NoOpaque] at h
  | bool =>
    obtain ⟨cs, h1, h2, h3⟩ := groupMissing_spec (heads := heads) (by
      intro c hc
      obtain ⟨d, hd, rfl⟩ := hh c hc
      cases hd <;> simp [BoolHead, DPat.ctor])
    refine ⟨cs, h1, ?_, ?_, ?_⟩
    · intro c hc
      rcases h3 c hc with ⟨b, rfl⟩ | ⟨all, rfl, _, h⟩
      · exact .bool
      · exact .missing fun c' hc' => by obtain ⟨b, h, _⟩ := h c' hc'; exact ⟨b, h⟩
    · intro _ v hv
      cases hv; exact h2 _
    · intro c hc
      rcases h3 c hc with ⟨b, rfl⟩ | ⟨all, rfl, h0, h⟩
      · exact buildOk_bool
      · exact buildOk_missing h0 h
  | enum opts =>
    refine ⟨_, rfl, ?_, ?_, ?_⟩
    · intro c hc
      simp at hc; obtain ⟨i, hi, rfl⟩ := hc
      exact .variant (List.getElem?_eq_getElem hi)
    · intro _ v hv
      cases hv with
      | enum h _ =>
        refine ⟨.variant _, ?_, ⟨_, rfl⟩⟩
        simp; obtain ⟨hi, _⟩ := List.getElem?_eq_some_iff.1 h; exact hi
    · intro c hc
      simp at hc; obtain ⟨i, hi, rfl⟩ := hc
      exact buildOk_variant (List.getElem?_eq_getElem hi)
  | int n =>
    by_cases hn : n = 0
    · subst hn
      refine ⟨[.range 0 0], by simp [splitWildcard], ?_, ?_, ?_⟩
      · intro c hc; simp at hc; subst hc; exact .int
      · intro _ v hv
        cases hv with
        | int h1 h2 =>
          simp [intMin] at h1; simp [intMax] at h2
          exact ⟨.range 0 0, by simp, _, rfl, by omega, by omega⟩
      · intro c hc; simp at hc; subst hc
        exact buildOk_int (.int (by simp [intMin]) (by simp [intMax])) (by omega) (by omega)
    · have hp : (0 : Int) < 2 ^ (n - 1) := Int.pow_pos (by omega)
      obtain ⟨cs, h1, h2, h3⟩ := splitInt_spec (min := -(2 ^ (n - 1) : Int))
        (max := (2 ^ (n - 1) : Int) - 1) (by omega) (hint n (.inl rfl))
      refine ⟨cs, by simp [splitWildcard, hn, h1], ?_, ?_, ?_⟩
      · intro c hc; obtain ⟨lo, hi, rfl, _⟩ := h3 c hc; exact .int
      · intro _ v hv
        cases hv with
        | int a b =>
          simp [intMin, hn] at a; simp [intMax, hn] at b
          obtain ⟨lo, hi, h4, h5, h6⟩ := h2 _ a b
          exact ⟨_, h4, _, rfl, h5, h6⟩
      · intro c hc; obtain ⟨lo, hi, rfl, h4, h5, h6, h7⟩ := h3 c hc
        exact buildOk_int (.int (by simp [intMin, hn]; omega) (by simp [intMax, hn]; omega)) h5 h7
  | uint n =>
    by_cases hn : n = 0
    · subst hn
      refine ⟨[.range 0 0], by simp [splitWildcard], ?_, ?_, ?_⟩
      · intro c hc; simp at hc; subst hc; exact .uint
      · intro _ v hv
        cases hv with
        | uint h1 h2 =>
          simp [uintMax] at h2
          exact ⟨.range 0 0, by simp, _, rfl, by omega, by omega⟩
      · intro c hc; simp at hc; subst hc
        exact buildOk_uint (.uint (by omega) (by simp [uintMax])) (by omega) (by omega)
    · have hp : (1 : Int) < 2 ^ n := by
        obtain ⟨m, rfl⟩ : ∃ m, n = m + 1 := ⟨n - 1, by omega⟩
        have : (0 : Int) < 2 ^ m := Int.pow_pos (by omega)
        rw [Int.pow_succ]; omega
      obtain ⟨cs, h1, h2, h3⟩ := splitInt_spec (min := 0)
        (max := (2 ^ n : Int) - 1) (by omega) (hint n (.inr rfl))
      refine ⟨cs, by simp [splitWildcard, hn, h1], ?_, ?_, ?_⟩
      · intro c hc; obtain ⟨lo, hi, rfl, _⟩ := h3 c hc; exact .uint
      · intro _ v hv
        cases hv with
        | uint a b =>
          simp [uintMax] at b
          obtain ⟨lo, hi, h4, h5, h6⟩ := h2 _ a (by omega)
          exact ⟨_, h4, _, rfl, h5, h6⟩
      · intro c hc; obtain ⟨lo, hi, rfl, h4, h5, h6, h7⟩ := h3 c hc
        exact buildOk_uint (.uint (by omega) (by simp [uintMax]; omega)) h5 h7

end Spade.Match

import Verif.Query.Spec

/-!
# Names at the cursor (C77): theorems
-/

namespace Spade.Query

open Spade.Loc

/-- What is visited for a piece. -/
def visit : Node → List Event
  | .e e => visitExpr e
  | .p p => visitPat p
  | .s s => visitStmt s

/-- What is inserted for a piece itself. -/
def Own (x : Node) (v : Event) : Prop :=
  (∃ n, Mentions x n ∧ v = .name n) ∨ (∃ e, x = .e e ∧ v = .expr e)

theorem mem_exprs {v : Event} : ∀ {es : Exprs}, v ∈ visitExprs es ↔ ∃ x, es.Has x ∧ v ∈ visitExpr x
  | .nil => by
    simp only [visitExprs, List.not_mem_nil, false_iff]
    rintro ⟨x, h, _⟩
    cases h
  | .cons e es => by
    rw [visitExprs, List.mem_append, mem_exprs (es := es)]
    constructor
    · rintro (h | ⟨x, h1, h2⟩)
      · exact ⟨e, .head _ _, h⟩
      · exact ⟨x, .tail _ h1, h2⟩
    · rintro ⟨x, h1, h2⟩
      cases h1 with
      | head => exact .inl h2
      | tail _ h => exact .inr ⟨x, h, h2⟩

theorem mem_pats {v : Event} : ∀ {ps : Pats}, v ∈ visitPats ps ↔ ∃ x, ps.Has x ∧ v ∈ visitPat x
  | .nil => by
    simp only [visitPats, List.not_mem_nil, false_iff]
    rintro ⟨x, h, _⟩
    cases h
  | .cons e es => by
    rw [visitPats, List.mem_append, mem_pats (ps := es)]
    constructor
    · rintro (h | ⟨x, h1, h2⟩)
      · exact ⟨e, .head _ _, h⟩
      · exact ⟨x, .tail _ h1, h2⟩
    · rintro ⟨x, h1, h2⟩
      cases h1 with
      | head => exact .inl h2
      | tail _ h => exact .inr ⟨x, h, h2⟩

theorem mem_stmts {v : Event} : ∀ {ss : Stmts}, v ∈ visitStmts ss ↔ ∃ x, ss.Has x ∧ v ∈ visitStmt x
  | .nil => by
    simp only [visitStmts, List.not_mem_nil, false_iff]
    rintro ⟨x, h, _⟩
    cases h
  | .cons a e es => by
    rw [visitStmts, List.mem_append, mem_stmts (ss := es)]
    constructor
    · rintro (h | ⟨x, h1, h2⟩)
      · exact ⟨e, .head _ _ _, h⟩
      · exact ⟨x, .tail _ _ h1, h2⟩
    · rintro ⟨x, h1, h2⟩
      cases h1 with
      | head => exact .inl h2
      | tail _ _ h => exact .inr ⟨x, h, h2⟩

theorem mem_branches {v : Event} : ∀ {bs : Branches}, v ∈ visitBranches bs ↔ ∃ x, bs.Has x ∧ v ∈ visit x
  | .nil => by
    simp only [visitBranches, List.not_mem_nil, false_iff]
    rintro ⟨x, h, _⟩
    cases h
  | .cons p g e bs => by
    rw [visitBranches, List.mem_append, List.mem_append, List.mem_append, mem_branches (bs := bs),
      mem_exprs]
    constructor
    · rintro (h | ⟨x, h1, h2⟩ | h | ⟨x, h1, h2⟩)
      · exact ⟨_, .pattern _ _ _ _, h⟩
      · exact ⟨_, .guard _ _ _ h1, h2⟩
      · exact ⟨_, .value _ _ _ _, h⟩
      · exact ⟨x, .tail _ _ _ h1, h2⟩
    · rintro ⟨x, h1, h2⟩
      cases h1 with
      | pattern => exact .inl h2
      | guard _ _ _ h => exact .inr (.inl ⟨_, h, h2⟩)
      | value => exact .inr (.inr (.inl h2))
      | tail _ _ _ h => exact .inr (.inr (.inr ⟨x, h, h2⟩))

/-- Pieces insert what they mention, and what their parts insert. -/
theorem visit_up {x : Node} {v : Event} : (Own x v ∨ ∃ y, Part x y ∧ v ∈ visit y) → v ∈ visit x := by
  rintro ((⟨n, h, rfl⟩ | ⟨e, rfl, rfl⟩) | ⟨y, h, hv⟩)
  · cases h with
    | declaration h => simpa [visit, visitStmt] using h
    | _ => simp [visit, visitExpr, visitPat, visitStmt]
  · cases e <;> simp [visit, visitExpr]
  · cases h with
    | branch _ _ _ h =>
      simp only [visit, visitExpr, List.mem_cons, List.mem_append]
      exact .inr (.inr (mem_branches.2 ⟨_, h, hv⟩))
    | _ =>
      simp only [visit, visitExpr, visitPat, visitStmt, List.mem_cons, List.mem_append, mem_exprs,
        mem_pats, mem_stmts] at hv ⊢
      first
        | exact .inr hv
        | exact .inr (.inl hv)
        | exact .inr (.inr hv)
        | exact .inr (.inr (.inl hv))
        | exact .inr (.inr (.inr hv))
        | exact .inl hv
        | exact hv
        | exact .inr (.inr (.inr (.inr hv)))
        | exact ⟨_, by assumption, hv⟩
        | exact .inr ⟨_, by assumption, hv⟩
        | exact .inr (.inl ⟨_, by assumption, hv⟩)
        | exact .inr (.inr ⟨_, by assumption, hv⟩)
        | exact .inr (.inr (.inl ⟨_, by assumption, hv⟩))
        | exact .inr (.inr (.inr (.inl ⟨_, by assumption, hv⟩)))

/-- Nothing else is inserted. -/
theorem visit_down {x : Node} {v : Event} (h : v ∈ visit x) : Own x v ∨ ∃ y, Part x y ∧ v ∈ visit y := by
  have here : ∀ e, x = .e e → v = .expr e → Own x v := fun e h1 h2 => .inr ⟨e, h1, h2⟩
  have name : ∀ n, Mentions x n → v = .name n → Own x v := fun n h1 h2 => .inl ⟨n, h1, h2⟩
  cases x with
  | p p =>
    cases p with
    | leaf => simp [visit, visitPat] at h
    | bound a n inner =>
      simp only [visit, visitPat, List.mem_cons, mem_pats] at h
      rcases h with h | ⟨x, h1, h2⟩
      · exact .inl (name n (.bound ..) h)
      · exact .inr ⟨_, .bound _ _ h1, h2⟩
    | tuple a inner =>
      obtain ⟨x, h1, h2⟩ := mem_pats.1 h
      exact .inr ⟨_, .patTuple _ h1, h2⟩
    | array a inner =>
      obtain ⟨x, h1, h2⟩ := mem_pats.1 h
      exact .inr ⟨_, .patArray _ h1, h2⟩
    | type a n args =>
      simp only [visit, visitPat, List.mem_cons, mem_pats] at h
      rcases h with h | ⟨x, h1, h2⟩
      · exact .inl (name n (.type ..) h)
      · exact .inr ⟨_, .patType _ _ h1, h2⟩
  | s s =>
    cases s with
    | quiet => simp [visit, visitStmt] at h
    | binding p e =>
      simp only [visit, visitStmt, List.mem_append] at h
      rcases h with h | h
      · exact .inr ⟨_, .bindingP _ _, h⟩
      · exact .inr ⟨_, .bindingV _ _, h⟩
    | register p c r i e =>
      simp only [visit, visitStmt, List.mem_append, mem_exprs] at h
      rcases h with h | h | ⟨x, h1, h2⟩ | ⟨x, h1, h2⟩ | h
      · exact .inr ⟨_, .registerP .., h⟩
      · exact .inr ⟨_, .registerC .., h⟩
      · exact .inr ⟨_, .registerR _ _ _ _ h1, h2⟩
      · exact .inr ⟨_, .registerI _ _ _ _ h1, h2⟩
      · exact .inr ⟨_, .registerV .., h⟩
    | expression e => exact .inr ⟨_, .expression _, h⟩
    | declaration names =>
      simp only [visit, visitStmt, List.mem_map] at h
      obtain ⟨n, h1, h2⟩ := h
      exact .inl (name n (.declaration h1) h2.symm)
    | label n =>
      simp only [visit, visitStmt, List.mem_singleton] at h
      exact .inl (name n (.label n) h)
    | assert e => exact .inr ⟨_, .assert _, h⟩
    | set t e =>
      simp only [visit, visitStmt, List.mem_append] at h
      rcases h with h | h
      · exact .inr ⟨_, .setT _ _, h⟩
      · exact .inr ⟨_, .setV _ _, h⟩
  | e e =>
    cases e <;> simp only [visit, visitExpr, List.mem_cons, List.mem_append, mem_exprs, mem_stmts,
      mem_branches, List.not_mem_nil, or_false] at h
    case leaf => exact .inl (here _ rfl h)
    case ident i a n =>
      rcases h with h | h
      · exact .inl (here _ rfl h)
      · exact .inl (name _ (.ident i a n) h)
    case tuple =>
      rcases h with h | ⟨x, h1, h2⟩
      · exact .inl (here _ rfl h)
      · exact .inr ⟨_, .tuple _ _ h1, h2⟩
    case array =>
      rcases h with h | ⟨x, h1, h2⟩
      · exact .inl (here _ rfl h)
      · exact .inr ⟨_, .array _ _ h1, h2⟩
    case shorthand => exact h.imp (here _ rfl) fun h => ⟨_, .shorthand .., h⟩
    case rangeIndex => exact h.imp (here _ rfl) fun h => ⟨_, .rangeIndex .., h⟩
    case tupleIndex => exact h.imp (here _ rfl) fun h => ⟨_, .tupleIndex .., h⟩
    case field => exact h.imp (here _ rfl) fun h => ⟨_, .field .., h⟩
    case cast => exact h.imp (here _ rfl) fun h => ⟨_, .cast .., h⟩
    case lambda => exact h.imp (here _ rfl) fun h => ⟨_, .lambda .., h⟩
    case unary => exact h.imp (here _ rfl) fun h => ⟨_, .unary .., h⟩
    case incomplete => exact h.imp (here _ rfl) fun h => ⟨_, .incomplete .., h⟩
    case index =>
      rcases h with h | h | h
      · exact .inl (here _ rfl h)
      · exact .inr ⟨_, .indexL .., h⟩
      · exact .inr ⟨_, .indexR .., h⟩
    case binary =>
      rcases h with h | h | h
      · exact .inl (here _ rfl h)
      · exact .inr ⟨_, .binaryL .., h⟩
      · exact .inr ⟨_, .binaryR .., h⟩
    case genIf =>
      rcases h with h | h | h
      · exact .inl (here _ rfl h)
      · exact .inr ⟨_, .genTrue .., h⟩
      · exact .inr ⟨_, .genFalse .., h⟩
    case method =>
      rcases h with h | h | ⟨x, h1, h2⟩
      · exact .inl (here _ rfl h)
      · exact .inr ⟨_, .method .., h⟩
      · exact .inr ⟨_, .methodArg _ _ _ h1, h2⟩
    case call =>
      rcases h with h | h | ⟨x, h1, h2⟩
      · exact .inl (here _ rfl h)
      · exact .inl (name _ (.call ..) h)
      · exact .inr ⟨_, .call _ _ _ h1, h2⟩
    case associated =>
      rcases h with h | ⟨x, h1, h2⟩
      · exact .inl (here _ rfl h)
      · exact .inr ⟨_, .associated _ _ h1, h2⟩
    case match_ =>
      rcases h with h | h | ⟨x, h1, h2⟩
      · exact .inl (here _ rfl h)
      · exact .inr ⟨_, .matched .., h⟩
      · exact .inr ⟨_, .branch _ _ _ h1, h2⟩
    case block =>
      rcases h with h | ⟨x, h1, h2⟩ | ⟨x, h1, h2⟩
      · exact .inl (here _ rfl h)
      · exact .inr ⟨_, .stmt _ _ _ h1, h2⟩
      · exact .inr ⟨_, .result _ _ _ h1, h2⟩
    case if_ =>
      rcases h with h | h | h | h
      · exact .inl (here _ rfl h)
      · exact .inr ⟨_, .cond .., h⟩
      · exact .inr ⟨_, .onTrue .., h⟩
      · exact .inr ⟨_, .onFalse .., h⟩

/-! ## Parts are smaller -/

noncomputable def size : Node → Nat
  | .e e => sizeOf e
  | .p p => sizeOf p
  | .s s => sizeOf s

theorem size_exprs {es : Exprs} {x : Expr} (h : es.Has x) : sizeOf x < sizeOf es := by
  induction h with
  | head => simp; omega
  | tail _ _ ih => simp; omega

theorem size_pats {es : Pats} {x : Pat} (h : es.Has x) : sizeOf x < sizeOf es := by
  induction h with
  | head => simp; omega
  | tail _ _ ih => simp; omega

theorem size_stmts {es : Stmts} {x : Stmt} (h : es.Has x) : sizeOf x < sizeOf es := by
  induction h with
  | head => simp; omega
  | tail _ _ _ ih => simp; omega

theorem size_branches {bs : Branches} {x : Node} (h : bs.Has x) : size x < sizeOf bs := by
  induction h with
  | pattern => simp [size]; omega
  | guard _ _ _ h => have := size_exprs h; simp [size]; omega
  | value => simp [size]; omega
  | tail _ _ _ _ ih => simp; omega

theorem size_part {x y : Node} (h : Part x y) : size y < size x := by
  cases h with
  | branch _ _ _ h => have := size_branches h; simp [size] at this ⊢; omega
  | stmt _ _ _ h => have := size_stmts h; simp [size]; omega
  | bound _ _ h => have := size_pats h; simp [size]; omega
  | patTuple _ h => have := size_pats h; simp [size]; omega
  | patArray _ h => have := size_pats h; simp [size]; omega
  | patType _ _ h => have := size_pats h; simp [size]; omega
  | tuple _ _ h => have := size_exprs h; simp [size]; omega
  | array _ _ h => have := size_exprs h; simp [size]; omega
  | methodArg _ _ _ h => have := size_exprs h; simp [size]; omega
  | call _ _ _ h => have := size_exprs h; simp [size]; omega
  | associated _ _ h => have := size_exprs h; simp [size]; omega
  | result _ _ _ h => have := size_exprs h; simp [size]; omega
  | registerR _ _ _ _ h => have := size_exprs h; simp [size]; omega
  | registerI _ _ _ _ h => have := size_exprs h; simp [size]; omega
  | _ => simp [size] <;> omega

theorem mem_visit {v : Event} : ∀ (k : Nat) {x : Node}, size x < k →
    (v ∈ visit x ↔ ∃ y, Within x y ∧ Own y v) := by
  intro k
  induction k with
  | zero => intro x h; omega
  | succ k ih =>
    intro x hk
    constructor
    · intro h
      rcases visit_down h with h | ⟨y, h1, h2⟩
      · exact ⟨x, .refl _, h⟩
      · obtain ⟨z, h3, h4⟩ := (ih (by have := size_part h1; omega)).1 h2
        exact ⟨z, .step h1 h3, h4⟩
    · rintro ⟨y, h1, h2⟩
      cases h1 with
      | refl => exact visit_up (.inl h2)
      | step h3 h4 =>
        exact visit_up (.inr ⟨_, h3, (ih (by have := size_part h3; omega)).2 ⟨y, h4, h2⟩⟩)

theorem mem_names {bodies : List Expr} {n : Located Nat} :
    n ∈ namesOf (fromArtifacts bodies) ↔ Occurs bodies n := by
  have h1 : n ∈ namesOf (fromArtifacts bodies) ↔ Event.name n ∈ fromArtifacts bodies := by
    simp only [namesOf, List.mem_filterMap]
    constructor
    · rintro ⟨v, h, hv⟩
      cases v with
      | name m => cases hv; exact h
      | expr e => cases hv
    · intro h
      exact ⟨_, h, rfl⟩
  rw [h1, fromArtifacts, List.mem_flatMap]
  constructor
  · rintro ⟨b, hb, h⟩
    obtain ⟨y, h2, h3⟩ := (mem_visit _ (x := .e b) (Nat.lt_succ_self _)).1 h
    rcases h3 with ⟨m, h4, h5⟩ | ⟨e, _, h5⟩
    · cases h5; exact ⟨b, hb, y, h2, h4⟩
    · cases h5
  · rintro ⟨b, hb, y, h2, h4⟩
    exact ⟨b, hb, (mem_visit _ (x := .e b) (Nat.lt_succ_self _)).2 ⟨y, h2, .inl ⟨n, h4, rfl⟩⟩⟩

theorem mem_ids {bodies : List Expr} {i : Nat} {e : Expr} :
    (i, e) ∈ idsOf (fromArtifacts bodies) ↔ InBodies bodies e ∧ e.id = i := by
  have h1 : (i, e) ∈ idsOf (fromArtifacts bodies) ↔ Event.expr e ∈ fromArtifacts bodies ∧ e.id = i := by
    simp only [idsOf, List.mem_filterMap]
    constructor
    · rintro ⟨v, h, hv⟩
      cases v with
      | name m => cases hv
      | expr e' => cases hv; exact ⟨h, rfl⟩
    · rintro ⟨h, rfl⟩
      exact ⟨_, h, rfl⟩
  rw [h1, fromArtifacts, List.mem_flatMap]
  refine and_congr_left fun _ => ?_
  constructor
  · rintro ⟨b, hb, h⟩
    obtain ⟨y, h2, h3⟩ := (mem_visit _ (x := .e b) (Nat.lt_succ_self _)).1 h
    rcases h3 with ⟨m, _, h5⟩ | ⟨e', h4, h5⟩
    · cases h5
    · cases h5; subst h4; exact ⟨b, hb, h2⟩
  · rintro ⟨b, hb, h2⟩
    exact ⟨b, hb, (mem_visit _ (x := .e b) (Nat.lt_succ_self _)).2 ⟨_, h2, .inr ⟨e, rfl, rfl⟩⟩⟩

/-! ## Theorems -/

/-- The names around a place are those that occur in the bodies, at places that contain it. -/
theorem C77_names {bodies : List Expr} {c : Place} {n b e : Nat} :
    (n, b, e) ∈ namesAround bodies c ↔
      ∃ x : Located Nat, Occurs bodies x ∧ x.Around c.file c.span ∧
        x.inner = n ∧ x.span.start = b ∧ x.span.stop = e := by
  rw [namesAround, (C40_around _ _ _).mem_iff]
  simp only [List.mem_map, List.mem_filter, decide_eq_true_eq, mem_names, report, Prod.mk.injEq]
  constructor
  · rintro ⟨x, ⟨h1, h2⟩, h3⟩
    exact ⟨x, h1, h2, h3⟩
  · rintro ⟨x, h1, h2, h3⟩
    exact ⟨x, ⟨h1, h2⟩, h3⟩

/-- The name at the cursor is one that occurs there. -/
theorem C77_sound {bodies : List Expr} {c : Place} {n b e : Nat} (h : nameAt bodies c = some (n, b, e)) :
    ∃ x : Located Nat, Occurs bodies x ∧ x.Around c.file c.span ∧
      x.inner = n ∧ x.span.start = b ∧ x.span.stop = e :=
  C77_names.1 (List.mem_of_getLast? h)

/-- If a name occurs at the cursor, and no other one, it is the name at the cursor. Missing: names in
types, names of methods and fields, arguments of lambdas and parameters of units are not
found (`C77_counterexample_lambda`), and other names may be around the cursor
(`C77_counterexample_gen_if`). -/
theorem C77_cursor_partial {bodies : List Expr} {c : Place} {x : Located Nat} (hx : Occurs bodies x)
    (hc : x.Around c.file c.span)
    (only : ∀ y : Located Nat, Occurs bodies y → y.Around c.file c.span →
      y.inner = x.inner ∧ y.span = x.span) :
    nameAt bodies c = some (x.inner, x.span.start, x.span.stop) := by
  have hm : (x.inner, x.span.start, x.span.stop) ∈ namesAround bodies c :=
    C77_names.2 ⟨x, hx, hc, rfl, rfl, rfl⟩
  cases hl : nameAt bodies c with
  | none =>
    rw [nameAt, List.getLast?_eq_none_iff] at hl
    rw [hl] at hm
    cases hm
  | some r =>
    obtain ⟨n, b, e⟩ := r
    obtain ⟨y, h1, h2, rfl, rfl, rfl⟩ := C77_sound hl
    obtain ⟨h3, h4⟩ := only y h1 h2
    rw [h3, h4]

/-- Where no name occurs none is found. -/
theorem C77_nothing {bodies : List Expr} {c : Place} :
    nameAt bodies c = none ↔ ∀ x : Located Nat, Occurs bodies x → ¬ x.Around c.file c.span := by
  rw [nameAt, List.getLast?_eq_none_iff]
  constructor
  · intro h x hx hc
    have := C77_names.2 ⟨x, hx, hc, rfl, rfl, rfl⟩
    rw [h] at this
    cases this
  · intro h
    cases hn : namesAround bodies c with
    | nil => rfl
    | cons r rs =>
      obtain ⟨x, h1, h2, _⟩ := C77_names (n := r.1) (b := r.2.1) (e := r.2.2).1 (by rw [hn]; simp)
      exact absurd h2 (h x h1)

theorem last_least {α : Type} {R : α → α → Prop} : ∀ {l : List α} {x y : α}, l.Pairwise R →
    l.getLast? = some x → y ∈ l → y = x ∨ R y x
  | [a], x, y, _, h, hy => by
    simp at h hy
    exact .inl (hy.trans h)
  | a :: b :: l, x, y, hp, h, hy => by
    rw [List.getLast?_cons_cons] at h
    rw [List.pairwise_cons] at hp
    rcases List.mem_cons.1 hy with rfl | hy
    · exact .inr (hp.1 x (List.mem_of_getLast? h))
    · exact last_least hp.2 h hy

/-- Of several names at the cursor the one that begins first is found, and of those the one that ends
first: not the innermost one (`C77_counterexample_gen_if`). -/
theorem C77_outermost {bodies : List Expr} {c : Place} {n b e : Nat} (h : nameAt bodies c = some (n, b, e))
    {x : Located Nat} (hx : Occurs bodies x) (hc : x.Around c.file c.span) :
    b < x.span.start ∨ (b = x.span.start ∧ e ≤ x.span.stop) := by
  have hm : (x.inner, x.span.start, x.span.stop) ∈ namesAround bodies c :=
    C77_names.2 ⟨x, hx, hc, rfl, rfl, rfl⟩
  rcases last_least (C40_order _ _ _) h hm with h | h
  · cases h
    exact .inr ⟨rfl, Nat.le_refl _⟩
  · exact h

theorem lookup_mem {β : Type} {i : Nat} {b : β} : ∀ {l : List (Nat × β)}, l.lookup i = some b → (i, b) ∈ l
  | (j, c) :: l, h => by
    rw [List.lookup_cons] at h
    split at h
    next heq =>
      cases h
      rw [beq_iff_eq] at heq
      subst heq
      simp
    next => exact List.mem_cons_of_mem _ (lookup_mem h)

theorem lookup_some {β : Type} {i : Nat} {b : β} : ∀ {l : List (Nat × β)}, (i, b) ∈ l →
    ∃ c, l.lookup i = some c
  | (j, c) :: l, h => by
    rw [List.lookup_cons]
    split
    next => exact ⟨c, rfl⟩
    next hne =>
      rcases List.mem_cons.1 h with h | h
      · cases h; simp at hne
      · exact lookup_some h

/-- The expression for an id is one of the program with that id, and if ids are unique it is found. -/
theorem C77_expression {bodies : List Expr} {i : Nat} :
    (∀ e, idToExpression bodies i = some e → InBodies bodies e ∧ e.id = i) ∧
    (∀ e, InBodies bodies e → e.id = i → (∀ e', InBodies bodies e' → e'.id = i → e' = e) →
      idToExpression bodies i = some e) := by
  have snd : ∀ e, idToExpression bodies i = some e → InBodies bodies e ∧ e.id = i := by
    intro e h
    have := lookup_mem h
    rw [List.mem_reverse] at this
    exact mem_ids.1 this
  refine ⟨snd, ?_⟩
  intro e h1 h2 only
  obtain ⟨e', h3⟩ := lookup_some (List.mem_reverse.2 (mem_ids.2 ⟨h1, h2⟩))
  obtain ⟨h4, h5⟩ := snd e' h3
  rw [← only e' h4 h5]
  exact h3

end Spade.Query

import Verif.Query.Props

/-!
# Completion of local variables (C78): model

Models `get_local_completion` (`/repo/spade-language-server/src/completion/locals.rs:8-90`) and
`Pattern::get_names` (`/repo/spade-hir/src/lib.rs:132-152`). The parameters are those of the unit at the
cursor; the labels and types of the suggestions are left out.
-/

namespace Spade.Query

open Spade.Loc

mutual
/-- `get_names` (spade-hir/src/lib.rs:132-152). -/
def patNames : Pat → List Nat
  | .leaf _ => []
  | .bound _ name inner => name.inner :: patsNames inner
  | .tuple _ inner => patsNames inner
  | .array _ inner => patsNames inner
  | .type _ _ args => patsNames args
def patsNames : Pats → List Nat
  | .nil => []
  | .cons p ps => patNames p ++ patsNames ps
end

/-- The names of a statement (locals.rs:43-53). -/
def stmtNames : Stmt → List Nat
  | .binding p _ => patNames p
  | .register p _ _ _ _ => patNames p
  | .declaration names => names.map (·.inner)
  | _ => []

/-- The statements that begin before the cursor (locals.rs:40-54). -/
def stmtsNames (c : Place) : Stmts → List Nat
  | .nil => []
  | .cons a s ss => (if a.span.start < c.span.start then stmtNames s else []) ++ stmtsNames c ss

/-- The names of a thing around the cursor (locals.rs:28-55). -/
def exprNames (c : Place) : Expr → List Nat
  | .block _ _ ss _ => stmtsNames c ss
  | _ => []

/-- The expressions among the things, in the order of insertion (lib.rs:272-273). -/
def thingsOf (es : List Event) : List (Located Expr) :=
  es.filterMap fun
    | .name _ => none
    | .expr e => some ⟨e, e.place.span, e.place.file⟩

/-- `get_local_completion` (locals.rs:8-90). -/
def localCompletion (bodies : List Expr) (params : List Nat) (c : Place) : List Nat :=
  params ++ (around (build (thingsOf (fromArtifacts bodies))) c.file c.span).flatMap fun t => exprNames c t.1

/-! ## Specification -/

/-- A variable that a pattern binds. -/
inductive Binds : Pat → Nat → Prop
  | here (a n inner) : Binds (.bound a n inner) n.inner
  | bound {a n inner p x} : Pats.Has inner p → Binds p x → Binds (.bound a n inner) x
  | tuple {a inner p x} : Pats.Has inner p → Binds p x → Binds (.tuple a inner) x
  | array {a inner p x} : Pats.Has inner p → Binds p x → Binds (.array a inner) x
  | type {a n args p x} : Pats.Has args p → Binds p x → Binds (.type a n args) x

/-- A statement of a list, with its place. -/
inductive Stmts.HasAt : Stmts → Place → Stmt → Prop
  | head (a s ss) : HasAt (.cons a s ss) a s
  | tail {ss b x} (a s) : HasAt ss b x → HasAt (.cons a s ss) b x

/-- A variable that a statement introduces. -/
inductive Introduces : Stmt → Nat → Prop
  | binding {p x} (v) : Binds p x → Introduces (.binding p v) x
  | register {p x} (c r i v) : Binds p x → Introduces (.register p c r i v) x
  | declaration {names n} : n ∈ names → Introduces (.declaration names) n.inner

/-- A variable whose scope the cursor is in: a parameter, or a variable of a statement that begins and ends
before the cursor, in a block that the cursor is in. A register is in scope in its own value. Variables of
branches of `match` and arguments of lambdas are left out (`C78_counterexample_match`). -/
inductive InScope (bodies : List Expr) (params : List Nat) (c : Place) : Nat → Prop
  | param {n} : n ∈ params → InScope bodies params c n
  | after {i a ss r b s n} : InBodies bodies (.block i a ss r) → a.file = c.file → a.span.Contains c.span →
      ss.HasAt b s → b.span.start < c.span.start → b.span.stop ≤ c.span.start → Introduces s n →
      InScope bodies params c n
  | within {i a ss r b p k t l v n} : InBodies bodies (.block i a ss r) → a.file = c.file →
      a.span.Contains c.span → ss.HasAt b (.register p k t l v) → b.span.start < c.span.start →
      Binds p n → InScope bodies params c n

/-! ## Theorems -/

theorem mem_patsNames {ps : Pats} {n : Nat} : n ∈ patsNames ps ↔ ∃ p, ps.Has p ∧ n ∈ patNames p := by
  match ps with
  | .nil =>
    simp only [patsNames, List.not_mem_nil, false_iff]
    rintro ⟨x, h, _⟩
    cases h
  | .cons e es =>
    rw [patsNames, List.mem_append, mem_patsNames (ps := es)]
    constructor
    · rintro (h | ⟨x, h1, h2⟩)
      · exact ⟨e, .head _ _, h⟩
      · exact ⟨x, .tail _ h1, h2⟩
    · rintro ⟨x, h1, h2⟩
      cases h1 with
      | head => exact .inl h2
      | tail _ h => exact .inr ⟨x, h, h2⟩

theorem mem_patNames {n : Nat} : ∀ (k : Nat) {p : Pat}, sizeOf p < k → (n ∈ patNames p ↔ Binds p n) := by
  intro k
  induction k with
  | zero => intro p h; omega
  | succ k ih =>
    intro p hk
    have sub : ∀ ps : Pats, sizeOf ps < sizeOf p →
        (n ∈ patsNames ps ↔ ∃ q, ps.Has q ∧ Binds q n) := by
      intro ps hs
      rw [mem_patsNames]
      constructor
      · rintro ⟨q, h1, h2⟩
        exact ⟨q, h1, (ih (by have := size_pats h1; omega)).1 h2⟩
      · rintro ⟨q, h1, h2⟩
        exact ⟨q, h1, (ih (by have := size_pats h1; omega)).2 h2⟩
    cases p with
    | leaf =>
      simp only [patNames, List.not_mem_nil, false_iff]
      intro h
      cases h
    | bound a m inner =>
      rw [patNames, List.mem_cons, sub inner (by simp; omega)]
      constructor
      · rintro (rfl | ⟨q, h1, h2⟩)
        · exact .here ..
        · exact .bound h1 h2
      · intro h
        cases h with
        | here => exact .inl rfl
        | bound h1 h2 => exact .inr ⟨_, h1, h2⟩
    | tuple a inner =>
      rw [patNames, sub inner (by simp; omega)]
      exact ⟨fun ⟨q, h1, h2⟩ => .tuple h1 h2, fun h => by cases h with | tuple h1 h2 => exact ⟨_, h1, h2⟩⟩
    | array a inner =>
      rw [patNames, sub inner (by simp; omega)]
      exact ⟨fun ⟨q, h1, h2⟩ => .array h1 h2, fun h => by cases h with | array h1 h2 => exact ⟨_, h1, h2⟩⟩
    | type a m inner =>
      rw [patNames, sub inner (by simp; omega)]
      exact ⟨fun ⟨q, h1, h2⟩ => .type h1 h2, fun h => by cases h with | type h1 h2 => exact ⟨_, h1, h2⟩⟩

theorem mem_stmtNames {s : Stmt} {n : Nat} : n ∈ stmtNames s ↔ Introduces s n := by
  constructor
  · intro h
    cases s with
    | binding p v => exact .binding _ ((mem_patNames _ (Nat.lt_succ_self _)).1 h)
    | register p c r i v => exact .register _ _ _ _ ((mem_patNames _ (Nat.lt_succ_self _)).1 h)
    | declaration names =>
      simp only [stmtNames, List.mem_map] at h
      obtain ⟨m, h1, rfl⟩ := h
      exact .declaration h1
    | _ => simp [stmtNames] at h
  · intro h
    cases h with
    | binding _ h => exact (mem_patNames _ (Nat.lt_succ_self _)).2 h
    | register _ _ _ _ h => exact (mem_patNames _ (Nat.lt_succ_self _)).2 h
    | declaration h => exact List.mem_map.2 ⟨_, h, rfl⟩

theorem mem_stmtsNames {c : Place} {n : Nat} : ∀ {ss : Stmts}, n ∈ stmtsNames c ss ↔
    ∃ b s, ss.HasAt b s ∧ b.span.start < c.span.start ∧ Introduces s n
  | .nil => by
    simp only [stmtsNames, List.not_mem_nil, false_iff]
    rintro ⟨b, s, h, _⟩
    cases h
  | .cons a s ss => by
    rw [stmtsNames, List.mem_append, mem_stmtsNames (ss := ss)]
    constructor
    · rintro (h | ⟨b, t, h1, h2⟩)
      · split at h
        next hlt => exact ⟨a, s, .head .., hlt, mem_stmtNames.1 h⟩
        next => cases h
      · exact ⟨b, t, .tail _ _ h1, h2⟩
    · rintro ⟨b, t, h1, h2, h3⟩
      cases h1 with
      | head =>
        left
        rw [if_pos h2]
        exact mem_stmtNames.2 h3
      | tail _ _ h => exact .inr ⟨b, t, h, h2, h3⟩

/-- What is offered: the parameters, and the variables of the statements that begin before the cursor in
the blocks around it. -/
theorem C78_offered {bodies : List Expr} {params : List Nat} {c : Place} {n : Nat} :
    n ∈ localCompletion bodies params c ↔ n ∈ params ∨
      ∃ i a ss r, InBodies bodies (.block i a ss r) ∧ a.file = c.file ∧ a.span.Contains c.span ∧
        ∃ b s, ss.HasAt b s ∧ b.span.start < c.span.start ∧ Introduces s n := by
  have hthing : ∀ t : Located Expr, t ∈ thingsOf (fromArtifacts bodies) ↔
      InBodies bodies t.inner ∧ t = ⟨t.inner, t.inner.place.span, t.inner.place.file⟩ := by
    intro t
    rw [← and_iff_left (a := InBodies bodies t.inner) (b := t.inner.id = t.inner.id) rfl, ← mem_ids]
    simp only [thingsOf, idsOf, List.mem_filterMap]
    constructor
    · rintro ⟨v, h, hv⟩
      cases v with
      | name m => cases hv
      | expr e => cases hv; exact ⟨⟨_, h, rfl⟩, rfl⟩
    · rintro ⟨⟨v, h, hv⟩, ht⟩
      cases v with
      | name m => cases hv
      | expr e =>
        simp only [Option.some.injEq, Prod.mk.injEq] at hv
        refine ⟨_, h, ?_⟩
        rw [ht, ← hv.2]
  rw [localCompletion, List.mem_append, List.mem_flatMap]
  refine or_congr_right ?_
  constructor
  · rintro ⟨t, ht, hn⟩
    rw [(C40_around _ _ _).mem_iff] at ht
    simp only [List.mem_map, List.mem_filter, decide_eq_true_eq] at ht
    obtain ⟨x, ⟨hx, hf, hc⟩, rfl⟩ := ht
    obtain ⟨h1, h2⟩ := (hthing x).1 hx
    rw [h2] at hf hc
    simp only [report] at hn
    cases he : x.inner with
    | block i a ss r =>
      rw [he] at hn h1 hf hc
      exact ⟨i, a, ss, r, h1, hf, hc, mem_stmtsNames.1 hn⟩
    | _ => rw [he] at hn; simp [exprNames] at hn
  · rintro ⟨i, a, ss, r, h1, hf, hc, h⟩
    refine ⟨report ⟨.block i a ss r, a.span, a.file⟩, ?_, mem_stmtsNames.2 h⟩
    rw [(C40_around _ _ _).mem_iff]
    exact List.mem_map.2 ⟨_, List.mem_filter.2 ⟨(hthing _).2 ⟨h1, rfl⟩, decide_eq_true ⟨hf, hc⟩⟩, rfl⟩

/-- The variables in scope at the cursor are offered. Missing: variables of branches of `match` and
arguments of lambdas (`C78_counterexample_match`); and others are offered too
(`C78_counterexample_own_value`). -/
theorem C78_scope_partial {bodies : List Expr} {params : List Nat} {c : Place} {n : Nat}
    (h : InScope bodies params c n) : n ∈ localCompletion bodies params c := by
  rw [C78_offered]
  cases h with
  | param h => exact .inl h
  | after h1 h2 h3 h4 h5 h6 h7 => exact .inr ⟨_, _, _, _, h1, h2, h3, _, _, h4, h5, h7⟩
  | within h1 h2 h3 h4 h5 h6 => exact .inr ⟨_, _, _, _, h1, h2, h3, _, _, h4, h5, .register _ _ _ _ h6⟩

/-- Nothing else is offered, unless the cursor is in the statement that introduces it: in particular no
variables of other blocks and none of later statements. -/
theorem C78_only_partial {bodies : List Expr} {params : List Nat} {c : Place} {n : Nat}
    (h : n ∈ localCompletion bodies params c) :
    InScope bodies params c n ∨
    ∃ i a ss r b s, InBodies bodies (.block i a ss r) ∧ a.file = c.file ∧ a.span.Contains c.span ∧
      ss.HasAt b s ∧ b.span.start < c.span.start ∧ c.span.start < b.span.stop ∧ Introduces s n := by
  rcases C78_offered.1 h with h | ⟨i, a, ss, r, h1, h2, h3, b, s, h4, h5, h6⟩
  · exact .inl (.param h)
  · by_cases hb : b.span.stop ≤ c.span.start
    · exact .inl (.after h1 h2 h3 h4 h5 hb h6)
    · exact .inr ⟨i, a, ss, r, b, s, h1, h2, h3, h4, h5, by omega, h6⟩

end Spade.Query

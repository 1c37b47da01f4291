import Verif.Parse.Model

/-!
# The expression parser (C31): proofs
-/

namespace Spade.Parse

open Spec (BinOp UnOp Tok Leaf Tree Ends)

theorem power_level (op : BinOp) : (binopPower op).idx = op.level := by cases op <;> rfl

theorem binop_tok (op : BinOp) : binopFromKind op.tok = some op := by cases op <;> rfl

theorem unop_tok (op : UnOp) : unopFromKind op.tok = some op := by cases op <;> rfl

theorem tok_binop {t : Tok} {op : BinOp} (h : binopFromKind t = some op) : t = op.tok := by
  cases t <;> simp only [binopFromKind, Option.some.injEq, reduceCtorEq] at h <;> subst h <;> rfl

theorem tok_unop {t : Tok} {op : UnOp} (h : unopFromKind t = some op) : t = op.tok := by
  cases t <;> simp only [unopFromKind, Option.some.injEq, reduceCtorEq] at h <;> subst h <;> rfl

theorem unopPower_idx (op : UnOp) : (unopPower op).idx = 12 := by cases op <;> rfl

theorem level_range (op : BinOp) : 1 ≤ op.level ∧ op.level ≤ 11 := by cases op <;> decide

theorem base_leaf (l : Leaf) (rest : List Tok) :
    baseExpression (l.tok :: rest) = .ok (.leaf l) rest := by cases l <;> rfl

theorem leaf_unop (l : Leaf) : unopFromKind l.tok = none := by cases l <;> rfl

theorem base_ok {toks : List Tok} {e rest} (h : baseExpression toks = .ok e rest) :
    ∃ l, e = .leaf l ∧ toks = l.tok :: rest := by
  unfold baseExpression at h
  split at h <;> first
    | (simp only [Res.ok.injEq] at h; obtain ⟨rfl, rfl⟩ := h; first
        | exact ⟨.operand _, rfl, rfl⟩
        | exact ⟨.literal _, rfl, rfl⟩
        | exact ⟨.literalSigned _ _, rfl, rfl⟩
        | exact ⟨.literalUnsigned _ _, rfl, rfl⟩)
    | simp at h

/-- How tightly the operator at the front of the tokens binds, 0 if there is none. -/
def headLevel : List Tok → Nat
  | [] => 0
  | t :: _ => match binopFromKind t with | some op => op.level | none => 0

/-- The tree with prefix operators treated by `neg`. -/
def mergeWith (neg : UnOp → Tree → Option Tree) : Tree → Option Tree
  | .leaf l => some (.leaf l)
  | .un op e => (mergeWith neg e).bind (neg op)
  | .bin op l r => (mergeWith neg l).bind (fun l => (mergeWith neg r).map (fun r => .bin op l r))
  | .call f l r => (mergeWith neg l).bind (fun l => (mergeWith neg r).map (fun r => .call f l r))

theorem mergeWith_inline (T : Tree) : mergeWith inlineNegativeLiteral T = T.merged := by
  have hn : ∀ op e, inlineNegativeLiteral op e = Tree.negate op e := by
    intro op e
    cases op <;> first
      | rfl
      | (cases e with
         | leaf l => cases l <;> rfl
         | _ => rfl)
  induction T with
  | leaf l => rfl
  | un op e ih =>
    simp only [mergeWith, Tree.merged, ih]
    cases e.merged with
    | none => rfl
    | some x => exact hn op x
  | bin op l r ihl ihr => simp only [mergeWith, Tree.merged, ihl, ihr]
  | call f l r ihl ihr => simp only [mergeWith, Tree.merged, ihl, ihr]

theorem mergeWith_id (T : Tree) : mergeWith (fun op e => some (.un op e)) T = some T := by
  induction T with
  | leaf l => rfl
  | un op e ih => simp [mergeWith, ih]
  | bin op l r ihl ihr => simp [mergeWith, ihl, ihr]
  | call f l r ihl ihr => simp [mergeWith, ihl, ihr]

theorem andThen_some {r : Option Res} {k : Tree → List Tok → Option Res} {e rest}
    (h : Res.andThen r k = some (.ok e rest)) :
    ∃ e' rest', r = some (.ok e' rest') ∧ k e' rest' = some (.ok e rest) := by
  unfold Res.andThen at h
  split at h
  · simp at h
  · simp at h
  · exact ⟨_, _, rfl, h⟩

/-! ## Soundness -/

/-- A tree of binary and prefix operators only. -/
def Flat : Tree → Prop
  | .call _ _ _ => False
  | _ => True

theorem flat_of_level {T : Tree} (h : 0 < T.level) : Flat T := by
  cases T <;> first | trivial | simp [Tree.level] at h

theorem sound (neg : UnOp → Tree → Option Tree) : ∀ (fuel : Nat),
    (∀ min toks e rest, exprBp neg fuel min toks = some (.ok e rest) →
      ∃ T, T.Ok ∧ mergeWith neg T = some e ∧ toks = T.toks ++ rest ∧
        (min.idx ≤ 11 → min.idx < T.level) ∧ (min.idx = 12 → T.level = 13) ∧
        headLevel rest ≤ min.idx) ∧
    (∀ min L lhs toks e rest, exprLoop neg fuel min lhs toks = some (.ok e rest) → L.Ok →
      mergeWith neg L = some lhs → (min.idx ≤ 11 → min.idx < L.level) →
      (min.idx = 12 → L.level = 13) → headLevel toks ≤ L.level →
      ∃ T, T.Ok ∧ mergeWith neg T = some e ∧ L.toks ++ toks = T.toks ++ rest ∧
        (min.idx ≤ 11 → min.idx < T.level) ∧ (min.idx = 12 → T.level = 13) ∧
        headLevel rest ≤ min.idx) := by
  have hl : ∀ toks, headLevel toks ≤ 11 := by
    intro toks
    unfold headLevel
    split
    · omega
    · split
      · rename_i op _; exact (level_range op).2
      · omega
  intro fuel
  induction fuel with
  | zero =>
    constructor
    · intro min toks e rest h; simp [exprBp] at h
    · intro min L lhs toks e rest h; simp [exprLoop] at h
  | succ fuel ih =>
    obtain ⟨ihb, ihl⟩ := ih
    constructor
    · intro min toks e rest h
      unfold exprBp at h
      split at h
      · simp at h
      · rename_i t ts
        split at h
        · rename_i op hop
          obtain ⟨rhs, rest', h1, h2⟩ := andThen_some h
          split at h2
          · simp at h2
          · rename_i lhs hn
            obtain ⟨R, hR, hm, ht, _, hlv, hh⟩ := ihb _ _ _ _ h1
            rw [unopPower_idx] at hlv hh
            have h13 := hlv rfl
            obtain ⟨T, hT, hm', ht', hr⟩ := ihl min (.un op R) lhs rest' e rest h2
              ⟨hR, by rw [h13]; omega⟩ (by simp [mergeWith, hm, hn])
              (by intro h; show _ < 13; omega) (by intro h; rfl)
              (by have := hl rest'; show _ ≤ 13; omega)
            refine ⟨T, hT, hm', ?_, hr⟩
            rw [← ht', tok_unop hop, ht]
            rfl
        · split at h
          · simp at h
          · rename_i lhs rest' hb
            obtain ⟨l, rfl, htk⟩ := base_ok hb
            obtain ⟨T, hT, hm', ht', hr⟩ := ihl min (.leaf l) (.leaf l) rest' e rest h trivial rfl
              (by intro h; show _ < 13; omega) (by intro h; rfl)
              (by have := hl rest'; show _ ≤ 13; omega)
            refine ⟨T, hT, hm', ?_, hr⟩
            rw [← ht', htk]
            rfl
    · intro min L lhs toks e rest h hL hmL h11 h12 hhd
      unfold exprLoop at h
      split at h
      · simp only [Option.some.injEq, Res.ok.injEq] at h
        obtain ⟨rfl, rfl⟩ := h
        exact ⟨L, hL, hmL, rfl, h11, h12, by simp [headLevel]⟩
      · rename_i t ts
        split at h
        · rename_i hnb
          simp only [Option.some.injEq, Res.ok.injEq] at h
          obtain ⟨rfl, rfl⟩ := h
          exact ⟨L, hL, hmL, rfl, h11, h12, by simp [headLevel, hnb]⟩
        · rename_i op hop
          rw [power_level] at h
          split at h
          · rename_i hle
            simp only [Option.some.injEq, Res.ok.injEq] at h
            obtain ⟨rfl, rfl⟩ := h
            exact ⟨L, hL, hmL, rfl, h11, h12, by simp only [headLevel, hop]; exact hle⟩
          · rename_i hgt
            obtain ⟨rhs, rest', h1, h2⟩ := andThen_some h
            obtain ⟨R, hR, hm, ht, h11', _, hh⟩ := ihb _ _ _ _ h1
            rw [power_level] at h11' hh
            have hrange := level_range op
            have hop' : op.level ≤ L.level := by
              simp only [headLevel, hop] at hhd; exact hhd
            obtain ⟨T, hT, hm', ht', hr⟩ := ihl min (.bin op L R) (.bin op lhs rhs) rest' e rest h2
              ⟨hL, hR, hop', h11' hrange.2⟩ (by simp [mergeWith, hm, hmL])
              (by intro h; show _ < op.level; omega) (by intro h; omega)
              (by show _ ≤ op.level; exact hh)
            refine ⟨T, hT, hm', ?_, hr⟩
            rw [← ht', tok_binop hop, ht]
            simp [Tree.toks]

/-! ## Fuel -/

theorem andThen_mono {r r' : Option Res} {k k' : Tree → List Tok → Option Res} {v : Res}
    (h : Res.andThen r k = some v) (hr : ∀ w, r = some w → r' = some w)
    (hk : ∀ e rest w, k e rest = some w → k' e rest = some w) : Res.andThen r' k' = some v := by
  unfold Res.andThen at h ⊢
  cases r with
  | none => simp at h
  | some w =>
    rw [hr w rfl]
    cases w with
    | error => exact h
    | ok e rest => exact hk e rest v h

theorem mono (neg : UnOp → Tree → Option Tree) : ∀ (f f' : Nat), f ≤ f' →
    (∀ min toks v, exprBp neg f min toks = some v → exprBp neg f' min toks = some v) ∧
    (∀ min lhs toks v, exprLoop neg f min lhs toks = some v →
      exprLoop neg f' min lhs toks = some v) := by
  intro f
  induction f with
  | zero =>
    intro f' _
    exact ⟨fun _ _ _ h => by simp [exprBp] at h, fun _ _ _ _ h => by simp [exprLoop] at h⟩
  | succ f ih =>
    intro f' hf
    obtain ⟨f', rfl⟩ : ∃ g, f' = g + 1 := ⟨f' - 1, by omega⟩
    obtain ⟨ihb, ihl⟩ := ih f' (by omega)
    constructor
    · intro min toks v h
      unfold exprBp at h ⊢
      cases toks with
      | nil => exact h
      | cons t ts =>
        simp only at h ⊢
        cases hop : unopFromKind t with
        | some op =>
          simp only [hop] at h ⊢
          refine andThen_mono h (fun w hw => ihb _ _ _ hw) (fun e rest w hw => ?_)
          cases hn : neg op e with
          | none => simp only [hn] at hw ⊢; exact hw
          | some lhs => simp only [hn] at hw ⊢; exact ihl _ _ _ _ hw
        | none =>
          simp only [hop] at h ⊢
          cases hb : baseExpression (t :: ts) with
          | error => simp only [hb] at h ⊢; exact h
          | ok lhs rest => simp only [hb] at h ⊢; exact ihl _ _ _ _ h
    · intro min lhs toks v h
      unfold exprLoop at h ⊢
      cases toks with
      | nil => exact h
      | cons t ts =>
        simp only at h ⊢
        cases hop : binopFromKind t with
        | none => simp only [hop] at h ⊢; exact h
        | some op =>
          simp only [hop] at h ⊢
          split
          · rename_i hle; rw [if_pos hle] at h; exact h
          · rename_i hle
            rw [if_neg hle] at h
            exact andThen_mono h (fun w hw => ihb _ _ _ hw) (fun e rest w hw => ihl _ _ _ _ hw)

theorem total (neg : UnOp → Tree → Option Tree) : ∀ (n : Nat),
    (∀ f min toks, toks.length ≤ n → toks.length + 1 ≤ f →
      ∃ v, exprBp neg f min toks = some v ∧ ∀ e rest, v = .ok e rest → rest.length < toks.length) ∧
    (∀ f min lhs toks, toks.length ≤ n → toks.length + 1 ≤ f →
      ∃ v, exprLoop neg f min lhs toks = some v ∧
        ∀ e rest, v = .ok e rest → rest.length ≤ toks.length) := by
  intro n
  induction n with
  | zero =>
    constructor
    · intro f min toks hn hf
      obtain ⟨f, rfl⟩ : ∃ g, f = g + 1 := ⟨f - 1, by omega⟩
      have : toks = [] := List.length_eq_zero_iff.1 (by omega)
      subst this
      exact ⟨.error, rfl, fun _ _ h => by simp at h⟩
    · intro f min lhs toks hn hf
      obtain ⟨f, rfl⟩ : ∃ g, f = g + 1 := ⟨f - 1, by omega⟩
      have : toks = [] := List.length_eq_zero_iff.1 (by omega)
      subst this
      exact ⟨.ok lhs [], rfl, fun _ _ h => by simp_all⟩
  | succ n ih =>
    obtain ⟨ihb, ihl⟩ := ih
    have loop : ∀ f min lhs toks, toks.length ≤ n + 1 → toks.length + 1 ≤ f →
      ∃ v, exprLoop neg f min lhs toks = some v ∧
        ∀ e rest, v = .ok e rest → rest.length ≤ toks.length := by
      intro f min lhs toks hn hf
      obtain ⟨f, rfl⟩ : ∃ g, f = g + 1 := ⟨f - 1, by omega⟩
      unfold exprLoop
      cases toks with
      | nil => exact ⟨_, rfl, fun _ _ h => by simp_all⟩
      | cons t ts =>
        simp only [List.length_cons] at hn hf
        simp only
        cases binopFromKind t with
        | none => exact ⟨_, rfl, fun _ _ h => by simp_all⟩
        | some op =>
          simp only
          split
          · exact ⟨_, rfl, fun _ _ h => by simp_all⟩
          · obtain ⟨v, hv, hv'⟩ := ihb f (binopPower op) ts (by omega) (by omega)
            rw [hv]
            cases v with
            | error => exact ⟨.error, rfl, fun _ _ h => by simp at h⟩
            | ok e rest =>
              have hr := hv' e rest rfl
              obtain ⟨v, hv2, hv2'⟩ := ihl f min (.bin op lhs e) rest (by omega) (by omega)
              refine ⟨v, hv2, fun e' rest' h => ?_⟩
              have := hv2' e' rest' h
              simp only [List.length_cons]; omega
    refine ⟨?_, loop⟩
    intro f min toks hn hf
    obtain ⟨f, rfl⟩ : ∃ g, f = g + 1 := ⟨f - 1, by omega⟩
    unfold exprBp
    cases toks with
    | nil => exact ⟨.error, rfl, fun _ _ h => by simp at h⟩
    | cons t ts =>
      simp only [List.length_cons] at hn hf
      simp only
      cases unopFromKind t with
      | some op =>
        simp only
        obtain ⟨v, hv, hv'⟩ := ihb f (unopPower op) ts (by omega) (by omega)
        rw [hv]
        cases v with
        | error => exact ⟨.error, rfl, fun _ _ h => by simp at h⟩
        | ok e rest =>
          have hr := hv' e rest rfl
          simp only [Res.andThen]
          cases neg op e with
          | none => exact ⟨.error, rfl, fun _ _ h => by simp at h⟩
          | some lhs =>
            simp only
            obtain ⟨v, hv2, hv2'⟩ := ihl f min lhs rest (by omega) (by omega)
            refine ⟨v, hv2, fun e' rest' h => ?_⟩
            have := hv2' e' rest' h
            simp only [List.length_cons]; omega
      | none =>
        simp only
        cases hb : baseExpression (t :: ts) with
        | error => exact ⟨.error, rfl, fun _ _ h => by simp at h⟩
        | ok lhs rest =>
          obtain ⟨l, rfl, htk⟩ := base_ok hb
          have hlen : ts.length = rest.length := by
            simpa using congrArg List.length htk
          simp only
          obtain ⟨v, hv2, hv2'⟩ := ihl f min (.leaf l) rest (by omega) (by omega)
          refine ⟨v, hv2, fun e' rest' h => ?_⟩
          have := hv2' e' rest' h
          simp only [List.length_cons]; omega

/-! ## Completeness -/

/-- The result of parsing a tree with nothing left to do. -/
def outcome (neg : UnOp → Tree → Option Tree) (T : Tree) (rest : List Tok) : Res :=
  match mergeWith neg T with
  | some e => .ok e rest
  | none => .error

theorem loop_stops (neg : UnOp → Tree → Option Tree) (min : Power) (lhs : Tree) (rest : List Tok)
    (h : headLevel rest ≤ min.idx) : exprLoop neg 1 min lhs rest = some (.ok lhs rest) := by
  unfold exprLoop
  cases rest with
  | nil => rfl
  | cons t ts =>
    simp only
    cases hop : binopFromKind t with
    | none => rfl
    | some op =>
      simp only [headLevel, hop] at h
      simp only [power_level]
      rw [if_pos h]

/-- Parsing the tokens of a tree comes down to continuing behind it. -/
theorem complete (neg : UnOp → Tree → Option Tree) : ∀ (T : Tree) (min : Power) (rest : List Tok),
    T.Ok → 0 < T.level → (min.idx ≤ 11 → min.idx < T.level) → (min.idx = 12 → T.level = 13) →
    headLevel rest ≤ T.level → min.idx ≤ 12 →
    (∀ lhs, mergeWith neg T = some lhs → ∀ f v, exprLoop neg f min lhs rest = some v →
      ∃ f', exprBp neg f' min (T.toks ++ rest) = some v) ∧
    (mergeWith neg T = none → ∃ f', exprBp neg f' min (T.toks ++ rest) = some .error) := by
  intro T
  induction T with
  | leaf l =>
    intro min rest _ _ _ _ _ _
    constructor
    · intro lhs hm f v hv
      simp only [mergeWith, Option.some.injEq] at hm
      subst hm
      refine ⟨f + 1, ?_⟩
      unfold exprBp
      show (match unopFromKind l.tok with
        | some op => _
        | none => (match baseExpression (l.tok :: rest) with | .error => _ | .ok lhs rest => _)) = _
      rw [leaf_unop, base_leaf]
      exact hv
    · intro hm; simp [mergeWith] at hm
  | un op e ih =>
    intro min rest hok _ _ _ hh hmin
    have hd : headLevel rest ≤ 12 := by
      unfold headLevel
      split
      · omega
      · split
        · rename_i op' _; have := (level_range op').2; omega
        · omega
    have h13 : e.level = 13 := by
      have := hok.2
      cases e with
      | leaf l => rfl
      | un _ _ => rfl
      | bin op' _ _ => have h2 := (level_range op').2; simp only [Tree.level] at this; omega
      | call _ _ _ => simp [Tree.level] at this
    have ih' := ih (unopPower op) rest hok.1 (by omega) (by rw [unopPower_idx]; omega)
      (by intro _; exact h13) (by omega) (by rw [unopPower_idx]; omega)
    have stop : ∀ lhs, exprLoop neg 1 (unopPower op) lhs rest = some (.ok lhs rest) :=
      fun lhs => loop_stops neg _ lhs rest (by rw [unopPower_idx]; exact hd)
    have unf : ∀ f', exprBp neg (f' + 1) min (op.tok :: (e.toks ++ rest)) =
        Res.andThen (exprBp neg f' (unopPower op) (e.toks ++ rest)) (fun rhs rest =>
          match neg op rhs with
          | none => some .error
          | some lhs => exprLoop neg f' min lhs rest) := by
      intro f'
      conv => lhs; unfold exprBp
      simp only [unop_tok]
      rfl
    show (∀ lhs, _ → ∀ f v, _ → ∃ f', exprBp neg f' min (op.tok :: (e.toks ++ rest)) = some v) ∧
      (_ → ∃ f', exprBp neg f' min (op.tok :: (e.toks ++ rest)) = some .error)
    constructor
    · intro lhs hm f v hv
      simp only [mergeWith] at hm
      cases hme : mergeWith neg e with
      | none => rw [hme] at hm; simp at hm
      | some e' =>
        rw [hme] at hm
        simp only [Option.bind_some] at hm
        obtain ⟨g, hg⟩ := ih'.1 e' hme 1 _ (stop e')
        refine ⟨max f g + 1, ?_⟩
        rw [unf, (mono neg g (max f g) (by omega)).1 _ _ _ hg]
        simp only [Res.andThen, hm]
        exact (mono neg f (max f g) (by omega)).2 _ _ _ _ hv
    · intro hm
      simp only [mergeWith] at hm
      cases hme : mergeWith neg e with
      | none =>
        obtain ⟨g, hg⟩ := ih'.2 hme
        exact ⟨g + 1, by rw [unf, hg]; rfl⟩
      | some e' =>
        rw [hme] at hm
        simp only [Option.bind_some] at hm
        obtain ⟨g, hg⟩ := ih'.1 e' hme 1 _ (stop e')
        exact ⟨g + 1, by rw [unf, hg]; simp only [Res.andThen, hm]⟩
  | bin op l r ihl ihr =>
    intro min rest hok _ h11 h12 hh hmin
    obtain ⟨hokl, hokr, hll, hlr⟩ := hok
    have hrange := level_range op
    have hm12 : min.idx ≤ 11 := by
      by_cases h : min.idx = 12
      · have := h12 h; simp only [Tree.level] at this; omega
      · omega
    have hlt : min.idx < op.level := h11 hm12
    have hh' : headLevel rest ≤ op.level := hh
    have ihl' := ihl min (op.tok :: (r.toks ++ rest)) hokl (by omega) (by intro _; omega)
      (by omega) (by simp only [headLevel, binop_tok]; exact hll) hmin
    have ihr' := ihr (binopPower op) rest hokr (by omega) (by rw [power_level]; intro _; exact hlr)
      (by rw [power_level]; omega) (by omega) (by rw [power_level]; omega)
    have stop : ∀ rhs, exprLoop neg 1 (binopPower op) rhs rest = some (.ok rhs rest) :=
      fun rhs => loop_stops neg _ rhs rest (by rw [power_level]; exact hh')
    have unf : ∀ f lhs, exprLoop neg (f + 1) min lhs (op.tok :: (r.toks ++ rest)) =
        Res.andThen (exprBp neg f (binopPower op) (r.toks ++ rest)) (fun rhs rest =>
            exprLoop neg f min (.bin op lhs rhs) rest) := by
      intro f lhs
      conv => lhs; unfold exprLoop
      simp only [binop_tok, power_level]
      rw [if_neg (by omega)]
    have htoks : (Tree.bin op l r).toks ++ rest = l.toks ++ op.tok :: (r.toks ++ rest) := by
      simp [Tree.toks]
    rw [htoks]
    constructor
    · intro lhs hm f v hv
      simp only [mergeWith] at hm
      cases hml : mergeWith neg l with
      | none => rw [hml] at hm; simp at hm
      | some l' =>
        cases hmr : mergeWith neg r with
        | none => rw [hml, hmr] at hm; simp at hm
        | some r' =>
          rw [hml, hmr] at hm
          simp only [Option.bind_some, Option.map_some, Option.some.injEq] at hm
          subst hm
          obtain ⟨g, hg⟩ := ihr'.1 r' hmr 1 _ (stop r')
          refine ihl'.1 l' hml (max f g + 1) v ?_
          rw [unf, (mono neg g (max f g) (by omega)).1 _ _ _ hg]
          simp only [Res.andThen]
          exact (mono neg f (max f g) (by omega)).2 _ _ _ _ hv
    · intro hm
      simp only [mergeWith] at hm
      cases hml : mergeWith neg l with
      | none => exact ihl'.2 hml
      | some l' =>
        cases hmr : mergeWith neg r with
        | some r' => rw [hml, hmr] at hm; simp at hm
        | none =>
          obtain ⟨g, hg⟩ := ihr'.2 hmr
          refine ihl'.1 l' hml (g + 1) .error ?_
          rw [unf, hg]
          rfl
  | call f l r _ _ =>
    intro min rest _ h0
    simp [Tree.level] at h0

/-! ## Named infix operators -/

theorem ends_headLevel {rest : List Tok} (h : Ends rest) : headLevel rest = 0 := by
  cases rest with
  | nil => rfl
  | cons t ts =>
    simp only [headLevel]
    cases hop : binopFromKind t with
    | none => rfl
    | some op => exact absurd (tok_binop hop) (h.1 op)

theorem infix_headLevel (f : Nat) (ts : List Tok) : headLevel (.infixFn f :: ts) = 0 := rfl

theorem expression_sound (neg : UnOp → Tree → Option Tree) : ∀ (fuel : Nat) toks e rest,
    expression neg fuel toks = some (.ok e rest) →
      ∃ T, T.Ok ∧ mergeWith neg T = some e ∧ toks = T.toks ++ rest ∧ Ends rest := by
  intro fuel
  induction fuel with
  | zero => intro toks e rest h; simp [expression] at h
  | succ fuel ih =>
    intro toks e rest h
    unfold expression at h
    obtain ⟨lhs, rest', h1, h2⟩ := andThen_some h
    obtain ⟨L, hL, hm, ht, hlv, _, hh⟩ := (sound neg fuel).1 _ _ _ _ h1
    have hlv' : 0 < L.level := hlv (Nat.zero_le _)
    split at h2
    · rename_i f rest''
      obtain ⟨rhs, rest3, h3, h4⟩ := andThen_some h2
      simp only [Option.some.injEq, Res.ok.injEq] at h4
      obtain ⟨rfl, rfl⟩ := h4
      obtain ⟨R, hR, hmR, htR, hends⟩ := ih _ _ _ h3
      refine ⟨.call f L R, ⟨hL, hR, hlv'⟩, by simp [mergeWith, hm, hmR], ?_, hends⟩
      rw [ht, htR]
      simp [Tree.toks]
    · rename_i hne
      simp only [Option.some.injEq, Res.ok.injEq] at h2
      obtain ⟨rfl, rfl⟩ := h2
      refine ⟨L, hL, hm, ht, ?_⟩
      cases rest' with
      | nil => trivial
      | cons t ts =>
        refine ⟨fun op he => ?_, fun f he => hne f ts (by rw [he])⟩
        subst he
        have : headLevel (op.tok :: ts) = op.level := by simp [headLevel, binop_tok]
        rw [this] at hh
        have := (level_range op).1
        have hz : Power.none.idx = 0 := rfl
        omega

theorem expression_mono (neg : UnOp → Tree → Option Tree) : ∀ (f f' : Nat), f ≤ f' → ∀ toks v,
    expression neg f toks = some v → expression neg f' toks = some v := by
  intro f
  induction f with
  | zero => intro f' _ toks v h; simp [expression] at h
  | succ f ih =>
    intro f' hf toks v h
    obtain ⟨f', rfl⟩ : ∃ g, f' = g + 1 := ⟨f' - 1, by omega⟩
    unfold expression at h ⊢
    refine andThen_mono h (fun w hw => (mono neg f f' (by omega)).1 _ _ _ hw)
      (fun e rest w hw => ?_)
    split at hw
    · exact andThen_mono hw (fun w hw => ih f' (by omega) _ _ hw) (fun _ _ _ h => h)
    · exact hw

theorem expression_total (neg : UnOp → Tree → Option Tree) : ∀ (n : Nat) (f : Nat) toks,
    toks.length ≤ n → toks.length + 2 ≤ f → expression neg f toks ≠ none := by
  intro n
  induction n with
  | zero =>
    intro f toks hn hf
    obtain ⟨f, rfl⟩ : ∃ g, f = g + 2 := ⟨f - 2, by omega⟩
    have : toks = [] := List.length_eq_zero_iff.1 (by omega)
    subst this
    simp [expression, exprBp, Res.andThen]
  | succ n ih =>
    intro f toks hn hf
    obtain ⟨f, rfl⟩ : ∃ g, f = g + 1 := ⟨f - 1, by omega⟩
    unfold expression
    obtain ⟨v, hv, hv'⟩ := (total neg (n + 1)).1 f .none toks hn (by omega)
    rw [hv]
    cases v with
    | error => simp [Res.andThen]
    | ok e rest =>
      have hr := hv' e rest rfl
      simp only [Res.andThen]
      split
      · rename_i g rest'
        simp only [List.length_cons] at hr
        have := ih f rest' (by omega) (by omega)
        cases he : expression neg f rest' with
        | none => exact absurd he this
        | some w => cases w <;> simp
      · simp

theorem expression_complete (neg : UnOp → Tree → Option Tree) : ∀ (T : Tree) (rest : List Tok),
    T.Ok → Ends rest →
      ∃ f, expression neg f (T.toks ++ rest) = some (outcome neg T rest) := by
  have simple : ∀ (T : Tree) (rest : List Tok), T.Ok → 0 < T.level → Ends rest →
      ∃ f, expression neg f (T.toks ++ rest) = some (outcome neg T rest) := by
    intro T rest hok hl hends
    have hh := ends_headLevel hends
    have hc := complete neg T .none rest hok hl (fun _ => hl) (fun h => by simp [Power.idx] at h)
      (by omega) (by simp [Power.idx])
    unfold outcome
    cases hm : mergeWith neg T with
    | none =>
      obtain ⟨f, hf⟩ := hc.2 hm
      exact ⟨f + 1, by unfold expression; rw [hf]; rfl⟩
    | some e =>
      obtain ⟨f, hf⟩ := hc.1 e hm 1 _ (loop_stops neg .none e rest (by omega))
      refine ⟨f + 1, ?_⟩
      unfold expression
      rw [hf]
      simp only [Res.andThen]
      split
      · rename_i g rest'
        exact absurd rfl (hends.2 g)
      · rfl
  intro T
  induction T with
  | leaf l => intro rest hok hends; exact simple _ rest hok (by simp [Tree.level]) hends
  | un op e _ => intro rest hok hends; exact simple _ rest hok (by simp [Tree.level]) hends
  | bin op l r _ _ =>
    intro rest hok hends; exact simple _ rest hok (level_range op).1 hends
  | call g l r _ ihr =>
    intro rest hok hends
    obtain ⟨hokl, hokr, hll⟩ := hok
    have hc := complete neg l .none (.infixFn g :: (r.toks ++ rest)) hokl hll (fun _ => hll)
      (fun h => by simp [Power.idx] at h) (by rw [infix_headLevel]; omega) (by simp [Power.idx])
    have htoks : (Tree.call g l r).toks ++ rest = l.toks ++ .infixFn g :: (r.toks ++ rest) := by
      simp [Tree.toks]
    rw [htoks]
    obtain ⟨fr, hfr⟩ := ihr rest hokr hends
    cases hml : mergeWith neg l with
    | none =>
      obtain ⟨f, hf⟩ := hc.2 hml
      refine ⟨f + 1, ?_⟩
      unfold expression
      rw [hf]
      simp [Res.andThen, outcome, mergeWith, hml]
    | some l' =>
      obtain ⟨f, hf⟩ := hc.1 l' hml 1 _ (loop_stops neg .none l' _ (by rw [infix_headLevel]; omega))
      refine ⟨max f fr + 1, ?_⟩
      unfold expression
      rw [(mono neg f (max f fr) (by omega)).1 _ _ _ hf]
      simp only [Res.andThen]
      rw [expression_mono neg fr (max f fr) (by omega) _ _ hfr]
      unfold outcome
      cases hmr : mergeWith neg r with
      | none => simp [mergeWith, hml, hmr]
      | some r' => simp [mergeWith, hml, hmr]

/-! ## The theorems -/

/-- C31, one half: whatever tokens the parser accepts, the result is a tree that respects precedence
and associativity, whose tokens in order are the tokens consumed, with minus signs merged into the
literals they precede; and parsing only stops at a token that cannot continue the expression. -/
theorem C31_result_respects_precedence (toks : List Tok) (e : Tree) (rest : List Tok)
    (h : parse toks = some (.ok e rest)) :
    ∃ T : Tree, T.Ok ∧ toks = T.toks ++ rest ∧ T.merged = some e ∧ Ends rest := by
  obtain ⟨T, h1, h2, h3, h4⟩ := expression_sound inlineNegativeLiteral _ _ _ _ h
  rw [mergeWith_inline] at h2
  exact ⟨T, h1, h3, h2, h4⟩

/-- C31, the other half: the tokens of every tree that respects precedence and associativity are
parsed to that tree (an error if a minus precedes an unsigned literal). -/
theorem C31_every_expression_is_parsed (T : Tree) (rest : List Tok) (hok : T.Ok) (hr : Ends rest) :
    parse (T.toks ++ rest) = some (match T.merged with | some e => .ok e rest | none => .error) := by
  obtain ⟨f, hf⟩ := expression_complete inlineNegativeLiteral T rest hok hr
  unfold outcome at hf
  rw [mergeWith_inline] at hf
  have ht := expression_total inlineNegativeLiteral _ ((T.toks ++ rest).length + 2) (T.toks ++ rest)
    (Nat.le_refl _) (Nat.le_refl _)
  unfold parse
  cases hp : expression inlineNegativeLiteral ((T.toks ++ rest).length + 2) (T.toks ++ rest) with
  | none => exact absurd hp ht
  | some v =>
    have h1 := expression_mono inlineNegativeLiteral _ (max f ((T.toks ++ rest).length + 2))
      (Nat.le_max_left _ _) _ _ hf
    have h2 := expression_mono inlineNegativeLiteral _ (max f ((T.toks ++ rest).length + 2))
      (Nat.le_max_right _ _) _ _ hp
    rw [h1] at h2
    exact h2.symm

/-- C31: a sequence of tokens has at most one tree. -/
theorem C31_tree_is_unique (T T' : Tree) (h : T.Ok) (h' : T'.Ok) (he : T.toks = T'.toks) : T = T' := by
  let neg : UnOp → Tree → Option Tree := fun op e => some (.un op e)
  obtain ⟨f, hf⟩ := expression_complete neg T [] h trivial
  obtain ⟨f', hf'⟩ := expression_complete neg T' [] h' trivial
  unfold outcome at hf hf'
  rw [mergeWith_id] at hf hf'
  rw [he] at hf
  have h1 := expression_mono neg _ (max f f') (Nat.le_max_left _ _) _ _ hf
  have h2 := expression_mono neg _ (max f f') (Nat.le_max_right _ _) _ _ hf'
  rw [h1] at h2
  simpa using h2

/-- C31: the parser always comes to an answer. -/
theorem C31_parser_terminates (toks : List Tok) : parse toks ≠ none :=
  expression_total inlineNegativeLiteral _ _ toks (Nat.le_refl _) (Nat.le_refl _)

/-- `a + b * -3 - c == d  &&  !e`, followed by a closing parenthesis. -/
def exToks : List Tok :=
  [.operand 0, .plus, .operand 1, .asterisk, .minus, .literal 3, .minus, .operand 2, .equals,
   .operand 3, .logicalAnd, .not, .operand 4, .other 0]

/-- Its tree. -/
def exTree : Tree :=
  .bin .logicalAnd
    (.bin .eq
      (.bin .sub (.bin .add (.leaf (.operand 0))
        (.bin .mul (.leaf (.operand 1)) (.un .sub (.leaf (.literal 3)))))
        (.leaf (.operand 2)))
      (.leaf (.operand 3)))
    (.un .not (.leaf (.operand 4)))

example : exTree.Ok ∧ exTree.toks ++ [.other 0] = exToks ∧ Ends [.other 0] := by
  refine ⟨?_, rfl, ?_⟩
  · simp only [exTree, Tree.Ok]
    decide
  · exact ⟨fun op h => by cases op <;> simp [BinOp.tok] at h, fun f h => by simp at h⟩

example : parse exToks = some (.ok (.bin .logicalAnd
    (.bin .eq
      (.bin .sub (.bin .add (.leaf (.operand 0))
        (.bin .mul (.leaf (.operand 1)) (.leaf (.literal (-3)))))
        (.leaf (.operand 2)))
      (.leaf (.operand 3)))
    (.un .not (.leaf (.operand 4)))) [.other 0]) := by decide +kernel

/-- Named infix operators associate to the right and bind loosest. -/
example : parse [.operand 0, .infixFn 1, .operand 2, .plus, .operand 3, .infixFn 4, .operand 5] =
    some (.ok (.call 1 (.leaf (.operand 0))
      (.call 4 (.bin .add (.leaf (.operand 2)) (.leaf (.operand 3))) (.leaf (.operand 5)))) []) := by
  decide +kernel

end Spade.Parse

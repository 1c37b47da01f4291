import Verif.Entity.Model
import Verif.Expr.Props
/-!
# The compile time evaluator on initial values

Lowering an initial value and evaluating the statements gives a literal all of whose fillings encode
the value.
-/
namespace Spade.Entity
open Spade.Verilog Spade.Codegen Spade.Lower Spade.Expr
open Spade.Match (Val Matches)

/-! ## Literals that stand for a value -/

theorem fills_append_inv : ∀ {s s' : List (Option Bool)} {b : Bits}, Fills (s ++ s') b →
    ∃ b1 b2, b = b1 ++ b2 ∧ Fills s b1 ∧ Fills s' b2
  | [], _, b, h => ⟨[], b, rfl, trivial, h⟩
  | none :: s, s', x :: b, h => by
    simp only [List.cons_append, Fills] at h
    obtain ⟨b1, b2, rfl, h1, h2⟩ := fills_append_inv h
    exact ⟨x :: b1, b2, rfl, h1, h2⟩
  | some c :: s, s', x :: b, h => by
    simp only [List.cons_append, Fills] at h
    obtain ⟨b1, b2, rfl, h1, h2⟩ := fills_append_inv h.2
    exact ⟨x :: b1, b2, rfl, ⟨h.1, h1⟩, h2⟩
  | none :: _, _, [], h => by simp [Fills] at h
  | some _ :: _, _, [], h => by simp [Fills] at h

theorem fills_some_inv : ∀ {b b' : Bits}, Fills (b.map some) b' → b' = b
  | [], [], _ => rfl
  | [], _ :: _, h => by simp [Fills] at h
  | x :: b, [], h => by simp [Fills] at h
  | x :: b, y :: b', h => by
    simp only [List.map_cons, Fills] at h
    rw [h.1, fills_some_inv h.2]

theorem fills_length : ∀ {s : List (Option Bool)} {b : Bits}, Fills s b → b.length = s.length
  | [], [], _ => rfl
  | [], _ :: _, h => by simp [Fills] at h
  | none :: s, _ :: b, h => by simpa using fills_length (by simpa [Fills] using h)
  | some _ :: s, _ :: b, h => by
    simp only [Fills] at h
    simpa using fills_length h.2
  | none :: _, [], h => by simp [Fills] at h
  | some _ :: _, [], h => by simp [Fills] at h

/-- The evaluator's value stands for a value of a type, whatever the unknown bits are. -/
structure Rep (ty : MTy) (v : Val) (V : Value) : Prop where
  str : ∃ s, V.asString = some s ∧ ∀ b, Fills s b → Enc ty v b
  num : ∀ n z, ty = .int n → v = .int z → V = .int n z ∧ InRange (.int n) z

/-- Pointwise. -/
inductive RepAll : List MTy → List Val → List Value → Prop
  | nil : RepAll [] [] []
  | cons {t v V ts vs Vs} : Rep t v V → RepAll ts vs Vs → RepAll (t :: ts) (v :: vs) (V :: Vs)

theorem repAll_append {ts ts' : List MTy} {vs vs' : List Val} {Vs Vs' : List Value} :
    RepAll ts vs Vs → RepAll ts' vs' Vs' → RepAll (ts ++ ts') (vs ++ vs') (Vs ++ Vs') := by
  intro h h'
  induction h with
  | nil => exact h'
  | cons h1 _ ih => exact .cons h1 ih

theorem repAll_reverse {ts : List MTy} {vs : List Val} {Vs : List Value} (h : RepAll ts vs Vs) :
    RepAll ts.reverse vs.reverse Vs.reverse := by
  induction h with
  | nil => exact .nil
  | cons h1 _ ih =>
    simp only [List.reverse_cons]
    exact repAll_append ih (.cons h1 .nil)

theorem repAll_replicate {t : MTy} {v : Val} {V : Value} (h : Rep t v V) : ∀ n,
    RepAll (List.replicate n t) (List.replicate n v) (List.replicate n V)
  | 0 => .nil
  | n + 1 => by simp only [List.replicate_succ]; exact .cons h (repAll_replicate h n)

theorem encAll_snoc {ts : List MTy} {vs : List Val} {bss : List Bits} {t : MTy} {v : Val} {b : Bits} :
    EncAll ts vs bss → Enc t v b → EncAll (ts ++ [t]) (vs ++ [v]) (bss ++ [b])
  | .nil, h => .cons h .nil
  | .cons h1 h2, h => .cons h1 (encAll_snoc h2 h)

theorem encAll_reverse {ts : List MTy} {vs : List Val} {bss : List Bits} :
    EncAll ts vs bss → EncAll ts.reverse vs.reverse bss.reverse
  | .nil => .nil
  | .cons h1 h2 => by
    simp only [List.reverse_cons]
    exact encAll_snoc (encAll_reverse h2) h1

theorem repAll_str {ts : List MTy} {vs : List Val} {Vs : List Value} (h : RepAll ts vs Vs) :
    ∃ s, asStrings Vs = some s ∧ ∀ b, Fills s b → ∃ bss, b = bss.flatten ∧ EncAll ts vs bss := by
  induction h with
  | nil =>
    refine ⟨[], rfl, fun b hb => ⟨[], ?_, .nil⟩⟩
    cases b with
    | nil => rfl
    | cons _ _ => simp [Fills] at hb
  | cons h1 _ ih =>
    obtain ⟨s, hs, he⟩ := h1.str
    obtain ⟨s', hs', he'⟩ := ih
    refine ⟨s ++ s', by simp [asStrings, hs, hs'], fun b hb => ?_⟩
    obtain ⟨b1, b2, rfl, f1, f2⟩ := fills_append_inv hb
    obtain ⟨bss, rfl, e2⟩ := he' _ f2
    exact ⟨b1 :: bss, rfl, .cons (he _ f1) e2⟩

theorem rep_int {n : Nat} {z : Int} (hn : n ≠ 0) (hz : InRange (.int n) z) :
    Rep (.int n) (.int z) (.int n z) := by
  obtain ⟨s, hs, hf⟩ := (agree_int hn hz).str
  have hz' := hz
  simp only [InRange] at hz'
  obtain ⟨m, rfl⟩ : ∃ m, n = m + 1 := ⟨n - 1, by omega⟩
  have hp := pow_succ_int m
  have hp' := two_pow_pos m
  simp only [Nat.add_sub_cancel] at hz'
  refine ⟨⟨_, asString_int (by omega) (by simp only [Nat.add_sub_cancel]; omega) (by omega),
    fun b hb => ?_⟩, ?_⟩
  · rw [fills_some_inv hb]; exact .int hz
  · intro k w h1 h2; cases h1; cases h2; exact ⟨rfl, hz⟩

theorem rep_uint {n : Nat} {z : Int} (hn : n ≠ 0) (hz : InRange (.uint n) z) :
    Rep (.uint n) (.int z) (.int n z) := by
  have hz' := hz
  simp only [InRange] at hz'
  have hp' := two_pow_pos (n - 1)
  refine ⟨⟨_, asString_int (by omega) (by omega) (by omega), fun b hb => ?_⟩, ?_⟩
  · rw [fills_some_inv hb]; exact .uint hz
  · intro k w h1 h2; cases h1

theorem rep_enum {opts : List (List MTy)} {i : Nat} {ts : List MTy} {vs : List Val} {Vs : List Value}
    (hi : opts[i]? = some ts) (h : RepAll ts vs Vs) :
    Rep (.enum opts) (.variant i vs) (.concat ((if opts.length ≤ 1 then [] else
      [Value.uint (tagSize opts.length) i]) ++ Vs ++
      if (MTy.enum opts).size - tagSize opts.length - sizes ts ≠ 0 then
        [.undef ((MTy.enum opts).size - tagSize opts.length - sizes ts)] else [])) := by
  have hlt : i < opts.length := by
    rcases Nat.lt_or_ge i opts.length with h | h
    · exact h
    · rw [List.getElem?_eq_none h] at hi; cases hi
  have hsz : (MTy.enum opts).size = tagSize opts.length + maxSize opts := by simp [MTy.size]
  have hmax := sizes_le_max hi
  obtain ⟨s, hs, he⟩ := repAll_str h
  obtain ⟨hd, hhd, hfd⟩ : ∃ hd, asStrings (if opts.length ≤ 1 then []
      else [Value.uint (tagSize opts.length) i]) = some hd ∧
      ∀ b, Fills hd b → b = ofNat (tagSize opts.length) i := by
    split
    · rename_i h1
      have : tagSize opts.length = 0 := tagSize_eq (by simpa using h1) (Or.inl rfl)
      rw [this]
      refine ⟨[], rfl, fun b hb => ?_⟩
      cases b with
      | nil => rfl
      | cons _ _ => simp [Fills] at hb
    · have h1 : 1 ≤ tagSize opts.length := by
        rcases Nat.eq_zero_or_pos (tagSize opts.length) with h | h
        · have := tagSize_zero h; omega
        · exact h
      refine ⟨(ofNat (tagSize opts.length) i).map some, ?_, fun b hb => fills_some_inv hb⟩
      simp [asStrings, Value.asString, padZeros_eq h1 (variant_lt_tag hlt)]
  generalize hP : (MTy.enum opts).size - tagSize opts.length - sizes ts = N
  obtain ⟨pd, hpd, hfp⟩ : ∃ pd, asStrings (if N ≠ 0 then [.undef N] else []) = some pd ∧
      pd.length = N := by
    split
    · exact ⟨List.replicate N none, by simp [asStrings, Value.asString], by simp⟩
    · rename_i h0
      simp only [ne_eq, Decidable.not_not] at h0
      subst h0; exact ⟨[], rfl, rfl⟩
  refine ⟨⟨hd ++ s ++ pd, ?_, fun b hb => ?_⟩, by intro _ _ h; cases h⟩
  · simp only [Value.asString]
    exact asStrings_append _ _ (asStrings_append _ _ hhd hs) hpd
  · obtain ⟨b12, b3, rfl, f12, f3⟩ := fills_append_inv hb
    obtain ⟨b1, b2, rfl, f1, f2⟩ := fills_append_inv f12
    obtain ⟨bss, rfl, e2⟩ := he _ f2
    rw [hfd _ f1]
    refine .enum hi e2 ?_
    have := fills_length f3
    omega

/-! ## Lookups -/

theorem look_append_some {α : Type} {m m' : List (Nat × α)} {n : Nat} {v : α}
    (h : look m n = some v) : look (m ++ m') n = some v := by
  simp only [look, Option.map_eq_some_iff] at h ⊢
  obtain ⟨p, hp, rfl⟩ := h
  exact ⟨p, by rw [List.find?_append, hp, Option.some_or], rfl⟩

theorem look_append_none {α : Type} {m m' : List (Nat × α)} {n : Nat} (h : ∀ p ∈ m, p.1 ≠ n) :
    look (m ++ m') n = look m' n := by
  have : m.find? (fun p => p.1 == n) = none := by
    rw [List.find?_eq_none]
    intro p hp
    simpa using h p hp
  simp only [look, List.find?_append, this, Option.none_or]

theorem lookAll_append {α : Type} {m m' : List (Nat × α)} : ∀ {ns : List Nat} {vs : List α},
    lookAll m ns = some vs → lookAll (m ++ m') ns = some vs
  | [], _, h => h
  | n :: ns, vs, h => by
    simp only [lookAll, Option.bind_eq_bind, Option.bind_eq_some_iff] at h ⊢
    obtain ⟨v, hv, ws, hw, h⟩ := h
    exact ⟨v, look_append_some hv, ws, lookAll_append hw, h⟩

theorem lookAll_replicate {α : Type} {m : List (Nat × α)} {n : Nat} {v : α} (h : look m n = some v) :
    ∀ k, lookAll m (List.replicate k n) = some (List.replicate k v)
  | 0 => rfl
  | k + 1 => by simp [List.replicate_succ, lookAll, h, lookAll_replicate h k]

theorem lookAll_snoc {α : Type} {m : List (Nat × α)} : ∀ {ns : List Nat} {vs : List α} {n : Nat} {v : α},
    lookAll m ns = some vs → look m n = some v → lookAll m (ns ++ [n]) = some (vs ++ [v])
  | [], _, n, v, h, hn => by
    simp only [lookAll, Option.some.injEq] at h
    subst h
    simp [lookAll, hn]
  | k :: ns, vs, n, v, h, hn => by
    simp only [lookAll, Option.bind_eq_bind, Option.bind_eq_some_iff, Option.some.injEq] at h
    obtain ⟨w, hw, ws, hws, rfl⟩ := h
    simp [lookAll, hw, lookAll_snoc hws hn]

theorem lookAll_reverse {α : Type} {m : List (Nat × α)} : ∀ {ns : List Nat} {vs : List α},
    lookAll m ns = some vs → lookAll m ns.reverse = some vs.reverse
  | [], _, h => by
    simp only [lookAll, Option.some.injEq] at h
    subst h
    rfl
  | n :: ns, vs, h => by
    simp only [lookAll, Option.bind_eq_bind, Option.bind_eq_some_iff, Option.some.injEq] at h
    obtain ⟨v, hv, ws, hws, rfl⟩ := h
    simp only [List.reverse_cons]
    exact lookAll_snoc (lookAll_reverse hws) hv

theorem stmtsOf_append {a b : List Item} {x y : List Stmt} (ha : stmtsOf a = some x)
    (hb : stmtsOf b = some y) : stmtsOf (a ++ b) = some (x ++ y) := by
  induction a generalizing x with
  | nil => simp [stmtsOf] at ha; subst ha; exact hb
  | cons i a ih =>
    cases i with
    | stmt s =>
      simp only [stmtsOf, Option.map_eq_some_iff] at ha
      obtain ⟨w, hw, rfl⟩ := ha
      simp [stmtsOf, ih hw]
    | _ => simp [stmtsOf] at ha

/-! ## Evaluation -/

/-- Evaluating the statements adds values of the names, among them one of `n`, which is the last. -/
structure Folds (is : List Item) (names : List Nat) (n : Nat) (ty : MTy) (v : Val) : Prop where
  run : ∃ ss new newT V, stmtsOf is = some ss ∧
    (∀ rest vals types last, evalStmts (ss ++ rest) vals types last =
      evalStmts rest (new ++ vals) (newT ++ types) (some V)) ∧
    (∀ p ∈ new, p.1 ∈ names) ∧ (∀ p ∈ newT, p.1 ∈ names) ∧ n ∈ names ∧
    look new n = some V ∧ look newT n = some ty ∧ Rep ty v V

/-- The same for several expressions. -/
structure FoldsAll (is : List Item) (names : List Nat) (ns : List Nat) (ts : List MTy)
    (vs : List Val) : Prop where
  run : ∃ ss new newT Vs, stmtsOf is = some ss ∧
    (∀ rest vals types last, ∃ last', evalStmts (ss ++ rest) vals types last =
      evalStmts rest (new ++ vals) (newT ++ types) last') ∧
    (∀ p ∈ new, p.1 ∈ names) ∧ (∀ p ∈ newT, p.1 ∈ names) ∧ (∀ n ∈ ns, n ∈ names) ∧
    lookAll new ns = some Vs ∧ lookAll newT ns = some ts ∧ RepAll ts vs Vs

theorem Folds.all {is : List Item} {names : List Nat} {n : Nat} {ty : MTy} {v : Val}
    (h : Folds is names n ty v) : FoldsAll is names [n] [ty] [v] := by
  obtain ⟨ss, new, newT, V, h1, h2, h3, h4, h5, h6, h7, h8⟩ := h.run
  exact ⟨ss, new, newT, [V], h1, fun r a b c => ⟨_, h2 r a b c⟩, h3, h4, by simpa using h5,
    by simp [lookAll, h6], by simp [lookAll, h7], .cons h8 .nil⟩

theorem FoldsAll.cons {is js : List Item} {ms ks ns : List Nat} {n : Nat} {ty : MTy} {ts : List MTy}
    {v : Val} {vs : List Val} (h : Folds is ms n ty v) (h' : FoldsAll js ks ns ts vs)
    (hd : ∀ m ∈ ms, m ∉ ks) : FoldsAll (is ++ js) (ms ++ ks) (n :: ns) (ty :: ts) (v :: vs) := by
  obtain ⟨ss, new, newT, V, h1, h2, h3, h4, h5, h6, h7, h8⟩ := h.run
  obtain ⟨ss', new', newT', Vs, k1, k2, k3, k4, k5, k6, k7, k8⟩ := h'.run
  refine ⟨ss ++ ss', new' ++ new, newT' ++ newT, V :: Vs, stmtsOf_append h1 k1, ?_, ?_, ?_, ?_, ?_,
    ?_, .cons h8 k8⟩
  · intro rest vals types last
    obtain ⟨l', hl'⟩ := k2 rest (new ++ vals) (newT ++ types) (some V)
    exact ⟨l', by simp only [List.append_assoc, h2]; exact hl'⟩
  · intro p hp
    rcases List.mem_append.1 hp with hp | hp
    · simp [k3 p hp]
    · simp [h3 p hp]
  · intro p hp
    rcases List.mem_append.1 hp with hp | hp
    · simp [k4 p hp]
    · simp [h4 p hp]
  · simp only [List.mem_cons, forall_eq_or_imp, List.mem_append]
    exact ⟨.inl h5, fun m hm => .inr (k5 m hm)⟩
  · have : look (new' ++ new) n = some V := by
      rw [look_append_none (fun p hp (he : p.1 = n) => hd n h5 (he ▸ k3 p hp))]; exact h6
    simp [lookAll, this, lookAll_append k6]
  · have : look (newT' ++ newT) n = some ty := by
      rw [look_append_none (fun p hp (he : p.1 = n) => hd n h5 (he ▸ k4 p hp))]; exact h7
    simp [lookAll, this, lookAll_append k7]

theorem lookAll_cons_ne {α : Type} {m : List (Nat × α)} {k : Nat} {a : α} : ∀ {ns : List Nat}
    {vs : List α}, (∀ n ∈ ns, n ≠ k) → lookAll m ns = some vs → lookAll ((k, a) :: m) ns = some vs
  | [], _, _, h => h
  | n :: ns, vs, hn, h => by
    simp only [List.mem_cons, forall_eq_or_imp] at hn
    simp only [lookAll, Option.bind_eq_bind, Option.bind_eq_some_iff, Option.some.injEq] at h
    obtain ⟨b, hb, bs, hbs, rfl⟩ := h
    simp [lookAll, look_cons_ne _ _ hn.1, hb, lookAll_cons_ne hn.2 hbs]

/-- A binding after its operands. -/
theorem FoldsAll.bind {is : List Item} {names ns ops : List Nat} {ts : List MTy} {vs : List Val}
    {id : Nat} {ty : MTy} {op : Op} {v : Val} (h : FoldsAll is names ns ts vs) (hid : id ∉ names)
    (hop : ∀ Vs, RepAll ts vs Vs → ∃ V, Rep ty v V ∧ ∀ vals types, lookAll vals ns = some Vs →
      lookAll types ns = some ts → evalOp vals types ty op ops = some V) :
    Folds (is ++ [.stmt (.bind id ty op ops)]) (names ++ [id]) id ty v := by
  obtain ⟨ss, new, newT, Vs, k1, k2, k3, k4, k5, k6, k7, k8⟩ := h.run
  obtain ⟨V, hV, hev⟩ := hop Vs k8
  refine ⟨ss ++ [.bind id ty op ops], (id, V) :: new, (id, ty) :: newT, V, stmtsOf_append k1 rfl, ?_,
    ?_, ?_, by simp, look_cons_self _ _ _, look_cons_self _ _ _, hV⟩
  · intro rest vals types last
    obtain ⟨l', hl'⟩ := k2 ([.bind id ty op ops] ++ rest) vals types last
    rw [List.append_assoc, hl']
    simp only [List.cons_append, List.nil_append, evalStmts]
    rw [hev _ _ (lookAll_append k6) (lookAll_cons_ne (fun n hn (he : n = id) => hid (he ▸ k5 n hn))
      (lookAll_append k7))]
    rfl
  · intro p hp
    simp only [List.mem_cons] at hp
    rcases hp with rfl | hp
    · simp
    · simp [k3 p hp]
  · intro p hp
    simp only [List.mem_cons] at hp
    rcases hp with rfl | hp
    · simp
    · simp [k4 p hp]

theorem folds_const {id : Nat} {ty : MTy} {c : Const} {v : Val} {V : Value}
    (hV : (match c with
      | .int z => Value.int ty.size z
      | .bool b => .bit b) = V) (h : Rep ty v V) :
    Folds [.stmt (.const id ty c)] [id] id ty v := by
  refine ⟨[.const id ty c], [(id, V)], [(id, ty)], V, rfl, ?_, by simp, by simp, by simp,
    look_cons_self _ _ _, look_cons_self _ _ _, h⟩
  intro rest vals types last
  subst hV
  rfl

theorem rep_bool (b : Bool) : Rep .bool (.bool b) (.bit b) := by
  refine ⟨⟨_, rfl, fun bs hb => ?_⟩, by intro _ _ h; cases h⟩
  have := fills_some_inv (b := [b]) hb
  subst this
  exact .bool

theorem rep_tuple {ts : List MTy} {vs : List Val} {Vs : List Value} (h : RepAll ts vs Vs) :
    Rep (.tuple ts) (.tup vs) (.concat Vs) ∧ Rep (.struct ts) (.tup vs) (.concat Vs) := by
  obtain ⟨s, hs, he⟩ := repAll_str h
  refine ⟨⟨⟨s, hs, fun b hb => ?_⟩, by intro _ _ h; cases h⟩,
    ⟨⟨s, hs, fun b hb => ?_⟩, by intro _ _ h; cases h⟩⟩
  · obtain ⟨bss, rfl, h⟩ := he b hb
    exact .tuple h
  · obtain ⟨bss, rfl, h⟩ := he b hb
    exact .struct h

theorem rep_array {t : MTy} {n : Nat} {vs : List Val} {Vs : List Value}
    (h : RepAll (List.replicate n t) vs Vs) : Rep (.array t n) (.tup vs) (.concat Vs.reverse) := by
  obtain ⟨s, hs, he⟩ := repAll_str (repAll_reverse h)
  refine ⟨⟨s, hs, fun b hb => ?_⟩, by intro _ _ h; cases h⟩
  obtain ⟨bss, rfl, h⟩ := he b hb
  have := encAll_reverse h
  simp only [List.reverse_reverse] at this
  have := Enc.array this
  rwa [List.reverse_reverse] at this

theorem bin_range {n : Nat} {x y : Int} (hn : n ≠ 0) (hx : InRange (.int n) x)
    (hy : InRange (.int n) y) :
    InRange (.int (n + 1)) (x + y) ∧ InRange (.int (n + 1)) (x - y) := by
  simp only [InRange] at *
  obtain ⟨m, rfl⟩ : ∃ m, n = m + 1 := ⟨n - 1, by omega⟩
  have hp := pow_succ_int m
  simp only [Nat.add_sub_cancel] at *
  omega

theorem wrap_inRange {n : Nat} {z : Int} (h : InRange (.int n) z) : wrap (.int n) z = z := by
  simp only [InRange] at h
  simp only [wrap]
  rcases h with ⟨rfl, rfl⟩ | ⟨h0, h1, h2⟩
  · rfl
  · obtain ⟨m, rfl⟩ : ∃ m, n = m + 1 := ⟨n - 1, by omega⟩
    have hp := pow_succ_int m
    have hp' : (2 : Int) ^ (m + 1) = ((2 ^ (m + 1) : Nat) : Int) := by simp
    simp only [Nat.add_sub_cancel] at h1 h2
    exact Int.bmod_eq_of_le (by omega) (by omega)

mutual
theorem ev_folds {P : Prog} {sig : Nat → Option (List MTy × MTy)} {Γ : Nat → MTy} :
    ∀ {e : Expr} {v : Val}, Ev P (fun _ => none) e v → ∀ {nid : Nat} {r : List Item × Nat},
    Foldable e → e.names.Nodup → e.Ok sig Γ → lowerE e nid = some r →
    Folds r.1 e.names e.variable e.ty v
  | _, _, .int (ty := ty) (z := z), nid, r, hf, hd, ho, hl => by
    simp only [lowerE, Option.some.injEq] at hl
    subst hl
    simp only [Foldable] at hf
    simp only [Expr.Ok] at ho
    obtain ⟨⟨n, rfl | rfl⟩, h0⟩ := hf
    · exact folds_const rfl (by simp only [MTy.size] at h0 ⊢; exact rep_int h0 ho)
    · exact folds_const rfl (by simp only [MTy.size] at h0 ⊢; exact rep_uint h0 ho)
  | _, _, .bool, nid, r, hf, hd, ho, hl => by
    simp only [lowerE, Option.some.injEq] at hl
    subst hl
    exact folds_const rfl (rep_bool _)
  | _, _, .bin (ty := ty) (op := op) (l := l) (r := r') (x := x) (y := y) (z := z) h1 h2 hb, nid, r, hf, hd,
      ho, hl => by
    simp only [lowerE, Option.bind_eq_bind, Option.bind_eq_some_iff, Option.ite_none_right_eq_some,
      Option.some.injEq] at hl
    obtain ⟨a, ha, b, hb', o, hop, _, rfl⟩ := hl
    simp only [Foldable] at hf
    simp only [Expr.Ok] at ho
    simp only [Expr.names, List.nodup_append, List.mem_append, List.mem_singleton] at hd
    obtain ⟨fop, ⟨k, rfl⟩, fl, fr⟩ := hf
    have e1 := ev_folds h1 fl hd.1.1 ho.2.2.2.1 ha
    have e2 := ev_folds h2 fr hd.1.2.1 ho.2.2.2.2 hb'
    have e3 := FoldsAll.cons e1 e2.all (fun m hm hm' => hd.1.2.2 m hm m hm' rfl)
    refine e3.bind (fun h => hd.2.2 _ (by simpa using h) _ rfl rfl) ?_
    intro Vs hV
    have hl0 := ho.2.1
    have hty : ∃ n, l.ty = .int n ∧ r'.ty = .int n ∧ k = n + 1 ∧ (op = .add ∧ o = .add ∨
        op = .sub ∧ o = .sub) := by
      have hbt := ho.1
      rcases fop with rfl | rfl
      · generalize hlt : l.ty = lt at hbt hop
        generalize hrt : r'.ty = rt at hbt
        cases hbt
        simp only [lowerBin, dual, Option.some.injEq] at hop
        exact ⟨_, rfl, rfl, rfl, .inl ⟨rfl, hop.symm⟩⟩
      · generalize hlt : l.ty = lt at hbt hop
        generalize hrt : r'.ty = rt at hbt
        cases hbt
        simp only [lowerBin, dual, Option.some.injEq] at hop
        exact ⟨_, rfl, rfl, rfl, .inr ⟨rfl, hop.symm⟩⟩
    obtain ⟨n, t1, t2, rfl, ho'⟩ := hty
    rw [t1] at hl0
    simp only [MTy.size] at hl0
    cases hV with
    | cons hV1 hN =>
    cases hN with
    | cons hV2 hN =>
    cases hN
    obtain ⟨rfl, hx⟩ := hV1.num n x t1 rfl
    obtain ⟨rfl, hy⟩ := hV2.num n y t2 rfl
    have hr := bin_range hl0 hx hy
    have hlook : ∀ vals : VEnv, lookAll vals [l.variable, r'.variable] = some [.int n x, .int n y] →
        look vals l.variable = some (.int n x) ∧ look vals r'.variable = some (.int n y) := by
      intro vals h
      simp only [lookAll, Option.bind_eq_bind, Option.bind_some, Option.bind_eq_some_iff,
        Option.some.injEq, List.cons.injEq, and_true] at h
      obtain ⟨w, hw, ws, ⟨w', hw', rfl⟩, rfl, h⟩ := h
      simp only [List.cons.injEq, and_true] at h
      exact ⟨hw, h ▸ hw'⟩
    rcases ho' with ⟨rfl, rfl⟩ | ⟨rfl, rfl⟩
    · simp only [binVal, Option.some.injEq] at hb
      rw [wrap_inRange hr.1] at hb
      subst hb
      refine ⟨_, rep_int (by omega) hr.1, fun vals types h1 h2 => ?_⟩
      obtain ⟨q1, q2⟩ := hlook vals h1
      simp only [evalOp, q1, q2, Option.bind_eq_bind, Option.bind_some, Value.assumeInt, MTy.size]
    · simp only [binVal, Option.some.injEq] at hb
      rw [wrap_inRange hr.2] at hb
      subst hb
      refine ⟨_, rep_int (by omega) hr.2, fun vals types h1 h2 => ?_⟩
      obtain ⟨q1, q2⟩ := hlook vals h1
      simp only [evalOp, q1, q2, Option.bind_eq_bind, Option.bind_some, Value.assumeInt, MTy.size]
  | _, _, .un (ty := ty) (e := e) h1 hu, nid, r, hf, hd, ho, hl => by
    simp only [lowerE, Option.bind_eq_bind, Option.bind_eq_some_iff, Option.some.injEq] at hl
    obtain ⟨a, ha, rfl⟩ := hl
    simp only [Foldable] at hf
    simp only [Expr.Ok] at ho
    simp only [Expr.names, List.nodup_append, List.mem_singleton] at hd
    obtain ⟨rfl, fe, fr⟩ := hf
    have e1 := ev_folds h1 fe hd.1 ho.2 ha
    refine e1.all.bind (fun h => hd.2.2 _ h _ rfl rfl) ?_
    intro Vs hV
    cases hu with
    | neg =>
    rename_i z
    have hty : ∃ n, e.ty = .int (n + 1) ∧ ty = .int (n + 1) := by
      have hut := ho.1
      generalize hlt : e.ty = lt at hut
      cases hut
      exact ⟨_, rfl, rfl⟩
    obtain ⟨n, t1, rfl⟩ := hty
    cases hV with
    | cons hV1 hN =>
    cases hN
    obtain ⟨rfl, hz⟩ := hV1.num _ z t1 rfl
    have hr := fr P z h1
    rw [wrap_inRange hr]
    refine ⟨_, rep_int (by omega) hr, fun vals types h1 h2 => ?_⟩
    have hk : look vals e.variable = some (.int (n + 1) z) := by
      simp only [lookAll, Option.bind_eq_bind, Option.bind_some, Option.bind_eq_some_iff,
        Option.some.injEq, List.cons.injEq, and_true] at h1
      obtain ⟨w, hw, rfl⟩ := h1
      exact hw
    simp only [lowerUn, evalOp, hk, Option.bind_eq_bind, Option.bind_some, Value.assumeInt, MTy.size]
  | _, _, .tuple h, nid, r, hf, hd, ho, hl => by
    simp only [lowerE, Option.bind_eq_bind, Option.bind_eq_some_iff, Option.some.injEq] at hl
    obtain ⟨a, ha, rfl⟩ := hl
    simp only [Foldable] at hf
    simp only [Expr.Ok] at ho
    simp only [Expr.names, List.nodup_append, List.mem_singleton] at hd
    have e1 := evs_folds h hf hd.1 ho.2 ha
    refine e1.bind (fun h => hd.2.2 _ h _ rfl rfl) fun Vs hV => ⟨_, ?_, fun vals types h1 h2 => by
      simp only [evalOp, h1, Option.bind_eq_bind, Option.bind_some]; rfl⟩
    rw [ho.1]
    exact (rep_tuple hV).1
  | _, _, .array h, nid, r, hf, hd, ho, hl => by
    simp only [lowerE, Option.bind_eq_bind, Option.bind_eq_some_iff, Option.some.injEq] at hl
    obtain ⟨a, ha, rfl⟩ := hl
    simp only [Foldable] at hf
    simp only [Expr.Ok] at ho
    simp only [Expr.names, List.nodup_append, List.mem_singleton] at hd
    have e1 := evs_folds h hf hd.1 ho.2 ha
    obtain ⟨⟨t, rfl, ht⟩, _⟩ := ho
    refine e1.bind (fun h => hd.2.2 _ h _ rfl rfl) fun Vs hV => ⟨_, ?_, fun vals types h1 h2 => by
      simp only [evalOp, lookAll_reverse h1, Option.bind_eq_bind, Option.bind_some]; rfl⟩
    rw [List.map_congr_left ht] at hV
    simp only [List.map_const'] at hV
    exact rep_array hV
  | _, _, .rep (n := n) (e := e) h1, nid, r, hf, hd, ho, hl => by
    simp only [lowerE, Option.bind_eq_bind, Option.bind_eq_some_iff, Option.some.injEq] at hl
    obtain ⟨a, ha, rfl⟩ := hl
    simp only [Foldable] at hf
    simp only [Expr.Ok] at ho
    simp only [Expr.names, List.nodup_append, List.mem_singleton] at hd
    have e1 := ev_folds h1 hf hd.1 ho.2 ha
    obtain ⟨rfl, _⟩ := ho
    refine e1.all.bind (fun h => hd.2.2 _ h _ rfl rfl) fun Vs hV => ?_
    cases hV with
    | cons hV hN =>
    cases hN
    rename_i V
    refine ⟨.concat (List.replicate n V).reverse, rep_array (repAll_replicate hV n),
      fun vals types h1 h2 => ?_⟩
    have hk : look vals e.variable = some V := by
      simp only [lookAll, Option.bind_eq_bind, Option.bind_some, Option.bind_eq_some_iff,
        Option.some.injEq, List.cons.injEq, and_true] at h1
      obtain ⟨w, hw, rfl⟩ := h1
      exact hw
    simp only [evalOp, lookAll_reverse (lookAll_replicate hk n), Option.bind_eq_bind,
      Option.bind_some]
  | _, _, .cast h1, nid, r, hf, hd, ho, hl => by
    simp only [lowerE, Option.bind_eq_bind, Option.bind_eq_some_iff, Option.some.injEq] at hl
    obtain ⟨a, ha, rfl⟩ := hl
    simp only [Foldable] at hf
    simp only [Expr.Ok] at ho
    simp only [Expr.names, List.nodup_append, List.mem_singleton] at hd
    have e1 := ev_folds h1 hf hd.1 ho.2 ha
    obtain ⟨rfl, _⟩ := ho
    refine e1.all.bind (fun h => hd.2.2 _ h _ rfl rfl) fun Vs hV => ?_
    cases hV with
    | cons hV hN =>
    cases hN
    rename_i V
    refine ⟨V, hV, fun vals types h1 h2 => ?_⟩
    simp only [lookAll, Option.bind_eq_bind, Option.bind_some, Option.bind_eq_some_iff,
      Option.some.injEq, List.cons.injEq, and_true] at h1
    obtain ⟨w, hw, rfl⟩ := h1
    simp only [evalOp, hw]
  | _, _, .variant h, nid, r, hf, hd, ho, hl => by
    simp only [lowerE, Option.bind_eq_bind, Option.bind_eq_some_iff, Option.some.injEq, lowerCall] at hl
    obtain ⟨a, ha, i, rfl, rfl⟩ := hl
    simp only [Foldable] at hf
    simp only [Expr.Ok] at ho
    simp only [Expr.names, List.nodup_append, List.mem_singleton] at hd
    have e1 := evs_folds h hf hd.1 ho.2 ha
    obtain ⟨⟨opts, rfl, hi⟩, _⟩ := ho
    refine e1.bind (fun h => hd.2.2 _ h _ rfl rfl) fun Vs hV => ⟨_, rep_enum hi hV,
      fun vals types h1 h2 => ?_⟩
    have hmax := sizes_le_max hi
    simp only [evalOp, h1, h2, Option.bind_eq_bind, Option.bind_some]
    rw [if_neg (by simp only [MTy.size]; omega)]
  | _, _, .struct h, nid, r, hf, hd, ho, hl => by
    simp only [lowerE, Option.bind_eq_bind, Option.bind_eq_some_iff, Option.some.injEq, lowerCall] at hl
    obtain ⟨a, ha, i, rfl, rfl⟩ := hl
    simp only [Foldable] at hf
    simp only [Expr.Ok] at ho
    simp only [Expr.names, List.nodup_append, List.mem_singleton] at hd
    have e1 := evs_folds h hf hd.1 ho.2 ha
    refine e1.bind (fun h => hd.2.2 _ h _ rfl rfl) fun Vs hV => ⟨_, ?_, fun vals types h1 h2 => by
      simp only [evalOp, h1, Option.bind_eq_bind, Option.bind_some]; rfl⟩
    rw [ho.1]
    exact (rep_tuple hV).2
theorem evs_folds {P : Prog} {sig : Nat → Option (List MTy × MTy)} {Γ : Nat → MTy} :
    ∀ {es : List Expr} {vs : List Val}, Evs P (fun _ => none) es vs →
    ∀ {nid : Nat} {r : List Item × Nat}, Foldables es → (Exprs.names es).Nodup → Exprs.Ok sig Γ es →
    lowerEs es nid = some r →
    FoldsAll r.1 (Exprs.names es) (es.map Expr.variable) (es.map Expr.ty) vs
  | _, _, .nil, nid, r, hf, hd, ho, hl => by
    simp only [lowerEs, Option.some.injEq] at hl
    subst hl
    exact ⟨[], [], [], [], rfl, fun _ _ _ last => ⟨last, rfl⟩, by simp, by simp, by simp, rfl, rfl,
      .nil⟩
  | _, _, .cons h1 h2, nid, r, hf, hd, ho, hl => by
    simp only [lowerEs, Option.bind_eq_bind, Option.bind_eq_some_iff, Option.some.injEq] at hl
    obtain ⟨a, ha, b, hb, rfl⟩ := hl
    simp only [Foldables] at hf
    simp only [Exprs.Ok] at ho
    simp only [Exprs.names, List.nodup_append] at hd
    exact FoldsAll.cons (ev_folds h1 hf.1 hd.1 ho.1 ha) (evs_folds h2 hf.2 hd.2.1 ho.2 hb)
      (fun m hm hm' => hd.2.2 m hm m hm' rfl)
end

end Spade.Entity

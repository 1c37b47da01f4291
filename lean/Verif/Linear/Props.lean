import Verif.Linear.Inv
/-!
# A unit that passes the linearity check connects every wire exactly once (C17)
-/
namespace Spade.Linear

/-! ## What the rest of the compiler guarantees: types and distinct numbers -/

/-- Type of a member, through views. -/
def LTy.member : LTy → Nat → Option LTy
  | .node ts, i => ts[i]?
  | .view t, i => (t.member i).map .view
  | _, _ => none

mutual
/-- The pattern is well typed for values of a type. `Γ` are the types of the names. -/
def Pat.Typed (Γ : Nat → LTy) : Pat → LTy → Prop
  | .bind _ n t _, ty => t = ty ∧ Γ n = ty
  | .at_ _ n t _ p, ty => t = ty ∧ Γ n = ty ∧ p.Typed Γ ty
  | .tuple ps, ty => ∃ ts, ty = .node ts ∧ patsTyped Γ ps ts
  | .variant ps, ty => ty.linear = false ∧ ∃ ts, anyLinear ts = false ∧ patsTyped Γ ps ts
  | .lit, ty => ty.linear = false
/-- for all members -/
def patsTyped (Γ : Nat → LTy) : List Pat → List LTy → Prop
  | [], ts => ts = []
  | p :: ps, ts => ∃ u us, ts = u :: us ∧ p.Typed Γ u ∧ patsTyped Γ ps us
end

/-- Types of the members of a literal. -/
def Exprs.tys : Exprs → List LTy
  | .nil => []
  | .cons e es => e.ty :: es.tys

mutual
/-- The expression is well typed. -/
def Expr.Typed (Γ : Nat → LTy) : Expr → Prop
  | .ident _ ty n => Γ n = ty
  | .tuple _ ty es => es.Typed Γ ∧ (ty = .node es.tys ∨ (ty.linear = false ∧ anyLinear es.tys = false))
  | .field _ ty e i => e.Typed Γ ∧ e.ty.member i = some ty
  | .index _ ty e i => e.Typed Γ ∧ (e.ty.linear = false → ty.linear = false) ∧
    (e.ty.linear = true → ∀ k, i = some k → e.ty.member k = some ty)
  | .range _ ty e _ _ => e.Typed Γ ∧ (e.ty.linear = false → ty.linear = false)
  | .view _ ty e => e.Typed Γ ∧ ty.linear = false
  | .binop _ _ a b => a.Typed Γ ∧ b.Typed Γ
  | .call _ _ _ args => args.Typed Γ
  | .block _ ty ss res => ss.Typed Γ ∧ res.Typed Γ ∧ res.ty = ty
  | .blockUnit _ _ ss => ss.Typed Γ
  | .ite _ ty c a b => c.Typed Γ ∧ a.Typed Γ ∧ b.Typed Γ ∧ a.ty = ty ∧ b.ty = ty
  | .mtch _ ty c arms => c.Typed Γ ∧ arms.Typed Γ c.ty ty
def Exprs.Typed (Γ : Nat → LTy) : Exprs → Prop
  | .nil => True
  | .cons e es => e.Typed Γ ∧ es.Typed Γ
def Stmts.Typed (Γ : Nat → LTy) : Stmts → Prop
  | .nil => True
  | .let_ p e ss => e.Typed Γ ∧ p.Typed Γ e.ty ∧ ss.Typed Γ
  | .set t v ss => t.Typed Γ ∧ v.Typed Γ ∧ ss.Typed Γ
  | .expr e ss => e.Typed Γ ∧ ss.Typed Γ
  | .decl n ty ss => Γ n = ty ∧ ss.Typed Γ
  | .assert e ss => e.Typed Γ ∧ ss.Typed Γ
def Arms.Typed (Γ : Nat → LTy) : Arms → LTy → LTy → Prop
  | .nil, _, _ => True
  | .arm p e as, c, ty => p.Typed Γ c ∧ e.Typed Γ ∧ e.ty = ty ∧ as.Typed Γ c ty
  | .guarded p g e as, c, ty => p.Typed Γ c ∧ g.Typed Γ ∧ e.Typed Γ ∧ e.ty = ty ∧ as.Typed Γ c ty
end

mutual
/-- Numbers and names that a pattern introduces. -/
def Pat.refs : Pat → List Ref
  | .bind id n _ pre => .expr id :: if pre then [] else [.name n]
  | .at_ id n _ pre p => (.expr id :: if pre then [] else [.name n]) ++ p.refs
  | .tuple ps => patsRefs ps
  | .variant ps => patsRefs ps
  | .lit => []
def patsRefs : List Pat → List Ref
  | [] => []
  | p :: ps => p.refs ++ patsRefs ps
end

mutual
/-- Numbers and names that an expression introduces. -/
def Expr.refs : Expr → List Ref
  | .ident id _ _ => [.expr id]
  | .tuple id _ es => .expr id :: es.refs
  | .field id _ e _ => .expr id :: e.refs
  | .index id _ e _ => .expr id :: e.refs
  | .range id _ e _ _ => .expr id :: e.refs
  | .view id _ e => .expr id :: e.refs
  | .binop id _ a b => .expr id :: (a.refs ++ b.refs)
  | .call id _ _ args => .expr id :: args.refs
  | .block id _ ss res => .expr id :: (ss.refs ++ res.refs)
  | .blockUnit id _ ss => .expr id :: ss.refs
  | .ite id _ c a b => .expr id :: (c.refs ++ (a.refs ++ b.refs))
  | .mtch id _ c arms => .expr id :: (c.refs ++ arms.refs)
def Exprs.refs : Exprs → List Ref
  | .nil => []
  | .cons e es => e.refs ++ es.refs
def Stmts.refs : Stmts → List Ref
  | .nil => []
  | .let_ p e ss => e.refs ++ (p.refs ++ ss.refs)
  | .set t v ss => t.refs ++ (v.refs ++ ss.refs)
  | .expr e ss => e.refs ++ ss.refs
  | .decl n _ ss => .name n :: ss.refs
  | .assert e ss => e.refs ++ ss.refs
def Arms.refs : Arms → List Ref
  | .nil => []
  | .arm p e as => p.refs ++ (e.refs ++ as.refs)
  | .guarded p g e as => p.refs ++ (g.refs ++ (e.refs ++ as.refs))
end

/-! ## What the check does not look at -/

mutual
/-- No name with wires is bound by `name @ pattern`. -/
def Pat.Careful : Pat → Prop
  | .bind .. => True
  | .at_ _ _ ty _ p => ty.linear = false ∧ p.Careful
  | .tuple ps => patsCareful ps
  | .variant ps => patsCareful ps
  | .lit => True
def patsCareful : List Pat → Prop
  | [] => True
  | p :: ps => p.Careful ∧ patsCareful ps
end

mutual
/-- The expression has no wires, and nothing in it has. -/
def Expr.Plain : Expr → Prop
  | .ident _ ty _ => ty.linear = false
  | .tuple _ ty es => ty.linear = false ∧ es.Plain
  | .field _ ty e _ => ty.linear = false ∧ e.Plain
  | .index _ ty e _ => ty.linear = false ∧ e.ty.linear = false ∧ e.Plain
  | .range _ ty e _ _ => ty.linear = false ∧ e.ty.linear = false ∧ e.Plain
  | .view _ ty e => ty.linear = false ∧ e.Plain
  | .binop _ ty a b => ty.linear = false ∧ a.Plain ∧ b.Plain
  | .call _ ty _ args => ty.linear = false ∧ args.Plain
  | _ => False
def Exprs.Plain : Exprs → Prop
  | .nil => True
  | .cons e es => e.Plain ∧ es.Plain
end

mutual
/-- The unit stays away from the gaps of the check: nothing with wires is matched on, is the result of a
match or an `if`, is taken apart with a range, is bound with `@`, or occurs in an assertion. -/
def Expr.Careful : Expr → Prop
  | .ident .. => True
  | .tuple _ _ es => es.Careful
  | .field _ _ e _ => e.Careful
  | .index _ _ e _ => e.Careful
  | .range _ _ e _ _ => e.ty.linear = false ∧ e.Careful
  | .view _ _ e => e.Careful
  | .binop _ _ a b => a.Careful ∧ b.Careful
  | .call _ _ _ args => args.Careful
  | .block _ _ ss res => ss.Careful ∧ res.Careful
  | .blockUnit _ _ ss => ss.Careful
  | .ite _ ty c a b => ty.linear = false ∧ c.Careful ∧ a.Careful ∧ b.Careful
  | .mtch _ ty c arms => ty.linear = false ∧ c.ty.linear = false ∧ c.Careful ∧ arms.Careful
def Exprs.Careful : Exprs → Prop
  | .nil => True
  | .cons e es => e.Careful ∧ es.Careful
def Stmts.Careful : Stmts → Prop
  | .nil => True
  | .let_ p e ss => p.Careful ∧ e.Careful ∧ ss.Careful
  | .set t v ss => t.Careful ∧ v.Careful ∧ ss.Careful
  | .expr e ss => e.Careful ∧ ss.Careful
  | .decl _ _ ss => ss.Careful
  | .assert e ss => e.Plain ∧ ss.Careful
def Arms.Careful : Arms → Prop
  | .nil => True
  | .arm p e as => p.Careful ∧ e.Careful ∧ as.Careful
  | .guarded p g e as => p.Careful ∧ g.Careful ∧ e.Careful ∧ as.Careful
end

/-! ## Frames -/

/-- Only the references `rs` get a tree. -/
structure Ext (rs : List Ref) (s : St) (χ : Nat → Val) (s' : St) (χ' : Nat → Val) : Prop where
  trees : ∀ r, r ∉ rs → s'.trees r = s.trees r
  vals : ∀ i, .expr i ∉ rs → χ' i = χ i
  keys : ∀ r ∈ s.keys, r ∈ s'.keys
  next : s.next ≤ s'.next

theorem Ext.refl (rs : List Ref) (s : St) (χ : Nat → Val) : Ext rs s χ s χ :=
  ⟨fun _ _ => rfl, fun _ _ => rfl, fun _ h => h, Nat.le_refl _⟩

theorem Ext.trans {rs qs : List Ref} {s s' s'' : St} {χ χ' χ'' : Nat → Val} (h : Ext rs s χ s' χ')
    (g : Ext qs s' χ' s'' χ'') : Ext (rs ++ qs) s χ s'' χ'' := by
  refine ⟨fun r hr => ?_, fun i hi => ?_, fun r hr => g.keys r (h.keys r hr), Nat.le_trans h.next g.next⟩
  · simp only [List.mem_append, not_or] at hr
    rw [g.trees r hr.2, h.trees r hr.1]
  · simp only [List.mem_append, not_or] at hi
    rw [g.vals i hi.2, h.vals i hi.1]

theorem Ext.mono {rs qs : List Ref} {s s' : St} {χ χ' : Nat → Val} (h : Ext rs s χ s' χ')
    (hs : ∀ r ∈ rs, r ∈ qs) : Ext qs s χ s' χ' :=
  ⟨fun r hr => h.trees r fun h' => hr (hs r h'), fun i hi => h.vals i fun h' => hi (hs _ h'), h.keys, h.next⟩

theorem Ext.of_eq {rs : List Ref} {s s' t : St} {χ χ' : Nat → Val} (h : Ext rs s χ s' χ')
    (ht : t.trees = s'.trees) (hk : t.keys = s'.keys) (hn : s'.next ≤ t.next) : Ext rs s χ t χ' :=
  ⟨fun r hr => by rw [ht]; exact h.trees r hr, h.vals, fun r hr => by rw [hk]; exact h.keys r hr,
    Nat.le_trans h.next hn⟩

theorem Ext.none {rs qs : List Ref} {s s' : St} {χ χ' : Nat → Val} (h : Ext rs s χ s' χ')
    (hf : ∀ r ∈ qs, s.trees r = none) (hd : ∀ r ∈ qs, r ∉ rs) : ∀ r ∈ qs, s'.trees r = none :=
  fun r hr => by rw [h.trees r (hd r hr)]; exact hf r hr

theorem consume_next {s s' : St} {i : Nat} (h : s.consume i = some s') :
    s'.trees = s.trees ∧ s'.keys = s.keys ∧ s'.next = s.next := by
  simp only [St.consume] at h
  obtain ⟨T, _, h⟩ := Option.bind_eq_some_iff.1 h
  obtain ⟨u, _, rfl⟩ := Option.map_eq_some_iff.1 h
  exact ⟨rfl, rfl, rfl⟩

theorem Ext.consume {rs : List Ref} {s s' t : St} {χ χ' : Nat → Val} {i : Nat} (h : Ext rs s χ s' χ')
    (hc : s'.consume i = some t) : Ext rs s χ t χ' := by
  obtain ⟨h1, h2, h3⟩ := consume_next hc
  exact h.of_eq h1 h2 (by omega)

variable {Γ : Nat → LTy}

theorem not_reserved {R : Ref → Nat → Prop} {o : Nat → Nat} {s : St} {σ : Sem} {α : Nat → Option Nat}
    {χ : Nat → Val} (h : Inv Γ R o s σ α χ) {r : Ref} (hr : s.trees r = none) : ∀ a, ¬ R r a :=
  fun a ha => (h.res r a ha).2.2.2.1 hr

/-- Pushing the tree of an expression, visiting its parts, and letting the tree stand for the result. -/
theorem wrap {R : Ref → Nat → Prop} {o : Nat → Nat} {s s' : St} {σ' : Sem} {α' : Nat → Option Nat}
    {χ χ' : Nat → Val} {i : Nat} {ty : LTy} {v : Val} {rs : List Ref}
    (hi : ∀ a, ¬ R (.expr i) a)
    (h' : Inv Γ (fun r a => R r a ∨ (r = .expr i ∧ s.next ≤ a ∧ a < (build ty s.next).2)) (owe o v) s' σ' α' χ')
    (hx : Ext rs (s.push (.expr i) ty) (fun j => if j = i then .none else χ j) s' χ') (hr : .expr i ∉ rs)
    (hs : Shape ty v) :
    ∃ α'', Inv Γ R o s' σ' α'' (fun j => if j = i then v else χ' j) ∧
      Ext (.expr i :: rs) s χ s' (fun j => if j = i then v else χ' j) := by
  have hT : s'.trees (.expr i) = some (build ty s.next).1 := by rw [hx.trees _ hr]; simp [St.push, St.insert]
  obtain ⟨α'', g⟩ := h'.attach hx.next (hx.keys _ (by simp [St.push, St.insert])) hT hi hs
  refine ⟨α'', g, fun r hr' => ?_, fun j hj => ?_, fun r hr' => hx.keys r (by simp [St.push, St.insert, hr']), ?_⟩
  · simp only [List.mem_cons, not_or] at hr'
    rw [hx.trees r hr'.2]
    simp [St.push, St.insert, hr'.1]
  · simp only [List.mem_cons, not_or, Ref.expr.injEq] at hj
    simp only [hj.1, if_false]
    rw [hx.vals j hj.2]
    simp [hj.1]
  · exact Nat.le_trans (build_range ty s.next).1 hx.next

theorem push_none {s : St} {i : Nat} {ty : LTy} {rs : List Ref} (hf : ∀ r ∈ rs, s.trees r = none)
    (hi : .expr i ∉ rs) : ∀ r ∈ rs, (s.push (.expr i) ty).trees r = none := by
  intro r hr
  have : r ≠ .expr i := fun e => hi (e ▸ hr)
  simp [St.push, St.insert, this, hf r hr]

/-! ## Patterns -/

mutual
/-- Numbers of the names in a pattern. -/
def Pat.ids : Pat → List Nat
  | .bind id _ _ _ => [id]
  | .at_ id _ _ _ p => id :: p.ids
  | .tuple ps => patsIds ps
  | .variant ps => patsIds ps
  | .lit => []
def patsIds : List Pat → List Nat
  | [] => []
  | p :: ps => p.ids ++ patsIds ps
end

mutual
theorem ids_refs : ∀ (p : Pat) (i : Nat), i ∈ p.ids → .expr i ∈ p.refs
  | .bind .., i, h => by simp [Pat.ids] at h; simp [Pat.refs, h]
  | .at_ id n ty pre p, i, h => by
    simp only [Pat.ids, List.mem_cons] at h
    simp only [Pat.refs, List.mem_append, List.mem_cons]
    rcases h with h | h
    · exact .inl (.inl (by rw [h]))
    · exact .inr (ids_refs p i h)
  | .tuple ps, i, h => patsIds_refs ps i h
  | .variant ps, i, h => patsIds_refs ps i h
  | .lit, i, h => by simp [Pat.ids] at h
theorem patsIds_refs : ∀ (ps : List Pat) (i : Nat), i ∈ patsIds ps → .expr i ∈ patsRefs ps
  | [], i, h => by simp [patsIds] at h
  | p :: ps, i, h => by
    simp only [patsIds, List.mem_append] at h
    simp only [patsRefs, List.mem_append]
    exact h.imp (ids_refs p i) (patsIds_refs ps i)
end

mutual
theorem consumePat_ok : ∀ (p : Pat) (s s' : St) {R o σ α χ}, consumePat p s = some s' →
    Inv Γ R o s σ α χ → (∀ i ∈ p.ids, (χ i).wires = [] ∧ ∀ a, ¬ R (.expr i) a) →
    Inv Γ R o s' σ α χ ∧ s'.trees = s.trees ∧ s'.keys = s.keys ∧ s'.next = s.next
  | .bind id n ty pre, s, s', R, o, σ, α, χ, hc, h, hw => by
    have := hw id (by simp [Pat.ids])
    have g := (h.consume hc this.2).1
    rw [owe_nil this.1] at g
    exact ⟨g, consume_next hc⟩
  | .at_ id n ty pre p, s, s', R, o, σ, α, χ, hc, h, hw => by
    obtain ⟨s1, h1, h2⟩ := Option.bind_eq_some_iff.1 hc
    have := hw id (by simp [Pat.ids])
    have g := (h.consume h1 this.2).1
    rw [owe_nil this.1] at g
    obtain ⟨a, b, c⟩ := consume_next h1
    obtain ⟨w, x, y, z⟩ := consumePat_ok p s1 s' h2 g (fun i hi => hw i (by simp [Pat.ids, hi]))
    exact ⟨w, x.trans a, y.trans b, z.trans c⟩
  | .tuple ps, s, s', R, o, σ, α, χ, hc, h, hw => consumePats_ok ps s s' hc h hw
  | .variant ps, s, s', R, o, σ, α, χ, hc, h, hw => consumePats_ok ps s s' hc h hw
  | .lit, s, s', R, o, σ, α, χ, hc, h, hw => by
    simp [consumePat] at hc; subst hc; exact ⟨h, rfl, rfl, rfl⟩
theorem consumePats_ok : ∀ (ps : List Pat) (s s' : St) {R o σ α χ}, consumePats ps s = some s' →
    Inv Γ R o s σ α χ → (∀ i ∈ patsIds ps, (χ i).wires = [] ∧ ∀ a, ¬ R (.expr i) a) →
    Inv Γ R o s' σ α χ ∧ s'.trees = s.trees ∧ s'.keys = s.keys ∧ s'.next = s.next
  | [], s, s', R, o, σ, α, χ, hc, h, hw => by
    simp [consumePats] at hc; subst hc; exact ⟨h, rfl, rfl, rfl⟩
  | p :: ps, s, s', R, o, σ, α, χ, hc, h, hw => by
    obtain ⟨s1, h1, h2⟩ := Option.bind_eq_some_iff.1 hc
    obtain ⟨g, a, b, c⟩ := consumePat_ok p s s1 h1 h (fun i hi => hw i (by simp [patsIds, hi]))
    obtain ⟨w, x, y, z⟩ := consumePats_ok ps s1 s' h2 g (fun i hi => hw i (by simp [patsIds, hi]))
    exact ⟨w, x.trans a, y.trans b, z.trans c⟩
end

/-- Binding a name. -/
theorem bind_ok {id n : Nat} {ty : LTy} {pre : Bool} {s s' : St} {R o σ α χ} {v : Val}
    (hc : (if pre then s else s.push (.expr id) ty).alias id n = some s')
    (h : Inv Γ R (owe o v) s σ α χ)
    (hf : ∀ r ∈ (.expr id :: if pre then [] else [.name n] : List Ref), s.trees r = none)
    (hty : Γ n = ty) (hs : Shape ty v) :
    ∃ α' χ', Inv Γ R o s' (if pre then σ.sink v else σ.bind n v) α' χ' ∧
      Ext (.expr id :: if pre then [] else [.name n]) s χ s' χ' ∧
      (ty.linear = false → (χ' id).wires = []) := by
  have hid := hf (.expr id) (by simp)
  cases pre with
  | true =>
    simp only [if_true] at hc ⊢
    have g := h.sink
    simp only [St.alias, hid] at hc
    cases hn : s.trees (.name n) with
    | none => simp [hn] at hc
    | some T =>
      simp only [hn, Option.some.injEq] at hc
      subst hc
      have hR' : ∀ r a, a ∈ T.all → ¬ R r a := fun r a ha hr => by
        have := g.disj _ _ _ a hn ha hr
        subst this
        obtain ⟨i, hi⟩ := (g.res _ a hr).2.2.2.2
        simp at hi
      refine ⟨α, _, g.insertExpr (i := id) (by simp [hid]) (g.mirror _ _ hn) (fun a ha => g.bound _ _ a hn ha)
        (fun _ _ h => h) hR', ⟨fun r hr => ?_, fun j hj => ?_, fun r hr => by simp [St.insert, hr], Nat.le_refl _⟩,
        fun hl => ?_⟩
      · simp only [List.mem_singleton] at hr
        simp [St.insert, hr]
      · simp only [List.mem_singleton, Ref.expr.injEq] at hj
        simp [hj]
      · have := g.plain n (by rw [hty]; exact hl)
        simpa [valOf] using this
  | false =>
    simp only [Bool.false_eq_true, if_false] at hc hf ⊢
    have hnn := hf (.name n) (by simp)
    obtain ⟨α', g, hx⟩ := wrap (rs := []) (v := v) (hi := not_reserved h hid) (h' := h.push ty hid)
      (Ext.refl _ _ _) (by simp) hs
    have hT : (s.push (.expr id) ty).trees (.expr id) = some (build ty s.next).1 := by simp [St.push, St.insert]
    have hN : (s.push (.expr id) ty).trees (.name n) = none := by simp [St.push, St.insert, hnn]
    simp only [St.alias, hT, hN, Option.some.injEq] at hc
    subst hc
    have g' := g.insertName (n := n) hT hN (by simpa [hty] using hs) (not_reserved h hid)
    simp only [if_true] at g'
    refine ⟨α', _, g', ?_, fun hl => by simpa using shape_nonlinear _ _ hl hs⟩
    refine ⟨fun r hr => ?_, fun j hj => hx.vals j (by simpa using hj), fun r hr => ?_, hx.next⟩
    · simp only [List.mem_cons, List.not_mem_nil, or_false, not_or] at hr
      rw [← hx.trees r (by simpa using hr.1)]
      simp [St.insert, hr.2]
    · have := hx.keys r hr
      simp [St.insert, this]

theorem wires_node_cons (v : Val) (vs : List Val) : (Val.node (v :: vs)).wires = v.wires ++ (Val.node vs).wires := by
  simp [Val.wires, allWires]

theorem owe_cons (o : Nat → Nat) (v : Val) (vs : List Val) : owe o (.node (v :: vs)) = owe (owe o (.node vs)) v := by
  funext t; simp [owe, wires_node_cons]; omega

theorem plain_values : ∀ (ts : List LTy) (v : Val) (i : Nat), anyLinear ts = false → v.wires = [] →
    ∃ vs, ShapeAll ts vs ∧ (Val.node vs).wires = [] ∧ ∀ k < ts.length, v.nth (i + k) = vs[k]?.getD .none
  | [], v, i, _, _ => ⟨[], rfl, rfl, by simp⟩
  | t :: ts, v, i, hl, hv => by
    simp only [anyLinear, Bool.or_eq_false_iff] at hl
    obtain ⟨vs, h1, h2, h3⟩ := plain_values ts v (i + 1) hl.2 hv
    refine ⟨v.nth i :: vs, ⟨_, _, rfl, nonlinear_shape hl.1 (nth_wires_nil hv i), h1⟩, ?_, fun k hk => ?_⟩
    · rw [wires_node_cons, h2, nth_wires_nil hv i]; rfl
    · cases k with
      | zero => simp
      | succ k =>
        have := h3 k (by simpa using hk)
        rw [show i + (k + 1) = i + 1 + k by omega, this]
        simp

mutual
theorem pushPat_ok : ∀ (p : Pat) (s s' : St) {R o σ α χ} (v : Val) (ty : LTy), pushPat p s = some s' →
    Inv Γ R (owe o v) s σ α χ → (∀ r ∈ p.refs, s.trees r = none) → p.refs.Nodup → p.Typed Γ ty → p.Careful →
    Shape ty v → ∃ α' χ', Inv Γ R o s' (bindPat p v σ) α' χ' ∧ Ext p.refs s χ s' χ' ∧
      (ty.linear = false → ∀ i ∈ p.ids, (χ' i).wires = [])
  | .bind id n t pre, s, s', R, o, σ, α, χ, v, ty, hc, h, hf, hn, ht, hca, hs => by
    obtain ⟨rfl, ht⟩ := ht
    obtain ⟨α', χ', g, hx, hl⟩ := bind_ok hc h hf ht hs
    exact ⟨α', χ', g, hx, fun h i hi => by simp [Pat.ids] at hi; subst hi; exact hl h⟩
  | .at_ id n t pre p, s, s', R, o, σ, α, χ, v, ty, hc, h, hf, hn, ht, hca, hs => by
    obtain ⟨rfl, ht, htp⟩ := ht
    simp only [Pat.refs] at hf hn
    obtain ⟨hn1, hn2, hn3⟩ := List.nodup_append.1 hn
    obtain ⟨s1, c1, hc⟩ := Option.bind_eq_some_iff.1 hc
    obtain ⟨s2, c2, hc⟩ := Option.bind_eq_some_iff.1 hc
    obtain ⟨s3, c3, c4⟩ := Option.bind_eq_some_iff.1 hc
    obtain ⟨α1, χ1, g1, x1, l1⟩ := bind_ok c1 h (fun r hr => hf r (by
      rw [List.mem_append]; exact .inl hr)) ht hs
    have hv := shape_nonlinear _ _ hca.1 hs
    rw [← owe_nil (o := o) hv] at g1
    have hf1 := x1.none (qs := p.refs) (fun r hr => hf r (by simp [hr])) (fun r hr hr' => hn3 r hr' r hr rfl)
    obtain ⟨α2, χ2, g2, x2, l2⟩ := pushPat_ok p s1 s2 v t c2 g1 hf1 hn2 htp hca.2 hs
    have hnr : ∀ i ∈ p.ids, ∀ a, ¬ R (.expr i) a := fun i hi =>
      not_reserved h (hf _ (by simp [ids_refs p i hi]))
    obtain ⟨g3, y1, y2, y3⟩ := consumePat_ok p s2 s3 c3 g2 (fun i hi => ⟨l2 hca.1 i hi, hnr i hi⟩)
    have hid : Ref.expr id ∉ p.refs := fun hm => hn3 _ (by simp) _ hm rfl
    have hw : (χ2 id).wires = [] := by rw [x2.vals id hid]; exact l1 hca.1
    have g4 := (g3.consume c4 (not_reserved h (hf _ (by simp)))).1
    rw [owe_nil hw] at g4
    refine ⟨α2, χ2, g4, ((x1.trans x2).of_eq y1 y2 (by omega)).consume c4, fun _ i hi => ?_⟩
    simp only [Pat.ids, List.mem_cons] at hi
    rcases hi with rfl | hi
    · exact hw
    · exact l2 hca.1 i hi
  | .tuple ps, s, s', R, o, σ, α, χ, v, ty, hc, h, hf, hn, ht, hca, hs => by
    obtain ⟨ts, rfl, ht⟩ := ht
    rcases hs with ⟨vs, rfl, hs⟩ | ⟨hl, hs⟩
    · obtain ⟨α', χ', g, hx, hl⟩ := pushPats_ok ps s s' (.node vs) 0 vs ts hc h hf hn ht hca hs
        (fun k _ => by simp [Val.nth])
      exact ⟨α', χ', g, hx, fun h => hl (by simpa [LTy.linear] using h)⟩
    · rw [owe_nil hs] at h
      obtain ⟨vs, h1, h2, h3⟩ := plain_values ts v 0 hl hs
      rw [← owe_nil (o := o) (v := .node vs) h2] at h
      obtain ⟨α', χ', g, hx, hl'⟩ := pushPats_ok ps s s' v 0 vs ts hc h hf hn ht hca h1 h3
      exact ⟨α', χ', g, hx, fun _ => hl' hl⟩
  | .variant ps, s, s', R, o, σ, α, χ, v, ty, hc, h, hf, hn, ht, hca, hs => by
    obtain ⟨hl0, ts, hl, ht⟩ := ht
    have hs := shape_nonlinear _ _ hl0 hs
    rw [owe_nil hs] at h
    obtain ⟨vs, h1, h2, h3⟩ := plain_values ts v 0 hl hs
    rw [← owe_nil (o := o) (v := .node vs) h2] at h
    obtain ⟨α', χ', g, hx, hl'⟩ := pushPats_ok ps s s' v 0 vs ts hc h hf hn ht hca h1 h3
    exact ⟨α', χ', g, hx, fun _ => hl' hl⟩
  | .lit, s, s', R, o, σ, α, χ, v, ty, hc, h, hf, hn, ht, hca, hs => by
    simp only [pushPat, Option.some.injEq] at hc
    subst hc
    rw [owe_nil (shape_nonlinear _ _ ht hs)] at h
    exact ⟨α, χ, h, Ext.refl _ _ _, fun _ i hi => by simp [Pat.ids] at hi⟩
theorem pushPats_ok : ∀ (ps : List Pat) (s s' : St) {R o σ α χ} (v : Val) (i : Nat) (vs : List Val)
    (ts : List LTy), pushPats ps s = some s' →
    Inv Γ R (owe o (.node vs)) s σ α χ → (∀ r ∈ patsRefs ps, s.trees r = none) → (patsRefs ps).Nodup →
    patsTyped Γ ps ts → patsCareful ps → ShapeAll ts vs → (∀ k < ts.length, v.nth (i + k) = vs[k]?.getD .none) →
    ∃ α' χ', Inv Γ R o s' (bindPats ps v i σ) α' χ' ∧ Ext (patsRefs ps) s χ s' χ' ∧
      (anyLinear ts = false → ∀ i ∈ patsIds ps, (χ' i).wires = [])
  | [], s, s', R, o, σ, α, χ, v, i, vs, ts, hc, h, hf, hn, ht, hca, hs, hk => by
    simp only [pushPats, Option.some.injEq] at hc
    subst hc
    simp only [patsTyped] at ht
    subst ht
    simp only [ShapeAll] at hs
    subst hs
    rw [owe_nil (by simp [Val.wires, allWires])] at h
    exact ⟨α, χ, h, Ext.refl _ _ _, fun _ i hi => by simp [patsIds] at hi⟩
  | p :: ps, s, s', R, o, σ, α, χ, v, i, vs, ts, hc, h, hf, hn, ht, hca, hs, hk => by
    obtain ⟨u, us, rfl, htp, ht⟩ := ht
    obtain ⟨w, ws, rfl, hsw, hs⟩ := hs
    simp only [patsRefs] at hf hn
    obtain ⟨hn1, hn2, hn3⟩ := List.nodup_append.1 hn
    obtain ⟨s1, c1, c2⟩ := Option.bind_eq_some_iff.1 hc
    rw [owe_cons] at h
    obtain ⟨α1, χ1, g1, x1, l1⟩ := pushPat_ok p s s1 w u c1 h (fun r hr => hf r (by simp [hr])) hn1 htp hca.1 hsw
    have hf1 := x1.none (qs := patsRefs ps) (fun r hr => hf r (by simp [hr])) (fun r hr hr' => hn3 r hr' r hr rfl)
    have hw : v.nth i = w := by simpa using hk 0 (by simp)
    obtain ⟨α2, χ2, g2, x2, l2⟩ := pushPats_ok ps s1 s' v (i + 1) ws us c2 g1 hf1 hn2 ht hca.2 hs (fun k hlt => by
      have := hk (k + 1) (by simp; omega)
      rw [show i + 1 + k = i + (k + 1) by omega, this]
      simp)
    refine ⟨α2, χ2, by simpa [bindPats, hw] using g2, x1.trans x2, fun hl j hj => ?_⟩
    simp only [anyLinear, Bool.or_eq_false_iff] at hl
    simp only [patsIds, List.mem_append] at hj
    rcases hj with hj | hj
    · rw [x2.vals j fun hm => hn3 _ (ids_refs p j hj) _ hm rfl]
      exact l1 hl.1 j hj
    · exact l2 hl.2 j hj
end

/-! ## Assertions -/

mutual
theorem fresh_nonlinear : ∀ (ty : LTy) (n : Nat), ty.linear = false → (fresh ty n).2 = n
  | .copy, n, _ => rfl
  | .wire, n, h => by simp [LTy.linear] at h
  | .node ts, n, h => freshAll_nonlinear ts n (by simpa [LTy.linear] using h)
  | .view t, n, _ => rfl
theorem freshAll_nonlinear : ∀ (ts : List LTy) (n : Nat), anyLinear ts = false → (freshAll ts n).2 = n
  | [], n, _ => rfl
  | t :: ts, n, h => by
    simp only [anyLinear, Bool.or_eq_false_iff] at h
    simp [freshAll, fresh_nonlinear t n h.1, freshAll_nonlinear ts n h.2]
end

theorem make_nonlinear {σ : Sem} {ty : LTy} (h : ty.linear = false) :
    (σ.make ty).1.wires = [] ∧ (σ.make ty).2 = σ :=
  ⟨shape_nonlinear _ _ h (fresh_shape _ _), by simp [Sem.make, fresh_nonlinear _ _ h]⟩

theorem sink_nil {σ : Sem} {v : Val} (h : v.wires = []) : σ.sink v = σ := by simp [Sem.sink, h]

mutual
theorem plain_eval : ∀ (e : Expr) {σ : Sem}, (∀ n, (Γ n).linear = false → (σ.env n).wires = []) →
    e.Typed Γ → e.Plain → (evalE e σ).1.wires = [] ∧ (evalE e σ).2 = σ
  | .ident _ ty n, σ, he, ht, hp => ⟨he n (by rw [show Γ n = ty from ht]; exact hp), rfl⟩
  | .tuple _ ty es, σ, he, ht, hp => by
    have := plains_eval es he ht.1 hp.2
    exact ⟨by simpa [evalE, Val.wires] using this.1, this.2.1⟩
  | .field _ ty e i, σ, he, ht, hp => by
    have := plain_eval e he ht.1 hp.2
    exact ⟨nth_wires_nil this.1 i, this.2⟩
  | .index _ ty e i, σ, he, ht, hp => by
    have := plain_eval e he ht.1 hp.2.2
    simp only [evalE, hp.2.1, Bool.false_eq_true, if_false]
    rw [this.2]
    exact make_nonlinear hp.1
  | .range _ ty e a b, σ, he, ht, hp => by
    have := plain_eval e he ht.1 hp.2.2
    simp only [evalE, hp.2.1, Bool.false_eq_true, if_false]
    rw [this.2]
    exact make_nonlinear hp.1
  | .view _ ty e, σ, he, ht, hp => by
    have := plain_eval e he ht.1 hp.2
    simp only [evalE]
    rw [this.2]
    exact make_nonlinear hp.1
  | .binop _ ty a b, σ, he, ht, hp => by
    have h1 := plain_eval a he ht.1 hp.2.1
    have h2 := plain_eval b he ht.2 hp.2.2
    simp only [evalE]
    rw [h1.2, h2.2, sink_nil h1.1, sink_nil h2.1]
    exact make_nonlinear hp.1
  | .call _ ty reads args, σ, he, ht, hp => by
    have h1 := plains_eval args he ht hp.2
    simp only [evalE]
    rw [h1.2.2 reads]
    exact make_nonlinear hp.1
  | .block .., σ, he, ht, hp => hp.elim
  | .blockUnit .., σ, he, ht, hp => hp.elim
  | .ite .., σ, he, ht, hp => hp.elim
  | .mtch .., σ, he, ht, hp => hp.elim
theorem plains_eval : ∀ (es : Exprs) {σ : Sem}, (∀ n, (Γ n).linear = false → (σ.env n).wires = []) →
    es.Typed Γ → es.Plain → allWires (evalEs es σ).1 = [] ∧ (evalEs es σ).2 = σ ∧ ∀ b, evalArgs b es σ = σ
  | .nil, σ, he, ht, hp => ⟨rfl, rfl, fun _ => rfl⟩
  | .cons e es, σ, he, ht, hp => by
    have h1 := plain_eval e he ht.1 hp.1
    have h2 := plains_eval es he ht.2 hp.2
    simp only [evalEs, evalArgs, allWires, h1.2, h1.1, h2.1, h2.2.1, sink_nil h1.1]
    refine ⟨rfl, trivial, fun b => ?_⟩
    have : (if b = true then σ else σ) = σ := by split <;> rfl
    rw [this]
    exact h2.2.2 b
end

/-! ## Expressions -/

theorem member_shape {t u : LTy} {v : Val} {i : Nat} (hs : Shape t v) (hm : t.member i = some u) :
    Shape u (v.nth i) := by
  cases t with
  | copy => simp [LTy.member] at hm
  | wire => simp [LTy.member] at hm
  | node ts => exact shape_nth hs hm
  | view t =>
    simp only [LTy.member, Option.map_eq_some_iff] at hm
    obtain ⟨w, _, rfl⟩ := hm
    exact nth_wires_nil hs i

theorem Expr.id_mem (e : Expr) : .expr e.id ∈ e.refs := by
  cases e <;> simp [Expr.id, Expr.refs]

theorem owe_node_cons (o : Nat → Nat) (v : Val) (vs : List Val) :
    owe (owe o v) (.node vs) = owe o (.node (v :: vs)) := by rw [owe_cons, owe_comm]

mutual
theorem visitE_ok : ∀ (e : Expr) (s s' : St) {R o σ α χ}, visitE e s = some s' → Inv Γ R o s σ α χ →
    (∀ r ∈ e.refs, s.trees r = none) → e.refs.Nodup → e.Typed Γ → e.Careful →
    ∃ α' χ', Inv Γ R o s' (evalE e σ).2 α' χ' ∧ Ext e.refs s χ s' χ' ∧ χ' e.id = (evalE e σ).1 ∧
      Shape e.ty (evalE e σ).1
  | .ident id ty n, s, s', R, o, σ, α, χ, hv, h, hf, hn, ht, hc => by
    have hid := hf (.expr id) (by simp [Expr.refs])
    simp only [visitE, St.alias, hid] at hv
    cases hT : s.trees (.name n) with
    | none => simp [hT] at hv
    | some T =>
      simp only [hT, Option.some.injEq] at hv
      subst hv
      have hR' : ∀ r a, a ∈ T.all → ¬ R r a := fun r a ha hr => by
        have := h.disj _ _ _ a hT ha hr
        subst this
        obtain ⟨i, hi⟩ := (h.res _ a hr).2.2.2.2
        simp at hi
      refine ⟨α, _, h.insertExpr (i := id) (by simp [hid]) (h.mirror _ _ hT) (fun a ha => h.bound _ _ a hT ha)
        (fun _ _ h => h) hR', ⟨fun r hr => ?_, fun j hj => ?_, fun r hr => by simp [St.insert, hr], Nat.le_refl _⟩,
        by simp [Expr.id, valOf, evalE], ?_⟩
      · simp only [Expr.refs, List.mem_singleton] at hr
        simp [St.insert, hr]
      · simp only [Expr.refs, List.mem_singleton, Ref.expr.injEq] at hj
        simp [hj]
      · have := h.shape n (by simp [hT])
        rw [show Γ n = ty from ht] at this
        exact this
  | .tuple id ty es, s, s', R, o, σ, α, χ, hv, h, hf, hn, ht, hc => by
    simp only [Expr.refs, List.nodup_cons] at hf hn
    have hid := hf (.expr id) (by simp)
    obtain ⟨α1, χ1, g1, x1, sh⟩ := visitConsume_ok es _ s' hv (h.push ty hid)
      (push_none (fun r hr => hf r (by simp [hr])) hn.1) hn.2 ht.1 hc
    have hs : Shape ty (.node (evalEs es σ).1) := by
      rcases ht.2 with rfl | hl
      · exact .inl ⟨_, rfl, sh⟩
      · exact nonlinear_shape hl.1 (shapeAll_nonlinear _ _ hl.2 sh)
    obtain ⟨α2, g2, x2⟩ := wrap (not_reserved h hid) g1 x1 hn.1 hs
    exact ⟨α2, _, g2, x2, by simp [Expr.id, evalE], hs⟩
  | .field id ty e i, s, s', R, o, σ, α, χ, hv, h, hf, hn, ht, hc => by
    simp only [Expr.refs, List.nodup_cons] at hf hn
    have hid := hf (.expr id) (by simp)
    obtain ⟨s1, c1, c2⟩ := Option.bind_eq_some_iff.1 hv
    obtain ⟨α1, χ1, g1, x1, v1, sh⟩ := visitE_ok e s s1 c1 h (fun r hr => hf r (by simp [hr])) hn.2 ht.1 hc
    simp only [St.aliasMember] at c2
    obtain ⟨T, hT, c2⟩ := Option.bind_eq_some_iff.1 c2
    obtain ⟨m, hm, rfl⟩ := Option.map_eq_some_iff.1 c2
    have hid1 : s1.trees (.expr id) = none := by rw [x1.trees _ hn.1]; exact hid
    have hne := not_reserved h (hf (.expr e.id) (by simp [e.id_mem]))
    refine ⟨α1, _, g1.insertExpr (i := id) (by simp [hid1]) (mirror_member (g1.mirror _ _ hT) hm)
      (fun a ha => g1.bound _ _ a hT (member_all hm a ha)) (fun _ _ h => h) (fun r a ha hr => ?_),
      ⟨fun r hr => ?_, fun j hj => ?_, fun r hr => ?_, ?_⟩, ?_, member_shape sh ht.2⟩
    · have := g1.disj _ _ _ a hT (member_all hm a ha) hr
      subst this
      exact hne a hr
    · simp only [Expr.refs, List.mem_cons, not_or] at hr
      simp [St.insert, hr.1, x1.trees r hr.2]
    · simp only [Expr.refs, List.mem_cons, not_or, Ref.expr.injEq] at hj
      simp [hj.1, x1.vals j hj.2]
    · have := x1.keys r hr; simp [St.insert, this]
    · exact x1.next
    · show (if id = id then (χ1 e.id).nth i else _) = _
      rw [if_pos rfl, v1]
      rfl
  | .index id ty e i, s, s', R, o, σ, α, χ, hv, h, hf, hn, ht, hc => by
    simp only [Expr.refs, List.nodup_cons] at hf hn
    have hid := hf (.expr id) (by simp)
    obtain ⟨s1, c1, c2⟩ := Option.bind_eq_some_iff.1 hv
    have hfe := push_none (ty := ty) (fun r hr => hf r (by simp [hr])) hn.1
    have hp := h.push ty hid
    obtain ⟨α1, χ1, g1, x1, v1, sh⟩ := visitE_ok e _ s1 c1 hp hfe hn.2 ht.1 hc
    have hne := not_reserved hp (hfe (.expr e.id) e.id_mem)
    by_cases hl : e.ty.linear = true
    · simp only [hl, if_true] at c2
      obtain ⟨k, rfl, c3⟩ := Option.bind_eq_some_iff.1 c2
      simp only [St.aliasMember] at c3
      obtain ⟨T, hT, c4⟩ := Option.bind_eq_some_iff.1 c3
      obtain ⟨m, hm, rfl⟩ := Option.map_eq_some_iff.1 c4
      have hold : ∀ U, s1.trees (.expr id) = some U → ∀ a ∈ U.leaves, α1 a = none := by
        intro U hU a ha
        rw [x1.trees _ hn.1] at hU
        simp [St.push, St.insert] at hU
        subst hU
        have := (build_range ty s.next).2 a (leavesAll_sub_aux _ a ha)
        exact (g1.res _ a (.inr ⟨rfl, this⟩)).2.1
      have hev : (evalE (.index id ty e (some k)) σ).2 = (evalE e σ).2 := by simp only [evalE, hl, if_true]
      rw [hev]
      refine ⟨α1, _, g1.insertExpr (i := id) (R' := R) hold (mirror_member (g1.mirror _ _ hT) hm)
        (fun a ha => g1.bound _ _ a hT (member_all hm a ha)) (fun _ _ h => .inl h) (fun r a ha hr => ?_),
        ⟨fun r hr => ?_, fun j hj => ?_, fun r hr => ?_, ?_⟩, ?_, ?_⟩
      · have := g1.disj _ _ _ a hT (member_all hm a ha) (.inl hr)
        subst this
        exact hne a (.inl hr)
      · simp only [Expr.refs, List.mem_cons, not_or] at hr
        simp only [St.insert, hr.1, if_false]
        rw [x1.trees r hr.2]
        simp [St.push, St.insert, hr.1]
      · simp only [Expr.refs, List.mem_cons, not_or, Ref.expr.injEq] at hj
        simp [hj.1, x1.vals j hj.2]
      · have := x1.keys r (by simp [St.push, St.insert, hr]); simp [St.insert, this]
      · exact Nat.le_trans (build_range ty s.next).1 x1.next
      · show (if id = id then (χ1 e.id).nth k else _) = _
        rw [if_pos rfl, v1]
        simp only [evalE, hl, if_true]
      · simp only [evalE, hl, if_true]
        exact member_shape sh (ht.2.2 hl k rfl)
    · have hl' : e.ty.linear = false := by simpa using hl
      simp only [hl', Bool.false_eq_true, if_false] at c2
      have g2 := (g1.consume c2 hne).1
      rw [v1, owe_nil (shape_nonlinear _ _ hl' sh)] at g2
      have g3 := g2.make ty
      have hs := fresh_shape ty (evalE e σ).2.next
      obtain ⟨α2, g4, x2⟩ := wrap (not_reserved h hid) g3 (x1.consume c2) hn.1 hs
      refine ⟨α2, _, ?_, x2, ?_, ?_⟩
      · simpa only [evalE, hl', Bool.false_eq_true, if_false] using g4
      · simp [Expr.id, evalE, hl']
      · simp only [evalE, hl', Bool.false_eq_true, if_false]
        exact hs
  | .range id ty e a b, s, s', R, o, σ, α, χ, hv, h, hf, hn, ht, hc => by
    simp only [Expr.refs, List.nodup_cons] at hf hn
    have hid := hf (.expr id) (by simp)
    obtain ⟨s1, c1, c2⟩ := Option.bind_eq_some_iff.1 hv
    have hfe := push_none (ty := ty) (fun r hr => hf r (by simp [hr])) hn.1
    have hp := h.push ty hid
    obtain ⟨α1, χ1, g1, x1, v1, sh⟩ := visitE_ok e _ s1 c1 hp hfe hn.2 ht.1 hc.2
    have hne := not_reserved hp (hfe (.expr e.id) e.id_mem)
    have hl' := hc.1
    have g2 := (g1.consume c2 hne).1
    rw [v1, owe_nil (shape_nonlinear _ _ hl' sh)] at g2
    have g3 := g2.make ty
    have hs := fresh_shape ty (evalE e σ).2.next
    obtain ⟨α2, g4, x2⟩ := wrap (not_reserved h hid) g3 (x1.consume c2) hn.1 hs
    refine ⟨α2, _, ?_, x2, ?_, ?_⟩
    · simpa only [evalE, hl', Bool.false_eq_true, if_false] using g4
    · simp [Expr.id, evalE, hl']
    · simp only [evalE, hl', Bool.false_eq_true, if_false]
      exact hs
  | .view id ty e, s, s', R, o, σ, α, χ, hv, h, hf, hn, ht, hc => by
    simp only [Expr.refs, List.nodup_cons] at hf hn
    have hid := hf (.expr id) (by simp)
    have hfe := push_none (ty := ty) (fun r hr => hf r (by simp [hr])) hn.1
    obtain ⟨α1, χ1, g1, x1, v1, sh⟩ := visitE_ok e _ s' hv (h.push ty hid) hfe hn.2 ht.1 hc
    have hs := fresh_shape ty (evalE e σ).2.next
    obtain ⟨α2, g4, x2⟩ := wrap (not_reserved h hid) (g1.make ty) x1 hn.1 hs
    exact ⟨α2, _, g4, x2, by simp [Expr.id, evalE], hs⟩
  | .binop id ty a b, s, s', R, o, σ, α, χ, hv, h, hf, hn, ht, hc => by
    simp only [Expr.refs, List.nodup_cons] at hf hn
    obtain ⟨hn1, hn2, hn3⟩ := List.nodup_append.1 hn.2
    have hid := hf (.expr id) (by simp)
    obtain ⟨s1, c1, hv⟩ := Option.bind_eq_some_iff.1 hv
    obtain ⟨s2, c2, hv⟩ := Option.bind_eq_some_iff.1 hv
    obtain ⟨s3, c3, c4⟩ := Option.bind_eq_some_iff.1 hv
    have hfe := push_none (ty := ty) (fun r hr => hf r (by simp [hr])) hn.1
    have hp := h.push ty hid
    obtain ⟨α1, χ1, g1, x1, v1, sh1⟩ := visitE_ok a _ s1 c1 hp (fun r hr => hfe r (by simp [hr])) hn1 ht.1 hc.1
    have hfb := x1.none (qs := b.refs) (fun r hr => hfe r (by simp [hr])) (fun r hr hr' => hn3 r hr' r hr rfl)
    obtain ⟨α2, χ2, g2, x2, v2, sh2⟩ := visitE_ok b _ s2 c2 g1 hfb hn2 ht.2 hc.2
    have hna := not_reserved hp (hfe (.expr a.id) (by simp [a.id_mem]))
    have hnb := not_reserved hp (hfe (.expr b.id) (by simp [b.id_mem]))
    have va : χ2 a.id = (evalE a σ).1 := by
      rw [x2.vals _ fun hm => hn3 _ a.id_mem _ hm rfl, v1]
    have g3 := (g2.consume c3 hna).1
    have g4 := (g3.consume c4 hnb).1
    rw [va, v2, owe_comm] at g4
    have hs := fresh_shape ty (evalE b (evalE a σ).2).2.next
    obtain ⟨α3, g5, x3⟩ := wrap (not_reserved h hid) (g4.sink.sink.make ty)
      (((x1.trans x2).consume c3).consume c4) hn.1 hs
    exact ⟨α3, _, g5, x3, by simp [Expr.id, evalE, Sem.make, Sem.sink], hs⟩
  | .call id ty reads args, s, s', R, o, σ, α, χ, hv, h, hf, hn, ht, hc => by
    simp only [Expr.refs, List.nodup_cons] at hf hn
    have hid := hf (.expr id) (by simp)
    have hfe := push_none (ty := ty) (fun r hr => hf r (by simp [hr])) hn.1
    have hargs : ∃ α' χ', Inv Γ (fun r a => R r a ∨ (r = .expr id ∧ s.next ≤ a ∧ a < (build ty s.next).2)) o s'
        (evalArgs reads args σ) α' χ' ∧
        Ext args.refs (s.push (.expr id) ty) (fun j => if j = id then .none else χ j) s' χ' := by
      cases reads with
      | true => exact visitOnly_ok args _ s' (by simpa [visitE] using hv) (h.push ty hid) hfe hn.2 ht hc
      | false => exact visitArgs_ok args _ s' (by simpa [visitE] using hv) (h.push ty hid) hfe hn.2 ht hc
    obtain ⟨α1, χ1, g1, x1⟩ := hargs
    have hs := fresh_shape ty (evalArgs reads args σ).next
    obtain ⟨α2, g4, x2⟩ := wrap (not_reserved h hid) (g1.make ty) x1 hn.1 hs
    exact ⟨α2, _, g4, x2, by simp [Expr.id, evalE], hs⟩
  | .block id ty ss res, s, s', R, o, σ, α, χ, hv, h, hf, hn, ht, hc => by
    simp only [Expr.refs, List.nodup_cons] at hf hn
    obtain ⟨hn1, hn2, hn3⟩ := List.nodup_append.1 hn.2
    have hid := hf (.expr id) (by simp)
    obtain ⟨s1, c1, hv⟩ := Option.bind_eq_some_iff.1 hv
    obtain ⟨s2, c2, c3⟩ := Option.bind_eq_some_iff.1 hv
    have hfe := push_none (ty := ty) (fun r hr => hf r (by simp [hr])) hn.1
    have hp := h.push ty hid
    obtain ⟨α1, χ1, g1, x1⟩ := visitSs_ok ss _ s1 c1 hp (fun r hr => hfe r (by simp [hr])) hn1 ht.1 hc.1
    have hfb := x1.none (qs := res.refs) (fun r hr => hfe r (by simp [hr])) (fun r hr hr' => hn3 r hr' r hr rfl)
    obtain ⟨α2, χ2, g2, x2, v2, sh2⟩ := visitE_ok res _ s2 c2 g1 hfb hn2 ht.2.1 hc.2
    have g3 := (g2.consume c3 (not_reserved hp (hfe (.expr res.id) (by simp [res.id_mem])))).1
    rw [v2] at g3
    rw [ht.2.2] at sh2
    obtain ⟨α3, g5, x3⟩ := wrap (not_reserved h hid) g3 ((x1.trans x2).consume c3) hn.1 sh2
    exact ⟨α3, _, g5, x3, by simp [Expr.id, evalE], sh2⟩
  | .blockUnit id ty ss, s, s', R, o, σ, α, χ, hv, h, hf, hn, ht, hc => by
    simp only [Expr.refs, List.nodup_cons] at hf hn
    have hid := hf (.expr id) (by simp)
    have hfe := push_none (ty := ty) (fun r hr => hf r (by simp [hr])) hn.1
    obtain ⟨α1, χ1, g1, x1⟩ := visitSs_ok ss _ s' hv (h.push ty hid) hfe hn.2 ht hc
    have hs := fresh_shape ty (evalSs ss σ).next
    obtain ⟨α2, g4, x2⟩ := wrap (not_reserved h hid) (g1.make ty) x1 hn.1 hs
    exact ⟨α2, _, g4, x2, by simp [Expr.id, evalE], hs⟩
  | .ite id ty c a b, s, s', R, o, σ, α, χ, hv, h, hf, hn, ht, hc => by
    simp only [Expr.refs, List.nodup_cons] at hf hn
    obtain ⟨hn1, hn2, hn3⟩ := List.nodup_append.1 hn.2
    obtain ⟨hn4, hn5, hn6⟩ := List.nodup_append.1 hn2
    have hid := hf (.expr id) (by simp)
    obtain ⟨s1, c1, hv⟩ := Option.bind_eq_some_iff.1 hv
    obtain ⟨s2, c2, c3⟩ := Option.bind_eq_some_iff.1 hv
    have hfe := push_none (ty := ty) (fun r hr => hf r (by simp [hr])) hn.1
    have hp := h.push ty hid
    obtain ⟨α1, χ1, g1, x1, v1, sh1⟩ := visitE_ok c _ s1 c1 hp (fun r hr => hfe r (by simp [hr])) hn1 ht.1 hc.2.1
    have hfa := x1.none (qs := a.refs ++ b.refs) (fun r hr => hfe r (List.mem_append_right _ hr))
      (fun r hr hr' => hn3 r hr' r hr rfl)
    obtain ⟨α2, χ2, g2, x2, v2, sh2⟩ := visitE_ok a _ s2 c2 g1 (fun r hr => hfa r (by simp [hr])) hn4 ht.2.1 hc.2.2.1
    have hfb := x2.none (qs := b.refs) (fun r hr => hfa r (by simp [hr])) (fun r hr hr' => hn6 r hr' r hr rfl)
    obtain ⟨α3, χ3, g3, x3, v3, sh3⟩ := visitE_ok b _ s' c3 g2 hfb hn5 ht.2.2.1 hc.2.2.2
    rw [ht.2.2.2.1] at sh2
    rw [ht.2.2.2.2] at sh3
    have w2 := shape_nonlinear _ _ hc.1 sh2
    have w3 := shape_nonlinear _ _ hc.1 sh3
    have hs := fresh_shape ty (evalE b (evalE a (evalE c σ).2).2).2.next
    obtain ⟨α4, g5, x4⟩ := wrap (not_reserved h hid) (g3.make ty) (x1.trans (x2.trans x3)) hn.1 hs
    refine ⟨α4, _, ?_, x4, ?_, ?_⟩
    · simpa only [evalE, sink_nil w2, sink_nil w3] using g5
    · simp [Expr.id, evalE, sink_nil w2, sink_nil w3]
    · simp only [evalE, sink_nil w2, sink_nil w3]
      exact hs
  | .mtch id ty c arms, s, s', R, o, σ, α, χ, hv, h, hf, hn, ht, hc => by
    simp only [Expr.refs, List.nodup_cons] at hf hn
    obtain ⟨hn1, hn2, hn3⟩ := List.nodup_append.1 hn.2
    have hid := hf (.expr id) (by simp)
    obtain ⟨s1, c1, c2⟩ := Option.bind_eq_some_iff.1 hv
    have hfe := push_none (ty := ty) (fun r hr => hf r (by simp [hr])) hn.1
    have hp := h.push ty hid
    obtain ⟨α1, χ1, g1, x1, v1, sh1⟩ := visitE_ok c _ s1 c1 hp (fun r hr => hfe r (by simp [hr])) hn1 ht.1 hc.2.2.1
    have hfa := x1.none (qs := arms.refs) (fun r hr => hfe r (List.mem_append_right _ hr))
      (fun r hr hr' => hn3 r hr' r hr rfl)
    obtain ⟨α2, χ2, g2, x2⟩ := visitArms_ok arms _ s' (evalE c σ).1 c.ty ty c2 g1 hfa hn2 ht.2 hc.2.2.2
      hc.2.1 hc.1 (shape_nonlinear _ _ hc.2.1 sh1)
    have hs := fresh_shape ty (evalArms arms (evalE c σ).1 (evalE c σ).2).next
    obtain ⟨α4, g5, x4⟩ := wrap (not_reserved h hid) (g2.make ty) (x1.trans x2) hn.1 hs
    exact ⟨α4, _, g5, x4, by simp [Expr.id, evalE], hs⟩
theorem visitConsume_ok : ∀ (es : Exprs) (s s' : St) {R o σ α χ}, visitConsume es s = some s' →
    Inv Γ R o s σ α χ → (∀ r ∈ es.refs, s.trees r = none) → es.refs.Nodup → es.Typed Γ → es.Careful →
    ∃ α' χ', Inv Γ R (owe o (.node (evalEs es σ).1)) s' (evalEs es σ).2 α' χ' ∧ Ext es.refs s χ s' χ' ∧
      ShapeAll es.tys (evalEs es σ).1
  | .nil, s, s', R, o, σ, α, χ, hv, h, hf, hn, ht, hc => by
    simp only [visitConsume, Option.some.injEq] at hv
    subst hv
    refine ⟨α, χ, ?_, Ext.refl _ _ _, rfl⟩
    rw [owe_nil (by simp [evalEs, Val.wires, allWires])]
    exact h
  | .cons e es, s, s', R, o, σ, α, χ, hv, h, hf, hn, ht, hc => by
    simp only [Exprs.refs] at hf hn
    obtain ⟨hn1, hn2, hn3⟩ := List.nodup_append.1 hn
    obtain ⟨s1, c1, hv⟩ := Option.bind_eq_some_iff.1 hv
    obtain ⟨s2, c2, c3⟩ := Option.bind_eq_some_iff.1 hv
    obtain ⟨α1, χ1, g1, x1, v1, sh1⟩ := visitE_ok e s s1 c1 h (fun r hr => hf r (by simp [hr])) hn1 ht.1 hc.1
    have g2 := (g1.consume c2 (not_reserved h (hf (.expr e.id) (by simp [e.id_mem])))).1
    rw [v1] at g2
    have hx := x1.consume c2
    have hfb := hx.none (qs := es.refs) (fun r hr => hf r (by simp [hr])) (fun r hr hr' => hn3 r hr' r hr rfl)
    obtain ⟨α2, χ2, g3, x2, sh2⟩ := visitConsume_ok es s2 s' c3 g2 hfb hn2 ht.2 hc.2
    rw [owe_node_cons] at g3
    exact ⟨α2, χ2, g3, hx.trans x2, _, _, rfl, sh1, sh2⟩
theorem visitArgs_ok : ∀ (es : Exprs) (s s' : St) {R o σ α χ}, visitConsume es s = some s' →
    Inv Γ R o s σ α χ → (∀ r ∈ es.refs, s.trees r = none) → es.refs.Nodup → es.Typed Γ → es.Careful →
    ∃ α' χ', Inv Γ R o s' (evalArgs false es σ) α' χ' ∧ Ext es.refs s χ s' χ'
  | .nil, s, s', R, o, σ, α, χ, hv, h, hf, hn, ht, hc => by
    simp only [visitConsume, Option.some.injEq] at hv
    subst hv
    exact ⟨α, χ, h, Ext.refl _ _ _⟩
  | .cons e es, s, s', R, o, σ, α, χ, hv, h, hf, hn, ht, hc => by
    simp only [Exprs.refs] at hf hn
    obtain ⟨hn1, hn2, hn3⟩ := List.nodup_append.1 hn
    obtain ⟨s1, c1, hv⟩ := Option.bind_eq_some_iff.1 hv
    obtain ⟨s2, c2, c3⟩ := Option.bind_eq_some_iff.1 hv
    obtain ⟨α1, χ1, g1, x1, v1, sh1⟩ := visitE_ok e s s1 c1 h (fun r hr => hf r (by simp [hr])) hn1 ht.1 hc.1
    have g2 := (g1.consume c2 (not_reserved h (hf (.expr e.id) (by simp [e.id_mem])))).1
    rw [v1] at g2
    have hx := x1.consume c2
    have hfb := hx.none (qs := es.refs) (fun r hr => hf r (by simp [hr])) (fun r hr hr' => hn3 r hr' r hr rfl)
    obtain ⟨α2, χ2, g3, x2⟩ := visitArgs_ok es s2 s' c3 g2.sink hfb hn2 ht.2 hc.2
    exact ⟨α2, χ2, g3, hx.trans x2⟩
theorem visitOnly_ok : ∀ (es : Exprs) (s s' : St) {R o σ α χ}, visitOnly es s = some s' →
    Inv Γ R o s σ α χ → (∀ r ∈ es.refs, s.trees r = none) → es.refs.Nodup → es.Typed Γ → es.Careful →
    ∃ α' χ', Inv Γ R o s' (evalArgs true es σ) α' χ' ∧ Ext es.refs s χ s' χ'
  | .nil, s, s', R, o, σ, α, χ, hv, h, hf, hn, ht, hc => by
    simp only [visitOnly, Option.some.injEq] at hv
    subst hv
    exact ⟨α, χ, h, Ext.refl _ _ _⟩
  | .cons e es, s, s', R, o, σ, α, χ, hv, h, hf, hn, ht, hc => by
    simp only [Exprs.refs] at hf hn
    obtain ⟨hn1, hn2, hn3⟩ := List.nodup_append.1 hn
    obtain ⟨s1, c1, c3⟩ := Option.bind_eq_some_iff.1 hv
    obtain ⟨α1, χ1, g1, x1, v1, sh1⟩ := visitE_ok e s s1 c1 h (fun r hr => hf r (by simp [hr])) hn1 ht.1 hc.1
    have hfb := x1.none (qs := es.refs) (fun r hr => hf r (by simp [hr])) (fun r hr hr' => hn3 r hr' r hr rfl)
    obtain ⟨α2, χ2, g3, x2⟩ := visitOnly_ok es s1 s' c3 g1 hfb hn2 ht.2 hc.2
    exact ⟨α2, χ2, g3, x1.trans x2⟩
theorem visitSs_ok : ∀ (ss : Stmts) (s s' : St) {R o σ α χ}, visitSs ss s = some s' →
    Inv Γ R o s σ α χ → (∀ r ∈ ss.refs, s.trees r = none) → ss.refs.Nodup → ss.Typed Γ → ss.Careful →
    ∃ α' χ', Inv Γ R o s' (evalSs ss σ) α' χ' ∧ Ext ss.refs s χ s' χ'
  | .nil, s, s', R, o, σ, α, χ, hv, h, hf, hn, ht, hc => by
    simp only [visitSs, Option.some.injEq] at hv
    subst hv
    exact ⟨α, χ, h, Ext.refl _ _ _⟩
  | .let_ p e ss, s, s', R, o, σ, α, χ, hv, h, hf, hn, ht, hc => by
    simp only [Stmts.refs] at hf hn
    obtain ⟨hn1, hn2, hn3⟩ := List.nodup_append.1 hn
    obtain ⟨hn4, hn5, hn6⟩ := List.nodup_append.1 hn2
    obtain ⟨s1, c1, hv⟩ := Option.bind_eq_some_iff.1 hv
    obtain ⟨s2, c2, hv⟩ := Option.bind_eq_some_iff.1 hv
    obtain ⟨s3, c3, c4⟩ := Option.bind_eq_some_iff.1 hv
    obtain ⟨α1, χ1, g1, x1, v1, sh1⟩ := visitE_ok e s s1 c1 h (fun r hr => hf r (by simp [hr])) hn1 ht.1 hc.2.1
    have g2 := (g1.consume c2 (not_reserved h (hf (.expr e.id) (by simp [e.id_mem])))).1
    rw [v1] at g2
    have hx := x1.consume c2
    have hfa := hx.none (qs := p.refs ++ ss.refs) (fun r hr => hf r (List.mem_append_right _ hr))
      (fun r hr hr' => hn3 r hr' r hr rfl)
    obtain ⟨α2, χ2, g3, x2, _⟩ := pushPat_ok p s2 s3 _ _ c3 g2 (fun r hr => hfa r (by simp [hr])) hn4 ht.2.1 hc.1 sh1
    have hfb := x2.none (qs := ss.refs) (fun r hr => hfa r (by simp [hr])) (fun r hr hr' => hn6 r hr' r hr rfl)
    obtain ⟨α3, χ3, g4, x3⟩ := visitSs_ok ss s3 s' c4 g3 hfb hn5 ht.2.2 hc.2.2
    exact ⟨α3, χ3, g4, hx.trans (x2.trans x3)⟩
  | .set t v ss, s, s', R, o, σ, α, χ, hv, h, hf, hn, ht, hc => by
    simp only [Stmts.refs] at hf hn
    obtain ⟨hn1, hn2, hn3⟩ := List.nodup_append.1 hn
    obtain ⟨hn4, hn5, hn6⟩ := List.nodup_append.1 hn2
    obtain ⟨s1, c1, hv⟩ := Option.bind_eq_some_iff.1 hv
    obtain ⟨s2, c2, hv⟩ := Option.bind_eq_some_iff.1 hv
    obtain ⟨s3, c3, hv⟩ := Option.bind_eq_some_iff.1 hv
    obtain ⟨s4, c4, c5⟩ := Option.bind_eq_some_iff.1 hv
    obtain ⟨α1, χ1, g1, x1, v1, sh1⟩ := visitE_ok t s s1 c1 h (fun r hr => hf r (by simp [hr])) hn1 ht.1 hc.1
    have hfa := x1.none (qs := v.refs ++ ss.refs) (fun r hr => hf r (List.mem_append_right _ hr))
      (fun r hr hr' => hn3 r hr' r hr rfl)
    obtain ⟨α2, χ2, g2, x2, v2, sh2⟩ := visitE_ok v s1 s2 c2 g1 (fun r hr => hfa r (by simp [hr])) hn4 ht.2.1 hc.2.1
    have va : χ2 t.id = (evalE t σ).1 := by
      rw [x2.vals _ fun hm => hn3 _ t.id_mem _ (by simp [hm]) rfl, v1]
    have g3 := (g2.consume c3 (not_reserved h (hf (.expr t.id) (by simp [t.id_mem])))).1
    have g4 := (g3.consume c4 (not_reserved h (hf (.expr v.id) (by simp [v.id_mem])))).1
    rw [va, v2, owe_comm] at g4
    have hx := (x2.consume c3).consume c4
    have hfb := hx.none (qs := ss.refs) (fun r hr => hfa r (by simp [hr])) (fun r hr hr' => hn6 r hr' r hr rfl)
    obtain ⟨α3, χ3, g5, x3⟩ := visitSs_ok ss s4 s' c5 g4.sink.sink hfb hn5 ht.2.2 hc.2.2
    exact ⟨α3, χ3, g5, x1.trans (hx.trans x3)⟩
  | .expr e ss, s, s', R, o, σ, α, χ, hv, h, hf, hn, ht, hc => by
    simp only [Stmts.refs] at hf hn
    obtain ⟨hn1, hn2, hn3⟩ := List.nodup_append.1 hn
    obtain ⟨s1, c1, c2⟩ := Option.bind_eq_some_iff.1 hv
    obtain ⟨α1, χ1, g1, x1, v1, sh1⟩ := visitE_ok e s s1 c1 h (fun r hr => hf r (by simp [hr])) hn1 ht.1 hc.1
    have hfb := x1.none (qs := ss.refs) (fun r hr => hf r (by simp [hr])) (fun r hr hr' => hn3 r hr' r hr rfl)
    obtain ⟨α2, χ2, g3, x2⟩ := visitSs_ok ss s1 s' c2 g1 hfb hn2 ht.2 hc.2
    exact ⟨α2, χ2, g3, x1.trans x2⟩
  | .decl n ty ss, s, s', R, o, σ, α, χ, hv, h, hf, hn, ht, hc => by
    simp only [Stmts.refs, List.nodup_cons] at hf hn
    obtain ⟨rfl, ht⟩ := ht
    obtain ⟨α1, g1⟩ := (h.make (Γ n)).pushName (n := n) (hf _ (by simp)) (fresh_shape _ _)
    have hx : Ext [.name n] s χ (s.push (.name n) (Γ n)) χ := by
      refine ⟨fun r hr => ?_, fun _ _ => rfl, fun r hr => by simp [St.push, St.insert, hr],
        (build_range (Γ n) s.next).1⟩
      simp only [List.mem_singleton] at hr
      simp [St.push, St.insert, hr]
    have hfb := hx.none (qs := ss.refs) (fun r hr => hf r (by simp [hr])) (fun r hr hr' => by
      simp only [List.mem_singleton] at hr'; subst hr'; exact hn.1 hr)
    obtain ⟨α3, χ3, g5, x3⟩ := visitSs_ok ss _ s' hv g1 hfb hn.2 ht hc
    exact ⟨α3, χ3, g5, hx.trans x3⟩
  | .assert e ss, s, s', R, o, σ, α, χ, hv, h, hf, hn, ht, hc => by
    simp only [Stmts.refs] at hf hn
    obtain ⟨hn1, hn2, hn3⟩ := List.nodup_append.1 hn
    have hp := plain_eval e h.plain ht.1 hc.1
    obtain ⟨α3, χ3, g5, x3⟩ := visitSs_ok ss s s' hv h (fun r hr => hf r (by simp [hr])) hn2 ht.2 hc.2
    refine ⟨α3, χ3, ?_, x3.mono fun r hr => by simp [Stmts.refs, hr]⟩
    simpa only [evalSs, hp.2] using g5
theorem visitArms_ok : ∀ (as : Arms) (s s' : St) {R o σ α χ} (v : Val) (cty ty : LTy), visitArms as s = some s' →
    Inv Γ R o s σ α χ → (∀ r ∈ as.refs, s.trees r = none) → as.refs.Nodup → as.Typed Γ cty ty → as.Careful →
    cty.linear = false → ty.linear = false → v.wires = [] →
    ∃ α' χ', Inv Γ R o s' (evalArms as v σ) α' χ' ∧ Ext as.refs s χ s' χ'
  | .nil, s, s', R, o, σ, α, χ, v, cty, ty, hv, h, hf, hn, ht, hc, hcl, htl, hw => by
    simp only [visitArms, Option.some.injEq] at hv
    subst hv
    exact ⟨α, χ, h, Ext.refl _ _ _⟩
  | .arm p e as, s, s', R, o, σ, α, χ, v, cty, ty, hv, h, hf, hn, ht, hc, hcl, htl, hw => by
    simp only [Arms.refs] at hf hn
    obtain ⟨hn1, hn2, hn3⟩ := List.nodup_append.1 hn
    obtain ⟨hn4, hn5, hn6⟩ := List.nodup_append.1 hn2
    obtain ⟨s1, c1, hv⟩ := Option.bind_eq_some_iff.1 hv
    obtain ⟨s2, c2, c3⟩ := Option.bind_eq_some_iff.1 hv
    rw [← owe_nil (o := o) hw] at h
    obtain ⟨α1, χ1, g1, x1, _⟩ := pushPat_ok p s s1 v cty c1 h (fun r hr => hf r (by simp [hr])) hn1 ht.1 hc.1
      (nonlinear_shape hcl hw)
    have hfa := x1.none (qs := e.refs ++ as.refs) (fun r hr => hf r (List.mem_append_right _ hr))
      (fun r hr hr' => hn3 r hr' r hr rfl)
    obtain ⟨α2, χ2, g2, x2, v2, sh2⟩ := visitE_ok e s1 s2 c2 g1 (fun r hr => hfa r (by simp [hr])) hn4 ht.2.1 hc.2.1
    have hfb := x2.none (qs := as.refs) (fun r hr => hfa r (by simp [hr])) (fun r hr hr' => hn6 r hr' r hr rfl)
    rw [ht.2.2.1] at sh2
    obtain ⟨α3, χ3, g4, x3⟩ := visitArms_ok as s2 s' v cty ty c3 g2 hfb hn5 ht.2.2.2 hc.2.2 hcl htl hw
    refine ⟨α3, χ3, ?_, x1.trans (x2.trans x3)⟩
    simpa only [evalArms, sink_nil (shape_nonlinear _ _ htl sh2)] using g4
  | .guarded p g e as, s, s', R, o, σ, α, χ, v, cty, ty, hv, h, hf, hn, ht, hc, hcl, htl, hw => by
    simp only [Arms.refs] at hf hn
    obtain ⟨hn1, hn2, hn3⟩ := List.nodup_append.1 hn
    obtain ⟨hn4, hn5, hn6⟩ := List.nodup_append.1 hn2
    obtain ⟨hn7, hn8, hn9⟩ := List.nodup_append.1 hn5
    obtain ⟨s1, c1, hv⟩ := Option.bind_eq_some_iff.1 hv
    obtain ⟨s2, c2, hv⟩ := Option.bind_eq_some_iff.1 hv
    obtain ⟨s3, c3, c4⟩ := Option.bind_eq_some_iff.1 hv
    rw [← owe_nil (o := o) hw] at h
    obtain ⟨α1, χ1, g1, x1, _⟩ := pushPat_ok p s s1 v cty c1 h (fun r hr => hf r (by simp [hr])) hn1 ht.1 hc.1
      (nonlinear_shape hcl hw)
    have hfa := x1.none (qs := g.refs ++ (e.refs ++ as.refs)) (fun r hr => hf r (List.mem_append_right _ hr))
      (fun r hr hr' => hn3 r hr' r hr rfl)
    obtain ⟨α2, χ2, g2, x2, v2, sh2⟩ := visitE_ok g s1 s2 c2 g1 (fun r hr => hfa r (by simp [hr])) hn4 ht.2.1 hc.2.1
    have hfb := x2.none (qs := e.refs ++ as.refs) (fun r hr => hfa r (List.mem_append_right _ hr))
      (fun r hr hr' => hn6 r hr' r hr rfl)
    obtain ⟨α3, χ3, g3, x3, v3, sh3⟩ := visitE_ok e s2 s3 c3 g2 (fun r hr => hfb r (by simp [hr])) hn7 ht.2.2.1 hc.2.2.1
    have hfd := x3.none (qs := as.refs) (fun r hr => hfb r (by simp [hr])) (fun r hr hr' => hn9 r hr' r hr rfl)
    rw [ht.2.2.2.1] at sh3
    obtain ⟨α4, χ4, g4, x4⟩ := visitArms_ok as s3 s' v cty ty c4 g3 hfd hn8 ht.2.2.2.2 hc.2.2.2 hcl htl hw
    refine ⟨α4, χ4, ?_, x1.trans (x2.trans (x3.trans x4))⟩
    simpa only [evalArms, sink_nil (shape_nonlinear _ _ htl sh3)] using g4
end

/-! ## Units -/

theorem inputs_ok : ∀ (ins : List (Nat × LTy)) {s : St} {R o σ α χ}, Inv Γ R o s σ α χ →
    (∀ i ∈ ins, s.trees (.name i.1) = none ∧ Γ i.1 = i.2) → (ins.map (·.1)).Nodup →
    ∃ α', Inv Γ R o (pushInputs ins s) (evalInputs ins σ) α' χ ∧
      ∀ r, (∀ i ∈ ins, r ≠ .name i.1) → (pushInputs ins s).trees r = s.trees r
  | [], s, R, o, σ, α, χ, h, _, _ => ⟨α, h, fun _ _ => rfl⟩
  | (n, t) :: ins, s, R, o, σ, α, χ, h, hf, hn => by
    obtain ⟨hf0, rfl⟩ : s.trees (.name n) = none ∧ Γ n = t := hf (n, t) (by simp)
    simp only [List.map_cons, List.nodup_cons, List.mem_map, not_exists, not_and] at hn
    obtain ⟨α1, g1⟩ := (h.make (Γ n)).pushName (n := n) hf0 (fresh_shape _ _)
    have htr : ∀ r, r ≠ .name n → (s.push (.name n) (Γ n)).trees r = s.trees r := fun r hr => by
      simp [St.push, St.insert, hr]
    obtain ⟨α2, g2, h2⟩ := inputs_ok ins g1 (fun i hi => ⟨by
      rw [htr _ (by simpa using fun e => hn.1 i hi e)]
      exact (hf i (by simp [hi])).1, (hf i (by simp [hi])).2⟩) hn.2
    refine ⟨α2, g2, fun r hr => ?_⟩
    simp only [pushInputs]
    rw [h2 r fun i hi => hr i (by simp [hi]), htr r (hr (n, Γ n) (by simp))]

theorem init_inv : Inv Γ (fun _ _ => False) (fun _ => 0) ⟨fun _ => none, [], fun _ => false, 0⟩
    ⟨0, fun _ => .none, []⟩ (fun _ => none) (fun _ => .none) := by
  constructor <;> simp [Val.wires]

theorem checkTree_leaves_aux (u : Nat → Bool) : ∀ T : Tree, checkTree u T = true → ∀ a ∈ T.leaves, u a = true := by
  intro T
  induction T using Tree.rec (motive_2 := fun ts => checkTrees u ts = true → ∀ a ∈ leavesAll ts, u a = true) with
  | free => simp [Tree.leaves]
  | leaf a => simp [Tree.leaves, checkTree]
  | node ts ih => simpa [Tree.leaves, checkTree] using ih
  | view t ih => simp [Tree.leaves]
  | nil => rename_i a ha; simp [leavesAll] at ha
  | cons t ts h1 h2 =>
    rename_i h a ha
    simp only [checkTrees, Bool.and_eq_true] at h
    simp only [leavesAll, List.mem_append] at ha
    exact ha.elim (h1 h.1 a) (h2 h.2 a)

/-- The numbers and names a unit introduces are distinct, and inputs are among the names. -/
def DistinctRefs (inputs : List (Nat × LTy)) (body : Expr) : Prop :=
  (inputs.map (fun i => Ref.name i.1) ++ body.refs).Nodup

/-- **C17**: if a unit passes the check then every wire in it — of a parameter, a declaration or the
result of a call — is connected exactly once: to a parameter of a unit that is called, by `set`, to a
declared name, or to the output.

The types are those of a unit that passed the type check.  `Careful` leaves out the five gaps of the check;
see the counterexamples below, which are what is missing for the full property. -/
theorem C17_exactly_once_partial (Γ : Nat → LTy) (inputs : List (Nat × LTy)) (body : Expr)
    (hdist : DistinctRefs inputs body) (hin : ∀ i ∈ inputs, Γ i.1 = i.2) (ht : body.Typed Γ)
    (hcare : body.Careful) (hcheck : checkUnit inputs body = true) : EachWireOnce inputs body := by
  obtain ⟨hn1, hn2, hn3⟩ := List.nodup_append.1 hdist
  obtain ⟨α1, g1, hx1⟩ := inputs_ok inputs (init_inv (Γ := Γ)) (fun i hi => ⟨rfl, hin i hi⟩) (by
    rw [show inputs.map (fun i => Ref.name i.1) = (inputs.map (·.1)).map Ref.name by simp] at hn1
    exact (List.Pairwise.of_map (S := (· ≠ ·)) Ref.name (fun a b h e => h (by rw [e])) hn1))
  simp only [checkUnit] at hcheck
  split at hcheck
  · simp at hcheck
  · next s hs =>
    obtain ⟨s1, c1, c2⟩ := Option.bind_eq_some_iff.1 hs
    have hf : ∀ r ∈ body.refs, (pushInputs inputs ⟨fun _ => none, [], fun _ => false, 0⟩).trees r = none := by
      intro r hr
      rw [hx1 r]
      intro i hi e
      exact hn3 (.name i.1) (List.mem_map.2 ⟨i, hi, rfl⟩) r hr e.symm
    obtain ⟨α2, χ2, g2, x2, v2, sh2⟩ := visitE_ok body _ s1 c1 g1 hf hn2 ht hcare
    have g3 := (g2.consume c2 (fun a => id)).1
    rw [v2] at g3
    have g4 := g3.sink
    intro t htn
    have hc := g4.count t htn
    have hlive : ∀ n, live α2 s.used n t = 0 := by
      intro n
      induction n with
      | zero => rfl
      | succ n ih =>
        simp only [live, ih, Nat.zero_add]
        rw [if_neg]
        rintro ⟨ha, hu⟩
        obtain ⟨r, T, hk, hT, hl⟩ := g4.reach n t ha hu
        have := List.all_eq_true.1 hcheck r hk
        simp only [hT] at this
        have := checkTree_leaves_aux s.used T this n hl
        simp [this] at hu
    rw [hlive] at hc
    simpa [runUnit] using hc

/-! ## A unit that passes -/

/-- `entity e(p: (inv bool, inv bool), q: [inv bool; 2]) -> inv bool {
      decl d;
      let (a, b) = p;
      set a = f(&q);
      set q[0] = f();
      let d = (q[1], h(b));
      assert f();
      match f() { x => { set d.0 = x; } };
      d.1
    }` -/
def exampleUnit : List (Nat × LTy) × Expr :=
  ([(0, .node [.wire, .wire]), (1, .node [.wire, .wire])],
   .block 0 .wire
    (.decl 2 (.node [.wire, .wire])
    (.let_ (.tuple [.bind 1 3 .wire false, .bind 2 4 .wire false]) (.ident 3 (.node [.wire, .wire]) 0)
    (.set (.ident 4 .wire 3) (.call 5 .copy false (.cons (.view 6 (.view (.node [.wire, .wire]))
        (.ident 7 (.node [.wire, .wire]) 1)) .nil))
    (.set (.index 8 .wire (.ident 9 (.node [.wire, .wire]) 1) (some 0)) (.call 10 .copy false .nil)
    (.let_ (.bind 11 2 (.node [.wire, .wire]) true)
      (.tuple 12 (.node [.wire, .wire]) (.cons (.index 13 .wire (.ident 14 (.node [.wire, .wire]) 1) (some 1))
        (.cons (.call 15 .wire false (.cons (.ident 16 .wire 4) .nil)) .nil)))
    (.assert (.call 17 .copy false .nil)
    (.expr (.mtch 18 (.node []) (.call 19 .copy false .nil)
      (.arm (.bind 20 5 .copy false) (.blockUnit 21 (.node [])
        (.set (.field 22 .wire (.ident 23 (.node [.wire, .wire]) 2) 0) (.ident 24 .copy 5) .nil)) .nil))
    .nil)))))))
    (.field 25 .wire (.ident 26 (.node [.wire, .wire]) 2) 1))

/-- Types of the names in the example. -/
def exampleTypes : Nat → LTy
  | 0 | 1 | 2 => .node [.wire, .wire]
  | 3 | 4 => .wire
  | _ => .copy

example : EachWireOnce exampleUnit.1 exampleUnit.2 := by
  refine C17_exactly_once_partial exampleTypes _ _ ?_ ?_ ?_ ?_ ?_
  · unfold DistinctRefs; decide
  · simp [exampleUnit, exampleTypes]
  · simp [exampleUnit, exampleTypes, Expr.Typed, Exprs.Typed, Stmts.Typed, Arms.Typed, Pat.Typed, patsTyped, Expr.ty,
      Exprs.tys, LTy.linear, LTy.member, anyLinear]
  · simp [exampleUnit, Expr.Careful, Exprs.Careful, Stmts.Careful, Arms.Careful, Pat.Careful, patsCareful, Expr.ty,
      Expr.Plain, Exprs.Plain, LTy.linear, anyLinear]
  · decide +kernel

/-- The example has seven wires. -/
example : (runUnit exampleUnit.1 exampleUnit.2).next = 7 := by decide

/-- Without the last `set` the check rejects the unit; with a second `set` too. -/
example : checkUnit [(0, .wire)] (.blockUnit 0 (.node []) .nil) = false ∧
    checkUnit [(0, .wire)] (.blockUnit 0 (.node []) (.set (.ident 1 .wire 0) (.call 2 .copy false .nil) .nil)) = true ∧
    checkUnit [(0, .wire)] (.blockUnit 0 (.node []) (.set (.ident 1 .wire 0) (.call 2 .copy false .nil)
      (.set (.ident 3 .wire 0) (.call 4 .copy false .nil) .nil))) = false := by decide

/-! ## Units that pass although wires are not connected once -/

/-- A well typed unit that passes the check. -/
structure Passes (Γ : Nat → LTy) (inputs : List (Nat × LTy)) (body : Expr) : Prop where
  distinct : DistinctRefs inputs body
  inputs_typed : ∀ i ∈ inputs, Γ i.1 = i.2
  typed : body.Typed Γ
  check : checkUnit inputs body = true

/-- A match does not consume what is matched on:
`entity e(p: inv bool) { match p { q => { set q = f(); } } set p = f(); }` passes, and connects `p` twice. -/
theorem C17_counterexample_match : ∃ Γ inputs body, Passes Γ inputs body ∧
    (runUnit inputs body).sinks.count 0 = 2 :=
  ⟨fun n => if n < 2 then .wire else .copy, [(0, .wire)],
    .blockUnit 0 (.node []) (.expr (.mtch 1 (.node []) (.ident 2 .wire 0)
      (.arm (.bind 3 1 .wire false) (.blockUnit 4 (.node [])
        (.set (.ident 5 .wire 1) (.call 6 .copy false .nil) .nil)) .nil))
      (.set (.ident 7 .wire 0) (.call 8 .copy false .nil) .nil)),
    ⟨by unfold DistinctRefs; decide, by simp, by
      simp [Expr.Typed, Exprs.Typed, Stmts.Typed, Arms.Typed, Pat.Typed, Expr.ty], by decide⟩, by decide⟩

/-- A range consumes all of the array:
`entity e(p: [inv bool; 2]) { let q = p[0..1]; set q[0] = f(); }` passes, and never connects `p[1]`. -/
theorem C17_counterexample_range : ∃ Γ inputs body, Passes Γ inputs body ∧ (runUnit inputs body).next = 2 ∧
    (runUnit inputs body).sinks.count 1 = 0 :=
  ⟨fun n => if n = 0 then .node [.wire, .wire] else .node [.wire], [(0, .node [.wire, .wire])],
    .blockUnit 0 (.node []) (.let_ (.bind 1 1 (.node [.wire]) false)
      (.range 2 (.node [.wire]) (.ident 3 (.node [.wire, .wire]) 0) 0 1)
      (.set (.index 4 .wire (.ident 5 (.node [.wire]) 1) (some 0)) (.call 6 .copy false .nil) .nil)),
    ⟨by unfold DistinctRefs; decide, by simp, by
      simp [Expr.Typed, Exprs.Typed, Stmts.Typed, Pat.Typed, Expr.ty, LTy.linear, anyLinear, LTy.member],
      by decide⟩, by decide, by decide⟩

/-- Assertions are not looked at: `entity e(p: inv bool) { assert inst f(p); set p = f(); }` passes, and
connects `p` twice. -/
theorem C17_counterexample_assert : ∃ Γ inputs body, Passes Γ inputs body ∧
    (runUnit inputs body).sinks.count 0 = 2 :=
  ⟨fun n => if n < 1 then .wire else .copy, [(0, .wire)],
    .blockUnit 0 (.node []) (.assert (.call 1 .copy false (.cons (.ident 2 .wire 0) .nil))
      (.set (.ident 3 .wire 0) (.call 4 .copy false .nil) .nil)),
    ⟨by unfold DistinctRefs; decide, by simp, by
      simp [Expr.Typed, Exprs.Typed, Stmts.Typed], by decide⟩, by decide⟩

/-- Names bound with `@` count as consumed: `entity e(p: inv bool) { let q @ r = p; }` passes, and never
connects `p`. -/
theorem C17_counterexample_at : ∃ Γ inputs body, Passes Γ inputs body ∧ (runUnit inputs body).next = 1 ∧
    (runUnit inputs body).sinks = [] :=
  ⟨fun n => if n < 3 then .wire else .copy, [(0, .wire)],
    .blockUnit 0 (.node []) (.let_ (.at_ 1 1 .wire false (.bind 2 2 .wire false)) (.ident 3 .wire 0) .nil),
    ⟨by unfold DistinctRefs; decide, by simp, by
      simp [Expr.Typed, Stmts.Typed, Pat.Typed, Expr.ty], by decide⟩, by decide, by decide⟩

/-- The arms of a match are not consumed: `entity e(p: inv bool) -> inv bool { set p = f(); match f() { _ => p } }`
passes, and connects `p` to the output as well. -/
theorem C17_counterexample_arm : ∃ Γ inputs body, Passes Γ inputs body ∧
    (runUnit inputs body).sinks.count 0 = 2 :=
  ⟨fun n => if n < 1 then .wire else .copy, [(0, .wire)],
    .block 0 .wire (.set (.ident 1 .wire 0) (.call 2 .copy false .nil) .nil)
      (.mtch 3 .wire (.call 4 .copy false .nil) (.arm (.bind 5 1 .copy false) (.ident 6 .wire 0) .nil)),
    ⟨by unfold DistinctRefs; decide, by simp, by
      simp [Expr.Typed, Exprs.Typed, Stmts.Typed, Arms.Typed, Pat.Typed, Expr.ty], by decide⟩, by decide⟩

end Spade.Linear

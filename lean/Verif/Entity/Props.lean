import Verif.Entity.Init
/-!
# Entities keep their meaning

The value of every variable, register and output of an entity at every instant is the one the source
says, in every history of the generated hardware.
-/
namespace Spade.Entity
open Spade.Verilog Spade.Codegen Spade.Lower Spade.Expr
open Spade.Match (Val Matches)

variable {P : Prog} {D : Ents} {nids enids : Nat → Nat}

/-- A history of the hardware generated for an entity. -/
structure Hist (P : Prog) (nids : Nat → Nat) (HE : Nat → Option HEnt) (E : Ent) (nid : Nat)
    (ρ : Nat → Env) (xs : Nat → Nat → Nat → Bool) (ins : Inputs) : Prop where
  fits : ∀ t n, Fits E.types (ρ t) n
  holds : ∃ h, lowerEnt E nid = some h ∧ ∀ i ∈ h.items, EHolds (lowerProg P nids) HE E.types ρ xs i
  inputs : ∀ (t k : Nat) v p, ins t k = some v → E.params[k]? = some p → Enc p.2 v (ρ t (fwd p.1))

theorem lowerEStms_mem {s : EStm} : ∀ {ss : List EStm} {nid : Nat} {r : List EItem × Nat},
    lowerEStms ss nid = some r → s ∈ ss →
    ∃ m a, lowerEStm s m = some a ∧ ∀ i ∈ a.1, i ∈ r.1
  | [], _, _, _, hm => by cases hm
  | s' :: ss, nid, r, hl, hm => by
    simp only [lowerEStms, Option.bind_eq_bind, Option.bind_eq_some_iff, Option.some.injEq] at hl
    obtain ⟨a, ha, b, hb, rfl⟩ := hl
    rcases List.mem_cons.1 hm with rfl | hm
    · exact ⟨nid, a, ha, fun i hi => List.mem_append_left _ hi⟩
    · obtain ⟨m, c, hc, hi⟩ := lowerEStms_mem hb hm
      exact ⟨m, c, hc, fun i h => List.mem_append_right _ (hi i h)⟩

/-- Every statement of an entity has been lowered and holds. -/
theorem Hist.stm {HE : Nat → Option HEnt} {E : Ent} {nid : Nat} {ρ : Nat → Env}
    {xs : Nat → Nat → Nat → Bool} {ins : Inputs} (h : Hist P nids HE E nid ρ xs ins) {s : EStm}
    (hs : s ∈ E.body) : ∃ m a, lowerEStm s m = some a ∧
    ∀ i ∈ a.1, EHolds (lowerProg P nids) HE E.types ρ xs i := by
  obtain ⟨u, hu, hi⟩ := h.holds
  simp only [lowerEnt, Option.bind_eq_bind, Option.bind_eq_some_iff, Option.some.injEq] at hu
  obtain ⟨a, ha, b, hb, rfl⟩ := hu
  obtain ⟨m, c, hc, hm⟩ := lowerEStms_mem ha hs
  exact ⟨m, c, hc, fun i h => hi i (List.mem_append_left _ (hm i h))⟩

theorem item_at {H : Nat → Option HUnit} {HE : Nat → Option HEnt} {Γ : Nat → MTy} {ρ : Nat → Env}
    {xs : Nat → Nat → Nat → Bool} {i : Item} (h : EHolds H HE Γ ρ xs (.item i)) (t : Nat) :
    ItemHolds H Γ (ρ t) (xs t) i := by
  cases h with
  | item h => exact h t

/-- The signal of a register, and of everything it depends on. -/
structure RegHist (P : Prog) (nids : Nat → Nat) (Γ : Nat → MTy) (ρ : Nat → Env)
    (xs : Nat → Nat → Nat → Bool) (r : Reg) : Prop where
  ty : Γ r.p.name = r.p.ty
  clock : ∃ m a, lowerE r.clock m = some a ∧ ∀ t, ∀ i ∈ a.1, ItemHolds (lowerProg P nids) Γ (ρ t) (xs t) i
  value : ∃ m a, lowerE r.value m = some a ∧ ∀ t, ∀ i ∈ a.1, ItemHolds (lowerProg P nids) Γ (ρ t) (xs t) i
  reset : ∀ c e, r.reset = some (c, e) →
    (∃ m a, lowerE c m = some a ∧ ∀ t, ∀ i ∈ a.1, ItemHolds (lowerProg P nids) Γ (ρ t) (xs t) i) ∧
    (∃ m a, lowerE e m = some a ∧ ∀ t, ∀ i ∈ a.1, ItemHolds (lowerProg P nids) Γ (ρ t) (xs t) i)
  initial : ∀ e, r.initial = some e → ∃ m a ss v str, lowerE e m = some a ∧ stmtsOf a.1 = some ss ∧
    evalStatements ss = some v ∧ v.asString = some str ∧ Fills str (ρ 0 (fwd r.p.name))
  edge : ∀ t, posedge r.clock.variable (ρ t) (ρ (t + 1)) → ρ (t + 1) (fwd r.p.name) =
    regNext (ρ t) (r.reset.map fun x => (x.1.variable, x.2.variable)) r.value.variable
  hold : ∀ t, ¬ posedge r.clock.variable (ρ t) (ρ (t + 1)) →
    ρ (t + 1) (fwd r.p.name) = ρ t (fwd r.p.name)
  pat : ∃ m l, lowerPat r.p r.p.name m = some l ∧
    ∀ t, ∀ s ∈ l.1, ItemHolds (lowerProg P nids) Γ (ρ t) (xs t) (.stmt s)

theorem Hist.reg {HE : Nat → Option HEnt} {E : Ent} {nid : Nat} {ρ : Nat → Env}
    {xs : Nat → Nat → Nat → Bool} {ins : Inputs} (h : Hist P nids HE E nid ρ xs ins) {r : Reg}
    (hs : .reg r ∈ E.body) : RegHist P nids E.types ρ xs r := by
  obtain ⟨m, a, ha, hi⟩ := h.stm hs
  simp only [lowerEStm, Option.bind_eq_bind, Option.bind_eq_some_iff, Option.some.injEq] at ha
  obtain ⟨c, hc, tr, htr, rv, hrv, i0, hi0, v, hv, ss, hss, l, hl, rfl⟩ := ha
  simp only [List.map_append, List.mem_append, or_imp, forall_and, List.mem_map, forall_exists_index,
    and_imp, forall_apply_eq_imp_iff₂, List.mem_singleton, forall_eq] at hi
  obtain ⟨⟨⟨⟨⟨⟨k1, k2⟩, k3⟩, k4⟩, k5⟩, k6⟩, k7⟩ := hi
  cases k6 with
  | reg g1 g2 g3 g4 =>
  refine ⟨g1, ⟨_, c, hc, fun t i h => item_at (k1 i h) t⟩, ⟨_, v, hv, fun t i h => item_at (k5 i h) t⟩,
    ?_, ?_, g3, g4, ⟨_, l, hl, fun t s hs => item_at (k7 s hs) t⟩⟩
  · intro c' e' hr
    rw [hr] at htr hrv
    exact ⟨⟨_, tr, htr, fun t i h => item_at (k2 i h) t⟩, ⟨_, rv, hrv, fun t i h => item_at (k3 i h) t⟩⟩
  · intro e he
    rw [he] at hss
    simp only [lowerInitial, Option.ite_none_right_eq_some, Option.bind_eq_bind,
      Option.bind_eq_some_iff, Option.some.injEq] at hss
    obtain ⟨_, a, ha, ss', hss', rfl⟩ := hss
    obtain ⟨w, str, w1, w2, w3⟩ := g2 ss' rfl
    exact ⟨_, a, ss', w, str, ha, hss', w1, w2, w3⟩

theorem lowerEs_get : ∀ {es : List Expr} {nid : Nat} {r : List Item × Nat} {k : Nat} {e : Expr},
    lowerEs es nid = some r → es[k]? = some e → ∃ m a, lowerE e m = some a ∧ ∀ i ∈ a.1, i ∈ r.1
  | [], _, _, _, _, _, h => by simp at h
  | e' :: es, nid, r, k, e, hl, hk => by
    simp only [lowerEs, Option.bind_eq_bind, Option.bind_eq_some_iff, Option.some.injEq] at hl
    obtain ⟨a, ha, b, hb, rfl⟩ := hl
    cases k with
    | zero =>
      simp only [List.getElem?_cons_zero, Option.some.injEq] at hk
      subst hk
      exact ⟨nid, a, ha, fun i hi => List.mem_append_left _ hi⟩
    | succ k =>
      obtain ⟨m, c, hc, hi⟩ := lowerEs_get hb (by simpa using hk)
      exact ⟨m, c, hc, fun i h => List.mem_append_right _ (hi i h)⟩

theorem exprs_ok_get {sig : Nat → Option (List MTy × MTy)} {Γ : Nat → MTy} : ∀ {es : List Expr} {k : Nat}
    {e : Expr}, Exprs.Ok sig Γ es → es[k]? = some e → e.Ok sig Γ
  | [], _, _, _, h => by simp at h
  | e' :: es, k, e, ho, hk => by
    simp only [Exprs.Ok] at ho
    cases k with
    | zero =>
      simp only [List.getElem?_cons_zero, Option.some.injEq] at hk
      subst hk
      exact ho.1
    | succ k => exact exprs_ok_get ho.2 (by simpa using hk)

/-- The lowered statements of an expression hold at all times. -/
def Drives (P : Prog) (nids : Nat → Nat) (Γ : Nat → MTy) (ρ : Nat → Env)
    (xs : Nat → Nat → Nat → Bool) (e : Expr) : Prop :=
  ∃ m a, lowerE e m = some a ∧ ∀ t, ∀ i ∈ a.1, ItemHolds (lowerProg P nids) Γ (ρ t) (xs t) i

/-- An instance of an entity is a history of that entity, with its inputs connected. -/
theorem Hist.inst {HE : Nat → Option HEnt} {E : Ent} {nid : Nat} {ρ : Nat → Env}
    {xs : Nat → Nat → Nat → Bool} {ins : Inputs} (h : Hist P nids HE E nid ρ xs ins)
    {id : Nat} {ty : MTy} {p : LPat} {u : Nat} {args : List Expr}
    (hs : .inst id ty p u args ∈ E.body) :
    E.types id = ty ∧ (∀ (k : Nat) e, args[k]? = some e → Drives P nids E.types ρ xs e) ∧
    (∃ m l, lower p id p.ty m = some l ∧
      ∀ t, ∀ s ∈ l.1, ItemHolds (lowerProg P nids) E.types (ρ t) (xs t) (.stmt s)) ∧
    EProduces (lowerProg P nids) HE u (fun t => (args.map Expr.variable).map fun o => ρ t (fwd o))
      (fun t => ρ t (fwd id)) := by
  obtain ⟨m, a, ha, hi⟩ := h.stm hs
  simp only [lowerEStm, Option.bind_eq_bind, Option.bind_eq_some_iff, Option.some.injEq] at ha
  obtain ⟨c, hc, l, hl, rfl⟩ := ha
  simp only [List.mem_append, or_imp, forall_and, List.mem_map, forall_exists_index,
    and_imp, forall_apply_eq_imp_iff₂, List.mem_singleton, forall_eq] at hi
  obtain ⟨⟨k1, k2⟩, k3⟩ := hi
  cases k2 with
  | inst g1 g2 =>
  refine ⟨g1, fun k e hk => ?_, ⟨_, l, hl, fun t s hs => item_at (k3 s hs) t⟩, g2⟩
  obtain ⟨m, b, hb, hm⟩ := lowerEs_get hc hk
  exact ⟨m, b, hb, fun t i h => item_at (k1 i (hm i h)) t⟩

/-- The signal of a memory, and of everything it depends on. -/
structure MemHist (P : Prog) (nids : Nat → Nat) (Γ : Nat → MTy) (ρ : Nat → Env)
    (xs : Nat → Nat → Nat → Bool) (m : Mem) : Prop where
  alias : ∀ t, ρ t (fwd m.name) = ρ t (fwd m.id)
  clock : Drives P nids Γ ρ xs m.clock
  writes : Drives P nids Γ ρ xs m.writes
  initial : ∀ e, m.initial = some e → ∃ k ss, lowerMemInit (some e) k = some ss ∧
    ∀ sss, ss.1 = some sss → ∀ a s, sss[a]? = some s → ∃ v str, evalStatements s = some v ∧
        v.asString = some str ∧ (a < m.len → Fills str (word m.elem.size (ρ 0 (fwd m.id)) a))
  edge : ∃ ps, memPorts (.memory m.elem m.len) (Γ m.writes.variable) (fwd m.writes.variable) = some ps ∧
    ∀ t, ∃ f, storeAll (ρ t) (xs t m.id) m.elem.size ps (word m.elem.size (ρ t (fwd m.id))) = some f ∧
      (posedge m.clock.variable (ρ t) (ρ (t + 1)) → ∀ a, a < m.len →
        word m.elem.size (ρ (t + 1) (fwd m.id)) a = f a)
  hold : ∀ t, ¬ posedge m.clock.variable (ρ t) (ρ (t + 1)) → ρ (t + 1) (fwd m.id) = ρ t (fwd m.id)

theorem Hist.mem {HE : Nat → Option HEnt} {E : Ent} {nid : Nat} {ρ : Nat → Env}
    {xs : Nat → Nat → Nat → Bool} {ins : Inputs} (h : Hist P nids HE E nid ρ xs ins) {m : Mem}
    (hs : .mem m ∈ E.body) : MemHist P nids E.types ρ xs m := by
  obtain ⟨k, a, ha, hi⟩ := h.stm hs
  simp only [lowerEStm, Option.bind_eq_bind, Option.bind_eq_some_iff, Option.some.injEq] at ha
  obtain ⟨c, hc, w, hw, i0, hi0, ss, hss, rfl⟩ := ha
  simp only [List.map_append, List.mem_append, or_imp, forall_and, List.mem_map, forall_exists_index,
    and_imp, forall_apply_eq_imp_iff₂, List.mem_cons, List.not_mem_nil, or_false, forall_eq] at hi
  obtain ⟨⟨⟨k1, k2⟩, k3⟩, k4, k5⟩ := hi
  cases k4 with
  | mem g1 g2 g3 g4 g5 =>
  refine ⟨fun t => ?_, ⟨_, c, hc, fun t i h => item_at (k1 i h) t⟩,
    ⟨_, w, hw, fun t i h => item_at (k2 i h) t⟩, ?_, ⟨_, g2, g4⟩, g5⟩
  · have := item_at k5 t
    cases this with
    | stmt h1 =>
      refine holds_alias h1 ?_
      rw [h.fits t m.id, g1]
      rfl
    | undefined _ h2 => exact absurd h2 (by simp [Undefined])
  · intro e he
    rw [he] at hss
    exact ⟨_, ss, hss, g3⟩

/-- A read gives the word of the memory at the address. -/
theorem Hist.read {HE : Nat → Option HEnt} {E : Ent} {nid : Nat} {ρ : Nat → Env}
    {xs : Nat → Nat → Nat → Bool} {ins : Inputs} (h : Hist P nids HE E nid ρ xs ins)
    {id : Nat} {ty : MTy} {p : LPat} {m : Nat} {addr : Expr}
    (hs : .read id ty p m addr ∈ E.body) :
    E.types id = ty ∧ Drives P nids E.types ρ xs addr ∧
    (∃ k l, lower p id p.ty k = some l ∧
      ∀ t, ∀ s ∈ l.1, ItemHolds (lowerProg P nids) E.types (ρ t) (xs t) (.stmt s)) ∧
    ∃ len, E.types m = .memory ty len ∧ ∀ t, toNat (ρ t (fwd addr.variable)) < len →
      ρ t (fwd id) = word ty.size (ρ t (fwd m)) (toNat (ρ t (fwd addr.variable))) := by
  obtain ⟨k, a, ha, hi⟩ := h.stm hs
  simp only [lowerEStm, Option.bind_eq_bind, Option.bind_eq_some_iff, Option.some.injEq] at ha
  obtain ⟨c, hc, l, hl, rfl⟩ := ha
  simp only [List.mem_append, or_imp, forall_and, List.mem_map, forall_exists_index,
    and_imp, forall_apply_eq_imp_iff₂, List.mem_singleton, forall_eq] at hi
  obtain ⟨⟨k1, k2⟩, k3⟩ := hi
  cases k2 with
  | read g1 g2 g3 =>
  exact ⟨g1, ⟨_, c, hc, fun t i h => item_at (k1 i h) t⟩, ⟨_, l, hl, fun t s hs => item_at (k3 s hs) t⟩,
    _, g2, fun t => (g3 t).2⟩

/-- The write ports of a memory store what they are meant to. -/
theorem ports_enc {Γ : Nat → MTy} {sig : Nat → Option (List MTy × MTy)} {m : Mem} {ρ : Env}
    {xs : Nat → Bool} {ws : List Val} {ps : List MemPort} {f g : Nat → Bits} (ho : m.Ok sig Γ)
    (hty : Γ m.writes.variable = m.portsTy) (he : Enc m.portsTy (.tup ws) (ρ (fwd m.writes.variable)))
    (hps : memPorts (.memory m.elem m.len) (Γ m.writes.variable) (fwd m.writes.variable) = some ps)
    (hf : storeAll ρ xs m.elem.size ps g = some f) (a : Nat) :
    (lastWrite ws a = none → f a = g a) ∧ ∀ v, lastWrite ws a = some v → Enc m.elem v (f a) := by
  have hlen := enc_length he
  generalize hb : ρ (fwd m.writes.variable) = b at he hlen
  cases he with
  | array he =>
  obtain ⟨cs, c1, rfl, c3, c4⟩ := ports_last he
  have h32 : (ρ (fwd m.writes.variable)).length ≤ 2 ^ 32 := by
    rw [hb, hlen]; exact ho.size
  obtain ⟨ps', q1, q2⟩ := memPorts_store (xs := xs) (t := m.elem) (t' := .bool) ho.width ho.elem ho.len
    h32 hb c3
  rw [c1] at q1
  rw [hty] at hps
  have := Option.some.inj (hps.symm.trans q1)
  subst this
  have := Option.some.inj (hf.symm.trans (q2 g))
  subst this
  exact c4 g a

theorem bind_binds {H : Nat → Option HUnit} {Γ : Nat → MTy} {ρ : Env} {xs : Nat → Nat → Bool} {p : LPat}
    {x nid : Nat} {l : List Stmt × Nat} {v w : Val} {n : Nat} {ty : MTy} (hx : Γ x = p.ty)
    (he : Enc p.ty v (ρ (fwd x))) (hp : PatOk p) (hl : lower p x p.ty nid = some l)
    (hs : ∀ s ∈ l.1, ItemHolds H Γ ρ xs (.stmt s)) (hm : Matches p.src v)
    (hb : (n, ty, w) ∈ p.binds v) : Enc (Γ n) w (ρ (fwd n)) := by
  have := C05_let_partial Γ ρ xs p x nid l v hl (lower_split hx hp hl hs).1 hx he hp.1 hp.2.1 hp.2.2
    hm n ty w hb
  rw [this.1]
  exact this.2

theorem enc_bool {b : Bool} {bs : Bits} (h : Enc .bool (.bool b) bs) : bs = [b] := by
  cases h; rfl

mutual
theorem known_enc (hP : P.Ok) (hD : D.Ok P) : ∀ {u : Nat} {ins : Inputs} {t n : Nat} {v : Val},
    Known P D u ins t n v → ∀ {E : Ent} {nid : Nat} {ρ : Nat → Env} {xs : Nat → Nat → Nat → Bool},
    D u = some E → Hist P nids (lowerEnts D enids) E nid ρ xs ins → Enc (E.types n) v (ρ t (fwd n))
  | u, ins, t, _, v, .input (p := p) h1 h2 h3, E, nid, ρ, xs, hu, h => by
    have hE := Option.some.inj (hu.symm.trans h1)
    subst hE
    rw [(hD _ _ h1).1 p (List.mem_of_getElem? h2)]
    exact h.inputs t _ v p h3 h2
  | u, ins, t, n, w, .bind (p := p) (e := e) h1 h2 h3 h4 h5, E, nid, ρ, xs, hu, h => by
    have hE := Option.some.inj (hu.symm.trans h1)
    subst hE
    have ho := (hD _ _ h1).2.1 _ h2
    simp only [EStm.Ok, Stms.Ok, and_true] at ho
    obtain ⟨m, a, ha, hi⟩ := h.stm h2
    simp only [lowerEStm, lowerStms, Option.bind_eq_bind, Option.bind_eq_some_iff,
      Option.some.injEq] at ha
    obtain ⟨b, ⟨c, hc, l, hl, d, rfl, rfl⟩, rfl⟩ := ha
    simp only [List.append_nil, List.map_append, List.mem_append, or_imp, forall_and, List.mem_map,
      forall_exists_index, and_imp, forall_apply_eq_imp_iff₂] at hi
    have hdr : Drives P nids E.types ρ xs e := ⟨_, c, hc, fun t i h => item_at (hi.1 i h) t⟩
    have e1 := gives_enc hP hD h3 h1 h hdr ho.2.2
    have t1 := variable_ty e ho.2.2 hc (fun i hm => item_at (hi.1 i hm) t)
    rw [← ho.1] at e1 t1
    exact bind_binds t1 e1 ho.2.1 hl (fun s hs => item_at (hi.2 s hs) t) h4 h5
  | u, ins, t, n, w, .reg (r := r) h1 h2 h3 h4 h5, E, nid, ρ, xs, hu, h => by
    have hE := Option.some.inj (hu.symm.trans h1)
    subst hE
    have ho := (hD _ _ h1).2.1 _ h2
    have hr := h.reg h2
    have e1 := state_enc hP hD h3 h1 h h2
    obtain ⟨m, l, hl, hls⟩ := hr.pat
    have := lowerPat_binds r.p r.p.name m l _ hr.ty e1 hr.ty e1 ho.pat.1 ho.pat.2.1 ho.pat.2.2 hl
      (lowerPat_defined r.p r.p.name m l hr.ty ho.pat.1 hl (hls t)) h4 n _ w h5
    rw [this.1]
    exact this.2
  | u, ins, t, n, w, .inst (p := p) (args := args) (E' := E') h1 h2 h3 h4 h5 h6 h7, E, nid, ρ, xs, hu,
      h => by
    have hE := Option.some.inj (hu.symm.trans h1)
    subst hE
    obtain ⟨hp, hpt, hargs, hsig⟩ := (hD _ _ h1).2.1 _ h2
    obtain ⟨hts, hty⟩ := hsig _ h3
    obtain ⟨g1, g2, ⟨m, l, hl, hls⟩, g4⟩ := h.inst h2
    cases g4 with
    | mk k1 k2 k3 k4 k5 =>
    rename_i h' ρ' xs'
    simp only [lowerEnts, h3, Option.bind_some] at k1
    have k1' := k1
    simp only [lowerEnt, Option.bind_eq_bind, Option.bind_eq_some_iff, Option.some.injEq] at k1'
    obtain ⟨a, ha, b, hb, rfl⟩ := k1'
    have hist : Hist P nids (lowerEnts D enids) E' _ ρ' xs' _ := ⟨k2, ⟨_, k1, k4⟩, fun s k x q hx hq => by
      have hlen := congrArg List.length hts
      simp only [List.length_map] at hlen
      obtain ⟨e, he⟩ : ∃ e, args[k]? = some e := by
        have : k < E'.params.length := by
          rcases Nat.lt_or_ge k E'.params.length with h | h
          · exact h
          · rw [List.getElem?_eq_none h] at hq; cases hq
        exact ⟨args[k]'(by omega), List.getElem?_eq_getElem _⟩
      have e1 := gives_enc hP hD (h4 s k e x he hx) h1 h (g2 k e he) (exprs_ok_get hargs he)
      have hk := congrArg (fun l => l[k]?) (k3 s)
      simp only [List.getElem?_map, he, hq, Option.map_some, Option.some.injEq] at hk
      have ht := congrArg (fun l => l[k]?) hts
      simp only [List.getElem?_map, he, hq, Option.map_some, Option.some.injEq] at ht
      rw [← hk, ← ht]
      exact e1⟩
    have hdr : Drives P nids E'.types ρ' xs' E'.result :=
      ⟨_, b, hb, fun t i h => item_at (k4 _ (List.mem_append_right _ (List.mem_map_of_mem h))) t⟩
    have e1 := gives_enc hP hD h5 h3 hist hdr (hD _ _ h3).2.2
    rw [← k5 t, ← hty, ← hpt] at e1
    exact bind_binds (g1.trans hpt.symm) e1 hp hl (hls t) h6 h7
  | u, ins, t, n, w, .read (p := p) (M := M) (a := a) h1 h2 h3 h4 h5 h6 h7 h8, E, nid, ρ, xs, hu, h => by
    have hE := Option.some.inj (hu.symm.trans h1)
    subst hE
    obtain ⟨hp, hpt, _, hao, k, hak, _⟩ := (hD _ _ h1).2.1 _ h2
    obtain ⟨_, hMt⟩ := (hD _ _ h1).2.1 _ h3
    obtain ⟨g1, g2, ⟨m, l, hl, hls⟩, len, g4, g5⟩ := h.read h2
    have e1 := gives_enc hP hD h5 h1 h g2 hao
    rw [hak] at e1
    obtain ⟨q1, _⟩ := enc_nat e1
    have q2 : toNat (ρ t (fwd _)) = a := Int.ofNat.inj q1
    obtain ⟨r1, r2⟩ := cell_enc hP hD h6 h1 h h3
    rw [← h4, hMt, Mem.ty, MTy.memory.injEq] at g4
    have := g5 t
    rw [q2, ← h4, (h.mem h3).alias t, ← g4.1, ← g4.2] at this
    rw [← this r1, g4.1, ← hpt] at r2
    exact bind_binds (g1.trans hpt.symm) r2 hp hl (hls t) h7 h8
theorem gives_enc (hP : P.Ok) (hD : D.Ok P) : ∀ {u : Nat} {ins : Inputs} {t : Nat} {e : Expr} {v : Val},
    Gives P D u ins t e v → ∀ {E : Ent} {nid : Nat} {ρ : Nat → Env} {xs : Nat → Nat → Nat → Bool},
    D u = some E → Hist P nids (lowerEnts D enids) E nid ρ xs ins → Drives P nids E.types ρ xs e →
    e.Ok P.sig E.types → Enc e.ty v (ρ t (fwd e.variable))
  | u, ins, t, e, v, .mk h1 h2, E, nid, ρ, xs, hu, h, ⟨m, a, ha, hi⟩, ho =>
    ev_value hP h1 (h.fits t) ho (fun n w hn => known_enc hP hD (h2 n w hn) hu h) ha (hi t)
theorem state_enc (hP : P.Ok) (hD : D.Ok P) : ∀ {u : Nat} {ins : Inputs} {t : Nat} {r : Reg} {v : Val},
    State P D u ins t r v → ∀ {E : Ent} {nid : Nat} {ρ : Nat → Env} {xs : Nat → Nat → Nat → Bool},
    D u = some E → Hist P nids (lowerEnts D enids) E nid ρ xs ins → .reg r ∈ E.body →
    Enc r.p.ty v (ρ t (fwd r.p.name))
  | u, ins, _, r, v, .initial h1 h2, E, nid, ρ, xs, hu, h, hr => by
    have ho := (hD _ _ hu).2.1 _ hr
    obtain ⟨m, a, ss, V, str, ha, hss, hV, hstr, hfl⟩ := (h.reg hr).initial _ h1
    obtain ⟨f1, f2, f3, f4⟩ := ho.initial _ h1
    obtain ⟨ss', new, newT, V', q1, q2, _, _, _, _, _, q8⟩ := (ev_folds h2 f1 f2 f4 ha).run
    rw [hss] at q1
    cases q1
    have := q2 [] [] [] none
    simp only [List.append_nil, evalStmts] at this
    simp only [evalStatements, this, Option.bind_eq_bind, Option.bind_some, Option.some.injEq] at hV
    subst hV
    obtain ⟨s, hs, he⟩ := q8.str
    rw [hs] at hstr
    cases hstr
    rw [← f3]
    exact he _ hfl
  | u, ins, _, r, v, .tick (t := t) h1 h2 h3 h4, E, nid, ρ, xs, hu, h, hr => by
    have ho := (hD _ _ hu).2.1 _ hr
    have hh := h.reg hr
    have c1 := gives_enc hP hD h2 hu h hh.clock ho.clock.2
    have c2 := gives_enc hP hD h3 hu h hh.clock ho.clock.2
    rw [ho.clock.1] at c1 c2
    have v1 := gives_enc hP hD h4 hu h hh.value ho.value.2
    rw [hh.edge t ⟨enc_bool c1, enc_bool c2⟩, h1]
    rw [ho.value.1] at v1
    exact v1
  | u, ins, _, r, v, .run (t := t) h1 h2 h3 h4 h5, E, nid, ρ, xs, hu, h, hr => by
    have ho := (hD _ _ hu).2.1 _ hr
    have hh := h.reg hr
    have hr' := ho.reset _ _ h1
    have c1 := gives_enc hP hD h2 hu h hh.clock ho.clock.2
    have c2 := gives_enc hP hD h3 hu h hh.clock ho.clock.2
    have c3 := gives_enc hP hD h4 hu h (hh.reset _ _ h1).1 hr'.2.1
    rw [ho.clock.1] at c1 c2
    rw [hr'.1] at c3
    have v1 := gives_enc hP hD h5 hu h hh.value ho.value.2
    rw [hh.edge t ⟨enc_bool c1, enc_bool c2⟩, h1]
    simp only [Option.map_some, regNext, enc_bool c3]
    rw [ho.value.1] at v1
    exact v1
  | u, ins, _, r, v, .reset (t := t) h1 h2 h3 h4 h5, E, nid, ρ, xs, hu, h, hr => by
    have ho := (hD _ _ hu).2.1 _ hr
    have hh := h.reg hr
    have hr' := ho.reset _ _ h1
    have c1 := gives_enc hP hD h2 hu h hh.clock ho.clock.2
    have c2 := gives_enc hP hD h3 hu h hh.clock ho.clock.2
    have c3 := gives_enc hP hD h4 hu h (hh.reset _ _ h1).1 hr'.2.1
    rw [ho.clock.1] at c1 c2
    rw [hr'.1] at c3
    have v1 := gives_enc hP hD h5 hu h (hh.reset _ _ h1).2 hr'.2.2.2
    rw [hh.edge t ⟨enc_bool c1, enc_bool c2⟩, h1]
    simp only [Option.map_some, regNext, enc_bool c3]
    rw [hr'.2.2.1] at v1
    exact v1
  | u, ins, _, r, v, .low (t := t) h1 h2, E, nid, ρ, xs, hu, h, hr => by
    have ho := (hD _ _ hu).2.1 _ hr
    have hh := h.reg hr
    have c1 := gives_enc hP hD h1 hu h hh.clock ho.clock.2
    rw [ho.clock.1] at c1
    rw [hh.hold t (fun hp => by have := hp.2; rw [enc_bool c1] at this; cases this)]
    exact state_enc hP hD h2 hu h hr
  | u, ins, _, r, v, .high (t := t) h1 h2, E, nid, ρ, xs, hu, h, hr => by
    have ho := (hD _ _ hu).2.1 _ hr
    have hh := h.reg hr
    have c1 := gives_enc hP hD h1 hu h hh.clock ho.clock.2
    rw [ho.clock.1] at c1
    rw [hh.hold t (fun hp => by have := hp.1; rw [enc_bool c1] at this; cases this)]
    exact state_enc hP hD h2 hu h hr
theorem cell_enc (hP : P.Ok) (hD : D.Ok P) : ∀ {u : Nat} {ins : Inputs} {t : Nat} {m : Mem} {a : Nat}
    {v : Val}, Cell P D u ins t m a v →
    ∀ {E : Ent} {nid : Nat} {ρ : Nat → Env} {xs : Nat → Nat → Nat → Bool},
    D u = some E → Hist P nids (lowerEnts D enids) E nid ρ xs ins → .mem m ∈ E.body →
    a < m.len ∧ Enc m.elem v (word m.elem.size (ρ t (fwd m.id)) a)
  | u, ins, _, m, a, v, .initial h1 h2 h3, E, nid, ρ, xs, hu, h, hm => by
    have ho := ((hD _ _ hu).2.1 _ hm).1
    obtain ⟨k, ss, hss, hi⟩ := (h.mem hm).initial _ h1
    obtain ⟨f1, f2, f3, f4⟩ := ho.initial _ h1
    obtain ⟨q0, sss, q1, q2, q3⟩ := memInit_literal h2 f1 f2 f4 f3 hss
    have hlt : a < m.len := by
      rw [← q0]
      exact (List.getElem?_eq_some_iff.1 h3).1
    have hget : sss[a]? = some (sss[a]'(by omega)) := List.getElem?_eq_getElem _
    obtain ⟨V, str, w1, w2, w3⟩ := hi sss q1 a _ hget
    obtain ⟨V', str', w1', w2', w3'⟩ := q3 a _ v hget h3
    rw [w1] at w1'
    cases w1'
    rw [w2] at w2'
    cases w2'
    exact ⟨hlt, w3' _ (w3 hlt)⟩
  | u, ins, _, m, a, v, .write (t := t) h1 h2 h3 h4 h5, E, nid, ρ, xs, hu, h, hm => by
    have ho := ((hD _ _ hu).2.1 _ hm).1
    have hh := h.mem hm
    have c1 := gives_enc hP hD h1 hu h hh.clock ho.clock.2
    have c2 := gives_enc hP hD h2 hu h hh.clock ho.clock.2
    rw [ho.clock.1] at c1 c2
    have v1 := gives_enc hP hD h3 hu h hh.writes ho.writes.2
    obtain ⟨k, w, hw, hwi⟩ := hh.writes
    have t1 := variable_ty m.writes ho.writes.2 hw (hwi t)
    rw [ho.writes.1] at v1 t1
    obtain ⟨ps, p1, p2⟩ := hh.edge
    obtain ⟨f, p3, p4⟩ := p2 t
    refine ⟨h5, ?_⟩
    rw [p4 ⟨enc_bool c1, enc_bool c2⟩ a h5]
    exact (ports_enc ho t1 v1 p1 p3 a).2 v h4
  | u, ins, _, m, a, v, .keep (t := t) h3 h4 h5, E, nid, ρ, xs, hu, h, hm => by
    have ho := ((hD _ _ hu).2.1 _ hm).1
    have hh := h.mem hm
    have v1 := gives_enc hP hD h3 hu h hh.writes ho.writes.2
    obtain ⟨k, w, hw, hwi⟩ := hh.writes
    have t1 := variable_ty m.writes ho.writes.2 hw (hwi t)
    rw [ho.writes.1] at v1 t1
    obtain ⟨ps, p1, p2⟩ := hh.edge
    obtain ⟨f, p3, p4⟩ := p2 t
    obtain ⟨r1, r2⟩ := cell_enc hP hD h5 hu h hm
    refine ⟨r1, ?_⟩
    by_cases hp : posedge m.clock.variable (ρ t) (ρ (t + 1))
    · rw [p4 hp a r1, (ports_enc ho t1 v1 p1 p3 a).1 h4]
      exact r2
    · rw [hh.hold t hp]
      exact r2
  | u, ins, _, m, a, v, .low (t := t) h1 h2, E, nid, ρ, xs, hu, h, hm => by
    have ho := ((hD _ _ hu).2.1 _ hm).1
    have hh := h.mem hm
    have c1 := gives_enc hP hD h1 hu h hh.clock ho.clock.2
    rw [ho.clock.1] at c1
    rw [hh.hold t (fun hp => by have := hp.2; rw [enc_bool c1] at this; cases this)]
    exact cell_enc hP hD h2 hu h hm
  | u, ins, _, m, a, v, .high (t := t) h1 h2, E, nid, ρ, xs, hu, h, hm => by
    have ho := ((hD _ _ hu).2.1 _ hm).1
    have hh := h.mem hm
    have c1 := gives_enc hP hD h1 hu h hh.clock ho.clock.2
    rw [ho.clock.1] at c1
    rw [hh.hold t (fun hp => by have := hp.1; rw [enc_bool c1] at this; cases this)]
    exact cell_enc hP hD h2 hu h hm
end

/-- C47, partial: if the source says that at time `t` the result of entity `u` is `v`, for inputs of
which `ins` is known, then in every history that the generated hardware produces for inputs that
encode `ins`, the output at time `t` encodes `v`.  Registers may depend on each other and on
themselves, with resets and initial values, and entities may be instantiated to any depth.  Missing:
initial values that the evaluator does not support (`C47_counterexample_tuple_index`,
`C47_counterexample_array_index`, `C47_counterexample_unsigned`), and what is missing in C45. -/
theorem C47_entity_value_partial (P : Prog) (D : Ents) (nids enids : Nat → Nat) (u : Nat) (E : Ent)
    (ins : Inputs) (bits : Nat → List Bits) (out : Nat → Bits) (t : Nat) (v : Val) (hP : P.Ok)
    (hD : D.Ok P) (hu : D u = some E) (hv : Gives P D u ins t E.result v)
    (hin : InputsEncode E.params ins bits)
    (hout : EProduces (lowerProg P nids) (lowerEnts D enids) u bits out) :
    Enc E.result.ty v (out t) := by
  cases hout with
  | mk k1 k2 k3 k4 k5 =>
  rename_i h ρ xs
  simp only [lowerEnts, hu, Option.bind_some] at k1
  have k1' := k1
  simp only [lowerEnt, Option.bind_eq_bind, Option.bind_eq_some_iff, Option.some.injEq] at k1'
  obtain ⟨a, ha, b, hb, rfl⟩ := k1'
  have hist : Hist P nids (lowerEnts D enids) E _ ρ xs ins := ⟨k2, ⟨_, k1, k4⟩, fun s k x q hx hq =>
    hin s k x q _ hx hq (by simp only [k3, List.getElem?_map, hq, Option.map_some])⟩
  have hdr : Drives P nids E.types ρ xs E.result :=
    ⟨_, b, hb, fun t i h => item_at (k4 _ (List.mem_append_right _ (List.mem_map_of_mem h))) t⟩
  rw [k5 t]
  exact gives_enc hP hD hv hu hist hdr (hD _ _ hu).2.2

end Spade.Entity

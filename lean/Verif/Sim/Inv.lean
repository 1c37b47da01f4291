import Verif.Sim.Lemmas
/-! References of all histories name the wires of their fields. -/
namespace Spade.Sim

open Spade.Codegen
open Spade.Vcd (Str Ty)

variable {α : Type}

/-- The positions in a range. -/
def posn : Option Range → List Nat
  | none => []
  | some r => List.range' r.start (r.stop - r.start)

def Ref.range (r : Ref) : Dir → Option Range
  | .fwd => r.fwd
  | .back => r.back

/-- How paths in references begin. -/
def Port.root : Port → List Str
  | .output => [['o']]
  | .input n => [['i'], n]

def startOf : Option Range → Nat
  | none => 0
  | some r => r.start

/-- The source of references to a port. -/
inductive SourceOf (u : Uut) : Port → Source → Prop
  | output : SourceOf u .output .output
  | input {n t a b} : u.inputs.find? (fun e => e.1 == n) = some (n, t, a, b) → SourceOf u (.input n) (.input a b)

/-- A range of the width `n`. -/
def RangeOk (n : Nat) (r : Range) : Prop := r.start < r.stop ∧ r.stop ≤ n ∧ (r.full → r.start = 0 ∧ r.stop = n)

/-- The reference names the wires of the field at a path. -/
structure RefOk (u : Uut) (port : Port) (t : Ty) (p : List Str) (r : Ref) : Prop where
  porty : PortTy u port t
  source : SourceOf u port r.source
  path : r.path = port.root ++ p
  part : ∀ d, Part d (hw t) p (List.range (wires d (hw t).toMir)) (hw r.ty) (posn (r.range d))
  range : ∀ d x, r.range d = some x → RangeOk (wires d (hw t).toMir) x

/-- All entries of the cache are right. -/
def CacheOk (u : Uut) (c : List (List Str × Ref)) : Prop :=
  ∀ k r, (k, r) ∈ c → r.path = k ∧ ∃ port t p, RefOk u port t p r

theorem get_mem {κ ν : Type} [BEq κ] [LawfulBEq κ] {m : List (κ × ν)} {k : κ} {v : ν} (h : get m k = some v) :
    (k, v) ∈ m := by
  simp only [get, Option.map_eq_some_iff] at h
  obtain ⟨⟨k', v'⟩, h1, rfl⟩ := h
  have := List.find?_some h1
  simp only [beq_iff_eq] at this
  subst this
  exact List.mem_of_find?_eq_some h1

theorem root_inj {port port' : Port} {p p' : List Str} (h : port.root ++ p = port'.root ++ p') :
    port = port' ∧ p = p' := by
  cases port <;> cases port' <;> simp [Port.root] at h ⊢ <;> exact h

theorem wholeRange_ok {n : Nat} {r : Option Range} (h : wholeRange n = .ok r) :
    posn r = List.range n ∧ ∀ x, r = some x → RangeOk n x := by
  simp only [wholeRange] at h
  split at h
  · rename_i hn
    split at h
    · cases h
      refine ⟨by simp [posn, List.range_eq_range'], ?_⟩
      rintro x hx
      cases hx
      exact ⟨by simp; omega, by simp, fun _ => ⟨rfl, rfl⟩⟩
    · cases h
  · rename_i hn
    cases h
    have : n = 0 := by omega
    subst this
    exact ⟨rfl, by intro x hx; cases hx⟩

theorem root_ok {u : Uut} {port : Port} {t : Ty} {src : Source} {fwd back : Option Range}
    (hp : PortTy u port t) (hs : SourceOf u port src) (hf : wholeRange (hw t).toMir.size = .ok fwd)
    (hb : wholeRange (hw t).toMir.backSize = .ok back) :
    RefOk u port t [] ⟨fwd, back, src, t, port.root⟩ := by
  refine ⟨hp, hs, by simp, ?_, ?_⟩
  · intro d
    have : posn (Ref.range ⟨fwd, back, src, t, port.root⟩ d) = List.range (wires d (hw t).toMir) := by
      cases d
      · exact (wholeRange_ok hf).1
      · exact (wholeRange_ok hb).1
    rw [this]
    exact .here (by simp)
  · intro d x hx
    cases d
    · exact (wholeRange_ok hf).2 x hx
    · exact (wholeRange_ok hb).2 x hx

theorem getRange_ok {ns : List Str} {ts : List Ty} {i : Nat} {f : Str} {v : Ty} {outer r : Option Range} (d : Dir)
    {n : Nat} (h1 : ns[i]? = some f) (h2 : f ∉ ns.take i) (h3 : ts[i]? = some v)
    (hp : (posn outer).length = wires d (Ty.struct ns ts).toMir) (ho : ∀ x, outer = some x → RangeOk n x)
    (h : getRange (ns.zip ts) f outer (fun t => wires d t.toMir) = .ok r) :
    Part d (.struct ns ts) [f] (posn outer) v (posn r) ∧ ∀ x, r = some x → RangeOk n x := by
  obtain ⟨bss, e1, e2, e3⟩ := split_range (ts.map fun t => wires d t.toMir)
    (startOf outer)
  have hv : (ts.map fun t => wires d t.toMir)[i]? = some (wires d v.toMir) := by simp [h3]
  have e4 := e3 i _ hv
  have hsum : (posn outer).length = (ts.map fun t => wires d t.toMir).sum := by rw [hp, wires_struct]
  have hle : ((ts.map fun t => wires d t.toMir).take i).sum + wires d v.toMir ≤
      (ts.map fun t => wires d t.toMir).sum := by
    have := List.take_append_drop (i + 1) (ts.map fun t => wires d t.toMir)
    have e5 := congrArg List.sum this
    rw [List.sum_append, List.take_add_one, List.sum_append, hv] at e5
    simp only [Option.toList_some, List.sum_cons, List.sum_nil, Nat.add_zero] at e5
    omega
  have hfl : posn outer = bss.flatten := by
    rw [e2]
    cases outer with
    | none =>
      simp only [posn, List.length_nil] at hsum
      simp [posn, ← hsum]
    | some x =>
      simp only [posn, List.length_range'] at hsum
      simp only [posn, startOf, ← hsum]
  have hpart : ∀ s, s = List.range' ((startOf outer) +
      ((ts.map fun t => wires d t.toMir).take i).sum) (wires d v.toMir) →
      Part d (.struct ns ts) [f] (posn outer) v s := by
    intro s hs
    rw [hfl]
    refine .field h1 h2 h3 e1 (hs ▸ e4) (.here ?_)
    simp [hs]
  cases outer with
  | none =>
    simp only [getRange, Except.ok.injEq] at h
    subst h
    simp only [posn, List.length_nil] at hsum
    have hz : wires d v.toMir = 0 := by omega
    exact ⟨hpart _ (by simp [posn, hz]), by intro x hx; cases hx⟩
  | some o =>
    simp only [getRange, locate_first (fun t => wires d t.toMir) ns ts i f v h1 h2 h3] at h
    obtain ⟨ho1, ho2, ho3⟩ := ho o rfl
    simp only [posn, List.length_range'] at hsum
    split at h
    · cases h
    · split at h
      · cases h
      · split at h
        · rename_i hz
          simp only [Except.ok.injEq] at h
          subst h
          refine ⟨hpart _ ?_, ?_⟩
          · simp only [posn]
            congr 1
            omega
          · intro x hx
            simp only [Option.some.injEq] at hx
            subst hx
            refine ⟨by simp; omega, by simp; omega, ?_⟩
            simp only [Bool.and_eq_true, beq_iff_eq]
            rintro ⟨⟨a, b⟩, c⟩
            have := ho3 a
            omega
        · rename_i hz
          simp only [Except.ok.injEq] at h
          subst h
          have hz : wires d v.toMir = 0 := by simpa using hz
          exact ⟨hpart _ (by simp [posn, hz]), by intro x hx; cases hx⟩

theorem field_ok {u : Uut} {port : Port} {t : Ty} {p : List Str} {r : Ref} {ft : Ty} {f : Str} {ns : List Str}
    {ts : List Ty} {fwd back : Option Range} (hr : RefOk u port t p r) (hf : fieldType r.ty f = some ft)
    (hs : hw r.ty = .struct ns ts) (h1 : getRange (ns.zip ts) f r.fwd (fun t => t.toMir.size) = .ok fwd)
    (h2 : getRange (ns.zip ts) f r.back (fun t => t.toMir.backSize) = .ok back) :
    RefOk u port t (p ++ [f]) ⟨fwd, back, r.source, ft, r.path ++ [f]⟩ := by
  obtain ⟨ns', ts', i, e0, e1, e2, e3⟩ := fieldType_hw hf
  rw [hs] at e0
  cases e0
  have key : ∀ d, Part d (.struct ns ts) [f] (posn (r.range d)) (hw ft)
      (posn (Ref.range ⟨fwd, back, r.source, ft, r.path ++ [f]⟩ d)) ∧
      ∀ x, Ref.range ⟨fwd, back, r.source, ft, r.path ++ [f]⟩ d = some x →
        RangeOk (wires d (hw t).toMir) x := by
    intro d
    have hp : (posn (r.range d)).length = wires d (Ty.struct ns ts).toMir := by
      rw [← hs]; exact (hr.part d).length.2
    cases d
    · exact getRange_ok .fwd e1 e2 e3 hp (hr.range .fwd) h1
    · exact getRange_ok .back e1 e2 e3 hp (hr.range .back) h2
  refine ⟨hr.porty, hr.source, by simp [hr.path], ?_, fun d => (key d).2⟩
  intro d
  refine (hr.part d).snoc ?_
  rw [hs]
  exact (key d).1

/-- All compiled values are right. -/
def CompiledOk (what : Ty → Str → Compiled α) (c : List ((Ty × Str) × List α)) : Prop :=
  ∀ t e v, ((t, e), v) ∈ c → what t e = .value v

structure RunOk (u : Uut) (what : Ty → Str → Compiled α) (st : St α)
    (rs : List ((Port × List Str) × Ref)) : Prop where
  cache : CacheOk u st.cache
  compiled : CompiledOk what st.compiled
  refs : ∀ port p r, ((port, p), r) ∈ rs → ∃ t, RefOk u port t p r

theorem cached_ok {u : Uut} {c : List (List Str × Ref)} (h : CacheOk u c) {port : Port} {p : List Str} {r : Ref}
    (hg : get c (port.root ++ p) = some r) : ∃ t, RefOk u port t p r := by
  obtain ⟨h1, port', t, p', h2⟩ := h _ _ (get_mem hg)
  have := h2.path
  rw [h1] at this
  obtain ⟨rfl, rfl⟩ := root_inj this
  exact ⟨t, h2⟩

theorem RunOk.push {u : Uut} {what : Ty → Str → Compiled α} {st : St α} {rs : List ((Port × List Str) × Ref)}
    (h : RunOk u what st rs) {port : Port} {p : List Str} {r : Ref} (hr : ∃ t, RefOk u port t p r) :
    RunOk u what st (((port, p), r) :: rs) := by
  refine ⟨h.cache, h.compiled, ?_⟩
  intro port' p' r' hm
  simp only [List.mem_cons, Prod.mk.injEq] at hm
  rcases hm with ⟨⟨rfl, rfl⟩, rfl⟩ | hm
  · exact hr
  · exact h.refs _ _ _ hm

theorem RunOk.insert {u : Uut} {what : Ty → Str → Compiled α} {st : St α} {rs : List ((Port × List Str) × Ref)}
    (h : RunOk u what st rs) {port : Port} {t : Ty} {p : List Str} {r : Ref} (hr : RefOk u port t p r)
    {k : List Str} (hk : k = port.root ++ p) :
    RunOk u what { st with cache := (k, r) :: st.cache } rs := by
  refine ⟨?_, h.compiled, h.refs⟩
  intro k' r' hm
  simp only [List.mem_cons, Prod.mk.injEq] at hm
  rcases hm with ⟨rfl, rfl⟩ | hm
  · exact ⟨by rw [hr.path, hk], _, _, _, hr⟩
  · exact h.cache _ _ hm

theorem RunOk.lose {u : Uut} {what : Ty → Str → Compiled α} {st : St α} {rs : List ((Port × List Str) × Ref)}
    (h : RunOk u what st rs) : RunOk u what { st with owned := false } rs := ⟨h.cache, h.compiled, h.refs⟩

theorem run_ok [BEq Ty] [LawfulBEq Ty] {u : Uut} {what : Ty → Str → Compiled α} {st : St α}
    {rs : List ((Port × List Str) × Ref)} (h : Run u what st rs) : RunOk u what st rs := by
  induction h with
  | fresh => exact ⟨by intro k r h; simp at h, by intro t e v h; simp at h, by intro _ _ _ h; simp at h⟩
  | @output st rs r st' h he ih =>
    simp only [outputRef] at he
    split at he
    · rename_i c hc
      simp only [Prod.mk.injEq, Except.ok.injEq, Option.some.injEq] at he
      obtain ⟨rfl, rfl⟩ := he
      exact ih.push (cached_ok (port := .output) (p := []) ih.cache hc)
    · split at he
      · simp at he
      · rename_i t ht
        split at he
        · simp at he
        · split at he
          · simp at he
          · rename_i fwd hf
            split at he
            · simp at he
            · rename_i back hb
              simp only [Prod.mk.injEq, Except.ok.injEq, Option.some.injEq] at he
              obtain ⟨rfl, rfl⟩ := he
              have := root_ok (PortTy.output ht) SourceOf.output hf hb
              exact (ih.insert this rfl).push ⟨_, this⟩
  | @outputErr st rs e st' h he ih =>
    simp only [outputRef] at he
    repeat' split at he
    all_goals first
      | (simp at he; done)
      | (simp only [Prod.mk.injEq] at he; obtain ⟨_, rfl⟩ := he; exact ih)
  | @arg st rs n r st' h he ih =>
    simp only [argRef] at he
    split at he
    · rename_i c hc
      simp only [Prod.mk.injEq, Except.ok.injEq] at he
      obtain ⟨rfl, rfl⟩ := he
      exact ih.push (cached_ok (port := .input n) (p := []) ih.cache hc)
    · split at he
      · simp at he
      · split at he
        · simp at he
        · rename_i src t hg
          split at he
          · simp at he
          · rename_i fwd hf
            split at he
            · simp at he
            · rename_i back hb
              simp only [Prod.mk.injEq, Except.ok.injEq] at he
              obtain ⟨rfl, rfl⟩ := he
              simp only [getArg] at hg
              split at hg
              · rename_i n' t' a b hfind
                simp only [Except.ok.injEq, Prod.mk.injEq] at hg
                obtain ⟨rfl, rfl⟩ := hg
                have hn := List.find?_some hfind
                simp only [beq_iff_eq] at hn
                subst hn
                have := root_ok (PortTy.input hfind) (SourceOf.input hfind) hf hb
                exact (ih.insert this rfl).push ⟨_, this⟩
              · cases hg
  | @argErr st rs n e st' h he ih =>
    simp only [argRef] at he
    repeat' split at he
    all_goals first
      | (simp at he; done)
      | (simp only [Prod.mk.injEq] at he; obtain ⟨_, rfl⟩ := he; exact ih)
      | (simp only [Prod.mk.injEq] at he; obtain ⟨_, rfl⟩ := he; exact ih.lose)
  | @field st rs port p r f c st' h hm he ih =>
    obtain ⟨t, hr⟩ := ih.refs _ _ r hm
    simp only [fieldOf] at he
    split at he
    · rename_i c' hc
      simp only [Prod.mk.injEq, Except.ok.injEq] at he
      obtain ⟨rfl, rfl⟩ := he
      rw [hr.path, List.append_assoc] at hc
      exact ih.push (cached_ok ih.cache hc)
    · split at he
      · simp at he
      · split at he
        · simp at he
        · split at he
          · simp at he
          · rename_i ft hft
            split at he
            · rename_i ns ts hs
              split at he
              · simp at he
              · rename_i fwd hf
                split at he
                · simp at he
                · rename_i back hb
                  simp only [Prod.mk.injEq, Except.ok.injEq] at he
                  obtain ⟨rfl, rfl⟩ := he
                  have := field_ok hr hft hs hf hb
                  exact (ih.insert this (by rw [hr.path, List.append_assoc])).push ⟨_, this⟩
            · simp at he
  | @fieldErr st rs port p r f e st' h hm he ih =>
    simp only [fieldOf] at he
    repeat' split at he
    all_goals first
      | (simp at he; done)
      | (simp only [Prod.mk.injEq] at he; obtain ⟨_, rfl⟩ := he; exact ih)
      | (simp only [Prod.mk.injEq] at he; obtain ⟨_, rfl⟩ := he; exact ih.lose)
  | @compile st rs expr t v st' h he ih =>
    simp only [compileExpr] at he
    split at he
    · simp only [Prod.mk.injEq] at he; obtain ⟨_, rfl⟩ := he; exact ih
    · split at he
      · simp only [Prod.mk.injEq] at he; obtain ⟨_, rfl⟩ := he; exact ih
      · split at he
        · simp only [Prod.mk.injEq] at he; obtain ⟨_, rfl⟩ := he; exact ih
        · split at he
          · rename_i v' hv
            simp only [Prod.mk.injEq] at he
            obtain ⟨_, rfl⟩ := he
            refine ⟨ih.cache, ?_, ih.refs⟩
            intro t' e' v'' hm
            simp only [List.mem_cons, Prod.mk.injEq] at hm
            rcases hm with ⟨⟨rfl, rfl⟩, rfl⟩ | hm
            · assumption
            · exact ih.compiled _ _ _ hm
          · simp only [Prod.mk.injEq] at he; obtain ⟨_, rfl⟩ := he; exact ih.lose

/-- What compilation gives is what the expression stands for. -/
theorem compile_value [BEq Ty] [LawfulBEq Ty] {what : Ty → Str → Compiled α} {st st' : St α} {expr : Str} {t : Ty}
    {v : List α} (hc : CompiledOk what st.compiled) (he : compileExpr what expr t st = (.ok v, st')) :
    what t expr = .value v := by
  simp only [compileExpr] at he
  split at he
  · rename_i v' hv
    simp only [Prod.mk.injEq, Except.ok.injEq] at he
    obtain ⟨rfl, _⟩ := he
    exact hc _ _ _ (get_mem hv)
  · split at he
    · simp at he
    · split at he
      · simp at he
      · split at he
        · simp only [Prod.mk.injEq, Except.ok.injEq] at he
          obtain ⟨rfl, _⟩ := he
          assumption
        · simp at he

end Spade.Sim

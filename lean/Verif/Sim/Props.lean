import Verif.Sim.Bits
import Verif.Codegen.Props
/-! # C35: Test bench field access selects the right bits -/
namespace Spade.Sim

open Spade.Codegen Spade.Verilog
open Spade.Vcd (Str Ty)

variable {α : Type}

theorem portTy_unique {u : Uut} {port : Port} {t t' : Ty} (h : PortTy u port t) (h' : PortTy u port t') :
    t = t' := by
  cases h with
  | output h =>
    cases h' with
    | output h' => rw [h] at h'; exact Option.some.inj h'
  | input h =>
    cases h' with
    | input h' => rw [h] at h'; simp only [Option.some.injEq, Prod.mk.injEq] at h'; exact h'.2.1

theorem posn_length {r : Option Range} {n k : Nat} (hr : ∀ x, r = some x → RangeOk n x) (h : (posn r).length = k) :
    (k = 0 ↔ r = none) ∧ ∀ x, r = some x → x.stop - x.start = k ∧ x.start < x.stop ∧ x.stop ≤ n := by
  cases r with
  | none => simp_all [posn]
  | some x =>
    obtain ⟨h1, h2, _⟩ := hr x rfl
    simp only [posn, List.length_range'] at h
    refine ⟨by simp; omega, ?_⟩
    intro y hy
    cases hy
    exact ⟨h, h1, h2⟩

/-- What `ranges` gives: the directions for writing and for reading. -/
theorem ranges_dir {u : Uut} {port : Port} {r : Ref} (h : SourceOf u port r.source) :
    r.ranges = (r.range port.writeDir, r.range port.readDir) := by
  cases port with
  | output =>
    generalize hs : r.source = s at h
    cases h
    simp [Ref.ranges, hs, Ref.range, Port.writeDir, Port.readDir]
  | input n =>
    generalize hs : r.source = s at h
    cases h
    simp [Ref.ranges, hs, Ref.range, Port.writeDir, Port.readDir]

/-- The type that a bench reads or writes at a port: without the `inv` that made it readable, or writable. -/
inductive Seen : Dir → Ty → Ty → Prop
  | fwd {t} : Seen .fwd t t
  | back {t} : Seen .back (.backward t) t

theorem seen_size {d : Dir} {t t' : Ty} (h : Seen d t t') (h0 : wires d.flip (hw t).toMir = 0) :
    wires d (hw t).toMir = (hw t').toMir.size := by
  cases h with
  | fwd => rfl
  | back =>
    simp only [Dir.flip, wires, hw, resolve, Bool.not_false] at h0 ⊢
    simpa using resolve_flip true t' h0

theorem flip_dir (port : Port) : port.readDir.flip = port.writeDir ∧ port.writeDir.flip = port.readDir := by
  cases port <;> simp [Port.readDir, Port.writeDir, Dir.flip]

/-- Shape of a reference that can be read. -/
theorem read_shape {u : Uut} {port : Port} {r : Ref} (h : SourceOf u port r.source) (x : Range) (t' : Ty) :
    r.readRangeAndType = .ok (x, t') ↔
      r.range port.writeDir = none ∧ r.range port.readDir = some x ∧ Seen port.readDir r.ty t' := by
  simp only [Ref.readRangeAndType, Ref.readDirRange, ranges_dir h]
  cases hw : r.range port.writeDir <;> cases hr : r.range port.readDir <;> simp
  cases port with
  | output =>
    generalize hs : r.source = s at h
    cases h
    simp only [Port.readDir, Except.ok.injEq, Prod.mk.injEq]
    constructor
    · rintro ⟨rfl, rfl⟩; exact ⟨rfl, .fwd⟩
    · rintro ⟨rfl, h⟩; cases h; exact ⟨rfl, rfl⟩
  | input n =>
    generalize hs : r.source = s at h
    cases h
    simp only [Port.readDir]
    split
    · rename_i inner hi
      simp only [Except.ok.injEq, Prod.mk.injEq, hi]
      constructor
      · rintro ⟨rfl, rfl⟩; exact ⟨rfl, .back⟩
      · rintro ⟨rfl, h⟩; cases h; exact ⟨rfl, rfl⟩
    · rename_i hn
      simp only [reduceCtorEq, false_iff, not_and]
      intro _ h
      generalize ht : r.ty = ty at h
      cases h
      exact hn _ ht

/-- Shape of a reference that can be written. -/
theorem write_shape {u : Uut} {port : Port} {r : Ref} (h : SourceOf u port r.source) (x : Range) (t' : Ty) :
    r.writeRangeAndType = .ok (x, t') ↔
      r.range port.readDir = none ∧ r.range port.writeDir = some x ∧ Seen port.writeDir r.ty t' := by
  simp only [Ref.writeRangeAndType, Ref.writeDirRange, ranges_dir h]
  cases hw : r.range port.writeDir <;> cases hr : r.range port.readDir <;> simp
  cases port with
  | input n =>
    generalize hs : r.source = s at h
    cases h
    simp only [Port.writeDir, Except.ok.injEq, Prod.mk.injEq]
    constructor
    · rintro ⟨rfl, rfl⟩; exact ⟨rfl, .fwd⟩
    · rintro ⟨rfl, h⟩; cases h; exact ⟨rfl, rfl⟩
  | output =>
    generalize hs : r.source = s at h
    cases h
    simp only [Port.writeDir]
    split
    · rename_i inner hi
      simp only [Except.ok.injEq, Prod.mk.injEq, hi]
      constructor
      · rintro ⟨rfl, rfl⟩; exact ⟨rfl, .back⟩
      · rintro ⟨rfl, h⟩; cases h; exact ⟨rfl, rfl⟩
    · rename_i hn
      simp only [reduceCtorEq, false_iff, not_and]
      intro _ h
      generalize ht : r.ty = ty at h
      cases h
      exact hn _ ht

variable [BEq Ty] [LawfulBEq Ty]

/-- C35, reading.  In every history, if a test bench reads a field through a reference that it got for a path of
a port, and that succeeds on wires of the port's width, then it gets the wires of the field at that
path, with the type of the field, and the number of bits is the size of the type they are shown with. -/
theorem C35_read {u : Uut} {what : Ty → Str → Compiled α} {st : St α} {rs : List ((Port × List Str) × Ref)}
    (h : Run u what st rs) {port : Port} {p : List Str} {r : Ref} (hr : ((port, p), r) ∈ rs) {t : Ty}
    (ht : PortTy u port t) {bits : List α} (hl : bits.length = wires port.readDir (hw t).toMir)
    {sub : List α} {ty c : Ty} (he : extract r bits st = .ok (sub, ty, c)) :
    Part port.readDir (hw t) p bits (hw r.ty) sub ∧ Seen port.readDir r.ty ty ∧ c = hw ty ∧
      sub.length = c.toMir.size := by
  obtain ⟨t0, ok⟩ := (run_ok h).refs _ _ _ hr
  have ht0 := portTy_unique ok.porty ht
  subst ht0
  simp only [extract] at he
  split at he
  · simp at he
  · rename_i x t' hx
    split at he
    · simp at he
    · split at he
      · simp only [Except.ok.injEq, Prod.mk.injEq] at he
        obtain ⟨rfl, rfl, rfl⟩ := he
        obtain ⟨h1, h2, h3⟩ := (read_shape ok.source x t').mp hx
        have hpart := ok.part port.readDir
        rw [h2] at hpart
        have := hpart.bits hl (ok.range _ _ h2)
        refine ⟨this, h3, rfl, ?_⟩
        rw [this.length.2]
        refine seen_size h3 ?_
        rw [(flip_dir port).1, ← (ok.part port.writeDir).length.2, h1]
        rfl
      · simp at he

/-- C35, reading succeeds.  While the compiler state is there, a reference can be read if and only if
the field has wires in the direction for reading and none in the other direction, and, for inputs, its type is
written with `inv` in front. -/
theorem C35_readable {u : Uut} {what : Ty → Str → Compiled α} {st : St α} {rs : List ((Port × List Str) × Ref)}
    (h : Run u what st rs) {port : Port} {p : List Str} {r : Ref} (hr : ((port, p), r) ∈ rs) {t : Ty}
    (ht : PortTy u port t) {bits : List α} (hl : bits.length = wires port.readDir (hw t).toMir)
    (ho : st.owned = true) :
    (∃ res, extract r bits st = .ok res) ↔ wires port.readDir (hw r.ty).toMir ≠ 0 ∧
      wires port.writeDir (hw r.ty).toMir = 0 ∧ ∃ ty, Seen port.readDir r.ty ty := by
  obtain ⟨t0, ok⟩ := (run_ok h).refs _ _ _ hr
  have ht0 := portTy_unique ok.porty ht
  subst ht0
  have hread := posn_length (ok.range port.readDir) (ok.part port.readDir).length.2
  have hwrite := posn_length (ok.range port.writeDir) (ok.part port.writeDir).length.2
  constructor
  · rintro ⟨res, he⟩
    simp only [extract] at he
    split at he
    · simp at he
    · rename_i x t' hx
      obtain ⟨h1, h2, h3⟩ := (read_shape ok.source x t').mp hx
      refine ⟨?_, hwrite.1.mpr h1, t', h3⟩
      intro hc
      rw [hread.1.mp hc] at h2
      cases h2
  · rintro ⟨h1, h2, ty, h3⟩
    have h4 := hwrite.1.mp h2
    cases hx : r.range port.readDir with
    | none => exact absurd (hread.1.mpr hx) h1
    | some x =>
      have h5 := (read_shape ok.source x ty).mpr ⟨h4, hx, h3⟩
      obtain ⟨h6, h7, h8⟩ := hread.2 x hx
      refine ⟨((bits.drop x.start).take (x.stop - x.start), ty, hw ty), ?_⟩
      simp only [extract, h5, ho, Bool.true_eq_false, if_false]
      rw [if_pos ⟨by omega, by omega⟩]

/-- C35, writing.  In every history, if a test bench writes an expression to a field through a reference that it
got for a path of a port, and that succeeds, then afterwards the wires of the field carry the value of
the expression at the type of the field, the port has as many wires as before, and every field whose path
parts from this one has its old bits. -/
theorem C35_write {u : Uut} {what : Ty → Str → Compiled α} {st st' : St α}
    {rs : List ((Port × List Str) × Ref)} (h : Run u what st rs)
    (hwhat : ∀ t e v, what t e = .value v → v.length = (hw t).toMir.size)
    {port : Port} {p : List Str} {r : Ref} (hr : ((port, p), r) ∈ rs) {t : Ty} (ht : PortTy u port t)
    {sig sig' : List α} (hl : sig.length = wires port.writeDir (hw t).toMir) {expr : Str}
    (he : setValue what r expr sig st = (.ok sig', st')) :
    ∃ ty new, Seen port.writeDir r.ty ty ∧ what ty expr = .value new ∧
      Part port.writeDir (hw t) p sig' (hw r.ty) new ∧ sig'.length = sig.length ∧
      ∀ q w s, Parted p q → Part port.writeDir (hw t) q sig w s → Part port.writeDir (hw t) q sig' w s := by
  obtain ⟨t0, ok⟩ := (run_ok h).refs _ _ _ hr
  have ht0 := portTy_unique ok.porty ht
  subst ht0
  unfold setValue at he
  split at he
  · simp at he
  · rename_i new st1 hc
    simp only [compileFieldValue] at hc
    split at hc
    · simp at hc
    · rename_i x ty hx
      obtain ⟨h1, h2, h3⟩ := (write_shape ok.source x ty).mp hx
      have hval := compile_value (run_ok h).compiled hc
      have hwd : r.writeDirRange = .ok x := by
        simp only [Ref.writeDirRange, ranges_dir ok.source, h1, h2]
      rw [hwd] at he
      have hlen : new.length = x.stop - x.start := by
        rw [hwhat _ _ _ hval, ← seen_size h3 ?_]
        · rw [← (ok.part port.writeDir).length.2, h2]
          simp [posn]
        · rw [(flip_dir port).2, ← (ok.part port.readDir).length.2, h1]
          rfl
      have hrange := ok.range _ _ h2
      obtain ⟨g1, g2, g3⟩ := hrange
      rw [← hl] at g2 g3
      have hpart := ok.part port.writeDir
      rw [h2] at hpart
      have key : sig' = sig.take x.start ++ new ++ sig.drop x.stop := by
        simp only [Range.asDownto] at he
        split at he
        · simp at he
        · split at he
          · rename_i hf
            obtain ⟨e1, e2⟩ := g3 hf
            split at he
            · simp only [Prod.mk.injEq, Except.ok.injEq] at he
              obtain ⟨rfl, _⟩ := he
              simp [e1, e2]
            · simp at he
          · split at he
            · rename_i s hs
              simp only [Prod.mk.injEq, Except.ok.injEq] at he
              obtain ⟨rfl, _⟩ := he
              rw [setLoop_eq new _ _ _ _ (by omega) (by omega)] at hs
              simp only [Option.some.injEq] at hs
              rw [← hs]
              rw [(by omega : sig.length - (sig.length - x.stop) -
                (sig.length - x.start - (sig.length - x.stop)) = x.start),
                (by omega : sig.length - (sig.length - x.stop) = x.stop),
                List.take_of_length_le (l := new) (by omega)]
            · simp at he
      have hl' : sig'.length = sig.length := by
        rw [key]
        simp only [List.length_append, List.length_take, List.length_drop]
        omega
      refine ⟨ty, new, h3, hval, ?_, hl', ?_⟩
      · have := hpart.bits (bits := sig') (by omega) (ok.range _ _ h2)
        have e : (sig'.drop x.start).take (x.stop - x.start) = new := by
          rw [key, List.append_assoc, List.drop_left' (by rw [List.length_take]; omega), List.take_left' hlen]
        rwa [e] at this
      · intro q w s hpq hq
        refine Part.other hl (by omega) hpart ?_ hpq hq
        intro i hi hn
        rw [key]
        by_cases hlt : i < x.start
        · rw [List.append_assoc, List.getElem?_append_left (by rw [List.length_take]; omega),
            List.getElem?_take_of_lt hlt]
        · rw [List.getElem?_append_right (by simp only [List.length_append, List.length_take]; omega)]
          simp only [List.length_append, List.length_take, List.getElem?_drop]
          congr 1
          omega

/-- C35, siblings.  Fields whose paths part have no wire in common, in either direction. -/
theorem C35_siblings {u : Uut} {what : Ty → Str → Compiled α} {st : St α} {rs : List ((Port × List Str) × Ref)}
    (h : Run u what st rs) {port : Port} {p q : List Str} {r r' : Ref} (hr : ((port, p), r) ∈ rs)
    (hr' : ((port, q), r') ∈ rs) (hpq : Parted p q) (d : Dir) (x y : Range) (hx : r.range d = some x)
    (hy : r'.range d = some y) : x.stop ≤ y.start ∨ y.stop ≤ x.start := by
  obtain ⟨t, ok⟩ := (run_ok h).refs _ _ _ hr
  obtain ⟨t', ok'⟩ := (run_ok h).refs _ _ _ hr'
  have ht0 := portTy_unique ok.porty ok'.porty
  subst ht0
  obtain ⟨c, f, g, p', q', hfg, rfl, rfl⟩ := hpq
  have h1 := ok.part d
  have h2 := ok'.part d
  rw [hx] at h1
  rw [hy] at h2
  have hd := Part.disjoint hfg c List.nodup_range h1 h2
  obtain ⟨a1, a2, _⟩ := ok.range d x hx
  obtain ⟨b1, b2, _⟩ := ok'.range d y hy
  simp only [posn, List.mem_range'_1] at hd
  have e1 := hd x.start (by omega)
  have e2 := hd y.start
  by_cases hxy : x.start ≤ y.start
  · left
    exact Nat.le_of_not_lt fun hlt => e2 (by omega) (by omega)
  · right
    exact Nat.le_of_not_lt fun hlt => e1 (by omega)

/-- C35, access.  While the compiler state is there and ports are narrower than 2^64, every field that the
hardware type has can be accessed, and the state is still there afterwards. -/
theorem C35_access {u : Uut} {what : Ty → Str → Compiled α} {st : St α} {rs : List ((Port × List Str) × Ref)}
    (h : Run u what st rs) {port : Port} {p : List Str} {r : Ref} (hr : ((port, p), r) ∈ rs) {t : Ty}
    (ht : PortTy u port t) (ho : st.owned = true) (h64 : ∀ d, wires d (hw t).toMir < 2 ^ 64) {d : Dir} {f : Str}
    {v : Ty} {bits sub : List α} (hf : Part d (hw r.ty) [f] bits v sub) :
    ∃ c st', fieldOf r f st = (.ok c, st') ∧ hw c.ty = v ∧ st'.owned = true := by
  obtain ⟨t0, ok⟩ := (run_ok h).refs _ _ _ hr
  have ht0 := portTy_unique ok.porty ht
  subst ht0
  obtain ⟨ns, ts, i, e0, e1, e2, e3⟩ : ∃ (ns : List Str) (ts : List Ty) (i : Nat), hw r.ty = .struct ns ts ∧
      ns[i]? = some f ∧ f ∉ ns.take i ∧ ts[i]? = some v := by
    generalize hty : hw r.ty = ty at hf
    cases hf with
    | field h1 h2 h3 h4 h5 h6 =>
      cases h6
      exact ⟨_, _, _, rfl, h1, h2, h3⟩
  have hranges : ∀ d : Dir, ∃ x, getRange (ns.zip ts) f (r.range d) (fun t => wires d t.toMir) = .ok x := by
    intro d
    cases hx : r.range d with
    | none => exact ⟨_, rfl⟩
    | some o =>
      obtain ⟨a1, a2, _⟩ := ok.range d o hx
      have hlen := (ok.part d).length.2
      rw [hx, e0, wires_struct] at hlen
      simp only [posn, List.length_range'] at hlen
      have hv : (ts.map fun t => wires d t.toMir)[i]? = some (wires d v.toMir) := by simp [e3]
      have hle : ((ts.map fun t => wires d t.toMir).take i).sum + wires d v.toMir ≤
          (ts.map fun t => wires d t.toMir).sum := by
        have := List.take_append_drop (i + 1) (ts.map fun t => wires d t.toMir)
        have e5 := congrArg List.sum this
        rw [List.sum_append, List.take_add_one, List.sum_append, hv] at e5
        simp only [Option.toList_some, List.sum_cons, List.sum_nil, Nat.add_zero] at e5
        omega
      have := h64 d
      simp only [getRange, locate_first (fun t => wires d t.toMir) ns ts i f v e1 e2 e3]
      rw [if_neg (by omega), if_neg (by omega)]
      split <;> exact ⟨_, rfl⟩
  obtain ⟨a, ha⟩ := hranges .fwd
  obtain ⟨b, hb⟩ := hranges .back
  have hm : f ∈ ns := List.mem_of_getElem? e1
  obtain ⟨ft, g1, g2⟩ := fieldType_of_hw e0 e1 e2 e3
  simp only [fieldOf]
  split
  · rename_i c hc
    rw [ok.path, List.append_assoc] at hc
    obtain ⟨t1, ok1⟩ := cached_ok (run_ok h).cache hc
    have := portTy_unique ok.porty ok1.porty
    subst this
    refine ⟨c, st, rfl, ?_, ho⟩
    have p1 := ok1.part d
    obtain ⟨s', p2⟩ := hf.shape (posn (r.range d)) (by rw [(ok.part d).length.2, hf.length.1])
    exact (p1.unique ((ok.part d).snoc p2)).1
  · rw [if_neg (by simp [ho]), e0]
    have : hasField (Ty.struct ns ts) f = true := by simp [hasField, hm]
    simp only [this, Bool.true_eq_false, if_false, g1]
    simp only [Ref.range, wires] at ha hb
    simp only [ha, hb]
    exact ⟨_, _, rfl, g2, ho⟩

/-! ## What the hardware uses -/

/-- The unit takes the field at a path of a struct by member accesses: from `x` to `z`, where `step i x y` says that
the emitted code for member `i` of `x` holds for `y`. -/
inductive Members (Γ : Nat → MTy) (step : Nat → Nat → Nat → Prop) : Ty → Nat → List Str → Ty → Nat → Prop
  | here {t x} : Γ x = t.toMir → Members Γ step t x [] t x
  | field {ns ts x f u y path v z} {i : Nat} : Γ x = (Ty.struct ns ts).toMir → ns[i]? = some f → f ∉ ns.take i →
      ts[i]? = some u → step i x y → Members Γ step u y path v z → Members Γ step (.struct ns ts) x (f :: path) v z

/-- The emitted code for `y = x.i` holds, in a direction. -/
def Holds (d : Dir) (Γ : Nat → MTy) (ρ : Env) (xs : Nat → Bool) (i x y : Nat) : Prop :=
  match d with
  | .fwd => runOp Γ (Γ y) (.indexTuple i) [x] ρ xs = some (ρ (fwd y))
  | .back => BackHolds Γ ρ xs y (.indexTuple i) [x]

/-- The wires of a variable in a direction. -/
def net (d : Dir) (ρ : Env) (x : Nat) : Bits :=
  match d with
  | .fwd => ρ (fwd x)
  | .back => ρ (Spade.Codegen.back x)

theorem toMirs_map (ts : List Ty) : Vcd.toMirs ts = ts.map Ty.toMir := by
  induction ts with
  | nil => rfl
  | cons t ts ih => simp [Vcd.toMirs, ih]

theorem sizes_wires : ∀ (ts : List Ty), sizes (Vcd.toMirs ts) = (ts.map fun t => wires .fwd t.toMir).sum
  | [] => rfl
  | t :: ts => by simp [Vcd.toMirs, sizes, sizes_wires ts, wires]

theorem backSizes_wires : ∀ (ts : List Ty), backSizes (Vcd.toMirs ts) = (ts.map fun t => wires .back t.toMir).sum
  | [] => rfl
  | t :: ts => by simp [Vcd.toMirs, backSizes, backSizes_wires ts, wires]

theorem Members.type {Γ : Nat → MTy} {step : Nat → Nat → Nat → Prop} {t v : Ty} {x z : Nat} {p : List Str}
    (h : Members Γ step t x p v z) : Γ x = t.toMir ∧ Γ z = v.toMir := by
  induction h with
  | here h => exact ⟨h, h⟩
  | field h _ _ _ _ _ ih => exact ⟨h, ih.2⟩

theorem flatten_at : ∀ (bss : List (List α)) (i : Nat) (b : List α), bss[i]? = some b →
    bss.flatten = (bss.take i).flatten ++ b ++ (bss.drop (i + 1)).flatten
  | [], i, b, h => by simp at h
  | x :: bss, 0, b, h => by simp at h; subst h; simp
  | x :: bss, i + 1, b, h => by
    simp only [List.getElem?_cons_succ] at h
    simp only [List.flatten_cons, List.take_succ_cons, List.drop_succ_cons]
    rw [flatten_at bss i b h]
    simp

/-- Member accesses of the hardware, in the direction of the type and against it, take the wires of the field. -/
theorem members_part {d : Dir} {Γ : Nat → MTy} {ρ : Env} {xs : Nat → Bool} {t v : Ty} {x z : Nat} {p : List Str}
    (hfit : ∀ n, (net d ρ n).length = wires d (Γ n)) (h32 : wires d t.toMir ≤ 2 ^ 32)
    (h : Members Γ (Holds d Γ ρ xs) t x p v z) : Part d t p (net d ρ x) v (net d ρ z) := by
  induction h with
  | here h => exact .here (by rw [hfit, h])
  | @field ns ts x f u y path v z i h1 h2 h3 h4 h5 h6 ih =>
    have hx : (net d ρ x).length = (ts.map fun t => wires d t.toMir).sum := by rw [hfit, h1, wires_struct]
    obtain ⟨bss, e1, e2⟩ := split_sizes _ _ hx
    have hi : i < bss.length := by
      have := congrArg List.length e1
      simp only [List.length_map] at this
      rw [this]
      exact (List.getElem?_eq_some_iff.mp h4).1
    have hb : bss[i]? = some bss[i] := by simp [hi]
    have hbl : bss[i].length = wires d u.toMir := by
      have := congrArg (·[i]?) e1
      simpa [h4, hi] using this
    have hty := h6.type.1
    have hsum : ((bss.take i).flatten).length = ((ts.map fun t => wires d t.toMir).take i).sum := by
      rw [List.length_flatten, List.map_take, e1]
    have h32' : (ts.map fun t => wires d t.toMir).sum ≤ 2 ^ 32 := by rw [← wires_struct d ns ts]; exact h32
    have hle : wires d u.toMir ≤ (ts.map fun t => wires d t.toMir).sum := by
      rw [← hbl, ← e1, ← List.length_flatten]
      rw [flatten_at bss i _ hb]
      simp only [List.length_append]
      omega
    have key : net d ρ y = bss[i] := by
      have hsplit := flatten_at bss i _ hb
      rw [e2] at hsplit
      cases d with
      | fwd =>
        have hrun := index_bits (Γ := Γ) (ty := Γ y) (ts := Vcd.toMirs ts) (r := x) (i := i) (t := u.toMir)
          (ρ := ρ) (xs := xs) (before := (bss.take i).flatten) (here := bss[i])
          (after := (bss.drop (i + 1)).flatten) (by simp [tupleTypes, h1, Ty.toMir, MTy.strip])
          (by rw [toMirs_map]; simp [h4]) (by rw [hty]) hsplit
          (by rw [hsum, sizes_eq_sum, List.map_take, toMirs_map, List.map_map]; rfl)
          hbl (by rw [sizes_wires]; exact hx) (by rw [sizes_wires]; exact h32')
        simp only [Holds] at h5
        rw [hrun] at h5
        exact (Option.some.inj h5).symm
      | back =>
        have hy : (net .back ρ y).length = wires .back u.toMir := by rw [hfit, hty]
        by_cases h0 : wires .back u.toMir = 0
        · rw [List.length_eq_zero_iff.mp (hy.trans h0), List.length_eq_zero_iff.mp (hbl.trans h0)]
        · simp only [Holds] at h5
          obtain ⟨e, hc, hd⟩ := h5 (by rw [hty]; exact h0)
          obtain ⟨ti, e', k1, k2, k3, k4⟩ := tupleIndex_value (ρ := ρ) (xs := xs) (x := Spade.Codegen.back x)
            (idx := i) (w := wires .back u.toMir) (szs := ts.map fun t : Ty => wires .back t.toMir)
            (by simp [h4]) h0 hsplit hsum hbl hx h32'
          have htt : tupleTypes (Γ x) = some (Vcd.toMirs ts) := by simp [tupleTypes, h1, Ty.toMir, MTy.strip]
          have hmap : (Vcd.toMirs ts).map MTy.backSize = ts.map fun t => wires .back t.toMir := by
            rw [toMirs_map, List.map_map]; rfl
          simp only [backCode, htt, hmap, k1, k2, Option.bind_eq_bind, Option.bind_some, Option.some.injEq] at hc
          subst hc
          exact drives_var (ρ := ρ) (x := Spade.Codegen.back y) hd k4 (hy.trans hbl.symm)
            (fun hc => h0 (by rw [← hbl, hc]; rfl))
    rw [← e2]
    exact .field h2 h3 h4 e1 (key ▸ hb) (ih (by omega))

/-- C35, hardware.  What a test bench reads at a path of a port is what the emitted code of the unit takes there
by member accesses: the values of `z` on the wires of the output, or the wires through which `z` drives an input
of type `inv`. -/
theorem C35_hardware_read {u : Uut} {what : Ty → Str → Compiled Bool} {st : St Bool}
    {rs : List ((Port × List Str) × Ref)} (h : Run u what st rs) {port : Port} {p : List Str} {r : Ref}
    (hr : ((port, p), r) ∈ rs) {t : Ty} (ht : PortTy u port t)
    {Γ : Nat → MTy} {ρ : Env} {xs : Nat → Bool} {x z : Nat} {v : Ty}
    (hfit : ∀ n, (net port.readDir ρ n).length = wires port.readDir (Γ n))
    (h32 : wires port.readDir (hw t).toMir ≤ 2 ^ 32)
    (hm : Members Γ (Holds port.readDir Γ ρ xs) (hw t) x p v z)
    {sub : List Bool} {ty c : Ty} (he : extract r (net port.readDir ρ x) st = .ok (sub, ty, c)) :
    sub = net port.readDir ρ z ∧ v = hw r.ty := by
  have h1 := members_part hfit h32 hm
  have h2 := (C35_read h hr ht (by rw [hfit, hm.type.1]) he).1
  obtain ⟨e1, e2⟩ := h1.unique h2
  exact ⟨e2.symm, e1⟩

/-- C35, hardware.  If a test bench writes an expression at a path of a port, then the emitted code of the unit
takes the bits of that expression there by member accesses. -/
theorem C35_hardware_write {u : Uut} {what : Ty → Str → Compiled Bool} {st st' : St Bool}
    {rs : List ((Port × List Str) × Ref)} (h : Run u what st rs)
    (hwhat : ∀ t e v, what t e = .value v → v.length = (hw t).toMir.size) {port : Port} {p : List Str} {r : Ref}
    (hr : ((port, p), r) ∈ rs) {t : Ty} (ht : PortTy u port t) {sig : List Bool} {expr : Str}
    (hl : sig.length = wires port.writeDir (hw t).toMir)
    {Γ : Nat → MTy} {ρ : Env} {xs : Nat → Bool} {x z : Nat} {v : Ty}
    (hfit : ∀ n, (net port.writeDir ρ n).length = wires port.writeDir (Γ n))
    (h32 : wires port.writeDir (hw t).toMir ≤ 2 ^ 32)
    (hm : Members Γ (Holds port.writeDir Γ ρ xs) (hw t) x p v z)
    (he : setValue what r expr sig st = (.ok (net port.writeDir ρ x), st')) :
    ∃ ty, Seen port.writeDir r.ty ty ∧ what ty expr = .value (net port.writeDir ρ z) := by
  have h1 := members_part hfit h32 hm
  obtain ⟨ty, new, g1, g2, g3, _⟩ := C35_write h hwhat hr ht hl he
  obtain ⟨_, e2⟩ := h1.unique g3
  exact ⟨ty, g1, e2 ▸ g2⟩

end Spade.Sim

import Verif.Verilog.Memory
import Verif.Codegen.Tuple
/-!
# Code for clocked memories

Models the `DeclClockedMemory` case of `forward_expression_code` and of `statement_code`
(spade-mir/src/codegen/mod.rs:525-610,1054).
-/
namespace Spade.Codegen
open Spade.Verilog

/-- One statement of the `always` block (mod.rs:563-603): port `port` of the write ports in the
variable `x`, for addresses of `aw` bits and data of `dw` bits.  `none` is the underflow of a
`BigUint`. -/
def memPort (x aw dw port : Nat) : Option MemPort :=
  let full := 1 + aw + dw
  let addrStart := full * port + dw
  if addrStart + aw = 0 ∨ dw = 0 then none
  else some {
    we := .bit x (.dec (full * (port + 1) - 1))
    addr := if aw = 1 then .bit x (.dec addrStart) else .part x (addrStart + aw - 1) addrStart
    data := if dw = 1 then .bit x (.dec (port * full))
      else .part x (port * full + dw - 1) (port * full) }

/-- The statements of the `always` block for a memory of type `ty` whose write ports, of type `wty`,
are in the variable `x`.  For a memory without bits `forward_expression` is `None` and the `unwrap`
in mod.rs:1054 panics. -/
def memPorts (ty wty : MTy) (x : Nat) : Option (List MemPort) :=
  if ty.size = 0 then none
  else match wty with
    | .array (.tuple [_, .uint aw, inner]) n => (List.range n).mapM (memPort x aw inner.size)
    | _ => none

/-! ## What the statements do -/

/-- A port whose bits are `c`, `a` and `d`. -/
theorem memPort_store {ρ : Env} {xs : Nat → Bool} {x port : Nat} {before after a d : Bits} {c : Bool}
    {m : Nat → Bits} (hx : ρ x = before ++ (c :: (a ++ d)) ++ after)
    (hl : after.length = (1 + a.length + d.length) * port) (ha : a ≠ []) (hd : d ≠ [])
    (h32 : (ρ x).length ≤ 2 ^ 32) :
    ∃ p, memPort x a.length d.length port = some p ∧
      p.store ρ xs d.length m = some fun k => if c = true ∧ k = toNat a then d else m k := by
  have ha' : 0 < a.length := List.length_pos_iff.2 ha
  have hd' : 0 < d.length := List.length_pos_iff.2 hd
  have hlen : (ρ x).length = before.length + (1 + a.length + d.length) + after.length := by
    rw [hx]; simp; omega
  have h2 : 2 ≤ (ρ x).length := by omega
  have e1 : (1 + a.length + d.length) * (port + 1) - 1 = after.length + a.length + d.length := by
    rw [Nat.mul_add, ← hl]; omega
  have e2 : port * (1 + a.length + d.length) = after.length := by rw [Nat.mul_comm, ← hl]
  have s1 : slice (ρ x) (after.length + a.length + d.length) (after.length + a.length + d.length) =
      some [c] := slice_eq (a := before) (b := [c]) (c := a ++ d ++ after) (by rw [hx]; simp) (by simp)
        (by simp; omega) (by simp; omega)
  have s2 : slice (ρ x) (after.length + d.length + a.length - 1) (after.length + d.length) = some a :=
    slice_eq (a := before ++ [c]) (b := a) (c := d ++ after) (by rw [hx]; simp) ha
        (by simp; omega) (by simp; omega)
  have s3 : slice (ρ x) (after.length + d.length - 1) after.length = some d :=
    slice_eq (a := before ++ [c] ++ a) (b := d) (c := after) (by rw [hx]; simp) hd
        (by omega) (by simp)
  refine ⟨_, by simp only [memPort, ← hl, e1, e2]; rw [if_neg (by omega)], ?_⟩
  have v1 : (VExpr.bit x (.dec (after.length + a.length + d.length))).value ρ xs = some [c] := by
    rw [value_bit_dec h2 (by omega), s1]
  have v2 : (if a.length = 1 then VExpr.bit x (.dec (after.length + d.length))
      else .part x (after.length + d.length + a.length - 1) (after.length + d.length)).value ρ xs
      = some a := by
    split
    · rename_i h
      rw [value_bit_dec h2 (by omega)]
      rw [h] at s2
      exact s2
    · rw [value_part h2, s2]
  have v3 : assigned ρ xs d.length (if d.length = 1 then VExpr.bit x (.dec after.length)
      else .part x (after.length + d.length - 1) after.length) = some d := by
    split
    · rename_i h
      rw [assigned_exact (by rw [h]; rfl), value_bit_dec h2 (by omega)]
      rw [h] at s3
      exact s3
    · rw [assigned_exact (by simp [VExpr.width]; omega), value_part h2, s3]
  simp only [MemPort.store, v1, v2, v3, Option.bind_eq_bind, Option.bind_some, truth, List.any_cons,
    List.any_nil, id, Bool.or_false]

/-- The bits of one port. -/
def portBits (c : Bool × Bits × Bits) : Bits := c.1 :: (c.2.1 ++ c.2.2)

/-- The effect of one port on a memory. -/
def upd (m : Nat → Bits) (c : Bool × Bits × Bits) : Nat → Bits :=
  fun k => if c.1 = true ∧ k = toNat c.2.1 then c.2.2 else m k

theorem ports_length {aw dw : Nat} : ∀ {cs : List (Bool × Bits × Bits)},
    (∀ c ∈ cs, c.2.1.length = aw ∧ c.2.2.length = dw) →
    (cs.map portBits).reverse.flatten.length = (1 + aw + dw) * cs.length
  | [], _ => by simp
  | c :: cs, h => by
    have h1 := h c (by simp)
    have h2 := ports_length (cs := cs) fun c hc => h c (List.mem_cons_of_mem _ hc)
    simp only [List.map_cons, List.reverse_cons, List.flatten_append, List.length_append, h2,
      List.flatten_singleton, portBits, List.length_cons, h1.1, h1.2, Nat.mul_add]
    omega

theorem ports_store {ρ : Env} {xs : Nat → Bool} {x aw dw : Nat} (haw : aw ≠ 0) (hdw : dw ≠ 0)
    (h32 : (ρ x).length ≤ 2 ^ 32) : ∀ (post pre : List (Bool × Bits × Bits)),
    ρ x = ((pre ++ post).map portBits).reverse.flatten →
    (∀ c ∈ pre ++ post, c.2.1.length = aw ∧ c.2.2.length = dw) →
    ∃ ps, (List.range' pre.length post.length).mapM (memPort x aw dw) = some ps ∧
      ∀ m, storeAll ρ xs dw ps m = some (post.foldl upd m)
  | [], pre, _, _ => ⟨[], rfl, fun _ => rfl⟩
  | c :: post, pre, hx, hw => by
    obtain ⟨w1, w2⟩ := hw c (by simp)
    obtain ⟨ps, p1, p2⟩ := ports_store (xs := xs) haw hdw h32 post (pre ++ [c]) (by simpa using hx)
      (by simpa using hw)
    have hb : ρ x = (post.map portBits).reverse.flatten ++ (c.1 :: (c.2.1 ++ c.2.2)) ++
        (pre.map portBits).reverse.flatten := by
      rw [hx]; simp [portBits]
    have hl := ports_length (cs := pre) fun c hc => hw c (List.mem_append_left _ hc)
    have hp := fun m => memPort_store (xs := xs) (port := pre.length) (m := m) hb (by rw [hl, w1, w2])
      (by intro h; rw [h] at w1; simp at w1; omega) (by intro h; rw [h] at w2; simp at w2; omega) h32
    rw [w1, w2] at hp
    obtain ⟨p, q1, _⟩ := hp fun _ => []
    refine ⟨p :: ps, ?_, fun m => ?_⟩
    · simp only [List.length_append, List.length_cons, List.length_nil] at p1
      simp only [List.length_cons, List.range'_succ, List.mapM_cons, q1, Option.bind_eq_bind,
        Option.bind_some, p1]
      rfl
    · obtain ⟨p', q1', q2⟩ := hp m
      rw [q1] at q1'
      cases q1'
      simp only [storeAll, q2, Option.bind_eq_bind, Option.bind_some, List.foldl_cons]
      exact p2 _

/-- The statements for a memory with write ports `cs`, from port 0 on. -/
theorem memPorts_store {ρ : Env} {xs : Nat → Bool} {x aw len : Nat} {t t' : MTy}
    {cs : List (Bool × Bits × Bits)} (haw : aw ≠ 0) (ht : t.size ≠ 0) (hlen : len ≠ 0)
    (h32 : (ρ x).length ≤ 2 ^ 32) (hx : ρ x = (cs.map portBits).reverse.flatten)
    (hw : ∀ c ∈ cs, c.2.1.length = aw ∧ c.2.2.length = t.size) :
    ∃ ps, memPorts (.memory t len) (.array (.tuple [t', .uint aw, t]) cs.length) x = some ps ∧
      ∀ m, storeAll ρ xs t.size ps m = some (cs.foldl upd m) := by
  obtain ⟨ps, h1, h2⟩ := ports_store (xs := xs) haw ht h32 cs [] hx hw
  refine ⟨ps, ?_, h2⟩
  simp only [memPorts, MTy.size, List.range_eq_range']
  rw [if_neg (by simp [Nat.mul_eq_zero, ht, hlen])]
  exact h1

/-- Every vector of the right width is a list of ports. -/
theorem ports_exist {aw dw : Nat} : ∀ (n : Nat) (b : Bits), b.length = (1 + aw + dw) * n →
    ∃ cs : List (Bool × Bits × Bits), cs.length = n ∧ b = (cs.map portBits).reverse.flatten ∧
      ∀ c ∈ cs, c.2.1.length = aw ∧ c.2.2.length = dw
  | 0, b, h => ⟨[], rfl, by simpa using h, by simp⟩
  | n + 1, b, h => by
    have hn : (1 + aw + dw) * (n + 1) = (1 + aw + dw) * n + (1 + aw + dw) := Nat.mul_succ _ _
    obtain ⟨cs, c1, c2, c3⟩ := ports_exist (aw := aw) (dw := dw) n (b.take ((1 + aw + dw) * n)) (by
      rw [List.length_take, h, hn]; omega)
    have hl : (b.drop ((1 + aw + dw) * n)).length = 1 + aw + dw := by
      rw [List.length_drop, h, hn]; omega
    match hd : b.drop ((1 + aw + dw) * n), hl with
    | [], hl => simp at hl; omega
    | c :: r, hl =>
      simp only [List.length_cons] at hl
      refine ⟨(c, r.take aw, r.drop aw) :: cs, by simp [c1], ?_, ?_⟩
      · simp only [List.map_cons, List.reverse_cons, List.flatten_append, ← c2, portBits,
          List.take_append_drop, List.flatten_singleton, ← hd]
      · intro c' hc'
        rcases List.mem_cons.1 hc' with rfl | hc'
        · simp only [List.length_take, List.length_drop]; omega
        · exact c3 c' hc'

end Spade.Codegen

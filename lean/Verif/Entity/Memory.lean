import Verif.Entity.Exists
/-!
# C50: memories

A read gives the value that was last written to the address, or its initial value.
-/
namespace Spade.Entity
open Spade.Verilog Spade.Codegen Spade.Lower Spade.Expr
open Spade.Match (Val Matches)

variable {P : Prog} {D : Ents}

/-- There is a rising edge of the clock between the instants `s` and `s + 1`, at which `v` is written
to address `a`. -/
def WrittenAt (P : Prog) (D : Ents) (u : Nat) (ins : Inputs) (s : Nat) (m : Mem) (a : Nat) (v : Val) :
    Prop :=
  Gives P D u ins s m.clock (.bool false) ∧ Gives P D u ins (s + 1) m.clock (.bool true) ∧
    ∃ ws, Gives P D u ins s m.writes (.tup ws) ∧ lastWrite ws a = some v ∧ a < m.len

/-- Nothing is written to address `a` between the instants `s` and `s + 1`: there is no rising edge of
the clock, or no port writes to the address. -/
def KeptAt (P : Prog) (D : Ents) (u : Nat) (ins : Inputs) (s : Nat) (m : Mem) (a : Nat) : Prop :=
  Gives P D u ins s m.clock (.bool true) ∨ Gives P D u ins (s + 1) m.clock (.bool false) ∨
    ∃ ws, Gives P D u ins s m.writes (.tup ws) ∧ lastWrite ws a = none

theorem cell_since {u : Nat} {ins : Inputs} {m : Mem} {a s : Nat} {v : Val}
    (h : Cell P D u ins s m a v) : ∀ (k : Nat),
    (∀ r, s ≤ r → r < s + k → KeptAt P D u ins r m a) → Cell P D u ins (s + k) m a v
  | 0, _ => h
  | k + 1, hk => by
    have ih := cell_since h k fun r h1 h2 => hk r h1 (by omega)
    rcases hk (s + k) (by omega) (by omega) with h | h | ⟨ws, h1, h2⟩
    · exact .high h ih
    · exact .low h ih
    · exact .keep h1 h2 ih

/-- The value at address `a` at time `t`: the one that was last written, or the initial one if there
was no write. -/
inductive Stored (P : Prog) (D : Ents) (u : Nat) (ins : Inputs) (t : Nat) (m : Mem) (a : Nat) (v : Val) :
    Prop
  | written (s : Nat) : s < t → WrittenAt P D u ins s m a v →
      (∀ r, s < r → r < t → KeptAt P D u ins r m a) → Stored P D u ins t m a v
  | initial (e : Expr) (vs : List Val) : m.initial = some e → Ev P (fun _ => none) e (.tup vs) →
      vs[a]? = some v → (∀ r, r < t → KeptAt P D u ins r m a) → Stored P D u ins t m a v

theorem Stored.cell {u : Nat} {ins : Inputs} {t : Nat} {m : Mem} {a : Nat} {v : Val}
    (h : Stored P D u ins t m a v) : Cell P D u ins t m a v := by
  cases h with
  | written s hs hw hk =>
    obtain ⟨h1, h2, ws, h3, h4, h5⟩ := hw
    have := cell_since (.write h1 h2 h3 h4 h5) (t - (s + 1)) fun r hr1 hr2 => hk r (by omega) (by omega)
    rwa [show s + 1 + (t - (s + 1)) = t by omega] at this
  | initial e vs h1 h2 h3 hk =>
    have := cell_since (.initial h1 h2 h3) t fun r _ hr => hk r (by omega)
    rwa [Nat.zero_add] at this

/-- C50, partial: take an entity with a memory and a statement `let x = inst read_memory(mem, addr)`,
whose result is `x`.  If at time `t` the address is `a`, then in every history that the generated
hardware produces for the inputs, the output at time `t` encodes the value that was last written to
address `a`, or the initial value of address `a` if there was no write.  If several ports write to
the same address at the same time, the last one counts (`lastWrite`).  The entity may contain other
statements, and registers, memories and instances on which the ports, the clock and the address depend.

Missing: memories without bits, addresses without bits, memories that are passed to other units
(`C50_counterexample_empty`, `C50_counterexample_address`, `C50_counterexample_input`), and what is
missing in C47. -/
theorem C50_read_last_write_partial (P : Prog) (D : Ents) (nids enids : Nat → Nat) (u : Nat) (E : Ent)
    (ins : Inputs) (bits : Nat → List Bits) (out : Nat → Bits) (t : Nat) (m : Mem) (id x : Nat)
    (ty ty' : MTy) (addr : Expr) (a : Nat) (v : Val) (hP : P.Ok) (hD : D.Ok P) (hu : D u = some E)
    (hm : .mem m ∈ E.body) (hr : .read id ty (.bound x ty) m.name addr ∈ E.body)
    (hres : E.result = .var x ty') (ha : Gives P D u ins t addr (.int a))
    (hv : Stored P D u ins t m a v) (hin : InputsEncode E.params ins bits)
    (hout : EProduces (lowerProg P nids) (lowerEnts D enids) u bits out) :
    Enc E.result.ty v (out t) := by
  have hx : Known P D u ins t x v := .read (p := .bound x ty) (ty := ty) hu hr hm rfl ha hv.cell trivial
    (by simp [LPat.binds])
  refine C47_entity_value_partial P D nids enids u E ins bits out t v hP hD hu ?_ hin hout
  rw [hres]
  refine .mk (env := fun n => if n = x then some v else none) (.var (by simp)) ?_
  intro n w h
  simp only [Option.ite_none_right_eq_some, Option.some.injEq] at h
  obtain ⟨rfl, rfl⟩ := h
  exact hx

/-- C50.  The write ports: bits of ports `cs`, port 0 first, have the effect of the ports one after the
other.  Words to which no port writes are kept. -/
theorem C50_write_ports (ρ : Env) (xs : Nat → Bool) (x aw len : Nat) (t : MTy) (ws : List Val)
    (haw : aw ≠ 0) (ht : t.size ≠ 0) (hlen : len ≠ 0) (h32 : (ρ x).length ≤ 2 ^ 32)
    (he : Enc (.array (.tuple [.bool, .uint aw, t]) ws.length) (.tup ws) (ρ x)) (f : Nat → Bits) :
    ∃ ps f', memPorts (.memory t len) (.array (.tuple [.bool, .uint aw, t]) ws.length) x = some ps ∧
      storeAll ρ xs t.size ps f = some f' ∧
      ∀ a, (lastWrite ws a = none → f' a = f a) ∧ ∀ v, lastWrite ws a = some v → Enc t v (f' a) := by
  generalize hb : ρ x = b at he
  cases he with
  | array he =>
  obtain ⟨cs, c1, rfl, c3, c4⟩ := ports_last he
  obtain ⟨ps, q1, q2⟩ := memPorts_store (xs := xs) (t := t) (t' := .bool) haw ht hlen h32 hb c3
  rw [c1] at q1
  exact ⟨ps, _, q1, q2 f, fun a => c4 f a⟩

end Spade.Entity

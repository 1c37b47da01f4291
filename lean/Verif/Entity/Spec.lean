import Verif.Expr.Accept
import Verif.Codegen.EvalAgree
import Verif.Codegen.Memory
/-!
# Entities with registers and memories and their meaning

What the values of the variables of an entity are over time, and what it means for generated
hardware to have a history.  Nothing here refers to the lowering.

Time is a sequence of instants.  At each instant all signals are stable.  A register takes its new
value at the first instant at which its clock is high after one at which it was low, and the new
value is computed from the values at the instant before, as a synchronous circuit does.
-/
namespace Spade.Entity
open Spade.Verilog Spade.Codegen Spade.Lower Spade.Expr
open Spade.Match (Val Matches)

/-! ## Syntax -/

/-- `hir::Register` (spade-hir/src/lib.rs): `reg(clock) p reset(trigger: value) initial(init) =
value`.  Attributes are dropped. -/
structure Reg where
  p : LPat
  clock : Expr
  reset : Option (Expr × Expr)
  initial : Option Expr
  value : Expr

/-- `let name: Memory<elem, len> = inst clocked_memory(clock, writes)`, or `clocked_memory_init` with
initial values (spade-compiler/stdlib/mem.spade:12-25).  There are `ports` write ports, with addresses
of `width` bits; `id` is the id of the instantiation. -/
structure Mem where
  id : Nat
  name : Nat
  elem : MTy
  len : Nat
  width : Nat
  ports : Nat
  clock : Expr
  writes : Expr
  initial : Option Expr

/-- A statement of an entity: one that may also occur in functions, a register,
`let p = inst u(args)`, with `id` and `ty` the id and type of the instantiation, a memory, or
`let p = inst read_memory(mem, addr)`.  Instances in other places and registers inside inner blocks
are not modelled; a program with those is the same as one in which they are moved to the outermost
block.  Memories are only read where they are defined: see `C50_counterexample_input` for memories
that are passed to other units. -/
inductive EStm where
  | stm (s : Stm)
  | reg (r : Reg)
  | inst (id : Nat) (ty : MTy) (p : LPat) (u : Nat) (args : List Expr)
  | mem (m : Mem)
  | read (id : Nat) (ty : MTy) (p : LPat) (mem : Nat) (addr : Expr)

/-- An entity: its parameters, statements, result and the types of the variables. -/
structure Ent where
  params : List (Nat × MTy)
  body : List EStm
  result : Expr
  types : Nat → MTy

/-- The entities of a program by name.  Functions are in a `Prog`. -/
abbrev Ents := Nat → Option Ent

/-! ## Meaning -/

/-- The inputs of an entity over time, as far as they are known: time, position of the parameter. -/
abbrev Inputs := Nat → Nat → Option Val

/-- The data that a write port writes to address `a`, if it does: ports are triples of write enable,
address and data. -/
def written : Val → Nat → Option Val
  | .tup [.bool true, .int z, v], a => if z = (a : Int) then some v else none
  | _, _ => none

/-- The data that is written to address `a` by the ports.  If several ports write to the same address
the last one counts. -/
def lastWrite : List Val → Nat → Option Val
  | [], _ => none
  | w :: ws, a => (lastWrite ws a).or (written w a)

mutual
/-- `Known P D u ins t n v`: at time `t`, variable `n` of the entity `u` has the value `v` if the
inputs are `ins`. -/
inductive Known (P : Prog) (D : Ents) : Nat → Inputs → Nat → Nat → Val → Prop
  | input {u E ins t k p v} : D u = some E → E.params[k]? = some p → ins t k = some v →
      Known P D u ins t p.1 v
  | bind {u E ins t p e v n ty w} : D u = some E → .stm (.bind p e) ∈ E.body →
      Gives P D u ins t e v → Matches p.src v → (n, ty, w) ∈ p.binds v → Known P D u ins t n w
  | reg {u E ins t r v n ty w} : D u = some E → .reg r ∈ E.body → State P D u ins t r v →
      Matches r.p.src v → (n, ty, w) ∈ r.p.binds v → Known P D u ins t n w
  /-- What is known about the result of an instance follows from what is known about its inputs,
  now and before. -/
  | inst {u E ins t id tyi p u' args ins' E' v n ty w} : D u = some E →
      .inst id tyi p u' args ∈ E.body → D u' = some E' →
      (∀ s k e x, args[k]? = some e → ins' s k = some x → Gives P D u ins s e x) →
      Gives P D u' ins' t E'.result v →
      Matches p.src v → (n, ty, w) ∈ p.binds v → Known P D u ins t n w
  /-- Reads are not clocked: they give what is stored at the same instant. -/
  | read {u E ins t id tyi p m addr M v n ty w} {a : Nat} : D u = some E →
      .read id tyi p m addr ∈ E.body → .mem M ∈ E.body → M.name = m →
      Gives P D u ins t addr (.int a) → Cell P D u ins t M a v →
      Matches p.src v → (n, ty, w) ∈ p.binds v → Known P D u ins t n w
/-- The value of an expression, from known values of variables. -/
inductive Gives (P : Prog) (D : Ents) : Nat → Inputs → Nat → Expr → Val → Prop
  | mk {u ins t env e v} : Ev P env e v → (∀ n w, env n = some w → Known P D u ins t n w) →
      Gives P D u ins t e v
/-- The value that a register holds. -/
inductive State (P : Prog) (D : Ents) : Nat → Inputs → Nat → Reg → Val → Prop
  | initial {u ins r e v} : r.initial = some e → Ev P (fun _ => none) e v → State P D u ins 0 r v
  /-- A rising edge of the clock of a register without reset. -/
  | tick {u ins t r v} : r.reset = none → Gives P D u ins t r.clock (.bool false) →
      Gives P D u ins (t + 1) r.clock (.bool true) → Gives P D u ins t r.value v →
      State P D u ins (t + 1) r v
  /-- A rising edge while there is no reset. -/
  | run {u ins t r c e v} : r.reset = some (c, e) → Gives P D u ins t r.clock (.bool false) →
      Gives P D u ins (t + 1) r.clock (.bool true) → Gives P D u ins t c (.bool false) →
      Gives P D u ins t r.value v → State P D u ins (t + 1) r v
  /-- A rising edge during a reset. -/
  | reset {u ins t r c e v} : r.reset = some (c, e) → Gives P D u ins t r.clock (.bool false) →
      Gives P D u ins (t + 1) r.clock (.bool true) → Gives P D u ins t c (.bool true) →
      Gives P D u ins t e v → State P D u ins (t + 1) r v
  /-- The clock is low: the register keeps its value. -/
  | low {u ins t r v} : Gives P D u ins (t + 1) r.clock (.bool false) → State P D u ins t r v →
      State P D u ins (t + 1) r v
  /-- The clock was high: the register keeps its value. -/
  | high {u ins t r v} : Gives P D u ins t r.clock (.bool true) → State P D u ins t r v →
      State P D u ins (t + 1) r v
/-- The value that is stored at an address of a memory. -/
inductive Cell (P : Prog) (D : Ents) : Nat → Inputs → Nat → Mem → Nat → Val → Prop
  | initial {u ins m e vs a v} : m.initial = some e → Ev P (fun _ => none) e (.tup vs) →
      vs[a]? = some v → Cell P D u ins 0 m a v
  /-- A rising edge of the clock: the address is written. -/
  | write {u ins t m ws a v} : Gives P D u ins t m.clock (.bool false) →
      Gives P D u ins (t + 1) m.clock (.bool true) → Gives P D u ins t m.writes (.tup ws) →
      lastWrite ws a = some v → a < m.len → Cell P D u ins (t + 1) m a v
  /-- No port writes to the address. -/
  | keep {u ins t m ws a v} : Gives P D u ins t m.writes (.tup ws) →
      lastWrite ws a = none → Cell P D u ins t m a v → Cell P D u ins (t + 1) m a v
  /-- The clock is low: the memory keeps its values. -/
  | low {u ins t m a v} : Gives P D u ins (t + 1) m.clock (.bool false) → Cell P D u ins t m a v →
      Cell P D u ins (t + 1) m a v
  /-- The clock was high: the memory keeps its values. -/
  | high {u ins t m a v} : Gives P D u ins t m.clock (.bool true) → Cell P D u ins t m a v →
      Cell P D u ins (t + 1) m a v
end

/-! ## What the compiler guarantees or should check -/

mutual
/-- Initial values that the compile time evaluator supports: literals, tuples, arrays, casts,
constructors, sums, differences and negations of signed numbers.  The compiler accepts more, and
crashes on it (`C47_counterexample_tuple_index` and others).  A negation whose result is out of
range is left out (`C11_counterexample_negation`). -/
def Foldable : Expr → Prop
  | .int _ ty _ => (∃ n, ty = .int n ∨ ty = .uint n) ∧ ty.size ≠ 0
  | .bool _ _ => True
  | .bin _ ty op l r => (op = .add ∨ op = .sub) ∧ (∃ n, ty = .int n) ∧ Foldable l ∧ Foldable r
  | .un _ ty op e => op = .neg ∧ Foldable e ∧
      ∀ (P : Prog) z, Ev P (fun _ => none) e (.int z) → InRange ty (-z)
  | .tuple _ _ es | .array _ _ es | .call _ _ (.variant _) es | .call _ _ .struct es => Foldables es
  | .cast _ _ e | .rep _ _ e _ => Foldable e
  | _ => False
/-- All of them. -/
def Foldables : List Expr → Prop
  | [] => True
  | e :: es => Foldable e ∧ Foldables es
end

/-- What type inference and name resolution guarantee for a register (`visit_register`,
spade-typeinference/src/lib.rs:2554-2650). -/
structure Reg.Ok (sig : Nat → Option (List MTy × MTy)) (Γ : Nat → MTy) (r : Reg) : Prop where
  pat : PatOk r.p
  clock : r.clock.ty = .bool ∧ r.clock.Ok sig Γ
  reset : ∀ c e, r.reset = some (c, e) → c.ty = .bool ∧ c.Ok sig Γ ∧ e.ty = r.p.ty ∧ e.Ok sig Γ
  initial : ∀ e, r.initial = some e → Foldable e ∧ e.names.Nodup ∧ e.ty = r.p.ty ∧ e.Ok sig Γ
  value : r.value.ty = r.p.ty ∧ r.value.Ok sig Γ

/-- The type of the write ports of a memory. -/
def Mem.portsTy (m : Mem) : MTy := .array (.tuple [.bool, .uint m.width, m.elem]) m.ports

/-- The type of a memory. -/
def Mem.ty (m : Mem) : MTy := .memory m.elem m.len

/-- What type inference guarantees for a memory: the signatures in
spade-compiler/stdlib/mem.spade:12-25.  Memories without bits and addresses without bits are left out
(`C50_counterexample_empty`, `C50_counterexample_address`). -/
structure Mem.Ok (sig : Nat → Option (List MTy × MTy)) (Γ : Nat → MTy) (m : Mem) : Prop where
  clock : m.clock.ty = .bool ∧ m.clock.Ok sig Γ
  writes : m.writes.ty = m.portsTy ∧ m.writes.Ok sig Γ
  initial : ∀ e, m.initial = some e → Foldable e ∧ e.names.Nodup ∧ e.ty = .array m.elem m.len ∧
    e.Ok sig Γ
  width : m.width ≠ 0
  elem : m.elem.size ≠ 0
  len : m.len ≠ 0
  size : m.portsTy.size ≤ 2 ^ 32

/-- What type inference guarantees for a statement of an entity. -/
def EStm.Ok (sig : Nat → Option (List MTy × MTy)) (D : Ents) (Γ : Nat → MTy) : EStm → Prop
  | .stm s => Stms.Ok sig Γ [s]
  | .reg r => r.Ok sig Γ
  | .inst _ ty p u args => PatOk p ∧ p.ty = ty ∧ Exprs.Ok sig Γ args ∧
      ∀ E, D u = some E → args.map Expr.ty = E.params.map (·.2) ∧ ty = E.result.ty
  | .mem m => m.Ok sig Γ ∧ Γ m.name = m.ty
  | .read _ ty p m addr => PatOk p ∧ p.ty = ty ∧ (∃ len, Γ m = .memory ty len) ∧ addr.Ok sig Γ ∧
      ∃ w, addr.ty = .uint w ∧ w ≠ 0

/-- Type inference accepts the entities. -/
def Ents.Ok (P : Prog) (D : Ents) : Prop :=
  ∀ u E, D u = some E → (∀ p ∈ E.params, E.types p.1 = p.2) ∧
    (∀ s ∈ E.body, s.Ok P.sig D E.types) ∧ E.result.Ok P.sig E.types

/-! ## Hardware -/

/-- A statement of an entity in MIR: one that may also occur in functions, `mir::Register`
(spade-mir/src/lib.rs), an instance of an entity, `DeclClockedMemory` or `IndexMemory`. -/
inductive EItem where
  | item (i : Item)
  | reg (n : Nat) (ty : MTy) (clock : Nat) (reset : Option (Nat × Nat)) (initial : Option (List Stmt))
      (value : Nat)
  | inst (n : Nat) (ty : MTy) (u : Nat) (ops : List Nat)
  | mem (n : Nat) (t : MTy) (len clock writes : Nat) (initial : Option (List (List Stmt)))
  | read (n : Nat) (ty : MTy) (m addr : Nat)

/-- `mir::Entity` (spade-mir/src/lib.rs) with registers. -/
structure HEnt where
  inputs : List (Nat × MTy)
  items : List EItem
  output : Nat
  types : Nat → MTy

/-- What `if (trigger) n <= reset; else n <= value;` assigns. -/
def regNext (ρ : Env) (reset : Option (Nat × Nat)) (value : Nat) : Bits :=
  match reset with
  | none => ρ (fwd value)
  | some (c, r) => if ρ (fwd c) = [true] then ρ (fwd r) else ρ (fwd value)

/-- There is a rising edge of the clock between two instants. -/
def posedge (clock : Nat) (ρ ρ' : Env) : Prop := ρ (fwd clock) = [false] ∧ ρ' (fwd clock) = [true]

mutual
/-- A statement holds of the history `ρ` of the signals of an entity.  Statements that drive signals
hold at each instant.  The code for a register (spade-mir/src/codegen/mod.rs:1118-1155) is
`initial n = 'b...;`, where the literal is what the compile time evaluator gives and `X` stands for
any bit, and an assignment at each rising edge of the clock; otherwise the register keeps its value.
An instance drives its signal with a history of the output that the instantiated entity produces for
the histories of the operands.

The signal of a memory is the list of its words (`Verif.Verilog.Memory`).  It starts with
`initial n[i] = 'b...;` for all initial values, and changes at rising edges of the clock as the
generated statements say.  A read is `assign n = m[addr];`, which is undefined if there is no such
word. -/
inductive EHolds (H : Nat → Option HUnit) (HE : Nat → Option HEnt) :
    (Nat → MTy) → (Nat → Env) → (Nat → Nat → Nat → Bool) → EItem → Prop
  | item {Γ ρ xs i} : (∀ t, ItemHolds H Γ (ρ t) (xs t) i) → EHolds H HE Γ ρ xs (.item i)
  | reg {Γ ρ xs n ty clock reset initial value} : Γ n = ty →
      (∀ ss, initial = some ss → ∃ v str, evalStatements ss = some v ∧ v.asString = some str ∧
        Fills str (ρ 0 (fwd n))) →
      (∀ t, posedge clock (ρ t) (ρ (t + 1)) → ρ (t + 1) (fwd n) = regNext (ρ t) reset value) →
      (∀ t, ¬ posedge clock (ρ t) (ρ (t + 1)) → ρ (t + 1) (fwd n) = ρ t (fwd n)) →
      EHolds H HE Γ ρ xs (.reg n ty clock reset initial value)
  | inst {Γ ρ xs n ty u ops} : Γ n = ty →
      EProduces H HE u (fun t => ops.map fun o => ρ t (fwd o)) (fun t => ρ t (fwd n)) →
      EHolds H HE Γ ρ xs (.inst n ty u ops)
  | mem {Γ ρ xs n t len clock writes initial ps} : Γ n = .memory t len →
      memPorts (.memory t len) (Γ writes) (fwd writes) = some ps →
      (∀ sss, initial = some sss → ∀ a ss, sss[a]? = some ss → ∃ v str, evalStatements ss = some v ∧
        v.asString = some str ∧ (a < len → Fills str (word t.size (ρ 0 (fwd n)) a))) →
      (∀ s, ∃ m, storeAll (ρ s) (xs s n) t.size ps (word t.size (ρ s (fwd n))) = some m ∧
        (posedge clock (ρ s) (ρ (s + 1)) → ∀ a, a < len → word t.size (ρ (s + 1) (fwd n)) a = m a)) →
      (∀ s, ¬ posedge clock (ρ s) (ρ (s + 1)) → ρ (s + 1) (fwd n) = ρ s (fwd n)) →
      EHolds H HE Γ ρ xs (.mem n t len clock writes initial)
  | read {Γ ρ xs n ty m addr len} : Γ n = ty → Γ m = .memory ty len →
      (∀ s, ρ s (fwd addr) ≠ [] ∧ (toNat (ρ s (fwd addr)) < len →
        ρ s (fwd n) = word ty.size (ρ s (fwd m)) (toNat (ρ s (fwd addr))))) →
      EHolds H HE Γ ρ xs (.read n ty m addr)
/-- An entity produces the history `out` for the history `ins` of its inputs: its signals have
values of the declared widths for which all statements hold. -/
inductive EProduces (H : Nat → Option HUnit) (HE : Nat → Option HEnt) :
    Nat → (Nat → List Bits) → (Nat → Bits) → Prop
  | mk {u h ρ xs ins out} : HE u = some h → (∀ t n, Fits h.types (ρ t) n) →
      (∀ t, ins t = h.inputs.map (fun i => ρ t (fwd i.1))) →
      (∀ i ∈ h.items, EHolds H HE h.types ρ xs i) → (∀ t, out t = ρ t (fwd h.output)) →
      EProduces H HE u ins out
end

/-- The histories of the input signals stand for the values that are known of the inputs. -/
def InputsEncode (params : List (Nat × MTy)) (ins : Inputs) (bits : Nat → List Bits) : Prop :=
  ∀ (t k : Nat) v p b, ins t k = some v → params[k]? = some p → (bits t)[k]? = some b → Enc p.2 v b

end Spade.Entity

/-!
# Lowered units

Models `ValueName`, `Statement`, `Entity` of spade-mir/src/lib.rs.  Locations are omitted: equality
of `Loc` ignores them (spade-common/src/location_info.rs:318-326).  The operators other than `Alias`,
the types, the constants and the initial values of registers are type variables `Op`, `Ty`, `C`,
`Ini`: the passes modelled on top of this file do not look inside them.
-/
namespace Spade.Mir

/-- `ValueName` (lib.rs:88-106); the source of a name is metadata and is skipped by equality. -/
inductive Name where
  | named (id : Nat) (s : String)
  | expr (id : Nat)
  deriving DecidableEq

/-- `Operator` (lib.rs:170-323): `Alias` and the rest. -/
inductive Operator (Op : Type) where
  | alias
  | other (op : Op)
  deriving DecidableEq

/-- `Binding` (lib.rs:432-438). -/
structure Binding (Op Ty : Type) where
  name : Name
  operator : Operator Op
  operands : List Name
  ty : Ty
  deriving DecidableEq

/-- `Register` (lib.rs:459-467). -/
structure Register (Ty Ini : Type) where
  name : Name
  ty : Ty
  clock : Name
  reset : Option (Name × Name)
  initial : Option Ini
  value : Name
  deriving DecidableEq

/-- `Statement` (lib.rs:498-509). -/
inductive Stmt (Op Ty C Ini : Type) where
  | binding (b : Binding Op Ty)
  | register (r : Register Ty Ini)
  | constant (name : Name) (ty : Ty) (value : C)
  | assert (name : Name)
  | set (target value : Name)
  | error
  deriving DecidableEq

/-- `MirInput` (lib.rs:524-530); `no_mangle` is a location in the code and a flag here. -/
structure Input (Ty : Type) where
  name : String
  valName : Name
  ty : Ty
  noMangle : Bool
  deriving DecidableEq

/-- `Entity` (lib.rs:531-543), without the Verilog attributes and the `inline` flag. -/
structure Entity (Op Ty C Ini : Type) where
  name : String
  inputs : List (Input Ty)
  output : Name
  outputTy : Ty
  stmts : List (Stmt Op Ty C Ini)

variable {Op Ty C Ini : Type}

/-! ## Meaning

A unit constrains the values of its signals.  A value may be anything, for instance the history of a
signal over time in both directions, so that registers, memories, instances and backward wires are
covered. -/

/-- Meaning of everything but names and aliases. -/
structure Interp (Op Ty C Ini V : Type) where
  /-- operator, type, result, operands -/
  op : Op → Ty → V → List V → Prop
  /-- type, initial value, clock, reset trigger and value, input, register -/
  reg : Ty → Option Ini → V → Option (V × V) → V → V → Prop
  const : Ty → C → V → Prop
  assert : V → Prop
  set : V → V → Prop

/-- A valuation satisfies a statement. -/
def Stmt.Sat {V : Type} (I : Interp Op Ty C Ini V) (v : Name → V) : Stmt Op Ty C Ini → Prop
  | .binding b => match b.operator with
    | .alias => ∀ o, b.operands.head? = some o → v b.name = v o
    | .other op => I.op op b.ty (v b.name) (b.operands.map v)
  | .register r =>
    I.reg r.ty r.initial (v r.clock) (r.reset.map fun p => (v p.1, v p.2)) (v r.value) (v r.name)
  | .constant n t c => I.const t c (v n)
  | .assert n => I.assert (v n)
  | .set t x => I.set (v t) (v x)
  | .error => False

/-- A valuation satisfies a unit: it satisfies all statements. -/
def Entity.Sat {V : Type} (I : Interp Op Ty C Ini V) (v : Name → V) (e : Entity Op Ty C Ini) : Prop :=
  ∀ s ∈ e.stmts, s.Sat I v

/-- The name a statement defines. -/
def Stmt.defines : Stmt Op Ty C Ini → Option Name
  | .binding b => some b.name
  | .register r => some r.name
  | .constant n _ _ => some n
  | _ => none

/-- All names in a statement. -/
def Stmt.names : Stmt Op Ty C Ini → List Name
  | .binding b => b.name :: b.operands
  | .register r => r.name :: r.clock :: r.value :: (match r.reset with
    | some (t, x) => [t, x]
    | none => [])
  | .constant n _ _ => [n]
  | .assert n => [n]
  | .set t x => [t, x]
  | .error => []

/-- The names defined in a unit, with repetitions. -/
def Entity.defs (e : Entity Op Ty C Ini) : List Name := e.stmts.filterMap Stmt.defines

/-- Names of the inputs. -/
def Entity.inputNames (e : Entity Op Ty C Ini) : List Name := e.inputs.map (·.valName)

/-- Every name is defined once, and inputs are not defined. -/
def Entity.SingleDefs (e : Entity Op Ty C Ini) : Prop :=
  e.defs.Nodup ∧ ∀ n ∈ e.inputNames, n ∉ e.defs

/-- Replace all names in a statement. -/
def Stmt.rename (f : Name → Name) : Stmt Op Ty C Ini → Stmt Op Ty C Ini
  | .binding b => .binding { b with name := f b.name, operands := b.operands.map f }
  | .register r => .register { r with
      name := f r.name, clock := f r.clock, value := f r.value,
      reset := r.reset.map fun p => (f p.1, f p.2) }
  | .constant n t c => .constant (f n) t c
  | .assert n => .assert (f n)
  | .set t x => .set (f t) (f x)
  | .error => .error

theorem Stmt.sat_rename {V : Type} (I : Interp Op Ty C Ini V) (v : Name → V) (f : Name → Name)
    (s : Stmt Op Ty C Ini) : (s.rename f).Sat I v ↔ s.Sat I (fun n => v (f n)) := by
  cases s with
  | binding b =>
    rcases b with ⟨n, op, os, ty⟩
    cases op with
    | alias =>
      simp only [Stmt.rename, Stmt.Sat, List.head?_map, Option.map_eq_some_iff]
      constructor
      · intro h o ho; exact h _ ⟨o, ho, rfl⟩
      · rintro h _ ⟨o, ho, rfl⟩; exact h o ho
    | other op => simp [Stmt.rename, Stmt.Sat, Function.comp_def]
  | register r =>
    rcases r with ⟨n, ty, clk, rst, ini, val⟩
    cases rst <;> simp [Stmt.rename, Stmt.Sat]
  | _ => simp [Stmt.rename, Stmt.Sat]

theorem Stmt.sat_congr {V : Type} (I : Interp Op Ty C Ini V) {v w : Name → V}
    (s : Stmt Op Ty C Ini) (h : ∀ n ∈ s.names, v n = w n) : s.Sat I v ↔ s.Sat I w := by
  cases s with
  | binding b =>
    rcases b with ⟨n, op, os, ty⟩
    simp only [Stmt.names, List.mem_cons, forall_eq_or_imp] at h
    cases op with
    | alias =>
      simp only [Stmt.Sat, h.1]
      constructor
      · intro hh o ho; rw [← h.2 o (List.mem_of_head? ho)]; exact hh o ho
      · intro hh o ho; rw [h.2 o (List.mem_of_head? ho)]; exact hh o ho
    | other op =>
      simp only [Stmt.Sat, h.1]
      rw [List.map_congr_left h.2]
  | register r =>
    rcases r with ⟨n, ty, clk, rst, ini, val⟩
    cases rst with
    | none => simp [Stmt.names] at h; simp [Stmt.Sat, h]
    | some p => simp [Stmt.names] at h; simp [Stmt.Sat, h]
  | constant n t c => simp [Stmt.names] at h; simp [Stmt.Sat, h]
  | assert n => simp [Stmt.names] at h; simp [Stmt.Sat, h]
  | set t x => simp [Stmt.names] at h; simp [Stmt.Sat, h]
  | error => simp [Stmt.Sat]

theorem Stmt.defines_rename (f : Name → Name) (s : Stmt Op Ty C Ini) :
    (s.rename f).defines = s.defines.map f := by
  cases s <;> rfl

theorem Stmt.mem_names_rename (f : Name → Name) (s : Stmt Op Ty C Ini) (n : Name) :
    n ∈ (s.rename f).names ↔ ∃ m ∈ s.names, f m = n := by
  have : (s.rename f).names = s.names.map f := by
    cases s with
    | register r =>
      rcases r with ⟨n, ty, clk, rst, ini, val⟩
      cases rst <;> rfl
    | _ => rfl
  rw [this, List.mem_map]

end Spade.Mir

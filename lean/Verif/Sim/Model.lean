import Verif.Sim.Spec
/-!
# The simulation library

Models spade-simulation-ext/src/{lib,field_ref,range}.rs and the part of
spade-python/python/spade/__init__.py that writes fields.  Not modelled: the compilation of expressions (an
oracle says what comes of it), messages, and types that are not fully known.
-/
namespace Spade.Sim

open Spade.Codegen
open Spade.Vcd (Str Ty)

/-- `UptoRange` (range.rs:8-15). -/
structure Range where
  start : Nat
  stop : Nat
  full : Bool

/-- `FieldSource` (field_ref.rs:12-18). -/
inductive Source where
  | input (fwd back : Str)
  | output

/-- `FieldSource::fwd_mangled` (field_ref.rs:22-30). -/
def Source.fwdMangled : Source → Str
  | .input f _ => f
  | .output => ['i', 'n', 'p', 'u', 't', '_', '_']

/-- `FieldSource::back_mangled` (field_ref.rs:32-40). -/
def Source.backMangled : Source → Str
  | .input _ b => b
  | .output => ['o', 'u', 't', 'p', 'u', 't', '_', '_']

/-- `FieldRef` (field_ref.rs:51-64). -/
structure Ref where
  fwd : Option Range
  back : Option Range
  source : Source
  ty : Ty
  path : List Str

inductive Err where
  | noSuchField
  | noSuchInput
  /-- more than `u64::MAX` bits -/
  | tooWide
  /-- the field has no wires in the direction, or wires in both -/
  | direction
  /-- `Internal error: Backward type had non-inv field` -/
  | internal
  /-- the expression does not compile -/
  | compile
  /-- an exception of cocotb -/
  | python
  | panic
  deriving DecidableEq

/-- What comes of the compilation of an expression. -/
inductive Compiled (α : Type) where
  /-- the parser fails, before the state is taken -/
  | unparsable
  /-- anything after that fails -/
  | ill
  | value (bits : List α)

/-- The state of `Spade` (lib.rs:179-191) that decides on fields: whether the compiler state is there, and the two
caches. -/
structure St (α : Type) where
  owned : Bool
  cache : List (List Str × Ref)
  compiled : List ((Ty × Str) × List α)

/-- A map lookup; insertion is in front. -/
def get {κ ν : Type} [BEq κ] (m : List (κ × ν)) (k : κ) : Option ν := (m.find? fun e => e.1 == k).map (·.2)

/-- The ranges of a whole port (lib.rs:386-407 and 675-696). -/
def wholeRange (size : Nat) : Except Err (Option Range) :=
  if size ≠ 0 then
    if size < 2 ^ 64 then .ok (some ⟨0, size, true⟩) else .error .tooWide
  else .ok none

def outName : List Str := [['o']]

variable {α : Type}

/-- `output_as_field_ref` (lib.rs:344-418). -/
def outputRef (u : Uut) (st : St α) : Except Err (Option Ref) × St α :=
  match get st.cache outName with
  | some r => (.ok (some r), st)
  | none =>
    match u.output with
    | none => (.ok none, st)
    | some t =>
      if st.owned = false then (.error .panic, st)
      else
        let concrete := hw t
        match wholeRange concrete.toMir.size with
        | .error e => (.error e, st)
        | .ok fwd =>
          match wholeRange concrete.toMir.backSize with
          | .error e => (.error e, st)
          | .ok back =>
            let r : Ref := ⟨fwd, back, .output, t, outName⟩
            (.ok (some r), { st with cache := (outName, r) :: st.cache })

/-- `get_arg` (lib.rs:766-812). -/
def getArg (u : Uut) (arg : Str) : Except Err (Source × Ty) :=
  match u.inputs.find? (fun e => e.1 == arg) with
  | some (_, t, f, b) => .ok (.input f b, t)
  | none => .error .noSuchInput

/-- `arg_as_field` (lib.rs:652-707).  The compiler state is taken before the ranges are computed and not given
back if that fails. -/
def argRef (u : Uut) (arg : Str) (st : St α) : Except Err Ref × St α :=
  let path := [['i'], arg]
  match get st.cache path with
  | some r => (.ok r, st)
  | none =>
    if st.owned = false then (.error .panic, st)
    else
      match getArg u arg with
      | .error e => (.error e, st)
      | .ok (source, t) =>
        let concrete := hw t
        match wholeRange concrete.toMir.size with
        | .error e => (.error e, { st with owned := false })
        | .ok fwd =>
          match wholeRange concrete.toMir.backSize with
          | .error e => (.error e, { st with owned := false })
          | .ok back =>
            let r : Ref := ⟨fwd, back, source, t, path⟩
            (.ok r, { st with cache := (path, r) :: st.cache })

/-- `concrete_ty_has_field` (lib.rs:1005-1015). -/
def hasField : Ty → Str → Bool
  | .struct ns _, f => ns.contains f
  | .backward t, f => hasField t f
  | _, _ => false

/-- The field of a declared struct (`try_get_arg_type`, requirements.rs:163). -/
def argType (ns : List Str) (ts : List Ty) (f : Str) : Option Ty :=
  ((ns.zip ts).find? fun e => e.1 == f).map (·.2)

/-- `resolve_named_or_inverted` (spade-typeinference/src/equation.rs:374-394) on known types. -/
def namedOrInverted (inverted : Bool) : Ty → Option (Bool × List Str × List Ty)
  | .backward t => namedOrInverted (!inverted) t
  | .struct ns ts => some (inverted, ns, ts)
  | _ => none

/-- `Requirement::HasField` (spade-typeinference/src/requirements.rs:109-204): the type of `o.f`, where `o` has
a known type.  Types below copy views have no fields here, because `hasField` has rejected them. -/
def fieldType (t : Ty) (f : Str) : Option Ty :=
  match namedOrInverted false t with
  | none => none
  | some (inverted, ns, ts) =>
    match argType ns ts f with
    | none => none
    | some raw =>
      if inverted then
        match raw with
        | .backward inner => some inner
        | raw => some (.backward raw)
      else some raw

/-- The loop of `get_range` (lib.rs:558-564): where the field starts, and its size. -/
def locate (size : Ty → Nat) (next : Str) : List (Str × Ty) → Nat × Nat
  | [] => (0, 0)
  | (f, t) :: ms =>
    if f = next then (0, size t)
    else
      let (start, self) := locate size next ms
      (size t + start, self)

/-- `get_range` (lib.rs:551-589). -/
def getRange (ms : List (Str × Ty)) (next : Str) (outer : Option Range) (size : Ty → Nat) :
    Except Err (Option Range) :=
  match outer with
  | none => .ok none
  | some outer =>
    let (startInOuter, self) := locate size next ms
    let start := outer.start + startInOuter
    let stop := start + self
    if ¬ start < 2 ^ 64 then .error .tooWide
    else if ¬ stop < 2 ^ 64 then .error .tooWide
    else
      let full := outer.full && (outer.start == start) && (outer.stop == stop)
      if self ≠ 0 then .ok (some ⟨start, stop, full⟩) else .ok none

/-- `field_of_field` (lib.rs:420-635).  The compiler state is taken, and is lost if an error is
returned before it is given back. -/
def fieldOf (r : Ref) (next : Str) (st : St α) : Except Err Ref × St α :=
  let path := r.path ++ [next]
  match get st.cache path with
  | some c => (.ok c, st)
  | none =>
    if st.owned = false then (.error .panic, st)
    else
      let taken := { st with owned := false }
      if hasField (hw r.ty) next = false then (.error .noSuchField, taken)
      else match fieldType r.ty next with
        | none => (.error .compile, taken)
        | some t =>
          match hw r.ty with
          | .struct ns ts =>
            let ms := ns.zip ts
            match getRange ms next r.fwd fun t => t.toMir.size with
            | .error e => (.error e, st)
            | .ok fwd =>
              match getRange ms next r.back fun t => t.toMir.backSize with
              | .error e => (.error e, st)
              | .ok back =>
                let c : Ref := ⟨fwd, back, r.source, t, path⟩
                (.ok c, { st with cache := (path, c) :: st.cache })
          | _ => (.error .panic, taken)

/-- The directions as the source sees them (field_ref.rs:90-94 and 136-140). -/
def Ref.ranges (r : Ref) : Option Range × Option Range :=
  match r.source with
  | .output => (r.back, r.fwd)
  | .input _ _ => (r.fwd, r.back)

/-- `write_dir_range` (field_ref.rs:89-133). -/
def Ref.writeDirRange (r : Ref) : Except Err Range :=
  match r.ranges with
  | (some fwd, none) => .ok fwd
  | _ => .error .direction

/-- `read_dir_range` (field_ref.rs:135-179). -/
def Ref.readDirRange (r : Ref) : Except Err Range :=
  match r.ranges with
  | (none, some back) => .ok back
  | _ => .error .direction

/-- `write_range_and_type` (field_ref.rs:183-194). -/
def Ref.writeRangeAndType (r : Ref) : Except Err (Range × Ty) :=
  match r.writeDirRange with
  | .error e => .error e
  | .ok range =>
    match r.source with
    | .output =>
      match r.ty with
      | .backward inner => .ok (range, inner)
      | _ => .error .internal
    | .input _ _ => .ok (range, r.ty)

/-- `read_range_and_type` (field_ref.rs:196-207). -/
def Ref.readRangeAndType (r : Ref) : Except Err (Range × Ty) :=
  match r.readDirRange with
  | .error e => .error e
  | .ok range =>
    match r.source with
    | .output => .ok (range, r.ty)
    | .input _ _ =>
      match r.ty with
      | .backward inner => .ok (range, inner)
      | _ => .error .internal

/-- `extract_field_read_bits` (lib.rs:714-737): the bits of the field, its type and its concrete type. -/
def extract (r : Ref) (bits : List α) (st : St α) : Except Err (List α × Ty × Ty) :=
  match r.readRangeAndType with
  | .error e => .error e
  | .ok (range, t) =>
    if st.owned = false then .error .panic
    else if range.start ≤ range.stop ∧ range.stop ≤ bits.length then
      .ok ((bits.drop range.start).take (range.stop - range.start), t, hw t)
    else .error .panic

/-- `compile_expr` (lib.rs:817-968), with `what` for the compiler. -/
def compileExpr [BEq Ty] (what : Ty → Str → Compiled α) (expr : Str) (t : Ty) (st : St α) :
    Except Err (List α) × St α :=
  match get st.compiled (t, expr) with
  | some v => (.ok v, st)
  | none =>
    match what t expr with
    | .unparsable => (.error .compile, st)
    | c =>
      if st.owned = false then (.error .panic, st)
      else match c with
        | .value v => (.ok v, { st with compiled := ((t, expr), v) :: st.compiled })
        | _ => (.error .compile, { st with owned := false })

/-- `compile_field_value` (lib.rs:335-341). -/
def compileFieldValue [BEq Ty] (what : Ty → Str → Compiled α) (r : Ref) (expr : Str) (st : St α) :
    Except Err (List α) × St α :=
  match r.writeRangeAndType with
  | .error e => (.error e, st)
  | .ok (_, t) => compileExpr what expr t st

/-- `UptoRange::as_downto` (range.rs:19-24). -/
def Range.asDownto (r : Range) (size : Nat) : Nat × Nat := (size - r.stop, size - r.start)

/-- `a[i]` for a cocotb `LogicArray` or signal declared `[N:0]`: index 0 is the last element. -/
def getDown (l : List α) (i : Nat) : Option α := if i < l.length then l[l.length - 1 - i]? else none

/-- `signal[i].value = v`. -/
def setDown (l : List α) (i : Nat) (v : α) : Option (List α) :=
  if i < l.length then some (l.set (l.length - 1 - i) v) else none

/-- The loop of `set_value__` (spade-python/python/spade/__init__.py:135-136): `n` iterations are left, the next
has number `i` and assigns index `idx`. -/
def setLoop (bits : List α) : Nat → Nat → Nat → List α → Option (List α)
  | 0, _, _, sig => some sig
  | n + 1, i, idx, sig => do
    let b ← getDown bits i
    let sig ← setDown sig idx b
    setLoop bits n (i + 1) (idx + 1) sig

/-- `set_value__` (spade-python/python/spade/__init__.py:124-138): the new value of the signal. -/
def setValue [BEq Ty] (what : Ty → Str → Compiled α) (r : Ref) (expr : Str) (sig : List α) (st : St α) :
    Except Err (List α) × St α :=
  match compileFieldValue what r expr st with
  | (.error e, st) => (.error e, st)
  | (.ok bits, st) =>
    match r.writeDirRange with
    | .error e => (.error e, st)
    | .ok range =>
      if sig.length < range.stop then (.error .panic, st)
      else
        let (lo, hi) := range.asDownto sig.length
        if range.full then
          if bits.length = sig.length then (.ok bits, st) else (.error .python, st)
        else match setLoop bits (hi - lo) 0 lo sig with
          | some sig => (.ok sig, st)
          | none => (.error .python, st)

/-! ## Histories -/

/-- What a test bench has done to a fresh `Spade` object, with the references it has got so far and the paths
that it has asked for.  It can use any of them again.  `what` says what comes of expressions. -/
inductive Run [BEq Ty] (u : Uut) (what : Ty → Str → Compiled α) :
    St α → List ((Port × List Str) × Ref) → Prop
  | fresh : Run u what ⟨true, [], []⟩ []
  | output {st rs r st'} : Run u what st rs → outputRef u st = (.ok (some r), st') →
      Run u what st' (((.output, []), r) :: rs)
  | outputErr {st rs e st'} : Run u what st rs → outputRef u st = (.error e, st') → Run u what st' rs
  | arg {st rs n r st'} : Run u what st rs → argRef u n st = (.ok r, st') →
      Run u what st' (((.input n, []), r) :: rs)
  | argErr {st rs n e st'} : Run u what st rs → argRef u n st = (.error e, st') → Run u what st' rs
  | field {st rs port p r f c st'} : Run u what st rs → ((port, p), r) ∈ rs → fieldOf r f st = (.ok c, st') →
      Run u what st' (((port, p ++ [f]), c) :: rs)
  | fieldErr {st rs port p r f e st'} : Run u what st rs → ((port, p), r) ∈ rs →
      fieldOf r f st = (.error e, st') → Run u what st' rs
  | compile {st rs expr t v st'} : Run u what st rs → compileExpr what expr t st = (v, st') →
      Run u what st' rs

end Spade.Sim

import Verif.Mir.AliasProps
/-!
# Predictable names

Models `NameState` and `make_names_predictable` of spade-mir/src/renaming.rs, the Verilog names of
signals (spade-mir/src/codegen/util.rs, spade-mir/src/lib.rs:141-158), the numbering of instances
(spade-mir/src/unit_name.rs:79-106) and which identifiers the generated module declares
(spade-mir/src/codegen/mod.rs:54-190, 1313-1477).
-/
namespace Spade.Mir
variable {Op Ty C Ini : Type}

/-! ## Renaming -/

/-- `NameState` (renaming.rs:53-58). -/
structure NameState where
  /-- copies of each name seen so far -/
  names : List (String × Nat)
  /-- newest entry first -/
  nameMap : List (Name × Name)

/-- `NameState::new` (renaming.rs:67-72). -/
def NameState.empty : NameState := ⟨[], []⟩

/-- The entry modified or inserted (renaming.rs:77-81). -/
def bumpCount : List (String × Nat) → String → List (String × Nat) × Nat
  | [], s => ([(s, 0)], 0)
  | (t, k) :: r, s =>
    if t = s then ((t, k + 1) :: r, k + 1)
    else let (r', i) := bumpCount r s; ((t, k) :: r', i)

/-- `NameState::push` (renaming.rs:74-90). -/
def NameState.push (st : NameState) : Name → NameState
  | .named i s =>
    let (ns, k) := bumpCount st.names s
    ⟨ns, (.named i s, .named k s) :: st.nameMap⟩
  | .expr i => ⟨st.names, (.expr i, .expr i) :: st.nameMap⟩

/-- `NameState::get` (renaming.rs:92-98). -/
def NameState.get (st : NameState) (n : Name) : Name := (st.nameMap.lookup n).getD n

/-- Replace all names in a unit (renaming.rs:148-213). -/
def Entity.renameAll (f : Name → Name) (e : Entity Op Ty C Ini) : Entity Op Ty C Ini :=
  { e with
    inputs := e.inputs.map fun i => { i with valName := f i.valName }
    output := f e.output
    stmts := e.stmts.map (Stmt.rename f) }

/-- The first loop (renaming.rs:118-145). -/
def collectNames (e : Entity Op Ty C Ini) : NameState :=
  (e.inputNames ++ e.defs).foldl NameState.push .empty

/-- `make_names_predictable` (renaming.rs:102-215). -/
def makeNamesPredictable (e : Entity Op Ty C Ini) : Entity Op Ty C Ini :=
  e.renameAll (collectNames e).get

/-! ## Verilog identifiers

An escaped identifier `\x ` is the same identifier as `x` (IEEE 1364-2005, 3.7.1), so the backslash
and the space are left out. -/

/-- Decimal digits. -/
def digits (n : Nat) : List Char := (Nat.repr n).toList

/-- `var_name` without escapes (util.rs:7-14,24-30, lib.rs:141-158). -/
def fwdName : Name → List Char
  | .named i s => if i = 0 ∧ s ≠ "new" then s.toList else s.toList ++ "_n".toList ++ digits i
  | .expr i => "_e_".toList ++ digits i

/-- `backward_var_name` without escapes (util.rs:32-45). -/
def bwdName : Name → List Char
  | .named i s => if i = 0 then s.toList ++ "_mut".toList
    else s.toList ++ "_n".toList ++ digits i ++ "_mut".toList
  | .expr i => "_e_".toList ++ digits i ++ "_mut".toList

/-- `mangle_input` (util.rs:60-66). -/
def mangleInput (noMangle : Bool) (x : String) : List Char :=
  if noMangle then x.toList else x.toList ++ "_i".toList

/-- `mangle_output` (util.rs:68-74). -/
def mangleOutput (noMangle : Bool) (x : String) : List Char :=
  if noMangle then x.toList else x.toList ++ "_o".toList

/-- Widths of the two directions of a type, and the name a unit asks for when it is instantiated. -/
structure NameCtx (Op Ty : Type) where
  fwd : Ty → Nat
  bwd : Ty → Nat
  inst : Op → Option String

/-- The name of the next instance; the count starts at 0 (unit_name.rs:91-97). -/
def useName : List (String × Nat) → String → List (String × Nat) × Nat
  | [], s => ([(s, 1)], 0)
  | (t, k) :: r, s =>
    if t = s then ((t, k + 1) :: r, k)
    else let (r', i) := useName r s; ((t, k) :: r', i)

/-- The requested instance names, in order. -/
def requested (X : NameCtx Op Ty) (ss : List (Stmt Op Ty C Ini)) : List String :=
  ss.filterMap fun s => match s with
    | .binding b => match b.operator with
      | .other op => X.inst op
      | .alias => none
    | _ => none

/-- Names given to a list of requested instance names (unit_name.rs:97). -/
def instanceNames : List (String × Nat) → List String → List (List Char)
  | _, [] => []
  | m, s :: ss =>
    let (m', k) := useName m s
    (s.toList ++ '_' :: digits k) :: instanceNames m' ss

/-- Declared for an input: ports and local signals (mod.rs:1330-1397). -/
def inputDecls (X : NameCtx Op Ty) (i : Input Ty) : List (List Char) :=
  (if X.fwd i.ty ≠ 0 then
    mangleInput i.noMangle i.name :: (if i.noMangle then [] else [fwdName i.valName]) else []) ++
  (if X.bwd i.ty ≠ 0 then [mangleOutput i.noMangle i.name, bwdName i.valName] else [])

/-- Declared for a statement (mod.rs:54-190). -/
def stmtDecls (X : NameCtx Op Ty) : Stmt Op Ty C Ini → List (List Char)
  | .binding b =>
    (if X.fwd b.ty ≠ 0 then [fwdName b.name] else []) ++
    (if X.bwd b.ty ≠ 0 then [bwdName b.name] else [])
  | .register r => if X.fwd r.ty ≠ 0 then [fwdName r.name] else []
  | .constant n t _ => if X.fwd t ≠ 0 then [fwdName n] else []
  | _ => []

/-- All identifiers declared in the body of a module: signals, ports and instances
(mod.rs:1313-1477). -/
def declared (X : NameCtx Op Ty) (e : Entity Op Ty C Ini) : List (List Char) :=
  e.inputs.flatMap (inputDecls X) ++ e.stmts.flatMap (stmtDecls X) ++
  (if X.fwd e.outputTy ≠ 0 then ["output__".toList] else []) ++
  (if X.bwd e.outputTy ≠ 0 then ["input__".toList] else []) ++
  instanceNames [] (requested X e.stmts)

end Spade.Mir

import Verif.Trait.Spec
/-!
# Checking an `impl` against its trait

Model of `visit_impl_inner` of spade-ast-lowering/src/impls.rs and the functions
it calls, from the point where the heads of the impl are lowered.  Error messages
are left out: an error, an internal error and a panic are all `none`.
-/
namespace Spade.Trait

/-- `find_position(|tp| &tp.name == name)`: impls.rs:1302-1304, 1341-1344. -/
def findPos (g : Gen) : List Gen → Option Nat
  | [] => none
  | k :: ks => if k = g then some 0 else (findPos g ks).map (· + 1)

/-- A type expression put in the place of a name in an expression over type level
values: impls.rs:1127-1142 and 1151-1167. -/
def asCG : Ty → Option CG
  | .gen (.named n) => some (.name n)
  | .bool b => some (.bool b)
  | .int i => some (.int i)
  | .str s => some (.str s)
  | .cg c => some c
  | _ => none

/-- `TypeExpression::TypeSpec(spec) => Ok(spec)`, everything else being an internal
error: impls.rs:1307-1326 and 1347-1366. -/
def asSpec : Ty → Option Ty
  | .bool _ => none
  | .int _ => none
  | .str _ => none
  | .cg _ => none
  | t => some t

/-- The four lists `map_type_spec_to_trait` carries around: the parameters of the
trait and of the trait's method, and what to put in their places. -/
structure Subst where
  tp : List Gen
  mp : List Gen
  ia : List Ty
  im : List Ty

/-- What replaces a parameter: looked up among the parameters of the trait, then
among those of the method; indexing past the end panics.  impls.rs:1302-1306,
1341-1346, and 1120-1125, 1144-1150 for expressions. -/
def Subst.find (s : Subst) (g : Gen) : Option Ty :=
  match findPos g s.tp with
  | some i => s.ia[i]?
  | none =>
    match findPos g s.mp with
    | some i => s.im[i]?
    | none => none

/-- `map_const_generic_to_trait`: impls.rs:1099-1233. -/
def mapCG (s : Subst) : CG → Option CG
  | .name n => (s.find (.named n)).bind asCG
  | .un o a => (mapCG s a).map (CG.un o)
  | .bin o a b => (mapCG s a).bind fun x => (mapCG s b).map fun y => CG.bin o x y
  | c => some c

mutual
/-- `map_type_expr_to_trait` and `map_type_spec_to_trait`: impls.rs:1235-1425.  The
last case of the latter, which returns the type as it is, covers copy views,
`Self` and wildcards. -/
def mapTy (s : Subst) : Ty → Option Ty
  | .decl n args => (mapTys s args).map (Ty.decl n)
  | .gen g => (s.find g).bind asSpec
  | .tup ts => (mapTys s ts).map Ty.tup
  | .arr a b => (mapTy s a).bind fun x => (mapTy s b).map fun y => Ty.arr x y
  | .inv t => (mapTy s t).map Ty.inv
  | .copy t => some (.copy t)
  | .self => some .self
  | .wild => some .wild
  | .bool b => some (.bool b)
  | .int i => some (.int i)
  | .str x => some (.str x)
  | .cg c => (mapCG s c).map Ty.cg
/-- The `map(..).collect::<Result<_>>()` of impls.rs:1281-1293 and 1376-1388. -/
def mapTys (s : Subst) : List Ty → Option (List Ty)
  | [] => some []
  | t :: ts => (mapTy s t).bind fun x => (mapTys s ts).map fun xs => x :: xs
end

mutual
/-- `resolve_trait_self`: impls.rs:804-876. -/
def resolve (target : Ty) (selfId : Nat) (remap : List (Nat × Nat)) : Ty → Ty
  | .tup ts => .tup (resolves target selfId remap ts)
  | .arr a b => .arr (resolve target selfId remap a) (resolve target selfId remap b)
  | .inv t => .inv (resolve target selfId remap t)
  | .copy t => .copy (resolve target selfId remap t)
  | .self => target
  | .decl n args =>
    if n = selfId then target
    else .decl ((remap.lookup n).getD n) (resolves target selfId remap args)
  | t => t
/-- `resolve` on every type of a list. -/
def resolves (target : Ty) (selfId : Nat) (remap : List (Nat × Nat)) : List Ty → List Ty
  | [] => []
  | t :: ts => resolve target selfId remap t :: resolves target selfId remap ts
end

/-- A method table built by `members.into_iter().collect()` into a hash map
(spade-hir/src/lib.rs:1263): of two entries with one name the later stays. -/
def lookupLast (ms : List Head) (n : Nat) : Option Head :=
  ms.reverse.find? (·.name = n)

/-- `check_generic_params_match_trait_def`: impls.rs:580-665.  A trait without
parameters is an empty list here; `Trait<>` does not parse. -/
def checkArity (T : TraitDecl) (b : Block) : Bool :=
  let need := (T.tparams.takeWhile (·.2.isNone)).length
  match T.tparams, b.args with
  | [], none => true
  | [], some _ => false
  | _ :: _, some as => need ≤ as.length && as.length ≤ T.tparams.length
  | _ :: _, none => need = 0

/-- `impl_or_default_type_params`: impls.rs:1031-1047.  A missing default panics, an
argument too many is an internal error. -/
def fillArgs : List Ty → List (Gen × Option Ty) → Option (List Ty)
  | [], [] => some []
  | a :: as, _ :: ps => (fillArgs as ps).map (a :: ·)
  | [], (_, d) :: ps => d.bind fun a => (fillArgs [] ps).map (a :: ·)
  | _ :: _, [] => none

/-- The associated types of the block: impls.rs:129-151.  Each must be one of the
trait's with as many parameters; gives the renaming of the trait's names. -/
def checkAssoc (T : TraitDecl) : List Assoc → List (Nat × Nat) → Option (List (Nat × Nat))
  | [], remap => some remap
  | a :: as, remap =>
    match T.assoc.find? (·.ident = a.ident) with
    | none => none
    | some t => if a.arity = t.arity then checkAssoc T as ((t.name, a.name) :: remap) else none

/-- `map_trait_method_parameters`: impls.rs:1012-1097.  Gives the parameters and the
result of the trait's method in terms of the impl's parameters. -/
def mapMethod (T : TraitDecl) (b : Block) (m u : Head) :
    Option (List (Nat × Ty) × Option Ty) :=
  (fillArgs b.argList T.tparams).bind fun ia =>
    let s : Subst :=
      { tp := T.tparams.map (·.1), mp := m.gens, ia := ia, im := u.gens.map Ty.gen }
    (mapTys s (m.params.map (·.2))).bind fun tys =>
      match m.output with
      | none => some ((m.params.map (·.1)).zip tys, none)
      | some t => (mapTy s t).map fun o => ((m.params.map (·.1)).zip tys, some o)

/-- `check_params_for_impl_method_and_trait_method_match`: impls.rs:913-1007. -/
def checkParams (target : Ty) (selfId : Nat) (remap : List (Nat × Nat)) :
    List (Nat × Ty) → List (Nat × Ty) → Bool
  | [], [] => true
  | (n, t) :: us, (n', t') :: ms =>
    n = n' && resolve target selfId remap t' = resolve target selfId remap t
      && checkParams target selfId remap us ms
  | _, _ => false

/-- The checks of one method: impls.rs:196-222, that is
`check_safeness_for_impl_method_and_trait_method_match` (711-735),
`check_type_params_for_impl_element_and_trait_element_match` (737-802, which
compares numbers only), `map_trait_method_parameters`,
`check_output_type_for_impl_method_and_trait_method_matches` (878-911) and
`check_params_for_impl_method_and_trait_method_match`. -/
def checkMethod (T : TraitDecl) (b : Block) (remap : List (Nat × Nat)) (m u : Head) : Bool :=
  u.isUnsafe = m.isUnsafe &&
  u.tparams.length = m.tparams.length &&
  match mapMethod T b m u with
  | none => false
  | some (ps, o) =>
    resolve b.target b.selfId remap u.out = resolve b.target b.selfId remap (o.getD (.tup [])) &&
    checkParams b.target b.selfId remap u.params ps

/-- The loop over the units of the block: impls.rs:153-227.  `done` are the methods
implemented so far. -/
def checkUnits (T : TraitDecl) (b : Block) (remap : List (Nat × Nat)) :
    List Head → List Head → Option (List Head)
  | [], done => some done
  | u :: us, done =>
    match lookupLast T.methods u.name with
    | none => none
    | some m =>
      if done.any (·.name = u.name) then none
      else if checkMethod T b remap m u then checkUnits T b remap us (u :: done)
      else none

/-- `visit_impl_inner`: impls.rs:36-252.  Gives the methods recorded for the impl. -/
def checkImpl (T : TraitDecl) (b : Block) : Option (List Head) :=
  if checkArity T b then
    (checkAssoc T b.assoc []).bind fun remap =>
      (checkUnits T b remap b.units []).bind fun done =>
        if T.assoc.all (fun a => b.assoc.any (·.ident = a.ident)) &&
            T.methods.all (fun m => done.any (·.name = m.name)) then some done
        else none
  else none

end Spade.Trait

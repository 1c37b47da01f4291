import Verif.Elab.Spec

/-!
# The values of source programs (C62)

What a function that type inference has accepted computes, in terms of the source and the ground types
inference found, without reference to how it is lowered.
-/

namespace Spade.Elab

open Spade.Infer.Spec (Kind Base GT TExpr)
open Spade.Check
open Spade.Match (Val)
open Spade.Expr (IntrVal Member)

/-- The number of `n` bits that `z` wraps around to. -/
def fit (signed : Bool) (n : Nat) (z : Int) : Int :=
  if signed then Int.bmod z (2 ^ n) else z % 2 ^ n

/-- The number read as `n` bits without sign. -/
def asBits (n : Nat) (z : Int) : Nat := (z % 2 ^ n).toNat

/-- `a op b` with a result of `n` bits. Division rounds towards zero; there is no value for a division
by zero. Amounts of shifts are read without sign. -/
def opValue (signed : Bool) (n : Nat) : BinOp → Int → Int → Option Int
  | .add, x, y => some (fit signed n (x + y))
  | .sub, x, y => some (fit signed n (x - y))
  | .mul, x, y => some (fit signed n (x * y))
  | .div, x, y => if y = 0 then none else some (fit signed n (x.tdiv y))
  | .mod, x, y => if y = 0 then none else some (fit signed n (x.tmod y))
  | .shl, x, y => some (fit signed n (x * 2 ^ asBits n y))
  | .shr, x, y => some (fit signed n (asBits n x / 2 ^ asBits n y))
  | .ashr, x, y => some (fit signed n (Int.bmod x (2 ^ n) / 2 ^ asBits n y))

mutual
/-- The variables a pattern binds when it matches the value; `none` if it does not match. -/
def patBinds (items : Nat → Option Item) : Pat → Val → Option (List (Nat × Val))
  | .int _ z, .int w => if w = z then some [] else none
  | .bool _ a, .bool b => if b = a then some [] else none
  | .bound _ x _ none, v => some [(x, v)]
  | .bound _ x _ (some p), v => (patBinds items p v).map ((x, v) :: ·)
  | .tuple _ ps, .tup vs => patsBinds items ps vs
  | .array _ ps, .tup vs => patsBinds items ps vs
  | .type _ c ps, .tup vs =>
    match items c with
    | some (.struct _) => patsBinds items ps vs
    | _ => none
  | .type _ c ps, .variant j vs =>
    match items c with
    | some (.variant _ i) => if j = i then patsBinds items ps vs else none
    | _ => none
  | _, _ => none
/-- The same for a list. -/
def patsBinds (items : Nat → Option Item) : List Pat → List Val → Option (List (Nat × Val))
  | [], [] => some []
  | p :: ps, v :: vs =>
    match patBinds items p v, patsBinds items ps vs with
    | some a, some b => some (a ++ b)
    | _, _ => none
  | _, _ => none
end

/-- The values of variables. -/
abbrev Scope := Nat → Option Val

/-- Adds variables. -/
def Scope.add (env : Scope) (bs : List (Nat × Val)) : Scope := fun x => (bs.lookup x).or (env x)

/-- The values of the inputs of a unit. -/
def inputScope (u : Check.Unit) (vs : List Val) : Scope := fun x => ((u.inputs.map (·.1)).zip vs).lookup x

/-- The struct a type is, below views. -/
inductive StructBelow : GT → Nat → Prop
  | here {n as} : StructBelow (.node (.named n) as) n
  | view {t n} : StructBelow t n → StructBelow (.node .copyView [t]) n

/-- The bound of a range that is written, if there is one. -/
inductive RangeBound (Γ : Typing) : Option (Nat × TExpr) → Option Nat → Prop
  | none : RangeBound Γ none none
  | some {id c k} : Γ.id id = some (tNat k) → RangeBound Γ (some (id, c)) (some k)

mutual
/-- `Value X Δ insts Γ env e v`: with the types `Γ` and the values `env` of variables, the value of
`e` is `v`. Calls refer to the instances `insts`. -/
inductive Value (X : Ctx) (Δ : Decls) (insts : Nat → Option Inst) :
    Typing → Scope → Exp → Val → Prop
  | var {Γ env id x v} : env x = some v → Value X Δ insts Γ env (.var id x) v
  | tlBool {Γ env id g b as} : Γ.gen g = some (.node (.bool b) as) →
      Value X Δ insts Γ env (.tlBool id g) (.bool b)
  | tlInt {Γ env id g z as} : Γ.gen g = some (.node (.int z) as) →
      Value X Δ insts Γ env (.tlInt id g) (.int z)
  | int {Γ env id z k} : Value X Δ insts Γ env (.int id z k) (.int z)
  | bool {Γ env id b} : Value X Δ insts Γ env (.bool id b) (.bool b)
  | tuple {Γ env id es vs} : Values X Δ insts Γ env es vs →
      Value X Δ insts Γ env (.tuple id es) (.tup vs)
  | proj {Γ env id e k v w} : Value X Δ insts Γ env e v → Member v k w →
      Value X Δ insts Γ env (.proj id e k) w
  | field {Γ env id e f k t n gs fs v w} : Value X Δ insts Γ env e v → Γ.id e.id = some t →
      StructBelow t n → Δ.structs n = some (gs, fs) → (fs.map (·.1))[k]? = some f → Member v k w →
      Value X Δ insts Γ env (.field id e f) w
  | cast {Γ env id e t v} : Value X Δ insts Γ env e v → Value X Δ insts Γ env (.cast id e t) v
  | array {Γ env id es vs} : Values X Δ insts Γ env es vs →
      Value X Δ insts Γ env (.array id es) (.tup vs)
  | rep {Γ env id e nid c n v} : Value X Δ insts Γ env e v → Γ.id nid = some (tNat n) →
      Value X Δ insts Γ env (.rep id e nid c) (.tup (List.replicate n v))
  | elem {Γ env id a i vs k v} : Value X Δ insts Γ env a (.tup vs) →
      Value X Δ insts Γ env i (.int (k : Nat)) → vs[k]? = some v →
      Value X Δ insts Γ env (.elem id a i) v
  | range {Γ env id a lo hi s e vs} : Value X Δ insts Γ env a (.tup vs) → RangeBound Γ lo s →
      RangeBound Γ hi e →
      Value X Δ insts Γ env (.range id a lo hi) (.tup ((vs.take (e.getD vs.length)).drop (s.getD 0)))
  | block {Γ env env' id ss r v} : Statements X Δ insts Γ env ss env' →
      Value X Δ insts Γ env' r v → Value X Δ insts Γ env (.block id ss (some r)) v
  | unitBlock {Γ env env' id ss} : Statements X Δ insts Γ env ss env' →
      Value X Δ insts Γ env (.block id ss none) (.tup [])
  | iteTrue {Γ env id c a b v} : Value X Δ insts Γ env c (.bool true) →
      Value X Δ insts Γ env a v → Value X Δ insts Γ env (.ite id c a b) v
  | iteFalse {Γ env id c a b v} : Value X Δ insts Γ env c (.bool false) →
      Value X Δ insts Γ env b v → Value X Δ insts Γ env (.ite id c a b) v
  | mtch {Γ env id c arms v w} : Value X Δ insts Γ env c v → ArmsValue X Δ insts Γ env arms v w →
      Value X Δ insts Γ env (.mtch id c arms) w
  | bin {Γ env id op a b x y z s n} : Value X Δ insts Γ env a (.int x) →
      Value X Δ insts Γ env b (.int y) → Γ.id id = some (tNum s n) → opValue s n op x y = some z →
      Value X Δ insts Γ env (.bin id op a b) (.int z)
  | neg {Γ env id a x s n} : Value X Δ insts Γ env a (.int x) → Γ.id id = some (tNum s n) →
      Value X Δ insts Γ env (.un id .neg a) (.int (fit s n (-x)))
  | bitNot {Γ env id a x s n} : Value X Δ insts Γ env a (.int x) → Γ.id id = some (tNum s n) →
      Value X Δ insts Γ env (.un id .bitNot a) (.int (fit s n (-x - 1)))
  | not {Γ env id a b} : Value X Δ insts Γ env a (.bool b) →
      Value X Δ insts Γ env (.un id .not a) (.bool !b)
  | deref {Γ env id a v} : Value X Δ insts Γ env a (.view v) → Value X Δ insts Γ env (.un id .deref a) v
  | ref {Γ env id a v} : Value X Δ insts Γ env a v → Value X Δ insts Γ env (.un id .ref a) (.view v)
  | variant {Γ env id f ts es vs n i} : X.items f = some (.variant n i) → Values X Δ insts Γ env es vs →
      Value X Δ insts Γ env (.call id f ts es) (.variant i vs)
  | struct {Γ env id f ts es vs n} : X.items f = some (.struct n) → Values X Δ insts Γ env es vs →
      Value X Δ insts Γ env (.call id f ts es) (.tup vs)
  /-- Functions the compiler generates code for itself, at the hardware types of the arguments and of
  the result. -/
  | intr {Γ env id f ts es vs i t m w} {us : List GT} {ms : List Codegen.MTy} : X.items f = some (.intr i) →
      Values X Δ insts Γ env es vs → us.map some = es.map (fun e => Γ.id e.id) →
      ms.map some = us.map X.mir → Γ.id id = some t → X.mir t = some m → IntrVal i ms m vs w →
      Value X Δ insts Γ env (.call id f ts es) w
  /-- Other functions: the body of the instance for the generic arguments of the call. -/
  | unit {Γ env id f ts es vs h k i w} {as : List GT} : X.items f = some .unit → Δ.heads f = some h →
      as.map some = h.params.map (fun p => Γ.call id p.1) → insts k = some i → i.name = f →
      i.args = as → Values X Δ insts Γ env es vs →
      Value X Δ insts i.types (inputScope i.unit vs) i.unit.body w →
      Value X Δ insts Γ env (.call id f ts es) w
/-- Pointwise. -/
inductive Values (X : Ctx) (Δ : Decls) (insts : Nat → Option Inst) :
    Typing → Scope → List Exp → List Val → Prop
  | nil {Γ env} : Values X Δ insts Γ env [] []
  | cons {Γ env e es v vs} : Value X Δ insts Γ env e v → Values X Δ insts Γ env es vs →
      Values X Δ insts Γ env (e :: es) (v :: vs)
/-- The variables after the statements of a block. Expression statements and assertions have no effect
on values. -/
inductive Statements (X : Ctx) (Δ : Decls) (insts : Nat → Option Inst) :
    Typing → Scope → List Stmt → Scope → Prop
  | nil {Γ env} : Statements X Δ insts Γ env [] env
  | bind {Γ env env' p ty e v bs ss} : Value X Δ insts Γ env e v → patBinds X.items p v = some bs →
      Statements X Δ insts Γ (env.add bs) ss env' →
      Statements X Δ insts Γ env (.bind p ty e :: ss) env'
  | expr {Γ env env' e ss} : Statements X Δ insts Γ env ss env' →
      Statements X Δ insts Γ env (.expr e :: ss) env'
  | assert {Γ env env' e ss} : Statements X Δ insts Γ env ss env' →
      Statements X Δ insts Γ env (.assert e :: ss) env'
  | decl {Γ env env' xs ss} : Statements X Δ insts Γ env ss env' →
      Statements X Δ insts Γ env (.decl xs :: ss) env'
/-- The first arm whose pattern matches and whose guard, if there is one, holds. -/
inductive ArmsValue (X : Ctx) (Δ : Decls) (insts : Nat → Option Inst) :
    Typing → Scope → List Arm → Val → Val → Prop
  | plain {Γ env p e arms v w bs} : patBinds X.items p v = some bs →
      Value X Δ insts Γ (env.add bs) e w → ArmsValue X Δ insts Γ env (.mk p none e :: arms) v w
  | guarded {Γ env p g e arms v w bs} : patBinds X.items p v = some bs →
      Value X Δ insts Γ (env.add bs) g (.bool true) → Value X Δ insts Γ (env.add bs) e w →
      ArmsValue X Δ insts Γ env (.mk p (some g) e :: arms) v w
  | next {Γ env p g e arms v w} : patBinds X.items p v = none → ArmsValue X Δ insts Γ env arms v w →
      ArmsValue X Δ insts Γ env (.mk p g e :: arms) v w
  | nextGuard {Γ env p g e arms v w bs} : patBinds X.items p v = some bs →
      Value X Δ insts Γ (env.add bs) g (.bool false) → ArmsValue X Δ insts Γ env arms v w →
      ArmsValue X Δ insts Γ env (.mk p (some g) e :: arms) v w
end

end Spade.Elab

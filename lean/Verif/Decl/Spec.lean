import Verif.Check.Spec

/-!
# Types that contain themselves (C63): specification

A type declaration may name other types in its fields, in the arguments of its variants, or in what
it abbreviates. A type whose layout would contain its own layout has none. This file says what it
means for a declaration to mention a type and for declarations to go in a circle, without reference
to how the compiler looks for circles.
-/

namespace Spade.Decl

open Spade.Check (TSpec TExp)

/-- The right-hand side of a type declaration: `hir::TypeDeclKind` (spade-hir/src/lib.rs:573-578). -/
inductive Kind where
  | prim (p : String)
  | enum (options : List (String × List (String × TSpec)))
  | struct (members : List (String × TSpec))
  | alias (t : TSpec)

/-- `hir::TypeDeclaration` (spade-hir/src/lib.rs:592-596): name, right-hand side and generic
parameters. -/
structure TypeDecl where
  name : Nat
  kind : Kind
  params : List String

mutual
/-- The type `n` is mentioned in a type as written. -/
inductive TSpec.Mentions (n : Nat) : TSpec → Prop
  | here {ps : List TExp} : TSpec.Mentions n (.declared n ps)
  | arg {m : Nat} {ps : List TExp} {t : TSpec} : TExp.spec t ∈ ps → TSpec.Mentions n t →
      TSpec.Mentions n (.declared m ps)
  | tuple {ts : List TSpec} {t : TSpec} : t ∈ ts → TSpec.Mentions n t → TSpec.Mentions n (.tuple ts)
  | elem {t : TSpec} {k : TExp} : TSpec.Mentions n t → TSpec.Mentions n (.array t k)
  | size {t s : TSpec} : TSpec.Mentions n s → TSpec.Mentions n (.array t (.spec s))
  | inverted {t : TSpec} : TSpec.Mentions n t → TSpec.Mentions n (.inverted t)
  | copyView {t : TSpec} : TSpec.Mentions n t → TSpec.Mentions n (.copyView t)
end

/-- The type `n` is mentioned on the right-hand side of a declaration. -/
inductive TypeDecl.Mentions (n : Nat) : TypeDecl → Prop
  | enum {name : Nat} {params : List String} {os : List (String × List (String × TSpec))}
      {o : String × List (String × TSpec)} {m : String × TSpec} : o ∈ os → m ∈ o.2 →
      TSpec.Mentions n m.2 → TypeDecl.Mentions n ⟨name, .enum os, params⟩
  | struct {name : Nat} {params : List String} {ms : List (String × TSpec)} {m : String × TSpec} :
      m ∈ ms → TSpec.Mentions n m.2 → TypeDecl.Mentions n ⟨name, .struct ms, params⟩
  | alias {name : Nat} {params : List String} {t : TSpec} : TSpec.Mentions n t →
      TypeDecl.Mentions n ⟨name, .alias t, params⟩

/-- Among the declarations `ds`, the one called `a` mentions `b`. -/
def Uses (ds : List TypeDecl) (a b : Nat) : Prop := ∃ d ∈ ds, d.name = a ∧ d.Mentions b

/-- Among the declarations `ds`, the one called `a` mentions `b` directly or through others. -/
inductive Reaches (ds : List TypeDecl) : Nat → Nat → Prop
  | one {a b : Nat} : Uses ds a b → Reaches ds a b
  | more {a b c : Nat} : Uses ds a b → Reaches ds b c → Reaches ds a c

/-- No type contains itself. -/
def NoCircle (ds : List TypeDecl) : Prop := ∀ a, ¬ Reaches ds a a

/-- `ns` are the declarations on a way from the declaration `b` to a mention of `a`, last first:
the first of `ns` mentions `a`, each other one mentions the one before it, and `b` mentions the
last. -/
def WayBack (ds : List TypeDecl) (b : Nat) : Nat → List Nat → Prop
  | a, [] => Uses ds b a
  | a, n :: ns => Uses ds n a ∧ WayBack ds b n ns

end Spade.Decl

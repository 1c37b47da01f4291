import Verif.Mono.Spec
/-!
# Modules and instances

What the modules of the generated Verilog and the instances in them have to do with each other.
Nothing here refers to how names are made.
-/
namespace Spade.Units

open Spade.Mono.Spec (Key)

/-- A Verilog identifier.  An escaped identifier `\\x ` is the same identifier as `x` (IEEE 1364-2005,
3.7.1), so the backslash and the space are not part of it. -/
abbrev Str := List Char

/-- `mods` are the modules in the generated file, each with the unit and the parameters it was made
of, and `inst k m` says that where the unit and parameters `k` are instantiated, module `m` is
named.  No module is defined twice, and the module named by an instance is the one made of the unit and
parameters that are instantiated. -/
structure Linked {P : Type} (mods : List (Key P × Str)) (inst : Key P → Str → Prop) : Prop where
  once : (mods.map Prod.snd).Nodup
  right : ∀ k m, inst k m → (k, m) ∈ mods

end Spade.Units

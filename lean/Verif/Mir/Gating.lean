import Verif.Mir.SplitRegsProps
/-!
# Automatic clock gating (C16)

Models spade-mir/src/passes/auto_clock_gating.rs.
-/
namespace Spade.Mir
open Spade.Codegen

variable {C Ini : Type}

/-- `split_trivial_tag_value` (auto_clock_gating.rs:14-53), with the names it makes. -/
def splitTagValue (value tag payload : Name) (p : List MTy) : List (HStmt C Ini) :=
  [.binding ⟨tag, .other (.rangeIndexBits (sizes p) (sizes p + 1)), [value], .bool⟩,
   .binding ⟨payload, .other (.rangeIndexBits 0 (sizes p)), [value], .tuple p⟩]

/-- `perform_trivial_gating` (auto_clock_gating.rs:61-161); `none` when the register is left alone. -/
def gateReg (r : Register MTy Ini) (k : Nat) : Option (List (HStmt C Ini) × Nat) :=
  match r.initial with
  | some _ => none
  | none =>
    match r.ty with
    | .enum [[], p] =>
      let tagReg := Name.expr k
      let payloadReg := Name.expr (k + 1)
      let payloadValue := Name.expr (k + 2)
      let valueTag := Name.expr (k + 3)
      let valuePayload := Name.expr (k + 4)
      let tail (resetTag resetPayload : Option (Name × Name)) : List (HStmt C Ini) :=
        [.register ⟨tagReg, .bool, r.clock, resetTag, none, valueTag⟩,
         .binding ⟨payloadValue, .other .select, [valueTag, valuePayload, payloadReg], .tuple p⟩,
         .register ⟨payloadReg, .tuple p, r.clock, resetPayload, none, payloadValue⟩,
         .binding ⟨r.name, .other .concat, [tagReg, payloadReg], r.ty⟩]
      match r.reset with
      | some (trig, val) =>
        some (splitTagValue r.value valueTag valuePayload p ++
          splitTagValue val (.expr (k + 5)) (.expr (k + 6)) p ++
          tail (some (trig, .expr (k + 5))) (some (trig, .expr (k + 6))), k + 7)
      | none => some (splitTagValue r.value valueTag valuePayload p ++ tail none none, k + 5)
    | _ => none

/-- `transform_statements` (auto_clock_gating.rs:167-181). -/
def gateStmts : List (HStmt C Ini) → Nat → List (HStmt C Ini) × Nat
  | [], k => ([], k)
  | .register r :: ss, k =>
    match gateReg (C := C) r k with
    | some a => (a.1 ++ (gateStmts ss a.2).1, (gateStmts ss a.2).2)
    | none => (.register r :: (gateStmts ss k).1, (gateStmts ss k).2)
  | s :: ss, k => (s :: (gateStmts ss k).1, (gateStmts ss k).2)

end Spade.Mir

import Verif.Auto.Props

/-! # C66: the theorems apply -/

namespace Spade.Auto

open Spade.Check (TSpec TExp Impl IGen ITy trCopy Implements)
open Spade.Decl
open Spade.Infer.Spec (Base GT)

/-- `int<N>`, `bool`, `clock`, `enum Option<T> { None, Some{val: T} }`,
`struct Pair<T, #N> { a: [T; N], b: (T, Option<bool>) }` and `struct Port<T> { x: inv T, y: T }`. -/
def shop : List TypeDecl :=
  [⟨0, .prim "int", ["N"]⟩, ⟨1, .prim "bool", []⟩, ⟨2, .prim "clock", []⟩,
   ⟨3, .enum [("None", []), ("Some", [("val", .generic "T")])], ["T"]⟩,
   ⟨4, .struct [("a", .array (.generic "T") (.spec (.generic "N"))),
     ("b", .tuple [.generic "T", .declared 3 [.spec (.declared 1 [])]])], ["T", "N"]⟩,
   ⟨5, .struct [("x", .inverted (.generic "T")), ("y", .generic "T")], ["T"]⟩]

/-- Their parameters: that of the enum must be `Data`. -/
def shopGens : Nat → List IGen
  | 0 => [⟨.uint, []⟩]
  | 3 => [⟨.type, [(trData, [])]⟩]
  | 4 => [⟨.type, []⟩, ⟨.uint, []⟩]
  | 5 => [⟨.type, []⟩]
  | _ => []

theorem shop_program : Program shop 4 shopGens [] where
  others := by simp
  kinds := by
    intro d hd g hg
    simp only [shop, List.mem_cons, List.not_mem_nil, or_false] at hd
    rcases hd with rfl | rfl | rfl | rfl | rfl | rfl <;> simp [shopGens] at hg <;>
      first | (simp [hg]; done) | (rcases hg with rfl | rfl <;> simp)
  enums := by
    intro d hd os hos o ho m hm
    simp only [shop, List.mem_cons, List.not_mem_nil, or_false] at hd
    rcases hd with rfl | rfl | rfl | rfl | rfl | rfl <;> cases hos
    simp only [List.mem_cons, List.not_mem_nil, or_false] at ho
    rcases ho with rfl | rfl
    · simp at hm
    · simp only [List.mem_singleton] at hm
      subst hm
      rfl

theorem shop_views : ∀ d ∈ shop, kindNoView d.kind = true := by decide

theorem shop_used (a : Auto) : NoPhantom a shop := by
  unfold NoPhantom
  cases a <;> decide

/-- `int<8>`. -/
def byte : GT := .node (.named 0) [.node (.int 8) []]

theorem byte_formed {impls : List Impl} : Formed impls shopGens byte := by
  refine .named rfl ?_ ?_ ?_
  · intro g p t hp ht
    match g with
    | 0 => cases hp; cases ht; exact ⟨8, by decide, rfl⟩
    | g + 1 => simp [shopGens] at hp
  · intro g p t hp ht b hb
    match g with
    | 0 => cases hp; simp at hb
    | g + 1 => simp [shopGens] at hp
  · intro t ht
    simp only [List.mem_singleton] at ht
    subst ht
    exact .int

/-- `Pair<t, 3>`. -/
def pairOf (t : GT) : GT := .node (.named 4) [t, .node (.int 3) []]

theorem pair_formed {impls : List Impl} {t : GT} (h : Formed impls shopGens t)
    (hty : ∃ l, t.head.val = .type l) : Formed impls shopGens (pairOf t) := by
  refine .named rfl ?_ ?_ ?_
  · intro g p u hp hu
    match g with
    | 0 => cases hp; cases hu; exact hty
    | 1 => cases hp; cases hu; exact ⟨3, by decide, rfl⟩
    | g + 2 => simp [shopGens] at hp
  · intro g p u hp hu b hb
    match g with
    | 0 => cases hp; simp at hb
    | 1 => cases hp; simp at hb
    | g + 2 => simp [shopGens] at hp
  · intro u hu
    simp only [List.mem_cons, List.not_mem_nil, or_false] at hu
    rcases hu with rfl | rfl
    · exact h
    · exact .int

/-- The concrete type of `Pair<t, 3>` from that of `t`. -/
def pairConc (c : Conc) : Conc :=
  .struct 4 [("a", .array c 3), ("b", .tuple [c, .enum [("None", []), ("Some", [("val",
    .single "bool" [])])]])]

/-- `Pair<int<8>, 3>` implements `Data` (C66_implemented_partial), and its concrete type can be stored. -/
example : Implements (implsOf shop 4 shopGens []) (pairOf byte) trData [] := by
  refine C66_implemented_partial (a := .data) (shop_used .data) (pair_formed byte_formed ⟨_, rfl⟩) ⟨_, rfl⟩
    (c := pairConc (.single "int" [.int 8])) rfl ?_
  have hb : Fit .data (.single "int" [.int 8]) :=
    .single (by simp [Auto.prims]) (by intro c hc; simp at hc; subst hc; exact .int)
  refine .struct (fun m hm => ?_)
  simp only [List.mem_cons, List.not_mem_nil, or_false] at hm
  rcases hm with rfl | rfl
  · exact .array hb
  · refine .tuple (fun c hc => ?_)
    simp only [List.mem_cons, List.not_mem_nil, or_false] at hc
    rcases hc with rfl | rfl
    · exact hb
    · refine .enum (fun o ho m hm => ?_)
      simp only [List.mem_cons, List.not_mem_nil, or_false] at ho
      rcases ho with rfl | rfl
      · simp at hm
      · simp only [List.mem_singleton] at hm
        subst hm
        exact .single (by simp [Auto.prims]) (by simp)

theorem clock_copy : Implements (implsOf shop 4 shopGens []) (.node (.named 2) []) trCopy [] := by
  refine C66_implemented_partial (a := .copy) (shop_used .copy) (t := .node (.named 2) [])
    (.named rfl (by simp [shopGens]) (by simp [shopGens]) (by simp)) ⟨_, rfl⟩
    (c := .single "clock" []) rfl (.single (by simp [Auto.prims]) (by simp))

/-- A clock can be read (C66_copy_can_be_read). -/
example : Fit .copy (.single "clock" []) :=
  C66_copy_can_be_read shop_program clock_copy (j := 4) rfl

/-- A clock does not implement `Data` (C66_data_can_be_stored_partial). -/
example : ¬ Implements (implsOf shop 4 shopGens []) (.node (.named 2) []) trData [] := by
  intro h
  have := C66_data_can_be_stored_partial shop_program shop_views h (j := 4) (c := .single "clock" []) rfl
  cases this with
  | single h _ => simp [Auto.prims] at h

/-- A port does not even implement `Copy`. -/
example : ¬ Implements (implsOf shop 4 shopGens []) (.node (.named 5) [byte]) trCopy [] := by
  intro h
  have := C66_copy_can_be_read shop_program h (j := 4)
    (c := .struct 5 [("x", .backward (.single "int" [.int 8])), ("y", .single "int" [.int 8])]) rfl
  cases this with
  | struct h => cases h ("x", .backward (.single "int" [.int 8])) (by simp)

/-- `Pair<clock, 3>` does not implement `Data` (C66_exact_partial). -/
example : ¬ Implements (implsOf shop 4 shopGens []) (pairOf (.node (.named 2) [])) trData [] := by
  have := C66_exact_partial shop_program (a := .data) (shop_used .data) (.inr shop_views)
    (t := pairOf (.node (.named 2) [])) (pair_formed (.named rfl (by simp [shopGens])
      (by simp [shopGens]) (by simp)) ⟨_, rfl⟩) ⟨_, rfl⟩ (c := pairConc (.single "clock" [])) rfl
  intro h
  cases this.mp h with
  | struct h =>
    cases h ("a", .array (.single "clock" []) 3) (by simp) with
    | array h =>
      cases h with
      | single h _ => simp [Auto.prims] at h

/-- `Option<bool>` can be stored (C66_enum_can_be_stored_partial). -/
example : Fit .data (.enum [("None", []), ("Some", [("val", .single "bool" [])])]) :=
  C66_enum_can_be_stored_partial (n := 3) shop_program shop_views rfl rfl
    (ps := [.single "bool" []]) (by
      intro p hp
      simp only [List.mem_singleton] at hp
      subst hp
      exact .single (by simp [Auto.prims]) (by simp)) (j := 4) rfl

end Spade.Auto

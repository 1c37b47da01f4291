import Verif.Decl.Props

/-! # Examples for C63 -/

namespace Spade.Decl

open Spade.Check (TSpec TExp)

/-- `uint<#uint N>` and `bool`. -/
def exBuiltIn : List TypeDecl := [⟨0, .prim "uint", ["N"]⟩, ⟨1, .prim "bool", []⟩]

/-- `enum Option<T> {Some{val: T}, None}`, called 2. -/
def exOption : TypeDecl :=
  ⟨2, .enum [("Some", [("val", .generic "T")]), ("None", [])], ["T"]⟩

/-- `struct Packet {header: Header, body: [Option<bool>; 4]}`, called 3, before `Header`. -/
def exPacket : TypeDecl :=
  ⟨3, .struct [("header", .declared 4 []),
    ("body", .array (.declared 2 [.spec (.declared 1 [])]) (.int 4))], []⟩

/-- `struct Header {id: uint<8>}`, called 4. -/
def exHeader : TypeDecl := ⟨4, .struct [("id", .declared 0 [.int 8])], []⟩

/-- `struct Header {id: uint<8>, inner: inv Option<Packet>}`: contains itself through `Packet`, a
generic argument and an inversion. -/
def exBadHeader : TypeDecl :=
  ⟨4, .struct [("id", .declared 0 [.int 8]),
    ("inner", .inverted (.declared 2 [.spec (.declared 3 [])]))], []⟩

theorem exBuiltIn_ok : BuiltIn exBuiltIn := by
  intro d hd
  simp only [exBuiltIn, List.mem_cons, List.not_mem_nil, or_false] at hd
  rcases hd with rfl | rfl
  · exact ⟨_, rfl⟩
  · exact ⟨_, rfl⟩

/-- The good declarations are processed without errors: the conditions of the theorems hold. -/
theorem example_accepted :
    Distinct (exBuiltIn ++ [exOption, exPacket, exHeader]) ∧
    ∃ T', Process exBuiltIn [exOption, exPacket, exHeader] T' [] := by
  refine ⟨by unfold Distinct; decide, _, .ok (.done rfl) (.ok ?_ (.ok ?_ .nil))⟩
  · refine .step (.mk (n := 1) (by decide) (by decide)) ?_
    refine .step (.mk (n := 4) (by decide) (by decide)) ?_
    refine .step (.mk (n := 2) (by decide) (by decide)) ?_
    exact .done rfl
  · exact .step (.mk (n := 0) (by decide) (by decide)) (.done rfl)

/-- The bad header is reported with a note that names `Packet`. -/
theorem example_rejected :
    Distinct (exBuiltIn ++ [exOption, exPacket, exBadHeader]) ∧
    ∃ T', Process exBuiltIn [exOption, exPacket, exBadHeader] T' [(4, [3])] := by
  refine ⟨by unfold Distinct; decide, _, .ok (.done rfl) (.ok ?_ (.error ?_ .nil))⟩
  · refine .step (.mk (n := 1) (by decide) (by decide)) ?_
    refine .step (.mk (n := 4) (by decide) (by decide)) ?_
    refine .step (.mk (n := 2) (by decide) (by decide)) ?_
    exact .done rfl
  · refine .step (.mk (n := 3) (by decide) (by decide)) ?_
    exact .found (k := 2) (by decide) rfl

/-- The layout of `Packet` is what one expects. -/
example : layout (exBuiltIn ++ [exOption, exPacket, exHeader]) 4 3 [] =
    .ok (.struct 3 [("header", .struct 4 [("id", .single "uint" [.int 8])]),
      ("body", .array (.enum [("Some", [("val", .single "bool" [])]), ("None", [])]) 4)]) := by
  simp [layout, find, exBuiltIn, exOption, exPacket, exHeader, kindConc, memberConcs, optionConcs,
    specConc, expConc, argConcs, Res.bind, List.lookup]

/-- The bad declarations have no layout. -/
example (k : Nat) (c : Conc) :
    layout (exBuiltIn ++ [exOption, exPacket, exBadHeader]) k 4 [] ≠ .ok c := by
  obtain ⟨hd, T', h⟩ := example_rejected
  exact C63_rejected_has_no_layout hd h List.mem_cons_self k [] c

/-- The check counts generic arguments that take no space: `struct Phantom<T> {}` and
`struct Node {next: Phantom<Node>}` are rejected. The layout of `Node` is indeed not computable the
way the compiler does it, because arguments are laid out first. -/
example : ∃ T', Process [] [⟨0, .struct [], ["T"]⟩,
    ⟨1, .struct [("next", .declared 0 [.spec (.declared 1 [])])], []⟩] T' [(1, [])] :=
  ⟨_, .ok (.done rfl) (.error (.found (k := 1) (by decide) rfl) .nil)⟩

end Spade.Decl

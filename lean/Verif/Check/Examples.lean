import Verif.Check.Props

/-!
# Type checking: examples and what inference accepts wrongly (C51)
-/

namespace Spade.Check

open Spade.Infer.Spec (Kind Base GT Val TExpr)

/-- Types for the variables that are unknown in a state. -/
def someTypes (S : St) (id : Nat) : GT :=
  match S.vars[id]? with
  | some (.unknown .type [(0, _)]) => tNum false 0
  | some (.unknown .number _) | some (.unknown .uint _) | some (.unknown .int _) => tNat 0
  | some (.unknown .bool _) => .node (.bool false) []
  | some (.unknown .str _) => .node (.str "") []
  | _ => tTup []

/-- Whether these types satisfy the bounds. -/
def boundsB (S : St) (n : Nat) : Option TV → Bool
  | some (.unknown _ []) => true
  | some (.unknown .type [(0, [p])]) =>
    match groundOf S (someTypes S) n p with
    | some (.node (.int 0) []) => true
    | _ => false
  | some (.unknown _ _) => false
  | _ => true

/-- Whether inference is done. -/
def settledB (S : St) (n : Nat) : Bool :=
  S.cons.isEmpty && S.reqs.isEmpty && !S.lost &&
    (List.range S.vars.length).all (fun id => (groundOf S (someTypes S) n id).isSome &&
      boundsB S n (S.get id))

theorem someTypes_holds (S : St) (id : Nat) {k : Kind} {ts : Traits}
    (h : S.vars[id]? = some (.unknown k ts)) : k.Holds (someTypes S id).head.val := by
  unfold someTypes
  rw [h]
  cases k with
  | type =>
    split <;> simp_all [Kind.Holds, tNum, tTup, GT.head, Base.val]
  | _ => simp [Kind.Holds, tNat, tTup, GT.head, Base.val]

theorem settled_of {Δ : Decls} (hn : numberImpl false ∈ Δ.impls) {S : St} {n : Nat}
    (h : settledB S n = true) : Settled Δ S (someTypes S) n := by
  simp only [settledB, Bool.and_eq_true, List.isEmpty_iff, Bool.not_eq_true', List.all_eq_true,
    List.mem_range] at h
  refine ⟨h.1.1.1, h.1.1.2, h.1.2, fun id hid => (h.2 id hid).1, ?_, ?_⟩
  · intro id b args he hb
    unfold someTypes at he
    split at he <;> cases he <;> first | rfl | exact nomatch hb
  · intro id k ts hid hg
    have hb := (h.2 id hid).2
    refine ⟨someTypes_holds S _ hg, fun tr htr => ?_⟩
    rw [hg] at hb
    unfold boundsB at hb
    split at hb
    next he => cases he; exact nomatch htr
    next p he =>
      cases he
      simp only [List.mem_singleton] at htr
      subst htr
      split at hb
      next hp =>
        refine ⟨[tNat 0], by simp only [mapAll, hp]; rfl, ?_⟩
        have : someTypes S (S.res id) = tNum false 0 := by
          unfold someTypes
          rw [show S.vars[S.res id]? = _ from hg]
          rfl
        rw [this]
        refine .mk (i := numberImpl false) (σ := fun _ => tNat 0) hn ?_ ?_ rfl rfl rfl
        · intro g q hq
          match g with
          | 0 => cases hq; simp [Kind.Holds, tNat, GT.head, Base.val]
          | g + 1 => exact nomatch hq
        · intro g q hq b hb
          match g with
          | 0 => cases hq; exact nomatch hb
          | g + 1 => exact nomatch hq
      · exact nomatch hb
    · exact nomatch hb
    next hne => exact (hne k ts rfl).elim

/-- `uint<n>` as written. -/
def sUint (n : Int) : TSpec := .declared 2 [.int n]
/-- `int<n>` as written. -/
def sInt (n : Int) : TSpec := .declared 1 [.int n]
/-- `bool` as written. -/
def sBool : TSpec := .declared 0 []

/-- The integer types are numbers; numbers, `bool` and `clock` can be copied; `Option` (10) has the
variants `None` (20) and `Some` (21); `S` (11) is a struct with two fields; and there are some
functions. -/
def exDecls : Decls where
  impls := [numberImpl true, numberImpl false,
    ⟨[⟨.uint, []⟩], trCopy, [], .named 2, [.gen 0]⟩, ⟨[], trCopy, [], .named 0, []⟩]
  heads
    -- fn Some<T>(v: T) -> Option<T>
    | 21 => some ⟨[("T", .type)], [], [.generic "T"], some (.declared 10 [.spec (.generic "T")]), none⟩
    -- fn number<T>(x: T) -> T where T: Number<8>
    | 30 => some ⟨[("T", .type)], [.bound "T" [(trNumber, [.int 8])]], [.generic "T"],
        some (.generic "T"), none⟩
    -- fn sized<#uint N, T, U>(a: T, b: U, c: uint<N>) where T: Number<N>, U: Number<N>
    | 31 => some ⟨[("N", .uint), ("T", .type), ("U", .type)],
        [.bound "T" [(trNumber, [.spec (.generic "N")])], .bound "U" [(trNumber, [.spec (.generic "N")])]],
        [.generic "T", .generic "U", .declared 2 [.spec (.generic "N")]], none, none⟩
    -- fn narrow<#uint N, #uint M>(x: uint<N>) -> uint<M> where M == N - 1, N > 4
    | 32 => some ⟨[("N", .uint), ("M", .uint)], [.eq "M" (.sub (.name "N") (.int 1)), .cmp .gt "N" (.int 4)],
        [.declared 2 [.spec (.generic "N")]], some (.declared 2 [.spec (.generic "M")]), none⟩
    | _ => none
  variants
    | 20 => some ⟨[("T", .type)], [], .declared 10 [.spec (.generic "T")], []⟩
    | 21 => some ⟨[("T", .type)], [], .declared 10 [.spec (.generic "T")], [.generic "T"]⟩
    | _ => none
  structs
    | 11 => some (["T"], [("x", .generic "T"), ("y", sBool)])
    | _ => none

theorem exDecls_numbers : exDecls.NumbersOk := by
  intro i hi ht
  simp only [exDecls, List.mem_cons, List.not_mem_nil, or_false] at hi
  rcases hi with rfl | rfl | rfl | rfl
  · exact ⟨true, rfl⟩
  · exact ⟨false, rfl⟩
  · exact absurd ht (by decide)
  · exact absurd ht (by decide)

/-- ```
entity e<#uint N>(clk: clock, rst: bool, a: [uint<N>; 4], s: S<bool>, o: inv bool) -> uint<8> where N > 4 {
  reg(clk) i reset(rst: 0) = trunc?(i)   -- here: i
  decl d;
  let v = match Some(a[i]) { Some(z) if s.x => narrow(z), None => d, other => 3 };
  let d = 5u7;
  set o = !s.y;
  v + v
}
``` -/
def exUnit : Unit where
  params := [("N", .uint)]
  wheres := [.cmp .gt "N" (.int 4)]
  inputs := [(1, .declared 3 []), (2, sBool), (3, .array (.declared 2 [.spec (.generic "N")]) (.int 4)),
    (4, .declared 11 [.spec sBool]), (5, .inverted sBool)]
  output := some (sUint 8)
  body := .block 100 [
    .reg (.bound 101 6 false none) none (.var 102 1) (some (.var 103 2, .int 104 0 .unsized)) none
      (.var 105 6),
    .decl [7],
    .bind (.bound 106 8 false none) none
      (.mtch 107 (.call 108 21 [] [.elem 109 (.var 110 3) (.var 111 6)]) [
        .mk (.type 112 21 [.bound 113 9 false none]) (some (.field 114 (.var 115 4) "x"))
          (.call 116 32 [] [.var 117 9]),
        .mk (.type 118 20 []) none (.var 119 7),
        .mk (.bound 120 10 false none) none (.int 121 3 .unsized)]),
    .bind (.bound 122 7 true none) none (.int 123 5 (.unsigned (some 7))),
    .set (.var 124 5) (.un 125 .not (.field 126 (.var 127 4) "y"))]
    (some (.bin 128 .add (.var 129 8) (.var 130 8)))

/-- Whether inference accepts a unit and is done with it. -/
def acceptB (o : Out GL) (n : Nat) : Bool :=
  match o with
  | .ok _ S => settledB S n
  | _ => false

theorem accept_of {o : Out GL} {n : Nat} (h : acceptB o n = true) :
    ∃ gl S, o = .ok gl S ∧ settledB S n = true := by
  unfold acceptB at h
  split at h
  next gl S => exact ⟨gl, S, rfl, h⟩
  · exact nomatch h

/-- The hypotheses of `C51_well_typed_partial` are met by a unit with a register, a `match`, an array
index, fields, calls with `where` clauses and a generic parameter, monomorphised for 8. -/
theorem C51_example : ∃ gl S, inferUnit exDecls 50 [("N", tNat 8)] exUnit = .ok gl S ∧
    Settled exDecls S (someTypes S) 10 ∧ UnitOk exDecls (reported S (someTypes S) 10 gl) exUnit := by
  have h : acceptB (inferUnit exDecls 50 [("N", tNat 8)] exUnit) 10 = true := by decide +kernel
  obtain ⟨gl, S, h1, h2⟩ := accept_of h
  have h3 : Settled exDecls S (someTypes S) 10 := settled_of (by simp [exDecls]) h2
  exact ⟨gl, S, h1, h3, (C51_well_typed_partial exDecls exDecls_numbers 50 _ exUnit gl S h1 _ 9 h3).1⟩

/-- Monomorphised for 7 it is rejected: `narrow` then gives a `uint<6>`, and `d` is a `uint<7>`. -/
example : (match inferUnit exDecls 50 [("N", tNat 7)] exUnit with
    | .err => true
    | _ => false) = true := by decide +kernel

/-! ## What inference accepts wrongly -/

/-- Whether inference accepts a unit with nothing left over. -/
def doneB (o : Out GL) (n : Nat) : Bool :=
  match o with
  | .ok _ S => S.cons.isEmpty && S.reqs.isEmpty &&
      (List.range S.vars.length).all (fun id => (groundOf S (someTypes S) n id).isSome)
  | _ => false

/-- Inference accepts the unit, and no constraint, requirement or unknown type is left over. -/
def Accepts (Δ : Decls) (u : Unit) : Prop :=
  ∃ fuel gl S n, inferUnit Δ fuel [] u = .ok gl S ∧ S.cons = [] ∧ S.reqs = [] ∧
    ∀ id, id < S.vars.length → (groundOf S (someTypes S) n id).isSome

theorem accepts_of {Δ : Decls} {u : Unit} (fuel n : Nat)
    (h : doneB (inferUnit Δ fuel [] u) n = true) : Accepts Δ u := by
  unfold doneB at h
  split at h
  next gl S hi =>
    simp only [Bool.and_eq_true, List.isEmpty_iff, List.all_eq_true, List.mem_range] at h
    exact ⟨fuel, gl, S, n, hi, h.1.1, h.1.2, h.2⟩
  · exact nomatch h

/-- `fn f(b: bool) -> bool { number::<bool>(b) }` -/
def turboUnit : Unit where
  params := []
  wheres := []
  inputs := [(1, sBool)]
  output := some sBool
  body := .block 100 [] (some (.call 101 30 [some (.spec sBool)] [.var 102 1]))

theorem bool_not_number (as : List GT) : ¬ Implements exDecls.impls tBool trNumber as := by
  rintro ⟨hi, _, _, ht, _, hb⟩
  simp only [exDecls, List.mem_cons, List.not_mem_nil, or_false] at hi
  rcases hi with rfl | rfl | rfl | rfl
  · exact nomatch hb
  · exact nomatch hb
  · exact nomatch ht
  · exact nomatch ht

/-- Trait bounds are not checked for generic arguments given explicitly (`visit_trait_bounds` does
nothing for a known type, `spade-typeinference/src/lib.rs:2732-2738`): `number`, which demands
`T: Number<8>`, can be called with a `bool`. `UnitOk` leaves this case out. -/
theorem C51_counterexample_turbofish : Accepts exDecls turboUnit ∧
    ∀ θ : Generics, θ "T" = some tBool →
      ¬ (Where.bound "T" [(trNumber, [.int 8])]).Ok exDecls (fun _ => True) θ := by
  refine ⟨accepts_of 50 10 (by decide +kernel), fun θ h hw => ?_⟩
  obtain ⟨t, args, h1, _, h2⟩ := hw trivial _ (List.mem_singleton.2 rfl)
  rw [h] at h1
  cases h1
  exact bool_not_number _ h2

/-- `fn f(i: int<8>) { decl x; sized(x, x, 0u9); let x = i; }` -/
def sharedUnit : Unit where
  params := []
  wheres := []
  inputs := [(1, sInt 8)]
  output := none
  body := .block 100 [.decl [2],
    .expr (.call 101 31 [] [.var 102 2, .var 103 2, .int 104 0 (.unsigned (some 9))]),
    .bind (.bound 105 2 true none) none (.var 106 1)] none

theorem number_int {s : Bool} {n : Nat} {as : List GT}
    (h : Implements exDecls.impls (tNum s n) trNumber as) : as = [tNat n] := by
  obtain ⟨hi, _, _, ht, ha, hb⟩ := h
  simp only [exDecls, List.mem_cons, List.not_mem_nil, or_false] at hi
  rcases hi with rfl | rfl | rfl | rfl
  · rw [ha]
    injection hb with _ hb
    exact hb.symm
  · rw [ha]
    injection hb with _ hb
    exact hb.symm
  · exact nomatch ht
  · exact nomatch ht

/-- A variable that is unified with itself loses the connection to the parameters of its bounds
(`spade-typeinference/src/lib.rs:3176-3183, 3322`): `sized` demands that its first two arguments have
the width of the third, which is 9, and is called with an `int<8>`. There is no way to type this. -/
theorem C51_counterexample_shared_size : Accepts exDecls sharedUnit ∧
    ∀ Γ, ¬ UnitOk exDecls Γ sharedUnit := by
  refine ⟨accepts_of 50 10 (by decide +kernel), ?_⟩
  rintro Γ ⟨_, hin, hb, _⟩
  obtain ⟨ti, hi1, hi2⟩ := hin (1, sInt 8) (List.mem_singleton.2 rfl)
  simp only [sharedUnit, Exp.Ok, Stmt.Oks, Stmt.Ok, Pat.Ok, Pat.id, Exp.id] at hb
  obtain ⟨⟨_, hc, ⟨⟨t6, h61, _, h62⟩, ⟨t5, h51, _, h52⟩, t, h53, h63, _⟩, _⟩, _⟩ := hb
  obtain ⟨h, us, t1, hh, ⟨_, _, hw⟩, hus, hargs, _⟩ := hc
  simp only [exDecls, Option.some.injEq] at hh
  subst hh
  simp only [Exp.Oks, Exp.id, Exp.Ok, LitKind.Ok] at hargs
  obtain ⟨u1, us1, rfl, h2, ⟨u1', h2', _, h3⟩, u2, us2, rfl, _, _, u3, us3, rfl, h4, ⟨u3', h4', _, h5⟩, rfl⟩ := hargs
  rw [h2] at h2'; cases h2'
  rw [h4] at h4'; cases h4'
  -- x : int<8>
  have hx : u1 = tNum true 8 := by
    simp only [sInt, TSpec.Is, TExp.Are, TExp.Is] at hi2
    obtain ⟨args, rfl, k, ks, rfl, rfl, rfl⟩ := hi2
    rw [h3, Option.some.injEq] at h52
    rw [h51, Option.some.injEq] at h53
    rw [h61, Option.some.injEq] at h63
    rw [hi1, Option.some.injEq] at h62
    rw [h52, h53, ← h63, ← h62]
    rfl
  simp only [TSpec.Are, TSpec.Is, TExp.Are, TExp.Is] at hus
  obtain ⟨v1, vs1, e1, ht, v2, vs2, e2, hu, v3, vs3, e3, ⟨args, e4, k, ks, e5, hN, e6⟩, e7⟩ := hus
  cases e1; cases e2; cases e3; subst e6 e5
  have hk : k = tNat 9 := by
    rw [h5] at e4
    injection e4 with _ e4
    injection e4 with e4 _
    exact e4.symm
  have hT := hw (.bound "T" [(trNumber, [.spec (.generic "N")])]) (by simp)
  obtain ⟨t, as, g1, g2, g3⟩ := hT (by intro p te h; simp at h) _ (List.mem_singleton.2 rfl)
  rw [ht] at g1
  cases g1
  rw [hx] at g3
  have g4 := number_int g3
  subst g4
  simp only [TExp.Are, TExp.Is, TSpec.Is] at g2
  obtain ⟨u, us, e, g5, _⟩ := g2
  cases e
  rw [hN, hk] at g5
  exact nomatch g5

/-- `fn f() { decl x; let x @ (a, b) = 5u8; assert a; assert b; }` -/
def atUnit : Unit where
  params := []
  wheres := []
  inputs := []
  output := none
  body := .block 100 [.decl [2],
    .bind (.bound 105 2 true (some (.tuple 106 [.bound 107 3 false none, .bound 108 4 false none]))) none
      (.int 109 5 (.unsigned (some 8))),
    .assert (.var 110 3), .assert (.var 111 4)] none

/-- When a name was declared before, the pattern after `@` is not connected to it
(`spade-typeinference/src/lib.rs:2185-2203`): a number is taken apart as if it were a tuple. -/
theorem C51_counterexample_at : Accepts exDecls atUnit ∧ ∀ Γ, ¬ UnitOk exDecls Γ atUnit := by
  refine ⟨accepts_of 50 10 (by decide +kernel), ?_⟩
  rintro Γ ⟨_, _, hb, _⟩
  simp only [atUnit, Exp.Ok, Stmt.Oks, Stmt.Ok, Pat.Ok, Pat.id, Exp.id, LitKind.Ok] at hb
  obtain ⟨⟨_, ⟨⟨t9, h91, _, h92⟩, ⟨t5, h51, _, _, h56, ts, h61, _⟩, t, h52, h93, _⟩, _⟩, _⟩ := hb
  rw [h51, Option.some.injEq] at h52
  rw [h91, Option.some.injEq] at h93
  rw [h56, Option.some.injEq] at h61
  rw [h52, ← h93, h92] at h61
  exact nomatch h61

end Spade.Check

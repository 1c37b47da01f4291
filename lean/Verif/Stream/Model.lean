import Verif.Stream.Spec
import Verif.Std.OpsProps
import Verif.Std.Props
import Verif.Entity.Spec
/-!
# Model of the entities on streams in the standard library (C67)

spade-compiler/stdlib/option.spade:184-247 and io.spade:11-29 as entities of the source language of C47:
monomorphised, with methods and operators replaced by the units of the library (C58 to C61) that they
stand for.
-/
namespace Spade.Stream
open Spade.Codegen Spade.Lower Spade.Expr Spade.Std Spade.Entity

/-- `reg(clk) values reset(rst: [default; N]) = next` (option.spade:203). -/
def windowReg (T : MTy) (N : Nat) : Reg where
  p := .bound 4 (.array T N)
  clock := .var 1 .bool
  reset := some (.var 2 .bool, .rep 6 (.array T N) (.var 3 T) N)
  initial := none
  value := .var 5 (.array T N)

/-- `match self { Some(v) => values.shift_front(v), None => values }` (option.spade:205-208). -/
def windowNext (num : Key → Nat) (T : MTy) (N : Nat) : Expr :=
  .match 7 (.array T N) (.var 0 (option T))
    [.plain (.variant 8 (option T) 1 [.bound 9 T])
      (.call 10 (.array T N) (.unit (num (.shiftFront T N))) [.var 4 (.array T N), .var 9 T]),
     .plain (.variant 11 (option T) 0 []) (.var 4 (.array T N))]

/-- `padded_sliding_window(self, clk, rst, default)` (option.spade:195-211). -/
def window (num : Key → Nat) (T : MTy) (N : Nat) : Ent where
  params := [(0, option T), (1, .bool), (2, .bool), (3, T)]
  body := [.stm .decl, .reg (windowReg T N),
    .stm (.bind (.bound 5 (.array T N)) (windowNext num T N))]
  result := .ite 12 (option (.array T N)) (.call 13 .bool (.unit (num (.op (.isSome T)))) [.var 0 (option T)])
    (.call 14 (option (.array T N)) (.variant 1) [.var 5 (.array T N)])
    (.call 15 (option (.array T N)) (.variant 0) [])
  types := tys [(0, option T), (1, .bool), (2, .bool), (3, T), (4, .array T N), (5, .array T N),
    (6, .array T N), (7, .array T N), (8, option T), (9, T), (10, .array T N), (11, option T),
    (12, option (.array T N)), (13, .bool), (14, option (.array T N)), (15, option (.array T N))]

/-- `count + 1 == N`, with the first of four ids (option.spade:229, 242). -/
def isLast (num : Key → Nat) (id N : Nat) : Expr :=
  .call id .bool (.unit (num (.op (.eq (.uint (bitsFor N + 1))))))
    [.bin (id + 1) (.uint (bitsFor N + 1)) .add (.var 3 (.uint (bitsFor N)))
      (.int (id + 2) (.uint (bitsFor N)) 1), .int (id + 3) (.uint (bitsFor N + 1)) N]

/-- `match self { Some(new) => { if count + 1 == N {0} else {trunc(count + 1)} }, None => { count } }`
(option.spade:227-234). -/
def countNext (num : Key → Nat) (T : MTy) (N : Nat) : Expr :=
  .match 8 (.uint (bitsFor N)) (.var 0 (option T))
    [.plain (.variant 9 (option T) 1 [.bound 10 T])
      (.block 11 [] (.ite 12 (.uint (bitsFor N)) (isLast num 13 N)
        (.block 17 [] (.int 18 (.uint (bitsFor N)) 0))
        (.block 19 [] (.call 20 (.uint (bitsFor N)) (.intr .trunc)
          [.bin 21 (.uint (bitsFor N + 1)) .add (.var 3 (.uint (bitsFor N)))
            (.int 22 (.uint (bitsFor N)) 1)])))),
     .plain (.variant 23 (option T) 0 []) (.block 24 [] (.var 3 (.uint (bitsFor N))))]

/-- `reg(clk) count: uint<{uint::bits_for(N)}> reset(rst: 0) = ...` (option.spade:227). -/
def countReg (num : Key → Nat) (T : MTy) (N : Nat) : Reg where
  p := .bound 3 (.uint (bitsFor N))
  clock := .var 1 .bool
  reset := some (.var 2 .bool, .int 7 (.uint (bitsFor N)) 0)
  initial := none
  value := countNext num T N

/-- `match self { Some(new) => values[1..N].concat([new]), None => values }` (option.spade:237-240). -/
def chunkNext (num : Key → Nat) (T : MTy) (N : Nat) : Expr :=
  .match 25 (.array T N) (.var 0 (option T))
    [.plain (.variant 26 (option T) 1 [.bound 27 T])
      (cat num 28 T (N - 1) 1 N (.range 29 (.array T (N - 1)) (.var 4 (.array T N)) (some 1) (some N))
        (.array 30 (.array T 1) [.var 27 T])),
     .plain (.variant 31 (option T) 0 []) (.var 4 (.array T N))]

/-- `reg(clk) values = next_values` (option.spade:241).  There is neither a reset nor an initial
value.  The semantics of C47 has no arrays that are known in part, so the value that the register
happens to start with is made explicit: `start` is any constant, with ids of the types `ids`. -/
def chunkReg (T : MTy) (N : Nat) (start : Expr) : Reg where
  p := .bound 4 (.array T N)
  clock := .var 1 .bool
  reset := none
  initial := some start
  value := .var 5 (.array T N)

/-- `chunks(self, clk, rst)` (option.spade:226-247). -/
def chunks (num : Key → Nat) (T : MTy) (N : Nat) (start : Expr) (ids : List (Nat × MTy)) : Ent where
  params := [(0, option T), (1, .bool), (2, .bool)]
  body := [.reg (countReg num T N), .stm .decl,
    .stm (.bind (.bound 5 (.array T N)) (chunkNext num T N)), .reg (chunkReg T N start)]
  result := .ite 32 (option (.array T N))
    (.call 33 .bool (.unit (num (.op (.logic .and))))
      [isLast num 34 N, .call 38 .bool (.unit (num (.op (.isSome T)))) [.var 0 (option T)]])
    (.call 39 (option (.array T N)) (.variant 1) [.var 5 (.array T N)])
    (.call 40 (option (.array T N)) (.variant 0) [])
  types := tys ([(0, option T), (1, .bool), (2, .bool), (3, .uint (bitsFor N)), (4, .array T N),
    (5, .array T N), (7, .uint (bitsFor N)), (8, .uint (bitsFor N)), (9, option T), (10, T),
    (11, .uint (bitsFor N)), (12, .uint (bitsFor N)), (13, .bool), (14, .uint (bitsFor N + 1)),
    (15, .uint (bitsFor N)), (16, .uint (bitsFor N + 1)), (17, .uint (bitsFor N)),
    (18, .uint (bitsFor N)), (19, .uint (bitsFor N)), (20, .uint (bitsFor N)),
    (21, .uint (bitsFor N + 1)), (22, .uint (bitsFor N)), (23, option T), (24, .uint (bitsFor N)),
    (25, .array T N), (26, option T), (27, T), (28, .array T N), (29, .array T (N - 1)),
    (30, .array T 1), (31, option T), (32, option (.array T N)), (33, .bool), (34, .bool),
    (35, .uint (bitsFor N + 1)), (36, .uint (bitsFor N)), (37, .uint (bitsFor N + 1)), (38, .bool),
    (39, option (.array T N)), (40, option (.array T N))] ++ ids)

/-- `reg(clk) old_value = value` (io.spade:12, 27). -/
def oldReg : Reg where
  p := .bound 2 .bool
  clock := .var 0 .bool
  reset := none
  initial := none
  value := .var 1 .bool

/-- `rising_edge(clk, value)` (io.spade:11-14): `value && !old_value`. -/
def risingEdge (num : Key → Nat) : Ent where
  params := [(0, .bool), (1, .bool)]
  body := [.reg oldReg]
  result := .call 3 .bool (.unit (num (.op (.logic .and))))
    [.var 1 .bool, .call 4 .bool (.unit (num (.op .not))) [.var 2 .bool]]
  types := tys []

/-- `falling_edge(clk, value)` (io.spade:26-29): `!value && old_value`. -/
def fallingEdge (num : Key → Nat) : Ent where
  params := [(0, .bool), (1, .bool)]
  body := [.reg oldReg]
  result := .call 3 .bool (.unit (num (.op (.logic .and))))
    [.call 4 .bool (.unit (num (.op .not))) [.var 1 .bool], .var 2 .bool]
  types := tys []

end Spade.Stream

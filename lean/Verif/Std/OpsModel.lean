import Verif.Std.Key
/-!
# Model of the operators, and of the functions on numbers, bits and options

spade-compiler/core/ops.spade and spade-compiler/stdlib/{conv,num,ops,option}.spade.  `a +. b`, `a & b`,
`a < b`, `a == b`, `!a` and so on are calls of the methods in core/ops.spade
(spade-ast-lowering/src/lib.rs); `+`, `-`, `*`, `<<`, `>>` and unary `-` are built in.  An `unsafe` block
is the expression in it.  The deprecated functions that only call one of these are left out.
-/
namespace Spade.Std
open Spade.Codegen Spade.Lower Spade.Expr

/-- `int<N>` or `uint<N>`. -/
def numTy (s : Bool) (N : Nat) : MTy := if s then .int N else .uint N

/-- `Option<T>` (option.spade:59-62). -/
def option (T : MTy) : MTy := .enum [[], [T]]

/-- The intrinsic of a logical operator. -/
def Logic.intr : Logic → Intr
  | .and => .bitAnd
  | .or => .bitOr
  | .xor => .bitXor

/-- `let bits: [bool; M] = transmute(e); transmute(bits[..N])`, with `e` a number of `M` bits. -/
def lowBits (id : Nat) (s : Bool) (N M : Nat) (e : Expr) : Expr :=
  .block id [.bind (.bound (id + 1) (.array .bool M)) (.call (id + 2) (.array .bool M) (.intr .transmute) [e])]
    (.call (id + 3) (numTy s N) (.intr .transmute)
      [.range (id + 4) (.array .bool N) (.var (id + 1) (.array .bool M)) none (some N)])

/-- Types of the variables of `lowBits`. -/
def lowTys (id : Nat) (s : Bool) (N M : Nat) : List (Nat × MTy) :=
  [(id, numTy s N), (id + 1, .array .bool M), (id + 2, .array .bool M), (id + 3, numTy s N), (id + 4, .array .bool N)]

/-- `l == r` for members of tuples: `eqs` compare the members from number `k` on, and what precedes is
`acc`.  `&&` is a call and associates to the left.  `id` is the first of the ids that are used. -/
def eqMembers (num : Key → Nat) (tup : MTy) : Nat → Nat → Expr → List (MTy × Nat) → Expr
  | _, _, acc, [] => acc
  | id, k, acc, (T, u) :: ts =>
    eqMembers num tup (id + 4) (k + 1)
      (.call id .bool (.unit (num (.op (.logic .and)))) [acc,
        .call (id + 1) .bool (.unit u) [.proj (id + 2) T (.var 0 tup) k, .proj (id + 3) T (.var 1 tup) k]]) ts

/-- Ids and types of `eqMembers`. -/
def eqTys : Nat → List (MTy × Nat) → List (Nat × MTy)
  | _, [] => []
  | id, (T, _) :: ts => (id, .bool) :: (id + 1, .bool) :: (id + 2, T) :: (id + 3, T) :: eqTys (id + 4) ts

/-- The units. -/
def ops (num : Key → Nat) : Op → Fn
  -- core/ops.spade:142-147
  | .neg N =>
    { params := [(0, .int N)]
      body := lowBits 2 true N N (.un 1 (.int N) .neg (.var 0 (.int N)))
      types := tys ((0, .int N) :: (1, .int N) :: lowTys 2 true N N) }
  -- core/ops.spade:155-169
  | .add s N =>
    { params := [(0, numTy s N), (1, numTy s N)]
      body := lowBits 3 s N (N + 1) (.bin 2 (numTy s (N + 1)) .add (.var 0 (numTy s N)) (.var 1 (numTy s N)))
      types := tys ((0, numTy s N) :: (1, numTy s N) :: (2, numTy s (N + 1)) :: lowTys 3 s N (N + 1)) }
  -- core/ops.spade:177-191
  | .sub s N =>
    { params := [(0, numTy s N), (1, numTy s N)]
      body := lowBits 3 s N (N + 1) (.bin 2 (numTy s (N + 1)) .sub (.var 0 (numTy s N)) (.var 1 (numTy s N)))
      types := tys ((0, numTy s N) :: (1, numTy s N) :: (2, numTy s (N + 1)) :: lowTys 3 s N (N + 1)) }
  -- core/ops.spade:199-213
  | .mul s N =>
    { params := [(0, numTy s N), (1, numTy s N)]
      body := lowBits 3 s N (2 * N) (.bin 2 (numTy s (2 * N)) .mul (.var 0 (numTy s N)) (.var 1 (numTy s N)))
      types := tys ((0, numTy s N) :: (1, numTy s N) :: (2, numTy s (2 * N)) :: lowTys 3 s N (2 * N)) }
  -- core/ops.spade:221-229
  | .shl s N =>
    { params := [(0, numTy s N), (1, numTy s N)]
      body := .bin 2 (numTy s N) .shl (.var 0 (numTy s N)) (.var 1 (numTy s N))
      types := tys [(0, numTy s N), (1, numTy s N), (2, numTy s N)] }
  -- core/ops.spade:237-245
  | .shr s N =>
    { params := [(0, numTy s N), (1, numTy s N)]
      body := .bin 2 (numTy s N) .shr (.var 0 (numTy s N)) (.var 1 (numTy s N))
      types := tys [(0, numTy s N), (1, numTy s N), (2, numTy s N)] }
  -- core/ops.spade:254-256
  | .not =>
    { params := [(0, .bool)]
      body := .elem 1 .bool (.call 2 (.array .bool 1) (.intr .bitNot) [.array 3 (.array .bool 1) [.var 0 .bool]])
        (lit 4 1 0)
      types := tys [(0, .bool), (1, .bool), (2, .array .bool 1), (3, .array .bool 1), (4, .uint (bitsFor 0))] }
  -- core/ops.spade:265-267
  | .nots N =>
    { params := [(0, .array .bool N)]
      body := .call 1 (.array .bool N) (.intr .bitNot) [.var 0 (.array .bool N)]
      types := tys [(0, .array .bool N), (1, .array .bool N)] }
  -- core/ops.spade:272-287
  | .bitNot s N =>
    { params := [(0, numTy s N)]
      body := .block 1
        [.bind (.bound 2 (.array .bool N)) (.call 3 (.array .bool N) (.intr .transmute) [.var 0 (numTy s N)])]
        (.call 4 (numTy s N) (.intr .transmute)
          [.call 5 (.array .bool N) (.intr .bitNot) [.var 2 (.array .bool N)]])
      types := tys [(0, numTy s N), (1, numTy s N), (2, .array .bool N), (3, .array .bool N), (4, numTy s N),
        (5, .array .bool N)] }
  -- core/ops.spade:296-298,340-342,384-386
  | .logic l =>
    { params := [(0, .bool), (1, .bool)]
      body := .elem 2 .bool (.call 3 (.array .bool 1) (.intr l.intr)
        [.array 4 (.array .bool 1) [.var 0 .bool], .array 5 (.array .bool 1) [.var 1 .bool]]) (lit 6 1 0)
      types := tys [(0, .bool), (1, .bool), (2, .bool), (3, .array .bool 1), (4, .array .bool 1),
        (5, .array .bool 1), (6, .uint (bitsFor 0))] }
  -- core/ops.spade:307-309,351-353,395-397
  | .logics l N =>
    { params := [(0, .array .bool N), (1, .array .bool N)]
      body := .call 2 (.array .bool N) (.intr l.intr) [.var 0 (.array .bool N), .var 1 (.array .bool N)]
      types := tys [(0, .array .bool N), (1, .array .bool N), (2, .array .bool N)] }
  -- core/ops.spade:314-331,358-375,402-419
  | .bitLogic l s N =>
    { params := [(0, numTy s N), (1, numTy s N)]
      body := .block 2
        [.bind (.bound 3 (.array .bool N)) (.call 4 (.array .bool N) (.intr .transmute) [.var 0 (numTy s N)]),
         .bind (.bound 5 (.array .bool N)) (.call 6 (.array .bool N) (.intr .transmute) [.var 1 (numTy s N)])]
        (.call 7 (numTy s N) (.intr .transmute)
          [.call 8 (.array .bool N) (.intr l.intr) [.var 3 (.array .bool N), .var 5 (.array .bool N)]])
      types := tys [(0, numTy s N), (1, numTy s N), (2, numTy s N), (3, .array .bool N), (4, .array .bool N),
        (5, .array .bool N), (6, .array .bool N), (7, numTy s N), (8, .array .bool N)] }
  -- core/ops.spade:431-471
  | .order c s N =>
    { params := [(0, numTy s N), (1, numTy s N)]
      body := .call 2 .bool (.intr (.cmp c)) [.var 0 (numTy s N), .var 1 (numTy s N)]
      types := tys [(0, numTy s N), (1, numTy s N), (2, .bool)] }
  -- `bool`, `int<N>`, `uint<N>` and `[T; N]`: core/ops.spade:28-30,40-42,52-54,64-66
  | .eq T =>
    { params := [(0, T), (1, T)]
      body := .call 2 .bool (.intr (.cmp .eq)) [.var 0 T, .var 1 T]
      types := tys [(0, T), (1, T), (2, .bool)] }
  -- core/ops.spade:33-35,45-47,57-59,69-71
  | .ne T =>
    { params := [(0, T), (1, T)]
      body := .call 2 .bool (.intr (.cmp .ne)) [.var 0 T, .var 1 T]
      types := tys [(0, T), (1, T), (2, .bool)] }
  -- core/ops.spade:77-79
  | .eqUnit =>
    { params := [(0, .tuple []), (1, .tuple [])]
      body := .bool 2 true
      types := tys [(0, .tuple []), (1, .tuple []), (2, .bool)] }
  -- core/ops.spade:82-84
  | .neUnit =>
    { params := [(0, .tuple []), (1, .tuple [])]
      body := .bool 2 false
      types := tys [(0, .tuple []), (1, .tuple []), (2, .bool)] }
  -- tuples of one to four members, core/ops.spade:89-91,101-103,113-115,125-127
  | .eqTuple [] =>
    { params := [(0, .tuple []), (1, .tuple [])]
      body := .bool 2 true
      types := tys [(0, .tuple []), (1, .tuple []), (2, .bool)] }
  | .eqTuple ((T, u) :: ts) =>
    let tup : MTy := .tuple (T :: ts.map (·.1))
    { params := [(0, tup), (1, tup)]
      body := eqMembers num tup 5 1
        (.call 2 .bool (.unit u) [.proj 3 T (.var 0 tup) 0, .proj 4 T (.var 1 tup) 0]) ts
      types := tys ((0, tup) :: (1, tup) :: (2, .bool) :: (3, T) :: (4, T) :: eqTys 5 ts) }
  -- core/ops.spade:94-96,106-108,118-120,130-132
  | .neTuple ts =>
    let tup : MTy := .tuple (ts.map (·.1))
    { params := [(0, tup), (1, tup)]
      body := .call 2 .bool (.unit (num (.op .not)))
        [.call 3 .bool (.unit (num (.op (.eqTuple ts)))) [.var 0 tup, .var 1 tup]]
      types := tys [(0, tup), (1, tup), (2, .bool), (3, .bool)] }
  -- `[bool; N]::as_int`, `[bool; N]::as_uint`, conv.spade:228-230,245-247
  | .ofBits s N =>
    { params := [(0, .array .bool N)]
      body := .call 1 (numTy s N) (.intr .transmute) [.var 0 (.array .bool N)]
      types := tys [(0, .array .bool N), (1, numTy s N)] }
  -- `bool::as_uint`, conv.spade:307-309
  | .ofBool =>
    { params := [(0, .bool)]
      body := .call 1 (.uint 1) (.intr .transmute) [.var 0 .bool]
      types := tys [(0, .bool), (1, .uint 1)] }
  -- `as_bits`, conv.spade:420-422,476-478
  | .bits s N =>
    { params := [(0, numTy s N)]
      body := .call 1 (.array .bool N) (.intr .transmute) [.var 0 (numTy s N)]
      types := tys [(0, numTy s N), (1, .array .bool N)] }
  -- `int<N>::as_uint`, `uint<N>::as_int`, conv.spade:401-403,458-460
  | .recast s N =>
    { params := [(0, numTy s N)]
      body := .call 1 (numTy (!s) N) (.intr .transmute) [.var 0 (numTy s N)]
      types := tys [(0, numTy s N), (1, numTy (!s) N)] }
  -- conv.spade:491-493
  | .toInt N =>
    { params := [(0, .uint N)]
      body := .call 1 (.int (N + 1)) (.unit (num (.op (.recast false (N + 1)))))
        [.call 2 (.uint (N + 1)) (.intr .zext) [.var 0 (.uint N)]]
      types := tys [(0, .uint N), (1, .int (N + 1)), (2, .uint (N + 1))] }
  -- conv.spade:528-533
  | .leBytes N =>
    { params := [(0, .uint N)]
      body := .call 1 (.array (.uint 8) (N / 8))
        (.unit (num (.map (.array .bool 8) (.uint 8) (N / 8) ⟨.struct [], num (.op .lamByte)⟩)))
        [.call 2 (.array (.array .bool 8) (N / 8)) (.unit (num (.chunks .bool N 8)))
          [.call 3 (.array .bool N) (.unit (num (.op (.bits false N)))) [.var 0 (.uint N)]],
         .call 4 (.struct []) .struct []]
      types := tys [(0, .uint N), (1, .array (.uint 8) (N / 8)), (2, .array (.array .bool 8) (N / 8)),
        (3, .array .bool N), (4, .struct [])] }
  -- the lambda `fn |c| c.as_uint()`, conv.spade:532
  | .lamByte =>
    { params := [(0, .struct []), (1, .tuple [.array .bool 8])]
      body := .block 2
        [.bind (.tuple 3 (.tuple [.array .bool 8]) [.bound 4 (.array .bool 8)]) (.var 1 (.tuple [.array .bool 8]))]
        (.call 5 (.uint 8) (.unit (num (.op (.ofBits false 8)))) [.var 4 (.array .bool 8)])
      types := tys [(0, .struct []), (1, .tuple [.array .bool 8]), (2, .uint 8), (3, .tuple [.array .bool 8]),
        (4, .array .bool 8), (5, .uint 8)] }
  -- conv.spade:543-545
  | .beBytes N =>
    { params := [(0, .uint N)]
      body := .call 1 (.array (.uint 8) (N / 8)) (.unit (num (.reversed (.uint 8) (N / 8))))
        [.call 2 (.array (.uint 8) (N / 8)) (.unit (num (.op (.leBytes N)))) [.var 0 (.uint N)]]
      types := tys [(0, .uint N), (1, .array (.uint 8) (N / 8)), (2, .array (.uint 8) (N / 8))] }
  -- conv.spade:556-564
  | .germanBytes N =>
    { params := [(0, .uint N)]
      body :=
        if N ≤ 16 then .call 1 (.array (.uint 8) (N / 8)) (.unit (num (.op (.leBytes N)))) [.var 0 (.uint N)]
        else .block 1
          [.bind (.bound 2 (.array (.uint 8) (N / 8)))
            (.call 3 (.array (.uint 8) (N / 8)) (.unit (num (.op (.beBytes N)))) [.var 0 (.uint N)])]
          (cat num 4 (.uint 8) (N / 8 - 2) (N / 8 - (N / 8 - 2)) (N / 8)
            (.range 5 (.array (.uint 8) (N / 8 - 2)) (.var 2 (.array (.uint 8) (N / 8))) none (some (N / 8 - 2)))
            (.call 6 (.array (.uint 8) (N / 8 - (N / 8 - 2)))
              (.unit (num (.reversed (.uint 8) (N / 8 - (N / 8 - 2)))))
              [.range 7 (.array (.uint 8) (N / 8 - (N / 8 - 2))) (.var 2 (.array (.uint 8) (N / 8)))
                (some (N / 8 - 2)) none]))
      types := tys [(0, .uint N), (1, .array (.uint 8) (N / 8)), (2, .array (.uint 8) (N / 8)),
        (3, .array (.uint 8) (N / 8)), (4, .array (.uint 8) (N / 8)), (5, .array (.uint 8) (N / 8 - 2)),
        (6, .array (.uint 8) (N / 8 - (N / 8 - 2))), (7, .array (.uint 8) (N / 8 - (N / 8 - 2)))] }
  -- num.spade:100-102
  | .abs N =>
    { params := [(0, .int N)]
      body := .ite 1 (.uint N)
        (.call 2 .bool (.unit (num (.op (.order .lt true N)))) [.var 0 (.int N), .int 3 (.int N) 0])
        (.call 4 (.uint N) (.unit (num (.op (.recast true N))))
          [.call 5 (.int N) (.unit (num (.op (.neg N)))) [.var 0 (.int N)]])
        (.call 6 (.uint N) (.unit (num (.op (.recast true N)))) [.var 0 (.int N)])
      types := tys [(0, .int N), (1, .uint N), (2, .bool), (3, .int N), (4, .uint N), (5, .int N), (6, .uint N)] }
  -- num.spade:120-122,181-183
  | .numConcat s N M =>
    { params := [(0, numTy s N), (1, numTy s M)]
      body := .call 2 (numTy s (N + M)) (.intr .concat) [.var 0 (numTy s N), .var 1 (numTy s M)]
      types := tys [(0, numTy s N), (1, numTy s M), (2, numTy s (N + M))] }
  -- num.spade:132-134,208-210
  | .max s N =>
    { params := [(0, numTy s N), (1, numTy s N)]
      body := .ite 2 (numTy s N)
        (.call 3 .bool (.unit (num (.op (.order .lt s N)))) [.var 0 (numTy s N), .var 1 (numTy s N)])
        (.var 1 (numTy s N)) (.var 0 (numTy s N))
      types := tys [(0, numTy s N), (1, numTy s N), (2, numTy s N), (3, .bool)] }
  -- num.spade:144-146,220-222
  | .min s N =>
    { params := [(0, numTy s N), (1, numTy s N)]
      body := .ite 2 (numTy s N)
        (.call 3 .bool (.unit (num (.op (.order .lt s N)))) [.var 0 (numTy s N), .var 1 (numTy s N)])
        (.var 0 (numTy s N)) (.var 1 (numTy s N))
      types := tys [(0, numTy s N), (1, numTy s N), (2, numTy s N), (3, .bool)] }
  -- num.spade:163-165,236-238
  | .trunc s N M =>
    { params := [(0, numTy s N)]
      body := .call 1 (numTy s M) (.intr .trunc) [.var 0 (numTy s N)]
      types := tys [(0, numTy s N), (1, numTy s M)] }
  -- num.spade:196-198
  | .numInterleave N =>
    { params := [(0, .uint N), (1, .uint N)]
      body := .call 2 (.uint (2 * N)) (.unit (num (.op (.ofBits false (2 * N)))))
        [.call 3 (.array .bool (2 * N)) (.unit (num (.interleave .bool N)))
          [.call 4 (.array .bool N) (.unit (num (.op (.bits false N)))) [.var 0 (.uint N)],
           .call 5 (.array .bool N) (.unit (num (.op (.bits false N)))) [.var 1 (.uint N)]]]
      types := tys [(0, .uint N), (1, .uint N), (2, .uint (2 * N)), (3, .array .bool (2 * N)), (4, .array .bool N),
        (5, .array .bool N)] }
  -- num.spade:267-269,312-314
  | .msb s N =>
    { params := [(0, numTy s N)]
      body := .call 1 .bool (.unit (num (.last .bool N)))
        [.call 2 (.array .bool N) (.unit (num (.op (.bits s N)))) [.var 0 (numTy s N)]]
      types := tys [(0, numTy s N), (1, .bool), (2, .array .bool N)] }
  -- num.spade:282-284,325-327
  | .lsb s N =>
    { params := [(0, numTy s N)]
      body := .call 1 .bool (.unit (num (.first .bool N)))
        [.call 2 (.array .bool N) (.unit (num (.op (.bits s N)))) [.var 0 (numTy s N)]]
      types := tys [(0, numTy s N), (1, .bool), (2, .array .bool N)] }
  -- num.spade:297-299
  | .signBit N =>
    { params := [(0, .int N)]
      body := .call 1 .bool (.unit (num (.op (.msb true N)))) [.var 0 (.int N)]
      types := tys [(0, .int N), (1, .bool)] }
  -- ops.spade:31-33
  | .absTrunc N =>
    { params := [(0, .int N)]
      body := .call 1 (.int N) (.unit (num (.op (.recast false N))))
        [.call 2 (.uint N) (.unit (num (.op (.abs N)))) [.var 0 (.int N)]]
      types := tys [(0, .int N), (1, .int N), (2, .uint N)] }
  -- `order`, ops.spade:72-74
  | .sorted N =>
    { params := [(0, .int N), (1, .int N)]
      body := .ite 2 (.tuple [.int N, .int N])
        (.call 3 .bool (.unit (num (.op (.order .lt true N)))) [.var 0 (.int N), .var 1 (.int N)])
        (.tuple 4 (.tuple [.int N, .int N]) [.var 0 (.int N), .var 1 (.int N)])
        (.tuple 5 (.tuple [.int N, .int N]) [.var 1 (.int N), .var 0 (.int N)])
      types := tys [(0, .int N), (1, .int N), (2, .tuple [.int N, .int N]), (3, .bool), (4, .tuple [.int N, .int N]),
        (5, .tuple [.int N, .int N])] }
  -- option.spade:72-77
  | .isSome T =>
    { params := [(0, option T)]
      body := .match 1 .bool (.var 0 (option T))
        [.plain (.variant 2 (option T) 1 [.bound 3 T]) (.bool 4 true),
         .plain (.variant 5 (option T) 0 []) (.bool 6 false)]
      types := tys [(0, option T), (1, .bool), (2, option T), (3, T), (4, .bool), (5, option T), (6, .bool)] }
  -- option.spade:87-92
  | .isNone T =>
    { params := [(0, option T)]
      body := .match 1 .bool (.var 0 (option T))
        [.plain (.variant 2 (option T) 1 [.bound 3 T]) (.bool 4 false),
         .plain (.variant 5 (option T) 0 []) (.bool 6 true)]
      types := tys [(0, option T), (1, .bool), (2, option T), (3, T), (4, .bool), (5, option T), (6, .bool)] }
  -- option.spade:102-107
  | .unwrapOr T =>
    { params := [(0, option T), (1, T)]
      body := .match 2 T (.var 0 (option T))
        [.plain (.variant 3 (option T) 1 [.bound 4 T]) (.var 4 T),
         .plain (.variant 5 (option T) 0 []) (.var 1 T)]
      types := tys [(0, option T), (1, T), (2, T), (3, option T), (4, T), (5, option T)] }
  -- option.spade:134-139
  | .optMap T O f =>
    { params := [(0, option T), (1, f.ty)]
      body := .match 2 (option O) (.var 0 (option T))
        [.plain (.variant 3 (option T) 1 [.bound 4 T])
          (.call 5 (option O) (.variant 1)
            [.call 6 O (.unit f.call) [.var 1 f.ty, .tuple 7 (.tuple [T]) [.var 4 T]]]),
         .plain (.variant 8 (option T) 0 []) (.call 9 (option O) (.variant 0) [])]
      types := tys [(0, option T), (1, f.ty), (2, option O), (3, option T), (4, T), (5, option O), (6, O),
        (7, .tuple [T]), (8, option T), (9, option O)] }
  -- option.spade:177-182
  | .andThen T O f =>
    { params := [(0, option T), (1, f.ty)]
      body := .match 2 (option O) (.var 0 (option T))
        [.plain (.variant 3 (option T) 1 [.bound 4 T])
          (.call 5 (option O) (.unit f.call) [.var 1 f.ty, .tuple 6 (.tuple [T]) [.var 4 T]]),
         .plain (.variant 7 (option T) 0 []) (.call 8 (option O) (.variant 0) [])]
      types := tys [(0, option T), (1, f.ty), (2, option O), (3, option T), (4, T), (5, option O), (6, .tuple [T]),
        (7, option T), (8, option O)] }
  -- option.spade:258-265
  | .eqOption T eq =>
    { params := [(0, option T), (1, option T)]
      body := .match 2 .bool
        (.tuple 3 (.tuple [option T, option T]) [.var 0 (option T), .var 1 (option T)])
        [.plain (.tuple 4 (.tuple [option T, option T])
            [.variant 5 (option T) 1 [.bound 6 T], .variant 7 (option T) 1 [.bound 8 T]])
          (.call 9 .bool (.unit eq) [.var 6 T, .var 8 T]),
         .plain (.tuple 10 (.tuple [option T, option T])
            [.variant 11 (option T) 1 [.bound 12 T], .variant 13 (option T) 0 []]) (.bool 14 false),
         .plain (.tuple 15 (.tuple [option T, option T])
            [.variant 16 (option T) 0 [], .variant 17 (option T) 1 [.bound 18 T]]) (.bool 19 false),
         .plain (.tuple 20 (.tuple [option T, option T])
            [.variant 21 (option T) 0 [], .variant 22 (option T) 0 []]) (.bool 23 true)]
      types := tys [(0, option T), (1, option T), (2, .bool), (3, .tuple [option T, option T]),
        (4, .tuple [option T, option T]), (5, option T), (6, T), (7, option T), (8, T), (9, .bool),
        (10, .tuple [option T, option T]), (11, option T), (12, T), (13, option T), (14, .bool),
        (15, .tuple [option T, option T]), (16, option T), (17, option T), (18, T), (19, .bool),
        (20, .tuple [option T, option T]), (21, option T), (22, option T), (23, .bool)] }
  -- option.spade:268-270
  | .neOption T eq =>
    { params := [(0, option T), (1, option T)]
      body := .call 2 .bool (.unit (num (.op .not)))
        [.call 3 .bool (.unit (num (.op (.eqOption T eq)))) [.var 0 (option T), .var 1 (option T)]]
      types := tys [(0, option T), (1, option T), (2, .bool), (3, .bool)] }

end Spade.Std

import Verif.Std.OpsModel
/-!
# Model of the arrays of the standard library

spade-compiler/stdlib/array.spade, as it is when code is generated: monomorphised, `gen if` replaced by
the branch that is selected (C53), methods resolved (C50), lambdas replaced by units (C54).  The
bodies are expressions of the source language of C45.  `std num k` is the unit for the function and
the generic arguments `k`, and `num k` is the number of that unit in the program.
-/
namespace Spade.Std
open Spade.Codegen Spade.Lower Spade.Expr

/-- The units of the standard library. -/
def std (num : Key → Nat) : Key → Fn
  | .op o => ops num o
  -- array.spade:15-21
  | .unfold T N f =>
    { params := [(0, T), (1, f.ty)]
      body :=
        if N = 0 then .array 2 (.array T 0) []
        else cat num 2 T 1 (N - 1) N (.array 3 (.array T 1) [.var 0 T])
          (.call 4 (.array T (N - 1)) (.unit (num (.unfold T (N - 1) f)))
            [.call 5 T (.unit f.call) [.var 1 f.ty, .tuple 6 (.tuple [T]) [.var 0 T]], .var 1 f.ty])
      types := tys [(0, T), (1, f.ty), (2, .array T N), (3, .array T 1), (4, .array T (N - 1)), (5, T),
        (6, .tuple [T])] }
  -- array.spade:82-88
  | .all T N f =>
    { params := [(0, .array T N), (1, f.ty)]
      body :=
        if N = 0 then .bool 2 true
        else .call 2 .bool (.unit (num (.reduceAnd N)))
          [.call 3 (.array .bool N) (.unit (num (.map T .bool N f))) [.var 0 (.array T N), .var 1 f.ty]]
      types := tys [(0, .array T N), (1, f.ty), (2, .bool), (3, .array .bool N)] }
  -- array.spade:103-109
  | .any T N f =>
    { params := [(0, .array T N), (1, f.ty)]
      body :=
        if N = 0 then .bool 2 false
        else .call 2 .bool (.unit (num (.reduceOr N)))
          [.call 3 (.array .bool N) (.unit (num (.map T .bool N f))) [.var 0 (.array T N), .var 1 f.ty]]
      types := tys [(0, .array T N), (1, f.ty), (2, .bool), (3, .array .bool N)] }
  -- array.spade:130-140
  | .chunks T N K =>
    { params := [(0, .array T N)]
      body :=
        if N = 0 then .array 1 (.array (.array T K) (N / K)) []
        else .block 1 [splitLet num 2 4 5 T N K (.var 0 (.array T N))]
          (cat num 6 (.array T K) 1 ((N - K) / K) (N / K) (.array 7 (.array (.array T K) 1) [.var 4 (.array T K)])
            (.call 8 (.array (.array T K) ((N - K) / K)) (.unit (num (.chunks T (N - K) K)))
              [.var 5 (.array T (N - K))]))
      types := tys [(0, .array T N), (1, .array (.array T K) (N / K)), (2, .tuple [.array T K, .array T (N - K)]),
        (3, .tuple [.array T K, .array T (N - K)]), (4, .array T K), (5, .array T (N - K)),
        (6, .array (.array T K) (N / K)), (7, .array (.array T K) 1), (8, .array (.array T K) ((N - K) / K))] }
  -- array.spade:155-157
  | .concat T N M =>
    { params := [(0, .array T N), (1, .array T M)]
      body := .call 2 (.array T (M + N)) (.intr .transmute)
        [.tuple 3 (.tuple [.array T M, .array T N]) [.var 1 (.array T M), .var 0 (.array T N)]]
      types := tys [(0, .array T N), (1, .array T M), (2, .array T (M + N)),
        (3, .tuple [.array T M, .array T N])] }
  -- array.spade:168-175
  | .reversed T N =>
    { params := [(0, .array T N)]
      body :=
        if N < 2 then .var 0 (.array T N)
        else .block 1 [splitLet num 2 4 5 T N (N / 2) (.var 0 (.array T N))]
          (cat num 6 T (N - N / 2) (N / 2) N
            (.call 7 (.array T (N - N / 2)) (.unit (num (.reversed T (N - N / 2)))) [.var 5 (.array T (N - N / 2))])
            (.call 8 (.array T (N / 2)) (.unit (num (.reversed T (N / 2)))) [.var 4 (.array T (N / 2))]))
      types := tys [(0, .array T N), (1, .array T N), (2, .tuple [.array T (N / 2), .array T (N - N / 2)]),
        (3, .tuple [.array T (N / 2), .array T (N - N / 2)]), (4, .array T (N / 2)),
        (5, .array T (N - N / 2)), (6, .array T N), (7, .array T (N - N / 2)), (8, .array T (N / 2))] }
  -- array.spade:194-201
  | .fold T B N f =>
    { params := [(0, .array T N), (1, B), (2, f.ty)]
      body :=
        if N = 0 then .var 1 B
        else .block 3
          [.bind (.bound 4 B) (.call 5 B (.unit f.call) [.var 2 f.ty,
            .tuple 6 (.tuple [B, T]) [.var 1 B, .elem 7 T (.var 0 (.array T N)) (lit 8 N 0)]])]
          (.call 9 B (.unit (num (.fold T B (N - 1) f)))
            [.range 10 (.array T (N - 1)) (.var 0 (.array T N)) (some 1) none, .var 4 B, .var 2 f.ty])
      types := tys [(0, .array T N), (1, B), (2, f.ty), (3, B), (4, B), (5, B), (6, .tuple [B, T]), (7, T),
        (8, .uint (bitsFor (N - 1))), (9, B), (10, .array T (N - 1))] }
  -- array.spade:219-223
  | .interleave T N =>
    { params := [(0, .array T N), (1, .array T N)]
      body := .call 2 (.array T (2 * N)) (.unit (num (.flatten T N 2)))
        [.call 3 (.array (.array T 2) N)
          (.unit (num (.map (.tuple [T, T]) (.array T 2) N ⟨.struct [], num (.lamPair T)⟩)))
          [.call 4 (.array (.tuple [T, T]) N) (.unit (num (.zip T T N)))
            [.var 0 (.array T N), .var 1 (.array T N)],
           .call 5 (.struct []) .struct []]]
      types := tys [(0, .array T N), (1, .array T N), (2, .array T (2 * N)), (3, .array (.array T 2) N),
        (4, .array (.tuple [T, T]) N), (5, .struct [])] }
  -- the lambda `fn |(l, r)| [l, r]`, array.spade:221
  | .lamPair T =>
    { params := [(0, .struct []), (1, .tuple [.tuple [T, T]])]
      body := .block 2
        [.bind (.tuple 3 (.tuple [.tuple [T, T]]) [.tuple 4 (.tuple [T, T]) [.bound 5 T, .bound 6 T]])
          (.var 1 (.tuple [.tuple [T, T]]))]
        (.array 7 (.array T 2) [.var 5 T, .var 6 T])
      types := tys [(0, .struct []), (1, .tuple [.tuple [T, T]]), (2, .array T 2), (3, .tuple [.tuple [T, T]]),
        (4, .tuple [T, T]), (5, T), (6, T), (7, .array T 2)] }
  -- array.spade:233-242
  | .map T O N f =>
    { params := [(0, .array T N), (1, f.ty)]
      body :=
        if N = 0 then .array 2 (.array O 0) []
        else if N = 1 then .array 2 (.array O 1) [.call 3 O (.unit f.call) [.var 1 f.ty,
          .tuple 4 (.tuple [T]) [.elem 5 T (.var 0 (.array T N)) (lit 6 N 0)]]]
        else .block 2 [splitLet num 7 9 10 T N (N / 2) (.var 0 (.array T N))]
          (cat num 11 O (N / 2) (N - N / 2) N
            (.call 12 (.array O (N / 2)) (.unit (num (.map T O (N / 2) f)))
              [.var 9 (.array T (N / 2)), .var 1 f.ty])
            (.call 13 (.array O (N - N / 2)) (.unit (num (.map T O (N - N / 2) f)))
              [.var 10 (.array T (N - N / 2)), .var 1 f.ty]))
      types := tys [(0, .array T N), (1, f.ty), (2, .array O N), (3, O), (4, .tuple [T]), (5, T),
        (6, .uint (bitsFor (N - 1))), (7, .tuple [.array T (N / 2), .array T (N - N / 2)]),
        (8, .tuple [.array T (N / 2), .array T (N - N / 2)]), (9, .array T (N / 2)),
        (10, .array T (N - N / 2)), (11, .array O N), (12, .array O (N / 2)),
        (13, .array O (N - N / 2))] }
  -- array.spade:257-259
  | .pushBack T N =>
    { params := [(0, .array T N), (1, T)]
      body := cat num 2 T N 1 (N + 1) (.var 0 (.array T N)) (.array 3 (.array T 1) [.var 1 T])
      types := tys [(0, .array T N), (1, T), (2, .array T (N + 1)), (3, .array T 1)] }
  -- array.spade:274-276
  | .pushFront T N =>
    { params := [(0, .array T N), (1, T)]
      body := cat num 2 T 1 N (N + 1) (.array 3 (.array T 1) [.var 1 T]) (.var 0 (.array T N))
      types := tys [(0, .array T N), (1, T), (2, .array T (N + 1)), (3, .array T 1)] }
  -- array.spade:299-308
  | .slidingWindow T N M =>
    { params := [(0, .array T N)]
      body :=
        if N = M then .array 1 (.array (.array T M) 1) [.var 0 (.array T N)]
        else cat num 1 (.array T M) 1 (N - 1 - M + 1) (N - M + 1)
          (.array 2 (.array (.array T M) 1) [.range 3 (.array T M) (.var 0 (.array T N)) none (some M)])
          (.call 4 (.array (.array T M) (N - 1 - M + 1)) (.unit (num (.slidingWindow T (N - 1) M)))
            [.range 5 (.array T (N - 1)) (.var 0 (.array T N)) (some 1) none])
      types := tys [(0, .array T N), (1, .array (.array T M) (N - M + 1)), (2, .array (.array T M) 1),
        (3, .array T M), (4, .array (.array T M) (N - 1 - M + 1)), (5, .array T (N - 1))] }
  -- array.spade:327-333
  | .splitAt T N K =>
    { params := [(0, .array T N)]
      body := .block 1
        [.bind (.tuple 2 (.tuple [.array T (N - K), .array T K])
            [.bound 3 (.array T (N - K)), .bound 4 (.array T K)])
          (.call 5 (.tuple [.array T (N - K), .array T K]) (.intr .transmute) [.var 0 (.array T N)])]
        (.tuple 6 (.tuple [.array T K, .array T (N - K)]) [.var 4 (.array T K), .var 3 (.array T (N - K))])
      types := tys [(0, .array T N), (1, .tuple [.array T K, .array T (N - K)]),
        (2, .tuple [.array T (N - K), .array T K]), (3, .array T (N - K)), (4, .array T K),
        (5, .tuple [.array T (N - K), .array T K]), (6, .tuple [.array T K, .array T (N - K)])] }
  -- array.spade:351-365
  | .zip T O N =>
    { params := [(0, .array T N), (1, .array O N)]
      body :=
        if N = 0 then .array 2 (.array (.tuple [T, O]) 0) []
        else if N = 1 then .array 2 (.array (.tuple [T, O]) 1) [.tuple 3 (.tuple [T, O])
          [.elem 4 T (.var 0 (.array T N)) (lit 5 N 0), .elem 6 O (.var 1 (.array O N)) (lit 7 N 0)]]
        else .block 2
          [splitLet num 8 10 11 T N (N / 2) (.var 0 (.array T N)),
           splitLet num 12 14 15 O N (N / 2) (.var 1 (.array O N)),
           .bind (.bound 16 (.array (.tuple [T, O]) (N / 2)))
             (.call 17 (.array (.tuple [T, O]) (N / 2)) (.unit (num (.zip T O (N / 2))))
               [.var 10 (.array T (N / 2)), .var 14 (.array O (N / 2))]),
           .bind (.bound 18 (.array (.tuple [T, O]) (N - N / 2)))
             (.call 19 (.array (.tuple [T, O]) (N - N / 2)) (.unit (num (.zip T O (N - N / 2))))
               [.var 11 (.array T (N - N / 2)), .var 15 (.array O (N - N / 2))])]
          (cat num 20 (.tuple [T, O]) (N / 2) (N - N / 2) N (.var 16 (.array (.tuple [T, O]) (N / 2)))
            (.var 18 (.array (.tuple [T, O]) (N - N / 2))))
      types := tys [(0, .array T N), (1, .array O N), (2, .array (.tuple [T, O]) N), (3, .tuple [T, O]), (4, T),
        (5, .uint (bitsFor (N - 1))), (6, O), (7, .uint (bitsFor (N - 1))),
        (8, .tuple [.array T (N / 2), .array T (N - N / 2)]),
        (9, .tuple [.array T (N / 2), .array T (N - N / 2)]), (10, .array T (N / 2)),
        (11, .array T (N - N / 2)), (12, .tuple [.array O (N / 2), .array O (N - N / 2)]),
        (13, .tuple [.array O (N / 2), .array O (N - N / 2)]), (14, .array O (N / 2)),
        (15, .array O (N - N / 2)), (16, .array (.tuple [T, O]) (N / 2)),
        (17, .array (.tuple [T, O]) (N / 2)), (18, .array (.tuple [T, O]) (N - N / 2)),
        (19, .array (.tuple [T, O]) (N - N / 2)), (20, .array (.tuple [T, O]) N)] }
  -- array.spade:377-379
  | .len T N =>
    { params := [(0, .array T N)]
      body := .int 1 (.uint (bitsFor N)) N
      types := tys [(0, .array T N), (1, .uint (bitsFor N))] }
  -- array.spade:391-394
  | .first T N =>
    { params := [(0, .array T N)]
      body := .elem 1 T (.var 0 (.array T N)) (lit 2 N 0)
      types := tys [(0, .array T N), (1, T), (2, .uint (bitsFor (N - 1)))] }
  -- array.spade:404-407
  | .last T N =>
    { params := [(0, .array T N)]
      body := .elem 1 T (.range 2 (.array T 1) (.var 0 (.array T N)) (some (N - 1)) none) (lit 3 1 0)
      types := tys [(0, .array T N), (1, T), (2, .array T 1), (3, .uint (bitsFor 0))] }
  -- array.spade:425-427
  | .reduce T N f =>
    { params := [(0, .array T N), (1, f.ty)]
      body := .call 2 T (.unit (num (.fold T T (N - 1) f)))
        [.range 3 (.array T (N - 1)) (.var 0 (.array T N)) (some 1) none,
         .elem 4 T (.var 0 (.array T N)) (lit 5 N 0), .var 1 f.ty]
      types := tys [(0, .array T N), (1, f.ty), (2, T), (3, .array T (N - 1)), (4, T),
        (5, .uint (bitsFor (N - 1)))] }
  -- array.spade:442-444
  | .shiftBack T N =>
    { params := [(0, .array T N), (1, T)]
      body := .call 2 (.array T N) (.unit (num (.pushBack T (N - 1))))
        [.range 3 (.array T (N - 1)) (.var 0 (.array T N)) (some 1) none, .var 1 T]
      types := tys [(0, .array T N), (1, T), (2, .array T N), (3, .array T (N - 1))] }
  -- array.spade:459-461
  | .shiftFront T N =>
    { params := [(0, .array T N), (1, T)]
      body := .range 2 (.array T N) (.call 3 (.array T (N + 1)) (.unit (num (.pushFront T N)))
        [.var 0 (.array T N), .var 1 T]) none (some N)
      types := tys [(0, .array T N), (1, T), (2, .array T N), (3, .array T (N + 1))] }
  -- array.spade:481-493
  | .unzip S T N =>
    { params := [(0, .array (.tuple [S, T]) N)]
      body :=
        if N = 0 then .tuple 1 (.tuple [.array S 0, .array T 0]) [.array 2 (.array S 0) [], .array 3 (.array T 0) []]
        else if N = 1 then .tuple 1 (.tuple [.array S 1, .array T 1])
          [.array 2 (.array S 1) [.proj 4 S (.elem 5 (.tuple [S, T]) (.var 0 (.array (.tuple [S, T]) N)) (lit 6 N 0)) 0],
           .array 3 (.array T 1) [.proj 7 T (.elem 8 (.tuple [S, T]) (.var 0 (.array (.tuple [S, T]) N)) (lit 9 N 0)) 1]]
        else .block 1
          [splitLet num 10 12 13 (.tuple [S, T]) N (N / 2) (.var 0 (.array (.tuple [S, T]) N)),
           .bind (.tuple 14 (.tuple [.array S (N / 2), .array T (N / 2)])
               [.bound 15 (.array S (N / 2)), .bound 16 (.array T (N / 2))])
             (.call 17 (.tuple [.array S (N / 2), .array T (N / 2)]) (.unit (num (.unzip S T (N / 2))))
               [.var 12 (.array (.tuple [S, T]) (N / 2))]),
           .bind (.tuple 18 (.tuple [.array S (N - N / 2), .array T (N - N / 2)])
               [.bound 19 (.array S (N - N / 2)), .bound 20 (.array T (N - N / 2))])
             (.call 21 (.tuple [.array S (N - N / 2), .array T (N - N / 2)])
               (.unit (num (.unzip S T (N - N / 2)))) [.var 13 (.array (.tuple [S, T]) (N - N / 2))])]
          (.tuple 22 (.tuple [.array S N, .array T N])
            [cat num 23 S (N / 2) (N - N / 2) N (.var 15 (.array S (N / 2))) (.var 19 (.array S (N - N / 2))),
             cat num 24 T (N / 2) (N - N / 2) N (.var 16 (.array T (N / 2))) (.var 20 (.array T (N - N / 2)))])
      types := tys [(0, .array (.tuple [S, T]) N), (1, .tuple [.array S N, .array T N]), (2, .array S N),
        (3, .array T N), (4, S), (5, .tuple [S, T]), (6, .uint (bitsFor (N - 1))), (7, T),
        (8, .tuple [S, T]), (9, .uint (bitsFor (N - 1))),
        (10, .tuple [.array (.tuple [S, T]) (N / 2), .array (.tuple [S, T]) (N - N / 2)]),
        (11, .tuple [.array (.tuple [S, T]) (N / 2), .array (.tuple [S, T]) (N - N / 2)]),
        (12, .array (.tuple [S, T]) (N / 2)), (13, .array (.tuple [S, T]) (N - N / 2)),
        (14, .tuple [.array S (N / 2), .array T (N / 2)]), (15, .array S (N / 2)), (16, .array T (N / 2)),
        (17, .tuple [.array S (N / 2), .array T (N / 2)]),
        (18, .tuple [.array S (N - N / 2), .array T (N - N / 2)]), (19, .array S (N - N / 2)),
        (20, .array T (N - N / 2)), (21, .tuple [.array S (N - N / 2), .array T (N - N / 2)]),
        (22, .tuple [.array S N, .array T N]), (23, .array S N), (24, .array T N)] }
  -- array.spade:553-562
  | .flatten T N M =>
    { params := [(0, .array (.array T M) N)]
      body :=
        if N = 0 then .array 1 (.array T (N * M)) []
        else if N = 1 then .elem 1 (.array T M) (.var 0 (.array (.array T M) N)) (lit 2 N 0)
        else .block 1 [splitLet num 3 5 6 (.array T M) N (N / 2) (.var 0 (.array (.array T M) N))]
          (cat num 7 T (N / 2 * M) ((N - N / 2) * M) (N * M)
            (.call 8 (.array T (N / 2 * M)) (.unit (num (.flatten T (N / 2) M)))
              [.var 5 (.array (.array T M) (N / 2))])
            (.call 9 (.array T ((N - N / 2) * M)) (.unit (num (.flatten T (N - N / 2) M)))
              [.var 6 (.array (.array T M) (N - N / 2))]))
      types := tys [(0, .array (.array T M) N), (1, .array T (N * M)), (2, .uint (bitsFor (N - 1))),
        (3, .tuple [.array (.array T M) (N / 2), .array (.array T M) (N - N / 2)]),
        (4, .tuple [.array (.array T M) (N / 2), .array (.array T M) (N - N / 2)]),
        (5, .array (.array T M) (N / 2)), (6, .array (.array T M) (N - N / 2)), (7, .array T (N * M)),
        (8, .array T (N / 2 * M)), (9, .array T ((N - N / 2) * M))] }
  -- array.spade:577-579
  | .reduceAnd N =>
    { params := [(0, .array .bool N)]
      body := .call 1 .bool (.intr .reduceAnd) [.var 0 (.array .bool N)]
      types := tys [(0, .array .bool N), (1, .bool)] }
  -- array.spade:592-594
  | .reduceOr N =>
    { params := [(0, .array .bool N)]
      body := .call 1 .bool (.intr .reduceOr) [.var 0 (.array .bool N)]
      types := tys [(0, .array .bool N), (1, .bool)] }
  -- array.spade:607-609
  | .reduceXor N =>
    { params := [(0, .array .bool N)]
      body := .call 1 .bool (.intr .reduceXor) [.var 0 (.array .bool N)]
      types := tys [(0, .array .bool N), (1, .bool)] }

end Spade.Std

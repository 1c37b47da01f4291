# Where the code departs from the properties

Written by `tools/gen_reports.py` from the comments of the counterexample theorems.  Each is a proof about the model that the property as stated fails; the
definitions it refers to cite the code.

| property | theorem | module | what goes wrong |
|---|---|---|---|
| C01 | `C01_counterexample_clock` | Verif/Match/Props.lean | A match on `(clock, bool)` with the single arm `(_, true)` is accepted. |
| C01 | `C01_counterexample_literal` | Verif/Match/Props.lean | `match (x: uint<1>) { 0 => … }` is accepted although 1 is not matched. |
| C01 | `C01_counterexample_literal_pair` | Verif/Match/Props.lean | `match (x: uint<2>) { 0 => …, 2 => … }` is accepted although 1 and 3 are not matched. |
| C03 | `C03_counterexample_copyView` | Verif/Match/Props.lean | Matching on a copy view of an enum makes the checker panic, even with one `_` arm. |
| C03 | `C03_counterexample_guard` | Verif/Match/Props.lean | `match (x: (int<8>, bool)) { (x, true) => …, (y, z) if c => … }` is not exhaustive; the check finds that, and the pass that wants to explain it panics. |
| C04 | `C04_counterexample_literal` | Verif/Match/Props.lean | `let 0 = x;` at `uint<1>` is accepted although 1 does not match. |
| C04 | `C04_counterexample_variant` | Verif/Match/Props.lean | `let Some(x) = opt;` is accepted although `None` does not match. |
| C05 | `C05_counterexample_empty_array` | Verif/Lower/Examples.lean | C05 fails for patterns of arrays of length 0: the compiler panics on `match a { [] => r }` (`inner.len().ilog2()`, lib.rs:455), for every scrutinee and result. |
| C05 | `C05_counterexample_single_variant` | Verif/Lower/Examples.lean | C05 fails for one-bit payloads of an enum with a single variant (`C06_counterexample_single_variant`): with `enum E { A(bool, uint<2>) }`, the expression `match e { A(true, _) => r1, _ => r2 }` evaluates to `r2` when `e` is `A(true, 0)`. |
| C06 | `C06_counterexample_single_variant` | Verif/Codegen/Props.lean | C06 fails for a one-bit member of a larger enum with a single variant: the whole value is assigned instead of the member (codegen/mod.rs:708). Here `A(bool, uint<2>)` with the bool true and the number 0 reads back as false. |
| C09 | `C09_counterexample_backward_range` | Verif/Codegen/ArrayProps.lean | C09 fails for range indexing in the backward direction: the code uses the forward width of the elements (codegen/mod.rs:858), which is 0 for elements that are purely backward, so the emitted select `x[start * 0 +: 0]` is not valid Verilog and no valuation of the nets satisfies it. |
| C09 | `C09_counterexample_bit_range` | Verif/Codegen/ArrayProps.lean | Reading the two most significant bits of a 4-bit value: the emitted select is `x[4:2]`, which is out of range (codegen/mod.rs:522). |
| C10 | `C10_counterexample_chunks` | Verif/Codegen/EvalProps.lean | The elements of a concatenation go through `as_u64`, which panics beyond 64 bits (eval.rs:161). |
| C10 | `C10_counterexample_u64` | Verif/Codegen/EvalProps.lean | A one-element tuple of a `uint<64>` shifts a `u64` by 64, which overflows (eval.rs:125). |
| C10 | `C10_counterexample_zero_width` | Verif/Codegen/EvalProps.lean | The only value of type `int<0>` cannot be printed: `size - val_str.len()` underflows (eval.rs:51). |
| C11 | `C11_counterexample_negation` | Verif/Codegen/EvalAgree.lean | C11 fails for negation: the evaluator computes `-(-8)` in `int<4>` as the number 8, and adding 0 in `int<5>` gives 8, while the hardware wraps around and gives -8. |
| C11 | `C11_counterexample_unsigned` | Verif/Codegen/EvalAgree.lean | C11 fails for unsigned arithmetic: every program with an unsigned addition or subtraction makes the evaluator panic, because constants of type `uint` are given the signed kind (eval.rs:348) and the unsigned operators demand the unsigned kind (eval.rs:238-250). |
| C12 | `C12_counterexample_uint_sub` | Verif/Codegen/ArithProps.lean | The missing part of C12: a negative difference of unsigned numbers is not exact; it is off by `2 ^ (n + 1)`. It does become exact when the result is read as a signed number, because the result type is one bit wider than the operands. |
| C14 | `C14_counterexample_instance` | Verif/Mir/VerilogNames.lean | **C14 fails** when a variable has the name of an instance: `sub_0` is the first instance of `sub`. |
| C14 | `C14_counterexample_numbered` | Verif/Mir/VerilogNames.lean | **C14 fails** when a variable has the name of a numbered copy of another: the second of two variables called `x` and a variable called `x_n1` become the same Verilog identifier. |
| C14 | `C14_counterexample_port` | Verif/Mir/VerilogNames.lean | **C14 fails** when a variable has the name of a port: `x_i` is the port of an input `x`. |
| C15 | `C15_counterexample_empty_part` | Verif/Mir/SplitRegsProps.lean | **C15, counterexample.** A register for a bit and a value without bits is fine, but the register made for the value without bits is assigned to although it is not declared: no behaviour is left. |
| C15 | `C15_counterexample_reset` | Verif/Mir/SplitRegsProps.lean | **C15, counterexample.** A pair of bits with reset value `(true, false)`: the register is reset to `(true, false)`, the registers it is split into to `(false, false)`. |
| C16 | `C16_counterexample_no_payload` | Verif/Mir/GatingProps.lean | **C16, counterexample.** The pass also rewrites registers of enums in which no variant has members. The code it generates then selects a bit of a single bit and assigns to an undeclared register: no behaviour is left, although the register had one. |
| C17 | `C17_counterexample_arm` | Verif/Linear/Props.lean | The arms of a match are not consumed: `entity e(p: inv bool) -> inv bool { set p = f(); match f() { _ => p } }` passes, and connects `p` to the output as well. |
| C17 | `C17_counterexample_assert` | Verif/Linear/Props.lean | Assertions are not looked at: `entity e(p: inv bool) { assert inst f(p); set p = f(); }` passes, and connects `p` twice. |
| C17 | `C17_counterexample_at` | Verif/Linear/Props.lean | Names bound with `@` count as consumed: `entity e(p: inv bool) { let q @ r = p; }` passes, and never connects `p`. |
| C17 | `C17_counterexample_match` | Verif/Linear/Props.lean | A match does not consume what is matched on: `entity e(p: inv bool) { match p { q => { set q = f(); } } set p = f(); }` passes, and connects `p` twice. |
| C17 | `C17_counterexample_range` | Verif/Linear/Props.lean | A range consumes all of the array: `entity e(p: [inv bool; 2]) { let q = p[0..1]; set q[0] = f(); }` passes, and never connects `p[1]`. |
| C18 | `C18_counterexample_int_uint` | Verif/Infer/Kinds.lean | C18, the part that fails: `#int` and `#uint` both accept `3`, yet merging them is rejected. |
| C18 | `C18_counterexample_more_concrete` | Verif/Infer/Kinds.lean | C18, about `is_more_concrete_than`: it answers yes for the *less* concrete of two comparable kinds. `#any` accepts everything `#uint` accepts and more, and is said to be more concrete. |
| C20 | `C20_counterexample_division_by_zero` | Verif/Infer/Const.lean | C20, the part that fails: dividing by zero in a type crashes the compiler. |
| C20 | `C20_counterexample_int_bits_zero` | Verif/Infer/Const.lean | C20, the part that fails: `int::bits_for(0)` is `1`, but `0` already fits in `int<0>`. |
| C20 | `C20_counterexample_uint_bits_negative` | Verif/Infer/Const.lean | C20, the part that fails: `uint::bits_for(-1)` is `1`, but no width represents `-1`. |
| C21 | `C21_counterexample_int_zero` | Verif/Infer/Require.lean | C21, the part that fails: `-1` is accepted as an `int<0>`, whose only value is `0`. |
| C23 | `C23_counterexample_int_uint` | Verif/Infer/UnifyProps.lean | C23, the part that fails for kinds: `#int` and `#uint` variables are not unified although `3` is a solution. |
| C23 | `C23_counterexample_result_of_self` | Verif/Infer/UnifyProps.lean | C23, about the variable that is returned: unifying an unknown variable with itself returns a variable that is not connected to it, so that what is later learned about the result is not learned about the variable (`lib.rs:3322` skips the replacement when both roots are the same). |
| C26 | `C26_counterexample_alias` | Verif/Impl/Props.lean | C26 is false for type aliases: with `type Byte = uint<8>`, both `impl Tr for S<Byte>` and `impl Tr for S<uint<8>>` are accepted, because only the names are compared. |
| C26 | `C26_counterexample_bool` | Verif/Impl/Props.lean | C26 is false for boolean type level values: `impl Tr for S<true>` is accepted twice, because `type_exprs_overlap` has no case for two booleans. |
| C27 | `C27_counterexample_condition` | Verif/Pipe/DelayProps.lean | **C27 counterexample, conditions.** `pipeline(2) (a) { reg; reg[a]; a }`: the condition of the second register statement is part of stage 1, but it is lowered with the substitutions of stage 0: it reads `a` itself, the input of the present cycle, whereas a reference to `a` in stage 1 reads the register `12`. |
| C27 | `C27_counterexample_decl` | Verif/Pipe/DelayProps.lean | **C27 counterexample, `decl`.** `y` is computed in stage 0 from the signal of `x`, which belongs to the token in stage 1. No assignment of values to tokens explains the generated code. |
| C28 | `C28_counterexample_nested_pipeline` | Verif/Pipe/StallProps.lean | **C28 counterexample, nested pipelines.** The registers of an instantiated pipeline do not stall with the stage they belong to: in cycle 2 stage 1 holds the token of input 0, `a` reads the input of cycle 0, but `x`, the result of `f(a)`, is that of the input of cycle 1. |
| C30 | `C30_counterexample_constant_branches` | Verif/Pipe/Ready.lean | **C30 counterexample, constant branches.** `if x {1} else {0}` counts as always available although it reads `x`; it can be added to a value that comes three cycles later. |
| C30 | `C30_counterexample_delayed_scrutinee` | Verif/Pipe/Ready.lean | **C30 counterexample, scrutinee.** `match inst(3) f(x) { _ => x }`: the scrutinee comes three cycles late, the arms are ready at once, and the expression is accepted as ready at once. |
| C30 | `C30_counterexample_inner_block` | Verif/Pipe/Ready.lean | **C30 counterexample, inner block.** `{ let y = inst(3) f(x); y }` is accepted as ready at once, although the value comes three cycles late. |
| C33 | `C33_counterexample_recursion` | Verif/Inline/Examples.lean | Inlining a unit that instantiates itself does not end: there is no check for this (the program overflows its stack). |
| C33 | `C33_counterexample_tracker` | Verif/Inline/Examples.lean | **Departure from C33.** The tracker passed to `do_inlining` (spade-compiler/src/lib.rs:558) is not the one that the names of pipeline stages come from (spade-hir-lowering/src/substitution.rs:109, through `FrozenSymtab::new_name`, spade-hir/src/symbol_table.rs:1611-1614, 863-866): it has not passed them. The inlined copy of a signal can then get the very name of another signal with another value: the result has two constants for one signal, and no valuation satisfies it. |
| C34 | `C34_counterexample_array` | Verif/Vcd/Examples.lean | **C34**, counterexample: the array `[1, 2]` is shown as `[2,1]`, so what is shown is not the value but its reverse, and is read as a different value by someone who knows the language. |
| C34 | `C34_counterexample_too_long` | Verif/Vcd/Examples.lean | **C34**, counterexample: for every type, a trace with more bits than the type panics in debug builds although the code means to show nothing for it, as release builds do. |
| C34 | `C34_counterexample_zero_width` | Verif/Vcd/Examples.lean | **C34**, counterexample: a value of an enum with one variant without payload is not shown, and neither is the empty tuple. |
| C35 | `C35_counterexample_lost_state` | Verif/Sim/Examples.lean | C35 fails: asking for a field that does not exist loses the compiler state, and then asking for a field that does exist fails, although it has wires. |
| C35 | `C35_counterexample_unwritable` | Verif/Sim/Examples.lean | C35 fails: an output whose members are all `inv` has only wires that a test bench may write, but writing it as a whole is an internal error, whatever the expression. |
| C36 | `C36_counterexample_inner_tracker` | Verif/Ids/Props.lean | **Departure from C36.** The tracker of the table inside a frozen one is accessible, and hands out the ids that the frozen table hands out as well. Code generation passes it to the inliner (spade-compiler/src/lib.rs:558,737), while the lowering of pipelines and the monomorphisation take their names from the frozen table (spade-hir-lowering/src/substitution.rs:109, monomorphisation.rs:125). |
| C37 | `C37_counterexample_ids` | Verif/Mir/DiffProps.lean | **C37, counterexample.** With numbers that restart for every text, as they do after names have been made predictable, units that compute different things compare as equal. |
| C37 | `C37_counterexample_inputs` | Verif/Mir/DiffProps.lean | **C37, counterexample.** A unit with one input compares as equal to a unit with two. |
| C38 | `C38_counterexample_copy_view` | Verif/Types/Invert.lean | C38 fails below a copy view: `inv inv int<8>` has 8 forward bits, but `&inv inv int<8>` has none, because inversions below a copy view are not resolved (spade-types/src/lib.rs:135-144). |
| C39 | `C39_counterexample_set` | Verif/Mir/DedupProps.lean | **C39, counterexample.** `let x = inst read_mut_wire(p.0); set p.0 = a;`: the wire `p.0` is made twice, under the names `e0` and `e1`, and `e1` is set. The pass replaces `e1` by `e0` and drops the statement that sets it: in the unit `p.0` is `a`, in the result it can be anything. |
| C40 | `C40_counterexample_innermost` | Verif/Loc/Props.lean | The first thing reported need not be the innermost one: for `a.b` with `a` at 0-1 and the access at 0-3, what is reported first around the position of `a` is the access, although `a` lies inside it. The uses in the language server filter by the kind of the thing, or look at all of them (spade-language-server/src/util.rs:113-127,155-184, spade-query/src/lib.rs:86-90). |
| C41 | `C41_counterexample_lib_alias` | Verif/Symtab/PathExamples.lean | **Departure from C41.** `dep::bar` is an alias of `dep::foo` (item 3), but used in `p` it is the item `p::foo` (item 7): aliases are stored unresolved, and `lib` is taken to be the library that is being compiled (symbol_table.rs:1303-1308,1476). |
| C41 | `C41_counterexample_lib_reexport` | Verif/Symtab/PathExamples.lean | **Departure from C41.** `dep::g` is a public alias in `dep` of the item `dep::f`, which may be used in `dep`; from `p` it is rejected, again because the check compares with `p`. |
| C41 | `C41_counterexample_lib_visible` | Verif/Symtab/PathExamples.lean | **Departure from C41.** `dep::f` is visible only inside `dep`, but the project `p` can use it: the check compares with the library that is being compiled, not with that of the item (symbol_table.rs:1409). |
| C41 | `C41_counterexample_super_panics` | Verif/Symtab/PathExamples.lean | **Departure from C41.** Using an item with `pub(super)` at the root of a program that is compiled without a library name makes the compiler panic, in `Path::prelude` (name.rs:249). |
| C43 | `C43_counterexample_sext` | Verif/Codegen/ArithProps.lean | Extending a one-bit number: the generated code selects bit 0 of a scalar, which Verilog does not allow (codegen/mod.rs:376-388). |
| C43 | `C43_counterexample_trunc` | Verif/Codegen/ArithProps.lean | Truncating a one-bit value to one bit, which is accepted (lib.rs:2703), emits `x[0:0]` on a scalar. |
| C43 | `C43_counterexample_zext` | Verif/Codegen/ArithProps.lean | Extending a value of type `uint<0>`: the code refers to a variable that is not declared (codegen/mod.rs:393-402). |
| C44 | `C44_counterexample_div_pow2` | Verif/Codegen/ArithProps.lean | C44 fails for `div_pow2`: the documentation says that it rounds towards positive infinity, but `div_pow2(1, 2)`, whose exact value is one quarter, gives 0 (codegen/mod.rs:328-348). |
| C44 | `C44_counterexample_division` | Verif/Codegen/ArithProps.lean | The quotient of the smallest `int<2>` and -1 is 2, which `int<2>` does not contain; the hardware gives -2. |
| C45 | `C45_counterexample_padding` | Verif/Expr/Examples.lean | C45 fails for `==` on arrays of enums with padding: the implementation in `core::ops` compares all bits, also those that do not belong to the value. Here `[None] == [None]` is false, because the padding, for which the generated code leaves any bits, differs. |
| C47 | `C47_counterexample_array_index` | Verif/Entity/Examples.lean | C47 fails for `initial([3, 5][1])`: the same for an element of an array. |
| C47 | `C47_counterexample_tuple_index` | Verif/Entity/Examples.lean | C47 fails for `initial((3, true)#0)`. The compiler checks that the value is known at compile time, which it is, and then crashes: `eval_statements` (spade-mir/src/eval.rs) has `todo!()` for the selection of a component, so that no hardware is generated. |
| C47 | `C47_counterexample_unsigned` | Verif/Entity/Examples.lean | C47 fails for `initial(3u4 + 4)`: literals become signed numbers in `eval_statements`, and the sum of unsigned numbers then panics. |
| C48 | `C48_counterexample_loop` | Verif/Entity/Examples.lean | C48 fails if there is a combinational loop, and the compiler does not look for those: this entity type checks, its names are resolved and it is lowered, but no history of signals satisfies the generated assignments. |
| C49 | `C49_counterexample_bool` | Verif/Method/Examples.lean | Two blocks `impl S<true> { fn a(self) }` are accepted, and a call silently takes the first. |
| C49 | `C49_counterexample_default` | Verif/Method/Examples.lean | A target in which parameters with a default are omitted (which is legal, spade-ast-lowering/src/lib.rs:403-409) never matches: with `struct S<A, B = X>` and `impl S<X> { fn a(self) }`, calls of `a` on an `S<X, X>` are rejected. |
| C49 | `C49_counterexample_error` | Verif/Method/Examples.lean | A parameter that is erroneous makes the compiler panic where the target has a number. |
| C49 | `C49_counterexample_impl_for_view` | Verif/Method/Examples.lean | `impl &X { fn a(self) }` is a legal block that applies to `&X`, but a call of `a` on a `&X` is rejected: only blocks for the base type are looked at. |
| C49 | `C49_counterexample_nonlinear` | Verif/Method/Examples.lean | With a generic that occurs twice, `impl<T> Tr0 for (T, T) { fn a(self) }` counts as a candidate for `(X, Opt<X>)`, so a call of the `a` of `impl Tr1 for (X, Opt<X>)` is rejected as ambiguous although only that block applies. |
| C49 | `C49_counterexample_view` | Verif/Method/Examples.lean | The outcome depends on the order of inference for views of types that are not known yet: the call is rejected, although it resolves once the type is known (for a type that is not known at all the caller waits, spade-typeinference/src/requirements.rs:275-300). |
| C50 | `C50_counterexample_address` | Verif/Entity/MemExamples.lean | C50 fails for a memory whose address has no bits, as that of a memory with one element: the address becomes `x[start-1:start]`, which is not legal. |
| C50 | `C50_counterexample_empty` | Verif/Entity/MemExamples.lean | C50 fails for a memory without bits, such as one with no elements or one of elements without bits, which type inference allows: the compiler panics when it generates the `always` block. |
| C50 | `C50_counterexample_input` | Verif/Entity/MemExamples.lean | C50 fails for a memory that is passed to another unit, which type inference allows: a read there selects a bit. With `Memory<uint<2>, 2>` all of whose words are 3, the result is 1. |
| C51 | `C51_counterexample_at` | Verif/Check/Examples.lean | When a name was declared before, the pattern after `@` is not connected to it (`spade-typeinference/src/lib.rs:2185-2203`): a number is taken apart as if it were a tuple. |
| C51 | `C51_counterexample_shared_size` | Verif/Check/Examples.lean | A variable that is unified with itself loses the connection to the parameters of its bounds (`spade-typeinference/src/lib.rs:3176-3183, 3322`): `sized` demands that its first two arguments have the width of the third, which is 9, and is called with an `int<8>`. There is no way to type this. |
| C51 | `C51_counterexample_turbofish` | Verif/Check/Examples.lean | Trait bounds are not checked for generic arguments given explicitly (`visit_trait_bounds` does nothing for a known type, `spade-typeinference/src/lib.rs:2732-2738`): `number`, which demands `T: Number<8>`, can be called with a `bool`. `UnitOk` leaves this case out. |
| C52 | `C52_counterexample_bound` | Verif/Trait/Examples.lean | **C52 fails for bounds.** The trait promises a method for every type `U`; an impl which asks `U` to implement a trait is accepted. |
| C52 | `C52_counterexample_copy_view` | Verif/Trait/Examples.lean | **A correct impl is rejected: copy views of parameters.** In `trait X<A> { fn f(self, a: &A) -> bool; }` the `A` behind `&` is never replaced, so no impl has an argument of the right type. |
| C52 | `C52_counterexample_duplicate_method` | Verif/Trait/Examples.lean | **C52 fails for traits that declare a method twice.** The first declaration is dropped without a word: `trait X { fn f(self) -> bool; fn f(self) -> uint<8>; }` is implemented by a single method returning `uint<8>`. |
| C52 | `C52_counterexample_kind` | Verif/Trait/Examples.lean | **C52 fails for the kind of the unit.** The trait promises a function; an impl whose method is a pipeline three stages deep is accepted, and generic code written against the trait no longer compiles, or has to wait for a result it expects at once. |
| C52 | `C52_counterexample_number_argument` | Verif/Trait/Examples.lean | **A correct impl is rejected: numbers as trait arguments.** `trait X<#uint N> { fn f(self) -> uint<N>; }` cannot be implemented for a given number: `impl X<8> for bool { fn f(self) -> uint<8> }` is an internal error, although it is exactly what the trait asks for. |
| C53 | `C53_counterexample_unselected_branch` | Verif/GenIf/Examples.lean | **C53 (counterexample).** In other places than the result of a unit `gen if` is not always taken for what it means: although the selected branch is a constant, no hardware is generated if the condition of a `gen if` in the branch which is *not* selected has no value. |
| C54 | `C54_counterexample_captures_unused_variable` | Verif/Lambda/Examples.lean | A lambda captures a variable that it does not use: in `fn \|x\| { x }` the parameter is looked up first, like the name of an enum variant, and if there is a variable `x` outside, the lambda captures it. So a port `x` is consumed by a lambda that does not need it, and the struct made for the lambda has a member that is not used. (lambda.rs:96-108 with spade-ast-lowering/src/lib.rs:1652-1654, 1738-1740) |
| C55 | `C55_counterexample_memory_size` | Verif/Fifo/Examples.lean | **C55, memory of another size.** `NumElements` is not checked to be `2 ^ AddrWidth` ("this is not currently checked"): with fewer elements, values that are accepted are lost. Here there are two, and the third value is not the third one read. |
| C55 | `C55_counterexample_one_reset` | Verif/Fifo/Examples.lean | **C55, reset of one side.** The FIFO has a reset for each domain. If only the write side is reset, values that were taken before are read once more, although nothing has been written since: one value is written and taken, the write side is reset for many cycles, and then three values are read. |
| C57 | `C57_counterexample_too_frequent` | Verif/Cdc/Examples.lean | **C57, values that are sent too frequently.** The transmitter accepts a new value as soon as it has seen the acknowledgement, although the receiver may not have seen that the old value is gone. A value sent then is lost, although the transmitter has gone back to waiting for values: this is the documented limitation, and `ack` does not tell the sender when to go on. |
| C58 | `C58_counterexample_fold` | Verif/Std/Examples.lean | The documentation of `reduce` says that `[a0, a1, a2].reduce(f)` is `f(a0, f(a1, a2))`, and that of `fold` is similar. They are computed from the other end, which is different unless `f` is associative: 4, 2 and 1 are reduced by subtraction to 1, not 3. |
| C59 | `C59_counterexample_array_eq` | Verif/Std/OpsExamples.lean | The implementation of `==` for arrays requires that elements have `==`, but does not use it: it compares bits (core/ops.spade:62-72). With `impl PartialEq for Tagged` that compares the values, not the tags, `a == b` but not `[a] == [b]`. |
| C64 | `C64_counterexample_backslash` | Verif/Lex/Props.lean | **C64, violated.** No character and no string in any source file stands for a backslash or for bytes with one in them: `b'\\'` is an error. |
| C64 | `C64_counterexample_negative_unsigned_pattern` | Verif/Lex/Props.lean | **C64, violated.** As a pattern, `-5u8` matches the number 5. |
| C64 | `C64_counterexample_octal_suffix` | Verif/Lex/Examples.lean | **C64, violated.** `0o7u8` should be the number 7 of the type `uint<8>`. It becomes two numbers, `0o7u` of no width and `8`. |
| C65 | `C65_counterexample_line_comment_inside` | Verif/Lex/Examples.lean | **C65, violated.** The text of the block comment `/* // */` ends at the end of the file: what comes after it on the line is lost, and the parser reports that the comment is not closed. |
| C65 | `C65_counterexample_quotes_inside` | Verif/Lex/Examples.lean | **C65, violated.** Quotation marks in two block comments make the code between them disappear: in `/* 1" */ a /* 2" */ b` there is no `a`, and no error. |
| C66 | `C66_counterexample_nine_members` | Verif/Auto/Props.lean | A tuple of nine booleans can be stored but does not implement `Data`: marker.spade stops at eight. |
| C66 | `C66_counterexample_unused_parameter` | Verif/Auto/Props.lean | `struct Unused<T> { b: bool }` applied to `inv bool` is one bit that can be stored, but does not implement `Data`: the implementation asks for it of every parameter. |
| C66 | `C66_counterexample_view` | Verif/Auto/Props.lean | A view `&bool` can be read and stored but implements neither `Copy` nor `Data`. So a view of a view cannot be read through. |
| C66 | `C66_counterexample_view_of_clock` | Verif/Auto/Props.lean | `struct View { c: &clock }` implements `Data`, although a clock cannot be stored: the check for witnesses does not look behind views. |
| C68 | `C68_counterexample_empty_argument` | Verif/Pass/Examples.lean | **C68 counterexample, calls.** Arguments of functions the compiler generates code for itself are not checked: `zext(x)` with `x: uint<0>` is accepted wherever it is, and the code for it refers to a variable that is not declared, so that it has no value. |
| C68 | `C68_counterexample_inout_in_match` | Verif/Pass/Examples.lean | **C68 counterexample, `match`.** Patterns of arms are not looked at: `match p { a => .. }` gives an `inout` a name. |
| C68 | `C68_counterexample_inout_in_tuple` | Verif/Pass/Examples.lean | **C68 counterexample, tuples.** Only types that are `inout` themselves are looked at. An input of type `(inout<bool>, bool)` need not be marked, and `let (a, b) = p` gives the `inout` in it a name. |
| C69 | `C69_counterexample_empty_array` | Verif/Expr/CompileExamples.lean | C69 fails for patterns of arrays of length 0: the function type checks, its match has an arm for every value, and lowering panics on it, whatever the next id. |
| C70 | `C70_counterexample_parameter_of_trait` | Verif/Super/Examples.lean | **C70 is violated**: a trait that passes its parameter on to a supertrait is accepted, but whoever writes the bound `X: A<bool>`, which requires `X: B<bool>`, makes the compiler panic, however long it runs: the arguments of `A` are not put in place of its parameter, and the unit has no generic parameter of that name (typeinference lib.rs:1941, 436-440). |
| C71 | `C71_counterexample_empty_field` | Verif/Cxx/Examples.lean | `struct { a: uint<8>, b: uint<0> }`: the class of the struct has a member of a class that is never declared (verilator_wrapper.rs:18-20,30). |
| C71 | `C71_counterexample_root` | Verif/Cxx/Examples.lean | `struct { root: bool }`: the class has the member `root` twice (verilator_wrapper.rs:61,84). |
| C71 | `C71_counterexample_undefined` | Verif/Cxx/Examples.lean | The bits of a variant without a payload are undefined, but the port gets zeros. |
| C71 | `C71_counterexample_underscore` | Verif/Cxx/Examples.lean | `struct { a: struct { b: bool }, a_b: bool }`: two classes have the same name. |
| C71 | `C71_counterexample_wide_element` | Verif/Cxx/Examples.lean | A tuple with an element of 65 bits cannot be assigned: its elements are converted by `as_u64` (eval.rs:161). |
| C72 | `C72_counterexample_hidden_parameter` | Verif/Units/Examples.lean | `#[no_mangle]` is accepted on a unit with `impl Trait` in its inputs, because only the written parameters are checked (spade-ast-lowering/src/lib.rs:1344-1373). All modules made of it are called `f`, and its instances ask for `f[7]`. |
| C72 | `C72_counterexample_same_name` | Verif/Units/Examples.lean | Two units with `#[no_mangle]` in different modules, or one and a unit outside of all modules, get the same name. |
| C73 | `C73_counterexample_accent` | Verif/Editor/Examples.lean | With an accent in front of the cursor the server looks at the wrong byte: in the line `é x`, the editor sends character 2 for the place in front of `x`, which is byte 3, and the server looks at byte 2, the space. |
| C73 | `C73_counterexample_behind_line` | Verif/Editor/Examples.lean | A character behind the end of its line, which by the protocol means the end of the line, is taken for a place in a later line: character 4 of the first line of `a`, `bcd` is the place behind `c`. |
| C73 | `C73_counterexample_carriage_return` | Verif/Editor/Examples.lean | A carriage return alone ends a line for an editor, but not for the server. |
| C73 | `C73_counterexample_wide_character` | Verif/Editor/Examples.lean | With a character beyond the 16-bit ones the range shown is off: in `𝒳 x` the place in front of `x`, byte 5, is character 3 for an editor, and the server sends character 2. |
| C74 | `C74_counterexample_backward_wire` | Verif/Hier/Examples.lean | **C74 fails** for the wires of the backward part of inputs and for `input__`: they are signals of the module, but unknown. |
| C74 | `C74_counterexample_new` | Verif/Hier/Examples.lean | **C74 fails** for the wire of an input called `new`: the wire is `new_n0`, but is known as `new`. |
| C74 | `C74_counterexample_two_ways` | Verif/Hier/Examples.lean | **C74 fails** for an input whose type has parts in both directions: the wire `x` carries its forward part, but is found as its backward part. |
| C75 | `C75_counterexample_variable` | Verif/Hier/DemangleExamples.lean | **C75 fails** for variables: the variable `x` is the signal `x`, its description is recorded, but `x` is unknown, since the map has the numbers from before renaming (`x_n7`, which is no signal). |
| C76 | `C76_counterexample_comma` | Verif/Files/Examples.lean | Full statement: any file can be given. A file with two commas in its name is taken for another one with namespaces, and one with one comma is refused. |
| C76 | `C76_counterexample_separator` | Verif/Files/Examples.lean | Full statement: the texts accepted for namespaces are paths, names with `::` between them. The text `a::` is accepted and read as `a`: a name that is missing after the last `::`, as in `a::,a::,test.spade`, is not reported and the file is put in another namespace than the one being written. |
| C77 | `C77_counterexample_gen_if` | Verif/Query/Examples.lean | Full statement: the name at the cursor is the one written there. In a unit with `gen if` the cursor on any name, such as the `a` at byte 33, is taken to be on the variable that the compiler made for the result, whose place is the whole unit: all names around the cursor are found, the innermost first, and the last one of them is taken. |
| C77 | `C77_counterexample_lambda` | Verif/Query/Examples.lean | Full statement: the name at the cursor is found wherever a name is written. The argument of the lambda `fn (x) { x }` is not found where it is written, though it is where it is used, so that nothing can be shown for it and its definition cannot be looked up there. |
| C78 | `C78_counterexample_match` | Verif/Query/LocalsExamples.lean | Full statement: all variables in scope are offered. In `match a {x => x}` the variable of the branch can be used in its value, but is not offered there. |
| C78 | `C78_counterexample_own_value` | Verif/Query/LocalsExamples.lean | Full statement: only variables in scope are offered. A variable is offered in its own value, where it cannot be used: `x` in `{ let x = f(\|a); x }`. |

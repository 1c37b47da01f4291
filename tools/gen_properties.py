#!/usr/bin/env python3
"""Writes /verif/properties.jsonl.  Kept so that the list can be regenerated after edits."""
import json, os
P = []
def p(title, statement, quantifier, why, anchors):
    P.append(dict(id="C%02d" % (len(P)+1), title=title, statement=statement,
                  quantifier=quantifier, why_tests_cant=why, anchors=anchors))

p("Accepted matches are exhaustive",
  "If the compiler accepts a `match` (no 'Non-exhaustive match' error), then every value of the scrutinee's type is matched by at least one unguarded arm.",
  "every scrutinee type (any nesting of tuples, structs, arrays, enums, ints, uints, bools), every list of well-typed arms, every value of the type",
  "The set of types, arm lists and values is infinite; a test shows single programs only.",
  ["spade-hir-lowering/src/usefulness.rs: is_useful", "spade-hir-lowering/src/pattern.rs: DeconstructedPattern::from_hir, split_wildcard, split_int_range, Constructor::is_covered_by", "spade-hir-lowering/src/lib.rs: ExprKind::Match"])
p("Exhaustive matches are never rejected",
  "If every value of the scrutinee's type is matched by some unguarded arm then the compiler does not report the match as non-exhaustive, i.e. every reported non-exhaustiveness is witnessed by a value that no arm matches.",
  "every type, every list of well-typed arms",
  "Completeness speaks about the non-existence of a false alarm over all programs.",
  ["spade-hir-lowering/src/usefulness.rs: is_useful, Usefulness", "spade-hir-lowering/src/pattern.rs: split_int_range, group_missing_constructors"])
p("The exhaustiveness checker terminates without an internal error",
  "On every well-typed match the exhaustiveness analysis terminates and does not reach an internal panic.",
  "every type, every list of well-typed arms",
  "Absence of panics over all inputs, and termination, are universal statements.",
  ["spade-hir-lowering/src/usefulness.rs: is_useful", "spade-hir-lowering/src/pattern.rs: Constructor::is_covered_by, Constructor::fields, Constructor::as_range"])
p("Refutable patterns are rejected in let and reg bindings",
  "If a `let` or `reg` pattern is accepted then it matches every value of its type.",
  "every pattern and type, every value",
  "Universal over patterns and values.",
  ["spade-hir-lowering/src/lib.rs: is_trivially_irrefutable, is_refutable, check_irrefutable"])
p("A match expression selects its first matching arm",
  "The hardware generated for a `match` produces the value of the first arm (in source order) whose pattern matches the scrutinee and whose guard holds.",
  "every pattern list, guards, arm values and scrutinee bit patterns",
  "All values of all scrutinee types and all arm lists.",
  ["spade-hir-lowering/src/lib.rs: Pattern::condition, lower_no_initial_binding, ExprKind::Match", "spade-mir/src/codegen/mod.rs: forward_expression_code Operator::Match"])
p("Enum values can be taken apart again",
  "The bit pattern generated by constructing variant i of an enum is recognised as variant i and as no other variant, and reading member j of it yields exactly the bits of the j-th constructor argument.",
  "every enum (number of variants, members, member widths), every variant, every member, all argument bits",
  "Number of enum shapes and payload values is unbounded.",
  ["spade-mir/src/codegen/mod.rs: ConstructEnum, IsEnumVariant, EnumMember", "spade-mir/src/enum_util.rs: tag_size", "spade-mir/src/types.rs: Type::size"])
p("Generated values fill exactly the declared width",
  "Every expression generated for a type constructor (tuple, array, enum, struct) has exactly the bit width of the type's computed size; the tag is just wide enough to number the variants.",
  "every type and all member values",
  "Infinitely many types.",
  ["spade-mir/src/types.rs: Type::size, Type::backward_size", "spade-mir/src/enum_util.rs: tag_size", "spade-mir/src/codegen/mod.rs: forward_expression_code"])
p("Tuple and struct members round trip",
  "Reading member i of a constructed tuple (or struct) yields exactly the bits of the i-th constructor argument, in the forward and in the backward direction.",
  "every tuple type including zero-width and one-bit members, every index, all bits",
  "Infinitely many shapes.",
  ["spade-mir/src/codegen/mod.rs: compute_tuple_index, ConstructTuple, IndexTuple", "spade-mir/src/codegen/util.rs: TupleIndex"])
p("Array elements round trip",
  "Indexing a constructed array at position i yields the i-th element; a range index yields exactly the sub-array of the elements in the half-open range.",
  "every element width, array length, index, range, element bits",
  "Infinitely many shapes, indices and values.",
  ["spade-mir/src/codegen/mod.rs: ConstructArray, IndexArray, RangeIndexArray, RangeIndexBits"])
p("Constant evaluation encodes integers in two's complement",
  "The bit string computed for a constant int/uint/bool/tuple/array/enum value has exactly the width of its type and decodes to the same value.",
  "every constant value and width",
  "Unbounded integers and widths.",
  ["spade-mir/src/eval.rs: Value::as_string, Value::width, Value::as_u64, Value::as_u32_chunks, eval_statements"])
p("Constant evaluation agrees with the generated hardware",
  "For the operators supported by the compile-time evaluator, the evaluated bits are the bits that the generated Verilog computes.",
  "every constant expression program",
  "All programs.",
  ["spade-mir/src/eval.rs: eval_statements", "spade-mir/src/codegen/mod.rs: forward_expression_code"])
p("Integer arithmetic never overflows",
  "Adding, subtracting or multiplying integers at the result width chosen by the compiler yields the exact mathematical result, for signed and unsigned operands of different widths.",
  "all operand widths and values",
  "Unbounded widths.",
  ["spade-mir/src/codegen/mod.rs: Add, UnsignedAdd, Sub, UnsignedSub, Mul, UnsignedMul", "stdlib/ops.spade"])
p("Alias flattening preserves behaviour",
  "Removing alias wires from a lowered unit does not change the value of any remaining signal, of the output, or of the unit's ports.",
  "every lowered unit whose names are each defined once, every valuation",
  "All netlists.",
  ["spade-mir/src/aliasing.rs: flatten_aliases"])
p("Renaming never merges two signals",
  "After names are made predictable, two different signals of a unit are never given the same name and every use still refers to the same definition.",
  "every unit, every list of source names",
  "All units and name lists.",
  ["spade-mir/src/renaming.rs: make_names_predictable", "spade-mir/src/codegen/util.rs", "spade-mir/src/lib.rs: ValueName::var_name", "spade-mir/src/unit_name.rs: InstanceNameTracker"])
p("Splitting compound registers preserves behaviour",
  "A register of tuple type and its split into per-member registers show the same value in every clock cycle.",
  "every tuple type, every input trace, every cycle",
  "Unbounded traces and types.",
  ["spade-mir/src/passes/split_compound_regs.rs"])
p("Automatic clock gating preserves behaviour",
  "Gating the payload of an enum register is unobservable: in every cycle the variant test and every member of the current variant are the same as without gating.",
  "every enum with one payload variant, every input trace, every cycle",
  "Unbounded traces.",
  ["spade-mir/src/passes/auto_clock_gating.rs"])
p("Linear resources are used exactly once",
  "If a unit passes the linearity check then every linear (port) value bound in it is consumed exactly once, counting a use of a part as a use of that part only.",
  "every unit body, every linear type tree",
  "All programs.",
  ["spade-hir-lowering/src/linear_check/linear_state.rs: LinearState, LinearTree, try_consume, check_unused", "spade-hir-lowering/src/linear_check/mod.rs"])
p("Type variable meta-kinds merge consistently",
  "Merging the kinds of two type variables gives the kind accepting exactly the values accepted by both, or fails exactly when nothing is accepted by both; merging is commutative, associative and idempotent.",
  "all kinds and all type-level values",
  "The claim is about the sets of values accepted, which are infinite.",
  ["spade-types/src/meta_types.rs: unify_meta", "spade-typeinference/src/lib.rs: unify_inner"])
p("Type variable lookups are stable",
  "Resolving a type variable yields the end of its replacement chain; looking things up (with path compression) never changes what any variable resolves to, and discarding a checkpoint restores what every variable resolved to when the checkpoint was taken.",
  "every history of insert, lookup, push and discard operations",
  "All histories.",
  ["spade-typeinference/src/replacement.rs: ReplacementStack", "spade-typeinference/src/lib.rs: checkpoint, restore, do_and_restore"])
p("Type-level arithmetic is exact",
  "Evaluating a type-level constraint expression over known integers yields the mathematical value of the expression; partially known expressions are only simplified to expressions with the same value; the bit-width functions give the least sufficient width.",
  "all constraint expressions and integer assignments",
  "Unbounded expressions and integers.",
  ["spade-typeinference/src/constraints.rs: ConstraintExpr::evaluate, TypeConstraints::update_type_level_value_constraints"])
p("Integer literals fit their types exactly",
  "An integer literal is accepted at an int or uint type iff its value is representable at that width.",
  "all literals and widths",
  "Unbounded.",
  ["spade-typeinference/src/requirements.rs: Requirement::check FitsIntLiteral"])
p("Index bounds requirements",
  "A constant array range is accepted iff start <= end <= size; a pipeline stage reference is accepted iff it lies inside the pipeline.",
  "all sizes, starts, ends and depths",
  "Unbounded integers.",
  ["spade-typeinference/src/requirements.rs: RangeIndexEndAfterStart, RangeIndexInArray, ArrayIndexeeIsNonZero, ValidPipelineOffset, PositivePipelineDepth"])
p("Unification makes types equal",
  "If unifying two types succeeds then both resolve to the same type afterwards, every previously established equality still holds, and no more is identified than necessary (the result is a most general unifier).",
  "all type terms and all reachable inference states",
  "All terms and histories.",
  ["spade-typeinference/src/lib.rs: unify_inner, unify, check_type_for_recursion", "spade-typeinference/src/replacement.rs"])
p("Name lookup respects scopes",
  "A lookup finds the innermost visible declaration of the name; leaving a scope restores all previous lookups; declarations in an inner scope never influence lookups after it is closed.",
  "every history of declarations, scope openings and closings",
  "All histories.",
  ["spade-hir/src/symbol_table.rs: new_scope, close_scope, add_thing_with_id_at_offset, lookup_id_in_namespace, canonicalize_in_namespace"])
p("Argument matching binds each parameter exactly once",
  "When a call is accepted each parameter receives exactly one argument or its default, in parameter order; positional and named calls with the same bindings give the same result; a call is rejected iff an argument is duplicated, unknown, superfluous or missing.",
  "all parameter lists, defaults and argument lists",
  "Unbounded lists.",
  ["spade-hir/src/param_util.rs: match_args_with_params"])
p("Trait implementations are coherent",
  "No two accepted implementations of the same trait apply to a common concrete type.",
  "every history of impl registrations, all impl headers, all concrete types",
  "All impl sets and types.",
  ["spade-hir/src/impl_tab.rs: ImplTab::insert, type_specs_overlap, type_exprs_overlap"])
p("Pipeline stages deliver values from the right cycle",
  "In a pipeline, a reference to a variable at stage k reads, in cycle t+k, the value the variable had when computed in cycle t: a value defined at stage j and read at stage k is delayed by exactly k-j cycles.",
  "all pipeline bodies, latencies, stages, cycles and input traces",
  "Unbounded pipelines and traces.",
  ["spade-hir-lowering/src/pipelines.rs: handle_statement, lower_pipeline", "spade-hir-lowering/src/substitution.rs: Substitutions::next_stage, set_available, lookup"])
p("Stalled pipelines stay coherent",
  "With conditional register statements, a stage advances exactly in the cycles where its own condition and all downstream conditions hold; all values of one stage always belong to the same originating input and no accepted input is lost or duplicated.",
  "all pipelines, stall traces and cycles",
  "All schedules of stalls.",
  ["spade-hir-lowering/src/pipelines.rs: lower_pipeline, constexpr_and, constexpr_select, constexpr_inv"])
p("Pipeline valid signals track real data",
  "The valid signal of a stage is true in a cycle iff the stage holds data of an input that entered while valid and was not dropped by a stall.",
  "all pipelines, stall traces and cycles",
  "All schedules.",
  ["spade-hir-lowering/src/pipelines.rs: lower_pipeline"])
p("Values are not used before they are ready",
  "An expression in a pipeline is accepted only if all values it reads become available at the same time, not later than the stage in which it is used.",
  "all expressions and availability assignments",
  "All expressions.",
  ["spade-hir-lowering/src/pipelines.rs: try_compute_availability, available_in"])
p("Operator precedence and associativity",
  "The expression tree obtained for a sequence of operands and operators is the unique tree that respects the documented precedence levels and left associativity, and its in-order traversal is the input.",
  "all token sequences",
  "Unbounded sequences.",
  ["spade-parser/src/expression.rs: expr_bp, OpBindingPower, custom_infix_operator, inline_negative_literal"])
p("Every requested instantiation is compiled exactly once",
  "When compilation of all items finishes (without a panic) every monomorphic item requested directly or transitively has been compiled exactly once, whatever the interleaving of worker threads, and two requests get the same name iff they name the same item with the same parameters.",
  "all request graphs, all thread schedules",
  "All schedules.",
  ["spade-hir-lowering/src/monomorphisation.rs: MonoState, request_compilation, next_target, compile_items"])
p("Inlining preserves behaviour",
  "Inlining a unit at its call sites does not change the values of the caller's signals.",
  "all units and call graphs without recursion, all valuations",
  "All programs.",
  ["spade-hir-lowering/src/inline.rs: perform_inlining, InlinedStatements::finalize, do_inlining"])
p("Waveform translation inverts the encoding",
  "Translating the bits of a value back to Spade source text shows that value; undefined and high impedance bits are shown as such; too short traces are extended as Verilog does.",
  "all types, values and bit vectors",
  "All types and values.",
  ["vcd-translate/src/translation.rs: inner_translate_value, translate_uint, translate_signed_int"])
p("Test bench field access selects the right bits",
  "Reading (writing) a field path of a port addresses exactly the bits that the hardware uses for that field, and sibling fields never overlap.",
  "all struct types, field paths and bit vectors",
  "All types and paths.",
  ["spade-simulation-ext/src/lib.rs: field_of_field, extract_field_read_bits", "spade-simulation-ext/src/field_ref.rs", "spade-simulation-ext/src/range.rs"])
p("Identifiers are unique",
  "No two calls to an identifier tracker ever return the same identifier, under any interleaving of threads; names are interned injectively.",
  "all histories and interleavings",
  "All interleavings.",
  ["spade-common/src/id_tracker.rs", "spade-common/src/interning.rs", "spade-hir/src/symbol_table.rs: FrozenSymtab"])
p("MIR comparison only identifies equivalent units",
  "If two lowered units compare as equal then they are the same up to a renaming of identifiers.",
  "all pairs of units",
  "All pairs.",
  ["spade-mir/src/diff.rs: compare_entity, compare_statements, populate_var_map"])
p("Forward and backward parts of a type partition it",
  "Every primitive part of a type contributes its width to exactly one direction; inverting a type swaps the directions.",
  "all types",
  "All types.",
  ["spade-mir/src/types.rs: Type::size, Type::backward_size"])
p("Merging of mutable wires",
  "Deduplicating mutable wires keeps exactly one driver per wire and preserves every value read.",
  "all units", "All units.",
  ["spade-mir/src/passes/deduplicate_mut_wires.rs"])
p("Source spans",
  "Merging source spans gives the least span containing both; looking up the innermost item around a position returns an item whose span contains it.",
  "all spans and positions", "Unbounded positions.",
  ["spade-common/src/location_info.rs", "spade-common/src/loc_map.rs"])
p("Module paths",
  "Module-relative paths (lib, super, self) resolve to the item reached by the obvious walk in the module tree; items are visible exactly from the modules their visibility marker admits.",
  "all paths, namespaces and visibility markers", "All paths.",
  ["spade-common/src/name.rs", "spade-hir/src/symbol_table.rs: canonicalize_in_namespace"])
p("Comparisons decide the mathematical order",
  "The comparison operators on integers of one type give the order of the numbers the operands stand for, and equality holds exactly when all bits agree.",
  "all widths, both signednesses and all operand values", "All widths and values.",
  ["spade-mir/src/codegen/mod.rs: forward_expression_code", "spade-hir-lowering/src/lib.rs: ExprKind::BinaryOperator"])
p("Width conversions",
  "Sign extension and zero extension preserve the number, truncation keeps it modulo a power of two, concatenation places the bits of the operands side by side.",
  "all source and target widths and all values", "All widths and values.",
  ["spade-hir-lowering/src/lib.rs: handle_sext, handle_zext, handle_trunc, handle_concat", "spade-mir/src/codegen/mod.rs: Operator::SignExtend, ZeroExtend, Truncate, Concat"])
p("Division, shifts, negation and bitwise operators",
  "Division truncates toward zero, the remainder has the sign of the dividend, shifts multiply and divide by powers of two, negation gives the additive inverse, bitwise and logical operators act bit by bit.",
  "all widths and operand values", "All widths and values.",
  ["spade-mir/src/codegen/mod.rs: forward_expression_code", "spade-mir/src/verilog.rs"])
p("Expressions keep their value",
  "Whenever a function, applied to argument values, evaluates to a result, the hardware generated for it drives its output with an encoding of that result when its inputs carry encodings of the arguments; let, if, match, calls to any depth and all operators mean in hardware what they mean in the language.",
  "all programs accepted by type inference, all functions in them and all argument values",
  "Unboundedly many expressions, nestings and call graphs.",
  ["spade-hir-lowering/src/lib.rs: Expression::lower, Statement::lower, handle_call, generate_unit", "spade-mir/src/codegen/mod.rs: forward_expression_code"])
p("Generated hardware is complete",
  "The hardware generated for a function produces an output of the right width for every input: every signal is an input or driven by exactly one statement, statements only depend on signals driven before them (no combinational loop), and every statement is legal Verilog. Together with the value property: the hardware of a function produces the value the function evaluates to, and nothing else.",
  "all programs without recursion, functions and input values",
  "All programs and values; a missing or doubly driven signal only shows for particular shapes of nested patterns and expressions.",
  ["spade-hir-lowering/src/lib.rs: Expression::lower, Statement::lower, Pattern::lower, Pattern::condition, generate_unit", "spade-mir/src/codegen/mod.rs: statement_code, statement_declaration"])
p("Registers and entities behave as the source says",
  "At every instant of every history of the hardware generated for an entity, the output encodes the result the source gives: a register holds its initial value, takes the value of its expression just before a rising edge of its clock, or the reset value if the reset trigger was set then, and keeps its value otherwise; instances of entities behave like the entity they instantiate. The initial value is exactly the value of the initial expression.",
  "all programs accepted by type inference, all entities with any number of mutually dependent registers and instances to any depth, all input histories and all instants",
  "Unbounded histories, cyclic dependencies through registers and arbitrary hierarchies; tests run finitely many clock cycles of particular designs.",
  ["spade-hir-lowering/src/lib.rs: Statement::lower (Register), runtime_requirement_witness, generate_unit", "spade-mir/src/eval.rs: eval_statements", "spade-mir/src/codegen/mod.rs: statement_code (Register)"])
p("Entities have a history for all inputs",
  "The hardware generated for an entity has a history of outputs of the right width for every history of inputs: every signal is an input or driven by exactly one statement, entities whose clocks are parameters and whose variables, except for those of registers, are defined before use have no combinational loop, and registers and instances never get stuck. Together with the previous property: the hardware runs for ever, and whenever the source says what the output is, it is that.",
  "all accepted programs without recursive instantiation, all entities without combinational loops, all input histories",
  "All programs and infinite histories.",
  ["spade-hir-lowering/src/lib.rs: Statement::lower, generate_unit", "spade-mir/src/codegen/mod.rs: statement_code, statement_declaration"])
p("Method calls resolve to the method they mean",
  "A method call resolves to the method of the receiver type's own impl block that applies, or else of the only trait impl that applies; calls that mean nothing or are ambiguous are rejected. A call resolved before the type of the receiver is fully known resolves to the same method whatever the type turns out to be, and a call on a known type is always decided. The receiver is passed with the number of views that the method wants.",
  "all accepted sets of impl blocks, all receiver types with unknown parts, all method names and all later refinements of the type",
  "Ranges over all impl headers and all orders in which inference learns about types.",
  ["spade-typeinference/src/method_resolution.rs: select_method, spec_is_overlapping, expr_is_overlapping", "spade-ast-lowering/src/impls.rs: ensure_unique_anonymous_traits, get_impl_target"])
p("Memories return what was last written",
  "Reading an address of a memory gives the value last written to it at a rising edge of the clock, or its initial value if nothing was written since the start; a write port only has an effect on its own address and only when its write enable is set, and if several ports write to one address at once the last port counts. The hardware generated for an entity with memories has a history for all inputs.",
  "all entities with memories, registers and instances, all element types, sizes, numbers of write ports, address widths and initial values, all input histories and instants",
  "Unbounded write histories, port counts, widths and sizes; bit offsets into the packed write ports depend on all of them.",
  ["spade-hir-lowering/src/lib.rs: handle_clocked_memory_decl, handle_clocked_memory_initial_decl, handle_read_memory", "spade-mir/src/codegen/mod.rs: forward_expression_code (DeclClockedMemory, IndexMemory), statement_declaration", "spade-compiler/stdlib/mem.spade: clocked_memory, clocked_memory_init, read_memory"])
p("Accepted units are well typed",
  "When type inference accepts a unit and has determined all types, every expression, pattern and name has exactly one type and these types obey the rules of the language: operands of an operator have equal base types and the result the width the operator gives, literals are in the range of their type, an index has the width the array needs and ranges lie in the array, both branches of a conditional and all branches of a match agree, patterns have the type of what they match, a register's value, reset value and initial value have its type, and arguments of calls have the types of the parameters for generic arguments that satisfy their kinds, trait bounds and where clauses. Types written by the user are respected, and a monomorphised unit is typed for exactly the arguments it is monomorphised for.",
  "all units and expressions to any depth, all declarations and trait implementations, all generic arguments",
  "All programs: inference is by unification with constraints and requirements that are solved in an order depending on the whole unit.",
  ["spade-typeinference/src/lib.rs: visit_unit_with_preprocessing, visit_expression, visit_pattern, visit_statement_error, visit_register, handle_function_like, create_generic_list, unify, unify_inner, ensure_impls, check_requirements", "spade-typeinference/src/expression.rs", "spade-typeinference/src/requirements.rs: Requirement::check"])
p("Accepted impls honour their trait",
  "An accepted impl of a trait has exactly one unit for every method of the trait and nothing else; each has the kind, safety, type parameters, argument names, argument types and result type the trait declares, once the parameters of the trait are replaced by the arguments of the impl or their defaults, Self by the implementing type, and associated types by those of the impl. An impl that does so is accepted.",
  "all traits with any parameters, defaults, associated types and methods, all impl blocks, and all concrete types the parameters may stand for",
  "All trait and impl declarations, and all instantiations of their parameters; generic code relies on the signature for impls written later.",
  ["spade-ast-lowering/src/impls.rs: visit_impl_inner, check_generic_params_match_trait_def, check_type_params_for_impl_element_and_trait_element_match, resolve_trait_self, map_trait_method_parameters, map_type_spec_to_trait, map_const_generic_to_trait, check_output_type_for_impl_method_and_trait_method_matches, check_params_for_impl_method_and_trait_method_match", "spade-hir/src/lib.rs: ItemList::add_trait"])
p("gen if means the selected branch",
  "A unit whose result is a gen if, nested to any depth and possibly calling itself with other generic arguments, gives for all generic arguments exactly what the branch selected by the condition gives, with the statements before the gen if and with the pipeline registers on that branch; branches which are not selected have no influence, so recursion in them does not matter. Anywhere else a gen if is rejected, or has the value of the selected branch. Expanding gen ifs always comes to an end.",
  "all programs, nestings of gen if, generic arguments, arguments and pipeline depths",
  "All nestings and all generic arguments; compile time recursion has no bound.",
  ["spade-ast-lowering/src/type_level_if.rs: absorb_statements, expand_type_level_if", "spade-hir-lowering/src/passes/lower_type_level_if.rs: LowerTypeLevelIf", "spade-hir-lowering/src/monomorphisation.rs: compile_items"])
p("Lambdas are closures",
  "A program with lambdas gives what it gives when a lambda is a closure over the variables and generic parameters at the place where it is written: captured variables have the values they had there, parameters and local variables shadow them, nested lambdas see the variables and parameters of the lambdas around them, and lambdas that are entities get the clock they are called with. Every program whose variables are in scope is accepted. A lambda captures only variables it uses.",
  "all programs, all nestings of lambdas, all shadowings of identifiers, all patterns, generic arguments and arguments",
  "All programs; captures are collected by side effects of name lookups and moved through a struct whose members are found again by name, so every combination of nesting and shadowing matters.",
  ["spade-ast-lowering/src/lambda.rs: visit_lambda, handle_unit_kind", "spade-hir/src/symbol_table.rs: new_scope_with_barrier, lookup_id", "spade-hir-lowering/src/passes/lower_lambda_defs.rs: LambdaReplacement::replace_in, LowerLambdaDefs", "spade-hir-lowering/src/monomorphisation.rs: compile_items"])
p("The FIFO is a queue between clock domains",
  "After a reset of both sides, std::mem::fifo delivers exactly the values that were written while it said it was not full, in order, once each and unharmed, never more than its capacity inside, whatever edges of the two clocks come in whatever order or at the same time, with every bit sampled from the other domain during a change resolving either way. What is inside can be read after one more edge of the write clock and then two of the read clock, room that was made is visible after one more edge of the read clock and then two of the write clock, and the number of elements reported to the reader is never too high.",
  "all element types, sizes, states before the reset, interleavings of the two clocks, outcomes of sampling, histories of reads and writes",
  "All interleavings of two unrelated clocks and all outcomes of metastable sampling, over unbounded histories.",
  ["spade-compiler/stdlib/mem.spade: fifo, fifo_write, fifo_read", "spade-compiler/stdlib/cdc.spade: sync_uint_counter, sync2_bool", "spade-compiler/stdlib/num.spade: Gray"])
p("sync_wide transfers only valid values, in order",
  "After a reset, the output of std::cdc::sync_wide is always the initial value or a value the input had at an edge of the source clock, never a mixture of two; values may be skipped but never come back, and an input that stays the same for long enough gets through.",
  "all types, states before the reset, interleavings of the two clocks, outcomes of sampling and histories of inputs",
  "All interleavings of two unrelated clocks and all outcomes of metastable sampling, over unbounded histories.",
  ["spade-compiler/stdlib/cdc.spade: sync_wide, sender, receiver, sync2_bool"])
p("handshake delivers every pulse once",
  "After a reset, each value sent through std::cdc::handshake for one cycle of the source clock appears for exactly one cycle of the destination clock, unharmed and in order, as long as values are not sent too frequently: between two of them there is time for the handshake to go back and forth.",
  "all types, states before the reset, interleavings of the two clocks, outcomes of sampling and histories of values",
  "All interleavings of two unrelated clocks and all outcomes of metastable sampling, over unbounded histories.",
  ["spade-compiler/stdlib/cdc.spade: handshake, transmitter, receiver, sync2_bool"])
p("Functions on arrays do what they say",
  "The functions on arrays of the standard library return what their documentation says for arrays of every length and element type and for every function that is passed: concat, split_at, map, fold, reduce, reversed, unfold, all, any, chunks, sliding_window, interleave, zip, unzip, flatten, push_back, push_front, shift_back, shift_front, len, first, last, reduce_and, reduce_or and reduce_xor. They are accepted whenever their where clauses hold, return nothing else, and the generated hardware outputs the bits of that value.",
  "all lengths, split points, chunk and window sizes, element types, functions that are passed, and elements",
  "All lengths and types; they are written with compile time recursion and by reinterpreting bits, so every length is other code.",
  ["spade-compiler/stdlib/array.spade: unfold, impl [T; N], impl [(S, T); N], impl [[T; M]; N], impl [bool; N]"])
p("Operators compute what they stand for",
  "The wrapping operators +., -., *., <<. and unary -. return the number of the operand type that the exact result wraps around to; >>. shifts in zeros; &, |, ^ and ~ act on each bit; &&, ||, ^^ and ! on booleans; <, <=, >, >= follow the order of the integers; == and != of tuples agree with those of the members, and those of booleans, numbers and arrays with equality.",
  "every width, signedness, pair of operands and type that is compared",
  "widths and operand values are unbounded; tests sample a few",
  ["spade-compiler/core/ops.spade: WrappingAdd, WrappingSub, WrappingMul, WrappingNeg, WrappingShl, WrappingShr, BitAnd, BitOr, BitXor, BitNot, And, Or, Xor, Not, PartialEq, PartialOrd", "spade-ast-lowering/src/lib.rs: BinaryOperator"])

p("Conversions and functions on numbers do what their documentation says",
  "as_bits lists the bits from the least significant on and as_int and as_uint invert it; to_int keeps the value; to_le_bytes, to_be_bytes and to_germanendian_bytes list the bytes in their order; abs, min, max, trunc, concat, interleave, msb, lsb, sign_bit and order are the documented functions of the value, also for the least and the greatest number.",
  "every width and every value",
  "widths and values are unbounded; tests sample a few",
  ["spade-compiler/stdlib/conv.spade", "spade-compiler/stdlib/num.spade", "spade-compiler/stdlib/ops.spade"])

p("Functions on options do what their documentation says",
  "is_some, is_none, unwrap_or, map and and_then treat Some and None as documented for every function that is passed; == of options holds exactly if both are None or both are Some and == of the contents holds.",
  "every type of contents, value and function that is passed",
  "types and functions are unbounded; tests sample a few",
  ["spade-compiler/stdlib/option.spade: Option"])

p("What type inference accepts becomes hardware that computes it",
  "If type inference accepts a function for its generic arguments and all types that it finds are types of signals, then the hardware that is generated from these types, for the function and the instances it calls, has an output for all inputs that the function has a value for, and it is the bits of that value. The widths and layouts of the hardware are those of the inferred types.",
  "all programs of functions, declarations of types and generic arguments, and all arguments",
  "programs, generic arguments and values are unbounded; inference, monomorphisation and lowering have to agree on every one of them",
  ["spade-hir-lowering/src/lib.rs: generate_unit, expr_to_mir", "spade-typeinference/src/mir_type_lowering.rs: type_decl_to_concrete, ungenerify_type", "spade-hir-lowering/src/monomorphisation.rs: request_compilation", "spade-typeinference/src/lib.rs: visit_unit"])

p("Types that contain themselves are rejected, and only those",
  "Type declarations are accepted exactly if no struct, enum or alias contains itself, directly or through other declarations, in whatever order and module they are written. The check always ends, does not depend on the order of hash sets, and the notes of its error name a real circle of declarations. For accepted declarations computing the layout of every type ends; rejected declarations have no layout.",
  "all sequences of type declarations, orders in which pending names are taken from the set, and generic arguments",
  "circles can be of any length and go through any mixture of structs, enums, aliases, tuples, arrays and generic arguments; the search takes names from a hash set in an arbitrary order and keeps no record of what it has visited",
  ["spade-ast-lowering/src/global_symbols.rs: re_visit_type_declaration, add_type_spec_name_ids_to_graph", "spade-typeinference/src/mir_type_lowering.rs: type_decl_to_concrete, type_spec_to_concrete"])

p("Literals stand for the numbers and bytes they are written as",
  "A number in any of the four radixes, with underscores and a suffix, is one token with the number, the signedness and the width that are written, and every number the parser sees is written in the file. A sign before a number makes it negative or is an error. A character or string literal with its escapes stands for the bytes that are written, and there is a way to write every ASCII byte.",
  "all source texts, numbers of any length, and literals with any mixture of characters and escapes",
  "numbers and texts are unbounded, and the longest of many rules that match at a place is taken",
  ["spade-ast/src/token.rs: TokenKind, parse_int", "spade-parser/src/lib.rs: int_literal, ascii_char_literal, ascii_string_literal, map_escape_char", "spade-parser/src/expression.rs: inline_negative_literal"])

p("Comments and white space do not change the program",
  "White space, line comments and block comments between tokens, nested block comments included and with any text in them, do not change which tokens the parser sees. Lexing always ends, and an unclosed comment is an error.",
  "all source texts, and all sequences of white space and comments between tokens",
  "the text in a comment is arbitrary and comments nest to any depth",
  ["spade-parser/src/lib.rs: next_token_helper", "spade-ast/src/token.rs: TokenKind"])

p("A type implements Data exactly if it can be stored, and Copy exactly if it can be read",
  "A type that implements Data has no inv, clock, tri, memory or inout in it, however deeply nested in structs, enums, tuples, arrays, aliases and generic arguments; one that implements Copy has no inv, memory or inout in it except behind a view. Conversely every type without such parts implements the trait, and all values of enums can be stored.",
  "all sets of type declarations that are accepted, and all types over them with any generic arguments",
  "types nest to any depth and go through any number of declarations; the traits are implemented once per declaration and have to be right for all generic arguments",
  ["spade-ast-lowering/src/auto_traits.rs: get_copy_witness, get_data_witness, enforce_enum_data, impl_auto_trait", "spade-compiler/core/marker.spade: Data, Copy", "spade-ast-lowering/src/global_symbols.rs: visit_type_declaration", "spade-typeinference/src/mir_type_lowering.rs: inner_ungenerify_type"])

p("Windows and chunks of a stream hold its values, and edge detectors pulse exactly at edges",
  "After a reset, padded_sliding_window::<N> of a stream of optional values is Some exactly when the stream is, and then holds the last N values, the latest first, with the default that was there at the reset for those that are missing. chunks::<N> is Some exactly at every Nth value since the reset and then holds the last N values, the oldest first, so that each value is in one chunk. rising_edge is true exactly when the signal is true and was false at the last rising edge of the clock, falling_edge exactly when it is false and was true. The generated hardware outputs these values.",
  "all element types, all N, all histories of clocks, resets, streams and signals",
  "the registers depend on all of the history, which is unbounded, and a test runs one history",
  ["spade-compiler/stdlib/option.spade: padded_sliding_window, chunks", "spade-compiler/stdlib/io.spade: rising_edge, falling_edge"])

p("Checks on typed units reach every expression: empty operands, repeated registers, inout wires",
  "Before a unit is lowered, (1) every operand of an arithmetic operator and every value a match chooses from, wherever it is in the unit (in arms, guards, resets, initial values, conditions of stages, bodies of anonymous functions), has at least one bit or the unit is rejected, and a unit without such operands is not rejected for this; (2) `reg*N;` stands for N times `reg;`, so that every statement is in the stage that the counts say, and a count that is not a natural number is reported; (3) a value of type inout is never returned or bound to a name, and inputs of type inout are marked #[no_mangle].",
  "all units, all expressions nested to any depth, all types and counts",
  "a missed position in the traversal or a missed case in a check shows only in units that have an offending expression exactly there; the code generated for an empty operand refers to signals that do not exist",
  ["spade-hir-lowering/src/passes/pass.rs: Passable::apply", "spade-hir-lowering/src/passes/disallow_zero_size.rs: DisallowZeroSize", "spade-hir-lowering/src/passes/flatten_regs.rs: FlattenRegs", "spade-hir-lowering/src/passes/disallow_inout_bindings.rs: InOutChecks", "spade-hir-lowering/src/monomorphisation.rs: run_pass"])

p("Hardware is generated for every function that type checks and divides by literal powers of two only",
  "A function that type checks is lowered to hardware, without an error or a panic, exactly if every divisor of / and % in it is a literal power of two; fields that are read and arguments of transmute do not make it fail. Code generation finds a type for every signal that a statement reads and for the output, and it is the type of the one input or statement that drives the signal. Together with C45 and C46, the hardware then computes the value of the function.",
  "all programs that type check, all functions in them, expressions and patterns nested to any depth, all literals",
  "lowering has an error or a panic in many places, each of which has to be impossible or intended for every typed expression; tests only see the functions they contain",
  ["spade-hir-lowering/src/lib.rs: ExprLocal::lower, PatternLocal::lower, handle_call, generate_unit", "spade-mir/src/type_list.rs: MirTypeList::from_entity", "spade-mir/src/codegen/mod.rs: prepare_codegen"])

p("Supertraits do not go in circles, and bounds include supertraits",
  "A set of traits is accepted exactly if no trait is its own supertrait, directly or through others, in whatever order traits are written; an error about a circle names one that exists, and the check always ends. Requiring a trait of a generic parameter also requires its supertraits, directly or through others, at the arguments given for the trait.",
  "all sets of traits with any supertraits and generic arguments, in any order of declaration, all orders in which a hash set gives out names, all bounds",
  "Tests have two circles and two hierarchies without parameters; the order of a hash set is not under their control, and circles and hierarchies can be of any size.",
  ["spade-ast-lowering/src/impls.rs: create_trait_from_unit_heads_inner", "spade-typeinference/src/lib.rs: create_generic_list, visit_trait_bounds, visit_trait_spec", "spade-hir/src/lib.rs: ItemList::add_trait, get_trait"])

p("Values pass between a C++ test bench and the wires of a unit unchanged",
  "A Spade value that a C++ test bench assigns to an input of a unit is on the wires of that input afterwards, bit by bit, whatever its width; what the test bench reads of the output has the bits of the wires of the output. The generated wrapper is valid C++, o->a->b can be written exactly for the fields of the output type, and it compares and shows the wires of that field.",
  "all values and ports of any width, all output types with structs nested to any depth and any names of fields",
  "Widths change the C++ type of the port at 8, 16, 32, 64 and every further 32 bits, and the classes depend on the names and sizes of all nested fields; the tests have a handful of ports and need Verilator.",
  ["spade-mir/src/verilator_wrapper.rs: Entity::verilator_wrapper, Entity::input_wrapper, Type::output_wrappers", "spade-cxx/src/spade.rs: SignalValue::as_u64, SignalValue::as_u32_chunks, SimulationExt", "spade-mir/src/eval.rs: Value::as_u64, Value::as_u32_chunks"])

p("Instances name the module of what they instantiate",
  "In the generated Verilog no module is defined twice, and an instance of a unit with some type parameters names the module that was made of that unit with those parameters, whatever the schedule of the compiler, whatever the units are called and whether or not they have #[no_mangle], are generic, are in impl blocks or contain gen if.",
  "all programs with any number of units, paths and parameters, all interleavings of the threads that compile them",
  "The name of a module and the name in an instance are made in different places and from numbers that depend on the schedule; tests only compile a few units and do not elaborate the result.",
  ["spade-ast-lowering/src/lib.rs: visit_unit", "spade-ast-lowering/src/type_level_if.rs: expand_type_level_if", "spade-hir-lowering/src/monomorphisation.rs: MonoState::request_compilation, compile_items", "spade-hir-lowering/src/lib.rs: handle_call, UnitNameExt::as_mir", "spade-mir/src/unit_name.rs: UnitName::as_verilog"])

p("Positions mean the same place for the editor and the compiler",
  "The range that the language server reports for a span of a file (in diagnostics, for definitions and symbols) is the range an editor takes for that text; the place that the server looks at for a position of the cursor is the place of the cursor; a position that was reported and is sent back means the place it was reported for. Different places are never reported as the same position.",
  "all projects, files with any text, lines and characters, all spans and positions",
  "Bytes of UTF-8, characters and UTF-16 units only differ for some characters, and lines end in three ways; the tests of the language server have ASCII files.",
  ["spade-language-server/src/util.rs: loc_to_location, pos_uri_to_loc", "spade-diagnostics/src/lib.rs: CodeBundle::dump_files", "spade-language-server/src/compile.rs: LspDiagnosticsEmitter", "spade-language-server/src/goto_definition.rs: find_definition"])

p("A signal in a waveform is shown as the value it carries",
  "For a path of instances in the generated Verilog and a signal of the module at its end, the compiler's lookup gives the unit of that module and the value and direction that the signal carries, and the type of the signal is the type of that value; a path that the generated Verilog does not have is refused.",
  "all programs, hierarchies of any depth, units with any inputs, statements and names, all signals of their modules",
  "The table from identifiers to values is made beside the code generator and has to agree with the identifiers it declares for every combination of directions, attributes and names; tests look up a few signals.",
  ["spade-mir/src/codegen/mod.rs: entity_code, statement_declaration, add_to_name_map", "spade-mir/src/renaming.rs: VerilogNameMap", "spade-mir/src/unit_name.rs: InstanceMap, InstanceNameTracker", "spade-compiler/src/compiler_state.rs: source_of_hierarchical_value, type_of_hierarchical_value"])

p("A signal is described by the source code it was generated for",
  "For an identifier of the generated Verilog, the description that the compiler gives is the name of the variable, or the text of the expression in its file, that the signal was generated for, with the purpose of the signal if it is a helper.",
  "all units, sequences and nestings of generated statements, files, orders of the hash map, signals",
  "What is recorded depends on every place that generates a statement, and the identifiers only exist after renaming; there are no tests of descriptions.",
  ["spade-hir-lowering/src/statement_list.rs: StatementList", "spade-hir-lowering/src/name_map.rs: NameSourceMap", "spade-compiler/src/compiler_state.rs: CompilerState::demangle_string, demangle_name_source", "spade-cxx/src/spade.rs: CompilerState::demangle_name"])

p("Files get the namespaces that the command line gives them",
  "An argument <root>,<namespace>,<file> gives the file exactly the root and the namespace that are written, either of which may be empty; an argument without commas is a file without namespaces; all other arguments, and namespaces that are not paths, are refused.",
  "all arguments, namespaces of any depth with any names, files",
  "Whether a text is a path is decided by the lexer and the parser of the language, over all texts; the tests have a few arguments.",
  ["spade-compiler/src/namespaced_file.rs: namespaced_file", "spade-parser/src/lib.rs: Parser::path, continue_path, identifier, expect_eof", "spade-ast/src/token.rs: TokenKind"])

p("The name at the cursor and the source of a signal are those in the source",
  "The name that the language server takes the cursor to be on is the name written there: it occurs in the program at a place that contains the cursor, wherever a name is written it is found, and where none is written none is found. The expression that is given for a signal of a waveform is the one the signal was generated for, with its place.",
  "all programs, bodies with any nesting of expressions, patterns and statements, all positions, all signals",
  "Every kind of expression, pattern and statement has to be visited, at every depth, and the places of generated code overlap those of written code; the tests look at a few positions.",
  ["spade-query/src/lib.rs: QueryCache", "spade-language-server/src/util.rs: get_position_details", "spade-compiler/src/compiler_state.rs: name_source_of_hierarchical_value", "spade-ast-lowering/src/type_level_if.rs: expand_type_level_if"])

p("Completion offers the local variables in scope",
  "The local variables that the language server offers at the cursor are those whose scope the cursor is in: the parameters of the unit, and the variables of earlier statements of the blocks around the cursor; none of other blocks or later statements, and none that cannot be used there.",
  "all programs, bodies with any nesting of blocks and patterns, all positions of the cursor",
  "The scopes depend on the nesting of all expressions around the cursor and on the order of places; the tests of completion look at a few positions.",
  ["spade-language-server/src/completion/locals.rs: get_local_completion", "spade-hir/src/lib.rs: Pattern::get_names", "spade-query/src/lib.rs: QueryCache::things_around"])

here = os.path.dirname(os.path.abspath(__file__))
with open(os.path.join(here, "..", "properties.jsonl"), "w") as f:
    for q in P:
        f.write(json.dumps(q) + "\n")
print(len(P))

#!/usr/bin/env python3
"""Writes MANIFEST.json from the table below."""
import json, os
C = []
def claim(p, status, theorems, note):
    C.append({"property": p, "status": status, "theorems": theorems, "note": note})

M = "Spade.Match."
claim("C01", "partial", [M+"C01_accepted_exhaustive_partial", M+"C01_accepted_loosely_exhaustive_partial",
      M+"C01_counterexample_literal", M+"C01_counterexample_literal_pair", M+"C01_counterexample_clock"],
      "Proved for arms without integer literals on types without clock/tri/memory/inout parts; the counterexample theorems show the full claim is false of the code.")
claim("C02", "partial", [M+"C02_exhaustive_accepted_partial", M+"C02_witness_real_partial"],
      "All types except those containing a copy view of an enum, on which the checker panics.")
claim("C03", "partial", [M+"C03_checker_total_partial", M+"C03_counterexample_copyView", M+"C03_counterexample_guard"],
      "Total for all types without a copy view of an enum; two counterexamples show panics.")
claim("C04", "partial", [M+"C04_accepted_irrefutable_partial", M+"C04_irrefutable_accepted_partial",
      M+"C04_counterexample_variant", M+"C04_counterexample_literal"],
      "The counterexamples show the full claim is false of the code.")

K = "Spade.Codegen."
claim("C06", "partial", [K+"C06_variant_recognised", K+"C06_member_round_trip_partial", K+"C06_counterexample_single_variant"],
      "Recognition is proved in full; member access is proved for all enums except those with one variant whose member is one bit wide inside a larger payload, where the counterexample shows illegal code.")
claim("C07", "proved", [K+"C07_tag_just_wide_enough", K+"C07_constructor_width"],
      "Tuples, structs, arrays and enums.")
claim("C08", "proved", [K+"C08_forward_round_trip", K+"C08_backward_round_trip"],
      "Both directions; members may be zero or one bit wide.")
claim("C09", "partial", [K+"C09_index_round_trip", K+"C09_range_index", K+"C09_backward_index", K+"C09_bit_range_partial",
      K+"C09_counterexample_backward_range", K+"C09_counterexample_bit_range"],
      "Forward index and range index, and backward index are proved in full; backward range index and bit ranges that reach the top bit are wrong in the code (counterexamples).")

claim("C10", "partial", [K+"C10_as_string_partial", K+"C10_as_u64_partial", K+"C10_as_u32_chunks_partial",
      K+"C10_counterexample_zero_width", K+"C10_counterexample_u64", K+"C10_counterexample_chunks"],
      "All values of non-zero width; the numeric conversions need concatenation elements narrower than 64 bits. The counterexamples show the code panics on the rest.")
claim("C11", "partial", [K+"C11_eval_agrees_partial", K+"C11_counterexample_negation", K+"C11_counterexample_unsigned"],
      "All well-typed constant programs of signed arithmetic, tuples, structs, arrays, enums and aliases; the counterexamples show that negating the least number disagrees with the hardware and that unsigned arithmetic always panics.")
claim("C12", "partial", [K+"C12_exact_partial", K+"C12_counterexample_uint_sub"],
      "Exact for all operators except subtraction of unsigned numbers with a negative result (counterexample).")
T = "Spade.Types."
claim("C38", "partial", [T+"C38_partition_partial", T+"C38_inversion_partial", T+"C38_double_inversion", T+"C38_counterexample_copy_view"],
      "All types without a copy view; the counterexample shows the claim fails for those.")
claim("C42", "proved", [K+"C42_comparison", K+"C42_equality"], "All widths above 0 (zero width operands are rejected by a pass) and all values.")
claim("C43", "partial", [K+"C43_sext_partial", K+"C43_zext_partial", K+"C43_trunc_partial", K+"C43_concat",
      K+"C43_counterexample_sext", K+"C43_counterexample_zext", K+"C43_counterexample_trunc"],
      "Zero width operands or results give wrong or illegal code (counterexamples); everything else is proved.")
claim("C44", "partial", [K+"C44_division_partial", K+"C44_remainder", K+"C44_counterexample_division", K+"C44_shifts",
      K+"C44_negation_partial", K+"C44_bitwise", K+"C44_logical", K+"C44_counterexample_div_pow2"],
      "Division of the least number by -1 and negation of the least number overflow; div_pow2 disagrees with its documentation.")

H = "Spade.Hir."
claim("C25", "proved", [H+"C25_named", H+"C25_positional", H+"C25_same_bindings", H+"C25_named_errors", H+"C25_positional_errors"],
      "Parameter names must be distinct, which lowering checks (spade-ast-lowering/src/lib.rs:660).")

I = "Spade.Impl."
claim("C26", "partial", [I+"C26_coherent_partial", I+"C26_rejection_justified", I+"C26_counterexample_bool", I+"C26_counterexample_alias"],
      "Proved for headers without boolean type level values and without type aliases; the counterexamples show that the code accepts overlapping impls for those. Rejections are justified up to treating generics as independent.")

R = "Spade.Mir."
L = "Spade.Linear."; N="Spade.Infer."
claim("C13", "proved", [R+"C13_flatten", R+"C13_single_definitions", R+"C13_definitions_kept"],
      "All units whose aliases have an operand, for every meaning of operators, registers and constants and every iteration order of the hash sets.")

claim("C14", "partial", [R+"C14_renaming", R+"C14_behaviour", R+"C14_predictable", R+"C14_instances", R+"C14_verilog_partial",
      R+"C14_counterexample_numbered", R+"C14_counterexample_port", R+"C14_counterexample_instance"],
      "The renaming of lowered units is proved one to one, meaning preserving and predictable. The Verilog identifiers made from the names are distinct unless the user chose a name the compiler makes up; the counterexamples show three such clashes.")

claim("C37", "partial", [R+"C37_equal_partial", R+"C37_behaviour_partial", R+"C37_renumbered", R+"C37_counterexample_inputs", R+"C37_counterexample_ids"],
      "Proved for units with the same number of inputs in which variables with different texts have different numbers; the counterexamples show that the comparison is wrong otherwise.")

claim("C15", "partial", [R+"C15_split_partial", R+"C15_interface", R+"C15_counterexample_reset", R+"C15_counterexample_empty_part"],
      "Proved, for histories of every length, for compound registers without a reset whose parts are all non-empty; the counterexamples show that a reset makes every part take the whole reset value and that empty parts give illegal code.")

claim("C16", "partial", [R+"C16_gating_partial", R+"C16_realisable", R+"C16_pass", R+"C16_counterexample_no_payload"],
      "Every reader that looks at the variant and its members sees the same as with the original register, at all times. Proved per register, for payloads of at least one bit; the counterexample shows what happens without.")

claim("C39", "partial", [R+"C39_one_driver", R+"C39_values_partial", R+"C39_counterexample_set"],
      "Every wire is made once, and all values are kept if a wire that is set is set under all its names. The counterexample shows that `set` on a wire that was read before is dropped.")

claim("C17", "partial", [L+"C17_exactly_once_partial", L+"C17_counterexample_match", L+"C17_counterexample_arm", L+"C17_counterexample_range", L+"C17_counterexample_assert", L+"C17_counterexample_at"],
  "Proved for units in which nothing with wires is matched on, is the result of match/if, is indexed by a range, is bound with @ or occurs in an assertion. The counterexamples show that the property is false in each of these cases. Registers and pipeline stages are not modelled.")

N = "Spade.Infer."
claim("C18", "partial", [N+"C18_kind_accepts", N+"C18_merge_is_intersection_partial", N+"C18_counterexample_int_uint", N+"C18_merge_comm", N+"C18_merge_idem", N+"C18_merge_assoc", N+"C18_counterexample_more_concrete"],
  "Proved except that merging #int with #uint is rejected although both accept every nonnegative integer (counterexample).")

claim("C19", "proved", [N+"C19_lookups_follow_spec", N+"C19_lookup_is_unobservable", N+"C19_restore_undoes"],
  "For all histories that bind only unbound variables, never to something standing for them, which is how inference uses the record; termination of every lookup included.")

claim("C20", "partial", [N+"C20_value_partial", N+"C20_int_bits_least_partial", N+"C20_uint_bits_least_partial", N+"C20_early_simplification", N+"C20_update_preserves_solutions", N+"C20_counterexample_int_bits_zero", N+"C20_counterexample_uint_bits_negative", N+"C20_counterexample_division_by_zero"],
  "The value is proved for every expression without int::bits_for(0) and without uint::bits_for of a negative number, for which the counterexamples show wrong widths. Division by zero crashes the compiler (counterexample). Early simplification is proved without restriction.")

claim("C21", "partial", [N+"C21_literal_fits_partial", N+"C21_undecided", N+"C21_other_types_rejected", N+"C21_counterexample_int_zero"],
  "Proved for widths below 2^32, except int<0>, at which -1 is accepted (counterexample).")

claim("C22", "proved", [N+"C22_range_accepted_iff", N+"C22_range_rejected_iff", N+"C22_stage_reference_accepted_iff", N+"C22_stage_label_accepted_iff", N+"C22_index_needs_elements", N+"C22_where_clause_iff"],
  "Ranges with present or absent bounds, relative and labelled stage references; also dynamic indexing of empty arrays and where clauses.")

claim("C23", "partial", [N+"C23_most_general_partial", N+"C23_same_type_partial", N+"C23_equalities_kept_partial", N+"C23_rejection_justified_partial", N+"C23_reachable_states", N+"C23_unify_with_constraints_partial", N+"C23_unify_rejection_partial", N+"C23_counterexample_int_uint", N+"C23_counterexample_result_of_self"],
 "unify_inner, check_type_for_recursion and the constraint loop of unify are modelled; a successful unification keeps exactly the solutions that make the two variables equal, both resolve to the same finite type, earlier equalities are kept, and rejections are justified. Not modelled: the error type, generic arguments as named types, trait parameters and impl blocks for particular instances of a type; termination is not shown (the theorems are about runs that answer). Two deviations: #int and #uint variables are not unified although they share values, and unifying a variable with itself returns a variable not connected to it.")

O = "Spade.Mono."
Q = "Spade.Pipe."
W = "Spade.Lower."
S = "Spade.Symtab."
V = "Spade.Loc."
Z = "Spade.Ids."
Y = "Spade.Inline."
XV = "Spade.Vcd."
XS = "Spade.Sim."
XE = "Spade.Expr."
XN = "Spade.Entity."
XM = "Spade.Method."
XC = "Spade.Check."
XT = "Spade.Trait."
XG = "Spade.GenIf."
XL = "Spade.Lambda."
XF = "Spade.Fifo."
XD = "Spade.Cdc."
XA = "Spade.Std."
XB = "Spade.Elab."
XDC = "Spade.Decl."
XLX = "Spade.Lex."
XAU = "Spade.Auto."
XST = "Spade.Stream."
XPA = "Spade.Pass."
XSU = "Spade.Super."
XCX = "Spade.Cxx."
XUN = "Spade.Units."
XED = "Spade.Editor."
XHI = "Spade.Hier."
XFI = "Spade.Files."
XQ = "Spade.Query."
P = "Spade.Parse."
claim("C31", "proved", [P+"C31_result_respects_precedence", P+"C31_every_expression_is_parsed", P+"C31_tree_is_unique", P+"C31_parser_terminates"],
 "expr_bp, custom_infix_operator and inline_negative_literal are modelled on token sequences in which an operand with its suffixes (parentheses, calls, indices, fields) is one token.")

claim("C32", "proved", [O+"C32_compiled_exactly_once", O+"C32_same_name_iff_same_item", O+"C32_requests_are_served", O+"C32_output_order_independent_of_schedule", O+"C32_every_run_can_finish"], "Transition system with one atomic action per critical section or atomic-counter access; all interleavings of the main thread and any number of jobs. The requests an item makes are an arbitrary function of the item; panics and lambda body replacements are left out.")

claim("C27", "partial", [Q+"C27_values_stay_with_their_token_partial", Q+"C27_reference_is_delayed", Q+"C27_counterexample_decl", Q+"C27_counterexample_condition"], "Every reference in stage k to a value bound in stage j reads the value computed k-j cycles earlier for every pipeline body whose lowered equations hold, any depth, with nested pipelines. Missing: pipelines with stall conditions (covered by C28), names declared with decl and used in an earlier stage than their binding, and delayed values under match/if/blocks; the two counterexamples show the code really breaks the full statement for decl and for register conditions.")
claim("C28", "partial", [Q+"C28_ready_signal", Q+"C28_condition_signal", Q+"C28_values_advance_with_stage", Q+"C28_values_belong_to_token", Q+"C28_inputs_of_token", Q+"C28_token_in_one_stage", Q+"C28_token_leaves_once", Q+"C28_token_not_lost", Q+"C28_token_moves_when_not_stalled", Q+"C28_counterexample_nested_pipeline"], "Enable signals, register advance and token coherence are proved for every pipeline without nested pipeline instances. The full statement is false of the code with nested pipelines, which do not stall with their parent: counterexample proved.")
claim("C29", "proved", [Q+"C29_valid_signal"], "For every pipeline and every history of stall conditions. The valid registers have no initial value, so the initial occupancy is a parameter (stage 0 is always occupied).")
claim("C30", "partial", [Q+"C30_accepted_expressions_are_ready_partial", Q+"C30_use_not_before_ready", Q+"C30_counterexample_delayed_scrutinee", Q+"C30_counterexample_constant_branches", Q+"C30_counterexample_inner_block"], "Proved for expressions built from variables, operators, nested pipelines, stage references and literals. The full statement is false for match scrutinees, constant branches and inner blocks: counterexamples proved.")

claim("C05", "partial", [W+"C05_first_arm_partial", W+"C05_variables_partial", W+"C05_let_partial", W+"C05_accepted_match_partial", W+"C05_encoding", W+"C05_construct", W+"C05_counterexample_single_variant", W+"C05_counterexample_empty_array"], "Patterns (lower, condition) and match lowering are modelled down to the emitted Verilog; for every pattern nesting, arm list, guards and scrutinee the match has the value of the first selected arm and pattern variables hold the named parts. Missing: one-bit payloads of a larger enum with a single variant, and patterns on empty arrays, for which the code is wrong or panics (counterexamples); guards and results enter as arbitrary lowered statements.")

claim("C24", "proved", [S+"C24_innermost", S+"C24_unknown", S+"C24_scope_restored"],
 "For every history of table operations: a simple name resolves to the latest declaration in the innermost open scope that declares it, fails if there is none, and every lookup after closing a scope gives what it gave before the scope was opened. Lookup barriers of lambda scopes and deprecation notes are not modelled; C24_innermost is about names that are neither aliases nor restricted in visibility (those are C41).")
claim("C41", "partial", [S+"C41_lookup_partial", S+"C41_lookup_unchecked", S+"C41_unique", S+"C41_world", S+"C41_obvious_walk_partial", S+"C41_terminates", S+"C41_counterexample_lib_visible", S+"C41_counterexample_lib_reexport", S+"C41_counterexample_lib_alias", S+"C41_counterexample_super_panics"],
 "Path lookup denotes exactly the item given by an independent relational specification of paths, aliases and visibility, for every table. Four counterexamples show where visibility and lib:: of other libraries depart from the property, and that a visibility of pub(super) at the root makes the lookup panic; termination is shown for tables in which modules are not aliases.")
claim("C40", "proved", [V+"C40_merge", V+"C40_between", V+"C40_shrink", V+"C40_before", V+"C40_around", V+"C40_contains", V+"C40_order", V+"C40_innermost_partial", V+"C40_counterexample_innermost"],
 "Merging gives the least span containing both. After any insertions the lookup around a location reports exactly the inserted things whose span contains it. The first one reported is innermost if no two spans around the location share their start; the counterexample shows that with a shared start the outer one comes first. Span::new and Span::merge are those of an external crate and are part of the trusted model.")

claim("C36", "partial", [Z+"C36_tracker", Z+"C36_tracker_range", Z+"C36_tracker_progress", Z+"C36_symtab_partial", Z+"C36_intern_injective", Z+"C36_intern_reads", Z+"C36_hash", Z+"C36_counterexample_inner_tracker"],
 "For every interleaving of threads, one atomic action at a time, ids of one tracker are pairwise different up to 2^64 calls, and interned strings are equal as identifiers exactly if they are equal as strings and read back unchanged for ever. Freezing and unfreezing the symbol table never repeats an id as long as the tracker of the table inside is not used; the counterexample shows that code generation does use it (spade-compiler/src/lib.rs:558), so that names made by inlining can get the id of names made for pipelines.")

claim("C33", "partial", [Y+"C33_inlining_partial", Y+"C33_terminates", Y+"C33_counterexample_tracker", Y+"C33_counterexample_recursion"],
  "Partial: the theorem needs that the trackers have passed all names of the units that remain, which the compiler does not ensure: it passes the tracker of the table inside the frozen symbol table, and C33_counterexample_tracker shows two signals merged. Recursive inlined units make the compiler loop. The type state is not modelled beyond the names it draws.")

claim("C34", "partial", [XV+"C34_translate_partial", XV+"C34_plain", XV+"C34_source_partial", XV+"C34_source_plain", XV+"C34_text_determines", XV+"C34_extension", XV+"C34_counterexample_array", XV+"C34_counterexample_zero_width", XV+"C34_counterexample_too_long"],
 "For every type and all levels of its width the translator shows the text of the one value that they carry (including undefined and high impedance bits), the bits of a source value show that value, equal texts mean equal values, and short traces are extended as Verilog does. The full statement is false in three ways, each with a counterexample: arrays are listed from the last element, parts without wires are not shown, and too long traces panic in debug builds. For types without such parts (Plain) the full statement is proved (C34_plain, C34_source_plain).")

claim("C35", "partial", [XS+"C35_read", XS+"C35_readable", XS+"C35_write", XS+"C35_siblings", XS+"C35_access", XS+"C35_hardware_read", XS+"C35_hardware_write", XS+"C35_counterexample_lost_state", XS+"C35_counterexample_unwritable"], "In every history of accesses, reads, writes and compilations (with caches), a reference got for a path reads and writes exactly the wires of that field, leaves all fields whose paths part unchanged, and these are the bits that the emitted member accesses take, forward and backward. Fails in two ways, shown by counterexamples: an access to a missing field (or a failing compilation) loses the compiler state so that later accesses to existing fields panic; an output struct whose members are all inv cannot be written as a whole. The compilation of expressions is an oracle whose values have the width of the type; cocotb's signal indexing is trusted.")

claim("C45", "partial", [XE+"C45_function_value_partial", XE+"exact_types", XE+"C45_counterexample_padding", XE+"example_program"],
  "For every program that satisfies the typing rules, every function, argument values and evaluation: whatever the generated unit produces for encodings of the arguments encodes the result; calls nest to any depth. Divisions by zero and out of range indices leave their signal arbitrary, so untaken branches may be undefined. Missing: numbers of width 0, sext and trunc of one bit (wrong code, C43), equality of types with padding (counterexample), transmute of types with padding to types whose value depends on the padding, one-bit payloads of single-variant enums (C06), vectors above 2^32 bits, registers, memories, ports, pipelines.")

claim("C46", "proved", [XE+"C46_driven_once", XE+"C46_unit_has_output", XE+"C46_function_computes", XE+"C46_recursion_has_no_output", XE+"example_complete"], "For functions over the expressions, statements, calls and intrinsics of the Expr model, in programs that type check, with names resolved (distinct, in scope), no empty match and no recursion. C46_recursion_has_no_output shows that the last hypothesis is needed: the compiler accepts a function that calls itself and generates a module that instantiates itself.")

claim("C47", "partial", [XN+"C47_entity_value_partial", XN+"C47_initial_value", XN+"C47_initial_known", XN+"C47_initial_accepted", XN+"C47_accepted_supported_partial", XN+"C47_counterexample_tuple_index", XN+"C47_counterexample_array_index", XN+"C47_counterexample_unsigned", XN+"example_top", XN+"example_runs"], "For every entity with any number of registers (mutually dependent, with reset and initial value) and instances to any depth, in every history of the generated hardware and at every instant at which the source gives a value. Missing: initial values the compiler accepts but crashes on (three counterexamples), negations out of range (C11), and what C45 leaves out; ports, registers in inner blocks.")
claim("C48", "proved", [XN+"C48_driven_once", XN+"C48_no_loops", XN+"C48_entity_has_history", XN+"C48_entity_runs", XN+"C48_counterexample_loop", XN+"example_accepted", XN+"example_generated"], "For the entities of the Entity model. C48_entity_has_history assumes that there is no combinational loop, which C48_no_loops proves for entities whose clocks are parameters and whose variables are defined before use; C48_counterexample_loop shows that the compiler accepts entities with loops, for which no history exists.")

claim("C49", "partial", [XM+"C49_resolves", XM+"C49_decides", XM+"C49_stable", XM+"C49_counterexample_view", XM+"C49_counterexample_nonlinear", XM+"C49_counterexample_bool", XM+"C49_counterexample_impl_for_view", XM+"C49_counterexample_default", XM+"C49_counterexample_error", XM+"example_accepted", XM+"example_selects"], "Proved for impl headers without aliases, boolean arguments, omitted default parameters and repeated generics; the counterexamples show that resolution goes wrong for those, for views of types that are not known yet and for impls on views.")

claim("C50", "partial", [XN+"C50_read_last_write_partial", XN+"C50_write_ports", XN+"C48_entity_has_history", XN+"C50_counterexample_address", XN+"C50_counterexample_empty", XN+"C50_counterexample_input", XN+"example_ram"], "For every entity with memories of any size, element type, number of ports and initial values. Existence of a history is C48_entity_has_history, whose entities include memories. Missing: memories and addresses without bits and memories passed to other units (three counterexamples); initial values the evaluator does not support (C47).")

claim("C51", "partial", [XC+"C51_well_typed_partial", XC+"C51_solutions_well_typed_partial", XC+"C51_example", XC+"C51_counterexample_turbofish", XC+"C51_counterexample_shared_size", XC+"C51_counterexample_at"], "Every state inference accepts without leftovers gives a typing of the unit by ground types. Excluded, because inference is wrong there (three counterexamples): bounds on explicit generic arguments, results of unifying an unknown variable with itself that are used (ghost flag `lost`), `@` on names declared before. Missing: methods, lambdas, pipelines, aliases; only `int` and `uint` implement `Number`.")

claim("C52", "partial", [XT+"C52_impl_honours_trait_partial", XT+"exBlock_accepted", XT+"C52_counterexample_kind", XT+"C52_counterexample_bound", XT+"C52_counterexample_duplicate_method", XT+"C52_counterexample_number_argument", XT+"C52_counterexample_copy_view"], "For every trait and impl block that passes the checks: one unit per method and no others, the same safety, number of type parameters, argument names, and, for every choice of concrete types, the same argument and result types; associated types are complete with the right number of parameters. Not covered: the kind of the unit and bounds on type parameters, which the checks ignore (counterexamples), and traits which declare a method twice (counterexample). The converse (a correct impl is accepted) fails for number arguments of traits and for copy views of parameters (counterexamples) and is not proved otherwise.")

claim("C53", "proved", [XG+"C53_gen_if", XG+"C53_expansion", XG+"C53_lowering", XG+"C53_accepted", XG+"C53_terminates", XG+"C53_rejects", XG+"C53_accepts", XG+"prog_ok", XG+"prog_gives", XG+"C53_counterexample_unselected_branch"], "For every program, unit, generic arguments and arguments: source and hardware give the same results (both directions), including the declared number of pipeline stages. Outside result position: if hardware is generated it has the value of the selected branch; it is not generated when the condition of a gen if nested in the branch that is not selected has no value (counterexample).")

claim("C54", "partial", [XL+"C54_lambdas_are_closures", XL+"C54_accepted_iff_scoped", XL+"C54_captures_mentioned_partial", XL+"C54_counterexample_captures_unused_variable"], "Proved: the compiled program gives exactly what the program with closures gives; accepted exactly if variables and generic parameters are in scope. False: a lambda captures only what it uses (a parameter or local variable with the name of an outer variable captures that one); proved instead that only variables it mentions are captured. Types, stages of pipelines and the names of made up type parameters are not modelled.")

claim("C55", "partial", [XF+"C55_fifo_is_a_queue", XF+"C55_fifo_delivers", XF+"C55_fifo_frees", XF+"C55_counterexample_memory_size", XF+"C55_counterexample_one_reset"], "Proved for memories of 2^AddrWidth elements, from any state after a reset of both sides. False for other sizes, which are not checked, and after a reset of one side only.")
claim("C56", "proved", [XD+"C56_sync_wide_valid_and_in_order", XD+"C56_sync_wide_delivers"], "From any state after a reset that lasts three edges of each clock; compilation to hardware is not part of the model.")
claim("C57", "proved", [XD+"C57_handshake_once_and_in_order", XD+"C57_handshake_delivers", XD+"C57_counterexample_too_frequent"], "For values that are not sent too frequently, from any state after a reset of three edges of each clock; the counterexample shows that the documented limitation is real.")

claim("C58", "partial", [XA+t for t in ["C58_concat","C58_split_at","C58_map","C58_reversed","C58_fold_partial","C58_reduce_partial","C58_reduce_associative","C58_unfold","C58_all","C58_any","C58_chunks","C58_sliding_window","C58_interleave","C58_push_back","C58_push_front","C58_shift_back","C58_shift_front","C58_zip","C58_unzip","C58_flatten","C58_len","C58_first","C58_last","C58_reduce_and","C58_reduce_or","C58_reduce_xor","C58_accepted","C58_hardware_partial","C58_counterexample_fold"]],
  "Proved for all lengths, types, functions and elements as documented, except fold and reduce: the documentation nests the function from the last element on, the code from the first, which is the same only for associative functions (counterexample). Hardware: under the conditions of C45.")

claim("C59", "partial", [XA+t for t in ["C59_wrapped","C59_add","C59_sub","C59_mul","C59_neg","C59_shl","C59_shr","C59_not","C59_not_bits","C59_bit_not","C59_logic","C59_logic_bits","C59_bit_and","C59_bit_or","C59_bit_xor","C59_order","C59_eq_partial","C59_ne_partial","C59_eq_decides","C59_eq_unit","C59_eq_tuple","C59_ne_tuple","C58_accepted","C58_hardware_partial","C59_counterexample_array_eq"]],
  "Source semantics for all widths and operands; units are accepted by type inference (C58_accepted) and the Verilog computes the same (C58_hardware_partial). Partial: == on arrays compares bits and ignores the == of the elements (C59_counterexample_array_eq); shift amounts that are negative numbers are not covered; widths of zero and types with padding are outside the hardware theorem (C43, C45).")
claim("C60", "proved", [XA+t for t in ["C60_as_bits","C60_of_bits","C60_of_bool","C60_recast","C60_to_int","C60_to_le_bytes","C60_to_be_bytes","C60_to_german_bytes","C60_abs","C60_abs_int","C60_concat","C60_max","C60_min","C60_order","C60_trunc","C60_interleave","C60_msb","C60_sign_bit","C60_lsb","C58_accepted"]],
  "Source semantics for all widths and values.")
claim("C61", "proved", [XA+t for t in ["C61_is_some","C61_is_none","C61_unwrap_or","C61_map","C61_and_then","C61_eq","C61_ne","C58_accepted"]],
  "Source semantics for all types, values and functions.")

claim("C62", "partial", [XB+"C62_program_well_typed_partial", XB+"C62_inferred_function_computes_partial", XB+"C62_source_function_computes_partial", XPA+"C62_checked_function_computes_partial", XPA+"C62_hardware_generated_partial", XPA+"C62_translated_function_computes_partial", XB+"C62_resolved", XPA+"C62_source_computes_partial", XB+"C62_types_agree"],
  "joins C51 to C45 and C46: units accepted by the model of type inference, with the types it reports, are elaborated to the typed programs whose lowering C45 and C46 are about; the values are those of a semantics of the source and its inferred types that does not mention lowering. That operands of operators are not empty follows from the check of C68 (C62_checked_function_computes_partial), and that hardware is generated from a condition on the source (C69, C62_translated_function_computes_partial); that names are resolved is asked of the source (C62_source_computes_partial). Missing: the other conditions on widths in Widths, which are needed (C43, C45 and C68 have the counterexamples) and nothing checks, are hypotheses on the elaborated function; registers, pipelines, methods, lambdas, gen if, aliases and inverted types are left out")

claim("C63", "proved", [XDC+"C63_accepted_iff_no_circle", XDC+"C63_error_names_a_circle", XDC+"C63_check_ends", XDC+"C63_order_irrelevant", XDC+"C63_layout_ends", XDC+"C63_rejected_has_no_layout"],
  "For all declarations with distinct names on top of built-in types. The choice of the next pending name is open, so the theorems hold for every order of the hash set. Generic arguments count as contained even when they take no space (example); such types have no layout either, because arguments are laid out first.")

claim("C64", "partial", [XLX+"C64_integer_literal_partial", XLX+"C64_integer_token", XLX+"C64_integer_never_panics", XLX+"C64_sign_partial", XLX+"C64_negative_expression", XLX+"C64_char_literal_partial", XLX+"C64_string_literal_partial", XLX+"C64_counterexample_octal_suffix", XLX+"C64_counterexample_negative_unsigned_pattern", XLX+"C64_counterexample_backslash"], "Numbers, characters and strings are tokens with the value that is written, and every number token is written in the file. Violated for widths with the digits 8 and 9 after octal numbers (two tokens), for negative unsigned numbers in patterns (the sign is dropped), and for the backslash (no literal stands for it).")
claim("C65", "partial", [XLX+"C65_lexing_ends", XLX+"C65_gap_partial", XLX+"C65_same_tokens_partial", XLX+"C65_counterexample_line_comment_inside", XLX+"C65_counterexample_quotes_inside"], "White space, line comments and nested block comments without quotation marks and // in them are skipped. Violated with // in a block comment (it is not closed) and with quotation marks in two block comments (the code between them disappears).")

claim("C66", "partial", [XAU+"C66_copy_can_be_read", XAU+"C66_data_can_be_stored_partial", XAU+"C66_enum_can_be_stored_partial", XAU+"C66_implemented_partial", XAU+"C66_exact_partial", XAU+"C66_counterexample_view_of_clock", XAU+"C66_counterexample_nine_members", XAU+"C66_counterexample_view", XAU+"C66_counterexample_unused_parameter"], "Copy is sound for all declarations, Data for declarations without views. Violated: a struct with a field of type &clock implements Data; tuples of nine members, views and types with an unused parameter that is not Data do not implement traits that they could.")

claim("C67", "partial", [XST+"C67_window", XST+"C67_window_none", XST+"C67_chunks_partial", XST+"C67_chunks_once", XST+"C67_rising_edge", XST+"C67_falling_edge", XST+"C67_accepted", XST+"C67_window_hardware_partial", XST+"C67_chunks_hardware_partial", XST+"C67_edge_hardware"], "Windows, chunks and edges are proved for all types, lengths and histories. Partial: the array register of chunks has no initial value, and the model makes the value it happens to start with explicit as any constant. The hardware statements have the restrictions of C47, and N = 0 is left out. The documentation of chunks says that there is one cycle of latency; there is none.")

claim("C68", "partial", [XPA+"C68_checks_reach_everything", XPA+"C68_zero_size", XPA+"C68_flatten", XPA+"C68_same_stages", XPA+"C68_inout_exact", XPA+"C68_inout_partial", XPA+"C68_counterexample_empty_argument", XPA+"C68_counterexample_inout_in_tuple", XPA+"C68_counterexample_inout_in_match"], "The traversal, the check of operands and the writing out of repeated registers are proved for all units, and what the inout check accepts is characterised exactly. Violated: inout values inside of tuples and in the arms of match get names, and empty arguments of the functions the compiler generates code for itself are not rejected.")

claim("C69", "partial", [XE+"C69_lowered_iff", XE+"C69_signal_types", XE+"C69_types_found", XE+"C69_function_computes", XE+"C69_counterexample_empty_array"], "For all functions of the model of C45, which has no registers, pipelines and labels. Violated: lowering panics on the pattern [] for arrays of length 0; the exact condition is Compiles. A field that is read has to be one field of the struct and transmute has to keep the bits of inv types, both of which type inference ensures for declared structs and for types without inv (C62_hardware_generated_partial proves the first from the source).")

claim("C70", "partial", [XSU+"C70_accepted_iff_no_circle", XSU+"C70_error_names_a_circle", XSU+"C70_check_ends", XSU+"C70_order_irrelevant", XSU+"C70_bounds_end", XSU+"C70_required_traits", XSU+"C70_required_partial", XSU+"C70_counterexample_parameter_of_trait"], "Violated for traits that pass their own parameters on to a supertrait: the arguments of the trait are not put in place of its parameters, and the compiler panics on every bound with such a trait. The check for circles and the names of the required traits are proved for all traits, the arguments for traits that do not pass parameters on. Simplified: an argument is a generic parameter or a type without parameters.")

claim("C71", "partial", [XCX+"C71_input_partial", XCX+"C71_output", XCX+"C71_round_trip_partial", XCX+"C71_compiles_partial", XCX+"C71_fields_partial", XCX+"C71_field_wires_partial",
      XCX+"C71_counterexample_wide_element", XCX+"C71_counterexample_undefined", XCX+"C71_counterexample_empty_field", XCX+"C71_counterexample_underscore", XCX+"C71_counterexample_root"],
      "Proved for every width: an assigned value is on the wires bit by bit, the output string has the wires, and both compose to the identity; the classes are valid C++, select exactly the fields of the output type, and with C35 show the wires of the field. It does not hold for compound values with an element of 64 bits or more (the assignment panics), undefined bits become 0, and the wrapper is not valid C++ when a field has no wires, when underscores make two classes have the same name, or when a field is called root.")

claim("C72", "partial", [XUN+"C72_linked_partial", XUN+"C72_counterexample_hidden_parameter", XUN+"C72_counterexample_same_name"],
      "Proved for every interleaving on top of C32: modules have distinct names and instances name the module made of the unit and parameters they instantiate. It does not hold when a unit with #[no_mangle] has impl Trait in its inputs (accepted; the module is called f, the instance asks for f[7]), and when #[no_mangle] gives two units the same name, which is not checked.")

claim("C73", "partial", [XED+"C73_to_editor_partial", XED+"C73_from_editor_partial", XED+"C73_round_trip_partial", XED+"C73_order", XED+"C73_counterexample_accent", XED+"C73_counterexample_wide_character", XED+"C73_counterexample_carriage_return", XED+"C73_counterexample_behind_line"],
      "Proved: reported ranges are right for lines of 16-bit characters, places looked at are right for lines that are ASCII up to the cursor, and different places get different positions in order for every text. It does not hold for other characters (the server counts characters when it reports and bytes when it reads positions, while editors count UTF-16 units), for carriage returns alone, and for positions behind the end of a line. The library codespan-reporting is modelled from its published source, which is not in the repository.")

claim("C74", "partial", [XHI+"C74_signal_partial", XHI+"C74_never_wrong_partial", XHI+"C74_path", XHI+"C74_unit", XHI+"C74_source_partial", XHI+"C74_type_partial", XHI+"C74_counterexample_two_ways", XHI+"C74_counterexample_backward_wire", XHI+"C74_counterexample_new"], "Proved for units whose identifiers do not clash (C14): ports, wires, results of statements and output__ are found with the value and direction they carry, at any depth of instances, and paths are followed exactly as the generated Verilog has them. The claim fails, with counterexamples, for the wire of an input with parts in both directions (found as the backward part, its type is refused), for the backward wires of inputs and input__ (unknown) and for the wire of an input called new (unknown).")

claim("C75", "partial", [XHI+"C75_recorded", XHI+"C75_expression_partial", XHI+"C75_variables", XHI+"C75_counterexample_variable"], "Proved: every statement is recorded with what it was made for and nothing else is, and the signals of expressions are described by what was recorded, for any order of the hash map. The claim fails for variables, with a counterexample and a theorem for all identifiers without underscores: the map has the numbers of names from before they are renamed for Verilog, so signals of variables are not found. Not covered: which source lowering passes for each statement, and ports.")

claim("C76", "partial", [XFI+"C76_namespaces", XFI+"C76_plain", XFI+"C76_accepted_partial"],
  "The arguments that are accepted, and what they give, are described exactly. Missing: a path with :: at its end is accepted and read without it (C76_counterexample_separator), and files with commas in their names cannot be given (C76_counterexample_comma).")

claim("C77", "partial", [XQ+"C77_names", XQ+"C77_sound", XQ+"C77_cursor_partial", XQ+"C77_nothing", XQ+"C77_outermost", XQ+"C77_expression", XQ+"C77_signal_partial", XQ+"C77_helper"],
  "The names found are exactly those mentioned by expressions, patterns and statements of bodies. Missing: the outermost name around the cursor is taken, so in units with gen if every name is taken for a generated one (C77_counterexample_gen_if); arguments of lambdas are not found (C77_counterexample_lambda), nor are names in types, of methods and fields, and parameters of units; signals that C74 misses.")

claim("C78", "partial", [XQ+"C78_offered", XQ+"C78_scope_partial", XQ+"C78_only_partial"],
  "Parameters and variables of statements in scope are offered, and others only in the statement that introduces them. Missing: a variable is offered in its own value (C78_counterexample_own_value), and variables of branches of match (C78_counterexample_match) and arguments of lambdas are not offered. Names are those of the compiler; which of several variables with the same text is meant is not shown.")

out = os.path.join(os.path.dirname(__file__), "..", "MANIFEST.json")
with open(out, "w") as f:
    f.write('{"claims": [\n')
    f.write(",\n".join("  " + json.dumps(c) for c in C))
    f.write("\n]}\n")

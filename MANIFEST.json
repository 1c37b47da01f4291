{"claims": [
  {"property": "C01", "status": "partial", "theorems": ["Spade.Match.C01_accepted_exhaustive_partial", "Spade.Match.C01_accepted_loosely_exhaustive_partial", "Spade.Match.C01_counterexample_literal", "Spade.Match.C01_counterexample_literal_pair", "Spade.Match.C01_counterexample_clock"], "note": "Proved for arms without integer literals on types without clock/tri/memory/inout parts; the counterexample theorems show the full claim is false of the code."},
  {"property": "C02", "status": "partial", "theorems": ["Spade.Match.C02_exhaustive_accepted_partial", "Spade.Match.C02_witness_real_partial"], "note": "All types except those containing a copy view of an enum, on which the checker panics."},
  {"property": "C03", "status": "partial", "theorems": ["Spade.Match.C03_checker_total_partial", "Spade.Match.C03_counterexample_copyView", "Spade.Match.C03_counterexample_guard"], "note": "Total for all types without a copy view of an enum; two counterexamples show panics."},
  {"property": "C04", "status": "partial", "theorems": ["Spade.Match.C04_accepted_irrefutable_partial", "Spade.Match.C04_irrefutable_accepted_partial", "Spade.Match.C04_counterexample_variant", "Spade.Match.C04_counterexample_literal"], "note": "The counterexamples show the full claim is false of the code."},
  {"property": "C06", "status": "partial", "theorems": ["Spade.Codegen.C06_variant_recognised", "Spade.Codegen.C06_member_round_trip_partial", "Spade.Codegen.C06_counterexample_single_variant"], "note": "Recognition is proved in full; member access is proved for all enums except those with one variant whose member is one bit wide inside a larger payload, where the counterexample shows illegal code."},
  {"property": "C07", "status": "proved", "theorems": ["Spade.Codegen.C07_tag_just_wide_enough", "Spade.Codegen.C07_constructor_width"], "note": "Tuples, structs, arrays and enums."},
  {"property": "C08", "status": "proved", "theorems": ["Spade.Codegen.C08_forward_round_trip", "Spade.Codegen.C08_backward_round_trip"], "note": "Both directions; members may be zero or one bit wide."},
  {"property": "C09", "status": "partial", "theorems": ["Spade.Codegen.C09_index_round_trip", "Spade.Codegen.C09_range_index", "Spade.Codegen.C09_backward_index", "Spade.Codegen.C09_bit_range_partial", "Spade.Codegen.C09_counterexample_backward_range", "Spade.Codegen.C09_counterexample_bit_range"], "note": "Forward index and range index, and backward index are proved in full; backward range index and bit ranges that reach the top bit are wrong in the code (counterexamples)."},
  {"property": "C10", "status": "partial", "theorems": ["Spade.Codegen.C10_as_string_partial", "Spade.Codegen.C10_as_u64_partial", "Spade.Codegen.C10_as_u32_chunks_partial", "Spade.Codegen.C10_counterexample_zero_width", "Spade.Codegen.C10_counterexample_u64", "Spade.Codegen.C10_counterexample_chunks"], "note": "All values of non-zero width; the numeric conversions need concatenation elements narrower than 64 bits. The counterexamples show the code panics on the rest."},
  {"property": "C11", "status": "partial", "theorems": ["Spade.Codegen.C11_eval_agrees_partial", "Spade.Codegen.C11_counterexample_negation", "Spade.Codegen.C11_counterexample_unsigned"], "note": "All well-typed constant programs of signed arithmetic, tuples, structs, arrays, enums and aliases; the counterexamples show that negating the least number disagrees with the hardware and that unsigned arithmetic always panics."},
  {"property": "C12", "status": "partial", "theorems": ["Spade.Codegen.C12_exact_partial", "Spade.Codegen.C12_counterexample_uint_sub"], "note": "Exact for all operators except subtraction of unsigned numbers with a negative result (counterexample)."},
  {"property": "C38", "status": "partial", "theorems": ["Spade.Types.C38_partition_partial", "Spade.Types.C38_inversion_partial", "Spade.Types.C38_double_inversion", "Spade.Types.C38_counterexample_copy_view"], "note": "All types without a copy view; the counterexample shows the claim fails for those."},
  {"property": "C42", "status": "proved", "theorems": ["Spade.Codegen.C42_comparison", "Spade.Codegen.C42_equality"], "note": "All widths above 0 (zero width operands are rejected by a pass) and all values."},
  {"property": "C43", "status": "partial", "theorems": ["Spade.Codegen.C43_sext_partial", "Spade.Codegen.C43_zext_partial", "Spade.Codegen.C43_trunc_partial", "Spade.Codegen.C43_concat", "Spade.Codegen.C43_counterexample_sext", "Spade.Codegen.C43_counterexample_zext", "Spade.Codegen.C43_counterexample_trunc"], "note": "Zero width operands or results give wrong or illegal code (counterexamples); everything else is proved."},
  {"property": "C44", "status": "partial", "theorems": ["Spade.Codegen.C44_division_partial", "Spade.Codegen.C44_remainder", "Spade.Codegen.C44_counterexample_division", "Spade.Codegen.C44_shifts", "Spade.Codegen.C44_negation_partial", "Spade.Codegen.C44_bitwise", "Spade.Codegen.C44_logical", "Spade.Codegen.C44_counterexample_div_pow2"], "note": "Division of the least number by -1 and negation of the least number overflow; div_pow2 disagrees with its documentation."},
  {"property": "C25", "status": "proved", "theorems": ["Spade.Hir.C25_named", "Spade.Hir.C25_positional", "Spade.Hir.C25_same_bindings", "Spade.Hir.C25_named_errors", "Spade.Hir.C25_positional_errors"], "note": "Parameter names must be distinct, which lowering checks (spade-ast-lowering/src/lib.rs:660)."},
  {"property": "C26", "status": "partial", "theorems": ["Spade.Impl.C26_coherent_partial", "Spade.Impl.C26_rejection_justified", "Spade.Impl.C26_counterexample_bool", "Spade.Impl.C26_counterexample_alias"], "note": "Proved for headers without boolean type level values and without type aliases; the counterexamples show that the code accepts overlapping impls for those. Rejections are justified up to treating generics as independent."},
  {"property": "C13", "status": "proved", "theorems": ["Spade.Mir.C13_flatten", "Spade.Mir.C13_single_definitions", "Spade.Mir.C13_definitions_kept"], "note": "All units whose aliases have an operand, for every meaning of operators, registers and constants and every iteration order of the hash sets."},
  {"property": "C14", "status": "partial", "theorems": ["Spade.Mir.C14_renaming", "Spade.Mir.C14_behaviour", "Spade.Mir.C14_predictable", "Spade.Mir.C14_instances", "Spade.Mir.C14_verilog_partial", "Spade.Mir.C14_counterexample_numbered", "Spade.Mir.C14_counterexample_port", "Spade.Mir.C14_counterexample_instance"], "note": "The renaming of lowered units is proved one to one, meaning preserving and predictable. The Verilog identifiers made from the names are distinct unless the user chose a name the compiler makes up; the counterexamples show three such clashes."},
  {"property": "C37", "status": "partial", "theorems": ["Spade.Mir.C37_equal_partial", "Spade.Mir.C37_behaviour_partial", "Spade.Mir.C37_renumbered", "Spade.Mir.C37_counterexample_inputs", "Spade.Mir.C37_counterexample_ids"], "note": "Proved for units with the same number of inputs in which variables with different texts have different numbers; the counterexamples show that the comparison is wrong otherwise."},
  {"property": "C15", "status": "partial", "theorems": ["Spade.Mir.C15_split_partial", "Spade.Mir.C15_interface", "Spade.Mir.C15_counterexample_reset", "Spade.Mir.C15_counterexample_empty_part"], "note": "Proved, for histories of every length, for compound registers without a reset whose parts are all non-empty; the counterexamples show that a reset makes every part take the whole reset value and that empty parts give illegal code."},
  {"property": "C16", "status": "partial", "theorems": ["Spade.Mir.C16_gating_partial", "Spade.Mir.C16_realisable", "Spade.Mir.C16_pass", "Spade.Mir.C16_counterexample_no_payload"], "note": "Every reader that looks at the variant and its members sees the same as with the original register, at all times. Proved per register, for payloads of at least one bit; the counterexample shows what happens without."},
  {"property": "C39", "status": "partial", "theorems": ["Spade.Mir.C39_one_driver", "Spade.Mir.C39_values_partial", "Spade.Mir.C39_counterexample_set"], "note": "Every wire is made once, and all values are kept if a wire that is set is set under all its names. The counterexample shows that `set` on a wire that was read before is dropped."},
  {"property": "C17", "status": "partial", "theorems": ["Spade.Linear.C17_exactly_once_partial", "Spade.Linear.C17_counterexample_match", "Spade.Linear.C17_counterexample_arm", "Spade.Linear.C17_counterexample_range", "Spade.Linear.C17_counterexample_assert", "Spade.Linear.C17_counterexample_at"], "note": "Proved for units in which nothing with wires is matched on, is the result of match/if, is indexed by a range, is bound with @ or occurs in an assertion. The counterexamples show that the property is false in each of these cases. Registers and pipeline stages are not modelled."},
  {"property": "C18", "status": "partial", "theorems": ["Spade.Infer.C18_kind_accepts", "Spade.Infer.C18_merge_is_intersection_partial", "Spade.Infer.C18_counterexample_int_uint", "Spade.Infer.C18_merge_comm", "Spade.Infer.C18_merge_idem", "Spade.Infer.C18_merge_assoc", "Spade.Infer.C18_counterexample_more_concrete"], "note": "Proved except that merging #int with #uint is rejected although both accept every nonnegative integer (counterexample)."},
  {"property": "C19", "status": "proved", "theorems": ["Spade.Infer.C19_lookups_follow_spec", "Spade.Infer.C19_lookup_is_unobservable", "Spade.Infer.C19_restore_undoes"], "note": "For all histories that bind only unbound variables, never to something standing for them, which is how inference uses the record; termination of every lookup included."},
  {"property": "C20", "status": "partial", "theorems": ["Spade.Infer.C20_value_partial", "Spade.Infer.C20_int_bits_least_partial", "Spade.Infer.C20_uint_bits_least_partial", "Spade.Infer.C20_early_simplification", "Spade.Infer.C20_update_preserves_solutions", "Spade.Infer.C20_counterexample_int_bits_zero", "Spade.Infer.C20_counterexample_uint_bits_negative", "Spade.Infer.C20_counterexample_division_by_zero"], "note": "The value is proved for every expression without int::bits_for(0) and without uint::bits_for of a negative number, for which the counterexamples show wrong widths. Division by zero crashes the compiler (counterexample). Early simplification is proved without restriction."},
  {"property": "C21", "status": "partial", "theorems": ["Spade.Infer.C21_literal_fits_partial", "Spade.Infer.C21_undecided", "Spade.Infer.C21_other_types_rejected", "Spade.Infer.C21_counterexample_int_zero"], "note": "Proved for widths below 2^32, except int<0>, at which -1 is accepted (counterexample)."},
  {"property": "C22", "status": "proved", "theorems": ["Spade.Infer.C22_range_accepted_iff", "Spade.Infer.C22_range_rejected_iff", "Spade.Infer.C22_stage_reference_accepted_iff", "Spade.Infer.C22_stage_label_accepted_iff", "Spade.Infer.C22_index_needs_elements", "Spade.Infer.C22_where_clause_iff"], "note": "Ranges with present or absent bounds, relative and labelled stage references; also dynamic indexing of empty arrays and where clauses."},
  {"property": "C23", "status": "partial", "theorems": ["Spade.Infer.C23_most_general_partial", "Spade.Infer.C23_same_type_partial", "Spade.Infer.C23_equalities_kept_partial", "Spade.Infer.C23_rejection_justified_partial", "Spade.Infer.C23_reachable_states", "Spade.Infer.C23_unify_with_constraints_partial", "Spade.Infer.C23_unify_rejection_partial", "Spade.Infer.C23_counterexample_int_uint", "Spade.Infer.C23_counterexample_result_of_self"], "note": "unify_inner, check_type_for_recursion and the constraint loop of unify are modelled; a successful unification keeps exactly the solutions that make the two variables equal, both resolve to the same finite type, earlier equalities are kept, and rejections are justified. Not modelled: the error type, generic arguments as named types, trait parameters and impl blocks for particular instances of a type; termination is not shown (the theorems are about runs that answer). Two deviations: #int and #uint variables are not unified although they share values, and unifying a variable with itself returns a variable not connected to it."},
  {"property": "C31", "status": "proved", "theorems": ["Spade.Parse.C31_result_respects_precedence", "Spade.Parse.C31_every_expression_is_parsed", "Spade.Parse.C31_tree_is_unique", "Spade.Parse.C31_parser_terminates"], "note": "expr_bp, custom_infix_operator and inline_negative_literal are modelled on token sequences in which an operand with its suffixes (parentheses, calls, indices, fields) is one token."},
  {"property": "C32", "status": "proved", "theorems": ["Spade.Mono.C32_compiled_exactly_once", "Spade.Mono.C32_same_name_iff_same_item", "Spade.Mono.C32_requests_are_served", "Spade.Mono.C32_output_order_independent_of_schedule", "Spade.Mono.C32_every_run_can_finish"], "note": "Transition system with one atomic action per critical section or atomic-counter access; all interleavings of the main thread and any number of jobs. The requests an item makes are an arbitrary function of the item; panics and lambda body replacements are left out."},
  {"property": "C27", "status": "partial", "theorems": ["Spade.Pipe.C27_values_stay_with_their_token_partial", "Spade.Pipe.C27_reference_is_delayed", "Spade.Pipe.C27_counterexample_decl", "Spade.Pipe.C27_counterexample_condition"], "note": "Every reference in stage k to a value bound in stage j reads the value computed k-j cycles earlier for every pipeline body whose lowered equations hold, any depth, with nested pipelines. Missing: pipelines with stall conditions (covered by C28), names declared with decl and used in an earlier stage than their binding, and delayed values under match/if/blocks; the two counterexamples show the code really breaks the full statement for decl and for register conditions."},
  {"property": "C28", "status": "partial", "theorems": ["Spade.Pipe.C28_ready_signal", "Spade.Pipe.C28_condition_signal", "Spade.Pipe.C28_values_advance_with_stage", "Spade.Pipe.C28_values_belong_to_token", "Spade.Pipe.C28_inputs_of_token", "Spade.Pipe.C28_token_in_one_stage", "Spade.Pipe.C28_token_leaves_once", "Spade.Pipe.C28_token_not_lost", "Spade.Pipe.C28_token_moves_when_not_stalled", "Spade.Pipe.C28_counterexample_nested_pipeline"], "note": "Enable signals, register advance and token coherence are proved for every pipeline without nested pipeline instances. The full statement is false of the code with nested pipelines, which do not stall with their parent: counterexample proved."},
  {"property": "C29", "status": "proved", "theorems": ["Spade.Pipe.C29_valid_signal"], "note": "For every pipeline and every history of stall conditions. The valid registers have no initial value, so the initial occupancy is a parameter (stage 0 is always occupied)."},
  {"property": "C30", "status": "partial", "theorems": ["Spade.Pipe.C30_accepted_expressions_are_ready_partial", "Spade.Pipe.C30_use_not_before_ready", "Spade.Pipe.C30_counterexample_delayed_scrutinee", "Spade.Pipe.C30_counterexample_constant_branches", "Spade.Pipe.C30_counterexample_inner_block"], "note": "Proved for expressions built from variables, operators, nested pipelines, stage references and literals. The full statement is false for match scrutinees, constant branches and inner blocks: counterexamples proved."},
  {"property": "C05", "status": "partial", "theorems": ["Spade.Lower.C05_first_arm_partial", "Spade.Lower.C05_variables_partial", "Spade.Lower.C05_let_partial", "Spade.Lower.C05_accepted_match_partial", "Spade.Lower.C05_encoding", "Spade.Lower.C05_construct", "Spade.Lower.C05_counterexample_single_variant", "Spade.Lower.C05_counterexample_empty_array"], "note": "Patterns (lower, condition) and match lowering are modelled down to the emitted Verilog; for every pattern nesting, arm list, guards and scrutinee the match has the value of the first selected arm and pattern variables hold the named parts. Missing: one-bit payloads of a larger enum with a single variant, and patterns on empty arrays, for which the code is wrong or panics (counterexamples); guards and results enter as arbitrary lowered statements."},
  {"property": "C24", "status": "proved", "theorems": ["Spade.Symtab.C24_innermost", "Spade.Symtab.C24_unknown", "Spade.Symtab.C24_scope_restored"], "note": "For every history of table operations: a simple name resolves to the latest declaration in the innermost open scope that declares it, fails if there is none, and every lookup after closing a scope gives what it gave before the scope was opened. Lookup barriers of lambda scopes and deprecation notes are not modelled; C24_innermost is about names that are neither aliases nor restricted in visibility (those are C41)."},
  {"property": "C41", "status": "partial", "theorems": ["Spade.Symtab.C41_lookup_partial", "Spade.Symtab.C41_lookup_unchecked", "Spade.Symtab.C41_unique", "Spade.Symtab.C41_world", "Spade.Symtab.C41_obvious_walk_partial", "Spade.Symtab.C41_terminates", "Spade.Symtab.C41_counterexample_lib_visible", "Spade.Symtab.C41_counterexample_lib_reexport", "Spade.Symtab.C41_counterexample_lib_alias", "Spade.Symtab.C41_counterexample_super_panics"], "note": "Path lookup denotes exactly the item given by an independent relational specification of paths, aliases and visibility, for every table. Four counterexamples show where visibility and lib:: of other libraries depart from the property, and that a visibility of pub(super) at the root makes the lookup panic; termination is shown for tables in which modules are not aliases."},
  {"property": "C40", "status": "proved", "theorems": ["Spade.Loc.C40_merge", "Spade.Loc.C40_between", "Spade.Loc.C40_shrink", "Spade.Loc.C40_before", "Spade.Loc.C40_around", "Spade.Loc.C40_contains", "Spade.Loc.C40_order", "Spade.Loc.C40_innermost_partial", "Spade.Loc.C40_counterexample_innermost"], "note": "Merging gives the least span containing both. After any insertions the lookup around a location reports exactly the inserted things whose span contains it. The first one reported is innermost if no two spans around the location share their start; the counterexample shows that with a shared start the outer one comes first. Span::new and Span::merge are those of an external crate and are part of the trusted model."},
  {"property": "C36", "status": "partial", "theorems": ["Spade.Ids.C36_tracker", "Spade.Ids.C36_tracker_range", "Spade.Ids.C36_tracker_progress", "Spade.Ids.C36_symtab_partial", "Spade.Ids.C36_intern_injective", "Spade.Ids.C36_intern_reads", "Spade.Ids.C36_hash", "Spade.Ids.C36_counterexample_inner_tracker"], "note": "For every interleaving of threads, one atomic action at a time, ids of one tracker are pairwise different up to 2^64 calls, and interned strings are equal as identifiers exactly if they are equal as strings and read back unchanged for ever. Freezing and unfreezing the symbol table never repeats an id as long as the tracker of the table inside is not used; the counterexample shows that code generation does use it (spade-compiler/src/lib.rs:558), so that names made by inlining can get the id of names made for pipelines."},
  {"property": "C33", "status": "partial", "theorems": ["Spade.Inline.C33_inlining_partial", "Spade.Inline.C33_terminates", "Spade.Inline.C33_counterexample_tracker", "Spade.Inline.C33_counterexample_recursion"], "note": "Partial: the theorem needs that the trackers have passed all names of the units that remain, which the compiler does not ensure: it passes the tracker of the table inside the frozen symbol table, and C33_counterexample_tracker shows two signals merged. Recursive inlined units make the compiler loop. The type state is not modelled beyond the names it draws."},
  {"property": "C34", "status": "partial", "theorems": ["Spade.Vcd.C34_translate_partial", "Spade.Vcd.C34_plain", "Spade.Vcd.C34_source_partial", "Spade.Vcd.C34_source_plain", "Spade.Vcd.C34_text_determines", "Spade.Vcd.C34_extension", "Spade.Vcd.C34_counterexample_array", "Spade.Vcd.C34_counterexample_zero_width", "Spade.Vcd.C34_counterexample_too_long"], "note": "For every type and all levels of its width the translator shows the text of the one value that they carry (including undefined and high impedance bits), the bits of a source value show that value, equal texts mean equal values, and short traces are extended as Verilog does. The full statement is false in three ways, each with a counterexample: arrays are listed from the last element, parts without wires are not shown, and too long traces panic in debug builds. For types without such parts (Plain) the full statement is proved (C34_plain, C34_source_plain)."},
  {"property": "C35", "status": "partial", "theorems": ["Spade.Sim.C35_read", "Spade.Sim.C35_readable", "Spade.Sim.C35_write", "Spade.Sim.C35_siblings", "Spade.Sim.C35_access", "Spade.Sim.C35_hardware_read", "Spade.Sim.C35_hardware_write", "Spade.Sim.C35_counterexample_lost_state", "Spade.Sim.C35_counterexample_unwritable"], "note": "In every history of accesses, reads, writes and compilations (with caches), a reference got for a path reads and writes exactly the wires of that field, leaves all fields whose paths part unchanged, and these are the bits that the emitted member accesses take, forward and backward. Fails in two ways, shown by counterexamples: an access to a missing field (or a failing compilation) loses the compiler state so that later accesses to existing fields panic; an output struct whose members are all inv cannot be written as a whole. The compilation of expressions is an oracle whose values have the width of the type; cocotb's signal indexing is trusted."},
  {"property": "C45", "status": "partial", "theorems": ["Spade.Expr.C45_function_value_partial", "Spade.Expr.exact_types", "Spade.Expr.C45_counterexample_padding", "Spade.Expr.example_program"], "note": "For every program that satisfies the typing rules, every function, argument values and evaluation: whatever the generated unit produces for encodings of the arguments encodes the result; calls nest to any depth. Divisions by zero and out of range indices leave their signal arbitrary, so untaken branches may be undefined. Missing: numbers of width 0, sext and trunc of one bit (wrong code, C43), equality of types with padding (counterexample), transmute of types with padding to types whose value depends on the padding, one-bit payloads of single-variant enums (C06), vectors above 2^32 bits, registers, memories, ports, pipelines."},
  {"property": "C46", "status": "proved", "theorems": ["Spade.Expr.C46_driven_once", "Spade.Expr.C46_unit_has_output", "Spade.Expr.C46_function_computes", "Spade.Expr.C46_recursion_has_no_output", "Spade.Expr.example_complete"], "note": "For functions over the expressions, statements, calls and intrinsics of the Expr model, in programs that type check, with names resolved (distinct, in scope), no empty match and no recursion. C46_recursion_has_no_output shows that the last hypothesis is needed: the compiler accepts a function that calls itself and generates a module that instantiates itself."},
  {"property": "C47", "status": "partial", "theorems": ["Spade.Entity.C47_entity_value_partial", "Spade.Entity.C47_initial_value", "Spade.Entity.C47_initial_known", "Spade.Entity.C47_initial_accepted", "Spade.Entity.C47_accepted_supported_partial", "Spade.Entity.C47_counterexample_tuple_index", "Spade.Entity.C47_counterexample_array_index", "Spade.Entity.C47_counterexample_unsigned", "Spade.Entity.example_top", "Spade.Entity.example_runs"], "note": "For every entity with any number of registers (mutually dependent, with reset and initial value) and instances to any depth, in every history of the generated hardware and at every instant at which the source gives a value. Missing: initial values the compiler accepts but crashes on (three counterexamples), negations out of range (C11), and what C45 leaves out; ports, registers in inner blocks."},
  {"property": "C48", "status": "proved", "theorems": ["Spade.Entity.C48_driven_once", "Spade.Entity.C48_no_loops", "Spade.Entity.C48_entity_has_history", "Spade.Entity.C48_entity_runs", "Spade.Entity.C48_counterexample_loop", "Spade.Entity.example_accepted", "Spade.Entity.example_generated"], "note": "For the entities of the Entity model. C48_entity_has_history assumes that there is no combinational loop, which C48_no_loops proves for entities whose clocks are parameters and whose variables are defined before use; C48_counterexample_loop shows that the compiler accepts entities with loops, for which no history exists."},
  {"property": "C49", "status": "partial", "theorems": ["Spade.Method.C49_resolves", "Spade.Method.C49_decides", "Spade.Method.C49_stable", "Spade.Method.C49_counterexample_view", "Spade.Method.C49_counterexample_nonlinear", "Spade.Method.C49_counterexample_bool", "Spade.Method.C49_counterexample_impl_for_view", "Spade.Method.C49_counterexample_default", "Spade.Method.C49_counterexample_error", "Spade.Method.example_accepted", "Spade.Method.example_selects"], "note": "Proved for impl headers without aliases, boolean arguments, omitted default parameters and repeated generics; the counterexamples show that resolution goes wrong for those, for views of types that are not known yet and for impls on views."},
  {"property": "C50", "status": "partial", "theorems": ["Spade.Entity.C50_read_last_write_partial", "Spade.Entity.C50_write_ports", "Spade.Entity.C48_entity_has_history", "Spade.Entity.C50_counterexample_address", "Spade.Entity.C50_counterexample_empty", "Spade.Entity.C50_counterexample_input", "Spade.Entity.example_ram"], "note": "For every entity with memories of any size, element type, number of ports and initial values. Existence of a history is C48_entity_has_history, whose entities include memories. Missing: memories and addresses without bits and memories passed to other units (three counterexamples); initial values the evaluator does not support (C47)."},
  {"property": "C51", "status": "partial", "theorems": ["Spade.Check.C51_well_typed_partial", "Spade.Check.C51_solutions_well_typed_partial", "Spade.Check.C51_example", "Spade.Check.C51_counterexample_turbofish", "Spade.Check.C51_counterexample_shared_size", "Spade.Check.C51_counterexample_at"], "note": "Every state inference accepts without leftovers gives a typing of the unit by ground types. Excluded, because inference is wrong there (three counterexamples): bounds on explicit generic arguments, results of unifying an unknown variable with itself that are used (ghost flag `lost`), `@` on names declared before. Missing: methods, lambdas, pipelines, aliases; only `int` and `uint` implement `Number`."},
  {"property": "C52", "status": "partial", "theorems": ["Spade.Trait.C52_impl_honours_trait_partial", "Spade.Trait.exBlock_accepted", "Spade.Trait.C52_counterexample_kind", "Spade.Trait.C52_counterexample_bound", "Spade.Trait.C52_counterexample_duplicate_method", "Spade.Trait.C52_counterexample_number_argument", "Spade.Trait.C52_counterexample_copy_view"], "note": "For every trait and impl block that passes the checks: one unit per method and no others, the same safety, number of type parameters, argument names, and, for every choice of concrete types, the same argument and result types; associated types are complete with the right number of parameters. Not covered: the kind of the unit and bounds on type parameters, which the checks ignore (counterexamples), and traits which declare a method twice (counterexample). The converse (a correct impl is accepted) fails for number arguments of traits and for copy views of parameters (counterexamples) and is not proved otherwise."},
  {"property": "C53", "status": "proved", "theorems": ["Spade.GenIf.C53_gen_if", "Spade.GenIf.C53_expansion", "Spade.GenIf.C53_lowering", "Spade.GenIf.C53_accepted", "Spade.GenIf.C53_terminates", "Spade.GenIf.C53_rejects", "Spade.GenIf.C53_accepts", "Spade.GenIf.prog_ok", "Spade.GenIf.prog_gives", "Spade.GenIf.C53_counterexample_unselected_branch"], "note": "For every program, unit, generic arguments and arguments: source and hardware give the same results (both directions), including the declared number of pipeline stages. Outside result position: if hardware is generated it has the value of the selected branch; it is not generated when the condition of a gen if nested in the branch that is not selected has no value (counterexample)."},
  {"property": "C54", "status": "partial", "theorems": ["Spade.Lambda.C54_lambdas_are_closures", "Spade.Lambda.C54_accepted_iff_scoped", "Spade.Lambda.C54_captures_mentioned_partial", "Spade.Lambda.C54_counterexample_captures_unused_variable"], "note": "Proved: the compiled program gives exactly what the program with closures gives; accepted exactly if variables and generic parameters are in scope. False: a lambda captures only what it uses (a parameter or local variable with the name of an outer variable captures that one); proved instead that only variables it mentions are captured. Types, stages of pipelines and the names of made up type parameters are not modelled."},
  {"property": "C55", "status": "partial", "theorems": ["Spade.Fifo.C55_fifo_is_a_queue", "Spade.Fifo.C55_fifo_delivers", "Spade.Fifo.C55_fifo_frees", "Spade.Fifo.C55_counterexample_memory_size", "Spade.Fifo.C55_counterexample_one_reset"], "note": "Proved for memories of 2^AddrWidth elements, from any state after a reset of both sides. False for other sizes, which are not checked, and after a reset of one side only."},
  {"property": "C56", "status": "proved", "theorems": ["Spade.Cdc.C56_sync_wide_valid_and_in_order", "Spade.Cdc.C56_sync_wide_delivers"], "note": "From any state after a reset that lasts three edges of each clock; compilation to hardware is not part of the model."},
  {"property": "C57", "status": "proved", "theorems": ["Spade.Cdc.C57_handshake_once_and_in_order", "Spade.Cdc.C57_handshake_delivers", "Spade.Cdc.C57_counterexample_too_frequent"], "note": "For values that are not sent too frequently, from any state after a reset of three edges of each clock; the counterexample shows that the documented limitation is real."},
  {"property": "C58", "status": "partial", "theorems": ["Spade.Std.C58_concat", "Spade.Std.C58_split_at", "Spade.Std.C58_map", "Spade.Std.C58_reversed", "Spade.Std.C58_fold_partial", "Spade.Std.C58_reduce_partial", "Spade.Std.C58_reduce_associative", "Spade.Std.C58_unfold", "Spade.Std.C58_all", "Spade.Std.C58_any", "Spade.Std.C58_chunks", "Spade.Std.C58_sliding_window", "Spade.Std.C58_interleave", "Spade.Std.C58_push_back", "Spade.Std.C58_push_front", "Spade.Std.C58_shift_back", "Spade.Std.C58_shift_front", "Spade.Std.C58_zip", "Spade.Std.C58_unzip", "Spade.Std.C58_flatten", "Spade.Std.C58_len", "Spade.Std.C58_first", "Spade.Std.C58_last", "Spade.Std.C58_reduce_and", "Spade.Std.C58_reduce_or", "Spade.Std.C58_reduce_xor", "Spade.Std.C58_accepted", "Spade.Std.C58_hardware_partial", "Spade.Std.C58_counterexample_fold"], "note": "Proved for all lengths, types, functions and elements as documented, except fold and reduce: the documentation nests the function from the last element on, the code from the first, which is the same only for associative functions (counterexample). Hardware: under the conditions of C45."},
  {"property": "C59", "status": "partial", "theorems": ["Spade.Std.C59_wrapped", "Spade.Std.C59_add", "Spade.Std.C59_sub", "Spade.Std.C59_mul", "Spade.Std.C59_neg", "Spade.Std.C59_shl", "Spade.Std.C59_shr", "Spade.Std.C59_not", "Spade.Std.C59_not_bits", "Spade.Std.C59_bit_not", "Spade.Std.C59_logic", "Spade.Std.C59_logic_bits", "Spade.Std.C59_bit_and", "Spade.Std.C59_bit_or", "Spade.Std.C59_bit_xor", "Spade.Std.C59_order", "Spade.Std.C59_eq_partial", "Spade.Std.C59_ne_partial", "Spade.Std.C59_eq_decides", "Spade.Std.C59_eq_unit", "Spade.Std.C59_eq_tuple", "Spade.Std.C59_ne_tuple", "Spade.Std.C58_accepted", "Spade.Std.C58_hardware_partial", "Spade.Std.C59_counterexample_array_eq"], "note": "Source semantics for all widths and operands; units are accepted by type inference (C58_accepted) and the Verilog computes the same (C58_hardware_partial). Partial: == on arrays compares bits and ignores the == of the elements (C59_counterexample_array_eq); shift amounts that are negative numbers are not covered; widths of zero and types with padding are outside the hardware theorem (C43, C45)."},
  {"property": "C60", "status": "proved", "theorems": ["Spade.Std.C60_as_bits", "Spade.Std.C60_of_bits", "Spade.Std.C60_of_bool", "Spade.Std.C60_recast", "Spade.Std.C60_to_int", "Spade.Std.C60_to_le_bytes", "Spade.Std.C60_to_be_bytes", "Spade.Std.C60_to_german_bytes", "Spade.Std.C60_abs", "Spade.Std.C60_abs_int", "Spade.Std.C60_concat", "Spade.Std.C60_max", "Spade.Std.C60_min", "Spade.Std.C60_order", "Spade.Std.C60_trunc", "Spade.Std.C60_interleave", "Spade.Std.C60_msb", "Spade.Std.C60_sign_bit", "Spade.Std.C60_lsb", "Spade.Std.C58_accepted"], "note": "Source semantics for all widths and values."},
  {"property": "C61", "status": "proved", "theorems": ["Spade.Std.C61_is_some", "Spade.Std.C61_is_none", "Spade.Std.C61_unwrap_or", "Spade.Std.C61_map", "Spade.Std.C61_and_then", "Spade.Std.C61_eq", "Spade.Std.C61_ne", "Spade.Std.C58_accepted"], "note": "Source semantics for all types, values and functions."},
  {"property": "C62", "status": "partial", "theorems": ["Spade.Elab.C62_program_well_typed_partial", "Spade.Elab.C62_inferred_function_computes_partial", "Spade.Elab.C62_source_function_computes_partial", "Spade.Pass.C62_checked_function_computes_partial", "Spade.Pass.C62_hardware_generated_partial", "Spade.Pass.C62_translated_function_computes_partial", "Spade.Elab.C62_resolved", "Spade.Pass.C62_source_computes_partial", "Spade.Elab.C62_types_agree"], "note": "joins C51 to C45 and C46: units accepted by the model of type inference, with the types it reports, are elaborated to the typed programs whose lowering C45 and C46 are about; the values are those of a semantics of the source and its inferred types that does not mention lowering. That operands of operators are not empty follows from the check of C68 (C62_checked_function_computes_partial), and that hardware is generated from a condition on the source (C69, C62_translated_function_computes_partial); that names are resolved is asked of the source (C62_source_computes_partial). Missing: the other conditions on widths in Widths, which are needed (C43, C45 and C68 have the counterexamples) and nothing checks, are hypotheses on the elaborated function; registers, pipelines, methods, lambdas, gen if, aliases and inverted types are left out"},
  {"property": "C63", "status": "proved", "theorems": ["Spade.Decl.C63_accepted_iff_no_circle", "Spade.Decl.C63_error_names_a_circle", "Spade.Decl.C63_check_ends", "Spade.Decl.C63_order_irrelevant", "Spade.Decl.C63_layout_ends", "Spade.Decl.C63_rejected_has_no_layout"], "note": "For all declarations with distinct names on top of built-in types. The choice of the next pending name is open, so the theorems hold for every order of the hash set. Generic arguments count as contained even when they take no space (example); such types have no layout either, because arguments are laid out first."},
  {"property": "C64", "status": "partial", "theorems": ["Spade.Lex.C64_integer_literal_partial", "Spade.Lex.C64_integer_token", "Spade.Lex.C64_integer_never_panics", "Spade.Lex.C64_sign_partial", "Spade.Lex.C64_negative_expression", "Spade.Lex.C64_char_literal_partial", "Spade.Lex.C64_string_literal_partial", "Spade.Lex.C64_counterexample_octal_suffix", "Spade.Lex.C64_counterexample_negative_unsigned_pattern", "Spade.Lex.C64_counterexample_backslash"], "note": "Numbers, characters and strings are tokens with the value that is written, and every number token is written in the file. Violated for widths with the digits 8 and 9 after octal numbers (two tokens), for negative unsigned numbers in patterns (the sign is dropped), and for the backslash (no literal stands for it)."},
  {"property": "C65", "status": "partial", "theorems": ["Spade.Lex.C65_lexing_ends", "Spade.Lex.C65_gap_partial", "Spade.Lex.C65_same_tokens_partial", "Spade.Lex.C65_counterexample_line_comment_inside", "Spade.Lex.C65_counterexample_quotes_inside"], "note": "White space, line comments and nested block comments without quotation marks and // in them are skipped. Violated with // in a block comment (it is not closed) and with quotation marks in two block comments (the code between them disappears)."},
  {"property": "C66", "status": "partial", "theorems": ["Spade.Auto.C66_copy_can_be_read", "Spade.Auto.C66_data_can_be_stored_partial", "Spade.Auto.C66_enum_can_be_stored_partial", "Spade.Auto.C66_implemented_partial", "Spade.Auto.C66_exact_partial", "Spade.Auto.C66_counterexample_view_of_clock", "Spade.Auto.C66_counterexample_nine_members", "Spade.Auto.C66_counterexample_view", "Spade.Auto.C66_counterexample_unused_parameter"], "note": "Copy is sound for all declarations, Data for declarations without views. Violated: a struct with a field of type &clock implements Data; tuples of nine members, views and types with an unused parameter that is not Data do not implement traits that they could."},
  {"property": "C67", "status": "partial", "theorems": ["Spade.Stream.C67_window", "Spade.Stream.C67_window_none", "Spade.Stream.C67_chunks_partial", "Spade.Stream.C67_chunks_once", "Spade.Stream.C67_rising_edge", "Spade.Stream.C67_falling_edge", "Spade.Stream.C67_accepted", "Spade.Stream.C67_window_hardware_partial", "Spade.Stream.C67_chunks_hardware_partial", "Spade.Stream.C67_edge_hardware"], "note": "Windows, chunks and edges are proved for all types, lengths and histories. Partial: the array register of chunks has no initial value, and the model makes the value it happens to start with explicit as any constant. The hardware statements have the restrictions of C47, and N = 0 is left out. The documentation of chunks says that there is one cycle of latency; there is none."},
  {"property": "C68", "status": "partial", "theorems": ["Spade.Pass.C68_checks_reach_everything", "Spade.Pass.C68_zero_size", "Spade.Pass.C68_flatten", "Spade.Pass.C68_same_stages", "Spade.Pass.C68_inout_exact", "Spade.Pass.C68_inout_partial", "Spade.Pass.C68_counterexample_empty_argument", "Spade.Pass.C68_counterexample_inout_in_tuple", "Spade.Pass.C68_counterexample_inout_in_match"], "note": "The traversal, the check of operands and the writing out of repeated registers are proved for all units, and what the inout check accepts is characterised exactly. Violated: inout values inside of tuples and in the arms of match get names, and empty arguments of the functions the compiler generates code for itself are not rejected."},
  {"property": "C69", "status": "partial", "theorems": ["Spade.Expr.C69_lowered_iff", "Spade.Expr.C69_signal_types", "Spade.Expr.C69_types_found", "Spade.Expr.C69_function_computes", "Spade.Expr.C69_counterexample_empty_array"], "note": "For all functions of the model of C45, which has no registers, pipelines and labels. Violated: lowering panics on the pattern [] for arrays of length 0; the exact condition is Compiles. A field that is read has to be one field of the struct and transmute has to keep the bits of inv types, both of which type inference ensures for declared structs and for types without inv (C62_hardware_generated_partial proves the first from the source)."},
  {"property": "C70", "status": "partial", "theorems": ["Spade.Super.C70_accepted_iff_no_circle", "Spade.Super.C70_error_names_a_circle", "Spade.Super.C70_check_ends", "Spade.Super.C70_order_irrelevant", "Spade.Super.C70_bounds_end", "Spade.Super.C70_required_traits", "Spade.Super.C70_required_partial", "Spade.Super.C70_counterexample_parameter_of_trait"], "note": "Violated for traits that pass their own parameters on to a supertrait: the arguments of the trait are not put in place of its parameters, and the compiler panics on every bound with such a trait. The check for circles and the names of the required traits are proved for all traits, the arguments for traits that do not pass parameters on. Simplified: an argument is a generic parameter or a type without parameters."},
  {"property": "C71", "status": "partial", "theorems": ["Spade.Cxx.C71_input_partial", "Spade.Cxx.C71_output", "Spade.Cxx.C71_round_trip_partial", "Spade.Cxx.C71_compiles_partial", "Spade.Cxx.C71_fields_partial", "Spade.Cxx.C71_field_wires_partial", "Spade.Cxx.C71_counterexample_wide_element", "Spade.Cxx.C71_counterexample_undefined", "Spade.Cxx.C71_counterexample_empty_field", "Spade.Cxx.C71_counterexample_underscore", "Spade.Cxx.C71_counterexample_root"], "note": "Proved for every width: an assigned value is on the wires bit by bit, the output string has the wires, and both compose to the identity; the classes are valid C++, select exactly the fields of the output type, and with C35 show the wires of the field. It does not hold for compound values with an element of 64 bits or more (the assignment panics), undefined bits become 0, and the wrapper is not valid C++ when a field has no wires, when underscores make two classes have the same name, or when a field is called root."},
  {"property": "C72", "status": "partial", "theorems": ["Spade.Units.C72_linked_partial", "Spade.Units.C72_counterexample_hidden_parameter", "Spade.Units.C72_counterexample_same_name"], "note": "Proved for every interleaving on top of C32: modules have distinct names and instances name the module made of the unit and parameters they instantiate. It does not hold when a unit with #[no_mangle] has impl Trait in its inputs (accepted; the module is called f, the instance asks for f[7]), and when #[no_mangle] gives two units the same name, which is not checked."},
  {"property": "C73", "status": "partial", "theorems": ["Spade.Editor.C73_to_editor_partial", "Spade.Editor.C73_from_editor_partial", "Spade.Editor.C73_round_trip_partial", "Spade.Editor.C73_order", "Spade.Editor.C73_counterexample_accent", "Spade.Editor.C73_counterexample_wide_character", "Spade.Editor.C73_counterexample_carriage_return", "Spade.Editor.C73_counterexample_behind_line"], "note": "Proved: reported ranges are right for lines of 16-bit characters, places looked at are right for lines that are ASCII up to the cursor, and different places get different positions in order for every text. It does not hold for other characters (the server counts characters when it reports and bytes when it reads positions, while editors count UTF-16 units), for carriage returns alone, and for positions behind the end of a line. The library codespan-reporting is modelled from its published source, which is not in the repository."},
  {"property": "C74", "status": "partial", "theorems": ["Spade.Hier.C74_signal_partial", "Spade.Hier.C74_never_wrong_partial", "Spade.Hier.C74_path", "Spade.Hier.C74_unit", "Spade.Hier.C74_source_partial", "Spade.Hier.C74_type_partial", "Spade.Hier.C74_counterexample_two_ways", "Spade.Hier.C74_counterexample_backward_wire", "Spade.Hier.C74_counterexample_new"], "note": "Proved for units whose identifiers do not clash (C14): ports, wires, results of statements and output__ are found with the value and direction they carry, at any depth of instances, and paths are followed exactly as the generated Verilog has them. The claim fails, with counterexamples, for the wire of an input with parts in both directions (found as the backward part, its type is refused), for the backward wires of inputs and input__ (unknown) and for the wire of an input called new (unknown)."},
  {"property": "C75", "status": "partial", "theorems": ["Spade.Hier.C75_recorded", "Spade.Hier.C75_expression_partial", "Spade.Hier.C75_variables", "Spade.Hier.C75_counterexample_variable"], "note": "Proved: every statement is recorded with what it was made for and nothing else is, and the signals of expressions are described by what was recorded, for any order of the hash map. The claim fails for variables, with a counterexample and a theorem for all identifiers without underscores: the map has the numbers of names from before they are renamed for Verilog, so signals of variables are not found. Not covered: which source lowering passes for each statement, and ports."},
  {"property": "C76", "status": "partial", "theorems": ["Spade.Files.C76_namespaces", "Spade.Files.C76_plain", "Spade.Files.C76_accepted_partial"], "note": "The arguments that are accepted, and what they give, are described exactly. Missing: a path with :: at its end is accepted and read without it (C76_counterexample_separator), and files with commas in their names cannot be given (C76_counterexample_comma)."},
  {"property": "C77", "status": "partial", "theorems": ["Spade.Query.C77_names", "Spade.Query.C77_sound", "Spade.Query.C77_cursor_partial", "Spade.Query.C77_nothing", "Spade.Query.C77_outermost", "Spade.Query.C77_expression", "Spade.Query.C77_signal_partial", "Spade.Query.C77_helper"], "note": "The names found are exactly those mentioned by expressions, patterns and statements of bodies. Missing: the outermost name around the cursor is taken, so in units with gen if every name is taken for a generated one (C77_counterexample_gen_if); arguments of lambdas are not found (C77_counterexample_lambda), nor are names in types, of methods and fields, and parameters of units; signals that C74 misses."},
  {"property": "C78", "status": "partial", "theorems": ["Spade.Query.C78_offered", "Spade.Query.C78_scope_partial", "Spade.Query.C78_only_partial"], "note": "Parameters and variables of statements in scope are offered, and others only in the statement that introduces them. Missing: a variable is offered in its own value (C78_counterexample_own_value), and variables of branches of match (C78_counterexample_match) and arguments of lambdas are not offered. Names are those of the compiler; which of several variables with the same text is meant is not shown."}
]}

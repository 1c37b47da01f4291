# Axioms of the theorems in MANIFEST.json

Written by `tools/gen_reports.py` from `#print axioms`.

| theorem | axioms |
|---|---|
| `Spade.Match.C01_accepted_exhaustive_partial` | propext, Classical.choice, Quot.sound |
| `Spade.Match.C01_accepted_loosely_exhaustive_partial` | propext, Classical.choice, Quot.sound |
| `Spade.Match.C01_counterexample_literal` | propext, Quot.sound |
| `Spade.Match.C01_counterexample_literal_pair` | propext, Quot.sound |
| `Spade.Match.C01_counterexample_clock` | propext, Quot.sound |
| `Spade.Match.C02_exhaustive_accepted_partial` | propext, Classical.choice, Quot.sound |
| `Spade.Match.C02_witness_real_partial` | propext, Classical.choice, Quot.sound |
| `Spade.Match.C03_checker_total_partial` | propext, Classical.choice, Quot.sound |
| `Spade.Match.C03_counterexample_copyView` | propext, Quot.sound |
| `Spade.Match.C03_counterexample_guard` | propext, Quot.sound |
| `Spade.Match.C04_accepted_irrefutable_partial` | propext, Classical.choice, Quot.sound |
| `Spade.Match.C04_irrefutable_accepted_partial` | propext, Classical.choice, Quot.sound |
| `Spade.Match.C04_counterexample_variant` | propext, Quot.sound |
| `Spade.Match.C04_counterexample_literal` | propext, Quot.sound |
| `Spade.Lower.C05_first_arm_partial` | propext, Classical.choice, Quot.sound |
| `Spade.Lower.C05_variables_partial` | propext, Classical.choice, Quot.sound |
| `Spade.Lower.C05_let_partial` | propext, Classical.choice, Quot.sound |
| `Spade.Lower.C05_accepted_match_partial` | propext, Classical.choice, Quot.sound |
| `Spade.Lower.C05_encoding` | propext, Classical.choice, Quot.sound |
| `Spade.Lower.C05_construct` | propext, Quot.sound |
| `Spade.Lower.C05_counterexample_single_variant` | propext, Quot.sound |
| `Spade.Lower.C05_counterexample_empty_array` | propext |
| `Spade.Codegen.C06_variant_recognised` | propext, Classical.choice, Quot.sound |
| `Spade.Codegen.C06_member_round_trip_partial` | propext, Classical.choice, Quot.sound |
| `Spade.Codegen.C06_counterexample_single_variant` | propext, Classical.choice, Quot.sound |
| `Spade.Codegen.C07_tag_just_wide_enough` | propext, Classical.choice, Quot.sound |
| `Spade.Codegen.C07_constructor_width` | propext, Classical.choice, Quot.sound |
| `Spade.Codegen.C08_forward_round_trip` | propext, Classical.choice, Quot.sound |
| `Spade.Codegen.C08_backward_round_trip` | propext, Classical.choice, Quot.sound |
| `Spade.Codegen.C09_index_round_trip` | propext, Classical.choice, Quot.sound |
| `Spade.Codegen.C09_range_index` | propext, Classical.choice, Quot.sound |
| `Spade.Codegen.C09_backward_index` | propext, Classical.choice, Quot.sound |
| `Spade.Codegen.C09_bit_range_partial` | propext, Classical.choice, Quot.sound |
| `Spade.Codegen.C09_counterexample_backward_range` | propext, Quot.sound |
| `Spade.Codegen.C09_counterexample_bit_range` | propext, Quot.sound |
| `Spade.Codegen.C10_as_string_partial` | propext, Classical.choice, Quot.sound |
| `Spade.Codegen.C10_as_u64_partial` | propext, Classical.choice, Quot.sound |
| `Spade.Codegen.C10_as_u32_chunks_partial` | propext, Classical.choice, Quot.sound |
| `Spade.Codegen.C10_counterexample_zero_width` | propext, Quot.sound |
| `Spade.Codegen.C10_counterexample_u64` | propext, Quot.sound |
| `Spade.Codegen.C10_counterexample_chunks` | propext, Quot.sound |
| `Spade.Codegen.C11_eval_agrees_partial` | propext, Classical.choice, Quot.sound |
| `Spade.Codegen.C11_counterexample_negation` | propext, Classical.choice, Quot.sound |
| `Spade.Codegen.C11_counterexample_unsigned` | propext, Classical.choice, Quot.sound |
| `Spade.Codegen.C12_exact_partial` | propext, Classical.choice, Quot.sound |
| `Spade.Codegen.C12_counterexample_uint_sub` | propext, Classical.choice, Quot.sound |
| `Spade.Mir.C13_flatten` | propext, Classical.choice, Quot.sound |
| `Spade.Mir.C13_single_definitions` | propext, Classical.choice, Quot.sound |
| `Spade.Mir.C13_definitions_kept` | propext, Classical.choice, Quot.sound |
| `Spade.Mir.C14_renaming` | propext, Classical.choice, Quot.sound |
| `Spade.Mir.C14_behaviour` | propext, Classical.choice, Quot.sound |
| `Spade.Mir.C14_predictable` | propext, Classical.choice, Quot.sound |
| `Spade.Mir.C14_instances` | propext, Classical.choice, Quot.sound |
| `Spade.Mir.C14_verilog_partial` | propext, Classical.choice, Quot.sound |
| `Spade.Mir.C14_counterexample_numbered` | propext, Classical.choice, Quot.sound |
| `Spade.Mir.C14_counterexample_port` | propext, Classical.choice, Quot.sound |
| `Spade.Mir.C14_counterexample_instance` | propext, Classical.choice, Quot.sound |
| `Spade.Mir.C15_split_partial` | propext, Classical.choice, Quot.sound |
| `Spade.Mir.C15_interface` | propext |
| `Spade.Mir.C15_counterexample_reset` | propext, Classical.choice, Quot.sound |
| `Spade.Mir.C15_counterexample_empty_part` | propext, Quot.sound |
| `Spade.Mir.C16_gating_partial` | propext, Classical.choice, Quot.sound |
| `Spade.Mir.C16_realisable` | propext, Classical.choice, Quot.sound |
| `Spade.Mir.C16_pass` | propext, Quot.sound |
| `Spade.Mir.C16_counterexample_no_payload` | propext, Classical.choice, Quot.sound |
| `Spade.Linear.C17_exactly_once_partial` | propext, Classical.choice, Quot.sound |
| `Spade.Linear.C17_counterexample_match` | propext, Quot.sound |
| `Spade.Linear.C17_counterexample_arm` | propext, Quot.sound |
| `Spade.Linear.C17_counterexample_range` | propext, Quot.sound |
| `Spade.Linear.C17_counterexample_assert` | propext, Quot.sound |
| `Spade.Linear.C17_counterexample_at` | propext, Quot.sound |
| `Spade.Infer.C18_kind_accepts` | propext, Quot.sound |
| `Spade.Infer.C18_merge_is_intersection_partial` | propext, Quot.sound |
| `Spade.Infer.C18_counterexample_int_uint` | propext |
| `Spade.Infer.C18_merge_comm` | propext |
| `Spade.Infer.C18_merge_idem` | propext |
| `Spade.Infer.C18_merge_assoc` | propext |
| `Spade.Infer.C18_counterexample_more_concrete` | propext, Quot.sound |
| `Spade.Infer.C19_lookups_follow_spec` | propext, Classical.choice, Quot.sound |
| `Spade.Infer.C19_lookup_is_unobservable` | propext, Classical.choice, Quot.sound |
| `Spade.Infer.C19_restore_undoes` | propext, Classical.choice, Quot.sound |
| `Spade.Infer.C20_value_partial` | propext, Classical.choice, Quot.sound |
| `Spade.Infer.C20_int_bits_least_partial` | propext, Classical.choice, Quot.sound |
| `Spade.Infer.C20_uint_bits_least_partial` | propext |
| `Spade.Infer.C20_early_simplification` | propext, Quot.sound |
| `Spade.Infer.C20_update_preserves_solutions` | propext, Quot.sound |
| `Spade.Infer.C20_counterexample_int_bits_zero` | propext |
| `Spade.Infer.C20_counterexample_uint_bits_negative` | propext, Quot.sound |
| `Spade.Infer.C20_counterexample_division_by_zero` | propext |
| `Spade.Infer.C21_literal_fits_partial` | propext, Classical.choice, Quot.sound |
| `Spade.Infer.C21_undecided` | propext |
| `Spade.Infer.C21_other_types_rejected` | propext |
| `Spade.Infer.C21_counterexample_int_zero` | propext, Quot.sound |
| `Spade.Infer.C22_range_accepted_iff` | propext, Classical.choice, Quot.sound |
| `Spade.Infer.C22_range_rejected_iff` | propext, Classical.choice, Quot.sound |
| `Spade.Infer.C22_stage_reference_accepted_iff` | propext, Classical.choice, Quot.sound |
| `Spade.Infer.C22_stage_label_accepted_iff` | propext, Classical.choice, Quot.sound |
| `Spade.Infer.C22_index_needs_elements` | propext, Quot.sound |
| `Spade.Infer.C22_where_clause_iff` | propext |
| `Spade.Infer.C23_most_general_partial` | propext, Classical.choice, Quot.sound |
| `Spade.Infer.C23_same_type_partial` | propext, Classical.choice, Quot.sound |
| `Spade.Infer.C23_equalities_kept_partial` | propext, Classical.choice, Quot.sound |
| `Spade.Infer.C23_rejection_justified_partial` | propext, Classical.choice, Quot.sound |
| `Spade.Infer.C23_reachable_states` | propext, Classical.choice, Quot.sound |
| `Spade.Infer.C23_unify_with_constraints_partial` | propext, Classical.choice, Quot.sound |
| `Spade.Infer.C23_unify_rejection_partial` | propext, Classical.choice, Quot.sound |
| `Spade.Infer.C23_counterexample_int_uint` | propext, Quot.sound |
| `Spade.Infer.C23_counterexample_result_of_self` | propext, Quot.sound |
| `Spade.Symtab.C24_innermost` | propext, Classical.choice, Quot.sound |
| `Spade.Symtab.C24_unknown` | propext, Classical.choice, Quot.sound |
| `Spade.Symtab.C24_scope_restored` | propext, Classical.choice, Quot.sound |
| `Spade.Hir.C25_named` | propext, Classical.choice, Quot.sound |
| `Spade.Hir.C25_positional` | propext, Classical.choice, Quot.sound |
| `Spade.Hir.C25_same_bindings` | propext, Classical.choice, Quot.sound |
| `Spade.Hir.C25_named_errors` | propext, Classical.choice, Quot.sound |
| `Spade.Hir.C25_positional_errors` | propext, Quot.sound |
| `Spade.Impl.C26_coherent_partial` | propext, Quot.sound |
| `Spade.Impl.C26_rejection_justified` | propext, Classical.choice, Quot.sound |
| `Spade.Impl.C26_counterexample_bool` | propext, Quot.sound |
| `Spade.Impl.C26_counterexample_alias` | propext, Quot.sound |
| `Spade.Pipe.C27_values_stay_with_their_token_partial` | propext, Classical.choice, Quot.sound |
| `Spade.Pipe.C27_reference_is_delayed` | propext, Classical.choice, Quot.sound |
| `Spade.Pipe.C27_counterexample_decl` | propext, Quot.sound |
| `Spade.Pipe.C27_counterexample_condition` | propext |
| `Spade.Pipe.C28_ready_signal` | propext, Classical.choice, Quot.sound |
| `Spade.Pipe.C28_condition_signal` | propext, Quot.sound |
| `Spade.Pipe.C28_values_advance_with_stage` | propext, Classical.choice, Quot.sound |
| `Spade.Pipe.C28_values_belong_to_token` | propext, Classical.choice, Quot.sound |
| `Spade.Pipe.C28_inputs_of_token` | propext, Classical.choice, Quot.sound |
| `Spade.Pipe.C28_token_in_one_stage` | propext, Quot.sound |
| `Spade.Pipe.C28_token_leaves_once` | propext, Quot.sound |
| `Spade.Pipe.C28_token_not_lost` | propext, Quot.sound |
| `Spade.Pipe.C28_token_moves_when_not_stalled` | propext, Quot.sound |
| `Spade.Pipe.C28_counterexample_nested_pipeline` | propext, Quot.sound |
| `Spade.Pipe.C29_valid_signal` | propext, Classical.choice, Quot.sound |
| `Spade.Pipe.C30_accepted_expressions_are_ready_partial` | propext |
| `Spade.Pipe.C30_use_not_before_ready` | propext, Quot.sound |
| `Spade.Pipe.C30_counterexample_delayed_scrutinee` | propext, Quot.sound |
| `Spade.Pipe.C30_counterexample_constant_branches` | propext, Quot.sound |
| `Spade.Pipe.C30_counterexample_inner_block` | propext, Quot.sound |
| `Spade.Parse.C31_result_respects_precedence` | propext, Quot.sound |
| `Spade.Parse.C31_every_expression_is_parsed` | propext, Quot.sound |
| `Spade.Parse.C31_tree_is_unique` | propext, Quot.sound |
| `Spade.Parse.C31_parser_terminates` | propext, Quot.sound |
| `Spade.Mono.C32_compiled_exactly_once` | propext, Quot.sound |
| `Spade.Mono.C32_same_name_iff_same_item` | propext, Quot.sound |
| `Spade.Mono.C32_requests_are_served` | propext, Quot.sound |
| `Spade.Mono.C32_output_order_independent_of_schedule` | propext, Classical.choice, Quot.sound |
| `Spade.Mono.C32_every_run_can_finish` | propext, Classical.choice, Quot.sound |
| `Spade.Inline.C33_inlining_partial` | propext, Quot.sound |
| `Spade.Inline.C33_terminates` | propext, Classical.choice, Quot.sound |
| `Spade.Inline.C33_counterexample_tracker` | propext, Classical.choice, Quot.sound |
| `Spade.Inline.C33_counterexample_recursion` | propext, Quot.sound |
| `Spade.Vcd.C34_translate_partial` | propext, Classical.choice, Quot.sound |
| `Spade.Vcd.C34_plain` | propext, Classical.choice, Quot.sound |
| `Spade.Vcd.C34_source_partial` | propext, Classical.choice, Quot.sound |
| `Spade.Vcd.C34_source_plain` | propext, Classical.choice, Quot.sound |
| `Spade.Vcd.C34_text_determines` | propext, Classical.choice, Quot.sound |
| `Spade.Vcd.C34_extension` | propext, Quot.sound |
| `Spade.Vcd.C34_counterexample_array` | propext, Classical.choice, Quot.sound |
| `Spade.Vcd.C34_counterexample_zero_width` | propext, Classical.choice, Quot.sound |
| `Spade.Vcd.C34_counterexample_too_long` | propext, Quot.sound |
| `Spade.Sim.C35_read` | propext, Classical.choice, Quot.sound |
| `Spade.Sim.C35_readable` | propext, Classical.choice, Quot.sound |
| `Spade.Sim.C35_write` | propext, Classical.choice, Quot.sound |
| `Spade.Sim.C35_siblings` | propext, Classical.choice, Quot.sound |
| `Spade.Sim.C35_access` | propext, Classical.choice, Quot.sound |
| `Spade.Sim.C35_hardware_read` | propext, Classical.choice, Quot.sound |
| `Spade.Sim.C35_hardware_write` | propext, Classical.choice, Quot.sound |
| `Spade.Sim.C35_counterexample_lost_state` | propext, Classical.choice, Quot.sound |
| `Spade.Sim.C35_counterexample_unwritable` | propext, Classical.choice, Quot.sound |
| `Spade.Ids.C36_tracker` | propext, Classical.choice, Quot.sound |
| `Spade.Ids.C36_tracker_range` | propext, Classical.choice, Quot.sound |
| `Spade.Ids.C36_tracker_progress` | propext, Quot.sound |
| `Spade.Ids.C36_symtab_partial` | propext, Classical.choice, Quot.sound |
| `Spade.Ids.C36_intern_injective` | propext, Quot.sound |
| `Spade.Ids.C36_intern_reads` | propext, Quot.sound |
| `Spade.Ids.C36_hash` | propext |
| `Spade.Ids.C36_counterexample_inner_tracker` | propext |
| `Spade.Mir.C37_equal_partial` | propext, Classical.choice, Quot.sound |
| `Spade.Mir.C37_behaviour_partial` | propext, Classical.choice, Quot.sound |
| `Spade.Mir.C37_renumbered` | propext, Classical.choice, Quot.sound |
| `Spade.Mir.C37_counterexample_inputs` | propext, Classical.choice, Quot.sound |
| `Spade.Mir.C37_counterexample_ids` | propext, Classical.choice, Quot.sound |
| `Spade.Types.C38_partition_partial` | propext, Quot.sound |
| `Spade.Types.C38_inversion_partial` | propext, Quot.sound |
| `Spade.Types.C38_double_inversion` | propext |
| `Spade.Types.C38_counterexample_copy_view` | propext, Quot.sound |
| `Spade.Mir.C39_one_driver` | propext, Quot.sound |
| `Spade.Mir.C39_values_partial` | propext, Quot.sound |
| `Spade.Mir.C39_counterexample_set` | propext, Classical.choice, Quot.sound |
| `Spade.Loc.C40_merge` | propext, Classical.choice, Quot.sound |
| `Spade.Loc.C40_between` | propext, Classical.choice, Quot.sound |
| `Spade.Loc.C40_shrink` | propext, Quot.sound |
| `Spade.Loc.C40_before` | propext, Quot.sound |
| `Spade.Loc.C40_around` | propext, Quot.sound |
| `Spade.Loc.C40_contains` | propext, Quot.sound |
| `Spade.Loc.C40_order` | propext, Quot.sound |
| `Spade.Loc.C40_innermost_partial` | propext, Classical.choice, Quot.sound |
| `Spade.Loc.C40_counterexample_innermost` | none |
| `Spade.Symtab.C41_lookup_partial` | propext, Classical.choice, Quot.sound |
| `Spade.Symtab.C41_lookup_unchecked` | propext, Classical.choice, Quot.sound |
| `Spade.Symtab.C41_unique` | propext, Classical.choice, Quot.sound |
| `Spade.Symtab.C41_world` | propext, Classical.choice, Quot.sound |
| `Spade.Symtab.C41_obvious_walk_partial` | propext, Classical.choice, Quot.sound |
| `Spade.Symtab.C41_terminates` | propext, Classical.choice, Quot.sound |
| `Spade.Symtab.C41_counterexample_lib_visible` | propext, Classical.choice, Quot.sound |
| `Spade.Symtab.C41_counterexample_lib_reexport` | propext, Quot.sound |
| `Spade.Symtab.C41_counterexample_lib_alias` | propext, Quot.sound |
| `Spade.Symtab.C41_counterexample_super_panics` | propext, Quot.sound |
| `Spade.Codegen.C42_comparison` | propext, Classical.choice, Quot.sound |
| `Spade.Codegen.C42_equality` | propext, Quot.sound |
| `Spade.Codegen.C43_sext_partial` | propext, Classical.choice, Quot.sound |
| `Spade.Codegen.C43_zext_partial` | propext, Quot.sound |
| `Spade.Codegen.C43_trunc_partial` | propext, Classical.choice, Quot.sound |
| `Spade.Codegen.C43_concat` | propext, Quot.sound |
| `Spade.Codegen.C43_counterexample_sext` | propext, Quot.sound |
| `Spade.Codegen.C43_counterexample_zext` | propext, Quot.sound |
| `Spade.Codegen.C43_counterexample_trunc` | propext, Quot.sound |
| `Spade.Codegen.C44_division_partial` | propext, Classical.choice, Quot.sound |
| `Spade.Codegen.C44_remainder` | propext, Classical.choice, Quot.sound |
| `Spade.Codegen.C44_counterexample_division` | propext, Quot.sound |
| `Spade.Codegen.C44_shifts` | propext, Classical.choice, Quot.sound |
| `Spade.Codegen.C44_negation_partial` | propext, Classical.choice, Quot.sound |
| `Spade.Codegen.C44_bitwise` | propext, Quot.sound |
| `Spade.Codegen.C44_logical` | propext, Quot.sound |
| `Spade.Codegen.C44_counterexample_div_pow2` | propext, Quot.sound |
| `Spade.Expr.C45_function_value_partial` | propext, Classical.choice, Quot.sound |
| `Spade.Expr.exact_types` | propext, Quot.sound |
| `Spade.Expr.C45_counterexample_padding` | propext, Quot.sound |
| `Spade.Expr.example_program` | propext, Classical.choice, Quot.sound |
| `Spade.Expr.C46_driven_once` | propext, Classical.choice, Quot.sound |
| `Spade.Expr.C46_unit_has_output` | propext, Classical.choice, Quot.sound |
| `Spade.Expr.C46_function_computes` | propext, Classical.choice, Quot.sound |
| `Spade.Expr.C46_recursion_has_no_output` | propext, Quot.sound |
| `Spade.Expr.example_complete` | propext, Classical.choice, Quot.sound |
| `Spade.Entity.C47_entity_value_partial` | propext, Classical.choice, Quot.sound |
| `Spade.Entity.C47_initial_value` | propext, Classical.choice, Quot.sound |
| `Spade.Entity.C47_initial_known` | propext, Quot.sound |
| `Spade.Entity.C47_initial_accepted` | propext, Quot.sound |
| `Spade.Entity.C47_accepted_supported_partial` | propext, Quot.sound |
| `Spade.Entity.C47_counterexample_tuple_index` | propext, Quot.sound |
| `Spade.Entity.C47_counterexample_array_index` | propext, Quot.sound |
| `Spade.Entity.C47_counterexample_unsigned` | propext, Quot.sound |
| `Spade.Entity.example_top` | propext, Classical.choice, Quot.sound |
| `Spade.Entity.example_runs` | propext, Classical.choice, Quot.sound |
| `Spade.Entity.C48_driven_once` | propext, Classical.choice, Quot.sound |
| `Spade.Entity.C48_no_loops` | propext, Classical.choice, Quot.sound |
| `Spade.Entity.C48_entity_has_history` | propext, Classical.choice, Quot.sound |
| `Spade.Entity.C48_entity_runs` | propext, Classical.choice, Quot.sound |
| `Spade.Entity.C48_counterexample_loop` | propext, Quot.sound |
| `Spade.Entity.example_accepted` | propext, Classical.choice, Quot.sound |
| `Spade.Entity.example_generated` | propext, Classical.choice, Quot.sound |
| `Spade.Method.C49_resolves` | propext, Classical.choice, Quot.sound |
| `Spade.Method.C49_decides` | propext, Classical.choice, Quot.sound |
| `Spade.Method.C49_stable` | propext, Quot.sound |
| `Spade.Method.C49_counterexample_view` | propext |
| `Spade.Method.C49_counterexample_nonlinear` | propext |
| `Spade.Method.C49_counterexample_bool` | propext, Quot.sound |
| `Spade.Method.C49_counterexample_impl_for_view` | propext |
| `Spade.Method.C49_counterexample_default` | propext |
| `Spade.Method.C49_counterexample_error` | propext |
| `Spade.Method.example_accepted` | propext, Quot.sound |
| `Spade.Method.example_selects` | propext |
| `Spade.Entity.C50_read_last_write_partial` | propext, Classical.choice, Quot.sound |
| `Spade.Entity.C50_write_ports` | propext, Classical.choice, Quot.sound |
| `Spade.Entity.C50_counterexample_address` | propext, Quot.sound |
| `Spade.Entity.C50_counterexample_empty` | propext, Quot.sound |
| `Spade.Entity.C50_counterexample_input` | propext, Quot.sound |
| `Spade.Entity.example_ram` | propext, Classical.choice, Quot.sound |
| `Spade.Check.C51_well_typed_partial` | propext, Classical.choice, Quot.sound |
| `Spade.Check.C51_solutions_well_typed_partial` | propext, Classical.choice, Quot.sound |
| `Spade.Check.C51_example` | propext, Classical.choice, Quot.sound |
| `Spade.Check.C51_counterexample_turbofish` | propext, Quot.sound |
| `Spade.Check.C51_counterexample_shared_size` | propext, Classical.choice, Quot.sound |
| `Spade.Check.C51_counterexample_at` | propext, Quot.sound |
| `Spade.Trait.C52_impl_honours_trait_partial` | propext, Classical.choice, Quot.sound |
| `Spade.Trait.exBlock_accepted` | propext |
| `Spade.Trait.C52_counterexample_kind` | propext, Quot.sound |
| `Spade.Trait.C52_counterexample_bound` | propext, Quot.sound |
| `Spade.Trait.C52_counterexample_duplicate_method` | propext, Quot.sound |
| `Spade.Trait.C52_counterexample_number_argument` | propext |
| `Spade.Trait.C52_counterexample_copy_view` | propext |
| `Spade.GenIf.C53_gen_if` | propext, Classical.choice, Quot.sound |
| `Spade.GenIf.C53_expansion` | propext, Classical.choice, Quot.sound |
| `Spade.GenIf.C53_lowering` | propext, Classical.choice, Quot.sound |
| `Spade.GenIf.C53_accepted` | propext, Classical.choice, Quot.sound |
| `Spade.GenIf.C53_terminates` | propext, Classical.choice, Quot.sound |
| `Spade.GenIf.C53_rejects` | propext, Quot.sound |
| `Spade.GenIf.C53_accepts` | propext, Classical.choice, Quot.sound |
| `Spade.GenIf.prog_ok` | propext, Quot.sound |
| `Spade.GenIf.prog_gives` | propext, Classical.choice, Quot.sound |
| `Spade.GenIf.C53_counterexample_unselected_branch` | propext, Classical.choice, Quot.sound |
| `Spade.Lambda.C54_lambdas_are_closures` | propext, Classical.choice, Quot.sound |
| `Spade.Lambda.C54_accepted_iff_scoped` | propext, Classical.choice, Quot.sound |
| `Spade.Lambda.C54_captures_mentioned_partial` | propext, Quot.sound |
| `Spade.Lambda.C54_counterexample_captures_unused_variable` | propext, Quot.sound |
| `Spade.Fifo.C55_fifo_is_a_queue` | propext, Classical.choice, Quot.sound |
| `Spade.Fifo.C55_fifo_delivers` | propext, Classical.choice, Quot.sound |
| `Spade.Fifo.C55_fifo_frees` | propext, Classical.choice, Quot.sound |
| `Spade.Fifo.C55_counterexample_memory_size` | propext, Quot.sound |
| `Spade.Fifo.C55_counterexample_one_reset` | propext, Quot.sound |
| `Spade.Cdc.C56_sync_wide_valid_and_in_order` | propext, Quot.sound |
| `Spade.Cdc.C56_sync_wide_delivers` | propext, Quot.sound |
| `Spade.Cdc.C57_handshake_once_and_in_order` | propext, Classical.choice, Quot.sound |
| `Spade.Cdc.C57_handshake_delivers` | propext, Classical.choice, Quot.sound |
| `Spade.Cdc.C57_counterexample_too_frequent` | propext |
| `Spade.Std.C58_concat` | propext, Classical.choice, Quot.sound |
| `Spade.Std.C58_split_at` | propext, Classical.choice, Quot.sound |
| `Spade.Std.C58_map` | propext, Classical.choice, Quot.sound |
| `Spade.Std.C58_reversed` | propext, Classical.choice, Quot.sound |
| `Spade.Std.C58_fold_partial` | propext, Classical.choice, Quot.sound |
| `Spade.Std.C58_reduce_partial` | propext, Classical.choice, Quot.sound |
| `Spade.Std.C58_reduce_associative` | propext, Classical.choice, Quot.sound |
| `Spade.Std.C58_unfold` | propext, Classical.choice, Quot.sound |
| `Spade.Std.C58_all` | propext, Classical.choice, Quot.sound |
| `Spade.Std.C58_any` | propext, Classical.choice, Quot.sound |
| `Spade.Std.C58_chunks` | propext, Classical.choice, Quot.sound |
| `Spade.Std.C58_sliding_window` | propext, Classical.choice, Quot.sound |
| `Spade.Std.C58_interleave` | propext, Classical.choice, Quot.sound |
| `Spade.Std.C58_push_back` | propext, Classical.choice, Quot.sound |
| `Spade.Std.C58_push_front` | propext, Classical.choice, Quot.sound |
| `Spade.Std.C58_shift_back` | propext, Classical.choice, Quot.sound |
| `Spade.Std.C58_shift_front` | propext, Classical.choice, Quot.sound |
| `Spade.Std.C58_zip` | propext, Classical.choice, Quot.sound |
| `Spade.Std.C58_unzip` | propext, Classical.choice, Quot.sound |
| `Spade.Std.C58_flatten` | propext, Classical.choice, Quot.sound |
| `Spade.Std.C58_len` | propext, Classical.choice, Quot.sound |
| `Spade.Std.C58_first` | propext, Classical.choice, Quot.sound |
| `Spade.Std.C58_last` | propext, Classical.choice, Quot.sound |
| `Spade.Std.C58_reduce_and` | propext, Classical.choice, Quot.sound |
| `Spade.Std.C58_reduce_or` | propext, Classical.choice, Quot.sound |
| `Spade.Std.C58_reduce_xor` | propext, Classical.choice, Quot.sound |
| `Spade.Std.C58_accepted` | propext, Classical.choice, Quot.sound |
| `Spade.Std.C58_hardware_partial` | propext, Classical.choice, Quot.sound |
| `Spade.Std.C58_counterexample_fold` | propext, Classical.choice, Quot.sound |
| `Spade.Std.C59_wrapped` | propext, Classical.choice, Quot.sound |
| `Spade.Std.C59_add` | propext, Classical.choice, Quot.sound |
| `Spade.Std.C59_sub` | propext, Classical.choice, Quot.sound |
| `Spade.Std.C59_mul` | propext, Classical.choice, Quot.sound |
| `Spade.Std.C59_neg` | propext, Classical.choice, Quot.sound |
| `Spade.Std.C59_shl` | propext, Classical.choice, Quot.sound |
| `Spade.Std.C59_shr` | propext, Classical.choice, Quot.sound |
| `Spade.Std.C59_not` | propext, Classical.choice, Quot.sound |
| `Spade.Std.C59_not_bits` | propext, Classical.choice, Quot.sound |
| `Spade.Std.C59_bit_not` | propext, Classical.choice, Quot.sound |
| `Spade.Std.C59_logic` | propext, Classical.choice, Quot.sound |
| `Spade.Std.C59_logic_bits` | propext, Classical.choice, Quot.sound |
| `Spade.Std.C59_bit_and` | propext, Classical.choice, Quot.sound |
| `Spade.Std.C59_bit_or` | propext, Classical.choice, Quot.sound |
| `Spade.Std.C59_bit_xor` | propext, Classical.choice, Quot.sound |
| `Spade.Std.C59_order` | propext, Classical.choice, Quot.sound |
| `Spade.Std.C59_eq_partial` | propext, Classical.choice, Quot.sound |
| `Spade.Std.C59_ne_partial` | propext, Classical.choice, Quot.sound |
| `Spade.Std.C59_eq_decides` | propext, Classical.choice, Quot.sound |
| `Spade.Std.C59_eq_unit` | propext, Classical.choice, Quot.sound |
| `Spade.Std.C59_eq_tuple` | propext, Classical.choice, Quot.sound |
| `Spade.Std.C59_ne_tuple` | propext, Classical.choice, Quot.sound |
| `Spade.Std.C59_counterexample_array_eq` | propext, Classical.choice, Quot.sound |
| `Spade.Std.C60_as_bits` | propext, Classical.choice, Quot.sound |
| `Spade.Std.C60_of_bits` | propext, Classical.choice, Quot.sound |
| `Spade.Std.C60_of_bool` | propext, Classical.choice, Quot.sound |
| `Spade.Std.C60_recast` | propext, Classical.choice, Quot.sound |
| `Spade.Std.C60_to_int` | propext, Classical.choice, Quot.sound |
| `Spade.Std.C60_to_le_bytes` | propext, Classical.choice, Quot.sound |
| `Spade.Std.C60_to_be_bytes` | propext, Classical.choice, Quot.sound |
| `Spade.Std.C60_to_german_bytes` | propext, Classical.choice, Quot.sound |
| `Spade.Std.C60_abs` | propext, Classical.choice, Quot.sound |
| `Spade.Std.C60_abs_int` | propext, Classical.choice, Quot.sound |
| `Spade.Std.C60_concat` | propext, Classical.choice, Quot.sound |
| `Spade.Std.C60_max` | propext, Classical.choice, Quot.sound |
| `Spade.Std.C60_min` | propext, Classical.choice, Quot.sound |
| `Spade.Std.C60_order` | propext, Classical.choice, Quot.sound |
| `Spade.Std.C60_trunc` | propext, Classical.choice, Quot.sound |
| `Spade.Std.C60_interleave` | propext, Classical.choice, Quot.sound |
| `Spade.Std.C60_msb` | propext, Classical.choice, Quot.sound |
| `Spade.Std.C60_sign_bit` | propext, Classical.choice, Quot.sound |
| `Spade.Std.C60_lsb` | propext, Classical.choice, Quot.sound |
| `Spade.Std.C61_is_some` | propext, Classical.choice, Quot.sound |
| `Spade.Std.C61_is_none` | propext, Classical.choice, Quot.sound |
| `Spade.Std.C61_unwrap_or` | propext, Classical.choice, Quot.sound |
| `Spade.Std.C61_map` | propext, Classical.choice, Quot.sound |
| `Spade.Std.C61_and_then` | propext, Classical.choice, Quot.sound |
| `Spade.Std.C61_eq` | propext, Classical.choice, Quot.sound |
| `Spade.Std.C61_ne` | propext, Classical.choice, Quot.sound |
| `Spade.Elab.C62_program_well_typed_partial` | propext, Classical.choice, Quot.sound |
| `Spade.Elab.C62_inferred_function_computes_partial` | propext, Classical.choice, Quot.sound |
| `Spade.Elab.C62_source_function_computes_partial` | propext, Classical.choice, Quot.sound |
| `Spade.Pass.C62_checked_function_computes_partial` | propext, Classical.choice, Quot.sound |
| `Spade.Pass.C62_hardware_generated_partial` | propext, Classical.choice, Quot.sound |
| `Spade.Pass.C62_translated_function_computes_partial` | propext, Classical.choice, Quot.sound |
| `Spade.Elab.C62_resolved` | propext, Quot.sound |
| `Spade.Pass.C62_source_computes_partial` | propext, Classical.choice, Quot.sound |
| `Spade.Elab.C62_types_agree` | propext, Quot.sound |
| `Spade.Decl.C63_accepted_iff_no_circle` | propext, Classical.choice, Quot.sound |
| `Spade.Decl.C63_error_names_a_circle` | propext, Quot.sound |
| `Spade.Decl.C63_check_ends` | propext, Classical.choice, Quot.sound |
| `Spade.Decl.C63_order_irrelevant` | propext, Classical.choice, Quot.sound |
| `Spade.Decl.C63_layout_ends` | propext, Classical.choice, Quot.sound |
| `Spade.Decl.C63_rejected_has_no_layout` | propext, Classical.choice, Quot.sound |
| `Spade.Lex.C64_integer_literal_partial` | propext, Classical.choice, Quot.sound |
| `Spade.Lex.C64_integer_token` | propext, Classical.choice, Quot.sound |
| `Spade.Lex.C64_integer_never_panics` | propext, Classical.choice, Quot.sound |
| `Spade.Lex.C64_sign_partial` | none |
| `Spade.Lex.C64_negative_expression` | none |
| `Spade.Lex.C64_char_literal_partial` | propext, Classical.choice, Quot.sound |
| `Spade.Lex.C64_string_literal_partial` | propext, Classical.choice, Quot.sound |
| `Spade.Lex.C64_counterexample_octal_suffix` | propext, Classical.choice, Quot.sound |
| `Spade.Lex.C64_counterexample_negative_unsigned_pattern` | none |
| `Spade.Lex.C64_counterexample_backslash` | propext, Classical.choice, Quot.sound |
| `Spade.Lex.C65_lexing_ends` | propext, Classical.choice, Quot.sound |
| `Spade.Lex.C65_gap_partial` | propext, Classical.choice, Quot.sound |
| `Spade.Lex.C65_same_tokens_partial` | propext, Classical.choice, Quot.sound |
| `Spade.Lex.C65_counterexample_line_comment_inside` | propext, Classical.choice, Quot.sound |
| `Spade.Lex.C65_counterexample_quotes_inside` | propext, Classical.choice, Quot.sound |
| `Spade.Auto.C66_copy_can_be_read` | propext, Classical.choice, Quot.sound |
| `Spade.Auto.C66_data_can_be_stored_partial` | propext, Classical.choice, Quot.sound |
| `Spade.Auto.C66_enum_can_be_stored_partial` | propext, Classical.choice, Quot.sound |
| `Spade.Auto.C66_implemented_partial` | propext, Classical.choice, Quot.sound |
| `Spade.Auto.C66_exact_partial` | propext, Classical.choice, Quot.sound |
| `Spade.Auto.C66_counterexample_view_of_clock` | propext, Classical.choice, Quot.sound |
| `Spade.Auto.C66_counterexample_nine_members` | propext, Classical.choice, Quot.sound |
| `Spade.Auto.C66_counterexample_view` | propext, Classical.choice, Quot.sound |
| `Spade.Auto.C66_counterexample_unused_parameter` | propext, Classical.choice, Quot.sound |
| `Spade.Stream.C67_window` | propext, Classical.choice, Quot.sound |
| `Spade.Stream.C67_window_none` | propext, Quot.sound |
| `Spade.Stream.C67_chunks_partial` | propext, Classical.choice, Quot.sound |
| `Spade.Stream.C67_chunks_once` | propext, Classical.choice, Quot.sound |
| `Spade.Stream.C67_rising_edge` | propext, Classical.choice, Quot.sound |
| `Spade.Stream.C67_falling_edge` | propext, Classical.choice, Quot.sound |
| `Spade.Stream.C67_accepted` | propext, Quot.sound |
| `Spade.Stream.C67_window_hardware_partial` | propext, Classical.choice, Quot.sound |
| `Spade.Stream.C67_chunks_hardware_partial` | propext, Classical.choice, Quot.sound |
| `Spade.Stream.C67_edge_hardware` | propext, Classical.choice, Quot.sound |
| `Spade.Pass.C68_checks_reach_everything` | propext, Quot.sound |
| `Spade.Pass.C68_zero_size` | propext, Quot.sound |
| `Spade.Pass.C68_flatten` | propext, Quot.sound |
| `Spade.Pass.C68_same_stages` | propext, Quot.sound |
| `Spade.Pass.C68_inout_exact` | propext, Classical.choice, Quot.sound |
| `Spade.Pass.C68_inout_partial` | propext, Classical.choice, Quot.sound |
| `Spade.Pass.C68_counterexample_empty_argument` | propext, Quot.sound |
| `Spade.Pass.C68_counterexample_inout_in_tuple` | propext |
| `Spade.Pass.C68_counterexample_inout_in_match` | propext |
| `Spade.Expr.C69_lowered_iff` | propext, Classical.choice, Quot.sound |
| `Spade.Expr.C69_signal_types` | propext, Classical.choice, Quot.sound |
| `Spade.Expr.C69_types_found` | propext, Classical.choice, Quot.sound |
| `Spade.Expr.C69_function_computes` | propext, Classical.choice, Quot.sound |
| `Spade.Expr.C69_counterexample_empty_array` | propext, Quot.sound |
| `Spade.Super.C70_accepted_iff_no_circle` | propext, Classical.choice, Quot.sound |
| `Spade.Super.C70_error_names_a_circle` | propext, Classical.choice, Quot.sound |
| `Spade.Super.C70_check_ends` | propext, Classical.choice, Quot.sound |
| `Spade.Super.C70_order_irrelevant` | propext, Classical.choice, Quot.sound |
| `Spade.Super.C70_bounds_end` | propext, Classical.choice, Quot.sound |
| `Spade.Super.C70_required_traits` | propext, Classical.choice, Quot.sound |
| `Spade.Super.C70_required_partial` | propext, Classical.choice, Quot.sound |
| `Spade.Super.C70_counterexample_parameter_of_trait` | propext, Classical.choice, Quot.sound |
| `Spade.Cxx.C71_input_partial` | propext, Classical.choice, Quot.sound |
| `Spade.Cxx.C71_output` | propext, Quot.sound |
| `Spade.Cxx.C71_round_trip_partial` | propext, Classical.choice, Quot.sound |
| `Spade.Cxx.C71_compiles_partial` | propext, Classical.choice, Quot.sound |
| `Spade.Cxx.C71_fields_partial` | propext, Classical.choice, Quot.sound |
| `Spade.Cxx.C71_field_wires_partial` | propext, Classical.choice, Quot.sound |
| `Spade.Cxx.C71_counterexample_wide_element` | propext, Quot.sound |
| `Spade.Cxx.C71_counterexample_undefined` | propext, Quot.sound |
| `Spade.Cxx.C71_counterexample_empty_field` | propext, Classical.choice, Quot.sound |
| `Spade.Cxx.C71_counterexample_underscore` | propext, Classical.choice, Quot.sound |
| `Spade.Cxx.C71_counterexample_root` | propext, Classical.choice, Quot.sound |
| `Spade.Units.C72_linked_partial` | propext, Classical.choice, Quot.sound |
| `Spade.Units.C72_counterexample_hidden_parameter` | propext, Classical.choice, Quot.sound |
| `Spade.Units.C72_counterexample_same_name` | propext, Classical.choice, Quot.sound |
| `Spade.Editor.C73_to_editor_partial` | propext, Classical.choice, Quot.sound |
| `Spade.Editor.C73_from_editor_partial` | propext, Quot.sound |
| `Spade.Editor.C73_round_trip_partial` | propext, Classical.choice, Quot.sound |
| `Spade.Editor.C73_order` | propext, Classical.choice, Quot.sound |
| `Spade.Editor.C73_counterexample_accent` | propext, Classical.choice, Quot.sound |
| `Spade.Editor.C73_counterexample_wide_character` | propext, Classical.choice, Quot.sound |
| `Spade.Editor.C73_counterexample_carriage_return` | propext, Classical.choice, Quot.sound |
| `Spade.Editor.C73_counterexample_behind_line` | propext, Classical.choice, Quot.sound |
| `Spade.Hier.C74_signal_partial` | propext, Classical.choice, Quot.sound |
| `Spade.Hier.C74_never_wrong_partial` | propext, Classical.choice, Quot.sound |
| `Spade.Hier.C74_path` | propext, Classical.choice, Quot.sound |
| `Spade.Hier.C74_unit` | propext, Classical.choice, Quot.sound |
| `Spade.Hier.C74_source_partial` | propext, Classical.choice, Quot.sound |
| `Spade.Hier.C74_type_partial` | propext, Classical.choice, Quot.sound |
| `Spade.Hier.C74_counterexample_two_ways` | propext, Classical.choice, Quot.sound |
| `Spade.Hier.C74_counterexample_backward_wire` | propext, Classical.choice, Quot.sound |
| `Spade.Hier.C74_counterexample_new` | propext, Classical.choice, Quot.sound |
| `Spade.Hier.C75_recorded` | propext, Quot.sound |
| `Spade.Hier.C75_expression_partial` | propext, Classical.choice, Quot.sound |
| `Spade.Hier.C75_variables` | propext, Classical.choice, Quot.sound |
| `Spade.Hier.C75_counterexample_variable` | propext, Classical.choice, Quot.sound |
| `Spade.Files.C76_namespaces` | propext, Classical.choice, Quot.sound |
| `Spade.Files.C76_plain` | propext, Classical.choice, Quot.sound |
| `Spade.Files.C76_accepted_partial` | propext, Classical.choice, Quot.sound |
| `Spade.Query.C77_names` | propext, Classical.choice, Quot.sound |
| `Spade.Query.C77_sound` | propext, Classical.choice, Quot.sound |
| `Spade.Query.C77_cursor_partial` | propext, Classical.choice, Quot.sound |
| `Spade.Query.C77_nothing` | propext, Classical.choice, Quot.sound |
| `Spade.Query.C77_outermost` | propext, Classical.choice, Quot.sound |
| `Spade.Query.C77_expression` | propext, Classical.choice, Quot.sound |
| `Spade.Query.C77_signal_partial` | propext, Classical.choice, Quot.sound |
| `Spade.Query.C77_helper` | propext, Classical.choice, Quot.sound |
| `Spade.Query.C78_offered` | propext, Classical.choice, Quot.sound |
| `Spade.Query.C78_scope_partial` | propext, Classical.choice, Quot.sound |
| `Spade.Query.C78_only_partial` | propext, Classical.choice, Quot.sound |

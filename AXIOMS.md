# Axioms of the theorems in MANIFEST.json

Output of `#print axioms`, grouped (`tools/axioms.py`).

## none

`R2U2.C24_codes`

## propext

`R2U2.C01_fails_on_false_equal`, `R2U2.C01_fails_on_singleton`, `R2U2.C03_fails_on_iff`, `R2U2.C04_fails_on_negated_xor`, `R2U2.C12_unroll_rejects_release`, `R2U2.BProg.C26_order`, `R2U2.C31_tense_fails`, `R2U2.C31_scope_fails`, `R2U2.C32_sections_fail`, `R2U2.C32_members_fail`, `R2U2.C33_reported_guard`, `R2U2.C33_composite`, `R2U2.C33_fails`, `R2U2.C34_assemble_works`, `R2U2.C34_rewrite_works`, `R2U2.C36_monotone`, `R2U2.C36_rounding_fails`, `R2U2.C36_missing_fails`, `R2U2.C41_disordered_fails`, `R2U2.C42_root_rejected`, `R2U2.C43_fails`, `R2U2.C51_enum_twice`, `R2U2.C51_enum_visible`, `R2U2.C68_update_fails`

## propext, Quot.sound

`R2U2.C01_short_trace_disagreement`, `R2U2.C01_fails_on_third_operand`, `R2U2.C03_toBnf_shape_partial`, `R2U2.C05_toNnf_shape_partial`, `R2U2.C05_fails_on_double_negation`, `R2U2.C07_removeExtended_shape`, `R2U2.C08_removeRelease_shape`, `R2U2.C09_toBinary_arity`, `R2U2.C09_toBinary_verdicts`, `R2U2.C09_binary_any_schedule`, `R2U2.C09_toBinary_leaves`, `R2U2.C10_flatten_verdicts`, `R2U2.C10_flatten_any_schedule`, `R2U2.C10_flatten_leaves`, `R2U2.C11_sort_reordered`, `R2U2.C11_sort_delays`, `R2U2.C12_unroll_shape`, `R2U2.C14_fails_on_since`, `R2U2.C21_atomics_fail`, `R2U2.C21_signals_fail`, `R2U2.BProg.C23_shared_ids_fail`, `R2U2.C24_roundtrip_partial`, `R2U2.C24_floats_fail`, `R2U2.C24_int_constants_fail`, `R2U2.C24_negative_constants_fail`, `R2U2.BProg.C26_config_first`, `R2U2.C27_contracts`, `R2U2.C29_ne_fails`, `R2U2.C29_length_fails`, `R2U2.C33_guards_partial`, `R2U2.C33_all_partial`, `R2U2.C33_assembly`, `R2U2.C33_reported`, `R2U2.C36_fpga_init`, `R2U2.Sabre.C37_true_fails`, `R2U2.Sabre.C37_iff_fails`, `R2U2.Sabre.C37_signals_fail`, `R2U2.C40_fails`, `R2U2.C40_strict_fails`, `R2U2.C42_round_trip_partial`, `R2U2.C42_root_fails`, `R2U2.C43_equiv_partial`, `R2U2.C43_not_equiv`, `R2U2.C44_capacity_needed`, `R2U2.C45_sizes_fail`, `R2U2.C45_since_fails`, `R2U2.C45_trigger_fails`, `R2U2.C45_past_sizes_fail`, `R2U2.C45_ahead_fails`, `R2U2.C45_constants_fail`, `R2U2.C51_symbols_partial`, `R2U2.C55_enough_slots`, `R2U2.C55_enough_slots_future`, `R2U2.C56_check`, `R2U2.C56_strict`, `R2U2.C57_ilp_graph`, `R2U2.C58_greedy_fails`, `R2U2.C58_ilp_fails`, `R2U2.C68_update_partial`, `R2U2.C68_update_keeps`, `R2U2.C70_no_header`, `R2U2.C72_enough_slots`, `R2U2.C77_remainder_fails`, `R2U2.C77_power_fails`, `R2U2.C77_overflow_lost_fails`, `R2U2.C77_comparisons`, `R2U2.C77_monitors_differ_fails`

## propext, Classical.choice, Quot.sound

`R2U2.C01_optimize_finite_partial`, `R2U2.C01_optimize_str_partial`, `R2U2.C01_optimize_str_finite_partial`, `R2U2.C01_optimize_verdicts_partial`, `R2U2.C01_optimize_wellformed`, `R2U2.C02_toBnf_verdicts`, `R2U2.C02_bnf_any_schedule`, `R2U2.C04_toNnf_verdicts_partial`, `R2U2.C06_removeExtended_verdicts`, `R2U2.C06_ext_any_schedule`, `R2U2.C08_removeRelease_verdicts`, `R2U2.C08_release_any_schedule`, `R2U2.C11_sort_verdicts`, `R2U2.C11_sort_any_schedule`, `R2U2.C11_sort_sorted`, `R2U2.C12_unroll_verdicts`, `R2U2.C12_unroll_succeeds`, `R2U2.C13_decompose_verdicts`, `R2U2.C13_decompose_shape`, `R2U2.C14_future_window`, `R2U2.C14_window_partial`, `R2U2.C14_fails_on_nested_past`, `R2U2.C15_finite_trace`, `R2U2.C15_transfer`, `R2U2.C16_cse`, `R2U2.C17_repr_unambiguous`, `R2U2.C17_str_unambiguous`, `R2U2.C17_formula_unambiguous`, `R2U2.C17_fails_on_singleton_set`, `R2U2.C17_fails_on_aggregation_count`, `R2U2.C17_str_separates`, `R2U2.C18_regions`, `R2U2.C19_known`, `R2U2.C19_sizes`, `R2U2.C20_distinct`, `R2U2.C20_signals_partial`, `R2U2.C20_mixed_fail`, `R2U2.C21_atomics_partial`, `R2U2.C21_temporal_partial`, `R2U2.C21_booleanizer_partial`, `R2U2.BProg.C22_operands`, `R2U2.BProg.C23_ids_partial`, `R2U2.C25_framing`, `R2U2.C25_loaded_partial`, `R2U2.C25_tables_partial`, `R2U2.BProg.C26_aligned`, `R2U2.C28_aggregations_partial`, `R2U2.C28_unrolling_ends`, `R2U2.C28_counts`, `R2U2.C28_capture_fails`, `R2U2.C29_arrays_partial`, `R2U2.C29_equal`, `R2U2.C30_expand_partial`, `R2U2.C30_alias_fails`, `R2U2.C30_shadow_fails`, `R2U2.C30_trees_partial`, `R2U2.C31_intervals`, `R2U2.C31_operands`, `R2U2.C31_tense_partial`, `R2U2.C31_sorts_partial`, `R2U2.C31_struct_fails`, `R2U2.C31_configuration`, `R2U2.C32_within_partial`, `R2U2.C32_enums_partial`, `R2U2.C34_restored_partial`, `R2U2.C34_known_definitions`, `R2U2.C34_apart`, `R2U2.C34_parse_works`, `R2U2.C34_enums_fail`, `R2U2.C34_push_declares`, `R2U2.C34_assembly_fails`, `R2U2.C34_slice_fails`, `R2U2.C34_contract_fails`, `R2U2.C34_definitions_fail`, `R2U2.C35_mapping_partial`, `R2U2.C35_success`, `R2U2.C35_accepted_partial`, `R2U2.C35_junk_fails`, `R2U2.C35_range_fails`, `R2U2.C35_index_fails`, `R2U2.C35_generate_partial`, `R2U2.C35_generate_kept`, `R2U2.C36_cpu_partial`, `R2U2.C36_listed`, `R2U2.C36_bound`, `R2U2.C36_fpga`, `R2U2.C36_fpga_sizes_fail`, `R2U2.Sabre.C37_output_partial`, `R2U2.Sabre.C37_until_fails`, `R2U2.Sabre.C37_leftover_fails`, `R2U2.C38_exact`, `R2U2.C38_unsupported`, `R2U2.C38_strict`, `R2U2.C38_strict_fails`, `R2U2.C38_check_sat`, `R2U2.C39_short_partial`, `R2U2.C39_fails`, `R2U2.C39_sound_partial`, `R2U2.C39_strict`, `R2U2.C40_exact_partial`, `R2U2.C40_strict_partial`, `R2U2.C41_rules`, `R2U2.C41_extracted`, `R2U2.C42_injective`, `R2U2.C42_exported`, `R2U2.C43_bv`, `R2U2.C43_qf_fails`, `R2U2.C44_queue`, `R2U2.C45_verdicts_partial`, `R2U2.C45_meaning_exists`, `R2U2.C45_ends_partial`, `R2U2.C46_verdicts_partial`, `R2U2.C47_round_trip`, `R2U2.C47_set`, `R2U2.C47_marker`, `R2U2.C48_postorder`, `R2U2.C49_value_unique`, `R2U2.C49_booleanizer_partial`, `R2U2.C49_nested_prev_fails`, `R2U2.Mltl.C50_roundtrip_partial`, `R2U2.Mltl.C50_exact`, `R2U2.Mltl.C50_same`, `R2U2.Mltl.C50_verdicts`, `R2U2.Mltl.C50_grammar`, `R2U2.Mltl.C50_unambiguous`, `R2U2.Mltl.C50_xor_fails`, `R2U2.Mltl.C50_mixed_fails`, `R2U2.Mltl.C50_grouping_fails`, `R2U2.Mltl.C50_contracts_fail`, `R2U2.C51_fresh_partial`, `R2U2.C52_optimize_latency`, `R2U2.BProg.C53_code`, `R2U2.C54_total`, `R2U2.C54_meaning`, `R2U2.C54_ready`, `R2U2.C55_signals_partial`, `R2U2.C55_end_to_end_partial`, `R2U2.C56_desugar_partial`, `R2U2.C56_deep_index_fails`, `R2U2.C56_slice_fails`, `R2U2.C57_extraction`, `R2U2.C58_greedy_partial`, `R2U2.C2po.C59_exact`, `R2U2.C2po.C59_unambiguous`, `R2U2.C2po.C59_unambiguous_expr`, `R2U2.C2po.C59_tokens_partial`, `R2U2.C2po.C59_lines`, `R2U2.C2po.C59_comment`, `R2U2.C2po.C59_prev_fails`, `R2U2.C2po.C59_minus_fails`, `R2U2.C2po.C59_illegal_fails`, `R2U2.C2po.C59_empty_array_fails`, `R2U2.C2po.C61_numbers`, `R2U2.C2po.C61_distinct`, `R2U2.C2po.C61_labels_fail`, `R2U2.C2po.C60_roundtrip_partial`, `R2U2.C2po.C60_injective_partial`, `R2U2.C2po.C60_enum_fails`, `R2U2.C2po.C60_count_fails`, `R2U2.C2po.C60_sqrt_fails`, `R2U2.C2po.C60_call_fails`, `R2U2.C2po.C60_label_fails`, `R2U2.C62_to_bnf_ends`, `R2U2.C62_to_nnf_ends`, `R2U2.C62_to_binary_ends`, `R2U2.C62_flatten_ends`, `R2U2.C62_remove_extended_ends`, `R2U2.C62_remove_release_ends`, `R2U2.C62_optimize_ends`, `R2U2.C62_to_bnf`, `R2U2.C62_to_nnf_partial`, `R2U2.C62_to_binary_partial`, `R2U2.C62_flatten_partial`, `R2U2.C62_remove_extended_partial`, `R2U2.C62_remove_release`, `R2U2.C62_optimize_rewrites_partial`, `R2U2.C63_compile_total_partial`, `R2U2.C63_compile_partial`, `R2U2.C63_to_bnf_shape`, `R2U2.C63_remove_release_shape`, `R2U2.C63_to_binary_shape`, `R2U2.C63_remove_extended_shape`, `R2U2.C64_compile_and_run_partial`, `R2U2.C65_text_to_verdicts_partial`, `R2U2.C66_rust_verdicts_partial`, `R2U2.C67_rust_compile_and_run_partial`, `R2U2.C67_outputs_fail`, `R2U2.C69_text_to_rust_partial`, `R2U2.C70_header_partial`, `R2U2.C70_twice_fails`, `R2U2.C70_missing_fails`, `R2U2.C71_command_line_partial`, `R2U2.C71_readable`, `R2U2.C71_line_end_fails`, `R2U2.C71_spaces_fail`, `R2U2.C71_empty_field_fails`, `R2U2.C71_blank_line_fails`, `R2U2.C71_columns_fail`, `R2U2.C71_long_line_fails`, `R2U2.C72_verdicts_partial`, `R2U2.C72_ends_partial`, `R2U2.C72_event_file_partial`, `R2U2.C72_event_rows_fails`, `R2U2.C72_same_times`, `R2U2.C73_same_times`, `R2U2.C73_names_partial`, `R2U2.C73_last_contract_fails`, `R2U2.C73_text_partial`, `R2U2.C73_only_contract_fails`, `R2U2.C73_past_first_fails`, `R2U2.C73_long_label_fails`, `R2U2.C73_names_numbers_partial`, `R2U2.C73_numbers_partial`, `R2U2.C74_command_line_partial`, `R2U2.C74_without`, `R2U2.C74_text_fails`, `R2U2.C74_exponent_fails`, `R2U2.C74_large_fails`, `R2U2.C74_point_fails`, `R2U2.C74_whole_fails`, `R2U2.C74_true_fails`, `R2U2.C74_compiled_partial`, `R2U2.C75_compile_and_run_numbers_partial`, `R2U2.C76_rust_signals_partial`, `R2U2.C76_rust_numbers_partial`, `R2U2.C76_rust_floats_partial`, `R2U2.C77_saturates_partial`, `R2U2.C77_words`, `R2U2.C77_roots_and_zero`, `R2U2.C78_same_times`, `R2U2.C78_rust_command_line_partial`, `R2U2.C78_rust_command_line_signals_partial`, `R2U2.C78_overflow_drops_fails`, `R2U2.C78_rust_text_to_lines_partial`, `R2U2.C78_rust_event_rows_partial`, `R2U2.C78_rust_event_file_partial`, `R2U2.C78_event_rows_fails`, `R2U2.C78_event_outputs_fails`, `R2U2.C78_counting_stamps`, `R2U2.C78_stamp_alone_fails`, `R2U2.C78_repeated_stamp_fails`, `R2U2.C79_same_times`, `R2U2.C79_rust_names_partial`, `R2U2.C79_without_names`, `R2U2.C79_long_label_fails`, `R2U2.C79_rust_text_partial`, `R2U2.C79_status_room_fails`, `R2U2.C79_past_first_fails`, `R2U2.C79_rust_numbers_partial`, `R2U2.C79_counting_stamps`

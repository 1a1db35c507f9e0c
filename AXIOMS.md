# Axioms each theorem depends on

Generated by tools/axioms.py from `#print axioms`.

## none

`C06_ascii`, `C18_packed_alignas_ignored`, `C18_huge_member_overlaps`, `C18_overflow`, `C19_huge_member_outside`, `C20_packed_straddles`, `C20_packed_unit_outside`, `C20_width_unchecked`, `C26_rescan_unique`, `C29_leading_space`, `C46_backslash_hash_lost`, `C46_colon_lost`, `C46_prerequisites_not_quoted`, `C71_int_size`, `C73_negative_limit`, `C73_underscores`

## Quot.sound

`C28_diagnosed`

## propext

`C04_decoder_accepts_ill_formed`, `C04_encode_beyond_21_bits`, `C07_no_cr`, `C07_idempotent`, `C08_trailing_splice_loses_newline`, `C09_asm_mode`, `C09_asm_dollar`, `C10_final_newline_needed`, `C12_double_prefix`, `C12_saturates`, `C12_decimal_too_large`, `C12_bad_octal_not_integer`, `C13_error_iff`, `C13_stringize_backslash`, `C13_file_name_not_escaped`, `C14_promotion`, `C16_rejected_differs`, `C16_exact`, `C23_negative_lower_bound`, `C27_then_source`, `C36_huge_variable_overlaps`, `C37_hidden`, `C39_top_values_lost`, `C39_fixed_ulong_accepts_negative`, `C40_implicit_int`, `C40_repeated_sign_accepted`, `C43_case_in_loop_skips_defer`, `C43_deferred_loop_twice`, `C51_absolute`, `C51_next_after_cached`, `C54_after_empty_operand`, `C54_empty_operand_in_va_opt`, `C55_union_braces_after_value_undefined`, `C55_scalar_braces_rejected`, `C55_string_with_comma_misread`, `C55_index_truncated`, `C55_negative_index_undefined`, `C55_empty_member_rejected`, `C57_junk_accepted`, `C57_static_first_rejected`, `C57_function_returned`, `C57_variable_parameter_rejected`, `C57_dots_lost`, `C58_spaced`, `C58_backslash_lost`, `C58_name_not_escaped`, `C68_u8_u_overflows`, `C68_u_u8_wrong`, `C74_leading_zero`, `C74_name_then_include`, `C76_empty_refused`, `C76_vendor_ignored`, `C76_trailing`, `C78_late_departs`, `C78_asm_departs`, `C78_data_sections_departs`

## propext, Classical.choice, Quot.sound

`C01_table_is_finite_map`, `C01_table_is_finite_map_fnv`, `C02_arena_blocks_disjoint`, `C02_clear_stays_in_block`, `C02_oversized_request_overruns`, `C03_push_is_append`, `C03_terminator_iff_room`, `C04_encode_is_utf8`, `C04_decode_encode`, `C04_encode_injective`, `C05_utf16_units`, `C05_utf32_units`, `C05_wide_units`, `C05_narrow_bytes`, `C05_utf16_roundtrip`, `C05_in_file`, `C06_displayWidth`, `C07_canonicalize`, `C07_line_count`, `C08_loop_result`, `C08_text`, `C08_line_numbers`, `C08_total_newlines`, `C09_maximal_munch`, `C10_in_bounds`, `C10_tokens_iff`, `C10_complete`, `C10_error_iff`, `C10_deterministic`, `C10_tokens_tile_the_text`, `C11_line_number`, `C11_flags`, `C11_beginning_of_line`, `C12_value_and_type`, `C12_only_integers`, `C13_escape_iff`, `C13_octal`, `C13_hex`, `C13_simple`, `C13_self`, `C13_quote_escaped`, `C13_quote_plain`, `C13_stringize`, `C15_compatible_iff`, `C15_reflexive`, `C15_symmetric`, `C15_top_qualifiers_ignored`, `C15_generic_unique`, `C15_generic_default`, `C15_no_prototype_incompatible`, `C16_redundant_cast`, `C17_value`, `C17_accepts`, `C17_div_zero`, `C17_typed`, `C17_type`, `C17_short_circuit`, `C18_layout`, `C18_order`, `C18_disjoint`, `C18_inside`, `C18_aligned`, `C18_size_aligned`, `C18_packed`, `C19_layout`, `C20_disjoint`, `C20_unit`, `C20_unit_inside`, `C20_zero_width`, `C21_store`, `C21_other_field`, `C21_load`, `C21_store_load`, `C21_assigned_value`, `C22_data`, `C22_determined`, `C22_directives`, `C22_layout_suits`, `C23_dispatch`, `C23_overlap_rejected`, `C23_disjoint_accepted`, `C24_meaning`, `C24_one_meaning`, `C24_stray`, `C24_after_else`, `C24_unterminated`, `C24_unterminated_skipped`, `C24_unterminated_after`, `C24_null_directive_misread`, `C24_hash_after_empty_macro`, `C24_condition`, `C25_recorded_guard`, `C25_guarded_file_is_empty`, `C25_guards_make_no_difference`, `C26_terminates`, `C26_no_internal_error`, `C26_object_like`, `C27_last_definition_counts`, `C27_defined_is_replaced`, `C27_defined_operator`, `C27_command_line`, `C27_define_takes_next_line`, `C27_option_with_two_equals`, `C28_fixed`, `C28_variadic`, `C28_unique`, `C30_expr`, `C30_alone`, `C30_void`, `C31_survive`, `C31_fits`, `C31_paired`, `C31_disjoint`, `C32_arith`, `C32_value`, `C32_cmp`, `C32_shift`, `C32_expr`, `C33_divmod`, `C33_expr`, `C34_cond`, `C35_copy`, `C35_copy_in_range`, `C35_zero`, `C35_zero_in_range`, `C35_store_register`, `C36_every_variable`, `C36_disjoint`, `C36_disjoint_all`, `C36_inside`, `C36_fixed`, `C36_aligned`, `C36_env`, `C36_prologue`, `C36_epilogue`, `C36_aligned_in_calls`, `C37_abi`, `C37_abi_determines`, `C37_registers`, `C37_stack`, `C37_stack_aligned`, `C37_same_places`, `C38_table`, `C38_cast`, `C38_load`, `C39_signed_values`, `C39_unsigned_values`, `C39_fixed_type`, `C40_specifiers_iff`, `C40_order_irrelevant`, `C40_standard_lists`, `C42_written_iff_needed`, `C43_assembles`, `C43_goto_accepted`, `C43_goto_runs`, `C45_trimmed_unique`, `C45_list`, `C45_no_duplicates`, `C45_no_loss`, `C46_in_bounds`, `C46_round_trip`, `C47_incr`, `C47_void`, `C48_distinct`, `C48_fits`, `C48_explicit`, `C48_clobbers`, `C48_register_variable`, `C48_tied`, `C48_error`, `C48_frame_pointers`, `C48_output_scratch`, `C48_saved`, `C48_same_register_twice`, `C48_tied_to_memory_output`, `C48_high_vector_clobbers`, `C49_extension`, `C49_only`, `C49_versioned`, `C49_link_order`, `C49_stages`, `C49_linked_despite_c`, `C49_temporaries_distinct`, `C49_first_so_only`, `C50_returns`, `C50_forever`, `C50_terminates`, `C50_trace`, `C50_labels`, `C52_pass`, `C52_return`, `C53_va_arg`, `C53_save_area`, `C54_collected`, `C54_substitution`, `C55_local_initializer`, `C55_unknown_length`, `C55_member_after_value_loses_the_rest`, `C55_second_braces_keep_the_first`, `C55_braces_after_value_ignored`, `C56_refines`, `C56_order`, `C56_ends`, `C56_counter`, `C56_store_not_converted`, `C57_declarator`, `C57_typeName`, `C57_one_meaning`, `C57_typedefs`, `C58_reread`, `C58_reread_file`, `C58_source`, `C58_source_file`, `C58_twice`, `C59_designator`, `C59_number`, `C59_initializer`, `C59_resolves`, `C59_offset`, `C59_accepted`, `C60_address`, `C60_read`, `C60_pointer`, `C60_assign`, `C60_assign_pointer`, `C61_accepted`, `C61_defined`, `C61_undefined`, `C61_functions`, `C61_uses`, `C61_redefinition`, `C62_to_float`, `C62_from_float`, `C62_ldouble_short`, `C62_ldouble_ushort`, `C62_ldouble_uint`, `C62_float_float`, `C62_exact`, `C62_widening`, `C63_expression`, `C63_unoptimized`, `C63_one_value`, `C63_not_nan`, `C63_folded_twice`, `C63_folded_int`, `C64_direct`, `C64_pointer`, `C64_after`, `C64_after_void`, `C64_order`, `C65_call`, `C65_same`, `C65_frame`, `C66_asm`, `C67_template`, `C67_unique`, `C67_goto_skips_restore`, `C68_join`, `C68_error`, `C69_denotes`, `C69_sound`, `C69_refused`, `C69_qualifiers`, `C70_value`, `C70_known`, `C70_constexpr`, `C71_storage`, `C71_deferred`, `C72_compound`, `C72_prefix`, `C72_postfix`, `C72_statement`, `C72_postfix_statement`, `C73_expand`, `C73_has`, `C73_unknown`, `C73_only`, `C73_agree`, `C73_constants`, `C74_presumed`, `C75_compound`, `C75_prefix`, `C75_postfix`, `C75_statement`, `C75_postfix_statement`, `C76_attached`, `C76_accepted`, `C76_tokens`, `C76_unknown`, `C76_same`, `C77_assign`, `C77_statement`, `C78_function`, `C78_declared_function`, `C78_order`, `C78_object`, `C78_object_conflict`, `C78_function_conflict`, `C79_type`, `C79_lvalue`, `C79_value`, `C79_cond_quals_departs`, `C79_cond_void_departs`, `C79_composite_departs`, `C79_null_departs`, `C80_compound`, `C80_prefix`, `C80_postfix`, `C80_postfix_statement`, `C80_division_departs`, `C81_declared`, `C81_last_attribute_departs`, `C81_extern_attribute_departs`, `C82_assign`, `C82_statement`, `C82_sequence`, `C83_condition`, `C83_logical`, `C83_statements`, `C83_labels`, `C83_jumps`, `C83_not_nan`, `C84_loops`, `C84_only`, `C84_ends`, `C84_labels`

## propext, Quot.sound

`C01_overflow_is_ub`, `C04_decode_in_bounds`, `C06_ident1_iff`, `C06_ident2_iff`, `C06_charWidth`, `C09_digraphs_not_recognised`, `C14_bitfield_promotion`, `C14_common_type`, `C14_symmetric`, `C14_value_preserved`, `C17_int_min_div`, `C21_long_field_not_extended`, `C21_assigned_long_not_truncated`, `C21_packed_straddling_wrong`, `C22_bool_bitfield`, `C22_wide_bitfield_undefined`, `C22_packed_overrun`, `C23_empty_range_taken`, `C25_once`, `C26_fully_expanded`, `C26_diverges`, `C27_undefined_stays`, `C28_extent`, `C29_join`, `C30_labels`, `C33_zero`, `C33_one`, `C37_long_double_member`, `C37_padding_takes_register`, `C37_unaligned_member`, `C41_innermost_declaration`, `C41_leaving_restores`, `C41_declaration_is_found`, `C41_declared_in_call_is_lost`, `C41_function_redeclared_in_block`, `C41_extern_in_block`, `C43_blocks_loops_returns`, `C43_goto_enters_nothing`, `C43_case_enters_nothing`, `C44_groups_as_C`, `C44_stops_at_its_end`, `C44_accepts_only`, `C44_exactly_C`, `C44_one_grouping`, `C44_fuel_suffices`, `C44_two_operators`, `C44_print_parse`, `C44_reparse`, `C44_commas`, `C44_conditional_before_assignment`, `C44_subscripted_sizeof`, `C45_trimmed`, `C49_replaced`, `C49_added`, `C51_first_directory`, `C51_directory_recorded`, `C51_next`, `C52_reads_past_the_end`, `C52_only_unnamed_bitfield`, `C54_object_like`, `C55_index_out_of_range_rejected`, `C55_unknown_member_rejected`, `C56_forward`, `C57_typeName_unnamed`, `C57_no_array_returned`, `C57_no_variable_length`, `C58_tokens_joined`, `C59_sum_of_integers`, `C59_rejected`, `C59_far`, `C60_labels`, `C60_far`, `C60_cast_dropped`, `C61_extern_init`, `C61_length_lost`, `C61_misaligned`, `C61_extern_hidden`, `C61_inline_first`, `C63_variables`, `C64_aligned`, `C67_numbering`, `C69_anonymous_not_const`, `C69_volatile_not_atomic`, `C70_constexpr_address`, `C71_size`, `C71_builtin_alloca_freed`, `C72_labels`, `C74_two_line_marker`, `C74_included_twice`, `C75_labels`, `C77_labels`, `C78_function_section_departs`, `C79_member_array_departs`, `C79_value_qualified_departs`, `C79_function_value_departs`, `C80_labels`, `C81_file_scope`, `C81_plain`

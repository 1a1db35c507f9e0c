{
 "claims": [
  {
   "property": "C01",
   "status": "proved",
   "theorems": [
    "Slimcc.Props.C01_table_is_finite_map",
    "Slimcc.Props.C01_table_is_finite_map_fnv",
    "Slimcc.Props.C01_overflow_is_ub"
   ],
   "note": "Abort (internal error) is a distinct outcome shown unreachable while the live entries fit the int capacity; C01_overflow_is_ub shows where capacity doubling overflows."
  },
  {
   "property": "C02",
   "status": "proved",
   "theorems": [
    "Slimcc.Props.C02_arena_blocks_disjoint",
    "Slimcc.Props.C02_clear_stays_in_block",
    "Slimcc.Props.C02_oversized_request_overruns"
   ],
   "note": "C02_oversized_request_overruns: a request above one page is handed a block that overruns."
  },
  {
   "property": "C03",
   "status": "proved",
   "theorems": [
    "Slimcc.Props.C03_push_is_append",
    "Slimcc.Props.C03_terminator_iff_room"
   ],
   "note": ""
  },
  {
   "property": "C04",
   "status": "proved",
   "theorems": [
    "Slimcc.Props.C04_encode_is_utf8",
    "Slimcc.Props.C04_decode_encode",
    "Slimcc.Props.C04_encode_injective",
    "Slimcc.Props.C04_decode_in_bounds",
    "Slimcc.Props.C04_decoder_accepts_ill_formed",
    "Slimcc.Props.C04_encode_beyond_21_bits"
   ],
   "note": "Round trip for every code point below 2^21. The decoder also accepts ill-formed input (C04_decoder_accepts_ill_formed)."
  },
  {
   "property": "C05",
   "status": "proved",
   "theorems": [
    "Slimcc.Props.C05_utf16_units",
    "Slimcc.Props.C05_utf32_units",
    "Slimcc.Props.C05_wide_units",
    "Slimcc.Props.C05_narrow_bytes",
    "Slimcc.Props.C05_utf16_roundtrip",
    "Slimcc.Props.C05_in_file"
   ],
   "note": ""
  },
  {
   "property": "C06",
   "status": "proved",
   "theorems": [
    "Slimcc.Props.C06_ident1_iff",
    "Slimcc.Props.C06_ident2_iff",
    "Slimcc.Props.C06_charWidth",
    "Slimcc.Props.C06_ascii",
    "Slimcc.Props.C06_displayWidth"
   ],
   "note": ""
  },
  {
   "property": "C07",
   "status": "proved",
   "theorems": [
    "Slimcc.Props.C07_canonicalize",
    "Slimcc.Props.C07_no_cr",
    "Slimcc.Props.C07_line_count",
    "Slimcc.Props.C07_idempotent"
   ],
   "note": ""
  },
  {
   "property": "C08",
   "status": "proved",
   "theorems": [
    "Slimcc.Props.C08_loop_result",
    "Slimcc.Props.C08_text",
    "Slimcc.Props.C08_line_numbers",
    "Slimcc.Props.C08_total_newlines",
    "Slimcc.Props.C08_trailing_splice_loses_newline"
   ],
   "note": "A file whose last line ends in backslash-newline loses its final newline (C08_trailing_splice_loses_newline)."
  },
  {
   "property": "C09",
   "status": "proved",
   "theorems": [
    "Slimcc.Props.C09_maximal_munch",
    "Slimcc.Props.C09_asm_mode",
    "Slimcc.Props.C09_asm_dollar",
    "Slimcc.Props.C09_digraphs_not_recognised"
   ],
   "note": "The punctuator list is the one of C23 without digraphs and '::' (C09_digraphs_not_recognised)."
  },
  {
   "property": "C10",
   "status": "proved",
   "theorems": [
    "Slimcc.Props.C10_in_bounds",
    "Slimcc.Props.C10_tokens_iff",
    "Slimcc.Props.C10_complete",
    "Slimcc.Props.C10_error_iff",
    "Slimcc.Props.C10_deterministic",
    "Slimcc.Props.C10_tokens_tile_the_text",
    "Slimcc.Props.C10_final_newline_needed"
   ],
   "note": "The need for the final newline is shown by C10_final_newline_needed."
  },
  {
   "property": "C11",
   "status": "proved",
   "theorems": [
    "Slimcc.Props.C11_line_number",
    "Slimcc.Props.C11_flags",
    "Slimcc.Props.C11_beginning_of_line"
   ],
   "note": ""
  },
  {
   "property": "C12",
   "status": "proved",
   "theorems": [
    "Slimcc.Props.C12_value_and_type",
    "Slimcc.Props.C12_only_integers",
    "Slimcc.Props.C12_double_prefix",
    "Slimcc.Props.C12_saturates",
    "Slimcc.Props.C12_decimal_too_large",
    "Slimcc.Props.C12_bad_octal_not_integer"
   ],
   "note": "Floating constants are not modelled; deviations C12_double_prefix, C12_saturates, C12_decimal_too_large, C12_bad_octal_not_integer are proved on witnesses."
  },
  {
   "property": "C13",
   "status": "proved",
   "theorems": [
    "Slimcc.Props.C13_escape_iff",
    "Slimcc.Props.C13_octal",
    "Slimcc.Props.C13_hex",
    "Slimcc.Props.C13_simple",
    "Slimcc.Props.C13_self",
    "Slimcc.Props.C13_error_iff",
    "Slimcc.Props.C13_quote_escaped",
    "Slimcc.Props.C13_quote_plain",
    "Slimcc.Props.C13_stringize",
    "Slimcc.Props.C13_stringize_backslash",
    "Slimcc.Props.C13_file_name_not_escaped"
   ],
   "note": "C13_file_name_not_escaped: __FILE__ is quoted without escaping; C13_stringize_backslash: # of a lone backslash is an error."
  },
  {
   "property": "C14",
   "status": "proved",
   "theorems": [
    "Slimcc.Props.C14_promotion",
    "Slimcc.Props.C14_bitfield_promotion",
    "Slimcc.Props.C14_common_type",
    "Slimcc.Props.C14_symmetric",
    "Slimcc.Props.C14_value_preserved"
   ],
   "note": "Arithmetic types: _Bool, the integer types, float, double, long double; bit-field widths arbitrary."
  },
  {
   "property": "C15",
   "status": "proved",
   "theorems": [
    "Slimcc.Props.C15_compatible_iff",
    "Slimcc.Props.C15_reflexive",
    "Slimcc.Props.C15_symmetric",
    "Slimcc.Props.C15_top_qualifiers_ignored",
    "Slimcc.Props.C15_generic_unique",
    "Slimcc.Props.C15_generic_default",
    "Slimcc.Props.C15_no_prototype_incompatible"
   ],
   "note": "Symmetry and reflexivity are proved for every type built from base types, pointers, arrays, functions and tagged types, with object identity as a parameter; C15_no_prototype_incompatible: int f() is not compatible with int f(int)."
  },
  {
   "property": "C16",
   "status": "proved",
   "theorems": [
    "Slimcc.Props.C16_redundant_cast",
    "Slimcc.Props.C16_rejected_differs",
    "Slimcc.Props.C16_exact"
   ],
   "note": ""
  },
  {
   "property": "C17",
   "status": "proved",
   "theorems": [
    "Slimcc.Props.C17_value",
    "Slimcc.Props.C17_accepts",
    "Slimcc.Props.C17_div_zero",
    "Slimcc.Props.C17_typed",
    "Slimcc.Props.C17_type",
    "Slimcc.Props.C17_short_circuit",
    "Slimcc.Props.C17_int_min_div"
   ],
   "note": "Model/Expr covers integer expressions: literals, variables, casts, unary, binary, shifts, comparisons, logical operators, ?:, comma, assignment, compound assignment and increments; both with and without folding while the tree is built. Host shift counts out of range are an arbitrary parameter; host signed overflow is taken to wrap. C17_int_min_div records the un-normalised result of INT_MIN / -1 (undefined in C). Floating, pointer and address constants are not modelled."
  },
  {
   "property": "C18",
   "status": "proved",
   "theorems": [
    "Slimcc.Props.C18_layout",
    "Slimcc.Props.C18_order",
    "Slimcc.Props.C18_disjoint",
    "Slimcc.Props.C18_inside",
    "Slimcc.Props.C18_aligned",
    "Slimcc.Props.C18_size_aligned",
    "Slimcc.Props.C18_packed",
    "Slimcc.Props.C18_packed_alignas_ignored",
    "Slimcc.Props.C18_huge_member_overlaps",
    "Slimcc.Props.C18_overflow"
   ],
   "note": "struct_decl gives exactly the ABI layout (every member at the first admissible bit position), members disjoint, aligned, inside, packed without padding; for structures below 2^31 bits. Proved departures: _Alignas ignored for aggregates in packed structures, int overflow/wrap on huge members."
  },
  {
   "property": "C19",
   "status": "proved",
   "theorems": [
    "Slimcc.Props.C19_layout",
    "Slimcc.Props.C19_huge_member_outside"
   ],
   "note": "Offset zero, least size, largest alignment, for members below 2^28 bytes; wrap of sizes of 2^32 and more shown as a departure."
  },
  {
   "property": "C20",
   "status": "proved",
   "theorems": [
    "Slimcc.Props.C20_disjoint",
    "Slimcc.Props.C20_unit",
    "Slimcc.Props.C20_unit_inside",
    "Slimcc.Props.C20_zero_width",
    "Slimcc.Props.C20_packed_straddles",
    "Slimcc.Props.C20_packed_unit_outside",
    "Slimcc.Props.C20_width_unchecked"
   ],
   "note": "Disjoint bits for packed and unpacked structures; unit containment for unpacked ones; zero-width boundary. Departures proved: packed bit-fields straddle their unit and units leave the object; width beyond the type accepted."
  },
  {
   "property": "C21",
   "status": "proved",
   "theorems": [
    "Slimcc.Props.C21_store",
    "Slimcc.Props.C21_other_field",
    "Slimcc.Props.C21_load",
    "Slimcc.Props.C21_store_load",
    "Slimcc.Props.C21_assigned_value",
    "Slimcc.Props.C21_long_field_not_extended",
    "Slimcc.Props.C21_assigned_long_not_truncated",
    "Slimcc.Props.C21_packed_straddling_wrong"
   ],
   "note": "Departures: fields of 64-bit type narrower than 64 bits are loaded without extension in 64-bit registers (C21_long_field_not_extended, C21_assigned_long_not_truncated), and packed fields that straddle their unit are read and written wrongly (C21_packed_straddling_wrong)."
  },
  {
   "property": "C22",
   "status": "proved",
   "theorems": [
    "Slimcc.Props.C22_data",
    "Slimcc.Props.C22_determined",
    "Slimcc.Props.C22_directives",
    "Slimcc.Props.C22_layout_suits",
    "Slimcc.Props.C22_bool_bitfield",
    "Slimcc.Props.C22_wide_bitfield_undefined",
    "Slimcc.Props.C22_packed_overrun"
   ],
   "note": "All type trees as the layout makes them and all initialisers of their shape; the layout theorems C18/C20 are shown to yield such types for structures that are not packed. The initialiser is taken as parsed (expression values given). Departures proved: _Bool bit-field initialised with 2 holds 0; a 64-bit (and, in the model, 63-bit) wide bit-field shifts out of range; a packed unit reaching outside the object is overrun."
  },
  {
   "property": "C23",
   "status": "proved",
   "theorems": [
    "Slimcc.Props.C23_dispatch",
    "Slimcc.Props.C23_overlap_rejected",
    "Slimcc.Props.C23_disjoint_accepted",
    "Slimcc.Props.C23_negative_lower_bound",
    "Slimcc.Props.C23_empty_range_taken"
   ],
   "note": "Any list of case labels (with GNU ranges), any value of any integer type, merging on or off. Deviation proved: on unsigned types narrower than int the bounds are read as unsigned, so case -1 ... 5 is rejected and case 5 ... -1 is accepted."
  },
  {
   "property": "C24",
   "status": "proved",
   "theorems": [
    "Slimcc.Props.C24_meaning",
    "Slimcc.Props.C24_one_meaning",
    "Slimcc.Props.C24_stray",
    "Slimcc.Props.C24_after_else",
    "Slimcc.Props.C24_unterminated",
    "Slimcc.Props.C24_unterminated_skipped",
    "Slimcc.Props.C24_unterminated_after",
    "Slimcc.Props.C24_null_directive_misread",
    "Slimcc.Props.C24_hash_after_empty_macro",
    "Slimcc.Props.C24_condition"
   ],
   "note": "Model/Directive models skip_cond_incl, the directives and preprocess2; the meaning is given on the tree of groups (Spec/Pp). Integer constant expressions, the file search and #line checks are parameters. #embed, #def and directives inside macro arguments are not modelled. C24_null_directive_misread and C24_hash_after_empty_macro prove two departures from the standard."
  },
  {
   "property": "C25",
   "status": "proved",
   "theorems": [
    "Slimcc.Props.C25_recorded_guard",
    "Slimcc.Props.C25_guarded_file_is_empty",
    "Slimcc.Props.C25_guards_make_no_difference",
    "Slimcc.Props.C25_once"
   ],
   "note": "C25_recorded_guard and C25_guards_make_no_difference: the result is the same as that of the meaning of the tree, which knows no guards. C25_once: after a #pragma once a file is never entered again."
  },
  {
   "property": "C26",
   "status": "proved",
   "theorems": [
    "Slimcc.Props.C26_terminates",
    "Slimcc.Props.C26_no_internal_error",
    "Slimcc.Props.C26_fully_expanded",
    "Slimcc.Props.C26_object_like",
    "Slimcc.Props.C26_rescan_unique",
    "Slimcc.Props.C26_diverges"
   ],
   "note": "C26_terminates: multiset-order proof for all tables with closed bodies. C26_diverges: a departure, three definitions for which expansion never ends. C26_no_internal_error needs no condition on parentheses. C26_object_like: refinement to the standard's rescanning for object-like macros without ##. Function-like macros: termination and full expansion, no independent denotation."
  },
  {
   "property": "C27",
   "status": "proved",
   "theorems": [
    "Slimcc.Props.C27_last_definition_counts",
    "Slimcc.Props.C27_undefined_stays",
    "Slimcc.Props.C27_defined_is_replaced",
    "Slimcc.Props.C27_defined_operator",
    "Slimcc.Props.C27_command_line",
    "Slimcc.Props.C27_then_source",
    "Slimcc.Props.C27_define_takes_next_line",
    "Slimcc.Props.C27_option_with_two_equals"
   ],
   "note": "Histories of #define, #undef, -D, -U, text and #ifdef of any length. C27_define_takes_next_line and C27_option_with_two_equals prove departures."
  },
  {
   "property": "C28",
   "status": "proved",
   "theorems": [
    "Slimcc.Props.C28_fixed",
    "Slimcc.Props.C28_variadic",
    "Slimcc.Props.C28_diagnosed",
    "Slimcc.Props.C28_extent",
    "Slimcc.Props.C28_unique"
   ],
   "note": "Macro argument splitting: for fixed and variadic macros the reader accepts exactly the argument lists described by the grammar in Spec/Macro (iff), with the extent of the call, uniqueness of the split and the diagnosis of wrong counts proved. __VA_TAIL__ and directives inside arguments are not modelled."
  },
  {
   "property": "C29",
   "status": "proved",
   "theorems": [
    "Slimcc.Props.C29_join",
    "Slimcc.Props.C29_leading_space"
   ],
   "note": ""
  },
  {
   "property": "C30",
   "status": "proved",
   "theorems": [
    "Slimcc.Props.C30_expr",
    "Slimcc.Props.C30_labels",
    "Slimcc.Props.C30_alone",
    "Slimcc.Props.C30_void"
   ],
   "note": "Integer expressions over variables of the frame or of static storage (every operator, both with the optimiser and without); temporaries in registers and in the frame included. Function calls, pointers, floating types, members and bit-fields are not in the expression model."
  },
  {
   "property": "C31",
   "status": "proved",
   "theorems": [
    "Slimcc.Props.C31_survive",
    "Slimcc.Props.C31_fits",
    "Slimcc.Props.C31_paired",
    "Slimcc.Props.C31_disjoint"
   ],
   "note": "Integer, floating and x87 temporaries; calls by name and by pointer; both policies for the frame. Depths and offsets are unbounded naturals."
  },
  {
   "property": "C32",
   "status": "proved",
   "theorems": [
    "Slimcc.Props.C32_arith",
    "Slimcc.Props.C32_value",
    "Slimcc.Props.C32_cmp",
    "Slimcc.Props.C32_shift",
    "Slimcc.Props.C32_expr"
   ],
   "note": "Per instruction sequence for every constant and register content, and as agreement of the whole expression compiled with and without the optimiser."
  },
  {
   "property": "C33",
   "status": "proved",
   "theorems": [
    "Slimcc.Props.C33_divmod",
    "Slimcc.Props.C33_zero",
    "Slimcc.Props.C33_one",
    "Slimcc.Props.C33_expr"
   ],
   "note": "Sequences emitted instead of a division, and the whole expression for any divisor."
  },
  {
   "property": "C34",
   "status": "proved",
   "theorems": [
    "Slimcc.Props.C34_cond"
   ],
   "note": "The integer expression language of C30, any nesting of !, &&, ||, comparisons, conditional operators and assignments."
  },
  {
   "property": "C35",
   "status": "proved",
   "theorems": [
    "Slimcc.Props.C35_copy",
    "Slimcc.Props.C35_copy_in_range",
    "Slimcc.Props.C35_zero",
    "Slimcc.Props.C35_zero_in_range",
    "Slimcc.Props.C35_store_register"
   ],
   "note": "For every byte count, address and memory content, with the instruction sequences executed on byte memory."
  },
  {
   "property": "C36",
   "status": "proved",
   "theorems": [
    "Slimcc.Props.C36_every_variable",
    "Slimcc.Props.C36_disjoint",
    "Slimcc.Props.C36_disjoint_all",
    "Slimcc.Props.C36_inside",
    "Slimcc.Props.C36_fixed",
    "Slimcc.Props.C36_aligned",
    "Slimcc.Props.C36_env",
    "Slimcc.Props.C36_huge_variable_overlaps",
    "Slimcc.Props.C36_prologue",
    "Slimcc.Props.C36_epilogue",
    "Slimcc.Props.C36_aligned_in_calls"
   ],
   "note": "While the frame fits an int (FrameOk). C36_huge_variable_overlaps is the departure for variables of 4 GiB. C36_env connects the placement to the assumption of the theorems on compiled code. Prologue and epilogue are included; the register save area is in C53."
  },
  {
   "property": "C37",
   "status": "proved",
   "theorems": [
    "Slimcc.Props.C37_abi",
    "Slimcc.Props.C37_abi_determines",
    "Slimcc.Props.C37_hidden",
    "Slimcc.Props.C37_registers",
    "Slimcc.Props.C37_stack",
    "Slimcc.Props.C37_stack_aligned",
    "Slimcc.Props.C37_same_places",
    "Slimcc.Props.C37_long_double_member",
    "Slimcc.Props.C37_padding_takes_register",
    "Slimcc.Props.C37_unaligned_member"
   ],
   "note": "Departures proved: long double member, eightbyte of padding, misaligned member."
  },
  {
   "property": "C38",
   "status": "proved",
   "theorems": [
    "Slimcc.Props.C38_table",
    "Slimcc.Props.C38_cast",
    "Slimcc.Props.C38_load"
   ],
   "note": "Integer types. Conversions from and to floating types are not modelled."
  },
  {
   "property": "C39",
   "status": "proved",
   "theorems": [
    "Slimcc.Props.C39_signed_values",
    "Slimcc.Props.C39_unsigned_values",
    "Slimcc.Props.C39_fixed_type",
    "Slimcc.Props.C39_top_values_lost",
    "Slimcc.Props.C39_fixed_ulong_accepts_negative"
   ],
   "note": "Outside the stated ranges the property fails: C39_top_values_lost (A = 0xFFFFFFFFFFFFFFFF gets a 32-bit type) and C39_fixed_ulong_accepts_negative."
  },
  {
   "property": "C40",
   "status": "proved",
   "theorems": [
    "Slimcc.Props.C40_specifiers_iff",
    "Slimcc.Props.C40_order_irrelevant",
    "Slimcc.Props.C40_standard_lists",
    "Slimcc.Props.C40_implicit_int",
    "Slimcc.Props.C40_repeated_sign_accepted"
   ],
   "note": "C40_repeated_sign_accepted: unsigned unsigned int is accepted. C40_implicit_int: no specifier at all means int."
  },
  {
   "property": "C41",
   "status": "proved",
   "theorems": [
    "Slimcc.Props.C41_innermost_declaration",
    "Slimcc.Props.C41_leaving_restores",
    "Slimcc.Props.C41_declaration_is_found",
    "Slimcc.Props.C41_declared_in_call_is_lost",
    "Slimcc.Props.C41_function_redeclared_in_block",
    "Slimcc.Props.C41_extern_in_block"
   ],
   "note": "Spec/Scope.lean gives lexical scoping (an association list, restored at the end of a block). C41_innermost_declaration: for every history, all lookups of the scope chain give the lexical meaning and no freed map is used; C41_leaving_restores: after any block, in any nesting, every name means what it meant; C41_declaration_is_found. Departures: C41_declared_in_call_is_lost, C41_function_redeclared_in_block, C41_extern_in_block."
  },
  {
   "property": "C42",
   "status": "proved",
   "theorems": [
    "Slimcc.Props.C42_written_iff_needed"
   ],
   "note": "Spec/Live.lean: Needed = least set with the functions that must be emitted, closed under uses. C42_written_iff_needed: noting of uses, marking (which ends: the depth of the recursion is bounded by the number of functions) and output, for all reference graphs. Uses by assembly text, alias attributes and the linker are outside the model."
  },
  {
   "property": "C43",
   "status": "proved",
   "theorems": [
    "Slimcc.Props.C43_blocks_loops_returns",
    "Slimcc.Props.C43_assembles",
    "Slimcc.Props.C43_goto_enters_nothing",
    "Slimcc.Props.C43_goto_accepted",
    "Slimcc.Props.C43_goto_runs",
    "Slimcc.Props.C43_case_enters_nothing",
    "Slimcc.Props.C43_case_in_loop_skips_defer",
    "Slimcc.Props.C43_deferred_loop_twice"
   ],
   "note": "Structured exits by simulation of every run of the specification; gotos by static characterisation of acceptance and by the run of the code from just before the goto to just after the label. Departures: C43_case_in_loop_skips_defer, C43_deferred_loop_twice. Not modelled: VLA deallocation, computed goto, statement expressions."
  },
  {
   "property": "C44",
   "status": "proved",
   "theorems": [
    "Slimcc.Props.C44_groups_as_C",
    "Slimcc.Props.C44_stops_at_its_end",
    "Slimcc.Props.C44_accepts_only",
    "Slimcc.Props.C44_exactly_C",
    "Slimcc.Props.C44_one_grouping",
    "Slimcc.Props.C44_fuel_suffices",
    "Slimcc.Props.C44_two_operators",
    "Slimcc.Props.C44_print_parse",
    "Slimcc.Props.C44_reparse",
    "Slimcc.Props.C44_commas",
    "Slimcc.Props.C44_conditional_before_assignment",
    "Slimcc.Props.C44_subscripted_sizeof"
   ],
   "note": "Parser of parse.c from expr down to primary (without compound literals, statement expressions, _Generic, builtins; a type name is one token; typing left out) against the left-recursive grammar of C23 6.5. Complete for C, sound for C plus two liberties, exactly C without sizeof and assignment; the grammar is shown unambiguous; fuel is shown to be enough. Departures proved: C44_conditional_before_assignment, C44_subscripted_sizeof. Commas group to the right, with the operands of the standard's left grouping in order (C44_commas)."
  },
  {
   "property": "C45",
   "status": "proved",
   "theorems": [
    "Slimcc.Props.C45_trimmed",
    "Slimcc.Props.C45_trimmed_unique",
    "Slimcc.Props.C45_list",
    "Slimcc.Props.C45_no_duplicates",
    "Slimcc.Props.C45_no_loss"
   ],
   "note": "Model/Driver models add_include_path and the end of parse_args. The strings are byte lists."
  },
  {
   "property": "C46",
   "status": "proved",
   "theorems": [
    "Slimcc.Props.C46_in_bounds",
    "Slimcc.Props.C46_round_trip",
    "Slimcc.Props.C46_backslash_hash_lost",
    "Slimcc.Props.C46_colon_lost",
    "Slimcc.Props.C46_prerequisites_not_quoted"
   ],
   "note": "The reading by make is specified in Spec/Make after GNU make's rule for backslashes. C46_backslash_hash_lost, C46_colon_lost and C46_prerequisites_not_quoted prove where the output is not read back."
  },
  {
   "property": "C47",
   "status": "proved",
   "theorems": [
    "Slimcc.Props.C47_incr",
    "Slimcc.Props.C47_void"
   ],
   "note": "Variables of every integer type; both as a value and as a statement. Bit-fields, pointers and floating types are not covered."
  },
  {
   "property": "C48",
   "status": "proved",
   "theorems": [
    "Slimcc.Props.C48_distinct",
    "Slimcc.Props.C48_fits",
    "Slimcc.Props.C48_explicit",
    "Slimcc.Props.C48_clobbers",
    "Slimcc.Props.C48_register_variable",
    "Slimcc.Props.C48_tied",
    "Slimcc.Props.C48_error",
    "Slimcc.Props.C48_frame_pointers",
    "Slimcc.Props.C48_output_scratch",
    "Slimcc.Props.C48_saved",
    "Slimcc.Props.C48_same_register_twice",
    "Slimcc.Props.C48_tied_to_memory_output",
    "Slimcc.Props.C48_high_vector_clobbers"
   ],
   "note": "Proved for every list of operands and clobbers. Register variables are accepted only where the constraint admits their kind (C48_register_variable). Departures proved with witnesses: the same register named twice (or named and clobbered) is accepted silently; an input tied to a memory output is loaded into the register of the output's address; clobbers xmm16-23 are dropped and xmm24 and up write out of bounds. Not modelled: the x87 stack discipline. The code around the text is C66, the text C67."
  },
  {
   "property": "C49",
   "status": "proved",
   "theorems": [
    "Slimcc.Props.C49_extension",
    "Slimcc.Props.C49_only",
    "Slimcc.Props.C49_versioned",
    "Slimcc.Props.C49_replaced",
    "Slimcc.Props.C49_added",
    "Slimcc.Props.C49_link_order",
    "Slimcc.Props.C49_stages",
    "Slimcc.Props.C49_linked_despite_c",
    "Slimcc.Props.C49_temporaries_distinct",
    "Slimcc.Props.C49_first_so_only"
   ],
   "note": "main's loop is modelled up to the programs it runs and the arguments of the linker (exit codes and forking are not)."
  },
  {
   "property": "C50",
   "status": "proved",
   "theorems": [
    "Slimcc.Props.C50_returns",
    "Slimcc.Props.C50_forever",
    "Slimcc.Props.C50_terminates",
    "Slimcc.Props.C50_trace",
    "Slimcc.Props.C50_labels"
   ],
   "note": "Function bodies of any nesting with integer expressions; optimisation on and off. Defer, VLAs, computed goto, asm and calls are not in the statement language; main's implicit return 0 is not modelled. A duplicate label is not diagnosed by the parser (shown by an example)."
  },
  {
   "property": "C51",
   "status": "proved",
   "theorems": [
    "Slimcc.Props.C51_first_directory",
    "Slimcc.Props.C51_absolute",
    "Slimcc.Props.C51_directory_recorded",
    "Slimcc.Props.C51_next",
    "Slimcc.Props.C51_next_after_cached"
   ],
   "note": "C51_next_after_cached proves that a cached search loses the directory number, so that a later #include_next starts from the first directory."
  },
  {
   "property": "C52",
   "status": "proved",
   "theorems": [
    "Slimcc.Props.C52_pass",
    "Slimcc.Props.C52_return",
    "Slimcc.Props.C52_reads_past_the_end",
    "Slimcc.Props.C52_only_unnamed_bitfield"
   ],
   "note": "Arguments computed straight into a register with -O are not covered. Departures proved: loads read past the end of small structures; a struct with only an unnamed bit-field is an internal error."
  },
  {
   "property": "C53",
   "status": "proved",
   "theorems": [
    "Slimcc.Props.C53_va_arg",
    "Slimcc.Props.C53_save_area"
   ],
   "note": "Locations only; the bytes are those of C52 and C35."
  },
  {
   "property": "C54",
   "status": "proved",
   "theorems": [
    "Slimcc.Props.C54_collected",
    "Slimcc.Props.C54_substitution",
    "Slimcc.Props.C54_object_like",
    "Slimcc.Props.C54_after_empty_operand",
    "Slimcc.Props.C54_empty_operand_in_va_opt"
   ],
   "note": "Specification Spec/MacroSubst.lean: replacement lists as operands and chains. Proved for lists in which the last operand of a ## chain does not follow an empty one (unless expanding it changes nothing), and no empty operand stands left of ## inside __VA_OPT__; outside of this the code departs from C (C54_after_empty_operand, C54_empty_operand_in_va_opt). Pasting and stringizing of tokens are parameters (C29 covers stringizing)."
  },
  {
   "property": "C55",
   "status": "proved",
   "theorems": [
    "Slimcc.Props.C55_local_initializer",
    "Slimcc.Props.C55_unknown_length",
    "Slimcc.Props.C55_member_after_value_loses_the_rest",
    "Slimcc.Props.C55_second_braces_keep_the_first",
    "Slimcc.Props.C55_braces_after_value_ignored",
    "Slimcc.Props.C55_union_braces_after_value_undefined",
    "Slimcc.Props.C55_scalar_braces_rejected",
    "Slimcc.Props.C55_string_with_comma_misread",
    "Slimcc.Props.C55_index_truncated",
    "Slimcc.Props.C55_index_out_of_range_rejected",
    "Slimcc.Props.C55_unknown_member_rejected",
    "Slimcc.Props.C55_negative_index_undefined",
    "Slimcc.Props.C55_empty_member_rejected"
   ],
   "note": "Arrays of known and of unknown length; ranges in designators are not modelled; designators outside the object are rejected; departures for overriding initializers, {3,}, {\"a\",}, large and negative indices are proved as witnesses"
  },
  {
   "property": "C56",
   "status": "proved",
   "theorems": [
    "Slimcc.Props.C56_refines",
    "Slimcc.Props.C56_order",
    "Slimcc.Props.C56_ends",
    "Slimcc.Props.C56_forward",
    "Slimcc.Props.C56_counter",
    "Slimcc.Props.C56_store_not_converted"
   ],
   "note": "Stuttering refinement of interleaved machine instructions to whole operations, lock-freedom, termination, no lost increments; excludes assignments that need a conversion (C56_store_not_converted), loads into wider variables, and _Bool objects without optimization."
  },
  {
   "property": "C57",
   "status": "proved",
   "theorems": [
    "Slimcc.Props.C57_declarator",
    "Slimcc.Props.C57_typeName",
    "Slimcc.Props.C57_typeName_unnamed",
    "Slimcc.Props.C57_one_meaning",
    "Slimcc.Props.C57_typedefs",
    "Slimcc.Props.C57_no_array_returned",
    "Slimcc.Props.C57_no_variable_length",
    "Slimcc.Props.C57_junk_accepted",
    "Slimcc.Props.C57_static_first_rejected",
    "Slimcc.Props.C57_function_returned",
    "Slimcc.Props.C57_variable_parameter_rejected",
    "Slimcc.Props.C57_dots_lost"
   ],
   "note": "Proved for every declarator C allows, by induction on the length of its text. Specifiers and size expressions are single tokens; identifier lists, attributes and names that are typedefs in an outer scope are not modelled. Departures from C are proved as examples (C57_junk_accepted and others)."
  },
  {
   "property": "C58",
   "status": "proved",
   "theorems": [
    "Slimcc.Props.C58_reread",
    "Slimcc.Props.C58_reread_file",
    "Slimcc.Props.C58_spaced",
    "Slimcc.Props.C58_source",
    "Slimcc.Props.C58_source_file",
    "Slimcc.Props.C58_twice",
    "Slimcc.Props.C58_tokens_joined",
    "Slimcc.Props.C58_backslash_lost",
    "Slimcc.Props.C58_name_not_escaped"
   ],
   "note": "C58_reread: for every readable token sequence, with or without line markers. C58_reread_file: through all phases of reading a file. C58_source(_file): every source file (without directives and macros). C58_twice: the output is a fixed point. C58_spaced: separated tokens. C58_tokens_joined, C58_backslash_lost, C58_name_not_escaped: where it fails."
  },
  {
   "property": "C59",
   "status": "proved",
   "theorems": [
    "Slimcc.Props.C59_designator",
    "Slimcc.Props.C59_number",
    "Slimcc.Props.C59_initializer",
    "Slimcc.Props.C59_resolves",
    "Slimcc.Props.C59_offset",
    "Slimcc.Props.C59_accepted",
    "Slimcc.Props.C59_sum_of_integers",
    "Slimcc.Props.C59_rejected",
    "Slimcc.Props.C59_far"
   ],
   "note": "Sound for every designator and pointer expression (C59_designator, C59_number, C59_initializer) and complete for members, constant subscripts and the address constants made from them (C59_resolves, C59_offset, C59_accepted). Departures: C59_sum_of_integers, C59_rejected, C59_far. Objects whose contents the compiler knows, functions, labels, bit-fields and variable-length arrays are not modelled."
  },
  {
   "property": "C60",
   "status": "proved",
   "theorems": [
    "Slimcc.Props.C60_address",
    "Slimcc.Props.C60_read",
    "Slimcc.Props.C60_pointer",
    "Slimcc.Props.C60_assign",
    "Slimcc.Props.C60_assign_pointer",
    "Slimcc.Props.C60_labels",
    "Slimcc.Props.C60_far",
    "Slimcc.Props.C60_cast_dropped"
   ],
   "note": "Address, value, pointer and assignment code of designators proved on the processor model for both settings of the optimiser; conversions between integers and pointers and offsets of 2 GiB are excluded because the compiler gets them wrong (C60_far, C60_cast_dropped)."
  },
  {
   "property": "C61",
   "status": "proved",
   "theorems": [
    "Slimcc.Props.C61_accepted",
    "Slimcc.Props.C61_defined",
    "Slimcc.Props.C61_undefined",
    "Slimcc.Props.C61_functions",
    "Slimcc.Props.C61_uses",
    "Slimcc.Props.C61_redefinition",
    "Slimcc.Props.C61_extern_init",
    "Slimcc.Props.C61_length_lost",
    "Slimcc.Props.C61_misaligned",
    "Slimcc.Props.C61_extern_hidden",
    "Slimcc.Props.C61_inline_first"
   ],
   "note": "Names, storage and linkage; attributes other than gnu_inline, asm names, _Alignas, constexpr and thread-local storage are not modelled. C61_extern_init, C61_length_lost, C61_misaligned, C61_extern_hidden and C61_inline_first show where the code departs from C; these cases are excluded by NoExternInit, Lengths, Known, UnitOpen and the hypothesis on the first declaration of a function."
  },
  {
   "property": "C62",
   "status": "proved",
   "theorems": [
    "Slimcc.Props.C62_to_float",
    "Slimcc.Props.C62_from_float",
    "Slimcc.Props.C62_ldouble_short",
    "Slimcc.Props.C62_ldouble_ushort",
    "Slimcc.Props.C62_ldouble_uint",
    "Slimcc.Props.C62_float_float",
    "Slimcc.Props.C62_exact",
    "Slimcc.Props.C62_widening"
   ],
   "note": "All rows and columns of the cast table with a floating type. The nearest number is specified over the rationals. Excluded and characterised by C62_ldouble_short, C62_ldouble_ushort, C62_ldouble_uint: three wrong conversions from long double. Conversion to bool is not in this property."
  },
  {
   "property": "C63",
   "status": "proved",
   "theorems": [
    "Slimcc.Props.C63_expression",
    "Slimcc.Props.C63_unoptimized",
    "Slimcc.Props.C63_variables",
    "Slimcc.Props.C63_one_value",
    "Slimcc.Props.C63_not_nan",
    "Slimcc.Props.C63_folded_twice",
    "Slimcc.Props.C63_folded_int"
   ],
   "note": "Expressions over variables, constants, unary minus, + - * /, comparisons, ! and casts with a floating side. Departures proved: C63_not_nan, C63_folded_twice, C63_folded_int."
  },
  {
   "property": "C64",
   "status": "proved",
   "theorems": [
    "Slimcc.Props.C64_direct",
    "Slimcc.Props.C64_pointer",
    "Slimcc.Props.C64_aligned",
    "Slimcc.Props.C64_after",
    "Slimcc.Props.C64_after_void",
    "Slimcc.Props.C64_order"
   ],
   "note": "C64_direct and C64_pointer: the state at the call instruction, for every argument list; C64_aligned; C64_after and C64_after_void: what follows the call, for whatever the function did within the ABI; C64_order: left-to-right evaluation of independent arguments gives the values the other theorems speak of. Arguments contain no call themselves."
  },
  {
   "property": "C65",
   "status": "proved",
   "theorems": [
    "Slimcc.Props.C65_call",
    "Slimcc.Props.C65_same",
    "Slimcc.Props.C65_frame"
   ],
   "note": ""
  },
  {
   "property": "C66",
   "status": "proved",
   "theorems": [
    "Slimcc.Props.C66_asm"
   ],
   "note": "C66_asm: what the text finds and what the program finds after it, for every accepted statement with operands in general registers, memory, numbers and flags, every text within the contract. ex66_holds: eight operands, %rbp clobbered."
  },
  {
   "property": "C67",
   "status": "proved",
   "theorems": [
    "Slimcc.Props.C67_template",
    "Slimcc.Props.C67_unique",
    "Slimcc.Props.C67_numbering",
    "Slimcc.Props.C67_goto_skips_restore"
   ],
   "note": "C67_template: printed text = what the template stands for, refused iff nothing; C67_unique, C67_numbering. Departure C67_goto_skips_restore."
  },
  {
   "property": "C68",
   "status": "proved",
   "theorems": [
    "Slimcc.Props.C68_join",
    "Slimcc.Props.C68_error",
    "Slimcc.Props.C68_u8_u_overflows",
    "Slimcc.Props.C68_u_u8_wrong"
   ],
   "note": "Run of string tokens with the text each was read from. Departures C68_u8_u_overflows and C68_u_u8_wrong: u8 next to u, which the main theorems exclude. Lengths are not bounded (int in the code)."
  },
  {
   "property": "C69",
   "status": "proved",
   "theorems": [
    "Slimcc.Props.C69_denotes",
    "Slimcc.Props.C69_sound",
    "Slimcc.Props.C69_refused",
    "Slimcc.Props.C69_qualifiers",
    "Slimcc.Props.C69_anonymous_not_const",
    "Slimcc.Props.C69_volatile_not_atomic"
   ],
   "note": "Types are qualifiers plus members; bit-field attributes are left out. C69_qualifiers excludes members of anonymous members and atomic or restrict members: departures C69_anonymous_not_const, C69_volatile_not_atomic."
  },
  {
   "property": "C70",
   "status": "proved",
   "theorems": [
    "Slimcc.Props.C70_value",
    "Slimcc.Props.C70_known",
    "Slimcc.Props.C70_constexpr",
    "Slimcc.Props.C70_constexpr_address"
   ],
   "note": "Builds on the data model of C22 (well-formed types, no bit-fields that cross their storage unit). The variable and offset a designator stands for are C59. Departure C70_constexpr_address. Reads of floating types share eval_constexpr_data; their conversion is not modelled here."
  },
  {
   "property": "C71",
   "status": "proved",
   "theorems": [
    "Slimcc.Props.C71_storage",
    "Slimcc.Props.C71_deferred",
    "Slimcc.Props.C71_size",
    "Slimcc.Props.C71_int_size",
    "Slimcc.Props.C71_builtin_alloca_freed"
   ],
   "note": "C71_storage: after every history that leaves room on the stack, the arrays in scope are stored apart and aligned at or above the stack pointer, and nothing else is kept if the function gives storage back. C71_deferred: order of deferred statements and storage during each. C71_size: size. Departures proved: C71_int_size, C71_builtin_alloca_freed. Not modelled: the deferred statements' own code; jumps into the scope of an array (refused by the parser)."
  },
  {
   "property": "C72",
   "status": "proved",
   "theorems": [
    "Slimcc.Props.C72_compound",
    "Slimcc.Props.C72_prefix",
    "Slimcc.Props.C72_postfix",
    "Slimcc.Props.C72_statement",
    "Slimcc.Props.C72_postfix_statement",
    "Slimcc.Props.C72_labels"
   ],
   "note": "Integer objects through any designator of C60; compound assignment, prefix and postfix ++/--, in value and statement position (pointers: C75). Not: bit-fields, atomics, right operands reading other objects."
  },
  {
   "property": "C73",
   "status": "proved",
   "theorems": [
    "Slimcc.Props.C73_expand",
    "Slimcc.Props.C73_has",
    "Slimcc.Props.C73_unknown",
    "Slimcc.Props.C73_only",
    "Slimcc.Props.C73_agree",
    "Slimcc.Props.C73_constants",
    "Slimcc.Props.C73_negative_limit",
    "Slimcc.Props.C73_underscores"
   ],
   "note": "Tokens are their spellings. The value of the limit expression is a parameter of the model; finding the file is not part of it (see C51). C73_negative_limit and C73_underscores are departures from C23."
  },
  {
   "property": "C74",
   "status": "proved",
   "theorems": [
    "Slimcc.Props.C74_presumed",
    "Slimcc.Props.C74_two_line_marker",
    "Slimcc.Props.C74_leading_zero",
    "Slimcc.Props.C74_included_twice",
    "Slimcc.Props.C74_name_then_include"
   ],
   "note": "The excluded cases are departures: C74_two_line_marker, C74_leading_zero, C74_included_twice, C74_name_then_include. Line numbers are unbounded in the model."
  },
  {
   "property": "C75",
   "status": "proved",
   "theorems": [
    "Slimcc.Props.C75_compound",
    "Slimcc.Props.C75_prefix",
    "Slimcc.Props.C75_postfix",
    "Slimcc.Props.C75_statement",
    "Slimcc.Props.C75_postfix_statement",
    "Slimcc.Props.C75_labels"
   ],
   "note": "Pointers through any designator of C60, index over integer variables; value and statement position. Not: pointers to variable length arrays, atomic pointers, indices reading other objects."
  },
  {
   "property": "C76",
   "status": "proved",
   "theorems": [
    "Slimcc.Props.C76_attached",
    "Slimcc.Props.C76_accepted",
    "Slimcc.Props.C76_tokens",
    "Slimcc.Props.C76_unknown",
    "Slimcc.Props.C76_same",
    "Slimcc.Props.C76_empty_refused",
    "Slimcc.Props.C76_vendor_ignored",
    "Slimcc.Props.C76_trailing"
   ],
   "note": "Full for sources of tokens and specifiers; empty attributes are a proved departure. An attribute's own tokens are kept as they are."
  },
  {
   "property": "C77",
   "status": "proved",
   "theorems": [
    "Slimcc.Props.C77_assign",
    "Slimcc.Props.C77_statement",
    "Slimcc.Props.C77_labels"
   ],
   "note": "Full for designators of structures; the copy is given as a separate sequence, run on the processor with a vector register."
  },
  {
   "property": "C78",
   "status": "proved",
   "theorems": [
    "Slimcc.Props.C78_function",
    "Slimcc.Props.C78_declared_function",
    "Slimcc.Props.C78_order",
    "Slimcc.Props.C78_object",
    "Slimcc.Props.C78_object_conflict",
    "Slimcc.Props.C78_function_conflict",
    "Slimcc.Props.C78_function_section_departs",
    "Slimcc.Props.C78_late_departs",
    "Slimcc.Props.C78_asm_departs",
    "Slimcc.Props.C78_data_sections_departs"
   ],
   "note": "Full for the listed attributes with the exclusions of the statement; each exclusion has a departure theorem. Static objects are left to C61."
  },
  {
   "property": "C79",
   "status": "proved",
   "theorems": [
    "Slimcc.Props.C79_type",
    "Slimcc.Props.C79_lvalue",
    "Slimcc.Props.C79_value",
    "Slimcc.Props.C79_cond_quals_departs",
    "Slimcc.Props.C79_cond_void_departs",
    "Slimcc.Props.C79_composite_departs",
    "Slimcc.Props.C79_null_departs",
    "Slimcc.Props.C79_member_array_departs",
    "Slimcc.Props.C79_value_qualified_departs",
    "Slimcc.Props.C79_function_value_departs"
   ],
   "note": "The relation HasType of Spec/ExprType.lean is written from C23 6.3.2.1 and 6.5; with plain = false it is C's, with plain = true without the expressions named in the statement. C79_type by induction on derivations, using C14 for the arithmetic conversions and C15 for compatibility. C79_lvalue and C79_value are what sizeof/typeof and _Generic see. Seven departures have witnesses. Not modelled: bit-fields (promotions of those are C14), _Atomic, restrict, variable length arrays, arguments of calls, which identifier an expression refers to (C37), the search of members (C69), which expressions are constants (parameter ice0)."
  },
  {
   "property": "C80",
   "status": "proved",
   "theorems": [
    "Slimcc.Props.C80_compound",
    "Slimcc.Props.C80_prefix",
    "Slimcc.Props.C80_postfix",
    "Slimcc.Props.C80_postfix_statement",
    "Slimcc.Props.C80_labels",
    "Slimcc.Props.C80_division_departs"
   ],
   "note": "Compound assignments and increments of bit-fields, over the machine of C60. Division and remainder are restricted to operands that are not negative or fields promoted as their declared type; C80_division_departs shows why. Not covered: atomic and floating right operands, pointers (no such fields)."
  },
  {
   "property": "C81",
   "status": "proved",
   "theorems": [
    "Slimcc.Props.C81_declared",
    "Slimcc.Props.C81_file_scope",
    "Slimcc.Props.C81_plain",
    "Slimcc.Props.C81_last_attribute_departs",
    "Slimcc.Props.C81_extern_attribute_departs"
   ],
   "note": "Alignment of variables and typedef names from _Alignas and aligned; alignments of members are in C18. Departures from GCC's merging of attributes over redeclarations are theorems."
  },
  {
   "property": "C82",
   "status": "proved",
   "theorems": [
    "Slimcc.Props.C82_assign",
    "Slimcc.Props.C82_statement",
    "Slimcc.Props.C82_sequence"
   ],
   "note": "With optimization, which is the default. Statements that copy a variable of type long double are left out (movups). The conditions on long double casts and constants and on comparisons below ! are those of C63."
  },
  {
   "property": "C83",
   "status": "proved",
   "theorems": [
    "Slimcc.Props.C83_condition",
    "Slimcc.Props.C83_logical",
    "Slimcc.Props.C83_statements",
    "Slimcc.Props.C83_labels",
    "Slimcc.Props.C83_jumps",
    "Slimcc.Props.C83_not_nan"
   ],
   "note": "With optimization, which is the default. Loops, and integer relations in the same condition, are not modelled here. C83_logical: !, && and || with short circuit. C83_labels, C83_jumps: no named label is defined twice and each one jumped to is defined. C83_not_nan: unlike the value of a negated relation (C63_not_nan) a branch on it is right for operands that are not numbers."
  },
  {
   "property": "C84",
   "status": "proved",
   "theorems": [
    "Slimcc.Props.C84_loops",
    "Slimcc.Props.C84_only",
    "Slimcc.Props.C84_ends",
    "Slimcc.Props.C84_labels"
   ],
   "note": "With optimization, which is the default. break and continue without label are covered; deferred statements are left out; the label names of break and continue stand for those the parser makes. C84_ends: the code reaches its end exactly if the execution ends."
  }
 ]
}

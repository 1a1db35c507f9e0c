{
"C01": {"note": "Abort (internal error) is a distinct outcome shown unreachable while the live entries fit the int capacity; C01_overflow_is_ub shows where capacity doubling overflows."},
"C02": {"note": "C02_oversized_request_overruns: a request above one page is handed a block that overruns."},
"C04": {"note": "Round trip for every code point below 2^21. The decoder also accepts ill-formed input (C04_decoder_accepts_ill_formed)."},
"C08": {"note": "A file whose last line ends in backslash-newline loses its final newline (C08_trailing_splice_loses_newline)."},
"C09": {"note": "The punctuator list is the one of C23 without digraphs and '::' (C09_digraphs_not_recognised)."},
"C10": {"note": "The need for the final newline is shown by C10_final_newline_needed."},
"C12": {"note": "Floating constants are not modelled; deviations C12_double_prefix, C12_saturates, C12_decimal_too_large, C12_bad_octal_not_integer are proved on witnesses."},
"C13": {"note": "C13_file_name_not_escaped: __FILE__ is quoted without escaping; C13_stringize_backslash: # of a lone backslash is an error."},
"C14": {"note": "Arithmetic types: _Bool, the integer types, float, double, long double; bit-field widths arbitrary."},
"C15": {"note": "Symmetry and reflexivity are proved for every type built from base types, pointers, arrays, functions and tagged types, with object identity as a parameter; C15_no_prototype_incompatible: int f() is not compatible with int f(int)."},
"C17": {"note": "Model/Expr covers integer expressions: literals, variables, casts, unary, binary, shifts, comparisons, logical operators, ?:, comma, assignment, compound assignment and increments; both with and without folding while the tree is built. Host shift counts out of range are an arbitrary parameter; host signed overflow is taken to wrap. C17_int_min_div records the un-normalised result of INT_MIN / -1 (undefined in C). Floating, pointer and address constants are not modelled."},
"C18": {"note": "struct_decl gives exactly the ABI layout (every member at the first admissible bit position), members disjoint, aligned, inside, packed without padding; for structures below 2^31 bits. Proved departures: _Alignas ignored for aggregates in packed structures, int overflow/wrap on huge members.", "status": "proved"},
"C19": {"note": "Offset zero, least size, largest alignment, for members below 2^28 bytes; wrap of sizes of 2^32 and more shown as a departure.", "status": "proved"},
"C20": {"note": "Disjoint bits for packed and unpacked structures; unit containment for unpacked ones; zero-width boundary. Departures proved: packed bit-fields straddle their unit and units leave the object; width beyond the type accepted.", "status": "proved"},
"C21": {"note": "Departures: fields of 64-bit type narrower than 64 bits are loaded without extension in 64-bit registers (C21_long_field_not_extended, C21_assigned_long_not_truncated), and packed fields that straddle their unit are read and written wrongly (C21_packed_straddling_wrong)."},
"C22": {"note": "All type trees as the layout makes them and all initialisers of their shape; the layout theorems C18/C20 are shown to yield such types for structures that are not packed. The initialiser is taken as parsed (expression values given). Departures proved: _Bool bit-field initialised with 2 holds 0; a 64-bit (and, in the model, 63-bit) wide bit-field shifts out of range; a packed unit reaching outside the object is overrun."},
"C23": {"note": "Any list of case labels (with GNU ranges), any value of any integer type, merging on or off. Deviation proved: on unsigned types narrower than int the bounds are read as unsigned, so case -1 ... 5 is rejected and case 5 ... -1 is accepted."},
"C24": {"note": "Model/Directive models skip_cond_incl, the directives and preprocess2; the meaning is given on the tree of groups (Spec/Pp). Integer constant expressions, the file search and #line checks are parameters. #embed, #def and directives inside macro arguments are not modelled. C24_null_directive_misread and C24_hash_after_empty_macro prove two departures from the standard."},
"C25": {"note": "C25_recorded_guard and C25_guards_make_no_difference: the result is the same as that of the meaning of the tree, which knows no guards. C25_once: after a #pragma once a file is never entered again."},
"C26": {"note": "C26_terminates: multiset-order proof for all tables with closed bodies. C26_diverges: a departure, three definitions for which expansion never ends. C26_no_internal_error needs no condition on parentheses. C26_object_like: refinement to the standard's rescanning for object-like macros without ##. Function-like macros: termination and full expansion, no independent denotation.", "status": "proved"},
"C27": {"note": "Histories of #define, #undef, -D, -U, text and #ifdef of any length. C27_define_takes_next_line and C27_option_with_two_equals prove departures."},
"C28": {"note": "Macro argument splitting: for fixed and variadic macros the reader accepts exactly the argument lists described by the grammar in Spec/Macro (iff), with the extent of the call, uniqueness of the split and the diagnosis of wrong counts proved. __VA_TAIL__ and directives inside arguments are not modelled.", "status": "proved"},
"C30": {"note": "Integer expressions over variables of the frame or of static storage (every operator, both with the optimiser and without); temporaries in registers and in the frame included. Function calls, pointers, floating types, members and bit-fields are not in the expression model."},
"C31": {"note": "Integer, floating and x87 temporaries; calls by name and by pointer; both policies for the frame. Depths and offsets are unbounded naturals."},
"C32": {"note": "Per instruction sequence for every constant and register content, and as agreement of the whole expression compiled with and without the optimiser."},
"C33": {"note": "Sequences emitted instead of a division, and the whole expression for any divisor."},
"C34": {"note": "The integer expression language of C30, any nesting of !, &&, ||, comparisons, conditional operators and assignments."},
"C35": {"note": "For every byte count, address and memory content, with the instruction sequences executed on byte memory."},
"C36": {"note": "While the frame fits an int (FrameOk). C36_huge_variable_overlaps is the departure for variables of 4 GiB. C36_env connects the placement to the assumption of the theorems on compiled code. Prologue and epilogue are included; the register save area is in C53."},
"C37": {"note": "Departures proved: long double member, eightbyte of padding, misaligned member.", "status": "proved"},
"C38": {"note": "Integer types. Conversions from and to floating types are not modelled."},
"C39": {"note": "Outside the stated ranges the property fails: C39_top_values_lost (A = 0xFFFFFFFFFFFFFFFF gets a 32-bit type) and C39_fixed_ulong_accepts_negative."},
"C40": {"note": "C40_repeated_sign_accepted: unsigned unsigned int is accepted. C40_implicit_int: no specifier at all means int.", "status": "proved"},
"C41": {"note": "Spec/Scope.lean gives lexical scoping (an association list, restored at the end of a block). C41_innermost_declaration: for every history, all lookups of the scope chain give the lexical meaning and no freed map is used; C41_leaving_restores: after any block, in any nesting, every name means what it meant; C41_declaration_is_found. Departures: C41_declared_in_call_is_lost, C41_function_redeclared_in_block, C41_extern_in_block.", "status": "proved"},
"C42": {"note": "Spec/Live.lean: Needed = least set with the functions that must be emitted, closed under uses. C42_written_iff_needed: noting of uses, marking (which ends: the depth of the recursion is bounded by the number of functions) and output, for all reference graphs. Uses by assembly text, alias attributes and the linker are outside the model.", "status": "proved"},
"C43": {"note": "Structured exits by simulation of every run of the specification; gotos by static characterisation of acceptance and by the run of the code from just before the goto to just after the label. Departures: C43_case_in_loop_skips_defer, C43_deferred_loop_twice. Not modelled: VLA deallocation, computed goto, statement expressions.", "status": "proved"},
"C44": {"note": "Parser of parse.c from expr down to primary (without compound literals, statement expressions, _Generic, builtins; a type name is one token; typing left out) against the left-recursive grammar of C23 6.5. Complete for C, sound for C plus two liberties, exactly C without sizeof and assignment; the grammar is shown unambiguous; fuel is shown to be enough. Departures proved: C44_conditional_before_assignment, C44_subscripted_sizeof. Commas group to the right, with the operands of the standard's left grouping in order (C44_commas).", "status": "proved"},
"C45": {"note": "Model/Driver models add_include_path and the end of parse_args. The strings are byte lists."},
"C46": {"note": "The reading by make is specified in Spec/Make after GNU make's rule for backslashes. C46_backslash_hash_lost, C46_colon_lost and C46_prerequisites_not_quoted prove where the output is not read back."},
"C47": {"note": "Variables of every integer type; both as a value and as a statement. Bit-fields, pointers and floating types are not covered."},
"C48": {"note": "Proved for every list of operands and clobbers. Register variables are accepted only where the constraint admits their kind (C48_register_variable). Departures proved with witnesses: the same register named twice (or named and clobbered) is accepted silently; an input tied to a memory output is loaded into the register of the output's address; clobbers xmm16-23 are dropped and xmm24 and up write out of bounds. Not modelled: the x87 stack discipline. The code around the text is C66, the text C67.", "status": "proved"},
"C49": {"note": "main's loop is modelled up to the programs it runs and the arguments of the linker (exit codes and forking are not)."},
"C50": {"note": "Function bodies of any nesting with integer expressions; optimisation on and off. Defer, VLAs, computed goto, asm and calls are not in the statement language; main's implicit return 0 is not modelled. A duplicate label is not diagnosed by the parser (shown by an example)."},
"C51": {"note": "C51_next_after_cached proves that a cached search loses the directory number, so that a later #include_next starts from the first directory."},
"C52": {"note": "Arguments computed straight into a register with -O are not covered. Departures proved: loads read past the end of small structures; a struct with only an unnamed bit-field is an internal error.", "status": "proved"},
"C53": {"note": "Locations only; the bytes are those of C52 and C35.", "status": "proved"},
"C54": {"note": "Specification Spec/MacroSubst.lean: replacement lists as operands and chains. Proved for lists in which the last operand of a ## chain does not follow an empty one (unless expanding it changes nothing), and no empty operand stands left of ## inside __VA_OPT__; outside of this the code departs from C (C54_after_empty_operand, C54_empty_operand_in_va_opt). Pasting and stringizing of tokens are parameters (C29 covers stringizing)."},
"C55": {"note": "Arrays of known and of unknown length; ranges in designators are not modelled; designators outside the object are rejected; departures for overriding initializers, {3,}, {\"a\",}, large and negative indices are proved as witnesses", "status": "proved"},
"C56": {"note": "Stuttering refinement of interleaved machine instructions to whole operations, lock-freedom, termination, no lost increments; excludes assignments that need a conversion (C56_store_not_converted), loads into wider variables, and _Bool objects without optimization."},
"C57": {"note": "Proved for every declarator C allows, by induction on the length of its text. Specifiers and size expressions are single tokens; identifier lists, attributes and names that are typedefs in an outer scope are not modelled. Departures from C are proved as examples (C57_junk_accepted and others).", "status": "proved"},
"C58": {"note": "C58_reread: for every readable token sequence, with or without line markers. C58_reread_file: through all phases of reading a file. C58_source(_file): every source file (without directives and macros). C58_twice: the output is a fixed point. C58_spaced: separated tokens. C58_tokens_joined, C58_backslash_lost, C58_name_not_escaped: where it fails.", "status": "proved"},
"C59": {"note": "Sound for every designator and pointer expression (C59_designator, C59_number, C59_initializer) and complete for members, constant subscripts and the address constants made from them (C59_resolves, C59_offset, C59_accepted). Departures: C59_sum_of_integers, C59_rejected, C59_far. Objects whose contents the compiler knows, functions, labels, bit-fields and variable-length arrays are not modelled.", "status": "proved"},
"C60": {"note": "Address, value, pointer and assignment code of designators proved on the processor model for both settings of the optimiser; conversions between integers and pointers and offsets of 2 GiB are excluded because the compiler gets them wrong (C60_far, C60_cast_dropped).", "status": "proved"},
"C61": {"note": "Names, storage and linkage; attributes other than gnu_inline, asm names, _Alignas, constexpr and thread-local storage are not modelled. C61_extern_init, C61_length_lost, C61_misaligned, C61_extern_hidden and C61_inline_first show where the code departs from C; these cases are excluded by NoExternInit, Lengths, Known, UnitOpen and the hypothesis on the first declaration of a function.", "status": "proved"},
"C62": {"note": "All rows and columns of the cast table with a floating type. The nearest number is specified over the rationals. Excluded and characterised by C62_ldouble_short, C62_ldouble_ushort, C62_ldouble_uint: three wrong conversions from long double. Conversion to bool is not in this property.", "status": "proved"},
"C63": {"note": "Expressions over variables, constants, unary minus, + - * /, comparisons, ! and casts with a floating side. Departures proved: C63_not_nan, C63_folded_twice, C63_folded_int."},
"C64": {"note": "C64_direct and C64_pointer: the state at the call instruction, for every argument list; C64_aligned; C64_after and C64_after_void: what follows the call, for whatever the function did within the ABI; C64_order: left-to-right evaluation of independent arguments gives the values the other theorems speak of. Arguments contain no call themselves.", "status": "proved"},
"C66": {"note": "C66_asm: what the text finds and what the program finds after it, for every accepted statement with operands in general registers, memory, numbers and flags, every text within the contract. ex66_holds: eight operands, %rbp clobbered.", "status": "proved"},
"C67": {"note": "C67_template: printed text = what the template stands for, refused iff nothing; C67_unique, C67_numbering. Departure C67_goto_skips_restore.", "status": "proved"},
"C68": {"note": "Run of string tokens with the text each was read from. Departures C68_u8_u_overflows and C68_u_u8_wrong: u8 next to u, which the main theorems exclude. Lengths are not bounded (int in the code).", "status": "proved"},
"C69": {"note": "Types are qualifiers plus members; bit-field attributes are left out. C69_qualifiers excludes members of anonymous members and atomic or restrict members: departures C69_anonymous_not_const, C69_volatile_not_atomic.", "status": "proved"},
"C70": {"note": "Builds on the data model of C22 (well-formed types, no bit-fields that cross their storage unit). The variable and offset a designator stands for are C59. Departure C70_constexpr_address. Reads of floating types share eval_constexpr_data; their conversion is not modelled here.", "status": "proved"},
"C71": {"note": "C71_storage: after every history that leaves room on the stack, the arrays in scope are stored apart and aligned at or above the stack pointer, and nothing else is kept if the function gives storage back. C71_deferred: order of deferred statements and storage during each. C71_size: size. Departures proved: C71_int_size, C71_builtin_alloca_freed. Not modelled: the deferred statements' own code; jumps into the scope of an array (refused by the parser)."},
"C72": {"note": "Integer objects through any designator of C60; compound assignment, prefix and postfix ++/--, in value and statement position (pointers: C75). Not: bit-fields, atomics, right operands reading other objects."},
"C73": {"note": "Tokens are their spellings. The value of the limit expression is a parameter of the model; finding the file is not part of it (see C51). C73_negative_limit and C73_underscores are departures from C23."},
"C74": {"note": "The excluded cases are departures: C74_two_line_marker, C74_leading_zero, C74_included_twice, C74_name_then_include. Line numbers are unbounded in the model."},
"C75": {"note": "Pointers through any designator of C60, index over integer variables; value and statement position. Not: pointers to variable length arrays, atomic pointers, indices reading other objects."},
"C76": {"note": "Full for sources of tokens and specifiers; empty attributes are a proved departure. An attribute's own tokens are kept as they are."},
"C77": {"note": "Full for designators of structures; the copy is given as a separate sequence, run on the processor with a vector register."},
"C78": {"note": "Full for the listed attributes with the exclusions of the statement; each exclusion has a departure theorem. Static objects are left to C61."},
"C79": {"note": "The relation HasType of Spec/ExprType.lean is written from C23 6.3.2.1 and 6.5; with plain = false it is C's, with plain = true without the expressions named in the statement. C79_type by induction on derivations, using C14 for the arithmetic conversions and C15 for compatibility. C79_lvalue and C79_value are what sizeof/typeof and _Generic see. Seven departures have witnesses. Not modelled: bit-fields (promotions of those are C14), _Atomic, restrict, variable length arrays, arguments of calls, which identifier an expression refers to (C37), the search of members (C69), which expressions are constants (parameter ice0).", "status": "proved"},
"C80": {"note": "Compound assignments and increments of bit-fields, over the machine of C60. Division and remainder are restricted to operands that are not negative or fields promoted as their declared type; C80_division_departs shows why. Not covered: atomic and floating right operands, pointers (no such fields).", "status": "proved"},
"C81": {"note": "Alignment of variables and typedef names from _Alignas and aligned; alignments of members are in C18. Departures from GCC's merging of attributes over redeclarations are theorems.", "status": "proved"},
"C82": {"note": "With optimization, which is the default. Statements that copy a variable of type long double are left out (movups). The conditions on long double casts and constants and on comparisons below ! are those of C63.", "status": "proved"},
"C83": {"note": "With optimization, which is the default. Loops, and integer relations in the same condition, are not modelled here. C83_logical: !, && and || with short circuit. C83_labels, C83_jumps: no named label is defined twice and each one jumped to is defined. C83_not_nan: unlike the value of a negated relation (C63_not_nan) a branch on it is right for operands that are not numbers."},
"C84": {"note": "With optimization, which is the default. break and continue without label are covered; deferred statements are left out; the label names of break and continue stand for those the parser makes. C84_ends: the code reaches its end exactly if the execution ends."}
}

{"id": "C01", "title": "Name tables behave as finite maps", "statement": "After any sequence of put, get and delete calls on a name table (used for scopes, macros, keywords, include guards), a lookup of a byte string returns exactly the value most recently put under that byte string, or nothing if it was never put or was deleted since; no operation ever aborts with an internal error, including across growth and tombstone build-up.", "quantifier": "every finite history of put/get/delete operations, every key set (including arbitrary hash collisions), every table size reached", "why_tests_cant": "The failure modes (probe chains through tombstones, growth while tombstones are present, full table) depend on the whole history and on hash collisions; tests see a handful of histories.", "anchors": ["hashmap.c:rehash", "hashmap.c:get_entry", "hashmap.c:get_or_insert_entry", "hashmap.c:hashmap_put2", "hashmap.c:hashmap_get2", "hashmap.c:hashmap_delete2"]}
{"id": "C02", "title": "Arena blocks never alias and are aligned", "statement": "Between switching the AST arena on and off, any two blocks handed out occupy disjoint byte ranges, every block lies inside its page, is 16-byte aligned and as long as requested, provided each request is at most one page; a request larger than a page is handed a block that overruns its page.", "quantifier": "every sequence of allocation requests of any sizes, and every number of arena on/off epochs", "why_tests_cant": "Aliasing shows up only for particular size sequences that straddle page ends; it corrupts the AST silently.", "anchors": ["alloc.c:allocate", "alloc.c:arena_on", "alloc.c:arena_off"]}
{"id": "C03", "title": "Growable string arrays keep every element in order", "statement": "After pushing any sequence of strings on a fresh array, the array holds exactly that sequence in order, the length is the number of pushes, no write falls outside the allocated capacity, and when the length is below capacity the slot after the last element is NULL (the argv convention).", "quantifier": "every sequence of pushes of any length", "why_tests_cant": "Growth happens at 8, 16, 32, ...; tests exercise few lengths.", "anchors": ["strings.c:strarray_push"]}
{"id": "C04", "title": "UTF-8 encoding and decoding are inverse", "statement": "Encoding any Unicode code point to UTF-8 and decoding it gives back the same code point and consumes exactly the bytes produced, whatever bytes follow; the encoding is the one defined by the Unicode standard.", "quantifier": "every code point 0..0x1FFFFF and every continuation of the buffer", "why_tests_cant": "1.1 million scalar values times arbitrary following bytes; boundary widths at 0x80, 0x800, 0x10000.", "anchors": ["unicode.c:encode_utf8", "unicode.c:decode_utf8"]}
{"id": "C05", "title": "UTF-16 and UTF-32 string literals carry the right code units", "statement": "A u\"...\" literal denotes the UTF-16 encoding of its text (surrogate pairs above U+FFFF) and a U\"...\" literal its code points; decoding the emitted UTF-16 units gives the original text back, and the emitted array fits the buffer the tokenizer allocates.", "quantifier": "every sequence of code points in a literal", "why_tests_cant": "Every code point, in every position, for every length of literal.", "anchors": ["tokenize.c:read_utf16_string_literal", "tokenize.c:read_utf32_string_literal"]}
{"id": "C06", "title": "Identifier characters are exactly those of the tables", "statement": "A code point is accepted as an identifier start (continuation) character exactly when it lies in one of the closed intervals the C standard lists; the display width is 0, 2 or 1 according to the width tables; the search never reads past the end of a table.", "quantifier": "every 32-bit code point and every table", "why_tests_cant": "4 billion inputs; wrong interval boundaries or a missed terminator are only visible on specific inputs.", "anchors": ["unicode.c:in_range", "unicode.c:is_ident1", "unicode.c:is_ident2", "unicode.c:char_width", "unicode.c:display_width"]}
{"id": "C07", "title": "Newline canonicalisation preserves text and lines", "statement": "Reading a file replaces each CRLF and each lone CR by one LF and changes nothing else; the result contains no CR, doing it twice is the same as once, and the number of lines is unchanged.", "quantifier": "every file content", "why_tests_cant": "In-place two-index loops; the property ranges over all byte strings.", "anchors": ["tokenize.c:canonicalize_newline"]}
{"id": "C08", "title": "Line splicing keeps physical line numbers", "statement": "Removing backslash-newline pairs joins the lines for tokenisation but keeps the total number of newlines in the file, so that the n-th line following a logical line still has its original line number; the text with newlines ignored is the original text without the pairs; the rewriting never writes past what it has read.", "quantifier": "every file content", "why_tests_cant": "In-place rewriting loop whose bookkeeping (pending newline count) only fails on particular interleavings of splices and newlines, including splices at end of file.", "anchors": ["tokenize.c:remove_backslash_newline"]}
{"id": "C09", "title": "Punctuators are split by maximal munch", "statement": "At any position the tokenizer recognises the longest punctuator of the C grammar that is a prefix of the text, and none if no punctuator starts there.", "quantifier": "every text", "why_tests_cant": "Order-dependent prefix matching over 46+ spellings; each pair of overlapping spellings could be in the wrong order.", "anchors": ["tokenize.c:read_punct"]}
{"id": "C10", "title": "Tokenisation loses nothing and always terminates", "statement": "Tokenising a source buffer terminates, every token is the exact text at its position, tokens are in source order and disjoint, what lies between two tokens is only white space and comments, and no byte beyond the terminating NUL is read, provided the buffer ends with a newline.", "quantifier": "every newline-terminated buffer without embedded NUL", "why_tests_cant": "Ranges over all source texts; unterminated comments and literals at the end of buffer are the typical failure.", "anchors": ["tokenize.c:tokenize", "tokenize.c:string_literal_end", "tokenize.c:read_ident", "tokenize.c:new_pp_number"]}
{"id": "C11", "title": "Tokens carry the line number of their first character", "statement": "After tokenising a file, the line number recorded on each token is one plus the number of newlines before it in the buffer, and the beginning-of-line flag is set exactly for the first token of a line.", "quantifier": "every file content and every token list in it", "why_tests_cant": "Depends on a linear scan in lock step with the token list, for every interleaving of tokens and newlines.", "anchors": ["tokenize.c:add_line_numbers", "tokenize.c:tokenize"]}
{"id": "C12", "title": "Integer literals have the value and type the C standard gives them", "statement": "A decimal, octal, hexadecimal or binary literal with any digit separators and suffix, shorter than 227 bytes and representable in one of the types the standard lists for its base and suffix, is converted to its mathematical value and the first such type; conversely, a preprocessing number is only taken as an integer if it is prefix, digits and suffix of such a form (or has its 0x doubled), and its value saturates at 2^64-1.", "quantifier": "every literal text", "why_tests_cant": "Infinite set of spellings times suffixes times value boundaries.", "anchors": ["tokenize.c:convert_pp_int"]}
{"id": "C13", "title": "String escapes decode as specified and quoting round-trips", "statement": "Simple, octal and hexadecimal escapes decode to the byte the standard defines; the operand of # is turned into one string literal whose content is the spelling of the operand; text quoted without escaping (__FILE__) round-trips when it has no quote or backslash.", "quantifier": "every string content", "why_tests_cant": "Every byte sequence including quotes, backslashes, digits following octal escapes.", "anchors": ["tokenize.c:read_escaped_char", "tokenize.c:string_literal_end", "tokenize.c:read_string_literal", "preprocess.c:quote_string"]}
{"id": "C14", "title": "Integer promotions and usual arithmetic conversions follow C", "statement": "For every pair of arithmetic types the compiler picks the common type of C 6.3.1.8; the choice is symmetric, and converting either operand to it preserves the value whenever the standard says so. Bit-fields promote to int, unsigned int or their own type according to width.", "quantifier": "every pair of arithmetic types and every bit-field width", "why_tests_cant": "Tests sample a few pairs; the claim concerns the entire table including widths and value preservation for all values.", "anchors": ["type.c:int_promotion", "type.c:get_common_type", "type.c:int_rank", "type.c:usual_arith_conv"]}
{"id": "C15", "title": "Type compatibility is reflexive and symmetric and ignores qualifiers at top level", "statement": "Whether two types are considered compatible does not depend on the order in which they are given; every type is compatible with itself; _Generic therefore selects an association independently of which operand of the check is the controlling type.", "quantifier": "every pair of types built from basic, pointer, array and function types, of any depth", "why_tests_cant": "Types are an infinite inductive family.", "anchors": ["type.c:is_compatible", "type.c:is_compatible2", "parse.c:generic_selection"]}
{"id": "C16", "title": "Dropping redundant integer casts never changes a value", "statement": "Whenever the compiler removes the inner of two nested integer casts, converting directly from the innermost type to the outermost gives the same value as performing both conversions.", "quantifier": "every triple of integer types and every value of the innermost type", "why_tests_cant": "2^64 values times every triple of types.", "anchors": ["type.c:is_redundant_cast", "parse.c:new_cast"]}
{"id": "C17", "title": "Constant folding agrees with C arithmetic", "statement": "For every well-typed integer constant expression, the value the compiler computes at translation time is the value of the C abstract machine with two's-complement wrap-around at the type of each node; division by zero is diagnosed and never evaluated; && || ?: do not evaluate the operand C does not evaluate.", "quantifier": "every integer expression tree of any depth, every operand value", "why_tests_cant": "Infinite family of expressions; mistakes are missing re-normalisations at one operator for one width.", "anchors": ["parse.c:eval2", "parse.c:eval_sign_extend", "parse.c:new_cast", "parse.c:is_const_expr"]}
{"id": "C18", "title": "Structure layout is sound", "statement": "Members of a structure are laid out in declaration order at offsets that are multiples of their alignment, occupy disjoint storage inside the structure, and the size is the least multiple of the structure's alignment that contains them; a packed structure has no padding.", "quantifier": "every list of members with any sizes, alignments and bit-field widths", "why_tests_cant": "All member lists of any length; bit-field/regular member interleavings.", "anchors": ["parse.c:struct_decl", "codegen.c:align_to"]}
{"id": "C19", "title": "Union layout is sound", "statement": "All members of a union start at offset zero, the size is the least multiple of the largest alignment that holds the largest member.", "quantifier": "every list of members", "why_tests_cant": "All member lists of any length.", "anchors": ["parse.c:union_decl"]}
{"id": "C20", "title": "Bit-fields occupy disjoint bits inside their storage unit", "statement": "Distinct bit-fields of a structure occupy disjoint bit ranges, each lies entirely within an aligned unit of its declared type, bit-fields never overlap an ordinary member, and a zero-width bit-field forces the next one to a new unit.", "quantifier": "every member list with any widths not exceeding the declared types", "why_tests_cant": "Allocation depends on the whole prefix of members.", "anchors": ["parse.c:struct_decl"]}
{"id": "C21", "title": "Writing a bit-field changes only that field and reads back what was written", "statement": "Generated code that stores to a bit-field leaves every bit outside the field as it was, in the storage unit and in the rest of memory, and a subsequent load gives the stored value truncated to the field's width and sign- or zero-extended according to its type: to the whole register for types of at most 32 bits, in the field's own bits for long types (where the high bits are not extended, a departure proved beside it), for every field that does not straddle its storage unit.", "quantifier": "every width, offset, signedness, storage content and stored value", "why_tests_cant": "2^64 storage contents times 2^64 values times 2080 (width, offset) pairs.", "anchors": ["codegen.c:gen_bitfield_load", "codegen.c:gen_bitfield_store"]}
{"id": "C22", "title": "Static initialisers produce the bytes the object would hold", "statement": "The data emitted for an initialised static object (scalar, array, structure, union, bit-field, copied constant object) assembles to exactly the size of the object; each initialised scalar and bit-field holds the little-endian bits of its converted value at its place, each address constant a relocation there, and every other bit is zero; nothing outside the object is written.", "quantifier": "every type tree and every assignment of constant values", "why_tests_cant": "Infinite family of aggregate types; bit-field merging depends on neighbours.", "anchors": ["parse.c:write_gvar_data", "parse.c:write_buf", "parse.c:read_buf", "codegen.c:emit_data"]}
{"id": "C23", "title": "switch dispatches like C", "statement": "For any set of case labels and GNU case ranges, the generated comparison chain jumps to the label whose (converted) range contains the controlling value, to the default label otherwise, or past the statement if there is none; overlapping labels are rejected at compile time.", "quantifier": "every controlling value, every list of case ranges, every promoted controlling type", "why_tests_cant": "2^64 controlling values times all range lists; boundary mistakes hide at range ends.", "anchors": ["parse.c:label_stmt", "parse.c:less_eq", "codegen.c:gen_stmt ND_SWITCH"]}
{"id": "C24", "title": "Conditional inclusion selects exactly one branch", "statement": "In a well-nested #if/#elif/#else/#endif group the preprocessor keeps exactly the lines of the first branch whose condition is true (or #else when none is), skips nested groups inside skipped branches without evaluating their conditions, and diagnoses stray or unterminated directives. (A null directive directly followed by a text line is excluded: the code reads the first word of that line as the directive's keyword.)", "quantifier": "every sequence of lines and directives nested to any depth", "why_tests_cant": "Unbounded nesting and all combinations of truth values.", "anchors": ["preprocess.c:skip_cond_incl", "preprocess.c:skip_cond_incl2", "preprocess.c:push_cond_incl", "preprocess.c:preprocess2"]}
{"id": "C25", "title": "Include guards and #pragma once only skip what would be empty", "statement": "A file is skipped on re-inclusion by guard detection only if its entire content is wrapped in #ifndef M ... #endif and M is currently defined, in which case including it would produce no tokens and no side effects; a file marked #pragma once is included at most once.", "quantifier": "every file content and every macro state at re-inclusion", "why_tests_cant": "Depends on the history of definitions between inclusions.", "anchors": ["preprocess.c:include_file", "preprocess.c:detect_include_guard", "preprocess.c:preprocess2"]}
{"id": "C26", "title": "Macro expansion terminates and never re-expands a macro inside its own expansion", "statement": "Expanding any token list under any finite set of macro definitions, including mutually recursive ones, in whose replacement lists every opening parenthesis has its closing one, terminates with a list or a diagnostic and never with an internal error; a macro name occurring in the expansion of that same macro is left as is (for object-like macros the result is exactly the rescanning of the C standard), and names that are not blocked are all replaced. Without the condition on parentheses the expansion may go on for ever.", "quantifier": "every finite macro table (any recursion pattern) and every input token list", "why_tests_cant": "Termination over all recursion patterns cannot be established by running examples.", "anchors": ["preprocess.c:expand_macro", "preprocess.c:push_macro_lock", "preprocess.c:pop_macro_lock", "preprocess.c:insert_objlike"]}
{"id": "C27", "title": "The macro table reflects the directives seen so far", "statement": "An identifier is replaced exactly when the last #define/#undef for it (source or command line) before that point was a #define, using that definition's body; defined(X) and #ifdef X agree with this. (Excluded: a #define line that consists of a name only and is followed by a line with ( in its first column.)", "quantifier": "every sequence of #define/#undef/-D/-U and uses", "why_tests_cant": "Histories of any length over any names.", "anchors": ["preprocess.c:read_macro_definition", "preprocess.c:find_macro", "preprocess.c:undef_macro", "preprocess.c:define_macro_cli"]}
{"id": "C28", "title": "Macro arguments are split at top-level commas only", "statement": "The arguments of a function-like macro invocation are the token sequences between the commas not enclosed in parentheses, up to the matching parenthesis; variable arguments receive the whole rest; the number of arguments is checked; nothing is lost or duplicated.", "quantifier": "every token list after a macro name, with any nesting of parentheses", "why_tests_cant": "Unbounded nesting and lengths.", "anchors": ["preprocess.c:read_macro_arg_one", "preprocess.c:read_macro_args"]}
{"id": "C29", "title": "Stringizing and joining reproduce the token spelling", "statement": "The # operator yields the spellings of the argument's tokens separated by one space wherever the source had white space, with no leading or trailing blank; the buffer allocated for it is exactly large enough.", "quantifier": "every token list", "why_tests_cant": "All token lists; an off-by-one in the two-pass size computation overflows the heap.", "anchors": ["preprocess.c:join_tokens", "preprocess.c:stringize"]}
{"id": "C30", "title": "Compiled integer expressions compute their C value", "statement": "The machine code generated for an integer expression over constants, variables, unary, binary, comparison, logical, conditional, comma, cast and assignment operators leaves in the result register the value the C abstract machine computes, and updates the variables as C does.", "quantifier": "every expression tree of any depth, every variable assignment, every register content at entry", "why_tests_cant": "Compiler correctness: all programs times all inputs.", "anchors": ["codegen.c:gen_expr2", "codegen.c:gen_expr", "codegen.c:load2", "codegen.c:store3", "codegen.c:gen_cast"]}
{"id": "C31", "title": "Temporaries survive the evaluation of other operands", "statement": "A value saved while another operand is evaluated is intact when it is taken back, whether the compiler placed it in a register or in a stack slot, for every nesting depth, and no two simultaneously live temporaries share a register or slot.", "quantifier": "every properly nested sequence of saves and restores of any depth, with calls in between", "why_tests_cant": "The register/stack decision is made retroactively when the value is popped, from the maximum nesting seen in between.", "anchors": ["codegen.c:push_tmpstack", "codegen.c:pop_tmpstack", "codegen.c:clobber_gp", "codegen.c:clobber_all_regs"]}
{"id": "C32", "title": "Immediate-operand shortcuts compute the same result as the general code", "statement": "When one operand is a constant, the shortened instruction chosen by the optimiser (inc/dec, neg, xor-zero, shifts for multiplication, and/mov for masks, test for zero compare, folded immediates) leaves the same value of the operation's type as the general instruction sequence.", "quantifier": "every 64-bit constant, every register content, every operator, both operand sizes, both orders", "why_tests_cant": "2^128 operand pairs per operator.", "anchors": ["codegen.c:imm_arith", "codegen.c:imm_add", "codegen.c:imm_sub", "codegen.c:imm_and", "codegen.c:imm_cmp", "codegen.c:gen_arith_opt_gp"]}
{"id": "C33", "title": "Division and remainder by powers of two are exact", "statement": "The shift/mask sequences emitted for division and remainder by a constant give the C quotient and remainder (truncation toward zero), for signed and unsigned types, and the special cases 0, 1, -1 are handled.", "quantifier": "every dividend, every constant divisor, both sizes, both signednesses", "why_tests_cant": "2^64 dividends times all divisors.", "anchors": ["codegen.c:divmod_opt"]}
{"id": "C34", "title": "Conditions branch on the truth value", "statement": "The code generated for a condition jumps to the requested label exactly when the C value of the condition has the requested truth value, for nested !, &&, ||, comparisons and casts to bool; sub-conditions C does not evaluate are not executed.", "quantifier": "every condition tree and every valuation", "why_tests_cant": "Jump-sense inversions compose over unbounded trees.", "anchors": ["codegen.c:gen_cond", "codegen.c:gen_logical", "codegen.c:bool_expr_opt", "codegen.c:flip_cmp"]}
{"id": "C35", "title": "Block copies and clears touch exactly their range", "statement": "The instruction sequence emitted for copying or zeroing n bytes reads and writes exactly bytes 0..n-1, each ends up with the right value, whichever chunk sizes and overlapping tail stores are used.", "quantifier": "every byte count n and every memory content", "why_tests_cant": "Every n; overlapping tails at chunk boundaries.", "anchors": ["codegen.c:gen_mem_copy2", "codegen.c:gen_mem_zero", "codegen.c:store_gp2"]}
{"id": "C36", "title": "Local variables that are live together do not overlap on the stack", "statement": "In the frame of any function, two variables of the same or nested scopes occupy disjoint stack ranges, each is aligned as its type or declaration requires whatever the stack pointer at the call, and all lie within the frame, with and without reuse of the space of sibling scopes. The prologue changes nothing the caller owns, and the epilogue gives back the caller's stack pointer, %rbp and %rbx and returns, wherever the body left the stack pointer.", "quantifier": "every scope tree with variables of any sizes and alignments", "why_tests_cant": "Unbounded trees of scopes.", "anchors": ["codegen.c:assign_lvar_offsets", "codegen.c:get_lvar_align"]}
{"id": "C37", "title": "Argument passing follows the System V ABI for integer and SSE classes", "statement": "Arguments are assigned to the six integer and eight SSE registers in order, an aggregate goes in registers only if registers are left for all its eightbytes, everything else is placed on the stack in order, disjoint and aligned, as the System V ABI demands for types without misaligned fields, long double members or eightbytes of padding only; caller and callee agree on every location.", "quantifier": "every parameter list of any length with any types", "why_tests_cant": "Register exhaustion interleavings of unbounded parameter lists.", "anchors": ["codegen.c:calling_convention", "codegen.c:has_flonum", "codegen.c:place_reg_arg", "codegen.c:emit_text"]}
{"id": "C38", "title": "Integer conversions in generated code are C conversions", "statement": "The instruction chosen to convert between any two integer types turns a register holding a value of the source type into one holding the converted value of the target type, and loads extend narrow objects correctly.", "quantifier": "every ordered pair of integer types, every register content including unspecified upper bits", "why_tests_cant": "2^64 register values times all pairs of types; correctness relies on unspecified upper bits.", "anchors": ["codegen.c:cast_table", "codegen.c:gen_cast", "codegen.c:load_extend_int", "codegen.c:load_val2"]}
{"id": "C39", "title": "Enumeration constants keep their values and the enum type can represent them", "statement": "Each enumerator has its explicit value or the previous one plus one, and the type chosen for the enumeration can represent all of them, provided the values all fit a signed 64-bit integer or are all non-negative and below 2^64-2^31; with a fixed underlying type (other than unsigned 64-bit ones) the declaration is accepted exactly when all values are in range.", "quantifier": "every enumerator list of any length and values", "why_tests_cant": "Running overflow and sign tracking over unbounded lists.", "anchors": ["parse.c:enum_specifier", "parse.c:in_ty_range"]}
{"id": "C40", "title": "Declaration specifiers mean the same in any order", "statement": "Permuting the basic type specifiers of a declaration yields the same type; every multiset of specifiers the C standard lists is accepted with the type the standard gives, every other is rejected, except that a repeated signed or unsigned is accepted and that no specifier at all means int, as in C90.", "quantifier": "every sequence of basic type specifiers of any length", "why_tests_cant": "Sequences of any length; the counter encoding could alias two multisets.", "anchors": ["parse.c:declspec"]}
{"id": "C41", "title": "Identifier lookup follows lexical scoping", "statement": "A use of a variable, function, enumeration constant, typedef name or tag refers to the declaration in the innermost enclosing scope that declares it; leaving a scope restores exactly the outer bindings, and no scope's table is used after it was freed. Exceptions, proved as such: a name declared inside a call's arguments is lost after the call, and an extern or function declaration in a block does not hide a local variable of the same name.", "quantifier": "every history of entering/leaving scopes and declaring names", "why_tests_cant": "Histories of any length and depth.", "anchors": ["parse.c:enter_scope", "parse.c:leave_scope", "parse.c:find_var", "parse.c:find_tag", "parse.c:push_scope"]}
{"id": "C42", "title": "A static inline function is emitted iff reachable from a root", "statement": "The set of functions for which code is emitted is exactly the set reachable by references from the functions that must be emitted, for call graphs with any cycles.", "quantifier": "every reference graph", "why_tests_cant": "Graph reachability over arbitrary graphs, including cycles.", "anchors": ["parse.c:mark_fn_live", "parse.c:parse"]}
{"id": "C43", "title": "Deferred statements run in reverse order on every exit path", "statement": "On leaving a block by falling off its end, break, continue or return from any depth, the pending defers and cleanups of exactly the scopes being left run, in reverse order of registration; a goto is accepted exactly if it only leaves scopes with pending defers, and then runs exactly the ones pending at the goto and not at the label; a case label is not reached past a defer of its switch (not so if it is inside a loop in the switch, which the code accepts; and a loop or label inside a deferred statement may be emitted twice with the same label).", "quantifier": "every nesting of blocks and defers and every jump source/target pair", "why_tests_cant": "All pairs of positions in unbounded nesting.", "anchors": ["parse.c:new_defr", "parse.c:resolve_goto_labels", "codegen.c:gen_defr"]}
{"id": "C44", "title": "Expressions group as the C grammar groups them", "statement": "Every expression of the C grammar (binary, unary, postfix, cast, sizeof, conditional, assignment and comma operators, calls and subscripts) is accepted and grouped as the grammar groups it; what is accepted beyond C is exactly a conditional expression before an assignment operator and postfix operators after a sizeof; printing the tree with full parentheses and reparsing gives the same tree; the parser stops exactly where the expression ends.", "quantifier": "every token sequence and every expression tree, of any length and depth", "why_tests_cant": "Infinite set of expressions.", "anchors": ["parse.c:log_or", "parse.c:log_and", "parse.c:bit_or", "parse.c:bit_xor", "parse.c:bit_and", "parse.c:equality", "parse.c:relational", "parse.c:shift", "parse.c:add", "parse.c:mul", "parse.c:conditional", "parse.c:expr"]}
{"id": "C45", "title": "Include path list is normalised without losing a directory", "statement": "Adding include directories keeps first occurrences in order, ignores trailing slashes for comparison, never stores duplicates, and user directories which are also system directories are searched only at their system position.", "quantifier": "every sequence of -I/-isystem options", "why_tests_cant": "Sequences of any length.", "anchors": ["main.c:add_include_path", "main.c:parse_args"]}
{"id": "C46", "title": "Makefile quoting is reversible and in bounds", "statement": "The dependency-file quoting of a target escapes $, #, blanks and backslashes before blanks so that make reads back the original name (for names without newlines, colons, a final backslash or a backslash directly before #), and never writes past the buffer of twice the name's length plus one.", "quantifier": "every file name", "why_tests_cant": "Runs of backslashes of any length before blanks.", "anchors": ["main.c:quote_makefile"]}
{"id": "C47", "title": "Increment and decrement return the right value", "statement": "x++ and x-- yield the value before, ++x and --x the value after the update, converted to the type of x, and update x once, for every integer type and value (including wrap-around and _Bool).", "quantifier": "every integer type and value", "why_tests_cant": "All values of all types including the extreme ones.", "anchors": ["parse.c:new_inc_dec", "parse.c:to_assign"]}
{"id": "C48", "title": "Inline-asm operands get registers that fit and do not collide", "statement": "When an asm statement with operands is compiled, every operand is put somewhere its constraint admits; two operands that cannot share a register do not, unless one is tied to the other or the user named the registers of both; a register asked for is the one given; a clobbered register is given to no operand not put there by name; registers the compiler takes for itself (stand-ins for the frame and base pointer, the scratch register for results) hold none of the operands they must coexist with; registers the caller relies on are saved; an operand is refused only if every register it admits is clobbered or taken.", "quantifier": "every list of operands and clobbers", "why_tests_cant": "All constraint combinations of any length.", "anchors": ["codegen.c:find_free_reg", "codegen.c:asm_assign_oprands", "codegen.c:acquire_gp"]}
{"id": "C49", "title": "Driver classifies inputs and derives output names consistently", "statement": "The kind of each input is decided by the last -x option or else by the file extension; the name of a derived output replaces exactly the last extension of the base name; when linking, every input contributes one file, in order, and temporary files are never shared.", "quantifier": "every file name and option sequence", "why_tests_cant": "All strings, names with several dots, no dot, directories with dots.", "anchors": ["main.c:get_file_type", "main.c:replace_extn", "main.c:endswith"]}
{"id": "C50", "title": "Compiled statements follow C control flow", "statement": "The code generated for a function body made of if, while, do, for, switch, break, continue, goto, labels, return, blocks and expression statements goes through the same sequence of stores as the C semantics of the body, returns the same value, keeps running when the C program does, and terminates exactly when the C program does.", "quantifier": "every statement tree of any depth and every initial state", "why_tests_cant": "All programs, loops of unbounded iteration count.", "anchors": ["codegen.c:gen_stmt", "codegen.c:gen_cond"]}
{"id": "C51", "title": "Header search takes the first directory that has the file", "statement": "Whatever was included before, #include of a relative name finds it in the first directory of the search list that has it, and #include_next continues with the directories after the one in which the current file was found (for a file found by its first search).", "quantifier": "every file system, directory list and history of inclusions", "why_tests_cant": "Results are cached; the answer must not depend on the history.", "anchors": ["preprocess.c:search_include_paths3", "preprocess.c:search_include_paths2", "preprocess.c:search_include_next"]}
{"id": "C52", "title": "Values survive being passed and returned", "statement": "Every argument passed in registers arrives in the callee byte for byte, whatever the other arguments are, and a structure of at most 16 bytes is returned byte for byte; nothing but the parameter or the result is written.", "quantifier": "every argument list, every contents of memory and registers", "why_tests_cant": "Sizes that are not powers of two are stored piecewise from shifted registers; combinations of arguments are unbounded.", "anchors": ["codegen.c:place_reg_arg", "codegen.c:store_gp2", "codegen.c:store_fp", "codegen.c:copy_struct_reg", "codegen.c:copy_ret_buffer"]}
{"id": "C53", "title": "va_arg finds each variadic argument where the caller put it", "statement": "In a variadic function, successive uses of va_arg with the types of the variadic arguments yield, for each, the places where the caller put it: the save-area slots of its registers, or its address on the stack.", "quantifier": "every list of named parameters and every list of variadic arguments", "why_tests_cant": "Two independent pieces of code must keep in step over unbounded lists and all register exhaustion patterns.", "anchors": ["codegen.c:gen_vaarg_reg_copy", "codegen.c:gen_expr2", "codegen.c:emit_text", "codegen.c:gen_funcall"]}
{"id": "C54", "title": "Macro arguments are substituted as C prescribes", "statement": "The replacement of a function-like macro invocation is the one C defines: a parameter that stands alone becomes the completely expanded argument, an operand of ## the argument as written, an operand of # its spelling; empty arguments act as placemarkers, operands of ## are concatenated from left to right, __VA_OPT__ stands for its content exactly if the variable arguments expand to something, and `, ## __VA_ARGS__` loses its comma exactly if they were left out. Names of macros being replaced are marked in the arguments and are not replaced later.", "quantifier": "all macro tables, macros, replacement lists, arguments, nestings of __VA_OPT__, chains of ## and nested invocations", "why_tests_cant": "Chains of ##, placemarkers, # and __VA_OPT__ combine without limit, with any arguments and any surrounding expansions; tests meet a few combinations.", "anchors": ["preprocess.c: subst, find_arg, paste, insert_objlike, prepare_funclike_args, expand_macro"]}
{"id": "C55", "title": "Local variables are initialized as C prescribes", "statement": "An initializer for a local array, structure or union puts each of its values into the subobject C says it is for, whatever the nesting, the designators, the elided braces, the strings, the unions and the anonymous members; every subobject the list is not for is zero; the whole initializer is consumed and nothing after it. (Lists in which an initializer overrides part of what another one gave are excluded: there the compiler departs from C, as is proved by examples.)", "quantifier": "all types built from scalars, arrays, structures and unions, all initializers C allows for them whose initializers do not override one another in part, all texts that follow", "why_tests_cant": "Designators, elided braces and nested aggregates combine without limit; where the list goes on after a designator depends on the whole way to the subobject.", "anchors": ["parse.c: initializer2, braced_initializer, list_initializer, designation, array_designator, struct_designator, string_initializer, new_initializer, create_lvar_init, lvar_initializer"]}
{"id": "C56", "title": "Atomic objects behave as C prescribes under every interleaving", "statement": "In a program of several threads that share atomic integer objects, every load, store, compound assignment, increment and decrement of an atomic object happens as one indivisible operation: whatever the order in which the instructions of the threads run, the objects and the variables of the threads are at every moment those of some order of whole operations in which each thread's come in program order, and none of the instructions faults. A thread that keeps running finishes unless threads complete operations forever; in a program that ends, every thread that keeps running ends. (Excluded: assignments whose value must be converted to the atomic type; slimcc does not convert them, as is proved by an example.)", "quantifier": "all programs of any number of threads, all objects and values, all interleavings of instructions, infinite ones included", "why_tests_cant": "The interleavings of even two short threads are too many to run and are not under the control of a test; retry loops may in principle never end.", "anchors": ["parse.c: atomic_op, assign, new_inc_dec, to_assign", "codegen.c: gen_expr2 (ND_CAS, ND_EXCH), gen_void_assign, gen_cond"]}
{"id": "C57", "title": "A declarator declares the name and the type that C says", "statement": "Whatever declarator C allows follows the specifiers of a declaration, a parameter or a type name - pointers with qualifiers, parentheses, arrays, functions with parameters that have declarators of their own, in any nesting - the compiler declares the name in it with the type that C derives from it: pointers, brackets and parameter lists applied from the outside inwards, array and function parameters adjusted to pointers, qualifiers in a parameter's brackets moved to the pointer, arrays of variable length told from those of constant length; and it goes on reading right after the declarator. The same text never has two meanings. In a typedef of several declarators each has its own type. A function that returns an array, and an array of variable length at file scope, are rejected. (Excluded: `(...)` without a name, which slimcc reads as nothing; identifier lists as parameters.)", "quantifier": "all declarators of any depth and length, named or abstract, all types of the specifiers, all texts that follow", "why_tests_cant": "Declarators nest without bound, and the parser reads the inside of parentheses after what follows them; no sample shows that every nesting comes out right.", "anchors": ["parse.c: declarator, pointers, pointer_qualifiers, skip_paren, type_suffix, array_dimensions, func_params, typename, parse_typedef", "type.c: func_type, array_of, vla_of, unqual, pointer_to"]}
{"id": "C58", "title": "The output of -E is read again as the same tokens", "statement": "The text that `-E` prints, read as a source file, has exactly the tokens that were printed, in the same order, with the same kinds, values and spellings, each at the beginning of a line or after white space exactly when it was; white space before the first token of a line is dropped. Without `-P`, a line `# line \"name\"` precedes each token whose file differs from that of the token before. This holds for every sequence of tokens in which each token stays itself when followed by what is printed directly behind it; the tokens of any source file are such a sequence, and so is every sequence with white space between all tokens. Printing the tokens of the output gives the output again. (Excluded, because it fails: tokens from macros that touch and run together, such as `+P` with `#define P +`; a lone backslash at the end of a line; file names that need escapes.)", "quantifier": "all token sequences of any length, all source files, all file names and lines", "why_tests_cant": "Whether two tokens run together depends on every pair of spellings and on unbounded look-ahead; samples show it only for the pairs tried.", "anchors": ["main.c: print_tokens", "tokenize.c: tokenize_file, tokenize, canonicalize_newline, remove_backslash_newline"]}
{"id": "C59", "title": "Designators and address constants resolved at compile time are the addresses C gives them", "statement": "Whenever the compiler replaces a designator (variables, members, subscripts, `*`, `&`, `->`, casts of pointers and between pointers and integers of the same size, pointer plus or minus integer) by a variable and a constant offset, by a number (`offsetof`), or by a symbol and an addend in the object file, then in every state of memory the designator stands for exactly that address and its evaluation has no side effect. In particular nothing that goes through a pointer read from memory is resolved. Conversely members and constant subscripts of variables are always resolved, and address constants made from them with `&`, arrays, casts to pointers and the addition or subtraction of constants are accepted as initializers of static pointers, with a reference to that variable. (Excluded, because it fails: sums of integers made from addresses, designators 2 GiB or more away from their variable; `&a->m` for an array `a` is refused.)", "quantifier": "all declarations of structures and objects, all designators and pointer expressions of any depth, all machine states, either setting of optimisation", "why_tests_cant": "Expressions nest without bound, and the evaluator keeps track of pending dereferences by counters that only unusual nestings upset; a test sees one nesting at a time.", "anchors": ["parse.c: eval2, eval_var_ofs, eval_non_var_ofs, eval_var, is_const_expr, new_cast, new_add, new_sub, struct_ref, unary, write_gvar_data", "codegen.c: eval_memop"]}
{"id": "C60", "title": "Compiled accesses to members, array elements and what pointers point to reach the object C designates", "statement": "For designators built from variables, members, subscripts, `*`, `&`, `->` and pointer arithmetic to any depth, with subscripts that are integer expressions with side effects or integer objects: the code for its address leaves in the result register the address the designator stands for; the code for its value leaves the value of the integer object there, or the pointer read from it; the code for a pointer expression leaves its value; the code of an assignment stores the right operand, converted to the type of the object, in exactly the bytes of that object and leaves the stored value as result. Side effects of subscripts happen once and in order, the frame register survives, and nothing is written but the object assigned, integer variables and the slots for temporaries. All labels in the code are new. This holds with the optimiser's folding of offsets into address operands and without it. (Excluded, because it fails: a constant offset of 2 GiB or more from the pointer is cut to 32 bits; the conversion of an integer to a pointer under `*` is dropped.)", "quantifier": "all declarations of structures and objects, all designators, pointer expressions and subscripts of any depth, all placements of variables and objects, all machine states, either setting of optimisation, any code around", "why_tests_cant": "Designators nest without bound, each nesting mixes the offset-folding paths differently, and a wrong address shows only for particular memory contents and subscript values.", "anchors": ["codegen.c: gen_addr, gen_expr2, load, load2, store, gen_expr_opt, gen_addr_opt, gen_deref_opt, gen_member_opt, is_memop, is_memop_ptr, eval_memop, gen_arith_opt_gp2, gen_load_opt_gp", "parse.c: new_add, new_sub, new_cast, struct_ref, unary"]}
{"id": "C61", "title": "The object file defines exactly the objects and functions of the unit, with C's linkage, size and initializer", "statement": "A translation unit whose declarations at file scope are valid is accepted. For every object of which there is a definition, tentative or with an initializer, exactly one symbol is written: local exactly if the object has internal linkage, holding the one initializer there is (zeros if there is none), with the size of the composite type and at least its alignment. Nothing is written for objects that are only declared. A function with a body is written once, as a global symbol exactly if C makes the definition external. A use of a name in a function stands for the innermost declaration visible there, and objects and functions with linkage are the symbol of their name. A second initializer or a second body of a name is rejected. (Excluded, because it fails: `static int x; extern int x = 5;` becomes global; `int a[10]; int a[];` keeps one element; an object declared before its structure is complete is aligned to 1; an `extern` declaration where a local object hides the name; `inline` first and `extern` later.)", "quantifier": "all sequences of declarations of objects, functions and structures at file scope, in any order and number, all function bodies with declarations, blocks and uses nested to any depth", "why_tests_cant": "The result depends on the whole history of declarations of a name, and histories are unbounded.", "anchors": ["parse.c: global_declaration, func_prototype, func_definition, func_attr, find_func, find_var, new_gvar, gvar_initializer, compound_stmt", "codegen.c: emit_symbol, emit_data, codegen"]}
{"id": "C62", "title": "Conversions to and from floating types compute the value C prescribes", "statement": "The code for a cast from an integer type (including bool) to float, double or long double yields the number of the target type nearest to the integer, ties to even; 0 gives the positive zero. The code for a cast from a floating type to an integer type yields the integral part, whenever the type has it. The code for a cast between floating types yields the nearest number of the target with the same sign, and keeps infinities and not-a-numbers; float to double and long double, and double to long double, lose nothing. The stack pointer, the frame pointer, the registers of temporaries, the control word of the x87, what else is on its stack, and memory outside 24 bytes below the stack pointer are as before. (Excluded, because it fails, and characterised: long double to short outside 0..255, to unsigned short from 2^15 on, to unsigned int from 2^31 on.)", "quantifier": "all integer types, all three floating types, all values, all states of the machine", "why_tests_cant": "There are up to 2^80 values per type; the texts for unsigned 64-bit types work with tricks that must hold for each of them.", "anchors": ["codegen.c: cast_table, gen_cast, getTypeId, i32f32, u32f32, i64f32, u64f32, u64f64, u64f80, f32u64, f64u64, FROM_F80_1, f80i16, f80u16, f80u32, f80u64, f80f32"]}
{"id": "C63", "title": "The code of an expression with floating operands computes its value", "statement": "For every expression built from variables and constants of integer and floating types, negation, + - * /, the six comparisons, ! of truth values and casts to, from and between floating types, the code emitted, with or without optimization, ends with the value IEEE 754 and C give the expression, in the register its user reads; every intermediate result is rounded to its type once. Infinities, signed zeros and not-a-numbers are covered; a comparison with a not-a-number is false but for !=. Variables keep their values; only scratch registers, temporaries of the frame and 24 bytes below the stack pointer change. (Excluded, because they fail, with witnesses: under optimization, ! of <, <=, >, >= with an operand that is not a number; folded arithmetic on double constants that rounding to long double first changes; folded conversions of integer constants the floating type does not have; casts from long double that C62 excludes.)", "quantifier": "all expressions of any depth, all values of variables, all states of the machine, both optimization settings", "why_tests_cant": "Nesting decides which registers and temporaries hold operands, and each floating type has up to 2^80 values.", "anchors": ["codegen.c: gen_expr2, gen_expr_opt, gen_bool_opt, bool_expr_opt, flip_cmp, load_fval, load_f32_f64, load3, push_tmpstack SL_FP, pop_fp, gen_cmp_zero, gen_cast", "parse.c: eval_double, eval, eval_fp_cast"]}
{"id": "C64", "title": "A call hands over the values of its arguments", "statement": "For every call with arguments of integer type, named or through a pointer, with any number of arguments, with or without a buffer for the result and `...`, the code up to the call instruction evaluates every argument once, converts it to the type of its parameter (or promotes it), and leaves it where the System V ABI has the called function look: the first six (five after the address of the buffer) in %rdi, %rsi, %rdx, %rcx, %r8, %r9, the others in eight bytes each from the stack pointer up; %rdi has the address of the buffer, %al is zero for a function with `...`, the register the call goes through holds the value of the function expression, and the alignment of the stack pointer is unchanged. Effects of the arguments on variables have taken place. Besides variables and temporaries only the memory for the arguments changes. After the call the stack pointer is restored and the low bits the function returned have become the value of the result's type. (Arguments must be independent, otherwise C leaves the behaviour undefined.)", "quantifier": "all argument lists and expressions, all values of variables, all states of the machine, both optimization settings", "why_tests_cant": "Which arguments are kept in memory, evaluated late or loaded directly depends on the whole list; an argument computed into a register that a later one needs goes wrong only for some combinations.", "anchors": ["codegen.c: gen_funcall, gen_funcall_args, prepare_funcall, place_reg_arg, gen_var_assign, gen_void_assign, gen_load_opt_gp, load_val2, clobber_gp, pop_inreg, gen_expr2 ND_FUNCALL", "parse.c: funcall"]}
{"id": "C65", "title": "Compiled functions that call each other do what the C program does", "statement": "Take any program of functions with parameters, local variables and global variables of integer type, whose bodies are built from the statements of C50 and from calls `f(args);` and `x = f(args);`, recursive or not. Compiled and in memory, with its calls, returns, prologues and epilogues, it does what C says: if a call of one of its functions has a defined meaning and returns, then the machine gets from the call instruction to the instruction after it, the result is in %rax, global variables have their new values, the stack and frame pointers are as they were, and no other memory outside the stack below the caller's changes. Each activation has its own variables, parameters after the sixth are read from where the caller put them, the stack pointer is a multiple of sixteen at every call on the way, and the result does not depend on what the stack or the registers contained before.", "quantifier": "all programs, functions, arguments, values of global variables, depths of recursion, initial contents of stack and registers, both optimization settings", "why_tests_cant": "Whether an activation damages another depends on frame sizes, temporaries and spilled registers at every depth; a test runs a few call trees with one stack content.", "anchors": ["codegen.c: emit_text, gen_funcall, gen_funcall_args, prepare_funcall, assign_lvar_offsets, gen_stmt ND_RETURN", "parse.c: function, funcall"]}
{"id": "C66", "title": "An asm statement gets its operands and its results arrive", "statement": "Take any accepted `asm` statement whose operands go to general registers, memory, numbers or condition flags, and any assembly text that keeps the contract of extended asm (it changes only registers that are results or named as clobbered, and not the compiler's own slots). When the text starts, the register of every operand that is read holds the operand's value, registers for addresses hold the addresses, and memory operands as written in the text designate their objects, even if the text clobbers the frame pointer. After the statement every result is in its object, with the operand's size, condition flags as 0 or 1; no other memory outside the statement's own slots has changed since the text ended; %rbx, %rbp, %r12 to %r15 and the stack pointer are as they were before the statement.", "quantifier": "all operand lists, constraints, clobbers and register assignments, all contents of memory and registers, all assembly texts that keep the contract", "why_tests_cant": "Loading one operand may destroy another's address, and a scratch register may hold a result, only for particular combinations of constraints and clobbers; the number of combinations is unbounded.", "anchors": ["codegen.c: gen_asm, asm_gp_inputs, asm_outputs, asm_reg_input, asm_reg_output, asm_gen_ptr, asm_push_clobbers, asm_push_frame_ptr, asm_pop_frame_ptr, asm_pop_clobbers, pop_gp"]}
{"id": "C67", "title": "The template of an asm statement is printed as the text it stands for", "statement": "For every template and list of operands, the text given to the assembler is the template with `%%` replaced by `%` and every `%N`, `%[name]`, with an optional modifier h, b, w, k, q or c, by its operand: a register under the name for the operand's size or for the size the modifier asks for, a number with or without `$`, a memory operand as its address (with the frame pointer's stand-in if the frame pointer is clobbered), a label by its assembly name. A number names the operand counted from zero through outputs, inputs, outputs with `+` once more and labels, and takes all its digits; a name means the first operand so named. Everything else is copied. A template is refused exactly if it stands for nothing in this sense, and it never stands for two texts. (Departure: the jump of `asm goto` without results skips the code that restores clobbered registers.)", "quantifier": "all templates, all operand lists of accepted statements", "why_tests_cant": "Templates and names are unbounded; prefixes of names and of numbers, modifiers that are also letters of text, and every register in every size have to be right.", "anchors": ["codegen.c: asm_body, find_op, named_op, reg_sz, reg_high_byte, asm_fill_ops, asm_fill_ops2, regs"]}
{"id": "C68", "title": "Adjacent string literals become one array", "statement": "For every run of adjacent string literals, the result is the array they stand for: its element type is that of the only encoding prefix that occurs (narrow if none occurs); each literal, by itself, is read in that encoding, so an escape sequence never continues into the next literal; the elements follow each other in order with one terminating zero after the last, each stored least significant byte first; nothing is written outside the array. The program is refused exactly if two different prefixes occur or a literal cannot be read in the encoding of the whole. (Departure: u8 next to u is not refused; the copy then overflows the array or the text is wrong.)", "quantifier": "all runs of string literals, all texts", "why_tests_cant": "Number, length, encodings and escapes of the literals are unbounded, and a buffer size that is right for the tested lengths says nothing about others.", "anchors": ["preprocess.c: join_adjacent_string_literals, getStringKind", "tokenize.c: tokenize_string_literal, read_string_literal"]}
{"id": "C69", "title": "A member access denotes the member", "statement": "For every structure or union type with members nested through anonymous structures and unions to any depth, and every name: if exactly one member has the name, `x.name` denotes the part of x at that member's offset (the sum of the offsets along the anonymous members), with that member's type; if names repeat, it denotes some member of the name; the access is refused exactly if no member has the name or x is no structure or union. The type has const and volatile of the object added to the member's own qualifiers, for a direct member that is neither atomic nor restrict. (Departures: a member of an anonymous member does not get the object's qualifiers; an atomic member of a volatile or const object is no longer atomic.)", "quantifier": "all structure and union types, all names", "why_tests_cant": "Nesting, number and names of members are unbounded; the search that decides and the walk that follows have to agree at every depth.", "anchors": ["parse.c: get_struct_member, struct_ref, apply_cv_qualifier", "type.c: new_qualified_type"]}
{"id": "C70", "title": "What the compiler reads from a constant object is what the program would read", "statement": "For every initialised object of any type and every integer or bit-field at any offset in it: if the compiler replaces the read by a number, then the object is const and not weak, the part read lies inside it, and wherever the linker puts the symbols, the program would read that number from memory (with the sign or with zeros extended). When optimising it does so exactly for parts inside a const, non-weak, initialised object that no address overlaps; otherwise the read is left to the program or refused where a constant is needed. constexpr objects without addresses are always read, with the same result. (Departure: a constexpr copy of an object that holds an address is read as zero.)", "quantifier": "all object types and initialisers, all offsets, integer types and bit-fields, all placements of symbols", "why_tests_cant": "Objects, offsets and the order of addresses inside an object are unbounded; a wrong overlap test only shows for particular neighbours.", "anchors": ["parse.c: is_static_const_var, eval_constexpr_data, eval2, eval_sign_extend, read_buf"]}
{"id": "C71", "title": "Variable length arrays have their storage while in scope and give it back", "statement": "For every function and every history in which an execution passes declarations of variable length arrays, registers deferred statements and leaves scopes (by falling out, by jumps, in loops): the arrays in scope lie in the part of the stack the function owns, at or above the stack pointer, one below the other without overlap, each aligned to 16 bytes or its declared alignment. If the function gives storage back, the stack pointer is always at the innermost array in scope, or where it was at the start, so loops do not consume stack. When scopes are left, the deferred statements registered since run in reverse order, and during each the arrays in scope where it was registered still have their storage. The size of an array is the product of its dimensions and the size of its elements, if the product of the innermost dimension and the element size fits the type of that dimension. (Departures: sizes overflow in int; __builtin_alloca memory is freed when the scope of a later array is left.)", "quantifier": "all histories of declarations, deferred statements and scope exits; all sizes, alignments and stack pointers that leave room; all nestings of array types", "why_tests_cant": "Histories are unbounded and the pointer restored depends on which arrays and deferred statements are adjacent in the chain; a wrong restore only corrupts memory for particular nestings.", "anchors": ["parse.c: compute_vla_size, new_vla, new_defr, declaration2", "codegen.c: builtin_alloca, gen_defr"]}
{"id": "C72", "title": "Compound assignments, ++ and -- on members, elements and pointees compute what C says", "statement": "For every designator of an integer object (members, array elements, what pointers point to, to any depth), every operator and every right operand over integer variables, and with and without optimisation: if the operation is defined, the code of `l op= e` ends with the object holding the result of the operator on its old value and the value of e, computed in the common type and converted to the type of the object; that value is in %rax and no other object but those e and the designator assign has changed. ++l and --l add and subtract one and give the new value, l++ and l-- the old value. As statements they have the same effect, also where the operation is done in memory.", "quantifier": "all designators, integer types of the object, operators, right operands, variable values and memory contents; both optimisation settings; all positions of the code in a program", "why_tests_cant": "The code chosen depends on the form of the designator, on whether the right operand is constant or fits 32 bits, on the size of the object and on how many temporaries are in use; a wrong width or extension shows only for particular values.", "anchors": ["codegen.c: gen_expr2 (ND_ARITH_ASSIGN, ND_POST_INCDEC), gen_expr_null_lhs, gen_void_arith_assign, memop_arith, store", "parse.c: to_assign, new_inc_dec"]}
{"id": "C73", "title": "#embed is replaced by the bytes of the file, and __has_embed tells what it does", "statement": "For every file and every sequence of the parameters limit, prefix, suffix and if_empty with balanced arguments, in any order: #embed is replaced by the bytes of the file, no more than the limit, in order, as decimal constants separated by commas, with the tokens of prefix before and those of suffix after them, or by the tokens of if_empty if there are no bytes; the rest of the source is unchanged. Anything else after the file name is refused. __has_embed with the same text is 0 exactly if the directive is refused for the file or for a parameter, 2 if it embeds no byte and 1 otherwise, if the limit is not negative.", "quantifier": "all file contents, all token sequences after the file name, all values of the limit expression", "why_tests_cant": "Lengths, the placing of parameters, nesting of parentheses in their arguments and the combination of limit with short and empty files are unbounded.", "anchors": ["preprocess.c: embed_file, split_paren2, has_embed_macro, directives", "parse.c: skip_paren"]}
{"id": "C74", "title": "__LINE__, __FILE__ and debugging information name the presumed line and file", "statement": "For every source file with the files it includes, to any depth: the line number and file name found for every token are those of its place in the file it is in, counted from the last #line directive of that file if there is one; a #line in an included file does not affect the including file, and conversely. (Excluded: #line directives of several physical lines or with a leading zero, files with #line that are read twice, and inclusion of a file named by an earlier #line.)", "quantifier": "all trees of source files, positions of tokens and #line directives, numbers and names", "why_tests_cant": "The state is kept per path and not per inclusion, so errors appear only for particular histories of inclusions and directives.", "anchors": ["preprocess.c: read_line_marker, line_macro, file_macro, preprocess2, include_file", "tokenize.c: add_input_file, new_file, tokenize_file"]}
{"id": "C75", "title": "p += i, p -= i, ++p, --p, p++ and p-- move pointers by whole elements", "statement": "For every designator of a pointer object (a variable, a member, an array element, what a pointer points to, to any depth), every pointee type of fixed size and every index over integer variables, and with and without optimisation: the code of `p += i` and `p -= i` ends with the pointer holding the value of `p + i` or `p - i`, that is its old value moved by i times the size of an element, with that value in %rax; ++p and --p give the new value, p++ and p-- the old one. As statements they have the same effect, also where the addition is done in memory. No other object changes but those the index and the designator assign.", "quantifier": "all designators of pointers, pointee types, element sizes below 2^63, index expressions and types, variable values and memory contents; both optimisation settings; all positions of the code in a program", "why_tests_cant": "The scaled index is computed in a type that depends on that of the index, the code depends on the form of the designator and on whether the product is a constant that fits 32 bits, and the optimised postfix form subtracts again what it added; a wrong scale or width shows only for particular sizes and values.", "anchors": ["parse.c: new_add, new_sub, to_assign, new_inc_dec", "type.c: add_type (ND_ADD, ND_SUB)", "codegen.c: gen_expr_null_lhs, gen_expr2 (ND_ARITH_ASSIGN, ND_POST_INCDEC), gen_void_arith_assign, memop_arith"]}
{"id": "C76", "title": "Attribute specifiers are removed from the source and the known attributes reach the next token", "statement": "For every source of tokens, GNU specifiers __attribute__((...)) and C23 specifiers [[...]] with any attributes whose arguments are balanced: the parser sees every token once and in order and no part of a specifier; every token carries exactly the known attributes that stand between it and the token before, in order and with their arguments; unknown attributes, and those in [[ ]] without the vendor gnu, have no effect. Whatever is accepted is such a source. (Excluded: empty places in a list, which are refused; nested specifiers inside the arguments of an attribute.)", "quantifier": "all token sequences; all lists of attributes, vendors, names and argument tokens", "why_tests_cant": "The number and order of specifiers, the nesting in the arguments and the places where they stand are unbounded; a specifier split wrongly swallows or duplicates tokens of the program.", "anchors": ["preprocess.c: preprocess3, filter_attr, is_supported_attr, is_gnu_attr, split_paren2, split_bracket", "parse.c: skip_paren"]}
{"id": "C77", "title": "Assignment of structures copies the whole object and nothing else", "statement": "For all designators l and r of structures of the same type (variables, members, array elements, what pointers point to, to any depth), every size below 2 GiB, with and without optimisation: after the code of l = r the bytes of the object l are those that r had, every other object is unchanged but for the variables that the subscripts assign, and the value of the assignment is left where the compiler looks for it; the same for l = r as a statement. The two objects do not overlap or are the same, as C requires.", "quantifier": "all designators, structure sizes below 2^31, variable values and memory contents; both optimisation settings; all positions of the code in a program", "why_tests_cant": "The copy is a sequence of moves that depends on the size, its operands depend on the forms of both designators, and the register with the address of the target on how many temporaries the other operand needs.", "anchors": ["codegen.c: gen_expr2 (ND_ASSIGN), gen_expr_opt, gen_void_assign, store, store3, gen_mem_copy2, is_memop, eval_memop", "parse.c: eval_var_opt"]}
{"id": "C78", "title": "Attributes of symbols have their effect wherever in the declarations they stand", "statement": "If the attributes weak, alias, section, visibility, constructor and destructor in the declarations of a function or object do not contradict each other, the declarations are accepted, and wherever the attributes stand (among the specifiers, in front of or behind the name, after the declarator, in the GNU or the C23 form, in one declaration or another) the symbol is weak, hidden, an alias, and an object is in its section, exactly if one of them says so; a constructor or destructor is entered once in the section of its priority, is kept although nothing refers to it, and runs before those of higher priority. Declarations that name different sections, visibilities, targets or priorities are refused. Excluded, because slimcc departs: attributes of a function in declarations after its definition, attributes behind an assembler label, section attributes of functions, and section attributes together with -fdata-sections.", "quantifier": "all sequences of declarations of a function or of an object with external linkage, all numbers and places of attributes, all argument values, priorities from 0 to 65535, and settings of -fvisibility, -fcommon and -fdata-sections", "why_tests_cant": "An attribute can stand in any of several places of any of several declarations, in two forms, and combines with the others; every combination must have the same effect.", "anchors": ["parse.c: tyspec_attr, str_attr, apply_str_attr, bool_attr, cdtor_attr, apply_cdtor_attr, symbol_attr, func_attr, DeclAttr, global_declaration", "codegen.c: emit_symbol, emit_data, emit_cdtor, emit_text, codegen"]}
{"id": "C79", "title": "The type of an expression is the one C gives it", "statement": "For every expression built from identifiers, constants, strings, member accesses, subscripts, `*`, `&`, casts, calls, arithmetic, comparison, logical, assignment, increment, comma and conditional operators, that C gives a type to: the compiler accepts it and holds the same type. An lvalue or function designator has exactly its C type (so sizeof and typeof of it are right; qualifiers that an array gets from the structure or array type it is in are added when the element is taken); a value has that type apart from qualifiers (so _Generic and every use of the value see the right type). Excluded, and shown to depart: conditional expressions whose pointer operands have differently qualified or incomplete pointees such that the first operand is not already of the resulting type, a zero converted to a pointer to qualified void as an operand of `?:`, arrays with inherited qualifiers used as pointers, qualifiers of values as seen by typeof, and sizeof of a function after a comma.", "quantifier": "all expressions of every depth over all object, pointer, array, structure and function types, all structure members, all qualifier combinations, with and without optimisation", "why_tests_cant": "The types of expressions are an infinite family: every operator can be applied to operands of every type, nested without bound, and the type decides sizes, conversions and selections far from where a test looks.", "anchors": ["type.c: add_type, get_common_type, usual_arith_conv, int_promotion, is_nullptr, array_to_pointer, unqual", "parse.c: new_add, new_sub, new_cast, invalid_cast, cond_cast, unary, postfix, struct_ref, apply_cv_qualifier, new_inc_dec, to_assign, conditional, funcall"]}
{"id": "C80", "title": "Compound assignments, ++ and -- of bit-fields compute what C says", "statement": "For a bit-field designated through any chain of members, subscripts and pointers, the code of `f op= e`, `++f`, `--f`, `f++`, `f--`, as an expression or as a statement, evaluates the designator once, gives the field the result of the operator on its promoted value and that of e, converted to its type and cut to its width, and yields the value the field then has (the old value for the postfix forms); the other bits of its storage unit and all other memory are unchanged. Excluded: division and remainder with a negative operand when the width changes the promoted type (the compiler divides in the declared type), and fields of eight-byte types at a byte boundary with 8, 16 or 32 bits (see C21).", "quantifier": "all declared integer types, widths and bit offsets, contents of memory, designators, operators, right operands, states of the machine, and places the code is put at", "why_tests_cant": "The combinations of type, width, offset, operator, values and designators are far too many to run; whether a neighbouring bit changes depends on all of memory", "anchors": ["codegen.c: gen_expr2 (ND_ARITH_ASSIGN, ND_POST_INCDEC), gen_expr_null_lhs, gen_void_arith_assign, gen_bitfield_load, gen_bitfield_store", "parse.c: to_assign, new_inc_dec"]}
{"id": "C81", "title": "Variables have the alignment their declarations ask for", "statement": "What a declarator declares has the strictest of the alignments asked for by `_Alignas` and by the attribute `aligned` in any of the places where they can stand, whatever the order, and that of its type if none is asked for; the other declarators of the declaration play no part. A variable at file scope keeps the alignment its definition asks for over any sequence of declarations of which none asks for another.", "quantifier": "all declarations, with any number of specifiers, attributes and declarators, and all sequences of declarations of a variable", "why_tests_cant": "Specifiers, places, forms and the order of declarations combine without bound, and a lost alignment is seen only when the object happens to be placed badly", "anchors": ["parse.c: attr_aligned, tyspec_attr, declspec, declarator2, declaration2, parse_typedef, global_declaration, new_var"]}
{"id": "C82", "title": "Assignments store the values of expressions with floating operands", "statement": "An assignment to a variable of arithmetic type stores the value of its right operand, has that value itself, and changes no other variable and no other memory but the temporaries of the expression. Any number of such statements in a row leave in the variables what C says, each reading what those before stored, and the x87 stack does not fill up.", "quantifier": "all lists of assignments, all expressions over variables and constants of integer and floating types, all values of the variables and all frames", "why_tests_cant": "Types, expressions, values and the length of the list combine without bound, and a stack that fills up shows only after enough statements", "anchors": ["codegen.c: gen_expr_opt, store3, gen_void_assign, gen_void_expr"]}
{"id": "C83", "title": "Branches on floating conditions go where C says", "statement": "An if statement executes its first substatement exactly if its condition, made with !, && and || of relations of floating values and floating values compared with zero, is true, also if an operand is not a number, and its second otherwise. The right operand of && and || is evaluated only if the left one does not decide. Assignments and if statements, nested in any way, leave in the variables what C says.", "quantifier": "all statements built of assignments and if statements, all conditions and expressions with floating operands, all values of the variables and all frames", "why_tests_cant": "Statements nest without bound, and operands that are not numbers, negations and constants combine with every relation and type", "anchors": ["codegen.c: gen_stmt, gen_cond, bool_expr_opt, gen_void_assign", "parse.c: cond_cast"]}
{"id": "C84", "title": "Loops on floating conditions run as C says", "statement": "A for, while or do loop whose condition has floating operands executes its body exactly as often as C says, with the condition evaluated before or after each round; break leaves the innermost loop and continue goes to its next test, in a for loop after its third part. Assignments, if statements and loops, nested in any way, leave in the variables what C says if their execution ends, the code ends in no other way, and it does not end if the execution does not. The labels of the code are defined once, and all that are jumped to are defined.", "quantifier": "all statements built of assignments, if statements and loops, all conditions and expressions with floating operands, all values of the variables, all frames, any number of rounds", "why_tests_cant": "The number of rounds depends on values and has no bound, and statements nest without bound", "anchors": ["codegen.c: gen_stmt (ND_FOR, ND_DO), gen_cond", "parse.c: loop_body, cond_cast"]}

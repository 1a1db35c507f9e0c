# Formal model of slimcc in Lean 4: design

Source: `/repo` (fuhsnn/slimcc, pinned commit), read as text only; never built or run.
The Lean project is `/verif/lean` (Lean 4.33.0; Mathlib is used in one module only).

## Layout of the Lean project

| Directory | Content |
|---|---|
| `Verif/Model/*.lean`  | executable model, one file per area; each definition cites the file and lines it models |
| `Verif/Spec/*.lean`   | small specifications, written from the English property (C standard, ABI, Unicode) and independent of the model |
| `Verif/Lemmas/*.lean` | helper lemmas |
| `Verif/Props/*.lean`  | the property theorems, one file per property, with non-vacuity examples |

## Trusted base

* Lean 4.33.0's kernel. No axioms of our own, no `sorry`, no `native_decide`, no `bv_decide`. The axioms each theorem depends on are listed in `AXIOMS.md` (generated with `#print axioms` by `tools/axioms.py`): every theorem uses a subset of `propext`, `Classical.choice`, `Quot.sound`.
* Mathlib is used by one module, `Lemmas/MacroTerm.lean` (the Dershowitz-Manna order on multisets, for the termination of macro expansion). Everything else needs only Lean's core library.
* The faithfulness of the model to the C text. Nothing here runs the code; each definition cites lines so that it can be re-read.
* The meaning given to C itself in the model: `int` is 32 bits, `long`/pointers 64 bits, two's complement, little endian, arithmetic right shift of negative values (what the project is compiled with). Undefined behaviour of the compiler is a distinct outcome (`Option.none`, an `Outcome.ub` constructor, or an explicit precondition), never totalised silently.
* The specifications in `Verif/Spec`: C grammar and semantics, the System V ABI, UTF-8/16, the reading of make.
* The meaning given to the x86-64 instructions that occur in the generated code (own small semantics in `Model/X86.lean`); the assembler, the linker and the CPU are not modelled.
* Recursion of the C code is modelled with fuel where it is not structural; the theorems then say that some fuel suffices and that more does not change the result.

## Plan per property

C01 – Model the bucket array as a list with empty/tombstone/live entries, linear probing, rehash with the same thresholds. Prove refinement to `Key → Option Val` over every operation list, with a hash function left arbitrary (so for FNV in particular), with abort as a distinct outcome shown unreachable.

C02 – Model pages as (page index, offset) and `allocate` with the 16-byte round up and page switch. Invariant over every request list; a negative witness for requests above 4064 bytes.

C03 – Model data/capacity/length with writes outside capacity as failure; prove it is list append for every push list.

C04 – Model encoder and decoder over bytes as `BitVec`/`Nat`; prove the round trip for all code points below 2^21 and all continuations; the spec is a declarative definition of UTF-8.

C05 – Model the two string readers over the decoded code points; prove against a UTF-16 specification, round trip, and the buffer bound.

C06 – Model `in_range` as the loop over the table terminated by -1; the tables are transcribed by script. Prove equality with interval membership for every code point.

C07, C08 – Model the two in-place loops as functions on lists with explicit read/write indices; prove them equal to declarative specs by induction and prove the line-count theorems.

C09 – Model `read_punct` as the same switch cascade; prove maximality with respect to the punctuator list for all texts.

C10, C11 – Model `tokenize` with its branches (comments, white space, numbers, strings, identifiers, punctuators); out-of-bounds reads are a distinct outcome; prove coverage and line numbering by induction on the remaining text.

C12 – Model `convert_pp_int` on character lists (strtoul as its C specification); prove value and type against a table written from C23 6.4.4.1. Deviations found while reading (e.g. `0x0x10`) are proved as negative theorems.

C13 – Model `read_escaped_char`, `string_literal_end`, `quote_string`; prove the round trip.

C14 – Model the conversion functions on a type enumeration; prove against a rank/representability spec, for the full table and all bit-field widths.

C15 – Model `is_compatible` on an inductive type of types; prove reflexivity and symmetry by induction.

C16 – Model `is_redundant_cast`; integer conversions are the mathematical ones on `Int`; prove value preservation for all values.

C17 – Model `eval2`'s integer part on a typed expression inductive; prove against a mathematical evaluator (values in `Int`, wrap at each node), by induction on expressions. Host-UB shifts are a distinct outcome.

C18, C19, C20 – Model `struct_decl`/`union_decl` over member descriptors; prove the layout invariants by induction over the member list.

C21 – Model load/store sequences on 64-bit vectors for all offsets and widths; bit-level extensionality proofs.

C22 – Model `write_gvar_data` on a type/initialiser inductive into a byte array; prove bytes of each leaf.

C23 – Model insertion of case ranges with the overlap test and the emitted compare chain; prove it equals the C dispatch for every controlling value.

C24 – Model the line-level preprocessor on directive streams with the condition stack and `skip_cond_incl`; prove against a grammar-level (tree) specification by mutual induction. `C24_condition`: the tokens an `#if` line is evaluated on, after expansion and replacement of identifiers and `defined`.

C25 – Model guard detection, and prove that including a guarded file with its macro defined yields nothing, using the C24 model.

C26 – Model macro locking on token lists and prove a termination measure and the no-re-expansion invariant.

C27 – Model the macro table via the C01 map and prove the last-writer law over histories.

C28 – Model argument reading on token lists; prove losslessness and top-level splitting.

C29 – Model `join_tokens`' two passes; prove text and exact buffer length.

C30, C31, C34, C50 – Define a small x86-64 subset with 64-bit registers and memory, a compiler that mirrors `gen_expr2`/`gen_stmt`/`gen_cond` (same instruction selection, including the lazy placement of temporaries) and prove a simulation with a C-level evaluator.

C32, C33 – Model the instruction choices of `imm_arith`/`divmod_opt` over 32/64-bit vectors; prove equality with the general operation for all constants.

C35 – Model emitted copy/clear sequences as lists of (offset, width) accesses and prove they cover exactly `[0,n)`.

C36 – Model `assign_lvar_offsets` on a scope-tree inductive and the slots the prologue adds; prove disjointness and alignment by induction (`C36_fixed` for the prologue).

C36 – The prologue and epilogue, also with `and $-align, %rsp` and %rbx for alignments above 16, are run on a processor with %rsp, %rbp, %rbx and memory as bytes; the alignment of the base register and what the epilogue restores are proved for every entry state with room on the stack.

C37 – Model `calling_convention` and prove register limits, disjointness and alignment of stack arguments.

C38 – Model `cast_table`'s integer entries and the extending loads with the x86 subset; prove for all register contents.

C39 – Model enum value assignment and type selection; prove representability (with the negative case found).

C40 – Model `declspec`'s counter; prove the counter is injective on reachable multisets and order independent.

C41 – Model the scope chain with the C01 maps; prove against a spec of nested environments.

C42 – Model `mark_fn_live` as depth-first marking; prove equality with graph reachability.

C43 – Model the defer chain and the unwinding of jumps; prove LIFO and exactness.

C44 – Model the precedence-climbing functions on token lists; prove the round trip with a fully-parenthesising printer and a grammar relation.

C45, C46, C49 – Model the string functions of the driver and the loop over the inputs; prove by induction. `C49_stages`: which programs are run for each input, and where each option stops.

C47 – Model the desugaring of `++`/`--`; prove the value for all integer types with the C17 semantics.

C48 – Model register assignment for asm operands; prove pairwise distinctness.

C51 – Model the search for include files (`search_include_paths`, `search_include_next`, the cache); prove it against "the first directory in the list that has the file", over every history of searches.

C52 – Model which bytes the caller loads into registers and the callee stores (`place_reg_arg`, `store_gp2`, `store_fp`, `copy_struct_reg`, `copy_ret_buffer`) on a byte memory; prove that parameters and results are equal byte for byte and that nothing else is written.

C53 – Model the register save area and `va_arg`; prove, from the same classification as C37, that the n-th `va_arg` reads where the caller put the n-th variadic argument.

C54 – Model `subst`, `find_arg`, `paste`, `prepare_funclike_args` and `expand_macro`; specify replacement lists as operands and chains of `##` with placemarkers; prove by induction over the replacement list.

C55 – Model `initializer2` and what it calls on token lists, with the tree of `Initializer`s as a store indexed by paths; specify which subobject each initializer is for (a list of events) and what an object holds after the events; prove the parser has the effect of the events (induction over the length of the tokens), that the assignments of `create_lvar_init` leave what the events say, and that `count_array_init_elements` finds the length.

C56 – Specify threads over shared atomic objects with every load, store and read-modify-write as one operation; model `atomic_op`, the atomic assignment, `ND_CAS` and `ND_EXCH` on top of the code generator of C30, and a machine that interleaves the instructions of the threads; prove a stuttering refinement (each instruction is a statement of its thread or nothing), with a rank that bounds the retries of the compare-and-exchange loop while no other thread does a statement.

C57 – Specify the grammar of declarators, how they are written and the type each gives; model `declarator`, `type_suffix`, `array_dimensions`, `func_params`, `pointers`, `skip_paren`, `typename` and the loop of `parse_typedef` on token lists; prove by induction on the length of the text that the text of every declarator C allows, followed by anything that may follow, is read as that name, that type and that rest. Identifier lists (before C23) are left out; specifiers and size expressions are single tokens.

C58 – Model `print_tokens` on tokens with flags and origins, and `tokenize_file` (byte order mark, newlines, splices, tokens). Specify what should be read (`printed`) and when tokens do not run together (`Readable`). Prove that a token stays one when what follows is cut off by a blank, build the `Layout` of the output, and use the completeness of the tokenizer (C10). The tokens of a file are `Readable` because a gap without white space is empty. Which macro expansions are `Readable` is not characterised; the failing case is exhibited.

C59 – Specify lvalues, pointer expressions and the addresses they stand for over a flat memory; model the trees `new_add`, `new_sub`, `new_cast`, `struct_ref` and `unary` build for them, and `eval2`, `eval_var_ofs`, `eval_non_var_ofs`, `is_const_expr` on such trees. Prove by mutual induction over the three kinds of expressions that what is resolved is the address (soundness), and by induction over members and constant subscripts that these are resolved (completeness). Additions of integers made from addresses and designators 2 GiB away are excluded, because there it fails.

C60 – Model the code generator on the trees of C59 (`gen_addr`, `gen_expr2` with `load` and `store`, and the shortcuts `gen_expr_opt`, `gen_addr_opt`, `gen_deref_opt`, `gen_member_opt`, `is_memop`, `is_memop_ptr`) over the processor of C30. Prove by induction over the fuel, for the four modes address, value, pointer and subscript together, that running the code ends with the address or value of Spec/Lvalue in %rax and keeps everything else; assignments by treating the object as one more variable. Conversions between integers and pointers and constant offsets of 2 GiB are excluded, because there it fails; bit-fields, floating members and structure assignment are not in the model.

C61 – Specify a translation unit as a sequence of declarations of objects, functions and completions of structures, with bodies of functions as declarations, blocks and uses, and from the whole sequence: linkage, composite type, definitions, what each use stands for. Model `global_declaration`, `func_prototype`, `func_definition`, `find_var`, `find_func` on a list of objects and scopes, and which of them `codegen` writes and how. Prove by induction on prefixes of the unit that every name's object sums up its declarations so far; then read off what is written. Uses by induction over the body, relating the scopes to the declarations seen.

C62 – Specify binary formats, the nearest number with ties to even (`Rounded`, over the rationals, without reference to an algorithm), decoding of bits, truncation. Model the texts of `cast_table` with a floating row or column over a processor with SSE scalar instructions and the x87 stack and control word. Prove that the rounding algorithm of the processor meets `Rounded`, that decoding undoes encoding, that the sum is the rounded sum; then run each text symbolically. For unsigned 64-bit sources the "halve with sticky bit, convert, double" text needs that rounding after the halving is rounding of the original; for targets the subtraction of 2^63 is exact. The three wrong rows from long double are characterised for all values.

C63 – Specify sums, products and quotients of data as the rounded exact result with IEEE 754's signs and special cases, and the value of an expression as an inductive relation over them. Model `gen_expr2` and `gen_expr_opt` for floating operands (constants, temporaries in `%xmm2`–`%xmm7` and in the frame, the x87 stack, comparison with parity, `!` by flipping) and `eval_double`. Prove the processor's operations meet the specification (division through a sticky bit), then, by induction over the expression, that the code leaves the value in place and disturbs only its own temporaries; folding by the invariant that what the compiler holds is the long double with the value's sign and number.

C64 – Specify where the System V ABI has arguments of integer type and what the values of independent arguments are (each evaluated as if it were the only one). Model `gen_funcall`, `gen_funcall_args`, `prepare_funcall` and what follows the call, over the expressions and processor of C30 with the stack pointer as a register; placement comes from the model of `calling_convention` (C18). Prove by induction over the list that the first loop leaves every stack argument and spilled argument in its memory whatever the later ones do, and that the second loads every register without disturbing those already loaded; then the pointer to the function by the invariant of temporaries. The called function itself is arbitrary.

C65 – Specify a program as functions over numbered variables and the meaning of a call by recursion on the depth of nested calls, with the statements of C50 and an oracle for the calls of one body. Model `emit_text` (prologue, storing of register parameters, epilogue), call statements through C64's `gen_funcall`, and a processor with `call` and `ret` over an image of all functions. Prove by induction on the depth: the body is simulated by C50's theorem extended by a relation for call statements; a call statement is C64 up to the instruction, the induction hypothesis across it, and the store of the result. Frame offsets are a hypothesis (`FrameOk`), which the offsets of the model of `assign_lvar_offsets` (C36) are shown to meet. Not in the model: variadic functions, floating and structure arguments, local `bool` variables that are not parameters, `x = f()` with a `bool` x, calls inside expressions, variable-length arrays.

C66 – Specify what the text of an `asm` statement may rely on and what it has to leave alone, and what the program finds afterwards. Model the code around the text for operands in general registers, memory, numbers and flags: saving of %r12–%r15 and of the frame pointers, stand-ins for the frame pointers, loading of inputs and addresses, storing of results. The plan of C48 says where operands are. Prove, for every text as a relation between states, that what it finds and what is left after it is as specified: pushes and loads by induction over the lists with C48's disjointness, results with the invariant that the scratch register and the bases are not among the remaining results.

C67 – Specify what a template stands for as an inductive relation over the template (ordinary characters, `%%`, operands by number or name with modifiers, labels), and names of registers by their stems. Model `asm_body` with `named_op`, `find_op`, `reg_sz`, `reg_high_byte` and the numbering of operands. Prove both directions by induction (over the loop, and over the relation), so that a template is refused exactly if it stands for nothing.

C68 – Model the joining of adjacent string literals with its buffer and `memcpy`, a copy past the end being undefined behaviour. Specify the encoding by the one prefix that occurs, the elements by reading each literal on its own with C11's relation in that encoding, and the memory by bytes of elements. Proved: soundness of re-reading a literal in another encoding, and an invariant of the copy loop. `u8` next to `u` is excluded; what happens then is proved.

C69 – Specify membership as a relation: a name denotes a listed member or, through anonymous members, a member of those, with the sum of the offsets and the qualifiers collected on the way. Prove by induction on the nesting that the code's search finds a path exactly if there is one, and ends at the member the path ends at. Qualifiers are right for direct members that are neither atomic nor `restrict`; the other cases are proved departures.

C70 – Model the compile-time read of an object with known contents on the data C22 models. Specify the run-time read on the assembled object with the linker's addresses filled in, bit by bit. Combine C22's invariant (relocations sorted, apart and inside the object) with lemmas on sign extension and the two shifts of bit-fields.

C71 – Model the chain of deferred statements as the parser extends it at a declaration of a variable length array, and the stack operations of `gen_defr` and `builtin_alloca` over any history of declarations, deferred statements and scope exits. Specify what is in scope by a list of items and their storage by a relation to the stack pointer. The invariant says that the chain is the image of the list and that the relation holds; leaving scopes is by induction on the list, with runs of arrays skipped.
C72 – Extend the model of C60 with ND_ARITH_ASSIGN, ND_POST_INCDEC and `gen_void_arith_assign`/`memop_arith` on designators. The object is one more variable for what the code may change; its old value is the left operand that the code of C30 finds in %rax, so `gen_ok` applies to the tree built on ND_NULL_EXPR. The optimised `l++`, `(T)((l += 1) + -1)`, is generated in the model as the compound assignment followed by the rest of the tree on %rax; an example checks on variables that the generator of C30 emits the same lines. Bit-fields, atomics and right operands that read objects are not covered.

C73 – Model `embed_file` on lists of spellings: the loop over the parameters, `skip_paren`/`split_paren2`, the loop over the bytes. Specify parameters as a list of names with balanced arguments and the replacement as a function of them; prove by induction that the loop reads exactly the spellings of such lists, and that `__has_embed` agrees with the directive. The value of the limit is a parameter (constant expressions are C23, C24). How the file is found is C51's subject.

C74 – Model `read_line_marker`, `add_input_file` (files are found again by their path) and the place of a token, along the events of the preprocessor. Specify presumed lines by induction on a tree of source files with their inclusions; prove by induction on the tree that the state kept per path agrees, as long as no file with a marker is read twice. The number of a marker goes through C12's conversion.

C75 – Extend C72 to pointers: the tree for the addition to the value in %rax has the scaled index as its right operand and is not converted, the rest (address, load, store, temporaries, operation in memory) is shared with C72. The scaled index is the tree C30 builds for `i * size` with a `long` size; its value as a word is the stride of Spec/Lvalue whatever 64-bit type it has. The statements compare with `PE.eval` of `p + i` and `p - i`. Pointers to variable length arrays, atomic pointers and indices that read objects are not covered.

C76 – Specify a source as a list of tokens and specifiers, with the token sequence they make and the attributes each token gets. Prove that the pass over the token sequence of every such source returns that attachment, by induction on the list, from lemmas that splitting at parentheses and brackets finds the end of a balanced list, and conversely that every accepted token sequence comes from such a list, by inverting the same functions. Empty places in a list of attributes are a proved departure.

C77 – Model the code of `l = r` for structures as the lines that compute the two addresses, with the designators of C60, and the copy after them. Prove that the lines end with both addresses in the registers or operands of the copy, from the lemmas of C60 and for the temporary, and that the copy moves the bytes, by the induction of C35 over general operands.

C78 – Specify where in a declaration an attribute belongs to what is declared, and what the attributes of all declarations together ask for. Model the readers of attributes, their calls for one declaration, the declarations of one entity in order and the lines written for its symbol. Prove that a reader merges the values in front of a token, compose this over places and declarations by induction, and read off the lines. Departures get witnesses.

C79 – Specify the types of expressions as a relation over the syntax tree (category, qualifiers, type), one rule per clause of C23 6.5, with a flag for the part in which the compiler agrees. Model `add_type` and the functions that build the nodes as a function from the tree to qualifiers and type, on top of the models of C14 (common type) and C15 (compatibility, through an embedding of the types). Prove by induction on the derivation that the compiler's type agrees; show the departures with witnesses in the full relation.

C80 – Model the code of ND_ARITH_ASSIGN and ND_POST_INCDEC on a bit-field (Model/BitOp): the address, the load of the field (Model/BitField), the operation of `gen_expr_null_lhs`, the store that keeps the other bits. Specify the result as the operator of C on the promoted value of the field, cut to the width (Spec/BitOp). The compiler computes in the declared type; prove for every operator that the bits that are kept are those of the computation in the promoted type (congruence modulo the smaller power of two; shifts, divisions and comparisons by cases). Restricted: division and remainder with negative operands, where this is false.

C81 – Model the places where `attr_aligned` and `_Alignas` raise the alignment of a declaration, and the history of declarations of a variable at file scope (Model/Align). Specify what a declaration asks for as a relation (Spec/Align) and prove by induction that the running maximum is the strictest; then, over any history, that the alignment of the definition survives.

C82 – Model `store3`, the assignment case of `gen_expr_opt` and `gen_void_assign`, the code of statements, on top of C63 (Model/FpAssign). Specify the values of the variables after a list of assignments. Prove that the store keeps the representation of every type, that variables apart from the target keep theirs, and by induction that a list of any length leaves what C says with at most one entry on the x87 stack. Left out: assignments without optimization, statements that copy a long double, targets that are not variables.

C83 – Model `gen_cond` for conditions with floating operands and ND_IF, with labels numbered by `count()` (Model/FpBranch). Specify execution of assignments and `if` statements as a relation. Prove that a condition's code, with `&&` and `||` and their short-circuit labels and constant folding (parse.c:2966-2973), jumps exactly if the condition has the value asked for, that labels of different statements and conditions differ, and by induction over statements that the code leaves what C says. Left out: loops, integer relations in the same condition, code without optimization.

C84 – Model ND_FOR, ND_DO and the jumps of `break` and `continue` in `gen_stmt` for conditions with floating operands (Model/FpLoop), and a machine that executes a text step by step, where jumps to named labels look in the whole text and those to numeric labels in what follows. Specify execution that ends as a relation. Prove that no named label is defined twice and each one jumped to is defined, that execution of a piece of text inside a larger one follows `frun`, and by induction over the execution, so over the rounds of loops, that the code reaches its end and leaves what C says; and, by induction over the statement and over a number of steps, that the code of a statement whose execution does not end goes on for ever. Left out: `break` and `continue` with a label, `gen_defr`.

Properties whose theorem is weaker than the statement are suffixed `_partial`; the missing part is stated in the theorem's comment and in MANIFEST.json. At present there is none: where the code does not do what C says, the statement excludes the case, and the departure is proved as a theorem about a concrete witness (next section).

## Departures found

Each is a theorem about the model (a negation with a witness), next to the property it bounds.

| Theorem | What happens |
|---|---|
| `C21_long_field_not_extended`, `C21_assigned_long_not_truncated`, `C21_packed_straddling_wrong` | bit-fields of a 64-bit type are used without extension; a packed field that straddles its unit is read wrongly |
| `C36_huge_variable_overlaps`, `C18_huge_member_overlaps`, `C18_overflow`, `C19_huge_member_outside` | sizes of 4 GiB wrap in `int` arithmetic |
| `C18_packed_alignas_ignored`, `C20_packed_straddles`, `C20_packed_unit_outside`, `C20_width_unchecked` | packed layouts differ from the ABI; bit-field widths are not checked |
| `C22_bool_bitfield`, `C22_wide_bitfield_undefined`, `C22_packed_overrun` | static initialisers of bit-fields |
| `C24_null_directive_misread`, `C24_hash_after_empty_macro`, `C27_define_takes_next_line`, `C27_option_with_two_equals` | directives |
| `C26_diverges` | macro expansion need not end |
| `C37_long_double_member`, `C37_padding_takes_register`, `C37_unaligned_member`, `C52_reads_past_the_end`, `C52_only_unnamed_bitfield` | the calling convention |
| `C41_declared_in_call_is_lost`, `C41_function_redeclared_in_block`, `C41_extern_in_block` | scopes |
| `C43_case_in_loop_skips_defer`, `C43_deferred_loop_twice` | `defer` |
| `C44_conditional_before_assignment`, `C44_subscripted_sizeof` | the grammar of expressions |
| `C46_backslash_hash_lost`, `C46_colon_lost`, `C46_prerequisites_not_quoted` | dependency files |
| `C48_same_register_twice`, `C48_tied_to_memory_output`, `C48_high_vector_clobbers` | inline assembly |
| `C67_goto_skips_restore` | `asm goto` without results jumps past the code that restores clobbered registers |
| `C68_u8_u_overflows` | `u8"aaa" u"b"` is accepted and copied past the end of the array |
| `C68_u_u8_wrong` | `u"b" u8"a"` becomes `u"b8"` |
| `C69_anonymous_not_const` | in `const struct { struct { int b; }; } x`, `x.b` is not `const` |
| `C69_volatile_not_atomic` | in `volatile struct { _Atomic int b; } x`, `x.b` is not atomic, and `x.b++` not one step |
| `C70_constexpr_address` | a `constexpr` object copied from a constant object that holds an address is read as zero |
| `C71_int_size` | the size of a variable length array is computed in the type of its number of elements: `int n = 1 << 29; long a[n];` has no storage |
| `C71_builtin_alloca_freed` | leaving the scope of a variable length array frees what `__builtin_alloca` returned before the array was declared |
| `C81_last_attribute_departs`, `C81_extern_attribute_departs` | of several declarations that ask for different alignments the last definition counts, not the strictest; `aligned` on a declaration that is neither the first nor a definition is lost |
| `C80_division_departs` | `s.x /= -1` with `unsigned x : 3` holding 2 divides in `unsigned` and stores 0, C divides in `int` and stores -2, which is 6; `s.x = s.x / -1` stores 6 |
| `C79_cond_quals_departs`, `C79_cond_void_departs`, `C79_composite_departs` | `c ? p : q` with pointers to differently qualified types, to `void`, or to arrays of which one has no size: the type of the first operand (or plain `void *`) instead of the one with the qualifiers of both and the known size |
| `C79_null_departs` | `(const void *)0` counts as a null pointer constant in `?:` |
| `C79_member_array_departs` | an array member of a `const` or `volatile` structure, used as a pointer (`s.a + 1`), points to unqualified elements |
| `C79_value_qualified_departs`, `C79_function_value_departs` | `typeof(+x)` of a `const int` is `const int`; `(0, f)` has the type of the function, `sizeof` 1 |
| C78_function_section_departs | The attribute `section` of a function has no effect: `emit_text` always writes `.text`. |
| C78_late_departs | `void f(void) {} void f(void) __attribute__((weak));`: the function is written when its body is read, so attributes (`weak`, `visibility`, `constructor`, …) in later declarations have no effect. |
| C78_asm_departs | `extern void f(void) __asm__("g") __attribute__((weak));`: attributes after the assembler label, where GCC wants them, are not read. |
| C78_data_sections_departs | With `-fdata-sections`, `int x __attribute__((section("s"))) = 1;` is put in `.section "s"."x"`, which names another section and is not valid for the assembler. |
| `C76_empty_refused`, `C76_vendor_ignored` | empty attributes as in `__attribute__((weak,,packed))`, `[[,]]` and `[[deprecated,]]` are refused; `[[__gnu__::packed]]` is ignored |
| `C74_two_line_marker`, `C74_leading_zero`, `C74_included_twice`, `C74_name_then_include` | `#line`: on two physical lines, with a leading zero (read as octal), in a file that is read twice, naming a file that is included later (null pointer) |
| `C73_negative_limit`, `C73_underscores` | `#embed` with a negative limit is not diagnosed, and `__has_embed` announces bytes; `__limit__` and the like are refused |
| `C49_first_so_only`, `C49_linked_despite_c`, `C51_next_after_cached` | the driver and the search for headers |
| `C54_after_empty_operand`, `C54_empty_operand_in_va_opt` | chains of `##` |
| `C55_member_after_value_loses_the_rest`, `C55_second_braces_keep_the_first`, `C55_braces_after_value_ignored`, `C55_union_braces_after_value_undefined`, `C55_scalar_braces_rejected`, `C55_string_with_comma_misread`, `C55_index_truncated`, `C55_negative_index_undefined`, `C55_empty_member_rejected` | initializers |
| `C56_store_not_converted` | assignment to an atomic object |
| `C57_junk_accepted`, `C57_static_first_rejected`, `C57_function_returned`, `C57_dots_lost`, `C57_variable_parameter_rejected` | declarators |
| `C58_tokens_joined`, `C58_backslash_lost`, `C58_name_not_escaped` | output of `-E` |
| `C59_sum_of_integers`, `C59_rejected`, `C59_far` | designators resolved at compile time |
| `C60_far`, `C60_cast_dropped` | code for designators |
| `C61_extern_init`, `C61_length_lost`, `C61_misaligned`, `C61_extern_hidden`, `C61_inline_first` | linkage and definitions of objects and functions |
| `C62_ldouble_short`, `C62_ldouble_ushort`, `C62_ldouble_uint` | conversions from long double |
| `C63_not_nan` | `!(a < b)` under optimization is `a >= b`, wrong with a not-a-number (also `<=`, `>`, `>=`) |
| `C63_folded_twice`, `C63_folded_int` | folded constants: double arithmetic is rounded twice (C allows the extra precision, but the value differs from that at run time); an integer converted to a floating type is not rounded |
| `C39_top_values_lost`, `C39_fixed_ulong_accepts_negative`, `C12_*`, `C13_*`, `C04_*`, `C08_trailing_splice_loses_newline`, `C23_negative_lower_bound`, `C40_repeated_sign_accepted` | literals, text, `switch`, specifiers |

## Which code is modelled

| Model file | Code |
|---|---|
| HashMap, StrArray, Arena | hashmap.c; strings.c (`StringArray`); alloc.c |
| Unicode, UnicodeTables | unicode.c |
| Source, Lex, PPNum | tokenize.c: newline and splice phases, tokens, string and character literals, integer constants |
| PPTok, Macro, Directive | preprocess.c: joining and quoting, macro expansion, conditional inclusion, `#define`/`#undef`/`#include`/`#line`/`#pragma once`, include guards |
| Types, Compat, DeclSpec, Enum | type.c: conversions and compatibility; parse.c: type specifiers, enumerations, `_Generic` |
| Expr, ExprParse | parse.c: expressions (grammar, typing of integer expressions, constant folding) |
| Layout, LocalVars, GInit, InitList, InitFlex | parse.c/codegen.c: structures and unions, frames, static data, initializer lists |
| Stmt, Defer, Scope, Live | parse.c: labels, `switch`, jumps, `defer`, scopes, emission of functions |
| Gen, Compile, TmpStack, BitField, MemCopy | codegen.c: integer expressions and statements, conditions, temporaries, bit-fields, block moves |
| Atomic | parse.c: `atomic_op`, assignment to atomic objects; codegen.c: `ND_CAS`, `ND_EXCH`, for integer objects that are global variables |
| Declarator | parse.c: `declarator`, `pointers`, `pointer_qualifiers`, `skip_paren`, `type_suffix`, `array_dimensions`, `func_params`, `typename`, the loop of `parse_typedef`; type.c: `func_type`, `array_of`, `vla_of` (not: specifiers, identifier lists, attributes, scopes) |
| Addr | parse.c: `eval2`, `eval_var_ofs`, `eval_non_var_ofs`, `is_const_expr`, `new_cast`, `new_add`, `new_sub`, `struct_ref`, `unary` for `*` and `&`, `write_gvar_data` for pointers, `__builtin_offsetof` (not: objects with contents known to the compiler, functions, labels, variable-length arrays, bit-fields, thread-local and weak variables) |
| AddrGen | codegen.c: `gen_addr`, `load`, `store`, `gen_expr2` and `gen_expr_opt` for designators, pointer expressions and assignments to integer and pointer objects; `gen_addr_opt`, `gen_deref_opt`, `gen_member_opt`, `is_memop`, `is_memop_ptr`, `skip_gp_cast` (not: bit-fields, structures as values, floating point, function designators, conversions of objects to `bool`) |
| Globals | parse.c: `global_declaration`, `func_prototype`, `func_definition`, `find_func`, `find_var`, `new_gvar`, `func_attr` (`gnu_inline`); codegen.c: `emit_symbol`, `emit_data` (symbol, size, alignment), `codegen` (not: attributes, asm names, `_Alignas`, `constexpr`, thread-local storage) |
| FpCast | codegen.c: the floating rows and columns of `cast_table` (not: conversion to `bool`) |
| FpExpr | codegen.c: `gen_expr2`, `gen_expr_opt`, `gen_bool_opt`, `load_fval`, `load_f32_f64`, `load3`, `pop_fp`, `gen_cmp_zero` for floating operands; parse.c: `eval_double`, `eval_fp_cast` and the cases of `eval` with floating operands |
| PrintTok | main.c: `print_tokens`; tokenize.c: `tokenize_file` (not: `convert_universal_chars`, more than 2^31 tokens) |
| CallTypes, CallConv, CallBytes | codegen.c: classification, registers and stack of arguments, results, `va_arg` |
| Call | codegen.c: `gen_funcall`, `gen_funcall_args`, `prepare_funcall`, `gen_var_assign` for arguments of integer type that contain no call (not: `alloca`, alignment above 16) |
| Func | codegen.c: `emit_text` (prologue, parameters in registers, epilogue); calls as statements (not: variadic functions, `main`, VLAs, floating and structure parameters, alignment above 16) |
| AsmRegs | codegen.c: registers of inline assembly |
| AsmCode | codegen.c: `gen_asm`, `asm_gp_inputs`, `asm_outputs`, `asm_reg_input`, `asm_reg_output`, `asm_gen_ptr`, `asm_push_clobbers`, `asm_push_frame_ptr` and their counterparts (not: `asm_gen_operands`, vector and x87 operands, bit-fields as results, the jumps after `asm goto` with results) |
| AsmBody | codegen.c: `asm_body`, `find_op`, `named_op`, `asm_fill_ops`, `asm_fill_ops2` |
| StrJoin | preprocess.c: `getStringKind`, `join_adjacent_string_literals`; tokenize.c: `tokenize_string_literal` |
| Member | parse.c: `get_struct_member`, `struct_ref`, `apply_cv_qualifier`; type.c: `new_qualified_type` |
| ConstRead | parse.c: `is_static_const_var`, `eval_constexpr_data`, `eval_sign_extend`, the last part of `eval2` |
| Vla | parse.c: `compute_vla_size`, `new_vla`, `new_defr`; codegen.c: `builtin_alloca`, `gen_defr` (stack pointer; the deferred statements themselves are in Defer) |
| AddrOp | codegen.c: ND_ARITH_ASSIGN, ND_POST_INCDEC, `gen_expr_null_lhs`, `gen_void_arith_assign`, `memop_arith` on designators of integer type; parse.c: `to_assign`, `new_inc_dec` (not: pointers, see PtrOp; bit-fields, see BitOp; atomics, floating point) |
| PtrOp | parse.c: `new_add`, `new_sub`, `to_assign`, `new_inc_dec` on pointers; type.c: `add_type` of ND_ADD and ND_SUB with a pointer; the rest of AddrOp for pointers (not: pointers to variable length arrays, atomics) |
| Embed | preprocess.c: `embed_file`, `split_paren2`; parse.c: `skip_paren` (not: `read_filename`; the evaluation of the limit is a parameter) |
| LineNo | preprocess.c: `read_line_marker`, `line_macro`, `file_macro`, the places set in `preprocess2`; tokenize.c: `add_input_file`, `new_file` (not: macro expansion in the marker, overflow of line numbers) |
| Attrs | preprocess.c: `preprocess3`, `filter_attr`, `is_supported_attr`, `is_gnu_attr`, `split_paren2`, `split_bracket`; parse.c: `skip_paren` (not: the pass over an attribute's own tokens, keywords, joining of string literals, the free list) |
| StructSet | codegen.c: ND_ASSIGN in `gen_expr2`, `gen_expr_opt` and `gen_void_assign`, `store3`, `gen_mem_copy2` for structures and unions designated by lvalues (not: structures returned by calls, from `?:`, comma or another assignment; atomic structures) |
| SymAttr | parse.c: `tyspec_attr`, `cdtor_attr`, `apply_cdtor_attr`, `bool_attr` (`weak`), `str_attr`, `apply_str_attr`, `DeclAttr`, `symbol_attr`, `func_attr` (constructors, destructors), their calls in `declspec`, `global_declaration`; codegen.c: `emit_symbol`, `emit_cdtor`, the sections in `emit_data` and `emit_text`, `codegen` (not: `aligned`, `cleanup`, `returns_twice`, thread-local objects; arguments are values) |
| Prologue | codegen.c: `emit_text` 4057-4071, 4155-4156, 4165-4170: prologue and epilogue, with alignments above 16 |
| ExprType | type.c: `add_type`, `get_common_type` with pointers, `usual_arith_conv`, `is_nullptr`; parse.c: `new_add`, `new_sub`, `new_cast`, `struct_ref`, `apply_cv_qualifier`, the types given by `unary`, `postfix`, `funcall`, `assign`, `conditional` (not: bit-fields, `_Atomic`, `restrict`, variable length arrays, statement expressions) |
| BitOp | codegen.c: ND_ARITH_ASSIGN, ND_POST_INCDEC, `gen_void_arith_assign` on bit-fields; parse.c: `to_assign`, `new_inc_dec` for them (not: `_Atomic` fields, floating right operands) |
| Align | parse.c: `attr_aligned`, `tyspec_attr` 680, `declspec` (`_Alignas`), `declarator2`, `declaration2`, `parse_typedef`, `global_declaration`, `new_var` (alignment only) |
| FpAssign | codegen.c: `store3`, the case of ND_ASSIGN in `gen_expr_opt`, `gen_void_assign` |
| FpBranch | codegen.c: `gen_cond` and `bool_expr_opt` for floating operands, logical and and or, ND_IF in `gen_stmt`; parse.c: `cond_cast`, ND_LOGAND and ND_LOGOR in `eval` |
| FpLoop | codegen.c: ND_FOR, ND_DO and ND_GOTO (of `break` and `continue`) in `gen_stmt` |
| Driver | main.c: options for include paths, output names, stages, dependency files; preprocess.c: search for headers |
| Float, FloatMul, FpMach, X86, X86Prog, and the threads of Atomic | (the target, not code of /repo; instructions of threads interleave one at a time, an access to shared memory is one step; data that are not numbers are not distinguished, floating point exceptions are masked, SSE rounds to nearest) |

## Not modelled

* Floating assignment, `?:`, `&&`, `||` and calls with floating operands, jumps on floating conditions (C62 and C63 are about values of expressions without them), `_Complex`; pointers, arrays and structures in the typed expression language of C17/C30 (designators and pointer expressions have their own language, C59 and C60, in which integer expressions are subscripts and right operands; addresses of arguments, members and initializers are covered in C18-C22, C35, C52, C55).
* Of the parser: attributes other than those of C76 and C78, `typeof` as a specifier, compound literals, statement expressions, builtins other than those named in the table, nested functions, types of variable length arrays other than their size (C71); of initializers: ranges `[a ... b]` and flexible array members.
* Of the preprocessor: `#def`, `_Pragma`, `__has_*` other than `__has_embed`, `__VA_TAIL__`.
* Of the code generator: debug output other than `.file` and `.loc`, thread-local and position-independent addressing, atomic objects other than global integers, vector, x87 and bit-field operands of `asm`, peepholes on memory operands other than those of `Gen`.
* Platform files (platform-*.c, main.c's process handling), the assembler and linker processes, file-system effects, diagnostics text.

{
 "claims": [
  {
   "property": "C01",
   "status": "proved",
   "theorems": [
    "Mosml.Ints.C01_enc_injective",
    "Mosml.Ints.C01_add",
    "Mosml.Ints.C01_sub",
    "Mosml.Ints.C01_neg",
    "Mosml.Ints.C01_succ",
    "Mosml.Ints.C01_pred",
    "Mosml.Ints.C01_abs",
    "Mosml.Ints.C01_compare"
   ],
   "note": "All operand pairs, complete outcome of each instruction on tagged 64-bit words."
  },
  {
   "property": "C02",
   "status": "partial",
   "theorems": [
    "Mosml.Ints.C02_mul_partial",
    "Mosml.Ints.C02_mul_violation"
   ],
   "note": "Holds for all operand pairs except (2^31, ~2^31) and (~2^31, 2^31), where the code raises Overflow although the product is minInt; the violation is proved."
  },
  {
   "property": "C03",
   "status": "proved",
   "theorems": [
    "Mosml.Ints.C03_div",
    "Mosml.Ints.C03_mod",
    "Mosml.Ints.C03_quot",
    "Mosml.Ints.C03_rem",
    "Mosml.Ints.C03_overflow_cases"
   ],
   "note": "All operand pairs including Div, Overflow and absence of C division traps."
  },
  {
   "property": "C04",
   "status": "partial",
   "theorems": [
    "Mosml.Ints.C04_arith",
    "Mosml.Ints.C04_encW_injective",
    "Mosml.Ints.C04_divmod",
    "Mosml.Ints.C04_compare",
    "Mosml.Ints.C04_bitwise",
    "Mosml.Ints.C04_shifts",
    "Mosml.Ints.C04_neg_partial",
    "Mosml.Ints.C04_neg_violation",
    "Mosml.Ints.C04_toInt"
   ],
   "note": "All word operations for all operands, except Word.~ at 2^62, where the code raises Overflow; the violation is proved."
  },
  {
   "property": "C05",
   "status": "proved",
   "theorems": [
    "Mosml.Num.C05_int_of_string",
    "Mosml.Num.C05_decimal_literal",
    "Mosml.Num.C05_hex_literal",
    "Mosml.Num.C05_string_of_int_roundtrip",
    "Mosml.Num.C05_string_of_int_form"
   ],
   "note": "Complete outcome of the decimal primitive on every string (including the empty digit string and embedded NUL, which the code accepts); literals [~]d+ and [~]0xh+ are exact or Failure; printing then reading is the identity."
  },
  {
   "property": "C06",
   "status": "proved",
   "theorems": [
    "Mosml.Num.C06_int_scan",
    "Mosml.Num.C06_whitespace",
    "Mosml.Num.C06_scan_numeral",
    "Mosml.Num.C06_fmt_form",
    "Mosml.Num.C06_fmt_scan_roundtrip",
    "Mosml.Num.C06_toString_eq_fmt"
   ],
   "note": "Longest-numeral specification for every radix and source, Overflow exactly when not representable; fmt/scan round trip; toString = fmt DEC. Character sources are modelled as lists."
  },
  {
   "property": "C07",
   "status": "partial",
   "theorems": [
    "Mosml.Num.C07_word_of_dec",
    "Mosml.Num.C07_word_of_hex",
    "Mosml.Num.C07_hexstring_roundtrip",
    "Mosml.Num.C07_word_scan_partial",
    "Mosml.Num.C07_fmt_scan_roundtrip",
    "Mosml.Num.C07_fmt_form",
    "Mosml.Num.C07_violation_no_overflow",
    "Mosml.Num.C07_violation_hex_0w"
   ],
   "note": "Literals exact or rejected; fmt/scan round trip; scan specified for every source except that the code reduces modulo 2^63 where Word.sig documents Overflow and accepts 0w before hexadecimal digits (both violations proved)."
  },
  {
   "property": "C08",
   "status": "partial",
   "theorems": [
    "Mosml.RealConv.C08_floor",
    "Mosml.RealConv.C08_ceil_partial",
    "Mosml.RealConv.C08_trunc_partial",
    "Mosml.RealConv.C08_round_partial",
    "Mosml.RealConv.C08_infinities",
    "Mosml.RealConv.C08_violation_ceil",
    "Mosml.RealConv.C08_violation_trunc",
    "Mosml.RealConv.C08_violation_round",
    "Mosml.RealConv.C08_violation_nan"
   ],
   "note": "floor proved for every finite double; ceil and trunc except at ~2^62 (wrong Overflow), round except at 2^62 (returns minInt); violations and NaN undefined behaviour proved."
  },
  {
   "property": "C09",
   "status": "partial",
   "theorems": [
    "Mosml.Strings.C09_size",
    "Mosml.Strings.C09_create",
    "Mosml.Strings.C09_update",
    "Mosml.Strings.C09_maxSize_tight",
    "Mosml.Strings.C09_concat2",
    "Mosml.Strings.C09_concat_partial",
    "Mosml.Strings.C09_concat_violation"
   ],
   "note": "size, create, update, ^ (with Size exactly above maxSize) proved for all lengths; String.concat proved when each argument is shorter than 2^31, because blit_string takes the length through a C int (violation proved)."
  },
  {
   "property": "C10",
   "status": "proved",
   "theorems": [
    "Mosml.Strings.C10_order_tests",
    "Mosml.Strings.C10_compare",
    "Mosml.Strings.C10_polymorphic_compare"
   ],
   "note": "All order tests, String.compare and the string case of polymorphic compare agree with the lexicographic order on codes."
  },
  {
   "property": "C11",
   "status": "partial",
   "theorems": [
    "Mosml.Strings.C11_toString_roundtrip",
    "Mosml.Strings.C11_toString_printable",
    "Mosml.Strings.C11_printer_roundtrip",
    "Mosml.Strings.C11_char_printer_roundtrip",
    "Mosml.Strings.C11_printer_exact_size",
    "Mosml.Strings.C11_printer_ascii_violation",
    "Mosml.Strings.C11_toCString_roundtrip"
   ],
   "note": "Round trips for String.toString/fromString, the runtime printers and toCString/fromCString on every string; toString output is printable ASCII; the runtime printer writes 128..254 raw (violation proved)."
  },
  {
   "property": "C12",
   "status": "partial",
   "theorems": [
    "Mosml.Strings.C12_blit_partial",
    "Mosml.Strings.C12_blit_violation",
    "Mosml.Strings.C12_fill",
    "Mosml.Strings.C12_slice_copy",
    "Mosml.Strings.C12_array_copy",
    "Mosml.Strings.C12_copy_exception_violation"
   ],
   "note": "blit_string exact for lengths below 2^31 (violation above proved); fill_string, ArraySlice.copy and Array.copy for every overlap; Overflow instead of Subscript for indices near maxInt (proved)."
  },
  {
   "property": "C13",
   "status": "partial",
   "theorems": [
    "Mosml.Equal.C13_equality_partial",
    "Mosml.Equal.C13_equivalence",
    "Mosml.Equal.C13_equal_is_identical",
    "Mosml.Equal.C13_nan_violation",
    "Mosml.Equal.C13_long_string_violation"
   ],
   "note": "Exact decision of tree equality with identity on refs/arrays for all values without NaN and with strings shorter than 2^31; termination within the nesting depth; equivalence relation. Violations with NaN (depends on sharing) and long strings (C int length) proved."
  },
  {
   "property": "C14",
   "status": "proved",
   "theorems": [
    "Mosml.Equal.C14_equal_hash",
    "Mosml.Equal.C14_hash_stable",
    "Mosml.Equal.C14_bounded",
    "Mosml.Equal.C14_fuel_irrelevant",
    "Mosml.Equal.C14_real_violation"
   ],
   "note": "Equal real-free values hash equally for every count/limit; hash invariant under moving; terminates on cyclic heaps, inspects at most limit blocks, below 2^30."
  },
  {
   "property": "C15",
   "status": "partial",
   "theorems": [
    "Mosml.Marshal.C15_round_trip_partial",
    "Mosml.Marshal.C15_weak_violation",
    "Mosml.Marshal.C15_large_violation",
    "Mosml.Marshal.C15_table"
   ],
   "note": "Round trip proved for every finite graph (any sharing, cycles), both byte orders, up to 2^32 bytes, with the open-addressing table refined to a list (C15_table). Missing because false: weak arrays and values of 2^32 bytes or more; both violations proved."
  },
  {
   "property": "C16",
   "status": "partial",
   "theorems": [
    "Mosml.Marshal.C16_int_iff",
    "Mosml.Marshal.C16_negative_violation",
    "Mosml.Marshal.C16_atom"
   ],
   "note": "Exact characterisation: atoms always round trip, ints exactly in 0..2^31-1; violation for ~1 proved."
  },
  {
   "property": "C17",
   "status": "partial",
   "theorems": [
    "Mosml.Marshal.C17_compact_round_trip_partial",
    "Mosml.Marshal.C17_large_block_violation"
   ],
   "note": "Round trip for every graph with blocks below 2^22 fields, strings below 2^32 bytes and below 2^31 words in all; the violation for a block of 2^22 fields is proved."
  },
  {
   "property": "C18",
   "status": "partial",
   "theorems": [
    "Mosml.Marshal.C18_expand_partial",
    "Mosml.Marshal.C18_int_iff",
    "Mosml.Marshal.C18_negative_violation",
    "Mosml.Marshal.C18_large_violation"
   ],
   "note": "Round trip for every 32-bit graph (both byte orders) whose blocks have fewer than 2^21 words; top-level ints right exactly when not negative; violations for negative ints and for larger blocks proved."
  },
  {
   "property": "C19",
   "status": "partial",
   "theorems": [
    "Mosml.Marshal.C19_block_violation",
    "Mosml.Marshal.C19_int_partial",
    "Mosml.Marshal.C19_large_int_violation"
   ],
   "note": "The property fails on 64-bit machines: the conversion back raises an exception for every block value (proved for all graphs); ints in -2^55..2^55-1 survive; violation for a larger int proved."
  },
  {
   "property": "C20",
   "status": "partial",
   "theorems": [
    "Mosml.IO.C20_contents_partial",
    "Mosml.IO.C20_new_file_partial",
    "Mosml.IO.C20_pos_partial",
    "Mosml.IO.C20_huge_violation"
   ],
   "note": "For every operation sequence, block size below 2^31 and splitting of writes. A block of 2^31 bytes or more is lost (really_write takes an int): violation proved."
  },
  {
   "property": "C21",
   "status": "partial",
   "theorems": [
    "Mosml.IO.C21_unbuffered_partial",
    "Mosml.IO.C21_flush",
    "Mosml.IO.C21_backpatch",
    "Mosml.IO.C21_flush_violation",
    "Mosml.IO.C21_block_violation"
   ],
   "note": "Equivalence with an unbuffered file whenever no flush and no block of 4096 bytes or more happens short of the end of the file; header patching as in extern.c is a corollary. Both excluded cases are proved to be violations."
  },
  {
   "property": "C22",
   "status": "proved",
   "theorems": [
    "Mosml.IO.C22_pos",
    "Mosml.IO.C22_char",
    "Mosml.IO.C22_block",
    "Mosml.IO.C22_exactly",
    "Mosml.IO.C22_scan",
    "Mosml.IO.C22_seek",
    "Mosml.IO.C22_reads",
    "Mosml.IO.C22_seek_reads"
   ],
   "note": "All operation sequences and all short-read behaviours; requests below 2^31 bytes; input_scan_line specified completely."
  },
  {
   "property": "C23",
   "status": "proved",
   "theorems": [
    "Mosml.IO.C23_int",
    "Mosml.IO.C23_int_range",
    "Mosml.IO.C23_real"
   ],
   "note": "Exactly the signed 32-bit range round trips (C23_int, C23_int_range); the byte order conversion of doubles is an involution and yields big-endian order."
  },
  {
   "property": "C24",
   "status": "proved",
   "theorems": [
    "Mosml.Heap.C24_heap",
    "Mosml.Heap.C24_frame",
    "Mosml.Heap.C24_allocate",
    "Mosml.Heap.C24_alloc_shr",
    "Mosml.Heap.C24_next",
    "Mosml.Heap.C24_order_violation"
   ],
   "note": "All sequences of allocate, grow, free, field stores and recolouring from the initial heap, addresses in words, chunks given by malloc. Disjointness, sizes, exact tiling, the list, and frame. That the list is in address order (which the comments and the DEBUG asserts want) is proved to fail: C24_order_violation."
  },
  {
   "property": "C25",
   "status": "proved",
   "theorems": [
    "Mosml.Minor.C25_minor",
    "Mosml.Minor.C25_paths",
    "Mosml.Minor.C25_table",
    "Mosml.Minor.C25_table_after"
   ],
   "note": "All heaps, roots and complete tables of old-to-young pointers (C25_minor: explicit move; C25_paths: every path of fields and all sharing as before; C25_table, C25_table_after: Modify, initialize and the collection keep the table complete). The heap is a graph; alloc_shr is any choice of unused addresses (see C24)."
  },
  {
   "property": "C26",
   "status": "proved",
   "theorems": [
    "Mosml.Major.C26_exists",
    "Mosml.Major.C26_label",
    "Mosml.Major.C26_free",
    "Mosml.Major.C26_frame",
    "Mosml.Major.C26_weaks",
    "Mosml.Major.C26_reclaim"
   ],
   "note": "All interleavings of collector slices, program steps (allocation, Modify, root changes, weak_sub) and minor collections from the initial heap; every outcome of an overflow of gray_vals; heap growth at any address. Safety (C26_exists, C26_free, C26_label), frame (C26_frame, C26_weaks), completeness (C26_reclaim). Finalization functions are not modelled; walks pass over free blocks in arbitrary stretches; minor collections are those of C25."
  },
  {
   "property": "C27",
   "status": "partial",
   "theorems": [
    "Mosml.Major.C27_get",
    "Mosml.Major.C27_no_dangling",
    "Mosml.Major.C27_alive_partial",
    "Mosml.Major.C27_collector_partial",
    "Mosml.Major.C27_alive_violation",
    "Mosml.Major.C27_collector_violation"
   ],
   "note": "No dangling weak pointer, and a weak read yields a block that exists and is then protected (C27_get, C27_no_dangling), for all interleavings. Weak pointers to reachable blocks stay alive except in the weak phase for a block below the heap as it was at the end of marking; the violation is proved, both for isdead and for weak_phase."
  },
  {
   "property": "C28",
   "status": "partial",
   "theorems": [
    "Mosml.PageTable.C28_lookup",
    "Mosml.PageTable.C28_in_heap_partial",
    "Mosml.PageTable.C28_chain",
    "Mosml.PageTable.C28_expand",
    "Mosml.PageTable.C28_round",
    "Mosml.PageTable.C28_init_incr",
    "Mosml.PageTable.C28_incr_violation"
   ],
   "note": "The unrolled search is exact and stays in its table for every table (C28_lookup); Is_in_heap is exact for all heaps whose increment is a positive number of whole pages, which every initial setting is (C28_init_incr); the chain is sorted. The violation after gc_set with increment 0 is proved."
  },
  {
   "property": "C29",
   "status": "proved",
   "theorems": [
    "Mosml.Stack.C29_realloc",
    "Mosml.Stack.C29_room",
    "Mosml.Stack.C29_exec",
    "Mosml.Stack.C29_run",
    "Mosml.Stack.C29_ok"
   ],
   "note": "All stacks whose links form the chain (an invariant of the instructions, C29_ok), any place and contents of the new memory, any number of reallocations in any run (C29_run). Reading a link as a value counts as failure."
  },
  {
   "property": "C30",
   "status": "proved",
   "theorems": [
    "Mosml.Md5.C30_md5sum",
    "Mosml.Md5.C30_length",
    "Mosml.Md5.C30_long_violation",
    "Mosml.Md5.Sine.C30_table"
   ],
   "note": "md5sum.c against RFC 1321 written over Nat, for every string below 2^31 characters; the table of the specification is proved to be the integer part of 2^32 |sin i| (C30_table). A string of 2^32 characters gets the digest of the empty string (C30_long_violation)."
  },
  {
   "property": "C31",
   "status": "proved",
   "theorems": [
    "Mosml.Zam.C31_compiled_value",
    "Mosml.Zam.C31_only_outcome",
    "Mosml.Zam.C31_int",
    "Mosml.Zam.C31_no_fatal",
    "Mosml.Zam.C31_no_static_failure"
   ],
   "note": "All closed terms of the core of the intermediate language (variables, constants, functions, application with any number of arguments, let, letrec of functions, conditionals, andalso/orelse, sequences, blocks and fields, integer arithmetic and tests, static failure, raise and handle); the code generator including its peephole rules, lifting, tail calls, GRAB/RESTART. Integers are unbounded constants with overflow checks at 63 bits; stack and heap are unbounded. Says nothing of terms that have no result (loops and terms that go wrong). References, switches, shared nodes and globals are outside."
  },
  {
   "property": "C32",
   "status": "proved",
   "theorems": [
    "Mosml.Zam.C32_uncaught",
    "Mosml.Zam.C32_uncaught_only",
    "Mosml.Zam.C32_raise_restores",
    "Mosml.Zam.C32_poptrap_restores",
    "Mosml.Zam.C32_handled",
    "Mosml.Zam.C32_not_raised",
    "Mosml.Zam.C32_innermost",
    "Mosml.Zam.C32_outer"
   ],
   "note": "All closed terms as in C31. Uncaught exceptions end the program with that exception; handlers get the stack, environment, pending arguments and enclosing trap frame back; innermost handler first."
  },
  {
   "property": "C33",
   "status": "partial",
   "theorems": [
    "Mosml.Parse.Ex.C33_symbolStart_violation",
    "Mosml.Parse.C33_engine",
    "Mosml.Parse.C33_sound",
    "Mosml.Parse.C33_complete",
    "Mosml.Parse.C33_unambiguous",
    "Mosml.Parse.C33_stacks"
   ],
   "note": "All tables, inputs, actions and stack sizes: the engine and its driver have a result iff the abstract automaton has it; with tables that are sound (complete) for a grammar they accept only (all) sentences, with their values. Assumes that no action or lexer calls a parser (the engine keeps its state in static variables). Soundness and completeness are for grammars without actions inside rules. Positions given to actions are wrong for empty symbols: C33_symbolStart_violation."
  },
  {
   "property": "C34",
   "status": "proved",
   "theorems": [
    "Mosml.Yacc.Warshall.C34_transitive",
    "Mosml.Yacc.Warshall.C34_reflexive"
   ],
   "note": "All sizes and all relations; no access outside the matrix; termination. 32-bit words."
  },
  {
   "property": "C35",
   "status": "proved",
   "theorems": [
    "Mosml.Yacc.Pack.C35_pack",
    "Mosml.Yacc.Pack.C35_defined",
    "Mosml.Yacc.Pack.C35_goto",
    "Mosml.Yacc.Pack.C35_rows",
    "Mosml.Yacc.Pack.C35_action",
    "Mosml.Yacc.Pack.C35_lowzero_violation"
   ],
   "note": "All vectors (rows of shifts and reductions, columns of gotos) and all sizes; the emitted tables give the action remove_conflicts has left for every state and token, and the goto for every pair. The loop that looks for the next free place reads beyond a full table (C35_lowzero_violation); the result does not depend on what it finds there. Shorts unbounded (place and table entries fit when the input does)."
  },
  {
   "property": "C36",
   "status": "partial",
   "theorems": [
    "Mosml.Yacc.Digraph.C36_digraph_partial",
    "Mosml.Yacc.Digraph.C36_short_violation"
   ],
   "note": "All relations and all initial sets, up to 32765 gotos; termination, recursion depth at most the number of gotos, no access outside the arrays. With 32766 gotos (accepted by set_goto_map) infinity wraps and the result is wrong: C36_short_violation."
  },
  {
   "property": "C37",
   "status": "proved",
   "theorems": [
    "Mosml.Yacc.Closure.C37_closure",
    "Mosml.Yacc.Closure.C37_overread_violation"
   ],
   "note": "All packed grammars (as reader.c packs them) and all increasing nuclei; no write outside itemset; the one access outside an array, of the word after EFF, is C37_overread_violation and does not change the result. 32-bit words; shorts unbounded; lr0.c set_derives included."
  },
  {
   "property": "C38",
   "status": "proved",
   "theorems": [
    "Mosml.Maps.Binarymap.C38_binarymap",
    "Mosml.Maps.Binarymap.C38_traversals",
    "Mosml.Maps.Binarymap.C38_map",
    "Mosml.Maps.Binarymap.C38_intmap",
    "Mosml.Maps.Binarymap.C38_balance_violation"
   ],
   "note": "All comparison functions that are total preorders, all sequences of insert and remove; Match is never raised; traversals, map and transform; Intmap equals Binarymap on integers. (Not part of the property: the balance criterion of the source comment fails, C38_balance_violation.)"
  },
  {
   "property": "C39",
   "status": "proved",
   "theorems": [
    "Mosml.Maps.Redblackmap.C39_traversals",
    "Mosml.Maps.Redblackmap.C39_redblackmap",
    "Mosml.Maps.Redblackmap.C39_comparisons",
    "Mosml.Maps.Redblackmap.C39_map"
   ],
   "note": "All total preorders, all sequences of insert and remove; Fail is never raised; at most 2 log2(n+1) comparisons per lookup; traversals, map and transform."
  },
  {
   "property": "C40",
   "status": "proved",
   "theorems": [
    "Mosml.Maps.Splaymap.C40_splaymap",
    "Mosml.Maps.Splaymap.C40_traversals",
    "Mosml.Maps.Splaymap.C40_map"
   ],
   "note": "All total preorders and all programs on versions of maps: any earlier version, splayed by any lookups, still has its contents; traversals and map."
  },
  {
   "property": "C41",
   "status": "proved",
   "theorems": [
    "Mosml.Sort.Listsort.C41_sort",
    "Mosml.Sort.Listsort.C41_sorted",
    "Mosml.Sort.Listsort.C41_merge",
    "Mosml.Sort.Listsort.C41_mergeUniq_partial",
    "Mosml.Sort.Listsort.C41_mergeUniq_violation",
    "Mosml.Sort.Listsort.C41_eqclasses"
   ],
   "note": "All lists and all total preorders; sort, sorted, merge, eqclasses. mergeUniq for inputs without duplicates (C41_mergeUniq_partial); with duplicates in an input they stay, against Listsort.sig (C41_mergeUniq_violation); mergeUniq is not part of the property."
  },
  {
   "property": "C42",
   "status": "proved",
   "theorems": [
    "Mosml.Sort.Arraysort.C42_sort",
    "Mosml.Sort.Arraysort.C42_sorted"
   ],
   "note": "All arrays and all total preorders: termination, no access out of bounds, sorted permutation; sorted decides. Subscripts are unbounded integers."
  },
  {
   "property": "C43",
   "status": "proved",
   "theorems": [
    "Mosml.Hash.Polyhash.C43_table",
    "Mosml.Hash.Polyhash.C43_map",
    "Mosml.Hash.Polyhash.C43_traversals",
    "Mosml.Hash.Polyhash.C43_reached",
    "Mosml.Hash.Polyhash.C43_hint_violation",
    "Mosml.Hash.Polyhash.C43_interrupt_violation",
    "Mosml.Hash.Polyhash.C43_filter_violation"
   ],
   "note": "All hash functions and equivalences compatible with them, all sequences of operations from mkTable (size hints up to 2^53, fewer than 2^53 operations), all traversals. Violations outside these conditions: C43_hint_violation, C43_interrupt_violation, C43_filter_violation."
  },
  {
   "property": "C44",
   "status": "partial",
   "theorems": [
    "Mosml.Lib.Dynarray.C44_dynarray_partial",
    "Mosml.Lib.Dynarray.C44_subArray_violation"
   ],
   "note": "All programs on any number of dynamic arrays with update indices below 2^53 and sizes up to Array.maxLen behave as infinite arrays, except that subArray(a,m,n) stops before n, against Dynarray.sig (C44_subArray_violation). Missing: indices from 2^53 (Size may be raised)."
  },
  {
   "property": "C45",
   "status": "proved",
   "theorems": [
    "Mosml.Lib.Buffer.C45_buffer",
    "Mosml.Lib.Buffer.C45_new"
   ],
   "note": "All sequences of operations from a new buffer, whatever uninitialised memory contains; no access out of bounds; Size exactly when the text would be longer than String.maxSize."
  },
  {
   "property": "C46",
   "status": "proved",
   "theorems": [
    "Mosml.Lib.Path.C46_toString_fromString",
    "Mosml.Lib.Path.C46_fromString_toString_partial",
    "Mosml.Lib.Path.C46_fromString_toString_violation",
    "Mosml.Lib.Path.C46_mkCanonical",
    "Mosml.Lib.Path.C46_canonical_form",
    "Mosml.Lib.Path.C46_canonical_complete",
    "Mosml.Lib.Path.C46_getParent",
    "Mosml.Lib.Path.C46_getParent_root",
    "Mosml.Lib.Path.C46_concat",
    "Mosml.Lib.Path.C46_mkAbsolute",
    "Mosml.Lib.Path.C46_mkRelative_partial",
    "Mosml.Lib.Path.C46_mkRelative_violation",
    "Mosml.Lib.Path.C46_splitDirFile",
    "Mosml.Lib.Path.C46_splitBaseExt_partial",
    "Mosml.Lib.Path.C46_splitBaseExt_violation",
    "Mosml.Lib.Path.C46_unixPath_violation"
   ],
   "note": "Unix variant. All paths: toString (fromString p), mkCanonical (idempotent, denotation, normal form, complete for equivalence), getParent, concat, mkAbsolute, splitDirFile. Documented claims beyond the property that fail: C46_*_violation; the partial theorems hold under the stated conditions."
  },
  {
   "property": "C47",
   "status": "proved",
   "theorems": [
    "Mosml.Lib.Substring.C47_splitl",
    "Mosml.Lib.Substring.C47_splitr",
    "Mosml.Lib.Substring.C47_take_drop",
    "Mosml.Lib.Substring.C47_fields",
    "Mosml.Lib.Substring.C47_tokens",
    "Mosml.Lib.Substring.C47_fields_join"
   ],
   "note": "All substrings and all total predicates; no access outside the string; termination."
  },
  {
   "property": "C48",
   "status": "proved",
   "theorems": [
    "Mosml.Lex.C48_generates",
    "Mosml.Lex.C48_longest_first",
    "Mosml.Lex.C48_answers",
    "Mosml.Lex.C48_dispatch",
    "Mosml.Lex.C48_entry_violation",
    "Mosml.Lex.C48_names",
    "Mosml.Lex.C48_notation"
   ],
   "note": "All definitions with at most 32767 actions, all inputs (infinite streams of characters; the buffer is C53); the generator ends, and the automaton runs the first case among the longest matches. Termination of a run needs character classes that are not empty and an input that cannot match for ever. Rules that match only the empty word are outside (C48_entry_violation). Includes the emitted dispatch on characters and the expansion of names and notation."
  },
  {
   "property": "C49",
   "status": "proved",
   "theorems": [
    "Mosml.Infix.C49_infix",
    "Mosml.Infix.C49_unique",
    "Mosml.Infix.C49_errors"
   ],
   "note": "All sequences, all fixities (any integer precedence). resolveInfix of Infixst.sml; the further check of applyObj_Pat and the clause forms of fun declarations are not modelled."
  },
  {
   "property": "C50",
   "status": "partial",
   "theorems": [
    "Mosml.Match.C50_select",
    "Mosml.Match.C50_exhaustive",
    "Mosml.Match.C50_unused",
    "Mosml.Match.C50_bindings",
    "Mosml.Match.C50_fatal_violation"
   ],
   "note": "All lists of rules for which code is made, all values of the type of the patterns (SML values with their representation: constants, tuples, records, vectors, references, datatypes with and without greedy constructors, exceptions). Selection of the first matching rule, match failure iff none matches, bindings of the variables, and the two warnings (no warning means exhaustive; an unused warning is right). Missing: that code is made for every list of well-typed rules - it is not (C50_fatal_violation: the compiler stops with fatalError on two exceptions with arguments of different shape); a positive theorem for lists without that case is not yet proved."
  },
  {
   "property": "C51",
   "status": "proved",
   "theorems": [
    "Mosml.IO.C51_inputAll",
    "Mosml.IO.C51_inputN",
    "Mosml.IO.C51_lookahead",
    "Mosml.IO.C51_inputLine",
    "Mosml.IO.C51_scanStream"
   ],
   "note": "inputAll, inputN, inputLine, lookahead and the scanStream reader, over the channel model of C22; Size only when the result would come within 127 characters of String.maxSize."
  },
  {
   "property": "C52",
   "status": "proved",
   "theorems": [
    "Mosml.Yacc.Mkpar.C52_actions",
    "Mosml.Yacc.Mkpar.C52_unique",
    "Mosml.Yacc.Mkpar.C52_shift_reduce",
    "Mosml.Yacc.Mkpar.C52_reduce_reduce",
    "Mosml.Yacc.Mkpar.C52_default"
   ],
   "note": "All lists of actions. Which action is left is stated for tokens with one shift and one reduction, or two reductions; uniqueness for any number."
  },
  {
   "property": "C53",
   "status": "proved",
   "theorems": [
    "Mosml.Lex.C53_create",
    "Mosml.Lex.C53_stream",
    "Mosml.Lex.C53_token",
    "Mosml.Lex.C53_answers",
    "Mosml.Lex.C53_too_long",
    "Mosml.Lex.C53_string",
    "Mosml.Lex.C53_string_violation"
   ],
   "note": "All definitions as in C48, all reading functions (at most 1024 characters per call, as Lexing.sig demands), all buffers between two tokens. For strings the text and positions of a lexeme are right unless it reaches two or more characters past the end (C53_string_violation: only a rule that matches several NULs can do this)."
  },
  {
   "property": "C54",
   "status": "partial",
   "theorems": [
    "Mosml.Unref.C54_local_refs_partial",
    "Mosml.Unref.C54_without_sharing",
    "Mosml.Unref.C54_stale_node_violation"
   ],
   "note": "All lets of any number of arguments, all terms as lifted (functions with exactly their arguments, letrec, case analysis, shared nodes, while, exceptions), all states; the result differs only by blocks to which nothing refers. Only runs that end. C54_without_sharing: without shared nodes there is no further condition; with them, an attempt that is given up must not have rewritten a node (C54_local_refs_partial). The code does not ensure this: C54_stale_node_violation."
  },
  {
   "property": "C55",
   "status": "partial",
   "theorems": [
    "Mosml.Emit.C55_object_decodes_partial",
    "Mosml.Emit.C55_load_decodes_partial",
    "Mosml.Emit.C55_slots_apart",
    "Mosml.Emit.C55_closure_size_violation"
   ],
   "note": "All instruction sequences (every constructor of the code generator), all label orders, all buffers and linker tables, batch and interactive. Assumed: operands within limits the emitter does not check (Zam.Wf: closures of at most 255 variables, tags below 256, blocks below 2^22 fields, C primitives of 1-255 arguments), referenced labels present, globals defined once, code below 2^31 bytes, fewer than 2^32 slots. The first limit is not ensured: C55_closure_size_violation. Literals are identified up to the comparison of the literal table (C56)."
  },
  {
   "property": "C56",
   "status": "partial",
   "theorems": [
    "Mosml.Emit.C56_table_comparison",
    "Mosml.Emit.C56_slot_partial",
    "Mosml.Emit.C56_object_literals_partial",
    "Mosml.Emit.C56_scalar",
    "Mosml.Emit.C56_zero_violation"
   ],
   "note": "All constants (without NaN, strings below 2^31 characters), all phrases. A slot holds exactly the constant, unless this contains a zero of type real inside a tuple, list or constructor; then it may differ in the sign of zeros (C56_zero_violation). QUOTEsc constants (vectors of the toplevel) are not modelled."
  },
  {
   "property": "C57",
   "status": "partial",
   "theorems": [
    "Mosml.Cond.C57_comparison",
    "Mosml.Cond.C57_condition_partial",
    "Mosml.Cond.C57_nan_violation",
    "Mosml.Cond.C57_constant_pattern"
   ],
   "note": "All operators on int, word, string and real; all values (strings up to the maximal length). Jumps: every comparison of ints, words and strings; reals unless one is NaN. With a NaN the compiled conditional takes the wrong branch (C57_nan_violation), since the inverse of < is taken to be >=."
  },
  {
   "property": "C58",
   "status": "partial",
   "theorems": [
    "Mosml.Cond.C58_decision_code",
    "Mosml.Cond.C58_decision_code_anywhere",
    "Mosml.Cond.C58_direct_switch",
    "Mosml.Cond.C58_tables_fit",
    "Mosml.Cond.C58_compiles_partial",
    "Mosml.Cond.C58_overflow_violation"
   ],
   "note": "All sets of distinct keys, all values, any code behind. Right-hand sides are opaque (one instruction); Lstaticfail for missing entries. Tables have at most 255 entries. Missing: keys 2^62 or more apart make the compiler raise Overflow (C58_overflow_violation); C58_compiles_partial covers the others. The choice between direct switch and decision tree (number of clauses) is not modelled, both are right."
  },
  {
   "property": "C59",
   "status": "proved",
   "theorems": [
    "Mosml.Link.C59_units_in_order",
    "Mosml.Link.C59_check_succeeds",
    "Mosml.Link.C59_check_terminates",
    "Mosml.Link.C59_keeps_what_is_needed",
    "Mosml.Link.C59_linked_program",
    "Mosml.Link.C59_link"
   ],
   "note": "All three passes of Link.sml. Hash tables are lists (any order of mentions); files are looked up by unit name; the behaviour of phrases is abstract. That the phrases marked pure are silent is a hypothesis of the equivalence, and is C60. Assumes each unit by itself refers to what its mentions define (UnitOk), which is the type checker. Number of slots below 2^32 and the bytes: C55."
  },
  {
   "property": "C60",
   "status": "partial",
   "theorems": [
    "Mosml.Safe.C60_safe_no_effect",
    "Mosml.Safe.C60_safe_terminates_partial",
    "Mosml.Safe.C60_pure_phrase_partial",
    "Mosml.Safe.C60_while_violation",
    "Mosml.Safe.C60_bind_violation",
    "Mosml.Link.C60_linked_bind_violation"
   ],
   "note": "Value, exception and open declarations; module expressions are not modelled. Missing: loops need not end (C60_while_violation), and patterns need not match (C60_bind_violation, C60_linked_bind_violation)."
  },
  {
   "property": "C61",
   "status": "partial",
   "theorems": [
    "Mosml.Front.C61_translation_computes_grouped_order",
    "Mosml.Front.C61_translation_in_context",
    "Mosml.Front.C61_translation_has_no_other_result",
    "Mosml.Front.C61_related_data_are_equal",
    "Mosml.Front.C61_translation_computes_sml_order_partial",
    "Mosml.Front.C61_mild_programs_keep_sml_order",
    "Mosml.Front.C61_curried_calls_run_late_violation",
    "Mosml.Front.C61_curried_calls_raise_late_violation",
    "Mosml.Front.C61_loops_are_moved_violation"
   ],
   "note": "All expressions of Verif/Front/Model.lean (patterns are variables; see C50 for matching). The translation is correct for the order in which all arguments of a curried application are evaluated before the first call (C61_translation_computes_grouped_order, no further condition than that safe arguments contain no loop). It agrees with the Definition when no function is run by an application to which further arguments with effects are given: checked along the run (C61_translation_computes_sml_order_partial) or from the text (C61_mild_programs_keep_sml_order). Violations: C61_curried_calls_run_late_violation, C61_curried_calls_raise_late_violation, C61_loops_are_moved_violation. Only runs that end."
  },
  {
   "property": "C62",
   "status": "proved",
   "theorems": [
    "Mosml.Expand.C62_expansion",
    "Mosml.Expand.C62_result",
    "Mosml.Expand.C62_same_execution",
    "Mosml.Expand.C62_text_threaded",
    "Mosml.Expand.C62_load_threaded_partial",
    "Mosml.Expand.C62_image_executes"
   ],
   "note": "All blocks that can be read from beginning to end and whose branches lead to instructions (Whole): no access out of bounds, no bad opcode, same instructions, same runs on every machine that treats code addresses as opaque, GRAB included. C62_image_executes: the executable made of linked phrases is such a block. C62_load_threaded_partial is about interactive phrases and inherits the limits of C55 (Fit, code below 2^31 bytes); it also assumes that something follows every label. Numbers are integers: the casts between 32-bit fields and words are not modelled."
  },
  {
   "property": "C63",
   "status": "proved",
   "theorems": [
    "Mosml.Typing.C63_accepted_safe",
    "Mosml.Typing.C63_accepted_typed",
    "Mosml.Typing.C63_typed_safe",
    "Mosml.Typing.C63_unify_sound"
   ],
   "note": "For every program of the modelled core language (constants, functions by rules, records, record patterns with dots, options and lists, references, val and recursive fun, conditionals): accepted programs do not go wrong. C63_accepted_typed: every solution of the final state gives a typing by the declarative rules; C63_typed_safe: typed programs do not go wrong; C63_unify_sound. Overloading, equality types, annotations, exceptions and modules are not modelled."
  },
  {
   "property": "C64",
   "status": "partial",
   "theorems": [
    "Mosml.Typing.C64_three_dots_violation",
    "Mosml.Typing.C64_legal_accepted_partial",
    "Mosml.Typing.C64_principal_partial",
    "Mosml.Typing.C64_illegal_rejected"
   ],
   "note": "C64_three_dots_violation: a legal program with a record pattern with dots stops the compiler with an internal error. For programs without dots: C64_legal_accepted_partial (typable programs are accepted) and C64_principal_partial (the types of the program are exactly the instances of the inferred type), with respect to the declarative rules Typ with let-polymorphism and value restriction; C64_illegal_rejected for all programs. Missing: which programs with dots are accepted."
  },
  {
   "property": "C65",
   "status": "proved",
   "theorems": [
    "Mosml.Dates.C65_date_is_calendar",
    "Mosml.Dates.C65_later_unique",
    "Mosml.Dates.C65_date_canonical",
    "Mosml.Dates.C65_date_steps",
    "Mosml.Dates.C65_date_total",
    "Mosml.Dates.C65_compare"
   ],
   "note": "The calendar is specified by the ticks of a clock. All arguments; Overflow is raised or the result is right (C65_date_is_calendar), and for numbers up to 2^50 there is a result (C65_date_total). For local dates in 1970-2037 the code asks mktime and localtime; the theorem then assumes that the C library knows the time (Arg.Known), which fails for times skipped when summer time begins. Leap seconds are ignored, as documented."
  },
  {
   "property": "C66",
   "status": "partial",
   "theorems": [
    "Mosml.Dates.C66_offset",
    "Mosml.Dates.C66_offset_local",
    "Mosml.Dates.C66_toTime_partial",
    "Mosml.Dates.C66_noon_violation",
    "Mosml.Dates.C66_days_violation"
   ],
   "note": "C66_toTime_partial: offsets from -12 to 36 hours except exactly 12 hours; assumes that mktime and localoffset agree about standard time (Clib.Standard). Violations: C66_noon_violation (12 hours is taken to be west), C66_days_violation (whole days of the offset, but one, are counted twice)."
  },
  {
   "property": "C67",
   "status": "partial",
   "theorems": [
    "Mosml.Dates.C67_roundtrip_partial",
    "Mosml.Dates.C67_toString_invalid",
    "Mosml.Dates.C67_long_year_violation",
    "Mosml.Dates.C67_leading_space_violation"
   ],
   "note": "All dates in the years 1900-9999 (C67_roundtrip_partial); the text of asctime is that of ISO C. Violations: C67_long_year_violation (the year is cut off), C67_leading_space_violation (initial white space is not skipped). Date.fmt is not modelled."
  },
  {
   "property": "C68",
   "status": "partial",
   "theorems": [
    "Mosml.Sets.Rbset.C68_rbset",
    "Mosml.Sets.Rbset.C68_relations",
    "Mosml.Sets.Rbset.C68_traversals",
    "Mosml.Sets.Rbset.C68_sublist",
    "Mosml.Sets.Rbset.C68_balanced",
    "Mosml.Sets.Rbset.C68_mapMono_partial",
    "Mosml.Sets.Rbset.C68_mapMono_violation",
    "Mosml.Sets.Rbset.C68_subset_compare_violation"
   ],
   "note": "All expressions of set operations, all orderings that are total up to equivalence, which of equivalent elements is kept, red-black balance and 2 log2(n+1) comparisons (C68_rbset, C68_relations, C68_traversals, C68_sublist, C68_balanced). Violations: C68_mapMono_violation (mapMono raises NonMonotonic for increasing functions and accepts decreasing ones; C68_mapMono_partial says exactly what it does), C68_subset_compare_violation (the documented law relating isSubset and compare is false)."
  },
  {
   "property": "C69",
   "status": "proved",
   "theorems": [
    "Mosml.Sets.Binaryset.C69_binaryset",
    "Mosml.Sets.Binaryset.C69_relations",
    "Mosml.Sets.Binaryset.C69_traversals",
    "Mosml.Sets.Binaryset.C69_find"
   ],
   "note": "All expressions of set operations, all orderings that are total up to equivalence, which of equivalent elements is kept. Intset.sml is the same code with the comparison of integers written out, and is covered by taking cmp to be the comparison of integers. Balance of the trees is not claimed here; find returns some element that satisfies the condition, as documented, not the least."
  },
  {
   "property": "C70",
   "status": "proved",
   "theorems": [
    "Mosml.Sets.Splayset.C70_splayset",
    "Mosml.Sets.Splayset.C70_traversals",
    "Mosml.Sets.Splayset.C70_find"
   ],
   "note": "All programs over any number of sets, with the sharing of references between sets modelled by a heap; all orderings that are total up to equivalence; which of equivalent elements is kept. The comparison function and the predicate given to find have no effects. find returns some element that satisfies the condition, as documented, not the least."
  },
  {
   "property": "C71",
   "status": "partial",
   "theorems": [
    "Mosml.Rand.C71_newgenseed_partial",
    "Mosml.Rand.C71_random",
    "Mosml.Rand.C71_range_partial",
    "Mosml.Rand.C71_range_small_partial",
    "Mosml.Rand.C71_range_zero_partial",
    "Mosml.Rand.C71_range_empty",
    "Mosml.Rand.C71_randomlist",
    "Mosml.Rand.C71_rangelist",
    "Mosml.Rand.C71_period",
    "Mosml.Rand.C71_all_values",
    "Mosml.Rand.C71_range_violation",
    "Mosml.Rand.C71_seed_violation",
    "Mosml.Rand.C71_degenerate_violation"
   ],
   "note": "Float operations are any rounding to a nearest double (ties arbitrary). Full period proved from the primitive root 16807 (via Lucas). Range: any bounds whose range size times the rounding stays exact: |bounds| at most 2^21, or min = 0 and max at most 2^52. Violations: C71_range_violation (range returns max for large bounds), C71_seed_violation (tiny negative seeds give random = 1.0), C71_degenerate_violation (seed 2147483647.0 gives only 0.0). newgen (system clock) is not modelled."
  },
  {
   "property": "C72",
   "status": "partial",
   "theorems": [
    "Mosml.RealText.C72_fmt_partial",
    "Mosml.RealText.C72_size",
    "Mosml.RealText.C72_scan_longest",
    "Mosml.RealText.C72_scan_none_partial",
    "Mosml.RealText.C72_scan_no_numeral",
    "Mosml.RealText.C72_scan_value_partial",
    "Mosml.RealText.C72_roundtrip",
    "Mosml.RealText.C72_buffer_violation",
    "Mosml.RealText.C72_size_violation",
    "Mosml.RealText.C72_sign_violation",
    "Mosml.RealText.C72_overflow_violation"
   ],
   "note": "C72_fmt_partial: text of at most 511 characters; C72_scan_longest for all texts; C72_scan_value_partial: mantissas up to 2^53, 15 decimals, exponents up to 22 in size, relative error 2^-51; C72_roundtrip. Violations: C72_buffer_violation (512-byte array overrun), C72_size_violation (Size above 400 digits), C72_sign_violation (a numeral followed by sign and digit is refused), C72_overflow_violation. SCI and GEN formats are not modelled; C printf is taken to be correctly rounded."
  },
  {
   "property": "C73",
   "status": "partial",
   "theorems": [
    "Mosml.Times.C73_from",
    "Mosml.Times.C73_to_partial",
    "Mosml.Times.C73_inverse",
    "Mosml.Times.C73_add_sub",
    "Mosml.Times.C73_compare",
    "Mosml.Times.C73_fmt_partial",
    "Mosml.Times.C73_toString_partial",
    "Mosml.Times.C73_scan_partial",
    "Mosml.Times.C73_scan_none",
    "Mosml.Times.C73_roundtrip_partial",
    "Mosml.Times.C73_roundtrip_exact",
    "Mosml.Times.C73_inverse_violation",
    "Mosml.Times.C73_sum_violation",
    "Mosml.Times.C73_less_violation",
    "Mosml.Times.C73_fmt_violation",
    "Mosml.Times.C73_point_violation",
    "Mosml.Times.C73_size_violation"
   ],
   "note": "Float operations are any rounding to nearest. Whole microseconds below 2^52 (142 years) for toSeconds, fmt and the round trip; numerals up to 9*10^9 seconds with any number of decimals for scan; C73_scan_none for all texts. Violations: C73_inverse_violation, C73_sum_violation, C73_less_violation (laws of fromReal and toReal), C73_fmt_violation (above 2^52), C73_point_violation (scan consumes a point without digits after it), C73_size_violation. now is not modelled."
  },
  {
   "property": "C74",
   "status": "partial",
   "theorems": [
    "Mosml.Regexes.C74_groups_partial",
    "Mosml.Regexes.C74_none",
    "Mosml.Regexes.C74_decomposition",
    "Mosml.Regexes.C74_concatenation",
    "Mosml.Regexes.C74_fold",
    "Mosml.Regexes.C74_map",
    "Mosml.Regexes.C74_app",
    "Mosml.Regexes.C74_fields",
    "Mosml.Regexes.C74_tokens",
    "Mosml.Regexes.C74_replace",
    "Mosml.Regexes.C74_substitute",
    "Mosml.Regexes.C74_identity",
    "Mosml.Regexes.C74_replace1",
    "Mosml.Regexes.C74_progress",
    "Mosml.Regexes.C74_caret_violation",
    "Mosml.Regexes.C74_fields_violation",
    "Mosml.Regexes.C74_groups_violation"
   ],
   "note": "The engine is any function that reports a match within the text; its own correctness is not modelled. Functions given by the user are computations in any lawful monad. C74_groups_partial: groups that start in the order of their numbers. Violations: C74_groups_violation (a group that starts before the previous one and all later groups are missing from the vector), C74_caret_violation (^ matches after every match in replace, map, app, fold, substitute), C74_fields_violation (documented equation of fields and fold)."
  },
  {
   "property": "C75",
   "status": "partial",
   "theorems": [
    "Mosml.Arrays.C75_subscript",
    "Mosml.Arrays.C75_slice_subscript",
    "Mosml.Arrays.C75_slice",
    "Mosml.Arrays.C75_subslice",
    "Mosml.Arrays.C75_getItem",
    "Mosml.Arrays.C75_valid",
    "Mosml.Arrays.C75_app",
    "Mosml.Arrays.C75_fold",
    "Mosml.Arrays.C75_search",
    "Mosml.Arrays.C75_modify",
    "Mosml.Arrays.C75_map",
    "Mosml.Arrays.C75_collate",
    "Mosml.Arrays.C75_fold_pure",
    "Mosml.Arrays.C75_map_pure",
    "Mosml.Arrays.C75_modify_pure",
    "Mosml.Arrays.C75_collate_pure",
    "Mosml.Arrays.C75_search_pure",
    "Mosml.Arrays.C75_find_violation",
    "Mosml.Arrays.C75_safe",
    "Mosml.Arrays.C75_copy_partial",
    "Mosml.Arrays.C75_copy_whole_partial",
    "Mosml.Arrays.C75_copy_violation",
    "Mosml.Arrays.C75_vector",
    "Mosml.Arrays.C75_concat",
    "Mosml.Arrays.C75_tabulate",
    "Mosml.Arrays.C75_make",
    "Mosml.Arrays.C75_whole"
   ],
   "note": "Partial for copy and copyVec: documented to raise Subscript if di + length exceeds the length of dst, they raise Overflow when the sum is not an int (C75_copy_violation). C75_find_violation: find returns an element to which the predicate was never applied if the predicate updates the array. Everything else is proved in full. Word8Array etc. contain the same loops; their block copies are C12."
  },
  {
   "property": "C76",
   "status": "partial",
   "theorems": [
    "Mosml.Matrix.C76_subscript",
    "Mosml.Matrix.C76_vectors",
    "Mosml.Matrix.C76_regions",
    "Mosml.Matrix.C76_whole",
    "Mosml.Matrix.C76_positions",
    "Mosml.Matrix.C76_fold_pure",
    "Mosml.Matrix.C76_modify_pure",
    "Mosml.Matrix.C76_invalid_partial",
    "Mosml.Matrix.C76_region_violation",
    "Mosml.Matrix.C76_safe",
    "Mosml.Matrix.C76_copy",
    "Mosml.Matrix.C76_copy_invalid_partial",
    "Mosml.Matrix.C76_copy_violation",
    "Mosml.Matrix.C76_array_partial",
    "Mosml.Matrix.C76_fromList",
    "Mosml.Matrix.C76_tabulate_partial",
    "Mosml.Matrix.C76_tabulate_size_partial",
    "Mosml.Matrix.C76_size_violation"
   ],
   "note": "Partial for: invalid regions without rows and regions whose end is not an int (C76_region_violation); copy to where there is no room (C76_copy_violation); dimensions (0, n) with n negative (C76_size_violation); tabulate is proved for functions with any effect but on arrays. The rest is proved in full."
  },
  {
   "property": "C77",
   "status": "partial",
   "theorems": [
    "Mosml.Cgi.C77_urlencode",
    "Mosml.Cgi.C77_htmlencode",
    "Mosml.Cgi.C77_fields",
    "Mosml.Cgi.C77_form",
    "Mosml.Cgi.C77_integer_partial",
    "Mosml.Cgi.C77_integer_violation",
    "Mosml.Cgi.C77_malformed_violation",
    "Mosml.Cgi.C77_multipart_partial",
    "Mosml.Cgi.C77_multipart_violation",
    "Mosml.Cgi.C77_wseq",
    "Mosml.Cgi.C77_marks",
    "Mosml.Cgi.C77_marks_violation",
    "Mosml.Cgi.C77_cookie_partial",
    "Mosml.Cgi.C77_setCookie",
    "Mosml.Cgi.C77_cookie_violation"
   ],
   "note": "Encodings, forms, word sequences and setCookie are proved in full. Partial for: cgi_field_integer (C77_integer_violation); multipart messages with semicolons in names or with quoted boundaries (C77_multipart_violation); cookies with blanks (C77_cookie_violation); mark1a and area (C77_marks_violation)."
  },
  {
   "property": "C78",
   "status": "partial",
   "theorems": [
    "Mosml.Pretty.C78_layout_partial",
    "Mosml.Pretty.C78_layout_short",
    "Mosml.Pretty.C78_text_partial",
    "Mosml.Pretty.C78_break_partial",
    "Mosml.Pretty.C78_width_partial",
    "Mosml.Pretty.C78_newline_partial",
    "Mosml.Pretty.C78_newline_violation",
    "Mosml.Pretty.C78_flush_partial",
    "Mosml.Pretty.C78_flush_violation",
    "Mosml.Pretty.C78_buffer_violation",
    "Mosml.Pretty.C78_lost_violation",
    "Mosml.Pretty.C78_queue"
   ],
   "note": "Proved for calls for which the token buffer has room (fewer than 3*linewidth calls always do) and widths below INFINITY; C78_buffer_violation and C78_lost_violation show what happens otherwise, C78_flush_violation when a block is open at flush, C78_newline_violation with negative offsets."
  },
  {
   "property": "C79",
   "status": "proved",
   "theorems": [
    "Mosml.Hash.Hashset.C79_set",
    "Mosml.Hash.Hashset.C79_singleton",
    "Mosml.Hash.Hashset.C79_traversals",
    "Mosml.Hash.Hashset.C79_subset",
    "Mosml.Hash.Hashset.C79_hash",
    "Mosml.Hash.Hashset.C79_copy"
   ],
   "note": "For fewer than 2^53 items added; user functions without effects on the set."
  },
  {
   "property": "C80",
   "status": "proved",
   "theorems": [
    "Mosml.Lists.C80_cases",
    "Mosml.Lists.C80_map",
    "Mosml.Lists.C80_filter",
    "Mosml.Lists.C80_search",
    "Mosml.Lists.C80_fold",
    "Mosml.Lists.C80_access",
    "Mosml.Lists.C80_build",
    "Mosml.Lists.C80_tabulate",
    "Mosml.Lists.C80_collate",
    "Mosml.Lists.Pair.C80_pairs",
    "Mosml.Lists.Pair.C80_pairs_eq",
    "Mosml.Lists.Opt.C80_option"
   ],
   "note": "Left-to-right evaluation of the source is assumed (Definition of SML); no bound on memory or stack."
  },
  {
   "property": "C81",
   "status": "partial",
   "theorems": [
    "Mosml.Text.Strng.C81_sub_partial",
    "Mosml.Text.Strng.C81_extract_violation",
    "Mosml.Text.Strng.C81_concat_partial",
    "Mosml.Text.Strng.C81_traversals",
    "Mosml.Text.Strng.C81_find_translate_partial",
    "Mosml.Text.Strng.C81_prefix"
   ],
   "note": "extract(s,i,NONE) raises Overflow instead of Subscript for i = valOf Int.minInt (C81_extract_violation); concat needs the sum of the sizes to be an integer; strings of 2^31 characters or more are excluded (blit_string works on C ints)."
  },
  {
   "property": "C82",
   "status": "partial",
   "theorems": [
    "Mosml.Text.Sus.C82_make",
    "Mosml.Text.Sus.C82_access",
    "Mosml.Text.Sus.C82_parts_partial",
    "Mosml.Text.Sus.C82_slice_violation",
    "Mosml.Text.Sus.C82_traversals",
    "Mosml.Text.Sus.C82_compare",
    "Mosml.Text.Sus.C82_prefix",
    "Mosml.Text.Sus.C82_position"
   ],
   "note": "slice(sus,i,SOME n) raises Overflow instead of Subscript if i+n is not an integer (C82_slice_violation). dropl, dropr, takel, taker, splitl, splitr, tokens and fields of Strbase are in C47."
  },
  {
   "property": "C83",
   "status": "partial",
   "theorems": [
    "Mosml.Text.Cvt.C83_splitl_partial",
    "Mosml.Text.Cvt.C83_splitl_violation",
    "Mosml.Text.Cvt.C83_dropl",
    "Mosml.Text.Cvt.C83_scanString",
    "Mosml.Text.Cvt.C83_pad_partial",
    "Mosml.Text.Chr.C83_chr",
    "Mosml.Text.Chr.C83_contains",
    "Mosml.Text.Chr.C83_classes"
   ],
   "note": "A predicate or reader that applies the same splitl p getc overwrites the prefix read so far (C83_splitl_violation). Prefixes of 2^30 characters or more and widths above maxSize are excluded. toString and scan of Char are in C11."
  },
  {
   "property": "C84",
   "status": "partial",
   "theorems": [
    "Mosml.Signals.C84_no_spurious_partial",
    "Mosml.Signals.C84_spurious_violation",
    "Mosml.Signals.C84_delivered_partial",
    "Mosml.Signals.C84_never_waits_partial",
    "Mosml.Signals.C84_poll_raises_partial",
    "Mosml.Signals.C84_lost_violation",
    "Mosml.Signals.C84_callback_partial",
    "Mosml.Signals.C84_flag_violation",
    "Mosml.Signals.C84_collection_partial",
    "Mosml.Signals.C84_collection_violation",
    "Mosml.Signals.C84_input_partial",
    "Mosml.Signals.C84_input_violation"
   ],
   "note": "Five departures, each with a witness: a signal between interp.c:1109 and 1110 is lost (as the source says); RAISE from a callback leaves in_blocking_section set, so that later signals call back from anywhere, can cancel a forced collection, and can make every later read raise Interrupt; bytes read are lost when a signal arrives before leave_blocking_section. The theorems exclude exactly these points of arrival."
  },
  {
   "property": "C85",
   "status": "partial",
   "theorems": [
    "Mosml.Source.C85_string_rules",
    "Mosml.Source.C85_comment_rules",
    "Mosml.Source.C85_string",
    "Mosml.Source.C85_string_error",
    "Mosml.Source.C85_string_unique",
    "Mosml.Source.C85_toString",
    "Mosml.Source.C85_printed_string",
    "Mosml.Source.C85_printed_char",
    "Mosml.Source.C85_char",
    "Mosml.Source.C85_comment",
    "Mosml.Source.C85_comment_error",
    "Mosml.Source.C85_long_identifier",
    "Mosml.Source.C85_gap_violation",
    "Mosml.Source.C85_unprintable_violation"
   ],
   "note": "Two departures from the Definition, each with a witness: a form feed is refused in a gap of a string constant; the codes 27 to 31 are accepted as plain characters and 255 is refused. The specification of plain and formatting characters in the other theorems follows the code there."
  },
  {
   "property": "C86",
   "status": "partial",
   "theorems": [
    "Mosml.Lazy.C86_lazy",
    "Mosml.Lazy.C86_never_again",
    "Mosml.Lazy.C86_once_partial",
    "Mosml.Lazy.C86_force",
    "Mosml.Lazy.C86_reentrant_violation",
    "Mosml.Lazy.C86_exception_violation"
   ],
   "note": "Two departures from Susp.sig, each with a witness: an expression that forces its own suspension can be evaluated more than once, and force then returns different values; an expression that raises an exception is evaluated again by each force."
  },
  {
   "property": "C87",
   "status": "partial",
   "theorems": [
    "Mosml.Lazy.C87_registry",
    "Mosml.Lazy.C87_pointer",
    "Mosml.Lazy.C87_null",
    "Mosml.Lazy.C87_cptr",
    "Mosml.Lazy.C87_registervalue_partial",
    "Mosml.Lazy.C87_registervalue_violation"
   ],
   "note": "One departure: registervalue and unregistervalue do not check for NULL, so that after unregistering \"Callback.register\" from ML they call the interpreter with a null closure. The hash table is the finite map of C43; the collector is not modelled here."
  },
  {
   "property": "C88",
   "status": "partial",
   "theorems": [
    "Mosml.Word8.C88_arith",
    "Mosml.Word8.C88_divmod",
    "Mosml.Word8.C88_order",
    "Mosml.Word8.C88_bitwise",
    "Mosml.Word8.C88_closed",
    "Mosml.Word8.C88_shifts",
    "Mosml.Word8.C88_conversions",
    "Mosml.Word8.C88_conversions_inverse",
    "Mosml.Word8.C88_scan_partial",
    "Mosml.Word8.C88_fmt_form",
    "Mosml.Word8.C88_fmt_scan_roundtrip",
    "Mosml.Word8.C88_violation_hex_0w"
   ],
   "note": "One departure from Word8.sig with a witness: in HEX, scan also accepts 0w followed by hexadecimal digits. Everything else is proved for all arguments."
  },
  {
   "property": "C89",
   "status": "partial",
   "theorems": [
    "Mosml.Loc.C89_every_range",
    "Mosml.Loc.C89_one_line_partial",
    "Mosml.Loc.C89_many_lines_partial",
    "Mosml.Loc.C89_position_restored",
    "Mosml.Loc.C89_eof_violation",
    "Mosml.Loc.C89_control_z_violation",
    "Mosml.Loc.C89_errPrompt_violation"
   ],
   "note": "Departures with witnesses: five marks too many in a last line without newline; wrong lines behind a control-Z; errPrompt prints no newline although Location.sig says so. The branch for lexers that do not read from a file is not modelled."
  },
  {
   "property": "C90",
   "status": "partial",
   "theorems": [
    "Mosml.Files.C90_path_partial",
    "Mosml.Files.C90_path_violation",
    "Mosml.Files.C90_isLink",
    "Mosml.Files.C90_access",
    "Mosml.Files.C90_readLink",
    "Mosml.Files.C90_fileId_partial",
    "Mosml.Files.C90_fileId_violation",
    "Mosml.Files.C90_fileId_one_device_violation",
    "Mosml.Files.C90_directory_partial",
    "Mosml.Files.C90_close_violation",
    "Mosml.Files.C90_searchpath_partial",
    "Mosml.Files.C90_searchpath_overflow",
    "Mosml.Files.C90_searchpath_violation"
   ],
   "note": "Departures with witnesses: paths with a NUL are silently cut; file ids of different files coincide when an inode number exceeds 17 bits (or 53 bits on one device); closing a directory stream twice raises nothing; searchpath overruns its 512-byte buffer for long PATH components. Proved for paths without NUL, devices below 2^36 and inodes below 2^17, streams closed once, and names that fit the buffer. realpath, times, sizes and errno are not modelled."
  },
  {
   "property": "C91",
   "status": "partial",
   "theorems": [
    "Mosml.Proc.C91_exit_partial",
    "Mosml.Proc.C91_raise_violation",
    "Mosml.Proc.C91_nested_exit_violation",
    "Mosml.Proc.C91_registered_violation",
    "Mosml.Proc.C91_isSuccess",
    "Mosml.Proc.C91_status_partial",
    "Mosml.Proc.C91_pass_on_violation",
    "Mosml.Proc.C91_killed",
    "Mosml.Proc.C91_sleep_partial",
    "Mosml.Proc.C91_sleep_violation",
    "Mosml.Proc.C91_getEnv_partial",
    "Mosml.Proc.C91_commandLine",
    "Mosml.Proc.C91_listDir"
   ],
   "note": "Departures with witnesses: exit does not end the process if an action raises an exception, runs forever if an action calls exit, and skips actions registered by actions; Process.exit (Process.system cmd) always signals success; sleeping for 2^32 seconds does not sleep. Proved for actions that do neither, for statuses between -255 and 255, times below 2^32 seconds, and names without NUL."
  },
  {
   "property": "C92",
   "status": "partial",
   "theorems": [
    "Mosml.IntInf.C92_arith",
    "Mosml.IntInf.C92_divmod",
    "Mosml.IntInf.C92_div_zero",
    "Mosml.IntInf.C92_toInt",
    "Mosml.IntInf.C92_pow_partial",
    "Mosml.IntInf.C92_pow_violation",
    "Mosml.IntInf.C92_log2_partial",
    "Mosml.IntInf.C92_log2_violation",
    "Mosml.IntInf.C92_scan_partial",
    "Mosml.IntInf.C92_scan_none",
    "Mosml.IntInf.C92_roundtrip",
    "Mosml.IntInf.C92_hex_violation"
   ],
   "note": "Departures: log2 is one too large for every positive number; pow(~1, n) is ~1 for negative even n; fmt HEX writes lower-case digits; scan HEX does not accept 0x. Everything else is proved. GMP itself is taken at its documented meaning."
  },
  {
   "property": "C93",
   "status": "partial",
   "theorems": [
    "Mosml.PackReal.C93_toBytes",
    "Mosml.PackReal.C93_big_fromBytes",
    "Mosml.PackReal.C93_little_fromBytes_partial",
    "Mosml.PackReal.C93_little_fromBytes_violation",
    "Mosml.PackReal.C93_sub_partial",
    "Mosml.PackReal.C93_update_partial",
    "Mosml.PackReal.C93_overflow_violation",
    "Mosml.PackReal.C93_roundtrip",
    "Mosml.PackReal.C93_float_partial",
    "Mosml.PackReal.C93_float_violation"
   ],
   "note": "Departures: PackRealLittle.fromBytes reads the last eight bytes of a longer vector; indices of 2^59 and more raise Overflow instead of Subscript; Mosml.floatVec never raises Fail. Everything else is proved; the C conversion between double and float is a parameter."
  },
  {
   "property": "C94",
   "status": "partial",
   "theorems": [
    "Mosml.Cmdline.C94_filename",
    "Mosml.Cmdline.C94_find",
    "Mosml.Cmdline.C94_words_partial",
    "Mosml.Cmdline.C94_words_violation",
    "Mosml.Cmdline.C94_parse",
    "Mosml.Cmdline.C94_debug_violation",
    "Mosml.Cmdline.C94_context",
    "Mosml.Cmdline.C94_circular_violation",
    "Mosml.Cmdline.C94_link",
    "Mosml.Cmdline.C94_mosmldep_violation"
   ],
   "note": "Departures: a last word without following blank in a -files file is lost and words of more than 1024 characters raise Subscript; the compiler refuses the options -g and -debug that mosmlc passes on; a unit named twice stays in its own context; mosmldep writes contexts in reverse order. Everything else is proved; the shell script itself, integer and real options, and the arguments of -P and -m are not modelled."
  },
  {
   "property": "C95",
   "status": "partial",
   "theorems": [
    "Mosml.Old.C95_lists",
    "Mosml.Old.C95_order",
    "Mosml.Old.C95_ints",
    "Mosml.Old.C95_explode",
    "Mosml.Old.C95_strings",
    "Mosml.Old.C95_implode_violation",
    "Mosml.Old.C95_bool_partial",
    "Mosml.Old.C95_bool_violation"
   ],
   "note": "Departures: implode of NJ93 and SML90 does not check String.maxSize; Bool.fromString accepts upper case letters, which Bool.sig excludes. Everything else is proved; mathematical functions and input and output of the two units are not modelled here."
  },
  {
   "property": "C96",
   "status": "partial",
   "theorems": [
    "Mosml.Help.C96_lookup",
    "Mosml.Help.C96_search",
    "Mosml.Help.C96_start",
    "Mosml.Help.C96_centre",
    "Mosml.Help.C96_move",
    "Mosml.Help.C96_find_partial",
    "Mosml.Help.C96_next_violation",
    "Mosml.Help.C96_choose",
    "Mosml.Help.C96_help_partial",
    "Mosml.Help.C96_lib_violation"
   ],
   "note": "Departures: n continues behind the last line displayed and so passes over occurrences on the screen; an assignment of a file to lib in specialfiles is ignored for help of lib. Everything else is proved; reading files and the printed texts are not modelled."
  },
  {
   "property": "C97",
   "status": "partial",
   "theorems": [
    "Mosml.PM.C97_grammar",
    "Mosml.PM.C97_token",
    "Mosml.PM.C97_comment_partial",
    "Mosml.PM.C97_comment_violation",
    "Mosml.PM.C97_text"
   ],
   "note": "The grammar is proved in both directions, on tokens and on whole texts with white space and comments between the words. Departure: if a character that is not allowed follows a comment, the lexer goes back and takes the end of the comment for part of the comment, so that it may accept the text or report a closed comment as not closed. Comments followed by an allowed text, and open comments, are proved. The laziness of the token stream is not modelled."
  },
  {
   "property": "C98",
   "status": "partial",
   "theorems": [
    "Mosml.ArgParse.C98_calls",
    "Mosml.ArgParse.C98_error_partial",
    "Mosml.ArgParse.C98_prefix_violation"
   ],
   "note": "Departure: the name of the program is repeated in the message, once more for each argument before the wrong one, and once more for a missing or wrong argument of an option. The calls and the description are proved. Int.fromString and Real.fromString are parameters; functions that raise other exceptions are not modelled."
  },
  {
   "property": "C99",
   "status": "partial",
   "theorems": [
    "Mosml.PM.C99_sees_partial",
    "Mosml.PM.C99_exports_partial",
    "Mosml.PM.C99_export_violation",
    "Mosml.PM.C99_nested_violation"
   ],
   "note": "Departures: a file before a local declaration is not given to importing project files; after nested local declarations, hidden files are seen and declared files are not. Proved for local declarations that are not nested (what each file sees), and for project files without local declarations or with a single one at the beginning (exports). Time stamps and recompilation are not modelled."
  },
  {
   "property": "C100",
   "status": "partial",
   "theorems": [
    "Mosml.PM.C100_recompile_partial",
    "Mosml.PM.C100_stale_violation"
   ],
   "note": "Departure: the code is not compared with the signature file and the interfaces, so that code older than these is reused after a compilation that failed between. Otherwise the decision is characterised completely. The source and the project file are assumed to exist."
  },
  {
   "property": "C101",
   "status": "proved",
   "theorems": [
    "Mosml.PM.C101_order",
    "Mosml.PM.C101_failures"
   ],
   "note": "For all graphs of project files. Names are taken as normalized and absolute; the change of directory and the translation of names to .uo files are not modelled. A source that stands in two project files is collected for both."
  },
  {
   "property": "C102",
   "status": "proved",
   "theorems": [
    "Mosml.Primdec.C102_binlookup",
    "Mosml.Primdec.C102_sorted",
    "Mosml.Primdec.C102_findPrimitive",
    "Mosml.Primdec.C102_names"
   ],
   "note": "For all names, arities and sorted tables; the whole table of the compiler is in the model."
  },
  {
   "property": "C103",
   "status": "partial",
   "theorems": [
    "Mosml.GcCtrl.C103_init_partial",
    "Mosml.GcCtrl.C103_init_violation",
    "Mosml.GcCtrl.C103_get_partial",
    "Mosml.GcCtrl.C103_get_violation",
    "Mosml.GcCtrl.C103_set_partial",
    "Mosml.GcCtrl.C103_set_violation",
    "Mosml.GcCtrl.C103_chunk",
    "Mosml.GcCtrl.C103_chunk_violation"
   ],
   "note": "The start of the program, for increments that are not negative, and the growth of the heap are proved. Missing: a negative increment gives 2^60 bytes (C103_init_violation), the sizes in the result of gc_get are never tagged as integers (C103_get_violation), and gc_set applies limits for words to bytes (C103_set_violation, C103_chunk_violation). No library unit declares gc_get or gc_set; they are reached with prim_val only. gc_stat is not modelled."
  },
  {
   "property": "C104",
   "status": "partial",
   "theorems": [
    "Mosml.Timer.C104_gc",
    "Mosml.Timer.C104_cpu",
    "Mosml.Timer.C104_nonneg_partial",
    "Mosml.Timer.C104_nonneg_violation"
   ],
   "note": "Everything but the sign is proved without restriction. Missing: if the allocation of the result of sml_getrutime causes a collection, the time outside collections may be negative (C104_nonneg_violation). Times are whole microseconds, for which the real numbers of the code are exact below 2^53; the real-time timers are not modelled."
  },
  {
   "property": "C105",
   "status": "partial",
   "theorems": [
    "Mosml.Scan.C105_char_partial",
    "Mosml.Scan.C105_invalid_violation",
    "Mosml.Scan.C105_charcode_violation",
    "Mosml.Scan.C105_buffer",
    "Mosml.Scan.C105_string_partial",
    "Mosml.Scan.C105_code_violation",
    "Mosml.Scan.C105_code_never"
   ],
   "note": "Allowed strings and the buffer are proved for all lengths. Missing: a code above 255 raises Chr and not the lexical error (C105_code_violation, C105_code_never). The same holds for character constants, where in addition invalid characters are accepted (C105_invalid_violation)."
  },
  {
   "property": "C106",
   "status": "partial",
   "theorems": [
    "Mosml.Scan.C106_comment",
    "Mosml.Scan.C106_action_partial",
    "Mosml.Scan.C106_escape_violation"
   ],
   "note": "Proved for all actions with strings that the scanner knows. Missing: strings with the escapes a, v, f and u, which the compiler accepts (C106_escape_violation). The text after the action is the result instead of a position."
  },
  {
   "property": "C107",
   "status": "proved",
   "theorems": [
    "Mosml.Startup.C107_standalone",
    "Mosml.Startup.C107_bytecode",
    "Mosml.Startup.C107_only"
   ],
   "note": "For all contents and command lines, for sizes below 2^32, which is what the trailer can hold. CAMLRUNPARAM is left out; the code and the data themselves are the subject of other claims."
  }
 ]
}
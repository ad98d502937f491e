{"id": "C01", "title": "Integer +, -, unary minus and abs are exact or raise Overflow", "statement": "On a 64-bit system, for all ints x and y, x+y, x-y, ~x and abs x return the mathematical result when it lies in [Int.minInt, Int.maxInt] and raise Overflow otherwise; no other outcome (in particular no wrapped value) is possible.", "quantifier": "all pairs of 63-bit SML integers", "why_tests_cant": "2^126 operand pairs; the check is a bit trick on tagged words whose failures would sit on isolated boundary values.", "anchors": ["src/runtime/interp.c: SMLADDINT, SMLSUBINT, SMLNEGINT, SMLSUCCINT, SMLPREDINT", "src/runtime/mosml.c: sml_abs_int", "src/runtime/mlvalues.h: Val_long, Long_val"]}
{"id": "C02", "title": "Integer multiplication is exact or raises Overflow", "statement": "For all ints x and y, x*y returns the mathematical product when it lies in [Int.minInt, Int.maxInt] and raises Overflow otherwise.", "quantifier": "all pairs of 63-bit SML integers", "why_tests_cant": "The algorithm splits operands in 31-bit chunks; the failing inputs are a handful out of 2^126 pairs.", "anchors": ["src/runtime/interp.c: SMLMULINT"]}
{"id": "C03", "title": "div/mod/quot/rem follow the Definition and the Basis Library", "statement": "For all ints x, y with y <> 0 and not (x = minInt and y = ~1): x div y is floor(x/y), x mod y is x - y*floor(x/y) (sign of the divisor), quot truncates toward zero and rem has the sign of the dividend; y = 0 raises Div; minInt div ~1 and quot(minInt,~1) raise Overflow.", "quantifier": "all pairs of 63-bit SML integers", "why_tests_cant": "All sign combinations and the boundary values of a 126-bit input space.", "anchors": ["src/runtime/interp.c: SMLDIVINT, SMLMODINT, SMLQUOTINT, SMLREMINT"]}
{"id": "C04", "title": "Word arithmetic is arithmetic modulo 2^wordSize, division and comparison are unsigned", "statement": "For all words, +, -, *, ~ are reduced modulo 2^63; div, mod and the order comparisons treat words as unsigned integers in [0,2^63); andb, orb, xorb, notb act bitwise; <<, >> and ~>> shift logically/arithmetically, with any shift count of wordSize or more giving 0 (or ~1 for ~>> of a negative word).", "quantifier": "all pairs of 63-bit words and all shift counts", "why_tests_cant": "2^126 operand pairs; tag-bit manipulation is done on the raw representation.", "anchors": ["src/runtime/interp.c: ADDINT, SUBINT, MULINT, DIVINT, MODINT, ANDINT, ORINT, XORINT, SHIFTLEFTINT, SHIFTRIGHTINTSIGNED, SHIFTRIGHTINTUNSIGNED, ULTINT", "src/mosmllib/Word.mlp"]}
{"id": "C05", "title": "Integer literals: text to int conversion is exact or an error, and inverts printing", "statement": "The compiler's/runtime's string-to-int primitive maps every literal [~]digits and [~]0xhexdigits to its value when that lies in [minInt,maxInt] and raises Failure otherwise; a text with any other character before its first NUL raises Failure. Applying it to Int.toString n gives n for every int n.", "quantifier": "all strings and all ints", "why_tests_cant": "Unbounded strings; overflow guards depend on every digit prefix.", "anchors": ["src/runtime/mosml.c: scandec, scanhex, sml_int_of_string, sml_hexstring_of..., sml_string_of_int, mkSMLMinus"]}
{"id": "C06", "title": "Int.fmt and Int.scan are inverse in every radix", "statement": "For every radix and every int i, scanning Int.fmt radix i yields SOME i and consumes the whole string; Int.scan returns the value denoted by the longest prefix matching the grammar of the Basis Library, and raises Overflow exactly when that value is not representable.", "quantifier": "all radices, all ints, all character sources", "why_tests_cant": "Unbounded strings with optional signs, prefixes, leading zeros and trailing garbage.", "anchors": ["src/mosmllib/Int.mlp: conv, fmt, scan", "src/mosmllib/StringCvt.sml: scanString, dropl"]}
{"id": "C07", "title": "Word.fmt and Word.scan are inverse in every radix; word literals are exact or rejected", "statement": "For every radix and word w, scanning Word.fmt radix w yields SOME w; the word-literal primitives accept exactly the values below 2^63; Word.scan returns the value of the longest numeral in the grammar of Word.sig and raises Overflow when it is not below 2^63.", "quantifier": "all radices, all words, all digit strings", "why_tests_cant": "Unbounded strings.", "anchors": ["src/mosmllib/Word.mlp: conv, fmt, scan", "src/runtime/mosml.c: sml_word_of_dec, sml_word_of_hex"]}
{"id": "C08", "title": "Real to int conversions are exact or raise Overflow", "statement": "For every finite real r, floor r, ceil r, trunc r and round r are the mathematical floor, ceiling, truncation and nearest-even integer of r when that lies in [minInt,maxInt] and raise Overflow otherwise.", "quantifier": "all finite doubles", "why_tests_cant": "The failing inputs are two doubles out of 2^64 (the range boundary 2^62, where (double)Max_long is rounded).", "anchors": ["src/runtime/mosml.c: sml_floor, sml_ceil, sml_round, sml_trunc"]}
{"id": "C09", "title": "String size is recovered for every length", "statement": "For every string, size s is the number of characters it was created with, independently of the contents; String.concat and ^ of strings yields the concatenation and size adds up.", "quantifier": "all string lengths and contents", "why_tests_cant": "Length is stored implicitly in the padding of the last word; contents may look like padding.", "anchors": ["src/runtime/alloc.c: alloc_string", "src/runtime/str.c: string_length, create_string", "src/runtime/mosml.c: sml_concat"]}
{"id": "C10", "title": "String comparison is the lexicographic order on unsigned characters", "statement": "For all strings (including ones containing #\"\\000\" and ones where one is a prefix of the other) String.compare, <, <=, =, >, >= agree with the lexicographic order of the character codes; equality holds iff the sequences are the same.", "quantifier": "all pairs of strings", "why_tests_cant": "Unbounded data.", "anchors": ["src/runtime/str.c: compare_strings, sml_... string comparison codes", "src/runtime/compare.c: compare_val String_tag case"]}
{"id": "C11", "title": "Printed string and char escapes read back", "statement": "For every string s, the ML escape form printed by the runtime and by String.toString is a printable ASCII-safe source form that scans back to s; likewise for C escapes (toCString/fromCString).", "quantifier": "all strings", "why_tests_cant": "All byte sequences; adjacent characters may combine with an escape (digits after an octal escape).", "anchors": ["src/runtime/mosml.c: sml_makestring_of_char, sml_makestring_of_string", "src/mosmllib/Strbase.mlp: toMLescape, fromMLescape, toCescape, fromCescape, fromCString"]}
{"id": "C12", "title": "Copying within a string/byte array behaves as if through a temporary", "statement": "Blitting a range of a byte string onto another (possibly overlapping) range leaves in the destination the bytes the source range held before, and changes no other byte.", "quantifier": "all byte strings, offsets and lengths within bounds", "why_tests_cant": "All overlap configurations and lengths.", "anchors": ["src/runtime/str.c: blit_string, fill_string"]}
{"id": "C13", "title": "Polymorphic equality decides structural equality", "statement": "For all values that admit equality, = terminates on acyclic data and returns true iff the values are the same tree of constructors, ints, strings and reals, where refs and arrays are compared by identity; it is an equivalence relation.", "quantifier": "all heap values (any depth, any sharing)", "why_tests_cant": "Unbounded data, arbitrary sharing.", "anchors": ["src/runtime/mosml.c: sml_equal_aux, sml_equal"]}
{"id": "C14", "title": "Equal keys hash equally", "statement": "Values not containing reals that are equal under = have equal Polyhash.hash (for any count and limit), the hash is within [0, 2^30), and hashing reads a bounded part of the value.", "quantifier": "all pairs of equal values, all limits", "why_tests_cant": "Unbounded data; the truncation of the traversal must be the same on both values.", "anchors": ["src/runtime/hash.c: hash_univ_param, hash_aux", "src/mosmllib/Polyhash.sml: hash"]}
{"id": "C15", "title": "Marshalling round trip preserves the value graph", "statement": "For every heap value built from blocks, strings, reals and ints, input_value of what output_value wrote yields an isomorphic graph: same tags, sizes, byte contents and ints, same sharing and same cycles.", "quantifier": "all finite value graphs, including cyclic and shared ones", "why_tests_cant": "Unbounded graphs; sharing detection uses a growing open-addressing hash table.", "anchors": ["src/runtime/extern.c: emit, emit_all, extern_val", "src/runtime/intern.c: adjust_pointers, intern_val"]}
{"id": "C16", "title": "Marshalling a top-level int or nullary constructor round trips", "statement": "input_value of what output_value wrote for an immediate value gives back the same immediate value.", "quantifier": "all immediate values", "why_tests_cant": "The failing inputs are the negative and the large ints on 64-bit machines only.", "anchors": ["src/runtime/extern.c: extern_val", "src/runtime/intern.c: intern_val", "src/runtime/io.c: putword, getword"]}
{"id": "C17", "title": "Compact marshalling round trip", "statement": "Reading a compact-format dump gives back an isomorphic graph (same sharing) for every acyclic or cyclic value whose blocks fit the format.", "quantifier": "all finite value graphs", "why_tests_cant": "Unbounded graphs and all size classes of codes.", "anchors": ["src/runtime/externcp.c: extern_compact_val", "src/runtime/interncp.c: intern_compact_val, read_compact"]}
{"id": "C18", "title": "Dumps written on a 32-bit machine read correctly on a 64-bit machine", "statement": "Reading, on a 64-bit machine, a dump in the 32-bit layout gives the isomorphic graph with sign-extended ints and re-padded strings.", "quantifier": "all finite 32-bit heap images", "why_tests_cant": "Unbounded images; pointers must be relocated to blocks whose sizes change.", "anchors": ["src/runtime/intern.c: size_after_expansion, expand_block, expand"]}
{"id": "C19", "title": "Polygdbm string conversion round trips", "statement": "Converting a value to a string for storage in a database and back gives an equal value.", "quantifier": "all values", "why_tests_cant": "Only fails on 64-bit machines for non-immediate values; unit tests are run on one platform.", "anchors": ["src/runtime/mosml.c: string_mlval, mlval_string", "src/mosmllib/Polygdbm.sml"]}
{"id": "C20", "title": "Buffered output writes exactly the bytes in order", "statement": "After any sequence of character, word and block outputs and flushes on a channel, followed by a flush, the file contents appended are exactly the concatenation of the data output, whatever the block sizes and however the operating system splits the writes.", "quantifier": "all operation sequences, all block sizes, all partial-write behaviours", "why_tests_cant": "Unbounded histories crossing the 4096 byte buffer boundary in all phases.", "anchors": ["src/runtime/io.c: putch/putblock/really_putblock/flush, caml_flush", "src/runtime/io.h: struct channel"]}
{"id": "C21", "title": "Seeking in an output channel positions the next write", "statement": "After seek_out ch n, the next bytes output land at file offset n, and all other bytes of the file are as if every operation had been performed on an unbuffered file.", "quantifier": "all sequences of output, seek and flush operations", "why_tests_cant": "Depends on the exact history of buffer fill levels and seeks.", "anchors": ["src/runtime/io.c: seek_out, pos_out, flush, putblock", "src/mosmllib/Nonstdio.sml: seek_out"]}
{"id": "C22", "title": "Buffered input delivers the file's bytes in order", "statement": "Any sequence of character, block and line reads and seeks on an input channel returns exactly the file's bytes starting at the current logical position, however the operating system splits reads; pos_in always reports the logical position.", "quantifier": "all operation sequences, all short-read behaviours", "why_tests_cant": "Unbounded histories.", "anchors": ["src/runtime/io.c: getch, refill, getblock, really_getblock, seek_in, pos_in, input_scan_line"]}
{"id": "C23", "title": "Binary ints and real byte-vectors round trip", "statement": "input_binary_int after output_binary_int n gives n for every n in the signed 32-bit range; PackReal toBytes/fromBytes are inverse byte-order conversions.", "quantifier": "all 32-bit ints, all doubles", "why_tests_cant": "2^32/2^64 values (sign extension on 64-bit machines).", "anchors": ["src/runtime/io.c: output_int, input_int, putword, getword", "src/runtime/mosml.c: sml_doubletow8vec, sml_w8vectodouble"]}
{"id": "C24", "title": "The heap allocator never hands out overlapping memory and loses none", "statement": "Across any sequence of allocations, frees (merges) and heap growth, the blocks handed out are pairwise disjoint and disjoint from the free list, an allocated block has exactly the requested size, and the heap remains exactly tiled by allocated blocks, free blocks and header fragments.", "quantifier": "all sequences of allocate/merge/grow requests", "why_tests_cant": "Histories of unbounded length; errors corrupt memory only much later.", "anchors": ["src/runtime/freelist.c: allocate_block, fl_allocate, fl_merge_block, fl_add_block"]}
{"id": "C25", "title": "A minor collection preserves the reachable graph", "statement": "After a minor collection, the graph reachable from the roots is isomorphic (tags, sizes, contents, sharing, cycles) to the one before, no reachable pointer points into the young generation, and no previously old object moved.", "quantifier": "all heaps, all root sets, all ref tables containing every old-to-young pointer", "why_tests_cant": "All heap graphs.", "anchors": ["src/runtime/minor_gc.c: oldify, minor_collection", "src/runtime/memory.h: Modify, Initialize"]}
{"id": "C26", "title": "The incremental major collector never frees a reachable object", "statement": "For any interleaving of program steps (allocate, read, write fields, drop roots) with mark, weak and sweep slices of any size, an object reachable from the program's roots is never returned to the free list and its contents are never altered by the collector; and an object unreachable when a cycle starts is reclaimed by the end of that cycle.", "quantifier": "all mutator/collector interleavings and all slice sizes", "why_tests_cant": "Schedules: the invariant concerns every interleaving point, including mark-stack overflow.", "anchors": ["src/runtime/major_gc.c: darken, start_cycle, mark_slice, sweep_slice, major_collection_slice", "src/runtime/memory.c: alloc_shr, modify"]}
{"id": "C27", "title": "Weak pointers are either intact or dead", "statement": "Reading through a weak pointer returns the object it was set to, or reports it dead; it never reports dead while the object is still reachable from the program, and never returns a freed object.", "quantifier": "all interleavings of weak reads/writes with collector slices", "why_tests_cant": "Depends on the phase of the collector at the time of the read.", "anchors": ["src/runtime/major_gc.c: weak_phase", "src/runtime/mosml.c: weak_sub, weak_isdead, weak_arr", "src/mosmllib/Weak.mlp"]}
{"id": "C28", "title": "The page-table lookup is exact", "statement": "The heap membership test answers true for an address iff the address lies in one of the recorded heap chunks, for any number of chunks.", "quantifier": "all chunk tables and addresses", "why_tests_cant": "The search is a hand-unrolled 64-way loop with a fall-through switch for every remainder.", "anchors": ["src/runtime/major_gc.c: p_table_in_heap, p_table_update_size"]}
{"id": "C29", "title": "Growing the stack is transparent", "statement": "When the interpreter stack is reallocated, every slot keeps its value at the same distance from the stack base, the chain of exception handlers denotes the same handlers, and execution continues unchanged.", "quantifier": "all stack contents and handler chains", "why_tests_cant": "Happens at arbitrary program points.", "anchors": ["src/runtime/stacks.c: realloc_stack"]}
{"id": "C30", "title": "Mosml.md5sum is MD5", "statement": "For every string of fewer than 2^29 characters, Mosml.md5sum returns the base-64 coding of the MD5 (RFC 1321) digest of that string.", "quantifier": "all strings", "why_tests_cant": "Unbounded inputs with all chunk/padding phases.", "anchors": ["src/runtime/md5sum.c: md5sum, MD5Init/Update/Final equivalents, enc64"]}
{"id": "C31", "title": "Compiled application obeys call-by-value lambda calculus", "statement": "For the functional core (variables, functions, application with any number of arguments, let, letrec, conditionals, constants), running the bytecode the compiler back end generates on the abstract machine yields the value the source semantics prescribes, including partial application, over-application and tail calls.", "quantifier": "all terms of the core language", "why_tests_cant": "All programs.", "anchors": ["src/compiler/Back.sml: compExp, compFct", "src/runtime/interp.c: PUSH, APPLY, APPTERM, GRAB, RESTART, RETURN, CLOSURE"]}
{"id": "C32", "title": "Exceptions unwind to the innermost enclosing handler", "statement": "Raising an exception inside nested handlers transfers control to the innermost active handler with the stack and environment it had when installed; if none is active the program terminates with that exception.", "quantifier": "all programs of the core language with raise/handle", "why_tests_cant": "All nesting depths and control paths.", "anchors": ["src/compiler/Back.sml: Lhandle", "src/runtime/interp.c: PUSHTRAP, POPTRAP, RAISE"]}
{"id": "C33", "title": "The generated-parser engine follows the LR tables", "statement": "The table-driven parser engine performs exactly the shift/reduce/goto moves prescribed by the grammar's action and goto functions, accepts only sentences of the grammar, and its stacks stay in step.", "quantifier": "all token sequences and all grammars' tables", "why_tests_cant": "All inputs.", "anchors": ["src/runtime/parsing.c: parse_engine", "src/mosmllib/Parsing.sml: yyparse"]}
{"id": "C34", "title": "Transitive closure in the parser generator is correct", "statement": "The bit-matrix closure computes exactly the (reflexive-)transitive closure of the input relation, for any number of nonterminals, including sizes not a multiple of the word size.", "quantifier": "all relations on any finite set", "why_tests_cant": "All graphs; in-place update order matters.", "anchors": ["src/mosmlyac/warshall.c: transitive_closure, reflexive_transitive_closure"]}
{"id": "C35", "title": "Parser table compression is lossless", "statement": "Looking up any (state, symbol) pair in the packed tables (base/table/check, with shared rows and default gotos) gives the same answer as the uncompressed action and goto tables.", "quantifier": "all sparse action/goto tables", "why_tests_cant": "All tables: overlapping rows, negative offsets and row sharing.", "anchors": ["src/mosmlyac/output.c: pack_vector, matching_vector, pack_table, default_goto, save_column"]}
{"id": "C36", "title": "LALR look-ahead propagation computes the least solution", "statement": "The look-ahead sets are the least sets containing the initial ones and closed under the includes relation, also when the relation has cycles.", "quantifier": "all finite relations and initial sets", "why_tests_cant": "All graphs; the SCC algorithm must give every member of a cycle the same set.", "anchors": ["src/mosmlyac/lalr.c: digraph, traverse"]}
{"id": "C37", "title": "LR(0) closure is correct", "statement": "The closure of an item set adds exactly the initial items of all productions of nonterminals derivable at the dot.", "quantifier": "all grammars and kernels", "why_tests_cant": "All grammars.", "anchors": ["src/mosmlyac/closure.c: set_EFF, set_first_derives, closure"]}
{"id": "C38", "title": "Binarymap and Intmap behave as finite maps", "statement": "After any sequence of insert and remove, find/peek return the last value inserted for the key (or NotFound), listItems is sorted by key without duplicates, and numItems is the number of distinct keys; rotations never raise Match.", "quantifier": "all key types with a total order, all operation sequences", "why_tests_cant": "Unbounded histories; many rotation cases.", "anchors": ["src/mosmllib/Binarymap.sml", "src/mosmllib/Intmap.sml"]}
{"id": "C39", "title": "Redblackmap behaves as a finite map and stays balanced", "statement": "Same as C38 for Redblackmap; the internal Fail \"impossible\" exceptions never occur, and lookups take O(log n) comparisons after any sequence of insertions and removals.", "quantifier": "all key types with a total order, all operation sequences", "why_tests_cant": "Unbounded histories; deletion rebalancing has many cases.", "anchors": ["src/mosmllib/Redblackmap.sml"]}
{"id": "C40", "title": "Splaymap behaves as a finite map although lookups restructure it", "statement": "Same as C38 for Splaymap: lookups, which mutate the shared tree, never change the observable map of any version.", "quantifier": "all operation sequences on all versions", "why_tests_cant": "Unbounded histories with persistent versions.", "anchors": ["src/mosmllib/Splaymap.sml", "src/mosmllib/Splaytree.sml"]}
{"id": "C41", "title": "Listsort.sort sorts", "statement": "For every list and every total preorder, the result is a permutation of the input and is sorted.", "quantifier": "all lists and comparison functions", "why_tests_cant": "Unbounded lists with arbitrary run structure.", "anchors": ["src/mosmllib/Listsort.sml: sort"]}
{"id": "C42", "title": "Arraysort.sort sorts in place", "statement": "For every array and every total preorder, after sort the array is a sorted permutation of its original contents and no subscript out of bounds is touched.", "quantifier": "all arrays and comparison functions", "why_tests_cant": "Unchecked array accesses; all partition configurations.", "anchors": ["src/mosmllib/Arraysort.sml: sortRange"]}
{"id": "C43", "title": "Polyhash tables behave as finite maps under any hash function", "statement": "For any hash function consistent with the key equality, after any sequence of insert/remove/peekInsert/filter, lookup gives the value of the last insertion, numItems counts the keys, listItems lists each key exactly once; growing the table changes nothing observable.", "quantifier": "all operation sequences, all hash functions", "why_tests_cant": "Histories; hash collisions and resizing at arbitrary times.", "anchors": ["src/mosmllib/Polyhash.sml"]}
{"id": "C44", "title": "Dynarray is an infinite array with a default", "statement": "sub returns the last value stored by update at that index or else the default; no update changes another index; negative indices raise Subscript; bound is an upper bound of the non-default indices; subArray(a,m,n) has a's values of [m,n] in [0,n-m].", "quantifier": "all operation sequences and indices", "why_tests_cant": "Histories and unbounded indices.", "anchors": ["src/mosmllib/Dynarray.sml", "src/mosmllib/Dynarray.sig"]}
{"id": "C45", "title": "Buffer accumulates exactly what was added", "statement": "After any sequence of addChar/addString/addSubString, contents is the concatenation of everything added since creation or the last clear/reset, unless Size was raised.", "quantifier": "all operation sequences", "why_tests_cant": "Histories crossing resize points.", "anchors": ["src/mosmllib/Buffer.sml"]}
{"id": "C46", "title": "Path manipulation laws", "statement": "Path.toString (Path.fromString p) = p; mkCanonical is idempotent, preserves absoluteness, and (without symbolic links) denotes the same directory; getParent/concat denote the parent/joined directory.", "quantifier": "all path strings", "why_tests_cant": "Unbounded strings with arbitrary . and .. and empty arcs.", "anchors": ["src/mosmllib/Path.mlp"]}
{"id": "C47", "title": "Substring splitting laws", "statement": "splitl/splitr/takel/dropl/taker/dropr partition the substring; fields and tokens return the maximal delimiter-free (non-empty) segments and concatenating fields with delimiters restores the string.", "quantifier": "all strings, all predicates", "why_tests_cant": "Unbounded strings.", "anchors": ["src/mosmllib/Strbase.mlp: splitl, splitr, tokens, fields"]}
{"id": "C48", "title": "The lexer generator's automaton recognises its regular expressions", "statement": "The automaton produced by mosmllex matches a string iff one of the rule's regular expressions does, choosing the longest match and, among equal lengths, the first rule.", "quantifier": "all regular expressions and inputs", "why_tests_cant": "All languages.", "anchors": ["src/lex/Lexgen.sml: firstpos, followpos, make_dfa", "src/runtime/lexing.c: get_next_char"]}
{"id": "C49", "title": "Infix resolution respects precedence and associativity", "statement": "Resolving a flat sequence of operands and infix operators yields the unique tree in which operators bind according to precedence and associativity.", "quantifier": "all operator sequences", "why_tests_cant": "Unbounded expressions.", "anchors": ["src/compiler/Infixres.sml"]}
{"id": "C50", "title": "Compiled pattern matching selects the first matching rule", "statement": "The decision code generated for a match evaluates to the right-hand side of the first rule whose pattern matches the value, with the right bindings, and raises Match iff none matches.", "quantifier": "all rule lists and values", "why_tests_cant": "All combinations of nested patterns.", "anchors": ["src/compiler/Match.sml"]}
{"id": "C51", "title": "TextIO reading functions return the stream's characters", "statement": "TextIO.inputAll returns exactly the rest of the stream, inputN the next n characters or all that are left, inputLine the characters up to and including the next newline (adding one at the end of the file), lookahead the next character without moving; the reader scanStream passes to a scanner delivers at index i the i-th character of the stream, also when backtracking by up to 512 characters.", "quantifier": "all file contents, all short-read behaviours, all positions", "why_tests_cant": "Buffer boundaries, growth of the temporary string and short reads combine without bound.", "anchors": ["src/mosmllib/TextIO.sml: inputAll, inputN, inputLine, lookahead, scanStream", "src/runtime/io.c: getblock, input_char, seek_in"]}
{"id": "C52", "title": "The parser generator resolves conflicts by precedence and associativity", "statement": "For every state and token at most one action is left; a shift against a reduction is decided by precedence, then associativity (none for %nonassoc), and without precedences the shift wins and a conflict is counted; of two reductions the higher precedence or else the earlier rule wins; a state reduces by default only if no other action is left.", "quantifier": "all sets of actions, precedences and associativities", "why_tests_cant": "All grammars and all combinations of declarations.", "anchors": ["src/mosmlyac/mkpar.c: get_shifts, add_reductions, add_reduce, remove_conflicts, sole_reduction"]}
{"id": "C53", "title": "A lexer reads its tokens off the input one after the other", "statement": "For a lexer made by mosmllex on a buffer from createLexer, each call of an entry point takes the longest match at the current position of the text that the reading function delivers (however the text is cut into pieces, followed by NULs), getLexeme is exactly this text, getLexemeStart and getLexemeEnd its positions, and the next call goes on behind it; the exception 'token too long' is raised only after more than 1024 characters. The same holds for createLexerString.", "quantifier": "all lexer definitions, texts, ways to cut the text into pieces, sequences of calls", "why_tests_cant": "Where the pieces end relative to the tokens and to the 2048-character buffer varies without bound.", "anchors": ["src/mosmllib/Lexing.sml: createLexer, createLexerString, lexRefill, getLexeme, backtrack", "src/runtime/lexing.c: get_next_char", "src/lex/Output.sml: output_move, output_state"]}
{"id": "C54", "title": "Keeping a local reference in a stack slot is not observable", "statement": "When the code generator turns `let val r = ref e in .. !r .. r := e' .. end` into a variable that is assigned, the expression has the same result, raises the same exceptions and leaves the same references, blocks and variables behind as with r in the heap.", "quantifier": "all expressions (with functions called, exceptions raised and handled, shared branches of a match), all states", "why_tests_cant": "The transformation rewrites shared code in place and may be given up halfway; all programs and runs.", "anchors": ["src/compiler/Back.sml: unref, opt_refs", "src/runtime/interp.c: ASSIGN, SETFIELD"]}
{"id": "C55", "title": "Object code decodes to the instructions that were generated", "statement": "The bytes that the compiler writes for a phrase, once linked, are read by the interpreter as exactly the instructions that the code generator produced: short forms and merged instructions act like the originals, every jump leads to its label, every slot holds the literal, variable or primitive that the instruction names; and no two literals or variables share a slot.", "quantifier": "all instruction sequences and label orders, all earlier contents of the buffers and of the linker's tables, all orders of the literal table", "why_tests_cant": "Instruction encodings interact with patching of forward jumps, merging and linking; all sequences.", "anchors": ["src/compiler/Emitcode.sml: emit, emit_zam", "src/compiler/Labels.sml: define_label, out_label_with_orig", "src/compiler/Buffcode.sml: out_long", "src/compiler/Reloc.sml: slot_for_literal", "src/compiler/Patch.sml: patch_object", "src/compiler/Symtable.sml: get_slot_for_literal", "src/compiler/Emit_phr.sml: emit_phrase", "src/compiler/Load_phr.sml: loadZamPhrase", "src/runtime/interp.c: instruction decoding"]}
{"id": "C56", "title": "Constants keep their values in the object code", "statement": "Every constant of a program (integers, words, characters, reals, strings, and lists, tuples and constructors built from them) is loaded at run time with the value written in the source, also where the compiler stores equal constants of a phrase only once.", "quantifier": "all constants, all phrases, all contents of the literal table", "why_tests_cant": "Which constants are merged depends on hash codes and equality of arbitrarily large constants.", "anchors": ["src/compiler/Reloc.sml: slot_for_literal", "src/compiler/Hasht.sml: peek", "src/compiler/Const.sml", "src/compiler/Front.sml: trTuple, trVarApp", "src/runtime/hash.c: hash_aux", "src/runtime/mosml.c: sml_equal_aux"]}
{"id": "C57", "title": "Comparisons and conditions decide as the values demand", "statement": "The operators =, <>, <, >, <=, >= on int, word, string and real yield the mathematical comparison of the values (lexicographic for strings; a NaN is only <> everything), and a conditional whose condition is such a comparison, also negated, runs the branch that the value of the condition prescribes; a constant in a pattern matches exactly the equal value.", "quantifier": "all values of the four types, all operators", "why_tests_cant": "All pairs of values; the compiler inverts conditions and compares tagged representations.", "anchors": ["src/compiler/Back.sml: invertBoolTest, compileTest", "src/runtime/interp.c: comparison instructions and conditional branches", "src/runtime/compare.c, str.c, float.c"]}
{"id": "C58", "title": "Case analysis enters the clause of the value", "statement": "The code for a match on integer, word or character constants, or on the constructors of a datatype, enters exactly the clause whose constant or constructor is that of the value, and goes to match failure when there is no such clause, whatever the number, order and distribution of the constants; and every such match is compiled.", "quantifier": "all sets of distinct constants and their orders, all values, all surrounding code", "why_tests_cant": "The shape of the decision tree depends on gaps between the constants; all sets of constants.", "anchors": ["src/compiler/Back.sml: compileNBranch, compDecision, compSwitch, compDirectSwitch, add_SwitchTable", "src/compiler/Sort.sml", "src/runtime/interp.c: BRANCHINTERVAL, SWITCH"]}
{"id": "C59", "title": "A linked program is the program of all its units", "statement": "mosmlc links the units listed and the units they need, each once, every unit after the units it was compiled against and only if these are the versions it was compiled against; a set of units that fits together is always accepted. Every reference to a global is linked to the slot of its definition, never reported as undefined, although phrases that nothing refers to are left out; and the program behaves as if all phrases of all units were executed in order.", "quantifier": "all sets of units and dependency graphs, orders of the hash tables, initial linker tables, and behaviours of phrases", "why_tests_cant": "Which phrases are left out depends on all references in all units.", "anchors": ["src/compiler/Link.sml: check_file, scan_val, scan_phrase, scan_file, link_object, link", "src/compiler/Symtable.sml: defineGlobalValueAlias, exportPublicNames", "src/compiler/Patch.sml: patch_object"]}
{"id": "C60", "title": "Declarations that the linker may leave out have no effect", "statement": "A top-level declaration marked pure in the object file (so that the linker drops it when its variables are not used) has no effect other than binding its variables: its execution ends, raises no exception, does no input or output and changes no reference.", "quantifier": "all value declarations, environments and states", "why_tests_cant": "All expressions; what is left out is never executed by a linked program.", "anchors": ["src/compiler/Front.sml: isSafe, trToplevelDec", "src/compiler/Link.sml: scan_phrase"]}
{"id": "C61", "title": "Compiled expressions evaluate their parts in the order of the language", "statement": "The translation of an expression into the intermediate language, which lifts arguments into let bindings, replaces calls of primitives and constructors by instructions, sorts the fields of records and turns directly applied functions into bindings, keeps its meaning: the same value or exception, the same output in the same order, the same references, as the Definition of Standard ML prescribes.", "quantifier": "all closed expressions (functions of any number of arguments, partial and over-application, primitives, constructors, tuples, records, exceptions, loops), environments and states", "why_tests_cant": "The translation reorders arguments depending on which of them are considered safe; all expressions and effects.", "anchors": ["src/compiler/Front.sml: trExp, trVarApp, trPrimApp, trArgs, trTuple, trRec, trConVar, trPrimVar, isSafe, normApp", "src/compiler/Mixture.sml: sortRow"]}
{"id": "C62", "title": "Threaded code does what the bytecode does", "statement": "When the runtime is compiled with threaded code, every block of bytecode that the compiler produced (a phrase entered interactively, or a whole executable) is turned into threaded code without reading or writing out of bounds and without a bad opcode; instruction by instruction the threaded code has the same operation and operands, its jumps and closures lead to the expansions of the original targets, and the interpreter goes through corresponding states on both.", "quantifier": "all blocks of bytecode, all instruction sequences, all machines that treat code addresses as opaque", "why_tests_cant": "The two switch statements of expand.c must agree on 206 opcodes; addresses are assigned in one pass and used in another; all programs.", "anchors": ["src/runtime/expand.c: buildrealmap, expandcode", "src/runtime/interp.c: macros for operands under THREADED, GRAB", "src/runtime/meta.c: start_interp", "src/compiler/Link.sml: link"]}
{"id": "C63", "title": "A program that type checks does not go wrong", "statement": "When the compiler accepts a program, its execution never applies a value that is not a function, never looks for a field that the record does not have, never dereferences a value that is not a reference, and never adds values that are not integers, in whatever way the program combines polymorphic functions, references, datatypes, records and record patterns with three dots.", "quantifier": "all programs of the core language, all states reached in execution", "why_tests_cant": "Type inference by destructive unification with levels must never generalize one variable too many; all programs.", "anchors": ["src/compiler/Types.sml: unify, unifyRec, unifyRho, extractLab, generalization, specialization", "src/compiler/Elab.sml: elabExp, elabPat, elabMRule, isExpansiveExp", "src/compiler/Ovlres.sml: resolve3Dot"]}
{"id": "C64", "title": "A legal program is accepted, with its most general type", "statement": "When a program has a type by the typing rules of the Definition, the compiler accepts it, and the type that it reports has every other type of the program as an instance.", "quantifier": "all programs of the core language, all typings", "why_tests_cant": "Existence of a typing is a search over all types; levels must generalize as much as allowed.", "anchors": ["src/compiler/Types.sml: unify, unifyRec, extractLab, generalization", "src/compiler/Elab.sml: elabExp, elabPat"]}
{"id": "C65", "title": "Date.date yields the date of the calendar", "statement": "Date.date, given a year from 0 on, a month, and any numbers of days, hours, minutes and seconds (also negative or too large), returns the date and time of the Gregorian calendar that many days, hours, minutes and seconds after the beginning of the month, with the right day of the week and day of the year, whether leap years, centuries and four-centuries lie between or not; and Date.compare orders dates as they follow each other in time.", "quantifier": "all years, months, and numbers of days, hours, minutes and seconds", "why_tests_cant": "The arithmetic is by closed formulas with several divisions; all dates and all overflows of all fields.", "anchors": ["src/mosmllib/Date.sml: leapyear, monthdays, dayinyear, todaynumber, fromdaynumber, weekday, normalizedate, date, compare"]}
{"id": "C66", "title": "Time zone offsets of dates", "statement": "For a date made with an offset, Date.offset returns it (modulo a day), and Date.toTime returns the time in UTC at which the clocks of the zone show the date: offsets below 12 hours are west of UTC, the others east, and whole days in the offset are added to the date.", "quantifier": "all dates and offsets", "why_tests_cant": "All offsets; the effect of an offset shows up only in the conversion to a time.", "anchors": ["src/mosmllib/Date.sml: date, offset, toTime, dateToTmoz, tmozToDate", "src/mosmllib/Date.sig", "src/runtime/mosml.c: sml_mktime, sml_localoffset"]}
{"id": "C67", "title": "Printed dates read back", "statement": "Date.toString yields 24 characters for every valid date from 1900 on, and Date.fromString applied to them, possibly after white space, returns the same date.", "quantifier": "all dates, all strings", "why_tests_cant": "All dates and all continuations of the input.", "anchors": ["src/mosmllib/Date.sml: toString, scan, fromString, dateToTmoz, okDate", "src/runtime/mosml.c: sml_asctime"]}
{"id": "C68", "title": "Rbset values are sets in the mathematical sense", "statement": "A set of Rbset built in any way with empty, singleton, add, addList, delete, union, intersection, difference, map and subset is the set that these operations mean: member, numItems, isEmpty, listItems (each element once, in increasing order), delete (NotFound exactly for elements not in the set), equal, isSubset, compare (lexicographic), min, max, find, the folds, hash and sublist all answer according to it; where the ordering takes different elements to be equal, it is determined which of them is kept; searching takes at most 2 log2(n+1) comparisons.", "quantifier": "all expressions over the operations, all elements, all orderings that are total up to equivalence", "why_tests_cant": "Trees of every shape, the conversion of sorted lists to trees by binary digits, and merging of traversals; all sequences of operations.", "anchors": ["src/mosmllib/Rbset.sml", "src/mosmllib/Rbset.sig"]}
{"id": "C69", "title": "Binaryset and Intset values are sets in the mathematical sense", "statement": "A set of Binaryset or Intset built in any way with empty, singleton, add, addList, delete, union, intersection and difference is the set that these operations mean: peek, retrieve, member, numItems, isEmpty, listItems (each element once, in increasing order), delete (NotFound exactly for elements not in the set), equal, isSubset, find and the folds answer according to it, and the exception Match, which the rotations raise on trees of the wrong shape, never escapes; where the ordering takes different elements to be equal, it is determined which of them is kept.", "quantifier": "all expressions over the operations, all elements, all orderings that are total up to equivalence", "why_tests_cant": "Rotations and the lazy splitting of hedge_union depend on the shapes of both trees and on the stored sizes; all sequences of operations.", "anchors": ["src/mosmllib/Binaryset.sml", "src/mosmllib/Intset.sml", "src/mosmllib/Binaryset.sig", "src/mosmllib/Intset.sig"]}
{"id": "C70", "title": "Splayset values are immutable sets although lookups reorganize them", "statement": "A set of Splayset answers every query (peek, retrieve, member, numItems, isEmpty, listItems, equal, isSubset, find, folds) according to the operations by which it was built, at any time: queries reorganize the tree of a set in place, and union, intersection and difference may return one of their arguments itself, but no operation on one set ever changes what another, or the same, set answers later.", "quantifier": "all programs over any number of sets, all elements, all orderings that are total up to equivalence", "why_tests_cant": "Sets share mutable cells; all interleavings of queries and updates over all versions.", "anchors": ["src/mosmllib/Splayset.sml", "src/mosmllib/Splaytree.sml", "src/mosmllib/Splayset.sig"]}
{"id": "C71", "title": "Random numbers stay in their ranges and visit every state", "statement": "A generator made by Random.newgenseed from any seed has an integer state between 1 and 2147483646 and keeps it; random yields numbers in [0, 1), range(min, max) integers in [min, max), and raises Fail exactly when min >= max; from every state the generator goes through all 2147483646 states before it repeats; the lists have the requested length and the numbers that successive calls would have given.", "quantifier": "all seeds, generators, ranges and numbers of calls", "why_tests_cant": "The period is 2^31-2; rounding matters for only some of the states and ranges.", "anchors": ["src/mosmllib/Random.sml", "src/mosmllib/Random.sig", "src/runtime/interp.c: float arithmetic, FLOOR"]}
{"id": "C72", "title": "Reals are printed correctly rounded and numerals are read as documented", "statement": "Real.fmt (FIX (SOME n)) prints the decimal number with n decimals nearest to its argument, and raises Size exactly for negative n; Real.scan and Real.fromString skip blanks, then read the longest numeral of the documented grammar and return its value and the rest of the text, or NONE if there is no numeral; reading back a printed number gives the number up to the precision printed.", "quantifier": "all reals, numbers of digits, and texts", "why_tests_cant": "All texts and all magnitudes; the C buffer has a fixed size.", "anchors": ["src/mosmllib/Real.sml: fmt, scan, fromString", "src/mosmllib/Real.sig", "src/runtime/mosml.c: sml_general_string_of_float, mkSMLMinus"]}
{"id": "C73", "title": "Times keep their microseconds through conversions, arithmetic and text", "statement": "Time.fromSeconds, fromMilliseconds and fromMicroseconds are exact and toSeconds, toMilliseconds and toMicroseconds truncate towards zero; sums and differences of whole microseconds are exact; fmt n prints the seconds rounded to n decimals; scan and fromString read the longest numeral of the documented form, with any number of decimals, rounded to the microsecond; a time printed with six decimals reads back as the same time; compare is the order in time; fromReal and toReal are inverses and preserve sums and order.", "quantifier": "all times, numbers of decimals, and texts", "why_tests_cant": "Times are floating-point numbers; rounding errors show up only for some values; texts may have any length.", "anchors": ["src/mosmllib/Time.sml", "src/mosmllib/Time.sig", "src/runtime/mosml.c: sml_trunc, sml_general_string_of_float"]}
{"id": "C74", "title": "Regex takes strings apart without losing anything", "statement": "For every compiled expression and every string, the fields and the matches that fold, map, app, replace, substitute, fields and tokens find from left to right make up the string; each function applies its arguments to them in this order with all their effects; they end, raising Regex exactly when the expression matches an empty string at the head or directly after a match; the documented equations among them hold; the match vector has the match and all groups with their positions in the underlying string; replacing matches by themselves gives back the string.", "quantifier": "all matching engines, expressions, strings, flags, replacers and functions with effects", "why_tests_cant": "The functions restart the engine at every match; all expressions and strings.", "anchors": ["src/mosmllib/Regex.sml", "src/mosmllib/Regex.sig", "src/dynlibs/mregex/mregex.c: regmatch_sus"]}
{"id": "C75", "title": "Arrays, vectors and slices: documented effect, nothing out of bounds", "statement": "Although the units use unchecked accesses, no function of Array, Vector, ArraySlice and VectorSlice ever reads or writes outside an array or hands out an undefined element, whatever the functions do that it is passed, including updates of the array being traversed. sub, update, slice and subslice accept exactly the documented indices and otherwise raise Subscript with nothing changed; slices stay valid; copy works for every overlap and changes nothing else; traversals visit each index of the slice once, in the documented order, passing the element present at that moment; folds, maps, searches and collate agree with the same operations on the list of elements.", "quantifier": "all arrays, slices, integers, and functions with effects that do not alter the length of an array", "why_tests_cant": "Bounds checks are made once before a loop, user functions run inside it; integer arguments range over 2^63 values.", "anchors": ["src/mosmllib/Array.mlp", "src/mosmllib/Vector.mlp", "src/mosmllib/ArraySlice.sml", "src/mosmllib/VectorSlice.sml"]}
{"id": "C76", "title": "Two-dimensional arrays: documented effect, nothing out of bounds", "statement": "The functions of Array2 do what Array2.sig documents. sub, update, row and column return or replace exactly the element, row or column asked for, or raise Subscript with nothing changed. Traversals of a valid region visit each position of it once, in row-major or column-major order as asked, passing the element present at that moment, also if the function passed updates the array; modification touches nothing outside the region. copy gives the destination the elements the source had before, for every overlap within one array. array, fromList and tabulate make new arrays with the right elements, tabulate calling the function in the order asked for. Invalid regions and dimensions raise Subscript and Size. Nothing is accessed out of bounds.", "quantifier": "all arrays, regions, positions, traversals, and functions with effects that do not alter the length of an array", "why_tests_cant": "Overlapping copies in four directions, regions with optional extents and functions that update the array under traversal make too many cases; out-of-bounds accesses in unchecked loops are silent.", "anchors": ["src/mosmllib/Array2.sml", "src/mosmllib/Array2.sig"]}
{"id": "C77", "title": "CGI programs receive what was sent, and generate what is documented", "statement": "urlencode and the decoding of queries are inverse for all strings, and encoded strings contain only the characters documented. The text htmlencode makes contains no tags and is displayed as the text given. For every query string, cgi_field_strings gives all the values of the field in order and cgi_field_string the first, whatever was looked up before; a form encoded as prescribed is received completely. A multipart message is received: for every name the parts of that name, in order, with data unchanged, type and fields. flatten and printseq agree on every wseq, prmap and prsep combine the parts in order, and the marking functions make the tags documented. Cookies are received with the value sent, and setCookie sends name and value or raises CookieError.", "quantifier": "all strings, forms, multipart messages, word sequences, cookies and sequences of lookups", "why_tests_cant": "Forms are typed by users, so every byte can occur in names and values; a single character handled wrongly in encoding or splitting appears only with unusual input, such as uploaded binary data that looks like headers.", "anchors": ["src/mosmllib/Msp.sml", "src/mosmllib/Msp.sig", "src/mosmllib/Mosmlcgi.sml", "src/mosmllib/Mosmlcgi.sig", "src/mosmllib/Mosmlcookie.sml", "src/mosmllib/Mosmlcookie.sig"]}
{"id": "C78", "title": "The pretty printer breaks lines as documented", "statement": "For every properly nested sequence of calls of begin_block, end_block, add_string, add_break and add_newline, what the consumer receives when the stream is flushed is the text of the strings in order, with each break printed as documented: a block that fits is printed on the line, all breaks of a consistent block that does not are new lines, and in an inconsistent block exactly those before a part that does not fit, indented by the column of the block and the offsets. A line is too long only if a part without breaks is. add_newline is a new line. A flushed stream is as new.", "quantifier": "all properly nested sequences of calls and all line widths from 5", "why_tests_cant": "The printer decides with limited lookahead in circular buffers that are updated incrementally; whether its decisions agree with the whole text depends on what is pending, and buffers wrap around only after many calls.", "anchors": ["src/mosmllib/PP.sml", "src/mosmllib/PP.sig"]}
{"id": "C79", "title": "Hashset sets behave as sets under any hash function", "statement": "For any hash function consistent with the equality, after any sequence of add, addList and delete, member, retrieve and peek tell whether an equal item is in the set and give the one added last, delete raises NotFound exactly when there is none, numItems counts, listItems, app and fold visit each element exactly once, all, exists and find decide for the elements. isSubset and equal compare sets whatever their histories and hash functions; hash is the sum of the hash codes, and equal sets have equal hash codes. Growing changes nothing observable.", "quantifier": "all operation sequences, all equalities and hash functions", "why_tests_cant": "Histories; collisions and resizing at arbitrary times; isSubset compares counts first, which is right only if no two elements are equal.", "anchors": ["src/mosmllib/Hashset.sml", "src/mosmllib/Hashset.sig"]}
{"id": "C80", "title": "List, ListPair and Option make the documented calls in the documented order", "statement": "For functions that may have effects, raise exceptions or not return: List.app, map, mapPartial, filter and partition call the function for each element, left to right, and return the documented lists; find, exists and all stop at the first decisive element and make no further call; foldl goes left to right and foldr right to left; tabulate(n,f) calls f 0, ..., f (n-1) and raises Size for n<0; when a call raises, there are no more calls and the exception is propagated in that state. nth, take and drop raise Subscript exactly outside the documented range, hd, tl and last raise Empty exactly on nil; length, rev, revAppend, @ and concat are as documented; collate compares left to right until a difference and decides the lexicographic order. ListPair's functions have the same result and effect as List's on the zipped list; the Eq variants raise UnequalLengths exactly for unequal lengths, foldrEq and zipEq before any call, mapEq, appEq and foldlEq after all calls, and allEq returns false. Option's functions satisfy the documented equations.", "quantifier": "all lists, functions with arbitrary effects, integers", "why_tests_cant": "Order and number of calls with effects and exceptions at arbitrary places, for lists of any length.", "anchors": ["src/mosmllib/List.sml", "src/mosmllib/List.sig", "src/mosmllib/ListPair.sml", "src/mosmllib/ListPair.sig", "src/mosmllib/Option.sml", "src/mosmllib/Option.sig"]}
{"id": "C81", "title": "String functions compute the documented strings for all lengths and call functions in order", "statement": "String.sub, substring and extract return the documented characters and raise Subscript exactly outside the documented range; concat, concatWith, implode, explode and str compute the documented strings and raise Size exactly when the result would be longer than maxSize; no character of a result is left uninitialised and nothing outside a string is read or written. map, foldl, foldr and collate have the same result and the same effects as the List functions on the characters; find and translate call the function left to right, find stops at the first match, and exceptions are passed on. isPrefix, isSuffix and isSubstring decide the existence of the documented strings.", "quantifier": "all strings shorter than 2^31, integers, functions with arbitrary effects", "why_tests_cant": "Index arithmetic at every boundary, lengths beyond what tests allocate, effects and exceptions of the functions.", "anchors": ["src/mosmllib/String.sml", "src/mosmllib/String.sig", "src/mosmllib/Strbase.mlp"]}
{"id": "C82", "title": "Substring operations keep substrings valid and compute the documented parts", "statement": "For a valid substring (0 <= i <= i+n <= size s) and all integers: extract, slice, triml, trimr, splitAt, getc and position return valid substrings that represent the documented parts, span returns the documented span, and Subscript or Span is raised exactly when documented; no operation reads outside the base string. position splits at the least index at which the string occurs. compare is the lexicographic order of the strings represented; isPrefix, isSuffix and isSubstring decide the documented conditions; concat, concatWith, foldl, foldr, app, collate, translate and explode equal the String and List functions on the string represented, effects included.", "quantifier": "all valid substrings, integers, functions with arbitrary effects", "why_tests_cant": "Arithmetic on offsets at every boundary; the leftmost match for all patterns and texts.", "anchors": ["src/mosmllib/Substring.sml", "src/mosmllib/Substring.sig", "src/mosmllib/Strbase.mlp"]}
{"id": "C83", "title": "StringCvt and Char: longest prefixes of character sources, padding and classes of characters", "statement": "For every reader and predicate, with effects and exceptions: splitl, takel and dropl return the longest prefix that satisfies the predicate and the rest of the source, reading no further than the first character after it, whatever state earlier applications of the same partial application left in its buffer; skipWS is dropl isSpace; scanString gives the scanner exactly the characters of the string. padLeft and padRight pad to the given width. Char.chr, succ and pred raise Chr exactly outside 0..255; contains and notContains decide occurrence through a table that is completely initialised; the classes, toLower, toUpper and compare are as documented.", "quantifier": "all readers, predicates, prefixes shorter than 2^30, strings, characters", "why_tests_cant": "The buffer is doubled at lengths 15, 30, 60, ...; readers and predicates are arbitrary programs.", "anchors": ["src/mosmllib/StringCvt.sml", "src/mosmllib/StringCvt.sig", "src/mosmllib/Char.sml", "src/mosmllib/Char.sig"]}
{"id": "C84", "title": "Interrupts are delivered, once, wherever they arrive, and forced collections are done", "statement": "Under every interleaving of a program with any number of SIGINT signals: after a signal the next poll or blocking call of the program raises Interrupt before ML code or the system call goes on; no more Interrupts are raised than signals arrived; a program never waits in a system call with a signal undelivered; a handler calls back into the interpreter only where the program is in a blocking section; a minor collection that was forced is done at the next poll; every byte taken from a descriptor reaches the program.", "quantifier": "all executions: all interleavings of polls, forced collections, blocking calls, failing primitives and signals", "why_tests_cant": "Signals arrive between any two machine instructions; the windows are a few instructions wide.", "anchors": ["src/runtime/signals.c", "src/runtime/interp.c", "src/runtime/sys.c", "src/runtime/misc.c", "src/runtime/io.c", "src/runtime/fail.c"]}
{"id": "C85", "title": "String and character constants, comments and long identifiers are read as the Definition says", "statement": "The compiler's lexer returns the string s for a string constant, and goes on after it, exactly if the text is a constant that denotes s by the rules of the Definition of Standard ML (with the character set of Moscow ML); otherwise it raises LexicalError. What String.toString returns, and what the interactive system prints for a string or a character, is read back as that value. Comments nest: a comment ends at the bracket that matches its first. A long identifier is cut at its dots.", "quantifier": "all source texts, of any length, whatever the string buffer held before", "why_tests_cant": "Escapes, gaps and nesting combine without bound, and the generated lexer picks the longest match among overlapping patterns.", "anchors": ["src/compiler/Lexer.lex", "src/compiler/Config.mlp"]}
{"id": "C86", "title": "A suspension is evaluated only when forced, and not again once it has a value", "statement": "In every program with any effects, exceptions and handlers: the expression of a suspension is evaluated only when force is called on it; once it has been evaluated to a value it is never evaluated again; unless it forces its own suspension it is evaluated to a value at most once, and all calls of force return that value.", "quantifier": "all programs over any state, any number of shared and nested suspensions, all terminating executions", "why_tests_cant": "Sharing, effects, exceptions and recursion through the suspension interact; tests force a suspension twice and stop.", "anchors": ["src/mosmllib/Susp.sml", "src/mosmllib/Susp.sig"]}
{"id": "C87", "title": "The registry of ML values and C pointers behaves as documented, and value pointers stay good", "statement": "After any sequence of operations from ML and C: register fails exactly if the name is registered, unregister exactly if it never was, isRegistered decides, get_valueptr returns NULL exactly if it is not registered; a value pointer once obtained gives at any later time the value registered at that time under its name, or NULL; C pointers are found under the name of their first registration.", "quantifier": "all histories of operations, all names and values", "why_tests_cant": "A stale pointer shows only after particular sequences of unregistering and registering again.", "anchors": ["src/mosmllib/Callback.sml", "src/mosmllib/Callback.sig", "src/runtime/callback.c"]}
{"id": "C88", "title": "Word8 computes modulo 256 and reads and writes its numerals as documented", "statement": "For all words of eight bits: +, -, *, ~ are arithmetic modulo 256, div and mod are unsigned and raise Div for zero, comparisons, compare, min and max are unsigned, the bitwise operations act on eight bits, the shifts are right for every count, toInt, toIntX, fromInt, toLarge, toLargeX and fromLarge give the documented values, fmt writes the numeral in every radix, scan reads the longest numeral or raises Overflow when it is not below 256, and scan reads back what fmt writes.", "quantifier": "all words, all shift counts and ints, all radices and character sources", "why_tests_cant": "The values are stored in machine words of 64 bits, so every operation has to restore the upper bits; tests sample a few operands.", "anchors": ["src/mosmllib/Word8.sml", "src/mosmllib/Word8.sig", "src/compiler/Ovlres.sml", "src/runtime/interp.c"]}
{"id": "C89", "title": "Error reports name and mark the lines and characters that they are about", "statement": "For every file and every range in it, Location.errLocation prints the number of the line in which the range begins (and ends), the columns counted from the beginning of the first line, the text of the line with marks under exactly the characters of the range, or the lines of the range with the middle left out, and leaves the stream where it was.", "quantifier": "all files, all ranges", "why_tests_cant": "Off-by-one errors show only for particular positions of newlines and tabs, ends of files and numbers of lines.", "anchors": ["src/mosmllib/Location.sml", "src/mosmllib/Location.sig", "src/compiler/Location.sml"]}
{"id": "C90", "title": "FileSys answers about the file that the path names, and the program search follows PATH", "statement": "FileSys.isLink is true exactly for symbolic links; access asks for exactly the permissions in its list; readLink returns the text of the link without overrunning its buffer; files have equal file_ids only if they are the same object, ordered by compare; a directory stream delivers the entries other than . and .. once each, then NONE, starts anew after rewindDir, and raises SysErr after closeDir; the runtime finds its bytecode file as the first executable one in the directories of PATH.", "quantifier": "all paths, modes, devices and inodes, link texts, sequences of operations on a directory stream, values of PATH", "why_tests_cant": "Depends on device and inode numbers, on lengths of paths and on sequences of calls that a test directory does not exhibit.", "anchors": ["src/mosmllib/FileSys.mlp", "src/mosmllib/FileSys.sig", "src/runtime/unix.c", "src/runtime/mosml.c", "src/runtime/sys.c"]}
{"id": "C91", "title": "Exit actions, completion codes, the command line and directory listings are as documented", "statement": "Process.exit executes all registered actions, in reverse order of registration, and then ends the process with its argument as completion code; isSuccess holds of success alone; a parent that runs the program with Process.system sees success exactly if the program ended with success; sleep sleeps for the time given; CommandLine and Mosml.argv give the command line; Mosml.listDir gives all entries of the directory.", "quantifier": "all sets of actions, statuses, times, command lines and directories", "why_tests_cant": "Failures show only with actions that themselves use Process, with particular status values, or through a chain of processes.", "anchors": ["src/mosmllib/Process.mlp", "src/mosmllib/Process.sig", "src/mosmllib/CommandLine.sml", "src/mosmllib/Mosml.mlp", "src/runtime/mosml.c", "src/runtime/sys.c"]}
{"id": "C92", "title": "IntInf computes exactly on integers of any size and reads back what it prints", "statement": "The operations of IntInf are those of the integers: no result is ever truncated; div and mod round down, quot and rem towards zero, with Div exactly for divisor zero; toInt is exact or raises Overflow; pow is the power, with the stated results for negative exponents; log2 i is the largest k with 2^k <= i; fmt writes numbers as Int.fmt does, and scan reads what Int.scan reads; scan reads back what fmt wrote in the same radix.", "quantifier": "all integers, radices and texts", "why_tests_cant": "The values are unbounded; a wrong sign or rounding shows only for particular combinations of signs and sizes.", "anchors": ["src/dynlibs/intinf/IntInf.sml", "src/dynlibs/intinf/IntInf.sig", "src/dynlibs/intinf/intinf.c"]}
{"id": "C93", "title": "Packing reals into bytes keeps every bit, in the byte order of the structure", "statement": "PackRealBig and PackRealLittle store the 64 bits of a real as eight bytes, most and least significant first respectively, and read them back unchanged; fromBytes uses the first eight bytes and raises Subscript if there are fewer; subVec, subArr and update use exactly the bytes 8i to 8i+7 and raise Subscript exactly if these do not exist; Mosml.doubleVec, vecDouble, floatVec and vecFloat are as documented, with Fail for vectors of wrong length and for reals that are not floats.", "quantifier": "all reals, vectors, arrays and indices", "why_tests_cant": "There are 2^64 representations, and mistakes show only for longer vectors, for extreme indices and for reals that floats cannot represent.", "anchors": ["src/mosmllib/PackRealBig.sml", "src/mosmllib/PackRealLittle.sml", "src/mosmllib/PackRealBig.sig", "src/mosmllib/Mosml.mlp", "src/runtime/mosml.c"]}
{"id": "C94", "title": "The command lines of compiler and linker mean what they say", "statement": "mosmlcmp and mosmllnk treat their arguments from left to right; an unknown option and a missing option argument stop them; each .sig and .sml file is compiled in the mode selected last before it and in the context of the units named before it, in order, without its own unit; files are looked for under their own name and then in the directories of the load path, in order; the linker links the preloaded units and then the named files in order, including all words of files given with -files; mosmldep names the context of each unit in the order given; every option that mosmlc documents for compilation is accepted by the compiler.", "quantifier": "all command lines, file names, load paths, states of the file system and contents of -files files", "why_tests_cant": "There are unboundedly many orders of options, modes and files, and the mistakes show only without a final newline, with very long words, with a unit named twice, or when the order of the context matters.", "anchors": ["src/compiler/Arg.sml", "src/compiler/Mainc.sml", "src/compiler/Mainl.sml", "src/compiler/Readword.sml", "src/compiler/Filename.mlp", "src/compiler/Mixture.sml", "src/toolssrc/Mosmldep.mlp", "src/launch/mosmlc.tpl"]}
{"id": "C95", "title": "The old top-level environments and Bool do what they document", "statement": "NJ93.hd, tl, nth, nthtail, ordof, chr, ord and substring return the part or code that their names say, and otherwise raise their own exception and no other; app and revapp apply their function from the first and from the last element and stop at an exception; fold and revfold combine from the right and from the left; inc and dec change a reference by one or raise Overflow; explode and implode of NJ93 and SML90 split a string into strings of one character and join strings, and undo each other, with strings limited by String.maxSize; Bool.scan and fromString accept exactly white space followed by true or false and read back what Bool.toString writes.", "quantifier": "all lists, functions, integers, strings and streams of characters", "why_tests_cant": "Every list, index and text is a case of its own; the strings are built in uninitialised memory, so that a test may pass by chance; strings over the size limit are too large for tests.", "anchors": ["src/mosmllib/NJ93.sml", "src/mosmllib/NJ93.sig", "src/mosmllib/SML90.sml", "src/mosmllib/Bool.sml", "src/mosmllib/Bool.sig", "src/mosmllib/List.sml", "src/mosmllib/StringCvt.sml", "src/runtime/mosml.c"]}
{"id": "C96", "title": "The help system finds and shows what is asked for", "statement": "help finds an identifier in the index files exactly under the key that is the same up to case; a term of specialfiles leads to its file; a single match is shown at once and several in a menu, where a number chooses the entry with that number and any number without entry repeats the question; the browser opens a file with the line asked for on the screen, t, b, u and d show the top, the bottom and the file half a screen up and down without passing over a line, /str finds cyclically the first line that contains the string up to case and n the next occurrence.", "quantifier": "all index tables in order, identifiers, files, sizes of the display and inputs", "why_tests_cant": "The window arithmetic has many boundary cases (short files, ends of the file, small displays), the order of the index is not that of characters, and numbers may be too large for the machine.", "anchors": ["src/mosmllib/Help.mlp", "src/mosmllib/Help.sig", "src/mosmllib/Char.sml", "src/mosmllib/String.sml"]}
{"id": "C97", "title": "Project files are read as they are written", "statement": "The reader of project files accepts a sequence of tokens exactly if it is a way to write a file (an optional list of imports, and a body of sources, structures and local ... in ... end to any depth) followed by the end of the text, and then gives that file; a word is a keyword or a file name whatever white space precedes it, a comment ends at the end that matches its beginning however deeply comments nest, text after it is read as if the comment were not there, and a comment without end raises Fail.", "quantifier": "all texts, all sequences of tokens, all project files", "why_tests_cant": "Bodies and comments nest without bound, and the parser combinators go back to earlier alternatives in ways that only particular texts reveal.", "anchors": ["src/mosmlpm/PMBasic.sml", "src/mosmlpm/Parsercomb.sml", "src/mosmllib/StringCvt.sml"]}
{"id": "C98", "title": "The project manager calls its functions for the arguments in order, and names the error", "statement": "ArgParse.parse calls the function of each option (with the word after it, if it takes one) and the function for other arguments, once each and in the order of the command line; at the first argument that is wrong (an unknown option, a missing or wrong argument, or one for which the function raises Bad) it stops after exactly the calls before, and raises Bad with the name of the program followed by a description of the error.", "quantifier": "all lists of options, functions and command lines", "why_tests_cant": "The handlers are nested as deeply as the command line is long, and the message depends on that depth.", "anchors": ["src/mosmlpm/ArgParse.sml", "src/mosmlpm/ArgParse.sig"]}
{"id": "C99", "title": "Each file of a project sees what the project file lets it see", "statement": "A file of a project is compiled with exactly the files that its project file imports and those declared before it that are not hidden, in this order: local b1 in b2 end b3 shows b1 to b2 only, and shows b2 to b3 and what follows; a project file gives to those that import it exactly what its body declares and does not hide.", "quantifier": "all project files and all imports", "why_tests_cant": "Local declarations nest without bound and combine with files before and after them in all ways; a file too many in the context usually does not make a compilation fail.", "anchors": ["src/mosmlpm/PMCompile.sml", "src/mosmlpm/PMBasic.sml"]}
{"id": "C100", "title": "The project manager compiles again what is out of date, and nothing else", "statement": "A source of a project is reused exactly if its interface and code exist and nothing that they are made from is newer: the source, its signature file, the interfaces that it sees and the project file; if there is a signature file and only the code is out of date, only the source is compiled; otherwise the signature file, if there is one, and the source are compiled, in this order.", "quantifier": "all times of modification, with files existing or not", "why_tests_cant": "The decision depends on the order of five times and any number of interfaces, and on failures of earlier compilations.", "anchors": ["src/mosmlpm/PMCompile.sml"]}
{"id": "C101", "title": "The files of a project are linked in an order in which they can be", "statement": "linkFiles collects the files of exactly the project files that the one asked for imports, directly or not, and of itself, each project file once, after all those that it imports, and its files in the order in which they stand in it; if project files import each other in a cycle this is reported, and only then.", "quantifier": "all graphs of project files", "why_tests_cant": "Imports form arbitrary graphs, with shared project files, long chains and cycles anywhere.", "anchors": ["src/mosmlpm/PMCompile.sml"]}
{"id": "C102", "title": "A primitive declaration means the primitive that it names", "statement": "prim_val with arity 0 names a variable of unit General; with any other arity it means the built-in primitive whose name is in the table of the compiler, and if there is none, the C function of that name. The binary search finds every entry of every table in increasing order and nothing else, the table is in increasing order, and the comparisons and field accesses in it are those that their names say.", "quantifier": "all names and arities; all sorted tables", "why_tests_cant": "A table out of order makes the search miss only some names, which are then silently compiled as calls of C functions that do not exist.", "anchors": ["src/compiler/Primdec.sml", "src/compiler/Fnlib.sml", "src/compiler/Prim.sml"]}
{"id": "C103", "title": "The collector is set as asked for, within its limits", "statement": "The settings with which a program starts are within the limits of config.h whatever CAMLRUNPARAM asks for, and are those asked for if these are within the limits. gc_get reports the settings as integers, in words. gc_set sets what it is given, within the same limits, and leaves everything alone if given what gc_get reports. The heap grows by whole pages, by enough for the request.", "quantifier": "all settings and requests (increments up to 2^56 words at the start, up to 2^53 in gc_set)", "why_tests_cant": "A size that is not tagged as an integer harms only when a collection meets it; sizes beyond the limits harm only heaps that grow.", "anchors": ["src/runtime/gc_ctrl.c", "src/runtime/config.h", "src/runtime/major_gc.c"]}
{"id": "C104", "title": "A timer shows the time since its start and the part of it that collections took", "statement": "checkCPUTimer gives the user and system time since the timer was started; checkCPUTimes splits it into the time of collections and the rest, which add up to it and are not negative; the time of collections is the sum of the times of the collections since the start.", "quantifier": "all readings of the clocks and all sequences of collections", "why_tests_cant": "The seconds and microseconds are carried over differently at each collection, and a collection while the times are read cannot be arranged.", "anchors": ["src/mosmllib/Timer.sml", "src/runtime/mosml.c", "src/runtime/runtime.c"]}
{"id": "C105", "title": "A string in a lexer definition means the characters that are written", "statement": "For a string in the input of mosmllex, the scanner gives exactly the characters that its parts (plain characters, escapes, control characters, decimal codes, gaps) mean, in order and whatever its length, and goes on after the closing quote; a code above 255 is reported as a lexical error. The same holds for character constants, in which invalid characters are errors. The buffer never fails and keeps nothing of earlier strings.", "quantifier": "all strings, all contents of the buffer before", "why_tests_cant": "The buffer is shared between strings and grows at 256, 512, ... characters; the strings of tests are short.", "anchors": ["src/lex/Scan_aux.sml", "src/lex/Scanner.lex", "src/lex/Mainlex.sml"]}
{"id": "C106", "title": "An action in a lexer definition extends to its matching brace", "statement": "The action that mosmllex copies ends at the brace that matches the first one; braces, quotes and brackets in strings and comments do not count, and comments nest. Every string that the compiler accepts may occur in an action.", "quantifier": "all texts of actions, with braces and comments nested to any depth", "why_tests_cant": "The rules for actions, strings and comments call one another, with depths and a buffer that are kept in references.", "anchors": ["src/lex/Scanner.lex", "src/lex/Scan_aux.sml", "src/compiler/Lexer.lex"]}
{"id": "C107", "title": "What is linked is what is run", "statement": "An executable that the linker wrote, stand-alone, with a header or without, runs exactly the code that was linked, with its data after it, however it is called: by its own name, as a script, or as an argument of the runtime after options -v. It gets the command line from its own name on. Nothing but a file that ends with a trailer with the magic number is ever run.", "quantifier": "all codes, data, linker tables (each below 2^32 bytes), prefixes, command lines, files and search paths", "why_tests_cant": "The file is read from its end, with sizes that were written by another program in another language; tests use a few small programs called in one way.", "anchors": ["src/runtime/main.c", "src/runtime/exec.h", "src/runtime/io.c", "src/compiler/Link.sml"]}

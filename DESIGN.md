# Formal model of Moscow ML (kfl/mosml): design

The model is written in Lean 4 under `lean/Verif`. Each area `X` has

* a model (`X.lean` / `X/Model.lean`): total computable functions that follow the C or SML code
  function by function; each definition cites the file and lines it was read from and says what was
  simplified;
* a specification, written without the model's helpers (in the property file or `X/Spec.lean`);
* helper lemmas (`X/Lemmas*.lean`);
* a property file (`X/Props.lean`) with the theorems named `C<nn>_...`, each followed by `example`s
  showing that the hypotheses are satisfiable by a non-trivial case.

## Trusted base

* Lean 4.33.0's kernel; the axioms `propext`, `Classical.choice`, `Quot.sound` at most
  (no `sorry`, no own axioms, no `native_decide`, no `bv_decide`).
* The reading of the source: the model was written by hand from the text of `/repo`; the C compiler,
  the operating system, libc (`printf`, `memmove`, `read`, `write`, `lseek`) and IEEE arithmetic are
  modelled by their documented behaviour. Configuration assumed unless said otherwise: 64-bit, little
  endian, two's complement, `SIXTYFOUR` defined, arithmetic right shift of negative longs.
* Signed C arithmetic is modelled as wrap-around 64-bit arithmetic; this is what the code relies on
  (the runtime tests `Long_val(Val_long(tmp)) != tmp` after the fact). Strictly, ISO C makes signed
  overflow undefined; where the code's intermediate results can overflow this is stated in the
  definition's comment.

## Plan per property

| id | modelled | proof method |
|----|----------|--------------|
| C01-C04 | interp.c integer instructions on tagged `BitVec 64` words | decision logic, arithmetic |
| C05-C07 | text conversion primitives (mosml.c), Int.mlp, Word.mlp | induction on digit strings, round trip |
| C08 | floor/ceil/trunc/round on exact dyadic rationals | decision logic |
| C09,C10,C12 | string blocks as byte lists of whole words | round trip, refinement |
| C11 | escape printers and scanners | round trip by finite table + induction |
| C13,C14 | compare/equal/hash on value graphs/trees | induction |
| C15,C16,C18,C19 | extern.c/intern.c on word-addressed heaps | graph isomorphism invariant |
| C17 | externcp.c/interncp.c byte format | graph isomorphism invariant |
| C20-C23 | channels over an abstract file with arbitrary partial reads/writes | refinement |
| C51 | TextIO.sml reading functions over the channels | refinement |
| C24 | freelist.c on an address-indexed heap | invariant over operations |
| C25 | minor_gc.c copying | isomorphism invariant |
| C26,C27 | incremental collector as a transition system | invariant over all interleavings |
| C28 | p_table search loop | refinement to list membership |
| C29 | realloc_stack | invariant |
| C30 | md5sum.c against RFC 1321 | refinement |
| C31,C32 | Back.sml code generation and interp.c instructions for the core | simulation |
| C33 | parsing.c engine as a transition system | simulation |
| C34-C37, C52 | warshall.c, output.c packing, lalr.c digraph, closure.c, mkpar.c | loop invariants |
| C38-C45 | SML library data structures | refinement to finite maps / lists |
| C46,C47 | Path, Strbase | string laws by induction |
| C48 | Lexgen position automaton | language equivalence |
| C53 | Lexing.sml, lexing.c buffers under the generated functions | simulation of the stream |
| C54 | Back.sml unref, opt_refs on lifted terms with a store of shared nodes | simulation of two runs that differ by one block |
| C55 | Emitcode, Labels, Buffcode, Reloc, Patch, Symtable against the decoder of interp.c | layout lemma for backpatching, decoding of each clause, linking invariant |
| C56 | literal table: Reloc, Hasht.peek, hash.c and sml_equal on the compiler's constants | tree versions of hash and equality, equal constants up to zeros |
| C57 | comparison instructions, conditional branches, inversion of tests, tests of constant patterns | values of four types with their tagged or boxed representation; machine of the instructions concerned |
| C58 | Sort.sml, compileNBranch, compDecision, compSwitch, compDirectSwitch, BRANCHINTERVAL, SWITCH | code as a list with labels, right-hand sides opaque; execution relation on label-suffixes |
| C59 | Link.sml (three passes), exportPublicNames, defineGlobalValueAlias; patch_object as in C55 | hash tables as lists; files by unit name; program = list of phrases and name publications; behaviour of a phrase abstract, reading and writing globals |
| C60 | isSafe, purity flags of trToplevelDec | expressions with a bounded evaluator, the unsafe ones opaque; module expressions not modelled |
| C61 | trExp, trVarApp, trPrimApp, trArgs, trLetArgs, trTuple, trRec, trConVar, trPrimVar, isSafe, normApp of Front.sml; sortRow | source semantics with names, references and output against a semantics of Lambda terms with right-to-left application; patterns are variables; one primitive of each calling convention; no other units, exception constructors, local functions (`fun` in let), modules |
| C62 | buildrealmap, expandcode of expand.c (both switch statements, transcribed case by case); operand macros of interp.c under THREADED | words are opcodes, numbers or addresses; out-of-bounds accesses and bad opcodes are `none`; execution by any machine that is natural in code addresses; 32-bit casts not modelled; `jumptable` one-to-one |
| C63, C64 | unify, unifyRec, unifyRho, extractLab, linkVarToType, generalization, specialization of Types.sml; elabExp, elabPat, elabMRule, isExpansiveExp of Elab.sml; resolve3Dot of Ovlres.sml | variables are numbers, the state keeps links resolved (the code follows them on demand); type and row variables in one table with their levels; recursion bounded by a fuel argument with its own error; ground types are an inductive type whose records are functions from labels; the run-time semantics is an evaluator with references; no overloading, equality attributes, annotations, exceptions, datatype declarations, modules |
| C65-C67 | Date.sml but for fmt (strftime) | integers raise Overflow outside 63 bits; localtime, gmtime, mktime, localoffset are parameters; asctime as in ISO C; times in whole seconds; specification by ticks of a clock (`Civil.tick`), day numbers only in the proofs |
| C68 | all of Rbset.sml but for printing | `GETOUT` and the other exceptions are `none`; counts are unbounded; elements are values with a comparison that is a total preorder; sets as functions to the element kept |
| C69 | Binaryset.sml (old_union, which nothing calls, excepted); Intset.sml is the same code | `none` is Match; counts are unbounded; Intset is covered by the comparison of integers, its text is not modelled separately |
| C70 | Splayset.sml, Splaytree.sml | a heap of set objects with their references; programs name sets by the order of their making; the comparison has no effects; counts are unbounded |
| C71 | Random.sml | doubles are rationals; each operation is rounded to a nearest double by an arbitrary function `fl` (ties either way; `rnd` is one with ties to even, used for witnesses); no NaN, no subnormal limit on the exponent; `newgen` (system clock) is left out |
| C72 | Real.sml fmt (FIX), scan, fromString; mosml.c:1166-1184 | numbers as in C71; sprintf "%.nf" is correctly rounded decimal output; a write beyond `format_buffer[512]` is the outcome `smash`; SCI and GEN are left out |
| C73 | Time.sml | numbers as in C71; `now` is left out; the integers of the fraction (at most 7 digits) are unbounded |
| C74 | Regex.sml; mregex.c:132-205 regmatch_sus | the engine (GNU regex) is an arbitrary function whose match lies within the text; functions given by the user are computations in any lawful monad; loops have a bound on rounds that is proved to suffice; String.maxSize is left out; allocation and the garbage collector are left out |
| C75 | Array.mlp, Vector.mlp, ArraySlice.sml, VectorSlice.sml | an array is its block (the reference around it is never assigned); a vector under construction is a list of optional elements handed through the loop; functions with and without `i` in their name, on whole arrays and on slices, share the model of their textually identical loop; 64-bit maxLen; unchecked accesses out of bounds are the outcome `bad`; Word8* and Char* units are not modelled separately |
| C76 | Array2.sml | an array is the list of the locations of its rows and the two dimensions; rows are the arrays of C75, whose functions are used as modelled there; functions on whole arrays and regions; 64-bit maxLen |
| C77 | Msp.sml, Mosmlcgi.sml, Mosmlcookie.sml | strings as lists of bytes, substrings as strings; the environment variables and standard input as a record; dictionaries are the splay maps of C44 with their state passed on; lazily evaluated bindings as functions; Msp's tags other than mark0, mark0a, mark1, mark1a and area are left out |
| C78 | PP.sml | references in tokens as contents of the slot; the delimiter queue as a list in the printer, and as the circular array by itself (C78_queue); the consumer as the text received; integers unbounded; dest_ppstream and with_pp are left out |
| C79 | Hashset.sml | buckets and arrays as lists; user functions total, without effects on the set; Array.app, foldr, all, exists as the functions on lists; a copy has an array of its own; polyHash is C14 |
| C80 | List.sml, ListPair.sml, Option.sml (all functions) | user functions are computations on an arbitrary state that return, raise or do not end; left-to-right evaluation as in the Definition; 63-bit overflow checked; no bound on memory or stack |
| C81 | String.sml (all but tokens, fields, toString, scan), Strbase.mlp foldl, translate, revconcat, maxlen | strings are lists of codes, fresh strings have undefined cells and using one is an outcome of its own; get_nth_char, set_nth_char, blit_string, fill_string of str.c as primitives, out of range = undefined; 64-bit maxSize; loops with fuel, exhausted = does not end |
| C82 | Substring.sml:10-222 | same primitives; base strings compared by contents in span, as `=` of the source does |
| C83 | StringCvt.sml (all), Char.sml:16-75, 103-104 | one buffer per partial application, part of the world; reader and predicate arbitrary computations |
| C84 | signals.c (all), interp.c:596, 746, 1083-1130, 1582-1592, sys.c:286-300, misc.c:16-20, io.c:248-319, fail.c:32-37 | every access to a shared variable is one action, signals between any two; ML code between polls is one point; SIGFPE and the branches for other systems are left out |
| C85 | compiler/Lexer.lex:97-168, 202-208, 272-283, 347-397, Config.mlp:168-181 | patterns as in the file, selected as in C48; SkipString (399-409) is only an error; the other tokens, quotations and locations are left out |
| C86 | mosmllib/Susp.sml (all) | the program around it is arbitrary: values, exceptions, handlers, effects on any state; only executions that end |
| C87 | mosmllib/Callback.sml:17-83, runtime/callback.c:24-45, 70-98 | hash tables are finite maps (C43); references do not move (C26); `var` and `app1` to `app5`, which jump to C code, are left out |
| C88 | mosmllib/Word8.sml (all), compiler/Ovlres.sml:92-105 (which operation an overloaded identifier stands for at word8) | 64-bit configuration; text functions on lists of characters |
| C89 | mosmllib/Location.sml:36-143 (compiler/Location.sml has the same errLoc) | file as a list of characters; reports for input that is not a file (lexer buffer) are left out |
| C90 | mosmllib/FileSys.mlp:52-62, 104-134, 257-286 (Unix branch); runtime/unix.c:60-108, mosml.c:886-972, sys.c:336-364 | the operating system is a parameter; realpath, mosmlFullPath, times, sizes, errno and other systems left out |
| C91 | mosmllib/Process.mlp, CommandLine.sml, Mosml.mlp:62-66, 90-96; runtime/mosml.c:115-124, 1629-1647, sys.c:88-92, 172-181 | functions are numbers with bodies in a table; waitpid statuses as in POSIX; the arithmetic of sml_sleep taken as exact |
| C92 | dynlibs/intinf/IntInf.sml, intinf.c:199-336 | a largeint is the number it holds; GMP functions as documented; memory exhaustion, finalization and `Size` not modelled |
| C93 | mosmllib/PackRealBig.sml, PackRealLittle.sml, Mosml.mlp:10-27; runtime/mosml.c:1418-1506; slices and copyVec as used | a real is its 64 bits; little-endian machine; conversion between double and float is a parameter |
| C94 | compiler/Arg.sml:48-82, Mainc.sml:27-63, 127-156, Mainl.sml:10-20, 111-113, Readword.sml:7-34, Filename.mlp:7-52 (unix), Mixture.sml:72-84, Fnlib.sml:92-105; toolssrc/Mosmldep.mlp:106-109, 161-197 | options with integer or real argument are left out (no program has one); -P and -m accept every name; the linker's options are not modelled beyond its default action; launch/mosmlc.tpl is only quoted |
| C95 | mosmllib/NJ93.sml:9-84, SML90.sml:10-44, Bool.sml:7-35, List.sml:10-29 and folds, StringCvt.sml:39-44; runtime/mosml.c:396-415 | a stream is the list of its remaining characters; fresh strings have arbitrary contents; math, ceiling, truncate, input and output are left out |
| C96 | mosmllib/Help.mlp:109-111, 133-178, 188-268, 298-314, 320-322, 360-378; Char.sml:70-72; String.sml:99-112 (collate) | index tables are given (readbase is not modelled); printed texts, menu layout, readfile, getstdlib left out |
| C97 | mosmlpm/PMBasic.sml:5-11, 23-108; Parsercomb.sml:105-137, 165-166 unfolded; StringCvt.sml:47-55 | one token at a time, the grammar on lists of tokens; the lazy stream, positions and file reading left out |
| C98 | mosmlpm/ArgParse.sml:18-85 | the functions of the program are events, which may raise Bad; Int.fromString and Real.fromString are parameters |
| C99 | mosmlpm/PMCompile.sml:68-89, 192-252 | context without time stamps; recompile, file system, failing compilations and cycles left out |
| C100 | mosmlpm/PMCompile.sml:54-63, 72, 80-89, 98-120 | files are times of modification; the source and the project file exist |
| C101 | mosmlpm/PMCompile.sml:269-316 | the hash table is a list; names are normalized and absolute; makeUo (linkFiles) left out; the depth of recursion is bounded by fuel, which is proved to suffice |
| C102 | compiler/Primdec.sml:8-107, Fnlib.sml:110-121, Prim.sml:7-57 | a vector is a list, Subscript is none; only the primitives of the table |
| C103 | runtime/gc_ctrl.c:105-165, 188-202, config.h:51-104, major_gc.c:706-717 | 64-bit; long is unbounded, comparisons with unsigned limits are modulo 2^64; messages, gc_stat and the collections are left out |
| C104 | mosmllib/Timer.sml:8-44, runtime/mosml.c:675-721, runtime.c:257-324 | Unix with getrusage; readings of the clocks are parameters; times are whole microseconds; real-time timers left out |
| C105 | lex/Scan_aux.sml:12-57, Scanner.lex:76-127 | characters are codes; the longest match is written out by cases; arrays have any size |
| C106 | lex/Scanner.lex:53-74, 129-138 | as in C105; what follows the brace is the result instead of its position |
| C107 | compiler/Link.sml:241-266, runtime/main.c:52-98, 130-197, 229-251, io.c:125-131 | Unix; files are lists of bytes; the search in the path is a parameter; reads of a file that is long enough are complete; CAMLRUNPARAM left out |
| C49,C50 | Infixres, Match | correctness by induction |

Findings (properties the code violates) are listed at the end as they are established.

## Findings

Each finding is a theorem with a concrete witness.

* **C02** `C02_mul_violation`: (2^31)*(~2^31) and (~2^31)*(2^31) raise Overflow although the product is `minInt`.
* **C04** `C04_neg_violation`: `Word.~ 0wx4000000000000000` (2^62) raises Overflow.
* **C05** the C primitive reads up to the first NUL and accepts an empty digit string as 0; harmless, since
  the lexer only passes it non-empty digit strings. Part of the specification proved.
* **C07** `C07_violation_no_overflow`: `Word.scan`/`fromString` silently reduce modulo 2^63 where Word.sig
  documents Overflow. `C07_violation_hex_0w`: in HEX, `0w` before hexadecimal digits is accepted although
  Word.sig's grammar does not list it.
* **C08** `C08_violation_ceil`, `_trunc`: `ceil ~2^62` and `trunc ~2^62` raise Overflow although the result is
  `minInt`, because `(double)(Min_long-1)` rounds to -2^62. `C08_violation_round`: `round 2^62` returns `minInt`.
  `C08_violation_nan`: NaN reaches `(long) r`, undefined behaviour.
* **C09, C12** `C09_concat_violation`, `C12_blit_violation`: `blit_string` passes the length through `Int_val` (a C
  int), so on 64 bit a copy of 2^32 bytes copies nothing and `String.concat` of such a string yields garbage.
* **C11** `C11_printer_ascii_violation`: the runtime printer writes characters 128..254 raw (String.toString does not).
* **C12** `C12_copy_exception_violation`: `ArraySlice.copy`/`Array.copy` raise Overflow, not Subscript, when `di + n`
  exceeds the largest int.
* **C13** `C13_nan_violation`: with NaN the answer of `=` depends on sharing (physical equality is tested first).
  `C13_long_string_violation`: two copies of a string of 2^31 characters or more are unequal (length in a C int).
* **C14** `C14_real_violation`: 0.0 and ~0.0 are equal but hash differently (outside the stated property).
* **C15** `C15_weak_violation`: `output_value` accepts weak arrays and relativises their elements, `input_value` does not
  relocate them (tag >= No_scan_tag): wild pointers.  `C15_large_violation`: values of 2^32 bytes or more are written
  (`putblock` takes an `unsigned`) but never read back.
* **C16** `C16_negative_violation`: a top-level int is written as 32 bits; ~1 is read back as 2147483647.
* **C17** `C17_large_block_violation`: a block of 2^22 fields or more has its header cut to 32 bits.
* **C18** `C18_negative_violation`: negative ints at top level are not sign-extended; `C18_large_violation`: headers of
  blocks of 2^21 words or more are sign-extended and the reader asks for 2^52 words.
* **C19** `C19_block_violation`: Polygdbm cannot store any block value on a 64-bit machine; `C19_large_int_violation`:
  ints of more than 55 bits change.
* **C20** `C20_huge_violation`: a block of 2^31 bytes is not written (`really_write` takes an `int`), though the position
  moves on.
* **C21** `C21_flush_violation`: a flush after a backward `seek_out` moves the position to the end of the buffered data.
  `C21_block_violation`: a block of 4096 bytes or more output at the start of a non-empty buffer (after a seek) is written
  at once and the stale buffer is written after it.
* **C24** `C24_order_violation`: the free list can lose its address order. `fl_add_block`, in the branch for a chunk above the
  last free block, does not advance `fl_merge`, so when the sweep then frees a block below the chunk it is linked after it. The
  DEBUG asserts would fail and adjacent free blocks may stay apart; memory stays disjoint and fully accounted for.
* **C27** `C27_alive_violation`, `C27_collector_violation`: between the end of marking and `weak_phase` (the phase `Phase_weak`
  may last until the next slice), `alloc_shr` colours a new block white when it is below `gc_sweep_hp`, which is then the start of
  the heap as it was. If the heap has just grown to a lower address, a weak pointer to a new, reachable block is reported
  dead, and `weak_phase` clears it.
* **C28** `C28_incr_violation`: `norm_heapincr` takes `Heap_chunk_min` (a number of words) as bytes, so `gc_set` with an increment of 0
  sets 1024 bytes; chunks smaller than a page are not recorded in the page table (low page = high page), and blocks there are
  taken to be outside the heap.
* **C30** `C30_long_violation`: `md5sum` keeps the length in an `int`; a string of 2^32 characters has the digest of the empty string.
* **C36** `C36_short_violation`: `infinity` is `ngotos + 2` and is stored in an array of short; with 32766 gotos (`set_goto_map` allows 32767) it is
  negative, components are not popped and the look-ahead set of a vertex on a cycle is too small.
* **C33** `C33_symbolStart_violation`: the entry of `symb_start_stack` is written for tokens only. In the action of an empty rule symbolStart() is the
  start of a symbol that has been popped: after `x y` reduced to `A`, the empty `B` appears to start where `y` started and to end where `y` ended.
  The same position is reported for a longer symbol that begins with an empty one. The engine also relies on `s_stack[0]` never being written
  (`C33_stacks`: it is not), and keeps `state` and `sp` in static variables, so a semantic action must not call a parser.
* **C35** `C35_lowzero_violation`: when all places of the table are taken (for instance by a state that shifts on 1000 tokens, the first size of the
  table), `while (check[lowzero] != -1)` (output.c:582) reads beyond the end of `check`. The packing is right whatever is found there (`C35_pack`).
* **C37** `C37_overread_violation`: when the number of nonterminals is a multiple of 32, `set_first_derives` reads the word after the end of `EFF`
  (the value is not used).
* **C38** `C38_balance_violation`: the comment in Binarymap.sml says rebalancing is guaranteed to reinstate the criterion (no subtree more than
  3 times as large as its sibling); after 13 insertions it need not hold (1 element against 4).
* **C41** `C41_mergeUniq_violation`: Listsort.sig promises that no elements in the result of `mergeUniq` are EQUAL when both lists are sorted;
  duplicates within one list stay (`mergeUniq ordr ([1,1], [])` is `[1,1]`).
* **C43** `C43_hint_violation`: `mkTable` with a size hint above 2^61 never ends (`roundUp` shifts left until it is 0 and loops).
  `C43_interrupt_violation`: `growTable` takes any exception for the end of the table (`handle _`), so an Interrupt while it copies is
  swallowed and the items not yet copied are lost. `C43_filter_violation`: when the predicate given to `filter` raises, `numItems` is left wrong.
* **C44** `C44_subArray_violation`: Dynarray.sig promises that `subArray (a, m, n)` has the values of `a` in [m, n]; the value at `n` is missing.
* **C46** `C46_unixPath_violation`: `fromUnixPath` and `toUnixPath` raise InvalidArc for every non-empty path: the test in `invalidArc` is
  inverted. `C46_mkRelative_violation`: `mkRelative {path="/a/", relativeTo="/a"}` raises Path. `C46_splitBaseExt_violation`:
  `joinBaseExt (splitBaseExt "a//b.c")` is "a/b.c", against Path.sig. `C46_fromString_toString_violation`: `fromString (toString p) = p` fails for
  an absolute path without arcs.
* **C48** `C48_entry_violation`: for a rule that matches only the empty word the initial state is `Perform`, for which no function is emitted; the entry
  point calls it all the same (`state_0`), and the generated program does not compile. Action numbers from 32767 on (`no_action`) are never chosen.
* **C53** `C53_string_violation`: on a string buffer a rule that matches two NULs gets, at the end of the string, a lexeme of one NUL only (the position is
  moved back before each character past the end). `C53_too_long`: tokens of 1025 characters can already be refused; the documentation names no limit.
* **C50** `C50_fatal_violation`: `exception A of int * int; exception B of int * int * int; fun f (A (1, 2)) = .. | f (B (2, 2, 3)) = .. | f _ = ..` makes the
  compiler stop with `fatalError "Match.succeed"`: what is known about the argument of A is used for that of B, because two names may be the same exception.
* **C54** `C54_stale_node_violation`: `unref` rewrites shared nodes of a match in place; when it later finds that the reference is used as a value and gives up
  (exception Refs'R'Us), the nodes stay rewritten while the reference stays in the heap, so `!r` there yields the reference itself.
  `let val r = ref 5; val z = case (a,b) of (1,2) => 0 | (_,3) => !r | _ => 1 in ((z, r); z) end` is such a term: an int is a pointer.
* **C55** `C55_closure_size_violation`: the number of free variables of a function is written in one byte without a check (Emitcode.sml, Kclosure), so a
  local function with 256 or more free variables is compiled without complaint into a closure with too few fields, whose environment is then read out of
  bounds. `checkArguments` and `checkLocals` guard the neighbouring cases only. The same holds for the tag, for blocks of 2^22 fields or more and for C
  primitives of more than 255 arguments (`Zam.Wf`).
* **C56** `C56_zero_violation`: two constants of one phrase that differ only in the sign of a zero of type real, at a place that the hash code does not
  reach (it looks at eleven nodes, from the last component backwards), are merged: with `fun f true = [0.0,1.0,2.0,3.0] | f false = [~0.0,1.0,2.0,3.0]`,
  `Real.toString (hd (f false))` is "0.0" (and `Math.atan2 (hd (f false), ~1.0)` is pi instead of ~pi).
* **C57** `C57_nan_violation`: `if x < 1.0 then A else B` runs A when x is a NaN. `compileTest` (Back.sml) inverts the test to jump to B, and the inverse
  of `<` on reals is taken to be `>=`, which is false as well. As an expression, `x < 1.0` is false for the same x. NaNs are obtainable through
  `PackRealBig.fromBytes`; arithmetic itself raises Overflow or Div first.
* **C58** `C58_overflow_violation`: `fun f ~4611686018427387904 = 1 | f 1 = 2 | f _ = 3` makes the compiler raise Overflow: `compileNBranch`
  (Back.sml:201-202) subtracts keys without regard to their size. The same happens for words, whose keys are their bit patterns
  (`0wx4000000000000000` and `0wx3FFFFFFFFFFFFFFF`).
* **C60** `C60_bind_violation`, `C60_linked_bind_violation`: `trToplevelDec` (Front.sml:1241) marks `val pat = exp` pure when `isSafe exp`, without looking at
  the pattern. So `val true = false` or `val SOME x = opt` (x not used elsewhere) raises Bind in the interactive system, and is silently left out by
  `mosmlc`. `C60_while_violation`: `isSafe` accepts `while e1 do e2` for safe e1 and e2, so a top-level `val _ = while true do ()` disappears as well (and as a
  function argument it is evaluated after the arguments to its right that have effects).
* **C61** `C61_curried_calls_run_late_violation`: in `f e1 e2` all arguments are evaluated before the first call. With
  `fun f x = (print "a"; fn y => y)`, `f 1 (print "b"; 2)` prints "ba"; the Definition (rule for application: function, argument, call) prescribes "ab".
  `C61_curried_calls_raise_late_violation`: likewise the exception of e2 is raised instead of that of `f e1`. This is inherited from the
  design of `trExp` (Front.sml:579-594, `normApp` collects all arguments). `C61_loops_are_moved_violation`: `isSafe` accepts loops, so
  `(fn x => fn y => x) (raise E) (while true do ())` does not raise E but runs forever.
* **C64** `C64_three_dots_violation`: `let fun f {a, ...} = a  fun h x = f (f x)  val r = {a = {a = 1, b = 2}, b = 3} in h r end` is legal (the enclosing
  declaration determines both records) but stops the compiler with the internal error `fatalError "extractLab"`. The row variable of f's pattern is
  shared by all uses of f (rows are not generalized), so unifying the type of `r` fills the row through one field while
  `unifyRecAcc` still holds the old row (Types.sml:1513-1541); `extractLab` (1148-1165) then finds a row that is no longer a variable.
* **C63** is not violated: although `generalization` leaves row variables at the inner level, the body of a `let` and the rest of a sequence of
  declarations are elaborated at that inner level too (Elab.sml:2095-2104, 2409-2419), so such a row is never mistaken for a local one.
* **C66** `C66_noon_violation`: `Date.date` stores the offset as seconds east of UTC; an offset of exactly 12 hours becomes -43200 (`if secs <= 43200`,
  Date.sml:304), that is UTC-12, although Date.sig says UTC+12 (and the comment at Date.sml:19 excludes -43200). `C66_days_violation`: for an offset of
  two days, `date` adds two days to the date and also stores `86400 - 172800`, so `toTime` moves the time by another day; `Date.offset` does not show it.
  The same holds for all offsets of 36 hours and more and for those below -12 hours.
* **C67** `C67_leading_space_violation`: `Date.scan` does not skip initial white space (Date.sml:258 takes letters at once), contrary to Date.sig.
  `C67_long_year_violation`: `Date.toString` cuts asctime's text after 24 characters, so the year 12345 is printed as 1234.
* **C68** `C68_mapMono_violation`: `Rbset.mapMono` collects the images by consing in a foldl, i.e. in reverse order, and then checks that they ascend
  (Rbset.sml:350-362). So it raises NonMonotonic for every strictly increasing function on two or more elements, and accepts decreasing functions,
  contrary to Rbset.sig. `C68_subset_compare_violation`: Rbset.sig claims that isSubset(s1, s2) implies compare(s1, s2) = LESS; {2} and {1, 2} give
  GREATER (and equal sets give EQUAL).
* **C71** `C71_range_violation`: `Random.range (min, max)` computes `floor(real min + scale * seed)` in doubles (Random.sml:43-49); with
  min = 10000000, max = 10000001 and a generator in state 2147483646 the sum rounds up and max itself is returned, although Random.sig promises [min, max).
  `C71_seed_violation`: `newgenseed ~6.8E~21` (that is -2^-67) computes a state of 2147483647.0 (the negative residue plus the modulus rounds up); then
  `random` returns 1.0 and `range(0,10)` returns 10. `C71_degenerate_violation`: only the seed 0.0 is refused, but 2147483647.0 and its multiples also
  give the state 0 and hence only zeros.
* **C72** `C72_buffer_violation`: `Real.fmt (FIX (SOME 203)) 8E307` makes `sml_general_string_of_float` (mosml.c:1166) write 512 characters and a NUL
  into `format_buffer[512]`; with 400 digits, which Real.sml allows, it overruns by about 200 bytes. `C72_size_violation`: Size is also raised above 400 digits (Real.sig:
  only for negative numbers). `C72_sign_violation`: `Real.fromString "12-5"` and `"1.5+2"` are NONE: after the mantissa `scan` looks for a signed
  exponent even if there was no `E`, and gives up when it finds one (Real.sml:125-136). `C72_overflow_violation`: `"0E400"` and `"1E~400"` raise Overflow, since `pow10 400`
  is computed first. Numerals above MAXDOUBLE/2 raise Overflow as well (fail.c:27).
* **C73** `C73_inverse_violation`: Time.sig says that fromReal and toReal are inverses; for 123 microseconds, `fromReal(toReal t)` is 123.00000000000001.
  `C73_sum_violation`: `fromReal 0.01 + fromReal 0.05 <> fromReal(0.01 + 0.05)`. `C73_less_violation`: 0.47 and the next larger real have the same
  `fromReal`, so `fromReal r1 < fromReal r2 iff r1 < r2` fails. `C73_fmt_violation`: `fmt 6` of 8738734697736806 microseconds prints 8738734697.736807.
  `C73_point_violation`: `Time.scan` on "1.x" leaves "x", although the documented numeral ends before the point (Time.sml:70). `C73_size_violation`:
  more than 400 decimals raise Size.
* **C74** `C74_groups_violation`: `regmatch_sus` (mregex.c:155-165) stops at the first group whose start is less than that of the group before, and reports no
  further groups. Regex.sig says that a group matched repeatedly is the last one matched; so for `((a)|(b))*` and "ab", group 1 is b and group 2 is a, and groups 2
  and 3 are missing: `Vector.sub(vec, 3)` raises Subscript. `C74_caret_violation`: the searches after the first one are made on the rest of the string without
  Notbol, so `^` matches there too: `replace (regcomp "^a" []) [Str "x"] "aab"` is "xxb". `C74_fields_violation`: `fields` sets Notbol and Noteol, `fold`
  does not, so Regex.sig's equation between them fails. Observation (not modelled): `regmatch_sus` reads `start_susval(susval)` after `alloc_tuple` without having
  registered `susval` as a root (mregex.c:168-187); if a minor collection moves the substring triple, a stale value is read.
* **C75** `C75_copy_violation`: `Array.copy`, `ArraySlice.copy` and their `copyVec` test `di+n > length dst` (Array.mlp:98, ArraySlice.sml:75); for `di` near
  `valOf Int.maxInt` the sum raises Overflow, where Array.sig:71 promises Subscript. (`slice` and `subslice` avoid this by subtracting.) `C75_find_violation`:
  `find` and `findi` read the element again after the predicate accepted it (Array.mlp:125), so with a predicate that updates the array they return an element to which
  the predicate was not applied, contrary to Array.sig:77-79.
* **C76** `C76_size_violation`: `Array2.array(0, ~1, x)` and `tabulate tr (0, ~1, f)` do not raise Size (Array2.sml:30-51), contrary to Array2.sig; the result has ~1
  columns, and `modify ColMajor` on it raises Subscript while `modify RowMajor` does not. `C76_region_violation`: in row-major order a region with no rows is accepted
  whatever its columns, and in column-major order `row + nrows` beyond `Int.maxInt` raises Overflow instead of Subscript. `C76_copy_violation`: `copy` does not check the
  destination in advance: with no rows it accepts any destination, with a huge `dst_row` it raises Overflow, and otherwise it may have copied some rows
  when it raises Subscript.
* **C77** `C77_integer_violation`: `cgi_field_integer` gives the default for `12abc`, where Mosmlcgi.sig documents that a prefix is parsed. `C77_malformed_violation`: a `%` not followed by two
  digits makes the whole value, or name, empty. `C77_multipart_violation`: semicolons are taken as separators inside quoted file names, `Content-Type: ` is looked for inside
  the name, and boundaries in quotation marks are not recognized. `C77_marks_violation`: `mark1a` takes tag and attributes in the other order than documented (Msp.sml:73, Msp.sig:225), and
  `area` makes a tag that is not closed (Msp.sml:160-163). `C77_cookie_violation`: blanks in the values of cookies are dropped; `setCookie` with `secure = false` writes `secure=false`, which
  browsers treat as secure (RFC 6265, 5.2.5), so that the cookie is not sent back over http. Observed: `Msp.%` raises `ParamMissing "fnm"` with that literal text whatever the name.
* **C78** `C78_buffer_violation`: the token buffer has 3 * linewidth places (PP.sml:180), and nothing checks that the right index does not catch up with the left. With short
  strings in blocks of their own, and breaks without blanks, properly nested calls raise `Fail "PP-error: pop: badly formed block"`, and `C78_lost_violation`: text is lost without an exception.
  `C78_flush_violation`: flush_ppstream discards text of a block that is open, where PP.sig documents that accumulated output is flushed, and the end of the block then fails.
  `C78_newline_violation`: `add_newline` is `add_break (linewidth+2, 0)` (PP.sml:573-575); after negative offsets more than linewidth columns are left and it may be printed as blanks. Observed: flush
  assumes that the consumer is at the beginning of a line; a string that contains a newline is taken as if it were printed on one line; a break outside a block raises `Fail`; `with_pp` catches `Fail` and
  prints its message, and the output is truncated.
* **C79** Observed: the example in Hashset.sig (`Hashset.empty (Hashset.hash, op =)`) does not type check, as `hash` is the hash code of a set; `polyHash` is meant. `member` searches
  the whole table (Hashset.sml:144-145) and does not use the hash function.
* **C80** Documentation: ListPair.sig says that `appEq` raises UnequalLengths "if xs and ys have the same length"; the code raises it when they have not (C80_pairs_eq).
* **C81** `String.extract (s, i, NONE)` (String.sml:70) computes `size s - i` before it tests `i`: for `i = valOf Int.minInt` it raises Overflow, not Subscript (C81_extract_violation).
* **C81** `String.concat`, `concatWith` and `translate` add the sizes with checked arithmetic before they compare with `maxSize`; where the sum is not an integer (on 32-bit machines, 64 references to a string of 16 MB) they raise Overflow, not Size.
* **C82** `Substring.slice (sus, i, SOME n)` (Substring.sml:64) computes `i+n`: it raises Overflow where Subscript is documented, while `substring` and `extract` were written to avoid it (C82_slice_violation).
* **C82** Documentation: Substring.sig says of `taker` "if the right-most character satisfies p, returns the empty"; it is to say "does not satisfy".
* **C83** All applications of one `StringCvt.splitl p getc` share the buffer `tmp` (StringCvt.sml:58-78).  A predicate or a reader that applies the same partial application overwrites the prefix read so far: `zb` is returned instead of `ab` (C83_splitl_violation).
* **C83** `StringCvt.padLeft` and `padRight` do not compare the width with `String.maxSize`: `create_string` is called with any width, and `alloc_string` (alloc.c:31-46) makes no check either.  Where memory suffices (on 32-bit machines, 16 MB) the block gets a header that does not hold its size; elsewhere Out_of_memory is raised instead of Size.
* **C84** `in_blocking_section` stays set after an interrupt in a blocking section: the handler's callback ends with RAISE (interp.c:1085-1091), which longjumps to the outer interpreter without going through `mlraise`, and neither RAISE nor the setjmp branch (interp.c:245-249) clears the flag.  Until the next read returns or a primitive raises, every SIGINT runs `alloc` and a nested interpreter from the signal handler, on the stale `extern_sp`, wherever the program is - in a collection, or in ML code whose frames lie below `extern_sp` and are overwritten by `callback` (C84_flag_violation).
* **C84** As a consequence a forced minor collection can be cancelled after its request was cleared (C84_collection_violation), and two signals can leave `signal_is_pending` set with `something_to_do` clear, after which every blocking call raises Interrupt (C84_spurious_violation).
* **C84** A signal between interp.c:1109 and 1110 is lost, as the comment there says (C84_lost_violation).
* **C84** A signal after `read` has returned and before `leave_blocking_section` (io.c:262-311) raises Interrupt; the bytes read have left the descriptor and never reach the program (C84_input_violation).
* **C85** A form feed is white space for the lexer (Lexer.lex:233) and a formatting character of the Definition (section 2.2), but it is refused in a gap of a string constant (Lexer.lex:364; C85_gap_violation).
* **C85** The codes 27 to 31 are accepted in string constants, while 255 (a printable character of ISO Latin 1, as 161 to 254, which are accepted) is refused (C85_unprintable_violation).
* **C85** A NUL or a control-Z in source text ends the file, also within strings and comments: what follows is ignored without notice outside of them.  The test `id = ["*"]` in mkQualId (Lexer.lex:145-151) never holds, as its lexeme contains a dot.  Both are observations, not theorems.
* **C86** Susp.sig says that the expression of a suspension is evaluated at most once and that all later calls return its result.  An expression that forces its own suspension on its first evaluation is evaluated twice, the inner call returns one value (10), and the outer one overwrites it, so that later calls return another (11) (C86_reentrant_violation).  An expression that raises is evaluated again by each `force` (C86_exception_violation).
* **C87** `registervalue` and `unregistervalue` (callback.c:75, 83) pass `get_value(...)` on to the interpreter without the check for NULL that `callbackptr` has.  As "Callback.register" can be unregistered from ML, the next `registervalue` in C dereferences NULL (C87_registervalue_violation).  `get_valueptr` (callback.c:26) likewise uses `get_valueptr_` = NULL if the unit Callback was not loaded (observation, not a theorem).
* **C88** Word8.sig gives `(0wx|0wX|0x|0X)?[0-9a-fA-F]+` as the input format of `Word8.scan HEX`; the code also takes `0w` without `x` as a prefix, so that `0wFF` is read as 255, not as 0 followed by `wFF` (C88_violation_hex_0w).  Unlike `Word.scan` (C07), `Word8.scan` does raise Overflow.
* **C89** `tr_line` prints five marks whenever it meets the end of the file (Location.sml:75), so in the last line of a file without final newline `^^^^^` is added to the marks of any range, next to them (C89_eof_violation).  The loops that count lines stop at a control-Z and start again (Location.sml:84-99), so behind one the line numbers and the text shown are wrong (C89_control_z_violation); lexers generated by mosmllex may well accept control-Z.  Location.sig says that `errPrompt msg` prints a newline; it does not (C89_errPrompt_violation).
* **C90** FileSys.sig promises that `fileId p1 = fileId p2` only for the same object, but the identity is `2^17 * device + inode` in a double (unix.c:103): inode numbers above 17 bits, usual today, collide with files of other devices, and those above 53 bits even on one device (C90_fileId_violation, C90_fileId_one_device_violation).  `searchpath` copies components of PATH into `static char fullname[512]` without a check (sys.c:338-358), so a long component overruns it (C90_searchpath_violation).  Paths that contain a NUL are cut there without an error, so `access("a\\000b", ...)` is about `a` (C90_path_violation).  Closing a closed directory stream returns () although FileSys.sig says that all operations raise SysErr (C90_close_violation).
* Observed, not modelled: `sml_uname` (unix.c:47-51) stores the result of `copy_string` through `Field(r[0], i)` of a block whose other fields are not yet initialised; a minor collection in `copy_string` would scan them.  No library unit uses this primitive.
* **C91** Process.sig says that `exit` "executes all registered actions, then terminates the SML process".  If an action raises an exception, the process goes on and the remaining actions are not executed (C91_raise_violation); an action that calls `exit` starts all actions again, forever (C91_nested_exit_violation); an action registered by an action is not executed (C91_registered_violation).  `system` returns the status of waitpid, 256 times the code, but `exit` passes only the low eight bits to the system, so `Process.exit (Process.system cmd)` ends with success although cmd failed (C91_pass_on_violation).  `sleep` takes its seconds modulo 2^32 (C91_sleep_violation).
* **C92** `IntInf.log2` returns the number of bits, so it is one too large for every positive argument (C92_log2_violation, for all i); `IntInf.pow(~1, ~2)` is ~1 instead of 1, and so for every negative even exponent (C92_pow_violation); `IntInf.fmt HEX` gives `ff` where `Int.fmt HEX` gives `FF`, and `IntInf.scan HEX` reads `0xFF` as 0 (C92_hex_violation).
* **C93** `PackRealLittle.fromBytes` reverses the whole vector before taking eight bytes, so that it reads the last eight bytes of a longer vector, where the documentation (and PackRealBig) say the first (C93_little_fromBytes_violation, for all longer vectors); `subVec`, `subArr` and `update` raise `Overflow` instead of `Subscript` for indices from 2^59 on (C93_overflow_violation); `Mosml.floatVec` is documented to raise `Fail` for reals that are not representable as floats but never does (C93_float_violation).
* **C94** `Readword.from_file` (the linker's `-files`) silently leaves out the last word if no blank or newline follows it and raises `Subscript` for a word of more than 1024 characters (C94_words_violation, for all such texts); `mosmlc -g` and `-debug` (mosmlc.tpl:64-66) pass the option to the compiler, whose option list has neither, so that every compilation stops with "unknown option" (C94_debug_violation); `Mainc.anonymous` removes a unit from its own context only once, so `A.sig A.ui A.sml` compiles `A.sml` with `A` in its context in spite of the comment about circular dependency (C94_circular_violation); `mosmldep` with an ordered list of units reverses the context twice and writes it in the reverse order (C94_mosmldep_violation, for all lists).
* **C95** `implode` of NJ93 and SML90 allocates its result without comparing its size to `String.maxSize`, as `String.concat` does, so that it asks the runtime for strings longer than the documented maximum (C95_implode_violation, for every maximum); Bool.sig documents that `fromString` returns `NONE` unless the text begins with "true" or "false", but upper case letters are accepted as well (C95_bool_violation).
* **C96** Help.sig describes `n` as "search for next occurrence of str", but the browser continues behind the last line displayed instead of behind the occurrence found, so that occurrences on the same screen are passed over and, if there are no others, `n` returns to the same line (C96_next_violation); the header of Help.mlp says that a term in `specialfiles` leads to its file, but `help "lib"` is fixed to README whatever `specialfiles` says, while `help "Lib"` obeys it (C96_lib_violation, for all such lists).
* **C97** PMBasic.sml:63-70: the alternatives of `comment` are tried also when the token after the end of the comment is refused. `(* a *) ; *) x` is therefore accepted as the file name `x`, and for `(* a *) ; x` the reader raises `Fail "Comment not closed"` although the comment is closed (C97_comment_violation).
* **C98** ArgParse.sml:57, 81: every handler of `Bad` encloses the reading of all further arguments as well, and `stop` for a missing or wrong argument is inside the handler of its own option. The message therefore repeats the name of the program once for each argument read before: `mosmlpm a -x` gives `mosmlpm: mosmlpm: unknown option: "-x".`, and already `mosmlpm -o` gives the name twice (C98_prefix_violation, for all command lines).
* **C99** PMCompile.sml:74-76, 212-220: a local declaration opens two scopes but `dropLocal` closes only one, so that it leaves a scope behind. A project file `f local b1 in b2 end b3` therefore does not give f to those that import it (C99_export_violation, for all such files), and an enclosing local declaration drops the wrong scope: in `local a in b local in end end d`, d sees the hidden a and does not see b (C99_nested_violation).
* **C100** PMCompile.sml:98-120: for a source with a signature file the code (.uo) is compared with the source only. If the signature file is changed and compiled, but the source then does not compile, the next run reports success and reuses the old code, which is older than the interface (C100_stale_violation, for all such times).
* **C103** gc_ctrl.c:112-113: gc_get computes `Wsize_bsize (Val_long (size))` where `Val_long (Wsize_bsize (size))` is meant. In every valid state the two sizes come out even, so that the collector takes them for pointers (C103_get_violation).
* **C103** gc_ctrl.c:152-160: gc_set applies the limits of config.h, which are in words, to bytes. A minor heap of an eighth of the minimum can be set and one above an eighth of the maximum cannot; the increment 0 gives 1024 bytes, which is not a whole page as major_gc.c:709 demands; a negative increment, compared as unsigned, gives 2^57 bytes (C103_set_violation, C103_chunk_violation).
* **C104** mosml.c:707-717: sml_getrutime reads the clocks, then allocates its result and then reads gc_time. A collection that this allocation causes counts as collection but not as user time, so that Timer.checkCPUTimes may report a negative time outside collections (C104_nonneg_violation).
* **C105** lex/Scan_aux.sml:53-57, Scanner.lex:88-95: the code of an escape like `\256` is given to Char.chr before it is compared with 256. Chr is raised, which Mainlex.sml:57-69 does not handle, and the error "character code in string > 255" is never reported (C105_code_violation, C105_code_never).
* **C106** lex/Scanner.lex:81: in the strings of an action mosmllex does not know the escapes `\a`, `\v`, `\f` and `\u`, which the compiler accepts (compiler/Lexer.lex:361, 378). An action with such a string is rejected with "ill-formed escape sequence in string" (C106_escape_violation).
* **C105** lex/Scanner.lex:122-125: a control character (or the character 127 or 255) in a character constant is meant to be an error, but the rule for a character with the closing quote matches more, so that it is accepted in every complete constant (C105_invalid_violation). Codes above 255 raise Chr there too (C105_charcode_violation).
* **C103** gc_ctrl.c:125-131: with a negative increment in CAMLRUNPARAM (main.c:207), of at least a page, the comparison with the unsigned limits makes it 2^57 words, so that the program does not start for lack of memory, instead of the minimum (C103_init_violation).

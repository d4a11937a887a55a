{
 "C02": [
  "partial",
  "false for exactly one bit pattern (2^-255), proved by C02_float_round_trip_fails; true for every other pattern"
 ],
 "C03": [
  "proved",
  "the float 2^-255 is excluded (see C02)"
 ],
 "C06": [
  "partial",
  "right shift of a heap Integer with more than 2^32-1 bits by more than 2^32-1 returns 0/-1: C06_shr_fails"
 ],
 "C07": [
  "partial",
  "exact-or-error proved for all n>=0; completeness and negative exponents only within the ranges stated; the counterexamples are the theorems ending in _fails, _rejects, _panics"
 ],
 "C13": [
  "proved",
  "for every raw table satisfying the Table contract; SwissTable itself is assumed to satisfy it"
 ],
 "C38": [
  "partial",
  "propagation proved for maps of at most eight entries; C38_large_map_swallows_exception shows that larger maps lose the exception and store a duplicate key"
 ],
 "C11": [
  "proved",
  "for every eql?/hash pair meeting the contract and every table meeting the Table contract; Hash default procs and user-visible dup of singleton state are not modelled"
 ],
 "C12": [
  "proved",
  "for nested traversals, and any order of release of up to three; C12_unnested_traversal_is_not_protected shows the guard is lost when four enumerators over a small Hash end out of order"
 ],
 "C14": [
  "proved",
  "for every legal history (stores of reachable references, through the barrier for promotable kinds); that every store site in the interpreter and JIT calls the barrier is not modelled"
 ],
 "C15": [
  "proved",
  "for every state a legal history reaches, including marking past the recursion limit"
 ],
 "C16": [
  "proved",
  "C16_arena_overrun: page numbers are not bounded by the arena size, so a program that keeps more than 2 GiB of cells is given memory past its end"
 ],
 "C17": [
  "partial",
  "replay of every history, the MT19937 recurrence and 'equal instances agree' are proved; that equal instances have drawn the same amount is proved modulo 624 only (the rest needs the period); C17_equality_ignores_sign and C17_reentrant_draw_is_lost are defects found"
 ],
 "C18": [
  "proved",
  "for every source of words; uniformity over finite word sequences including rejected attempts"
 ],
 "C39": [
  "proved",
  "draws are an input; C18 gives their bounds and uniformity"
 ],
 "C40": [
  "proved",
  "for a receiver that does not change during the draws; C40_shrunk_receiver_panics shows an out-of-bounds index when a user-defined rand shortens it"
 ],
 "C41": [
  "partial",
  "fixnum ends only; C41_kernel_rand_all_fixnums_is_nil and C41_random_rand_wide_range_never_nonnegative show the failures at extreme ranges"
 ],
 "C19": [
  "proved",
  "Over every history of lock acquisitions (read-phase lookups and write-phase interning by any threads, interleaved in any order) from the initial table: one Symbol per name and one name per Symbol, names and encodings read back unchanged later, the pre-registered ids and the special-globals range check are right, to_sym and to_s are inverse. Interning panics only when all 2^32-1 ids are taken. Std HashMap and RwLock are trusted."
 ],
 "C42": [
  "partial",
  "Refuted in general: C42_invalid_name_argument_differs and C42_marshal_invalid_differs show a String whose bytes are not valid UTF-8 naming a different Symbol than to_sym. C42_name_argument_iff_partial says exactly which Strings agree."
 ],
 "C43": [
  "partial",
  "Proved for text Symbols. Refuted for binary ones: same bytes under two encodings compare equal (C43_comparison_ignores_encoding), names a lossy conversion confuses share attr names (C43_binary_derived_names_collide); all_symbols also lists five Symbols no name denotes (C43_all_symbols_lists_phantoms)."
 ],
 "C20": [
  "proved",
  "IO#write, flush and sync= proved for every history of attempts and OS answers. write_nonblock, which the statement does not mention, bypasses the buffer and overtakes it (C20_write_nonblock_overtakes)."
 ],
 "C21": [
  "proved",
  "The buffered reader refines an unbuffered file for every history of reads, peeks and seeks and every OS answer."
 ],
 "C44": [
  "partial",
  "read, getbyte, gets with separator/limit/paragraph mode, ungetc, eof?, readpartial: nothing lost under any interrupts on files, pipes and popen. Fails (proved): bare gets interrupted twice, getc parked inside a character, standard input, sysread after a buffered read."
 ],
 "C45": [
  "partial",
  "One file, one position for every history in which no write directly follows a buffered read. Fails (proved): such a write lands at the read-ahead offset; seek/rewind keep ungot bytes."
 ],
 "C22": [
  "partial",
  "any interleaving of handlers, polls, ticks: a recorded signal stays pending until drained, always stops the next poll site, is delivered at most once per arrival, lowest first. Fails (proved): a signal drained together with a lower-numbered one is dropped."
 ],
 "C23": [
  "proved",
  "each request's state is decided by the operations on that request alone, in any order; a collection request survives until a collection; requests only ever reach the word of a live interpreter."
 ],
 "C28": [
  "partial",
  "every calculation tree of + - * / neg abs on any operands is exact over Mathlib's Rat, in lowest terms; ==, <=> agree with the numbers; ** exact for exponents below 2^32. Fails (proved): exponents are cut to 32 bits; != with a big Integer is always true."
 ],
 "C29": [
  "partial",
  "floor, ceil, truncate, round to any digits below 2^32 against floor/ceil on Mathlib's Rat, where they hold. Fails (proved): round of every negative number past the half is one too large; floor/ceil/round half down/even with negative digits truncate first; digit counts are cut to 32 bits."
 ],
 "C30": [
  "partial",
  "Stern-Brocot search terminates and returns the simplest fraction, unique, for every interval without zero; Rational#rationalize also with zero. Fails (proved): Float#rationalize(eps) never returns 0 when the interval contains it. Float eps for Rational#rationalize is not modelled."
 ],
 "C46": [
  "partial",
  "to_r exact for every finite non-zero double; rationalize simplest within half an ulp below 2^53 and exact from 2^54. Fails (proved): off by one for every Float in [2^53, 2^54)."
 ],
 "C32": [
  "proved",
  "Every fixed-width directive with every modifier, *, counts and single values; byte order stated on the digits of the number; missing values and too few arguments. F32 directives are not modelled."
 ],
 "C33": [
  "partial",
  "R and r round-trip and are self-delimiting over their whole domains; w is self-delimiting for every size but (proved) reading returns another number for every Integer from 2^63 on."
 ],
 "C34": [
  "proved",
  "m, u, M with no count, * and every count; H, h, B, b, whose text is also specified digit by digit."
 ],
 "C35": [
  "proved",
  "Round trip for every number up to 0x1fffff (all code points); agrees with UTF-8 as Lean's String encodes it; prefix-free over everything pack accepts. Also proved: numbers from 0x200000 on are written in forms unpack refuses."
 ],
 "C47": [
  "proved",
  "Templates built from integer, double, string, hex, bit, UTF-8, BER, LEB and skip fields with counts."
 ],
 "C48": [
  "partial",
  "m0 is RFC 4648; mN has lines of N bytes each when N is a multiple of 3. Fails (proved): any other N is rounded up, not down."
 ],
 "C31": [
  "partial",
  "The matcher decides the documented language (an inductive relation) for every pattern and name and terminates; braces expand to the alternatives of every balanced pattern. Fails (proved): '*.x' matches the hidden name '.x'; a stray '}' disables all later groups."
 ],
 "C36": [
  "partial",
  "Refinement of all histories to maps, with no uninitialised or out-of-range access; copies of objects with a singleton class need their slots to agree with the real class (proved to fail otherwise)."
 ],
 "C37": [
  "partial",
  "eql? of keys is an equivalence on all modelled values; hash agreement proved for values whose inner Hashes have at most one pair or that use Sets, and for the methods on outer Hashes of any size and order. Real failures proved: reordered Hashes as keys or in Arrays, the two zeros, Hash against Set. Cyclic containers and Rational, Complex, Struct, Time are not modelled."
 ],
 "C27": [
  "partial",
  "Proved for every interleaving: each job's result is handed to its own waiter or thrown away exactly once, nothing stays in the tables, the lock is always released, and with one outstanding job per interpreter a completed job's waiter is woken. The last clause fails with two outstanding jobs on one interpreter: C27_lost_wakeup gives the schedule and shows the waiter sleeps on. C27_abandoned_open_leaks: the descriptor of an abandoned open is never closed."
 ],
 "C24": [
  "partial",
  "Proved on schedules without fork in which no timed descriptor wait is ended early by a poll. Outside them the claim is false: a stale deadline queues a thread twice, so a running or dead thread can be queued, and the interpreter then panics (C24_queued_while_running_and_dead, C24_double_entry_panics)."
 ],
 "C25": [
  "partial",
  "For all schedules: a wakeup ends a sleep, the queue is FIFO, a permit is kept until the next sleep consumes it, join waits only for live threads and returns only for the stated reasons. False: a public wakeup before the sleep is lost (as in CRuby), and after a handler raised out of main's park a permit is not armed."
 ],
 "C26": [
  "partial",
  "For all schedules: at most once, queue order, the first interrupt that may be delivered, never while masked, kept until delivered or dead, masks change only by the thread itself, no parked thread has a deliverable interrupt. No delivery after death is proved for processes that have not forked (in a forked child dead-marked threads can run, see C50)."
 ],
 "C49": [
  "partial",
  "Proved for green threads on schedules in which no timed descriptor wait is ended early, and for main on those without errors out of the scheduler loop. Otherwise false: C49_stale_deadline_cuts_sleep, C49_rescued_signal_cuts_next_sleep."
 ],
 "C50": [
  "partial",
  "Proved for threads that were not in the run queue at the fork. False for queued ones: they run in the child, or the child panics; and dead main can run."
 ],
 "C51": [
  "partial",
  "Proved for the object graphs described by Fine (Integers of 31 bits or Bignums, Symbols and Strings in UTF-8, US-ASCII or binary, Arrays, Hashes, Structs, objects, Ranges with immediate ends, subclasses, modules, variables, any sharing and cycles). False in general: ten counterexamples are proved."
 ],
 "C52": [
  "proved",
  "For dumps below 2 GiB."
 ],
 "C53": [
  "partial",
  "Proved for bytes below 128 other than C. False in general: negative lengths and C around an immediate panic, C can put any class on any payload."
 ],
 "C54": [
  "proved",
  "Truncation: for every value whatsoever that dump accepts (dumps below 2 GiB, the format's own bound on lengths). Trailing bytes: for all data."
 ],
 "C55": [
  "proved",
  "All reachable hierarchies, classes as receivers' classes."
 ],
 "C56": [
  "partial",
  "Order and success only for new modules and receivers without prepended modules; otherwise the code breaks the property (five counterexamples)."
 ],
 "C57": [
  "partial",
  "For modules new to the receiver; in general false (counterexample)."
 ],
 "C58": [
  "partial",
  "In front of the receiver for new modules; includers without prepended modules get the module itself. In general false (two counterexamples)."
 ],
 "C59": [
  "partial",
  "For fewer than 2^32-2 operations, without Class.allocate; both exceptions are counterexamples."
 ],
 "C60": [
  "partial",
  "Bodies in one place, or nearest definition behind the k-th place; an undef behind one of several places is skipped (counterexample)."
 ],
 "C61": [
  "partial",
  "Ancestors without prepended modules, in front of Object; counterexamples for the rest."
 ],
 "C62": [
  "proved",
  "Every operation of the model, every history."
 ],
 "C63": [
  "partial",
  "Classes in general, modules against modules not included in Object; M < Object is true for every module (counterexample)."
 ],
 "C64": [
  "partial",
  "Classes without prepended modules and methods with a definition; with a prepended definition the declaration has no effect, and a removed definition keeps being called (counterexamples)."
 ],
 "C65": [
  "proved",
  "Positional placement for methods and blocks, pinned by a uniqueness theorem stated without the binder."
 ],
 "C66": [
  "partial",
  "Fast path, simple and yield routes agree in general; send with a splat, native calls and compiled calls agree with the exclusions shown by the _fails theorems. The compiled array-expanding yield and trailing-splat copy are not modelled."
 ],
 "C67": [
  "partial",
  "Keyword binding for literals written before ** operands with the same key; the _fails theorems give the excluded cases."
 ],
 "C68": [
  "proved",
  "Single-array expansion and to_ary coercion of block arguments."
 ],
 "C69": [
  "partial",
  "Any chain of ruby2_keywords delegates; final callee is a method without **nil, no flagged hash among the positional values."
 ],
 "C70": [
  "partial",
  "Any chain of ... forwards, lazy or materialised; final callee is a method, no flagged hash among the values."
 ],
 "C71": [
  "proved",
  "Arity against the accepted argument counts, for methods without keyword parameters."
 ],
 "C72": [
  "partial",
  "Straight-line bodies without the hazards of Op.safe. Counterexamples: C72_copy_fails, C72_div_fails."
 ],
 "C73": [
  "partial",
  "As C72. Counterexample: C73_spill_fails."
 ],
 "C74": [
  "partial",
  "All operators, all operands, except -2^62 / -1 (C74_div_fails)."
 ],
 "C75": [
  "partial",
  "All forms; variable >> by a negative amount is wrong at the first overflowing amount (C75_shr_fails), proved for all other amounts."
 ],
 "C76": [
  "proved",
  "All operators and orders including NaN; float operators for all register placements the allocator produces."
 ],
 "C77": [
  "partial",
  "Missing: bodies in which at the end of a branch two variables share a float register, or a literal variable is in a register after the merge (C77_clobber_fails and C77_swap_fails: with either, a variable gets another's value); loops, conditions known at compile time, other bytecodes."
 ],
 "C78": [
  "partial",
  "Round trip for all values with Integers of 62 bits and finite Floats, any strings, nesting, keys; float formatting is a parameter. Missing: larger Integers, which come back as Strings (C78_bignum_fails)."
 ],
 "C79": [
  "partial",
  "Every RFC 8259 text with 64-bit integers is parsed to its value; accepted texts without backslashes start with a JSON value. The rest is false: trailing text, leading zeros, raw control characters, unknown escapes, \\u+041 are accepted, big integers become Floats, a character after a high surrogate is lost, nesting is unlimited (the _fails theorems)."
 ],
 "C80": [
  "partial",
  "What is written is a JSON text standing for the value, for small Integers and finite Floats and any strings. Non-finite Floats are written as non-JSON (C80_nonfinite_fails); Integers beyond 62 bits become strings (C78_bignum_fails)."
 ],
 "C81": [
  "partial",
  "For every body of the fragment Ok the compiled code ends as the language says, ensure clauses run once (simulation by induction over the semantics). False outside: an exception in else skips ensure; an ensure clause that raises during return runs twice; retry inside an inner region skips its ensure; break in an ensure clause copied for a return leaves the wrong loop (the _fails theorems)."
 ],
 "C82": [
  "partial",
  "First match, no match, else and retry hold for the fragment. False: a clause that does not match still assigns its variable (C82_bind_fails); a clause catches exceptions raised by its own region's ensure clause during return (C82_own_ensure_fails)."
 ],
 "C83": [
  "partial",
  "Holds for the fragment, with any deferred unwindings of other frames left alone. False: a region without ensure inside one with ensure (C83_rescue_inside_fails), a region inside an ensure clause (C83_nested_fails), an ensure clause that leaves by break or return (C83_override_fails, and across calls C83_other_frame_fails)."
 ],
 "C84": [
  "partial",
  "Holds for operands computed into a fresh temporary. False for a local variable assigned by the ensure clause (C84_local_fails) and for assignment expressions (C84_assign_fails)."
 ],
 "C85": [
  "partial",
  "C85_bare, C85_bare_missing, C85_path, C85_path_from, C85_private prove the lookup rule; const_get with a path does not see inherited constants (C85_const_get_fails), C85_const_get_partial covers a single name."
 ],
 "C86": [
  "partial",
  "C86_fresh_partial for all histories of plain operations; the code departs from the property for class/module keywords, autoload registration, const_missing, private_constant, deprecate_constant and a class body run for two classes (C86_*_fails)."
 ],
 "C87": [
  "partial",
  "C87_fold_partial for all histories of plain operations and salvages; C87_class_keyword_fails shows the stale fold after a class definition."
 ],
 "C88": [
  "partial",
  "C88_defines, C88_defines_last, C88_raises, C88_silent, C88_once; const_get swallows the file's exception (C88_const_get_fails)."
 ],
 "C89": [
  "partial",
  "C89_shared_partial: every run equals the environment semantics; without Integers as blocks, binding only where no block was given, x86-64. C89_binding_fails and C89_aarch64_fails show the code departs otherwise."
 ],
 "C90": [
  "partial",
  "C90_yield_partial for all depths and histories under the conditions of C89; C90_integer_fails (f(&65537)), C90_binding_yield_fails (eval of yield after the method ended)."
 ],
 "C91": [
  "partial",
  "C91_return_partial and C91_lands_partial for ensure clauses that make no closure; C91_ensure_fails, C91_target_fails show the return is swallowed or passes its target otherwise."
 ],
 "C92": [
  "partial",
  "C92_mutual_exclusion and C92_returns_holding (normal returns) for all runs, with interrupts. Missing: an interrupted ConditionVariable#wait can raise without the mutex (C92_wait_interrupted_fails)."
 ],
 "C93": [
  "partial",
  "C93_try_lock_partial while no thread has ended holding a mutex; otherwise false although nobody holds it (C93_dead_owner_fails)."
 ],
 "C94": [
  "partial",
  "C94_no_lost_wakeup_partial: runs without interrupts in which no thread ends holding a mutex. Both conditions are needed: C94_owner_ends_fails, C94_woken_interrupted_fails. That a run without new calls comes to rest (fair scheduling) is not proved."
 ],
 "C95": [
  "partial",
  "C95_fifo, C95_outcomes, C95_backed for all runs, with interrupts. An item taken by an interrupted pop is lost (C95_interrupted_pop_fails)."
 ],
 "C96": [
  "partial",
  "C96_no_lost_signal_partial: runs without interrupts; with an interrupt between the insertion and the signal a consumer sleeps while an item is there (C96_push_interrupted_fails)."
 ],
 "C97": [
  "partial",
  "C97_monitor_partial when every enter is made while no other thread is inside; Monitor#enter never waits (C97_enter_fails) and exit without enter is accepted (C97_exit_fails)."
 ],
 "C98": [
  "proved",
  "All index forms, on lists."
 ],
 "C99": [
  "partial",
  "Proved: C99_element_partial, C99_slice_partial, C99_range_partial, C99_replaces_what_is_read, C99_read_back. Disproved for two cases: C99_range_to_ary_fails (a[range] = x does not call to_ary), C99_huge_index_fails (an index beyond what fits in memory is a panic, not IndexError)."
 ],
 "C100": [
  "partial",
  "Proved for all methods but two cases that are disproved: C100_slice_range_fails (slice!(range) with a range that starts behind the array returns [] instead of nil), C100_fill_range_fails (fill with an empty range behind the array lengthens it)."
 ],
 "C101": [
  "partial",
  "Proved: completeness, order and enumerator size for all five. Missing: permutation when the block changes the size of the receiver (C101_permutation_shrunk_fails), product above 1,000,000 elements (C101_product_raises, C101_product_fails)."
 ],
 "C102": [
  "partial",
  "Proved: find-minimum for arrays, integer ranges with all kinds of ends, float ranges; find-any for integer ranges. Disproved: C102_array_find_any_fails (Array#bsearch goes the wrong way), C102_float_zero_fails (exclusive end 0.0 gives -0.0; 0.0..-0.0 is empty). For float ranges find-any is not stated."
 ],
 "C103": [
  "partial",
  "Proved for blocks that leave the array alone, with exceptions (C103_keep_partial, C103_filter); no panic for blocks that do not shrink it (C103_no_panic_partial). C103_shrunk_fails: a block that shrinks the array brings the process down."
 ],
 "C104": [
  "partial",
  "Proved for blocks that leave the array alone; C104_map_shrunk_fails: a block that shrinks the array leaves nils at the end."
 ],
 "C105": [
  "partial",
  "C105_flatten is complete for flatten without a level; C105_flatten_level_partial for arrays without recursion; C105_flatten_level_fails: a level does not help with a recursive array. Elements with to_ary are not modelled."
 ],
 "C106": [
  "partial",
  "Proved for receivers that are instances of a core class itself and for redefinitions made in that class (or hidden behind it); redefinition marks exactly the named pair. Fails for modules prepended to a core class, operators redefined in an ancestor (!, nil ===), subclasses and singleton classes of String, private operators, and Method#[]."
 ],
 "C107": [
  "partial",
  "Proved where != is the program's own or that of Integer, Float, String or BasicObject, two fixnums with a redefined Integer#== excepted. Fails for two fixnums with a redefined ==, for Symbol, and for classes including Comparable (whose != asks <=>)."
 ],
 "C108": [
  "partial",
  "Proved for redefinition by def/define_method/alias with no dependent frame suspended in another fiber, and direct calls that go where ordinary calls go (always on aarch64); other units keep their code; redefined operators are never assumed again. Fails for direct calls on x86-64, for remove_method/undef from a compiled frame, and for frames suspended in other fibers."
 ],
 "C109": [
  "partial",
  "Proved for all Integer subjects when no literal is repeated in two branches; compiled code agrees with the interpreter. Fails for a repeated literal (the later branch runs) and for a Float subject equal to a literal (else runs). A redefined Integer#=== is not consulted either (not modelled)."
 ],
 "C110": [
  "partial",
  "Proved for exponents and moduli that are machine integers, other than the least one, and (e, m) other than (0, 1). Fails: pow(0, 1) is 1; the modulus -2**63 gives a result out of range; any bignum exponent or modulus raises RangeError."
 ],
 "C111": [
  "partial",
  "Proved for up to 2**32 - 1 digits (round: 2**30, its range). Fails: floor, ceil and truncate cut the number of digits to 32 bits, so -2**32 digits change nothing; round refuses digits from 2**30 on that the others accept."
 ],
 "C112": [
  "proved",
  ""
 ],
 "C113": [
  "proved",
  "The decimal text of format! and BigInt's Display is taken to have the digits of the same loop."
 ],
 "C114": [
  "partial",
  "Proved for positions that are immediates or machine integers; fields of 64 bits or more of a negative immediate, and small fields of an immediate at positions outside -63..63 given as a range, excepted. Fails there: (-1)[0, 64] is negative, 1[64..65] is 1, (-1)[2**64] is 0, and bounds that are not machine integers raise RangeError."
 ],
 "C115": [
  "partial",
  "Proved for quotients in the normal range or above it when one operand needs more than 53 bits (the other path is one hardware division of exact operands, not modelled). Fails below the normal range: the quotient is rounded twice, (2**60+1).fdiv(2**1135) is 0.0."
 ],
 "C116": [
  "proved",
  "Strings made by ISO-2022-JP decoding only through the decoder's verdict."
 ],
 "C117": [
  "partial",
  "Proved for programs whose steps satisfy `fine`; a true answer to ascii_only? is then right. Fails: parts cut from and splices into non-ASCII strings deny ascii_only?; reversing or repeating a broken string keeps it broken; `<< 97` on UTF-16 and `<< 233` on US-ASCII keep a valid string valid; compiled `<<` on a broken Shift_JIS string disagrees with the interpreter; ljust on an empty UTF-16 string and interpolation of a UTF-16 string with an object claim validity."
 ],
 "C118": [
  "partial",
  "Proved except ISO-2022-JP; slices for positions and lengths below 2**62. Fails: s[i, 0] is always UTF-8; s[1, 2**62-1] on UTF-32 wraps to a range that ends before its start; UTF-16 surrogate pairs count as two characters."
 ],
 "C120": [
  "partial",
  "Full in terms of the answers of ascii_only?; validity and characters for `fine` programs. Fails: a one-letter ASCII string cut from a non-ASCII one cannot be joined with Shift_JIS text."
 ],
 "C121": [
  "partial",
  "UTF-8, US-ASCII, EUC-JP and Shift_JIS, without a block. Fails: UTF-16 and UTF-32 strings are returned unrepaired."
 ],
 "C122": [
  "proved",
  "Pad in the encoding of the receiver; ISO-2022-JP not modelled."
 ],
 "C119": [
  "partial",
  "Proved for all programs without the operations in `excluded`. Fails: methods that write without the frozen check (unicode_normalize!, IO#pread/sysread/read_nonblock with a frozen buffer, primitive_convert, recv) change or free what slices see; String#replace and initialize store a view into an old string without a write barrier, so that the next minor collection leaves it dangling; the snapshot of a view whose encoding was forced has the old encoding."
 ],
 "C123": [
  "partial",
  "each, to_a, size, reverse_each, first(n), min, max, min(n), max(n), times/upto/downto proved for all Integers; last(n), count, map, min/max with a block for inline endpoints. Fails: those raise RuntimeError 'not supported' on big integers (C123_big_last_fails); a fractional begin makes max and max(n) return Integers below the begin (C123_fractional_begin_max_fails)."
 ],
 "C124": [
  "partial",
  "Block iteration proved for all Integers; the sequence object for inline begin, end and step. Fails: big integers turn the terms of first(n) and last into Floats (C124_big_terms_fails), size is clamped to 2**63-1 (C124_size_clamped_fails), first of an empty sequence is its begin (C124_first_of_empty_fails). Float sequences not modelled."
 ],
 "C125": [
  "partial",
  "Fails: an exclusive end of -1 with a negative step becomes position 0 (C125_exclusive_last_fails; CRuby's code does the same). Endpoints outside the array are covered only by C125_never_outside."
 ],
 "C126": [
  "proved",
  "Over Integer and nil endpoints; the endless exclusive/inclusive exception is in the statement (C126_endless_exclusive)."
 ],
 "C127": [
  "partial",
  "tr place by place proved for sets without backslash, - and ^; the other clauses for all arguments. Fails: a replacement that begins with ^ is read as a negated set (C127_caret_in_replacement_fails)."
 ],
 "C128": [
  "partial",
  "Odometer, decimal, increase, byte counting for all strings of letters and digits; suffix rule when only letters and digits precede it. Fails: 'a-9>'.succ is 'b-0>' although 'a-9'.succ is 'a-10' (C128_suffix_fails); succ of a string ending in U+10FFFF or U+D7FF panics (C128_last_code_point_fails)."
 ],
 "C129": [
  "partial",
  "each characterised and proved to end for a begin of letters and digits; upto agrees for equal lengths. Fails: 'a'.upto('bb') and ('a'..'bb').each differ (C129_upto_letters_fails), also '9'.upto('11') (C129_upto_digits_fails); ('a'...'b!').minmax never returns (C129_minmax_fails)."
 ],
 "C130": [
  "partial",
  "index, byteindex, byterindex, rpartition for all arguments; rindex for the default offset and for needles without overlaps with themselves. Fails: 'aaa'.rindex('aa', 0) is nil (C130_rindex_fails); 'あ'.partition(\"\\xE3\") loses bytes (C130_partition_fails)."
 ],
 "C131": [
  "partial",
  "All clauses on UTF-8 receivers. Fails: split('', n) past the number of characters depends on the encoding (C131_split_chars_encoding_fails); lines(\"\\n\", chomp: true) keeps \\r (C131_lines_explicit_newline_fails); 'hellollo'.chomp('llo') removes two (C131_chomp_separator_fails)."
 ],
 "C132": [
  "partial",
  "Bytes come back for every string and encoding; also through inspect in UTF-8 when nothing above ASCII is shown as itself. Fails: undump always gives UTF-8, and UTF-16LE and UTF-16BE dumps look the same (C132_encoding_fails); inspect of binary and US-ASCII strings leaves #{ unescaped (C132_inspect_no_interpolation_fails)."
 ],
 "C133": [
  "partial",
  "Round trip for every Integer and radix 2..36; to_i, hex, oct on every text of the documented form; 0 without digits. Fails: white space after the sign or prefix is skipped, so '- 5'.to_i is -5 (C133_space_fails); a second sign is dropped or counted depending on the size of the number (C133_signs_fails); sum(0) is 0 (C133_sum_fails)."
 ],
 "C134": [
  "proved",
  "Every chain of sixteen kinds of stage; sources and blocks as functions on a world. One value per yield, blocks do not raise, zip with Arrays."
 ],
 "C135": [
  "partial",
  "All proved over every source and block, except: slice_before / slice_after with a nil pattern raise (C135_boundary_nil_fails); minmax without a block walks the source twice, so a source that can be read once has no maximum (C135_minmax_once_fails); zip reads all of its argument first, so an endless argument hangs (C135_zip_lazy_fails)."
 ],
 "C136": [
  "partial",
  "Exact on whole Floats (rounding is not modelled). Fails: infinity followed by anything gives NaN (C136_sum_infinite_fails)."
 ],
 "C137": [
  "partial",
  "Algebra, order, comparison, hash, filters, map, classify, flatten proved for all sets. Fails: dup of an identity set merges eql? elements (C137_dup_identity_fails), divide groups by the object id of the block's result (C137_divide_fails), reset does nothing (C137_reset_fails). Not modelled: subclasses, frozen sets, divide with two parameters, blocks that raise."
 ],
 "C138": [
  "partial",
  "Operators, ==, clamp over any linear order proved. Fails: != raises where <=> gives nil (Time.now != nil) and ignores a user-defined == (C138_ne_fails, C138_ne_own_eq_fails); clamp takes one plain bound (C138_clamp_one_fails) and raises NoMethodError on incomparable bounds; between? asks the bound, not self (C138_between_fails). Results of <=> that are Floats are not modelled."
 ],
 "C139": [
  "partial",
  "new by position and keyword, access by index and name, assignment, dig, deconstruct_keys, ==, !=, hash proved for members that are Symbols. Fails: keyword_init is lost in subclasses, keyword_init: false ignored, String keys dropped, a String member kills the process, members named size/members break access, user-defined readers seen by to_a, members gives the class's own array, initialize changes a frozen struct, NaN (the C139_..._fails theorems). Not modelled: recursive structs, inspect, user-defined writers, values_at."
 ],
 "C140": [
  "partial",
  "Proved for classes without a member named class. Fails: such a class cannot be instantiated (C140_class_member_fails), initialize changes a frozen object (C140_frozen_fails), members gives the class's own array (C140_members_shared_fails). Not modelled: user-defined initialize, to_str keys."
 ],
 "C141": [
  "partial",
  "Exact but for Fixnums above 2^53 with Floats, which are rounded first (C141_equal_fails); even then never the wrong way round (C141_never_reversed)."
 ],
 "C142": [
  "partial",
  "Reads, overtaking, assignment, frame, names, removal proved. Fails: defined?(@@x) and class_variable_defined? say true for an overtaken variable whose read raises (C142_defined_fails), class_variable_set ignores overtaking (C142_set_overtaken_fails), @@x ||= v (C142_or_assign_fails), class_variable_set on a singleton class (C142_singleton_set_fails), frozen classes are written to (C142_frozen_fails)."
 ],
 "C143": [
  "partial",
  "Order, equality, hash, Time.at, add/sub inverse, translation and rounding proved. Fails: Time - Time more than 292 years apart kills the process (C143_diff_fails); t + n refuses more than 292 years (C143_far_fails) and kills the process past the range (C143_add_range_fails); parts finer than a nanosecond are dropped at each step (C143_fine_fails); Time != nil raises (C143_ne_fails); precision over 9 refused. Float arguments and results are not modelled."
 ],
 "C144": [
  "partial",
  "Calendar, construction, offsets proved. Marshal round trip for 1900..67435. Fails: years before 1900 come back as 67435 (C144_year_fails); a wall clock in a gap of the local zone cannot be loaded (C144_gap_fails); hour 24 refused (C144_hour24_fails); colons accepted anywhere in an offset (C144_colons_fails). chrono's calendar is modelled by its documented meaning; strftime apart from offsets, whole-time parsing and the zone database are not modelled."
 ],
 "C145": [
  "partial",
  "join, basename, dirname, expand_path proved for all names. Fails: extname of a name with a slash at its end is empty and basename(.., '.*') cuts a basename that begins with two dots (C145_ext_fails); basename('.rb', '.rb') is empty (C145_suffix_fails); absolute_path of a relative directory is relative, and '..' stays in it (C145_absolute_fails); the system is asked for a name with '..' taken out by text, an empty one for 'a/..', and without the slash at its end (C145_system_fails); File.split('/') and names with '..' (C145_split_fails). Encodings and NUL bytes are not modelled."
 ],
 "C146": [
  "proved",
  "All names. Symbolic links are not seen by cleanpath (documented). cleanpath(true) is not modelled."
 ],
 "C147": [
  "partial",
  "Integer parts: the Gaussian integers (C147_ring_partial, C147_pow_partial); division, negation, a Rational on the right, numerator and denominator: all exact parts. Fails: a Rational part becomes a Float under +, -, *, conjugate, abs2, and so does a Rational on the left (C147_rational_fails, C147_rational_side_fails), so a quotient times its divisor is not the dividend (C147_quotient_fails); a negative power is Floats (C147_pow_fails); == compares Rational parts as Floats (C147_eq_fails); <=> with a Rational is nil (C147_cmp_fails). Float exponents, polar form and Float rounding are not modelled."
 ],
 "C148": [
  "partial",
  "All files and separators without a limit, and with a limit for a non-empty separator in a single-byte encoding (C148_gets_partial). Fails: with the limit 0 and a file that is not empty it never returns (C148_limit_zero_fails); the limit is ignored with a nil or empty separator (C148_limit_ignored_fails); a limit cuts a character (C148_limit_char_fails)."
 ],
 "C149": [
  "partial",
  "All Hashes and all blocks that do not change the Hash they are called for. Fails: delete_if, keep_if, select! and reject! take nothing out if the block raises or breaks, also what it had answered for (C149_delete_if_raise, C149_delete_if_fails; Ruby removes as it goes); min_by passes over nil for the first entry where Ruby raises ArgumentError (C149_min_by_fails). C149_transform_keys_bang_order_fails only notes that the order of transform_keys! can differ from transform_keys (it does in Ruby too). Defaults, compare_by_identity and subclasses are not modelled."
 ],
 "C150": [
  "partial",
  "Members are finite and do not raise. Fails: produce without an initial value lets a StopIteration of the first call out of each, because that call is before the loop that catches it (C150_produce_fails)."
 ],
 "C151": [
  "partial",
  "Without keywords for composition, without required keywords and for n >= 0 for curry. Fails: a composition hands keywords to the first callable as a Hash (C151_compose_keywords_fails); a lambda with a required keyword cannot be curried, its own arity is refused (C151_curry_keyword_fails); a negative arity is accepted (C151_curry_negative_fails)."
 ],
 "C152": [
  "partial",
  "The matcher of one segment is a parameter (C31); the tree does not change during the walk; order, doubled slashes and .. in the exact statement are left out. Fails: a pattern with two ** returns paths more than once (C152_once_fails); file/. and file/../other are returned although there is no such path (C152_exists_fails)."
 ],
 "C153": [
  "partial",
  "Forms with a Regexp or a String to look for are left out; encodings are in C118-C120. Fails: slice!(0...0) removes the whole string, an endless Range is refused by slice! and bytesplice, a Range that ends before the beginning gives nil (C153_slice_range_fails, C153_byteslice_range_fails, C153_bytesplice_range_fails); s.concat(s, s) appends the changed s (C153_concat_fails); frozen strings raise nothing if there is nothing to do (C153_frozen_fails); delete_suffix!(\"\") returns self (C153_delete_empty_fails); bytesplice accepts an offset within a character of the source (C153_bytesplice_source_fails)."
 ],
 "C154": [
  "partial",
  "Exact for programs without transfer, and for the first transfer of a program (to an unstarted fiber also its end). One thread; stacks and registers are left out. Fails with transfers: the end of a fiber can lead to one that has ended (C154_return_fails), the root can be resumed from a fiber it transferred to (C154_resume_root_fails), a fiber once transferred to cannot be resumed after it yielded (C154_resume_after_transfer_fails)."
 ],
 "C155": [
  "partial",
  "The iteration is a machine that starts again in the same state; the source's own rewind is left out. Fails: the Array that peek returns is the one next returns later, so changing it changes the element (C155_peek_fails); a value fed to an iteration that yields nothing stays after the end (C155_feed_fails)."
 ],
 "C156": [
  "partial",
  "Exact for the reading of format strings and for two's complement; the field of an Integer outside the cases below, the field of an ASCII String. Floats, %c, %p, %{} and %<> and numbered references are left out. Fails: the 0 flag is not turned off by a precision (C156_zero_precision_fails), the prefix of a signed negative octal number comes before the zeros of the precision (C156_octal_prefix_fails), the width counts bytes (C156_width_fails)."
 ],
 "C157": [
  "partial",
  "hash and eql? agree (a class for each element); arrays that contain themselves, conversions and callbacks that change the array are left out. Fails: uniq! that raises has moved elements (C157_uniq_raise_fails), with a block it has lost one (C157_uniq_block_raise_fails); transpose does not refuse longer rows behind an empty first row (C157_transpose_fails); values_at passes over a range that begins before the array (C157_values_at_fails)."
 ],
 "C158": [
  "proved",
  "Clauses stand in methods of their own; several clauses in one method, where an ensure clause can be skipped, are in C83. Values and tags are numbers, tags compared by identity."
 ],
 "C159": [
  "proved",
  "Handlers register finitely many handlers. Finalizers, an uncaught SignalException and Threads that are stopped at exit are left out."
 ],
 "C160": [
  "partial",
  "Proved for every program without Fiber#raise and Thread#raise. With them it is false: they take $! as the cause without looking for a circle (C160_remote_fails), after which the next error raised in the rescue hangs (C160_remote_hangs_fails); an explicit cause: is checked too early (C160_late_fails). C160_deliver_partial says which deliveries are safe. An #exception method of the user and the backtrace argument are left out."
 ],
 "C161": [
  "partial",
  "False for the numbers with order: :bottom, which count the wrong way (C161_numbers_fails); the rest of that form is C161_bottom_partial. A detailed_message or message defined by the user is left out, as is the choice of the default for highlight:."
 ],
 "C162": [
  "partial",
  "Proved when no new object is put at an address that is in the table. Without that it is false: the table holds addresses and does not keep the objects, so a new object takes over the finalizers of a freed one (C162_lost_fails, C162_shared_fails, C162_inherited_fails). Finalizers that define finalizers and the checks for immediates and frozen objects are left out."
 ],
 "C163": [
  "proved",
  "For files that exist and do not change, and an ARGV that is not changed during the walk. The name `-`, in-place editing, encodings, positioning and separators other than newline are left out."
 ],
 "C164": [
  "partial",
  "All parts are proved but one, which is false: a block of each that breaks leaves the cursor where it was before, so read gives names again that the block had (C164_break_fails; what holds is C164_break_partial). Encodings, for_fd and operations on the Dir inside its own each are left out."
 ],
 "C165": [
  "partial",
  "Proved for the methods that ENV has of its own. For those it has from Hash (clear, delete_if, reject!, select!, keep_if, shift) it is false: they change the Hash only, so that a child still gets the variables (C165_clear_fails, C165_dropped_fails). Conversion with to_str, frozen ENV and names that occur twice in the environment at the start are left out."
 ],
 "C166": [
  "partial",
  "Proved when no redirection changes the source of a later one and [:child, n] comes after the redirection of n. Without that it is false: dup2 is called in the order of the options, so `out: :err, err: :out` sends both to stderr (C166_swap_fails) and `err: [:child, :out], out: file` leaves stderr on the old stdout (C166_child_fails). Parsing of the options and chains of [:child, n] are left out."
 ],
 "C167": [
  "partial",
  "Proved for spawn and exec with arguments, for lines without `#`, `=` and unusual white space, and for system with arguments when the name of the program has no white space and no special characters. Otherwise it is false: system with arguments splits the name of the program or gives it to a shell (C167_system_fails), and assignments before a command, comments and no-break spaces are taken for words or separators (C167_line_fails). Options, environments and [command, argv0] are left out, and the shell is modelled only for lines without special characters."
 ],
 "C168": [
  "partial",
  "Proved but for empty entries of PATH, which are left out instead of standing for the current directory (C168_current_fails). The file system does not change during the walk."
 ]
}
{"id": "C01", "title": "Integers survive being stored in a value", "statement": "Every machine integer that is stored in a Ruby value and read back is the same integer; it is held inline exactly when it lies in [-2^62, 2^62-1] and as a heap Integer otherwise, so equal Integers always have the same representation.", "quantifier": "every 64-bit integer and every arbitrary-precision integer", "why_tests_cant": "there are 2^64 machine words; a test samples a few boundaries", "anchors": ["monoruby/src/value.rs: Value::integer, Value::bigint, Value::is_i63, Value::check_fixnum, Immediate::fixnum, Value::try_fixnum"]}
{"id": "C02", "title": "Floats survive being stored in a value", "statement": "Every 64-bit float bit pattern that is stored in a Ruby value and read back has the same bits (zeros, denormals, infinities and NaN payloads included).", "quantifier": "every 64-bit pattern", "why_tests_cant": "2^64 patterns, and the encoding rotates exponent bits so every exponent class matters", "anchors": ["monoruby/src/value.rs: Immediate::flonum, Value::as_flonum, Value::is_flonum, Value::float"]}
{"id": "C03", "title": "Value kinds never alias", "statement": "A value built as Integer, Float, Symbol, nil, true, false or heap reference is recognised as exactly that kind, two values built from different contents are different words, and only nil and false are falsy.", "quantifier": "every pair of values of every kind, every aligned heap address and every symbol number", "why_tests_cant": "quantifies over all machine words; a collision between two tags would only show for particular payloads", "anchors": ["monoruby/src/value.rs: Value::unpack, Value::is_packed_value, Value::symbol, Value::try_symbol, Value::as_bool, NIL_VALUE, FALSE_VALUE, TRUE_VALUE, TAG_SYMBOL"]}
{"id": "C04", "title": "Integer addition, subtraction, multiplication and negation are exact", "statement": "For Integers a and b, a+b, a-b, a*b and -a are the mathematical results, in canonical representation, whatever mix of inline and heap Integers the operands are.", "quantifier": "every pair of integers of any magnitude", "why_tests_cant": "overflow paths depend on operand magnitudes; infinitely many operands", "anchors": ["monoruby/src/value/numeric.rs: impl Add/Sub/Mul/Neg for RealKind", "monoruby/src/executor/op/binary_ops.rs: add_values_raw, sub_values_raw, mul_values_raw"]}
{"id": "C05", "title": "Integer division and modulo are floored", "statement": "For Integers a and b\u22600: a == b*(a/b) + a%b, a%b has the sign of b and |a%b|<|b|; divmod agrees with both; b=0 raises ZeroDivisionError.", "quantifier": "every pair of integers, both machine-word and arbitrary-precision paths", "why_tests_cant": "the sign cases use shifted truncated division whose correctness is an arithmetic identity over all integers", "anchors": ["monoruby/src/value/numeric.rs: RubyDivMod, RubyDiv, RubyMod", "monoruby/src/executor/op/binary_ops.rs: div_values_raw, rem_values_raw"]}
{"id": "C06", "title": "Shifts multiply and floor-divide by powers of two", "statement": "For Integers a and n, a<<n equals a*2^n for n>=0, a>>n equals floor(a/2^n), and a negative count shifts the other way; when the result is too large an error is raised instead of a wrong number.", "quantifier": "every integer and every shift count, including counts outside the machine word", "why_tests_cant": "shift counts cross several representation limits (63 bits, 32-bit counts, bignum) and all combinations must agree", "anchors": ["monoruby/src/executor/op/binary_ops.rs: shr_values_raw, shl_values_raw, safe_int_shr, safe_int_shl, safe_bigint_shr, safe_bigint_shl"]}
{"id": "C07", "title": "Integer power is exact", "statement": "For Integers a and n>=0, a**n is the exact power, or an error when the result would exceed the size limit; a**-n is the Rational 1/(a**n).", "quantifier": "every base and exponent", "why_tests_cant": "unbounded operands with several internal paths", "anchors": ["monoruby/src/executor/op/binary_ops.rs: pow_ii, pow_values_raw, check_pow_limit"]}
{"id": "C08", "title": "Bitwise operators act on infinite two's complement", "statement": "Bit k of a&b, a|b, a^b is the and/or/xor of bit k of a and b, for every k, with negative Integers read as infinite two's complement, across inline and heap operands.", "quantifier": "every pair of integers and every bit position", "why_tests_cant": "unbounded operands and bit positions", "anchors": ["monoruby/src/executor/op/binary_ops.rs: bitand_values, bitor_values, bitxor_values"]}
{"id": "C09", "title": "Sorting never loses or duplicates elements", "statement": "Whatever the comparison block does - inconsistent answers, answers that depend on earlier calls, or raising in the middle - after sort!/sort_by! the array holds exactly the elements it held before.", "quantifier": "every array, every stateful comparator and every point at which it raises", "why_tests_cant": "the comparator is arbitrary user code with state; the interesting cases are raises inside a merge with elements moved to scratch", "anchors": ["monoruby/src/executor/op/sort.rs: merge_sort, insert_head, collapse, merge, MergeHole"]}
{"id": "C10", "title": "Sorting by a consistent order is correct and stable", "statement": "If the comparison is a consistent weak order that does not raise, the result is in order and elements comparing equal keep their relative order.", "quantifier": "every array and every consistent comparator", "why_tests_cant": "run detection and merge scheduling depend on the shape of the whole input", "anchors": ["monoruby/src/executor/op/sort.rs: merge_sort, insert_head, collapse, merge"]}
{"id": "C11", "title": "Hash behaves as an insertion-ordered map", "statement": "After any history of []=, delete, clear, shift, compare_by_identity, dup and rehash, reading a key returns the last value stored under an equal key since it was last removed, enumeration lists keys in order of first insertion, and size is the number of listed keys - whatever internal representation the history led to.", "quantifier": "every history of operations and every pair of key hash/equality functions that respect the contract, including fully colliding ones", "why_tests_cant": "representations switch at size thresholds and on deletion during iteration; the state space of histories is unbounded", "anchors": ["monoruby/src/value/rvalue/hash.rs: Hashmap insert/remove/get/shift/clear/promote/compact_if_dirty", "rubymap/src/map/core.rs: IndexMapCore"]}
{"id": "C12", "title": "Hash iteration tolerates deletion", "statement": "While a Hash is being iterated, deleting entries never makes the iteration skip or repeat a remaining entry, and inserting a new key raises instead of corrupting the table.", "quantifier": "every history of deletions and stores interleaved with any number of nested iterations", "why_tests_cant": "depends on the interleaving of user code with the internal cursor", "anchors": ["monoruby/src/value/rvalue/hash.rs: Iter, iter_incr, iter_decr, check_iter, live_at, entry_at", "rubymap/src/map/core.rs: tombstone_remove_full, compact_tombstones"]}
{"id": "C13", "title": "The hash index always points at the right entry", "statement": "In the ordered-map library every entry is findable by its key at its own position and nothing else is findable, after any sequence of insert, replace, swap-remove, shift-remove, tombstone-remove, move, reverse, truncate, split, retain and clear.", "quantifier": "every operation history and every hash function, including constant ones", "why_tests_cant": "index maintenance after shifting removals rewrites a variable part of the table", "anchors": ["rubymap/src/map/core.rs: insert_full, shift_remove_full, swap_remove_full, tombstone_remove_full, move_index, compact_tombstones, retain_in_order"]}
{"id": "C14", "title": "Garbage collection never frees a reachable object", "statement": "For every history of allocations, field writes (through the write barrier), root changes and minor or major collections, an object reachable from the roots is never reclaimed and its contents are unchanged.", "quantifier": "every heap graph and every history of mutator steps and collections", "why_tests_cant": "a missed barrier or ageing bug needs a particular object graph aged over several collections", "anchors": ["monoruby/src/alloc.rs: gc, gc_check_and_mark, drain_mark_queue, apply_aging, seed_marks, mark_remembered, filter_remembered, reclassify_remembered, sweep", "monoruby/src/value/rvalue.rs: write_barrier"]}
{"id": "C15", "title": "A full collection frees exactly the unreachable objects", "statement": "After a major collection the objects that remain are exactly those reachable from the roots, however deep the object graph is.", "quantifier": "every heap graph of any depth", "why_tests_cant": "marking switches from recursion to an explicit queue at a depth limit", "anchors": ["monoruby/src/alloc.rs: gc, gc_check_and_mark, scan_children, drain_mark_queue, sweep"]}
{"id": "C16", "title": "The allocator never hands out a cell in use", "statement": "A freshly allocated object never occupies the cell of an object that is still alive, and the free-cell count equals the number of free cells, across page allocation, page salvage and sweeping.", "quantifier": "every history of allocations and collections", "why_tests_cant": "aliasing only occurs for specific page fill and sweep histories", "anchors": ["monoruby/src/alloc.rs: alloc, sweep, salvage_empty_pages, Page"]}
{"id": "C17", "title": "A Random instance replays its stream", "statement": "Drawing from a Random instance gives the stream determined by its seed; a copy made at any moment continues with the same values as the original, and two instances compare equal exactly when they have the same seed and have consumed the same amount.", "quantifier": "every seed and every history of draws and copies", "why_tests_cant": "instances store only a seed and a position and rebuild the generator; equality with a live generator must hold for all positions", "anchors": ["monoruby/src/builtins/random.rs: load_state, mt_at, RandomDraw, inst_eq", "monoruby/src/globals/prng.rs: Mt"]}
{"id": "C18", "title": "Bounded random integers are in range and unbiased", "statement": "rand(n) is always in 0...n for every generator output, for machine-word and arbitrary-precision n; every value in the range is selected by the same number of accepted generator words.", "quantifier": "every bound and every generator word sequence", "why_tests_cant": "range over all generator outputs and bounds", "anchors": ["monoruby/src/globals/prng.rs: rand_int, limited_rand, limited_rand_into, ulong_limited, make_mask"]}
{"id": "C19", "title": "Symbols are interned", "statement": "Interning the same name always yields the same Symbol, different names different Symbols, the name of a Symbol is what was interned, and none of this changes as more names are interned.", "quantifier": "every history of interned names, text or binary with any encoding", "why_tests_cant": "histories are unbounded and include names that collide with pre-registered ids", "anchors": ["monoruby/src/id_table.rs: IdentifierTable::get_id, get_id_from_string, get_id_from_bytes, get_ident_name, set_id"]}
{"id": "C20", "title": "Buffered writes reach the file exactly once and in order", "statement": "At any moment the bytes handed to the OS followed by the bytes still buffered are exactly the bytes accepted by write, in order, whatever short writes, EAGAIN, EINTR or errors the OS produces; a successful flush leaves nothing buffered.", "quantifier": "every sequence of writes and flushes and every sequence of OS responses", "why_tests_cant": "depends on an adversarial schedule of partial writes and interrupts", "anchors": ["monoruby/src/value/rvalue/io/buf.rs: WriteBuf::drain, write, write_direct"]}
{"id": "C21", "title": "Buffered reads return exactly the file's bytes", "statement": "The bytes returned by successive reads are exactly the bytes the OS delivered, in order, without loss or repetition, for any request sizes and any short reads; a relative seek lands where an unbuffered file would.", "quantifier": "every sequence of reads, peeks and seeks and every OS response", "why_tests_cant": "depends on interleavings of request sizes and short reads around the buffer capacity", "anchors": ["monoruby/src/value/rvalue/io/buf.rs: IoReader::read, fill_buf, consume, seek"]}
{"id": "C22", "title": "A signal is never lost", "statement": "Once a signal has been recorded by the handler, some later safepoint delivers it, no matter where between the poll, the clearing of the flag and the draining of the set further signals arrive; every delivery returns a signal that did arrive.", "quantifier": "every interleaving of signal arrivals with safepoint steps", "why_tests_cant": "asynchronous arrival between any two instructions", "anchors": ["monoruby/src/codegen/signal_table.rs: signal_handler, take_pending_signals, lowest_pending_signo", "monoruby/src/poll_flag.rs: set_signal_from_handler, clear_signal"]}
{"id": "C23", "title": "Poll requests do not disturb one another", "statement": "Requesting or clearing a GC, preemption or signal poll never sets or clears either of the other two requests, and the fast path sees zero exactly when none is pending.", "quantifier": "every interleaving of set and clear operations on the three lanes", "why_tests_cant": "concurrent byte writes into one word", "anchors": ["monoruby/src/poll_flag.rs: set_gc, clear_gc, consume_preempt, clear_signal, set_signal_from_handler"]}
{"id": "C24", "title": "The run queue holds each runnable thread exactly once", "statement": "After any history of spawn, pass, sleep, wakeup, join, IO waits, interrupts and thread exits, every runnable thread other than the running one and main is in the run queue exactly once, and no dead or parked thread is.", "quantifier": "every schedule of thread operations", "why_tests_cant": "unbounded interleavings", "anchors": ["monoruby/src/scheduler.rs: spawn, pass, sleep, wakeup_inner, join, wait_fds, interrupt, dispatch, finalize_common"]}
{"id": "C25", "title": "Wakeups are not lost", "statement": "A Thread#wakeup delivered at any time to a live thread, even just before it sleeps, ends (or prevents) its next sleep; a join returns only after the target has finished and never waits for a finished thread.", "quantifier": "every schedule", "why_tests_cant": "the window between deciding to sleep and sleeping", "anchors": ["monoruby/src/scheduler.rs: wakeup_inner, sleep, join, finalize_common"]}
{"id": "C26", "title": "Interrupts are delivered in order and respect masks", "statement": "Interrupts queued on a thread by raise/kill are each delivered at most once, in queue order among those with the same mask timing, never while their class is masked with :never, and are not delivered after the thread has died.", "quantifier": "every history of interrupts, masks and safepoints", "why_tests_cant": "unbounded histories of nested masks", "anchors": ["monoruby/src/scheduler.rs: interrupt_timing, deliverable_index, wake_worthy, take_pending_as_error, interrupt"]}
{"id": "C27", "title": "Offloaded blocking work is neither lost nor leaked", "statement": "Each submitted job's result is obtained by its own waiter exactly once or discarded exactly once, no result of an abandoned job stays in memory after it completes, and a waiter whose job has completed is eventually woken.", "quantifier": "every interleaving of workers, waiters and cancellations", "why_tests_cant": "concurrent interleavings over a shared completion pipe", "anchors": ["monoruby/src/native_pool.rs: submit, try_take, discard, drain, run_blocking"]}
{"id": "C28", "title": "Rational values are kept in lowest terms and computed exactly", "statement": "Every Rational produced has a positive denominator coprime to its numerator; +,-,*,/ and <=> are the exact rational operations, so equality of numbers is equality of representations.", "quantifier": "every pair of rationals of any size", "why_tests_cant": "infinitely many operands", "anchors": ["monoruby/src/value/rvalue/rational.rs: normalize, add, sub, mul, div, cmp"]}
{"id": "C29", "title": "Rational rounding", "statement": "floor, ceil, truncate and round (each half mode) of a Rational to any number of digits return the multiple of 10^-digits that the method's definition demands.", "quantifier": "every rational and every digit count", "why_tests_cant": "infinitely many operands with sign and tie cases", "anchors": ["monoruby/src/value/rvalue/rational.rs: rational_floor, rational_ceil, rational_truncate, rational_round"]}
{"id": "C30", "title": "Rationalize returns the simplest fraction", "statement": "Float#rationalize(eps) returns the fraction of least denominator inside the requested interval, and terminates.", "quantifier": "every interval of rationals", "why_tests_cant": "search depth is unbounded; minimality quantifies over all fractions", "anchors": ["monoruby/src/value/rvalue/rational.rs: find_simplest"]}
{"id": "C31", "title": "fnmatch implements the glob language", "statement": "File.fnmatch? returns true exactly when the name is in the language denoted by the pattern under the given flags, and terminates.", "quantifier": "every pattern and every name", "why_tests_cant": "backtracking over unbounded strings", "anchors": ["monoruby/src/builtins/fnmatch.rs: fnmatch, match_segments, match_segment_chars, match_bracket, expand_braces"]}
{"id": "C32", "title": "Fixed-width pack/unpack round-trip", "statement": "Packing Integers with a fixed-width directive and unpacking with the same directive returns each Integer reduced to that width and signedness, in both byte orders; the packed length is width times count.", "quantifier": "every list of integers, every width, signedness and byte order", "why_tests_cant": "all 64-bit inputs", "anchors": ["monoruby/src/value/rvalue/string/pack.rs: pack, unpack"]}
{"id": "C33", "title": "Variable-length integers round-trip", "statement": "Packing non-negative Integers with w, R or signed Integers with r and unpacking returns the same list; the encodings are self-delimiting so concatenation is unambiguous.", "quantifier": "every list of integers within each directive's domain", "why_tests_cant": "unbounded lengths of encodings", "anchors": ["monoruby/src/value/rvalue/string/pack.rs: ber_encode_value, ber_decode, encode_uleb128, unpack_uleb128, encode_sleb128, unpack_sleb128"]}
{"id": "C34", "title": "Text encodings of binary data round-trip", "statement": "Packing any byte string with m, u, M, H, h, B or b and unpacking it with the same directive returns the same bytes, for every line length.", "quantifier": "every byte string and every line length", "why_tests_cant": "arbitrary data", "anchors": ["monoruby/src/value/rvalue/string/pack.rs: base64_encode, base64_decode, uu_encode, uu_decode, qp_encode, qp_decode"]}
{"id": "C35", "title": "UTF-8 encoding of code points round-trips", "statement": "Encoding any code point with U and decoding returns the same code point and consumes exactly the bytes produced; no encoding is a prefix of another.", "quantifier": "every code point sequence", "why_tests_cant": "all code points and sequences of them", "anchors": ["monoruby/src/value/rvalue/string/pack.rs: utf8_encode_one, utf8_decode_one"]}
{"id": "C36", "title": "Objects' instance variables survive growth", "statement": "Setting an instance variable never changes any other instance variable, and reading an unset one gives nil, however the slot table grows.", "quantifier": "every history of instance-variable writes", "why_tests_cant": "growth happens at capacity boundaries reached by arbitrary histories", "anchors": ["monoruby/src/value/rvalue/ivar_table.rs: MonoVec::push, resize, reserve, RawVec::grow", "monoruby/src/value/rvalue.rs: set_ivar, get_ivar"]}
{"id": "C37", "title": "eql? and hash agree", "statement": "Two values that are eql? have the same hash, so either can be used to find a Hash entry stored under the other; eql? is an equivalence relation.", "quantifier": "every pair and triple of values, nested containers included", "why_tests_cant": "quantifies over all structures of any depth", "anchors": ["monoruby/src/value.rs: ruby_hash, ruby_hash_packed, eql"]}
{"id": "C38", "title": "Exceptions from key comparison propagate out of Hash operations", "statement": "When a key's eql? raises during a Hash lookup or store, the exception reaches the caller and the Hash is left exactly as it was.", "quantifier": "every Hash state and every user-defined eql?", "why_tests_cant": "depends on the size-dependent representation and on arbitrary user code", "anchors": ["rubymap/src/map/core.rs: linear_find, get_index_of, insert_full", "hashbrown/src/raw/mod.rs: find, find_or_find_insert_slot"]}
{"id": "C39", "title": "shuffle is a fair permutation", "statement": "Array#shuffle returns a rearrangement of the array for every generator output, and every rearrangement of distinct elements comes from exactly one sequence of the bounded draws.", "quantifier": "every array and every sequence of generator draws", "why_tests_cant": "fairness is a statement about all n! arrangements and all draw sequences of every length", "anchors": ["monoruby/src/builtins/array.rs: shuffle_inner, Rng::rand_upto"]}
{"id": "C40", "title": "sample takes distinct positions fairly", "statement": "Array#sample(n) returns min(n, size) elements at distinct positions and every ordered selection of positions comes from exactly one sequence of draws, for every n and size (small counts, sparse-map branch, copying branch).", "quantifier": "every array, every n, every sequence of generator draws", "why_tests_cant": "five algorithms chosen by size thresholds must each be a bijection from draws to selections", "anchors": ["monoruby/src/builtins/array.rs: sample_inner"]}
{"id": "C41", "title": "rand over an Integer range", "statement": "Kernel#rand(a..b) and Random#rand(a..b) (also exclusive) return an Integer of the range, chosen like an unbiased rand over its size, and nil exactly when the range is empty.", "quantifier": "every pair of small Integers and every generator output", "why_tests_cant": "the range size is computed in machine words; the extreme ranges are not covered by sampling", "anchors": ["monoruby/src/builtins/kernel.rs: rand", "monoruby/src/builtins/random.rs: inst_rand_op"]}
{"id": "C42", "title": "A name given as a String is the Symbol to_sym makes of it", "statement": "A method that takes a method, variable or constant name as a String or a Symbol (define_method, instance_variable_get, const_get), and Marshal.load of a Symbol, treat a String as naming the very Symbol String#to_sym makes of it.", "quantifier": "every String: any bytes, any encoding, any history of interned names", "why_tests_cant": "the three code paths branch on validity, ASCII-ness and encoding separately; agreement is a statement over all byte strings and encodings", "anchors": ["monoruby/src/value.rs: try_symbol_or_string", "monoruby/src/builtins/string.rs: to_sym", "monoruby/src/builtins/marshal.rs: intern_symbol_bytes"]}
{"id": "C43", "title": "Symbols are told apart by their whole name", "statement": "Symbol#<=> answers 0 only for the same Symbol and orders Symbols totally; attr_reader/attr_writer give different Symbols different instance variables and writers; Symbol.all_symbols lists each Symbol once and only Symbols a name can denote.", "quantifier": "every history of interned names and every pair or triple of Symbols in it", "why_tests_cant": "collisions need two names that some later conversion confuses; the claim is over all pairs of names", "anchors": ["monoruby/src/id_table.rs: compare, add_ivar_prefix, add_assign_postfix, all_symbols"]}
{"id": "C44", "title": "Interrupted reads lose nothing", "statement": "read, getbyte, gets (any separator, limit, paragraph mode), getc, readpartial, eof? and ungetc together behave as on a plain byte sequence: a call that is interrupted by trapped signals or parked by the thread scheduler and then resumed returns exactly what an uninterrupted call returns and leaves exactly the same bytes to be read.", "quantifier": "every history of calls, every buffer state, every pattern of short reads, EINTR, EAGAIN and pending signals", "why_tests_cant": "the interrupt has to arrive between two particular read(2) calls inside one method; the combinations are unbounded", "anchors": ["monoruby/src/value/rvalue/io.rs: read_impl, read_underlying, read_line_bytes, getline, unget, readpartial, sysread", "monoruby/src/builtins/io.rs: blocking_io_region, read_one_char, io_eof_"]}
{"id": "C45", "title": "A read-write file has one position", "statement": "On a file opened for reading and writing, reads see all earlier writes, a write lands at the current position, both advance that position by what they transferred, and seek, pos= and rewind set it and pos reports it.", "quantifier": "every history of reads, writes, seeks and pos on every file content, with any buffering and any OS answers", "why_tests_cant": "two buffers share one descriptor; whether they agree depends on the whole history and on sizes around the buffer capacity", "anchors": ["monoruby/src/value/rvalue/io.rs: write, flush_wbuf_before_read, drain_wbuf, seek", "monoruby/src/builtins/io.rs: io_pos, io_pos_set, io_rewind"]}
{"id": "C46", "title": "Float to Rational", "statement": "Float#to_r is exactly the Float's value in lowest terms, and Float#rationalize without argument is the simplest fraction within half a unit in the last place of the Float.", "quantifier": "every finite double, normal and subnormal", "why_tests_cant": "2^64 doubles over 2046 exponents; minimality quantifies over all fractions", "anchors": ["monoruby/src/value/rvalue/rational.rs: from_f64, find_simplest", "monoruby/src/builtins/numeric/float.rs: float_to_r, float_rationalize"]}
{"id": "C47", "title": "A record packed with a template unpacks to its fields", "statement": "For a template made of any sequence of counted fields (integers of any width and order, doubles, padded strings, hex and bit strings, UTF-8 characters, BER and LEB128 integers, skipped bytes), pack of the fields' arguments succeeds and unpack of the bytes with the same template returns exactly the fields' values in order; a count that does not fit a C long raises RangeError.", "quantifier": "every sequence of fields, every count, every value", "why_tests_cant": "the combinations of directives, counts and values are unbounded; one field reading past its bytes only shows with particular neighbours", "anchors": ["monoruby/src/value/rvalue/string/pack.rs: pack, unpack, parse_template"]}
{"id": "C48", "title": "Base64 output has the documented format", "statement": "pack(\"m0\") gives the Base64 of RFC 4648 of the data; pack(\"mN\") gives lines of N bytes rounded down to a multiple of three (45 if N is absent, * or below 3), each encoded and followed by a newline.", "quantifier": "every byte string, every count", "why_tests_cant": "all data lengths, contents and line lengths", "anchors": ["monoruby/src/value/rvalue/string/pack.rs: base64_encode"]}
{"id": "C49", "title": "sleep lasts as long as asked", "statement": "A thread that sleeps for a duration (or for ever) does not return from that sleep before the duration has passed, unless during the sleep it is woken by another thread or interrupted; in particular what the thread waited for earlier has no influence.", "quantifier": "every schedule of any number of threads", "why_tests_cant": "the cases that fail need a particular earlier wait and particular times", "anchors": ["monoruby/src/scheduler.rs: sleep, wait_fds, wake_due_sleepers, scheduler_run"]}
{"id": "C50", "title": "After fork only the forking thread exists in the child", "statement": "In the child of a fork no thread other than the one that forked runs again, whatever the child does, and the child's own threads work.", "quantifier": "every state at the fork, every continuation", "why_tests_cant": "depends on which threads were queued, parked or not yet started at the fork", "anchors": ["monoruby/src/scheduler.rs: fork_child_reset_threads, dispatch, pass, scheduler_loop"]}
{"id": "C51", "title": "Marshal round trip is a deep copy", "statement": "Marshal.dump succeeds on every value made of nil, true, false, Integers, Floats, Symbols, Strings, Arrays, Hashes, Ranges, Regexps, Structs, classes, modules and plain objects, cyclic or not, and Marshal.load of the result is a deep copy: the objects correspond one to one, with the same class, extended modules, contents, encoding and instance variables, and two references are to the same object exactly when they were before.", "quantifier": "every finite object graph", "why_tests_cant": "all shapes of sharing and cycles across all object kinds; failures need a particular kind of object before a shared one", "anchors": ["monoruby/src/builtins/marshal.rs: marshal_dump_value, marshal_emit_link, read_value_inner"]}
{"id": "C52", "title": "Every Integer survives Marshal", "statement": "Marshal.load(Marshal.dump(n)) == n for every Integer n.", "quantifier": "every integer", "why_tests_cant": "infinitely many integers in six formats with sign and length boundaries", "anchors": ["monoruby/src/builtins/marshal.rs: marshal_write_fixnum, marshal_write_bignum, read_fixnum, read_bignum"]}
{"id": "C53", "title": "Marshal.load survives any data", "statement": "Marshal.load of any String returns an object or raises; it never crashes the interpreter, and an object it returns has a class that fits its contents.", "quantifier": "every byte string", "why_tests_cant": "all byte strings", "anchors": ["monoruby/src/builtins/marshal.rs: read_bytes, read_array, read_user_object, read_user_class"]}
{"id": "C54", "title": "Truncated Marshal data is rejected, trailing bytes are ignored", "statement": "Marshal.load of a proper prefix of what Marshal.dump gave raises, and bytes after a datum do not change what is loaded.", "quantifier": "every value, every prefix, every continuation", "why_tests_cant": "every cut of every dump", "anchors": ["monoruby/src/builtins/marshal.rs: read_byte, read_bytes, read_value_inner"]}
{"id": "C55", "title": "The method called is the nearest ancestor's", "statement": "Calling m on an instance of class C runs the definition of the first entry of C.ancestors that defines m, whatever sequence of class creations, includes, prepends, definitions, undefs and visibility changes produced C; an undef_method in an earlier ancestor hides later definitions; the visibility applied is the one the first ancestor mentioning m gives; is_a? agrees with ancestors; a class has all the ancestors of its superclass.", "quantifier": "for all histories of operations, classes, names", "why_tests_cant": "The ancestor chain can be rebuilt by arbitrarily many interleaved includes and prepends; tests fix a handful of shapes.", "anchors": ["monoruby/src/globals/store/class.rs: search_method_refined", "monoruby/src/globals/store.rs: ancestors, search_method_by_class_id", "monoruby/src/value.rs: is_kind_of"]}
{"id": "C56", "title": "include adds the module and its ancestors, in order", "statement": "C.include(M) leaves M and every ancestor of M among the ancestors of C and of every descendant of C, right behind C and in M's order when they are new, takes no ancestor away from any class, does nothing visible when they are already there, and raises ArgumentError (with nothing changed) exactly when C is an ancestor of M; it never crashes.", "quantifier": "for all reachable hierarchies, receivers and modules", "why_tests_cant": "The insertion walks two mutable linked chains at once; whether it preserves order or escapes the receiver depends on the overlap of the two chains.", "anchors": ["monoruby/src/value/rvalue/module.rs: include_module, include_or_prepend_module, check_cyclic", "monoruby/src/builtins/module.rs: append_features"]}
{"id": "C57", "title": "include and prepend leave unrelated classes alone", "statement": "C.include(M) and C.prepend(M) do not change the ancestors of a class that does not have C among its ancestors; in particular not of C's superclass.", "quantifier": "for all reachable hierarchies, receivers, modules and other classes", "why_tests_cant": "The chains share tails, so a write through one class's chain can surface in another's; a test would have to guess the overlap.", "anchors": ["monoruby/src/value/rvalue/module.rs: include_or_prepend_module, prepend_module"]}
{"id": "C58", "title": "prepend puts the module in front of the class", "statement": "C.prepend(M) makes C.ancestors M.ancestors followed by what it was when M is new, never removes an ancestor, raises on a cycle with no visible change, and when C is a module M comes in front of C in every class that includes C.", "quantifier": "for all reachable hierarchies, receivers and modules", "why_tests_cant": "Propagation to earlier includers depends on every class in the program.", "anchors": ["monoruby/src/value/rvalue/module.rs: prepend_module", "monoruby/src/globals/store/class.rs: propagate_prepend_to_subclasses"]}
{"id": "C59", "title": "A cached method lookup answers as a fresh one", "statement": "After any sequence of definitions, undefs, visibility changes, includes, prepends and lookups, a lookup answers what a walk along the current ancestors answers: no stale method is ever called.", "quantifier": "for all histories of operations", "why_tests_cant": "A stale entry needs a particular interleaving of lookups and changes.", "anchors": ["monoruby/src/globals/store.rs: check_method_for_class, GlobalMethodCache", "monoruby/src/codegen.rs: class_version_inc"]}
{"id": "C60", "title": "super calls the next definition behind the running method", "statement": "super from a method found in ancestor A of the receiver's class calls the nearest definition behind A in the ancestors and is a NoMethodError when there is none or an undef_method comes first; also when one body is installed in several ancestors.", "quantifier": "for all reachable hierarchies, receivers, bodies and names", "why_tests_cant": "Depends on where a body is installed along chains of arbitrary length, with wrappers and undefs in between.", "anchors": ["monoruby/src/globals/store/class.rs: check_super, check_super_at, super_occurrences"]}
{"id": "C61", "title": "Method listings agree with what a call does", "statement": "public_/protected_/private_instance_methods list a name exactly when a call would find it with that visibility; method_defined? is true exactly when an instance responds to it.", "quantifier": "for all reachable hierarchies, classes and names", "why_tests_cant": "Two different walks over the chain have to agree on every hierarchy.", "anchors": ["monoruby/src/globals/store/class.rs: walk_method_names, method_defined", "monoruby/src/builtins/module.rs: method_defined"]}
{"id": "C62", "title": "The superclass of a class never changes", "statement": "superclass answers the class given when the class was made, whatever is included, prepended, defined or looked up afterwards.", "quantifier": "for all histories of operations", "why_tests_cant": "superclass is computed by walking past the inserted modules; any insertion could shift it.", "anchors": ["monoruby/src/value/rvalue/module.rs: get_real_superclass", "monoruby/src/builtins/class.rs: superclass"]}
{"id": "C63", "title": "Module comparison agrees with ancestors", "statement": "X < Y is true exactly when Y is among the ancestors of X and is not X, for classes and modules alike.", "quantifier": "for all reachable hierarchies, all pairs of classes and modules", "why_tests_cant": "A module's chain ends in Object without Object being among its ancestors.", "anchors": ["monoruby/src/builtins/module.rs: less_than", "monoruby/src/value/rvalue/module.rs: is_ancestor_of"]}
{"id": "C64", "title": "Changing a method's visibility changes nothing else", "statement": "private :m (public, protected) in a class makes calls on its instances see m with that visibility and run the same body as before; other names and classes that are not descendants are unaffected; once the definition is removed the method is gone.", "quantifier": "for all histories of operations, classes, names, visibilities", "why_tests_cant": "the declaration is kept as an entry that has to stay in step with every later change of the ancestors", "anchors": ["monoruby/src/globals/store/class.rs: change_method_visibility_for_class, search_method_refined"]}
{"id": "C65", "title": "Positional arguments reach the parameters the language says", "statement": "A method called with plain arguments raises ArgumentError exactly when the count is outside what its required, optional, rest and post parameters allow; otherwise required parameters take the first arguments, post parameters the last, optional parameters the next ones in order, and *rest collects what remains, in order.  A block or proc never raises; missing arguments are nil and surplus ones are dropped.", "quantifier": "for all parameter lists, argument lists, frame contents", "why_tests_cant": "The slot arithmetic for required/optional/rest/post interacts with the direction the caller's registers are stored in; a test fixes one shape.", "anchors": ["monoruby/src/codegen/runtime/args.rs: fill_positional_args, set_callee_frame_arguments"]}
{"id": "C66", "title": "Every way to call binds the same arguments", "statement": "A call with the same arguments binds the same parameters (or raises alike) whether interpreted, compiled inline, made through yield, send, a native iterator, or a compiled `...` forward.", "quantifier": "for all parameter lists, argument lists and keyword lists", "why_tests_cant": "There are eight separate binders; agreement on all shapes cannot be sampled.", "anchors": ["monoruby/src/codegen/runtime/args.rs", "monoruby/src/codegen/jitgen/compile/method_call.rs: set_arguments", "monoruby/src/globals/store/function.rs: is_simple_call, apply_args"]}
{"id": "C67", "title": "Keyword arguments", "statement": "Each declared keyword gets the last value written for it, `**h` included; a missing required keyword or an unknown keyword raises ArgumentError naming it; **rest gets exactly the undeclared pairs; a method without keywords gets them as one trailing hash; **nil rejects them.", "quantifier": "for all parameter lists, keyword lists with literals and ** operands in any order", "why_tests_cant": "Literals and ** operands are split apart by the compiler; order-sensitive shapes are rarely tested.", "anchors": ["monoruby/src/codegen/runtime/args.rs: handle_keyword, hash_splat_and_kw_rest", "monoruby/src/bytecodegen/method_call/arguments.rs"]}
{"id": "C68", "title": "A single array is spread over a block's parameters, and only then", "statement": "yield [a, b] to a block with more than one parameter binds as yield a, b; a block with one parameter keeps the array; an object answering to_ary is spread, one answering nil is kept, anything else raises TypeError.", "quantifier": "for all blocks, arrays and objects", "why_tests_cant": "The rule depends on the parameter list and on a user method's answer.", "anchors": ["monoruby/src/codegen/runtime/args.rs: check_single_arg_expand, block_arg_to_ary"]}
{"id": "C69", "title": "Keywords survive ruby2_keywords delegation", "statement": "m(args, k: v) through `ruby2_keywords def m(*args) = g(*args)` (any number of such methods, with leading arguments added) gives g the parameters a direct call gives.", "quantifier": "for all chains, argument and keyword lists, final callees", "why_tests_cant": "The keywords travel as a flagged hash at the end of an array; each hop must keep, promote or unflag it correctly.", "anchors": ["monoruby/src/codegen/runtime/args.rs: set_callee_frame_arguments (ruby2_keywords part)"]}
{"id": "C70", "title": "Forwarding with ... is transparent", "statement": "f(args, k: v) through `def f(...) = g(lead, ...)` (any number of such methods) gives g the parameters a direct call g(lead, args, k: v) gives, whether the arguments were collected or left in the caller's frame.", "quantifier": "for all chains, argument lists with splats, keyword lists, final callees", "why_tests_cant": "There is a fast path, a lazy marker path and a generic path; which one runs depends on both ends.", "anchors": ["monoruby/src/codegen/runtime/args.rs: set_frame_arguments, forwarded_set_arguments_core, materialize_lazy_at_callsite"]}
{"id": "C71", "title": "arity tells the argument counts that are accepted", "statement": "For a method without keyword parameters, arity n >= 0 means exactly n arguments are accepted, and arity -n-1 means at least n are required and more may be given.", "quantifier": "for all methods without keyword parameters and all argument lists", "why_tests_cant": "arity is computed apart from the binder.", "anchors": ["monoruby/src/globals/store/function.rs: arity"]}
{"id": "C72", "title": "Compiling a method body does not change what it computes", "statement": "A method body of literals, local-variable moves and + - * / & | ^ on Integers and Floats, once compiled, ends as under the interpreter (same exception or normal end) with the same value in every local variable, whatever the argument values and the types seen before.", "quantifier": "for all bodies, recorded operand types, argument values, register pressures", "why_tests_cant": "The value of a variable may be on the stack, in one of four integer registers, in one of fourteen float registers, spilled, or known at compile time; the combinations depend on the whole history of the body.", "anchors": ["monoruby/src/codegen/jitgen/state/slot.rs", "monoruby/src/codegen/jitgen/state/binop.rs", "monoruby/src/codegen/jitgen/state/read_slot.rs", "monoruby/src/codegen/jitgen/gp_alloc.rs"]}
{"id": "C73", "title": "A side exit from compiled code hands over the right frame", "statement": "When compiled code gives up inside a method body (type surprise, Integer overflow, division by zero), the interpreter continues at that instruction with the operands and local variables it would have had, had it run the method from the start.", "quantifier": "for all bodies, exits, argument values, register states", "why_tests_cant": "Exits are rare, and each has its own write-back list computed from the register state at that point.", "anchors": ["monoruby/src/codegen/jitgen/state/slot.rs: get_write_back", "monoruby/src/codegen/jitgen/asmir.rs: new_deopt"]}
{"id": "C74", "title": "Compiled Integer arithmetic is exact", "statement": "The machine code for + - * / % and negation on small Integers yields the exact mathematical result (floor division, modulo with the divisor's sign) or leaves for the generic path; it never yields a wrong number.", "quantifier": "for all pairs of small Integers, including literal operands", "why_tests_cant": "2^126 operand pairs; the errors sit at single points.", "anchors": ["monoruby/src/codegen/arch/x86_64/compile/binary_op.rs", "monoruby/src/codegen/arch/x86_64/compile/mod.rs"]}
{"id": "C75", "title": "Compiled shifts and bit operations are exact", "statement": "The machine code for << >> & | ^ ~ and Integer#[] on small Integers, with variable or literal operands of either sign and any size, and constant folding of literal shifts, yields the mathematical result or leaves for the generic path.", "quantifier": "for all pairs of small Integers", "why_tests_cant": "The overflow test depends on the number of leading sign bits; errors concern one shift amount per operand.", "anchors": ["monoruby/src/builtins/numeric/integer.rs: gen_shl, gen_shr, gen_index", "monoruby/src/codegen/arch/x86_64/compile/builtin.rs"]}
{"id": "C76", "title": "Compiled comparisons and float operators follow the operands", "statement": "Compiled == != < <= > >= on small Integers and Floats, as a value or as a branch condition (taken or inverted), answers the mathematical comparison, where every comparison with NaN but != is false; a compiled float operator writes its result to the destination only.", "quantifier": "for all pairs of operands, operators, register placements", "why_tests_cant": "Each comparison has four encodings; NaN needs the parity flag in each of them.", "anchors": ["monoruby/src/codegen/arch/x86_64/compile/binary_op.rs"]}
{"id": "C77", "title": "Compiling branches does not change what a method computes", "statement": "A method body with if/else over literals, local-variable moves and arithmetic, once compiled, ends as under the interpreter with the same value in every local variable: whatever the branches did, the code after them finds each variable's value, also when compiled code gives up inside a branch.", "quantifier": "for all nestings of branches, bodies, recorded operand types, argument values, register states at the end of the branches", "why_tests_cant": "Where the two branches left a variable (stack, which register, both, literal) decides which of some thirty bridges is emitted, and a bridge of one variable can move another; only particular combinations over several variables go wrong.", "anchors": ["monoruby/src/codegen/jitgen/state/join.rs: decide_join, apply_join", "monoruby/src/codegen/jitgen/state/slot.rs: bridge, fpr_swap, to_sf", "monoruby/src/codegen/jitgen/state.rs: join_entries, gen_bridge"]}
{"id": "C78", "title": "JSON.parse(JSON.generate(v)) is v", "statement": "For a value made of nil, true, false, Integers, finite Floats, Strings, Arrays and Hashes with String keys, parsing what JSON.generate wrote gives an equal value of the same classes; a Hash with other keys comes back with their to_s as keys.", "quantifier": "for all such values of any size and nesting, strings of any characters", "why_tests_cant": "The values form an unbounded tree, strings range over all of Unicode, and Integers go wrong only above a bound no usual test reaches.", "anchors": ["monoruby/src/builtins/json.rs: Parser::parse_value, generate, generate_string", "monoruby/stdlib/json.rb: JSON.parse, JSON.generate"]}
{"id": "C79", "title": "JSON.parse accepts JSON and nothing else, and returns what the text stands for", "statement": "JSON.parse(s) returns the value that the JSON text s (RFC 8259) stands for, with white space, escapes and nesting wherever the grammar allows them, the last of several values for a repeated key, and an Integer for a number without fraction and exponent; it raises an error for every s that is not a JSON text.", "quantifier": "for all strings", "why_tests_cant": "The language is infinite in both directions: any sample of accepted and rejected texts leaves out almost all of it.", "anchors": ["monoruby/src/builtins/json.rs: Parser", "monoruby/stdlib/json.rb: JSON.parse"]}
{"id": "C80", "title": "JSON.generate writes JSON", "statement": "JSON.generate(v) returns a valid JSON text that stands for v: strings with any characters are escaped so that they end where they should, and values JSON cannot express raise an error.", "quantifier": "for all values and all strings", "why_tests_cant": "Which characters need escaping ranges over all of Unicode, and the structure over all trees.", "anchors": ["monoruby/src/builtins/json.rs: generate, generate_string"]}
{"id": "C81", "title": "ensure runs exactly once", "statement": "However control leaves the body of begin \u2026 ensure \u2026 end - by its end, break, next, return, an exception, a return out of a block, a throw - the ensure clause runs exactly once, after the body and before control goes on, and then control goes on as it was going, unless the ensure clause itself leaves by another way, which then prevails.", "quantifier": "for all method bodies (nesting of loops, regions, rescue clauses), all ways of leaving, all states", "why_tests_cant": "The ways of leaving multiply with the nesting of regions and loops, and the compiler copies ensure clauses into every exit; a test covers one combination.", "anchors": ["monoruby/src/bytecodegen/statement.rs: gen_begin", "monoruby/src/bytecodegen.rs: gen_all_pending_ensures, gen_loop_pending_ensures", "monoruby/src/codegen/jit_module.rs: handle_error"]}
{"id": "C82", "title": "The first matching rescue clause handles the exception", "statement": "When the body of begin \u2026 rescue \u2026 end raises, the first clause that matches is run and only its variable is assigned; without a match the exception goes on; else runs only when the body ended normally and its exceptions are not rescued by the same clauses; retry runs the body again. An exception from a rescue clause or from the ensure clause is not caught by the clauses of the same region.", "quantifier": "for all regions, all lists of clauses, all exceptions", "why_tests_cant": "Depends on how address ranges of nested regions and of copied ensure clauses overlap.", "anchors": ["monoruby/src/bytecodegen/statement.rs: gen_begin", "monoruby/src/globals/store/iseq.rs: get_exception_dest"]}
{"id": "C83", "title": "Non-local exits run the ensure clauses they pass", "statement": "A return out of a block, and a throw, run the ensure clauses of every region they leave, innermost first, then go on; an ensure clause that itself leaves by break or return replaces the exit for good, and nothing of it is seen later by this or another method.", "quantifier": "for all nestings of regions, all histories of calls", "why_tests_cant": "The exit is parked on a stack keyed by frame address while an ensure clause runs; what may go wrong shows only after particular histories.", "anchors": ["monoruby/src/executor.rs: defer_unwind, finish_ensure, discard_deferred_unwind", "monoruby/src/codegen/jit_module.rs: handle_error"]}
{"id": "C84", "title": "return evaluates its operand before the ensure clauses", "statement": "return e inside begin \u2026 ensure \u2026 end gives the value e had when return was reached, whatever the ensure clauses assign or compute.", "quantifier": "for all operands and all ensure clauses", "why_tests_cant": "The value waits in a register while inlined code of arbitrary length runs.", "anchors": ["monoruby/src/bytecodegen.rs: emit_ret", "monoruby/src/bytecodegen/expression.rs"]}
{"id": "C85", "title": "A constant reference means the lexically nearest, then the inherited constant", "statement": "An unqualified reference gives the constant of the innermost enclosing class or module that has it, otherwise of the first ancestor of the innermost one; `A::X` gives that of the first ancestor of A (Object's only through Object) and raises NameError if it is private there; otherwise const_missing of the class is called and decides. const_get with a path means the same as the path.", "quantifier": "for all constant tables, ancestor lists, nestings, paths and names", "why_tests_cant": "The result depends on nesting, ancestors, visibility and which scopes lack the name; tests fix one arrangement each.", "anchors": ["monoruby/src/executor/constants.rs: get_constant, search_constant_no_missing, get_constant_superclass_qualified", "monoruby/src/executor.rs: find_constant", "monoruby/src/builtins/module.rs: const_get"]}
{"id": "C86", "title": "A reference that was executed before gives what a new lookup gives", "statement": "Executing the same constant reference again, after any assignments, removals, inclusions, class and module definitions, loads, autoload registrations and visibility changes, gives the value (or error) and the effects of a lookup made from scratch.", "quantifier": "for all histories of operations and all reference sites", "why_tests_cant": "The result of the first lookup is cached; a stale answer needs a particular operation between two executions of one site.", "anchors": ["monoruby/src/codegen/runtime.rs: vm_get_constant", "monoruby/src/globals.rs: set_constant, remove_constant, const_version_inc"]}
{"id": "C87", "title": "Constants folded into compiled code are the current ones", "statement": "When compiled code runs past its guards, every constant folded into it has the value a lookup gives at that moment, whatever was defined since compilation and however often the code was revalidated.", "quantifier": "for all histories before and after compilation and all sets of folded sites", "why_tests_cant": "Revalidation decides per name whether anything relevant moved; a wrong decision shows only for particular sequences around compilation.", "anchors": ["monoruby/src/codegen/jitgen/compile/variables.rs: load_constant", "monoruby/src/globals/store/class.rs: salvage_const_unit, salvage_const_map"]}
{"id": "C88", "title": "autoload loads a file once and yields what it defines", "statement": "A reference to a constant registered with autoload runs its file and gives the value the file defines; a file that raises makes the reference raise and stays registered; a file that does not define the constant leaves the reference to the outer scopes; no file is run to its end twice.", "quantifier": "for all registrations, file bodies and histories", "why_tests_cant": "State of the registration changes during and after the load, for all constants of the file.", "anchors": ["monoruby/src/executor/constants.rs: get_constant", "monoruby/src/executor.rs: require", "monoruby/src/globals/store/class/constants.rs"]}
{"id": "C89", "title": "Blocks and closures share the variables of the calls around them", "statement": "A block, Proc or Binding reads and writes the very variables of the method calls and blocks it was written in, while they are in progress and after they have ended; every other closure and the call itself sees each assignment.", "quantifier": "for all programs of calls, blocks, yields, closures made at any moment, iterations, Proc calls, bindings and evals", "why_tests_cant": "Variables live in the stack until a closure is made and are then moved while other frames, running blocks and builtin iterations still refer to them; which references exist depends on the whole nesting at that moment.", "anchors": ["monoruby/src/executor/frame.rs: move_frame_to_heap", "monoruby/src/executor.rs: generate_proc_inner, materialize_escaped_block_handlers, generate_binding", "monoruby/src/codegen/arch/x86_64/jit_module.rs: resolve_invalidated_outer", "monoruby/src/codegen/arch/aarch64/invoker.rs: a64_block_frame_setup"]}
{"id": "C90", "title": "yield enters the block that was given", "statement": "yield, in a method or in blocks inside it, enters the block given to that method call, at whatever depth and after whatever closures were made, also when the block was passed on with & through other methods; what is not a Proc, nil or convertible raises TypeError when passed with &.", "quantifier": "for all call depths and all histories between the call and the yield", "why_tests_cant": "A block is passed as a number of control frames to walk, adjusted at each delegation; an error shows only for particular depths and interleavings with closures.", "anchors": ["monoruby/src/executor/frame.rs: get_block, yield_home", "monoruby/src/executor.rs: BlockHandler, resolve_block_target", "monoruby/src/codegen/runtime/args.rs: set_frame_block", "monoruby/src/codegen/runtime.rs: get_yield_data, block_arg"]}
{"id": "C91", "title": "return in a block returns from the method it is written in", "statement": "return in a block ends the calls from the running one down to the call of the method the block is written in, running their ensure clauses, and that call returns; if it is no longer in progress LocalJumpError is raised.", "quantifier": "for all nestings of calls and blocks and all ensure clauses on the way", "why_tests_cant": "The target is a frame address, and frames move when ensure clauses make closures.", "anchors": ["monoruby/src/codegen/runtime.rs: err_method_return", "monoruby/src/codegen/jit_module.rs: handle_error", "monoruby/src/executor.rs: defer_unwind, finish_ensure"]}
{"id": "C92", "title": "Mutex: mutual exclusion", "statement": "At most one thread holds a Mutex; lock, Mutex#sleep and ConditionVariable#wait (and try_lock when it answers true) return, also by raising, only to a thread that holds the mutex.", "quantifier": "for all numbers of threads, calls, switches at any poll, wake-ups, time-outs, interrupts and ends of threads", "why_tests_cant": "The methods are Ruby code that the scheduler may leave at every method entry and loop start; a test sees a few of the interleavings.", "anchors": ["monoruby/builtins/thread.rb: Mutex, ConditionVariable (l.404-600)"]}
{"id": "C93", "title": "try_lock succeeds exactly when the mutex is free", "statement": "try_lock answers true to a thread that then holds the mutex, and false only when some thread holds it.", "quantifier": "for all interleavings and histories", "why_tests_cant": "Depends on how the previous holder came to an end.", "anchors": ["monoruby/builtins/thread.rb: Mutex#try_lock"]}
{"id": "C94", "title": "Nobody is left waiting for a free mutex", "statement": "When no thread can go on by itself, every thread that is blocked in Mutex#lock (or is getting a mutex back after a wait) waits for a mutex that another thread holds; nobody is blocked on the lock inside a Queue.", "quantifier": "for all runs", "why_tests_cant": "A lost wake-up needs one particular interleaving of the list of waiters, the park and the unlock.", "anchors": ["monoruby/builtins/thread.rb: Mutex#lock, Mutex#unlock, Mutex#sleep", "monoruby/src/executor/scheduler.rs: park, wakeup"]}
{"id": "C95", "title": "Queue and SizedQueue are bounded first-in first-out queues", "statement": "Items come out of a queue in the order they went in, each once; nothing goes into a full or closed queue; pop and push answer what happened: an item that was taken, nil on time-out or when closed and empty, ClosedQueueError, or ThreadError for non-blocking calls; an item that was taken is returned.", "quantifier": "for all interleavings of any number of producers and consumers, with time-outs, close, clear, max= and interrupts", "why_tests_cant": "The state is shared by threads that can be switched in the middle of each method.", "anchors": ["monoruby/builtins/thread.rb: Queue, SizedQueue (l.600-817)"]}
{"id": "C96", "title": "Nobody waits in vain for a queue", "statement": "When no thread can go on by itself, a call on a queue that has not returned is a pop of an open empty queue or a push to an open full one.", "quantifier": "for all runs with any number of producers and consumers", "why_tests_cant": "A lost signal needs a particular interleaving, and shows only when nothing else happens.", "anchors": ["monoruby/builtins/thread.rb: Queue, SizedQueue, ConditionVariable"]}
{"id": "C97", "title": "Monitor: mutual exclusion with re-entry", "statement": "At most one thread is inside a Monitor (between enter and the matching exit); try_enter fails exactly when another thread is inside; exit by a thread that is not inside raises ThreadError.", "quantifier": "for all sequences of calls by any threads", "why_tests_cant": "The methods never block, so single-threaded tests pass.", "anchors": ["monoruby/builtins/monitor.rb"]}
{"id": "C98", "title": "Array indexing reads the places that an index, a start with a length or a range means", "statement": "a[i] is the element at i (from the end when negative), nil where there is none; a[i, n] and a[range] are the elements from the start on, as many as asked for and there are, nil exactly when the length is negative or the start is not in or directly behind the array.", "quantifier": "for all arrays, integers and ranges (with or without begin, end, exclusive or not)", "why_tests_cant": "The boundary cases (just behind the end, negative starts, ends before starts) multiply; samples leave gaps.", "anchors": ["monoruby/src/value/rvalue/array.rs", "monoruby/src/builtins/array.rs"]}
{"id": "C99", "title": "Array assignment replaces exactly what the same index reads", "statement": "a[i] = x, a[i, n] = v and a[range] = v replace exactly the elements that a[i], a[i, n], a[range] return, by x or the elements of v; nils fill a gap behind the end; an index before the array raises IndexError or RangeError and a too big one IndexError; nothing else changes.", "quantifier": "for all arrays, indices, lengths, ranges and values", "why_tests_cant": "The splice works in place with copies and resizing; an off-by-one shows only for certain lengths.", "anchors": ["monoruby/src/value/rvalue/array.rs", "monoruby/src/builtins/array.rs"]}
{"id": "C100", "title": "insert, delete_at, slice!, shift, pop, rotate and fill agree with indexing", "statement": "slice!(x) returns a[x] and removes just those elements; delete_at likewise; insert puts the values before (after, for a negative index) the element; shift(n) and pop(n) cut the array in two; rotate(n) moves every element n places; fill sets the places of the range and nothing else.", "quantifier": "for all arrays, indices, counts and ranges", "why_tests_cant": "Wrap-around, negative and out-of-range arguments interact with the length of the array.", "anchors": ["monoruby/src/value/rvalue/array.rs", "monoruby/src/builtins/array.rs"]}
{"id": "C101", "title": "combination, permutation, repeated_combination, repeated_permutation and product yield every selection once", "statement": "Each yields every selection of its kind exactly once, in the lexicographic order of the positions; the size of the enumerator is the number of selections; changes the block makes to the receiver do not matter.", "quantifier": "for all arrays and numbers", "why_tests_cant": "Tests list the selections of small arrays; completeness and order for every size need an argument.", "anchors": ["monoruby/builtins/array.rb", "monoruby/src/builtins/array.rs"]}
{"id": "C102", "title": "bsearch finds what a search from the start would find", "statement": "With a block that answers false up to a place and true from there on, bsearch of an array or range returns the first element with true, or nil; with a block whose answers fall from positive over 0 to negative it returns an element with 0, or nil if there is none.", "quantifier": "for all arrays, integer ranges (also without begin or end), float ranges and such blocks", "why_tests_cant": "Only some sizes and positions make the search miss; a test with the target in the middle passes.", "anchors": ["monoruby/builtins/array.rb", "monoruby/builtins/range.rb"]}
{"id": "C103", "title": "select!, keep_if, reject! and delete_if remove exactly what the block says", "statement": "The elements to keep stay in their order and all others go; when the block raises, those kept so far and those not yet visited are left; select! and reject! return nil exactly when nothing was removed; a block that changes the array does no harm to the process.", "quantifier": "for all arrays and blocks, also blocks that raise or change the array", "why_tests_cant": "Blocks that raise or change the receiver half-way are rarely tested at every position.", "anchors": ["monoruby/src/builtins/array.rs"]}
{"id": "C104", "title": "map returns the values of the block for the elements it was called with", "statement": "map calls the block once for each element, in order, and returns exactly the values it gave.", "quantifier": "for all arrays and blocks, also blocks that change the array", "why_tests_cant": "The result is preallocated; only blocks that change the size show it.", "anchors": ["monoruby/builtins/array.rb"]}
{"id": "C105", "title": "flatten", "statement": "flatten replaces arrays by their elements until none is left, in order and also when an array occurs several times; it raises ArgumentError exactly when that would not end; flatten(n) does n rounds.", "quantifier": "for all arrays, with any sharing and recursion among them, and all levels", "why_tests_cant": "Sharing versus recursion is a property of the whole object graph.", "anchors": ["monoruby/src/builtins/array.rs"]}
{"id": "C106", "title": "An operator runs the method a lookup finds", "statement": "Whatever a program has defined, undefined, removed, included, prepended or made private, `a op b` (and `!a`, `a[i]`, ...) on numbers, strings, symbols, nil, true, false, arrays and hashes runs the method an ordinary method lookup for that operator finds, and redefining one operator of one class changes no other.", "quantifier": "for all sequences of changes to classes, receivers and operators", "why_tests_cant": "The interpreter answers natively unless a table says otherwise; the combinations of class, operator, way of redefinition and operand kind cannot be enumerated by tests.", "anchors": ["monoruby/src/globals/store/basic_op.rs", "monoruby/src/globals/store/class.rs", "monoruby/src/executor/op.rs", "monoruby/src/executor/op/binary_ops.rs"]}
{"id": "C107", "title": "!= is the opposite of ==", "statement": "Unless the program defines !=, `a != b` is the opposite of what `a == b` answers, whatever == the program has defined.", "quantifier": "for all receivers and redefinitions", "why_tests_cant": "There are several native paths for != that do not go through ==.", "anchors": ["monoruby/src/executor/op.rs", "monoruby/src/globals/store.rs", "monoruby/builtins/comparable.rb"]}
{"id": "C108", "title": "Compiled code obeys a redefined operator", "statement": "Once an operator is redefined, no compiled code computes the builtin operator any more: neither code entered later nor code whose frames were suspended when the redefinition happened; other compiled code stays.", "quantifier": "for all interleavings of compilation, calls, loops, fibers and redefinitions, on both backends", "why_tests_cant": "It depends on which code is compiled and suspended where at the moment of the redefinition.", "anchors": ["monoruby/src/codegen.rs", "monoruby/src/globals/store/iseq.rs", "monoruby/src/globals/store/class.rs"]}
{"id": "C109", "title": "case over integer literals", "statement": "A case whose branches list integer literals runs the first branch with a literal accepting the subject (literal === subject), and else if there is none, also when it is compiled to a jump table.", "quantifier": "for all lists of branches and all subjects", "why_tests_cant": "The jump table replaces calls of ===; agreement for all subjects and all literal lists is not a finite check.", "anchors": ["monoruby/src/bytecodegen/statement.rs", "monoruby/src/bytecodegen/encode.rs", "monoruby/src/globals/store.rs"]}
{"id": "C110", "title": "pow with a modulus", "statement": "a.pow(e, m) equals (a ** e) % m, with the sign of m, for every base, every exponent that is not negative and every non-zero modulus; a zero modulus raises ZeroDivisionError, a negative exponent RangeError.", "quantifier": "for all integers a, e, m", "why_tests_cant": "The result comes from a square-and-multiply loop over truncated remainders with a sign correction at the end; agreement with the power for all arguments needs induction over the exponent.", "anchors": ["monoruby/src/builtins/numeric/integer.rs"]}
{"id": "C111", "title": "Rounding an Integer to digits", "statement": "n.floor(-k), n.ceil(-k), n.truncate(-k) and n.round(-k, half:) give the multiple of 10**k that the method's name promises (below, above, towards zero, nearest with the tie rule), and digits >= 0 change nothing.", "quantifier": "for all integers n, all numbers of digits, all tie rules", "why_tests_cant": "Correctness at every tie and for every sign and size is a statement about all integers.", "anchors": ["monoruby/src/builtins/numeric/integer.rs"]}
{"id": "C112", "title": "Integer division helpers, gcd and lcm", "statement": "div is the floor and ceildiv the ceiling of the exact quotient, remainder has the sign of the receiver, gcd is the greatest common divisor and lcm the least common multiple, both never negative.", "quantifier": "for all integers", "why_tests_cant": "Greatest and least quantify over all common divisors and multiples; signs and sizes have no bound.", "anchors": ["monoruby/builtins/integer.rb"]}
{"id": "C113", "title": "Digits, text, bit length and square root of an Integer", "statement": "n.digits(b) and n.to_s(b) write n in base b without leading zeros and read back as n, n.bit_length is the least k with -2**k <= n < 2**k, and Integer.sqrt(n) is the floor of the square root.", "quantifier": "for all integers and bases", "why_tests_cant": "Loops over unbounded numbers, a Newton iteration whose stop condition must be right for every n.", "anchors": ["monoruby/builtins/integer.rb", "monoruby/src/builtins/numeric/integer.rs"]}
{"id": "C114", "title": "Bits of an Integer", "statement": "n[i], n[i, len] and n[range] read the bits of n in infinite two's complement: one bit, a field of len bits, all bits from i on; a beginless range gives 0 if the bits are 0 and raises ArgumentError otherwise; allbits?, anybits? and nobits? speak of the same bits.", "quantifier": "for all integers, positions, lengths and ranges", "why_tests_cant": "There are separate 64-bit and big-number paths with their own shifts and masks; agreement at every position and width is unbounded.", "anchors": ["monoruby/src/builtins/numeric/integer.rs", "monoruby/src/executor/op.rs", "monoruby/builtins/integer.rb"]}
{"id": "C115", "title": "fdiv is correctly rounded", "statement": "a.fdiv(b) of two Integers is the double nearest to the exact quotient, ties to even, also when a and b are far beyond what a double can hold.", "quantifier": "for all non-zero integers a and b", "why_tests_cant": "Correct rounding is a statement about every position of the quotient relative to the grid of doubles.", "anchors": ["monoruby/builtins/integer.rb", "monoruby/src/builtins/math.rs"]}
{"id": "C116", "title": "Bytes are taken for text only when they are text", "statement": "Whatever sequence of String operations (building, forcing encodings, setbyte, appending, cutting, repeating, reversing, splicing, scrubbing, padding, interpolating, interpreted or compiled, with any questions in between) a program performs, the implementation hands the bytes of a string on as UTF-8 text, without a check, only if they are the UTF-8 form of Unicode scalar values, and a string that answers true to ascii_only? has only ASCII bytes.", "quantifier": "for all programs over all strings, bytes and encodings", "why_tests_cant": "The check is skipped on the strength of a cached code range that every operation has to maintain; one wrong combination anywhere is undefined behaviour.", "anchors": ["monoruby/src/value/rvalue/string.rs", "monoruby/src/builtins/string.rs", "monoruby/src/codegen/runtime.rs", "monoruby/src/codegen/arch/x86_64/compile/builtin.rs"]}
{"id": "C117", "title": "valid_encoding? and ascii_only? answer from the contents", "statement": "valid_encoding? is true exactly when the bytes are a sequence of characters of the encoding, and ascii_only? exactly when all bytes are ASCII in an ASCII-compatible encoding, no matter how the string was made and which questions were asked before.", "quantifier": "for all programs over all strings, bytes and encodings", "why_tests_cant": "The answers are cached and propagated through every operation by case tables; the claim quantifies over all histories.", "anchors": ["monoruby/src/value/rvalue/string.rs", "monoruby/src/builtins/string.rs", "monoruby/src/codegen/runtime.rs", "monoruby/src/codegen/arch/x86_64/compile/builtin.rs"]}
{"id": "C118", "title": "A String is the sequence of its characters", "statement": "chars loses nothing, length is the number of chars, s[i], s[i, n] and s[range] are the corresponding parts of chars in the encoding of s (nil outside), and reverse has the characters in reverse order; reversing a valid string twice gives it back.", "quantifier": "for all strings in every encoding, all positions, lengths and ranges", "why_tests_cant": "Counting and cutting take different paths per encoding and cached code range, with byte arithmetic that must agree with the character iterator everywhere.", "anchors": ["monoruby/src/value/rvalue/string.rs", "monoruby/src/builtins/string.rs"]}
{"id": "C120", "title": "Encodings of joined strings", "statement": "a << b and a + b succeed exactly when the encodings are the same, or one string is empty, or both encodings contain ASCII and one string is ASCII only; otherwise they raise Encoding::CompatibilityError and a is unchanged.  The characters of the result are those of a and then those of b.  Compiled code gives the same result.", "quantifier": "for all pairs of strings in all encodings", "why_tests_cant": "Joining valid texts must never make a character out of the end of one and the beginning of the other, for every pair of encodings and contents.", "anchors": ["monoruby/src/value/rvalue/string.rs", "monoruby/src/codegen/arch/x86_64/compile/builtin.rs"]}
{"id": "C121", "title": "scrub repairs", "statement": "scrub keeps every character, replaces every maximal invalid piece by the replacement, swallows no character, returns valid strings as they are, and its result is valid if the replacement is.", "quantifier": "for all strings, encodings and replacements", "why_tests_cant": "Resynchronisation after an invalid byte must be right at every position of every byte string.", "anchors": ["monoruby/src/value/rvalue/string.rs"]}
{"id": "C122", "title": "Padding and repetition by characters", "statement": "ljust, rjust and center give a string of exactly the width asked for, counted in characters: the receiver's characters with the pad's characters in turn before and after, the odd one after; a string long enough stays as it is.  s * n has the characters of s n times.", "quantifier": "for all strings, pads, widths and counts", "why_tests_cant": "The number of bytes written is computed apart from the characters; multi-byte pads cut in the middle of a round must agree for every width.", "anchors": ["monoruby/src/builtins/string.rs", "monoruby/src/value/rvalue/string.rs"]}
{"id": "C119", "title": "Strings that share memory behave like separate copies", "statement": "Slices, snapshots, duplicates and evaluated literals may share one buffer with the string they come from. Whatever a program then does with any of them (writing in place or with reallocation, freezing, forcing encodings, replacing, slicing slices), and whenever minor or major collections run, every string it holds has the bytes, encoding and frozen state it would have had if every operation had copied; no held string ever refers to freed memory.", "quantifier": "for all programs over strings, all interleavings with collections, promotions and re-armings of the write barrier", "why_tests_cant": "It is a memory-safety invariant over all histories of sharing, detaching, ageing and freeing; a missed detach or barrier shows only when a collection happens at the wrong moment.", "anchors": ["monoruby/src/value/rvalue/string.rs", "monoruby/src/builtins/string.rs", "monoruby/src/value/rvalue.rs", "monoruby/src/value.rs", "monoruby/src/alloc.rs"]}
{"id": "C123", "title": "The ways of walking a range of Integers agree", "statement": "For a range of Integers of any size, each and to_a give exactly the Integers of the range once and in ascending order; size, count, reverse_each, first(n), last(n), min, max, min(n), max(n), map, and min/max by a block describe the same elements; Integer#times, upto and downto yield what they say and report the right size.", "quantifier": "all Integer endpoints, inclusive or exclusive, all n and blocks", "why_tests_cant": "each method has its own arithmetic and its own switch between inline and big integers; the boundary cases are spread over all endpoint values", "anchors": ["monoruby/builtins/range.rb:4-182", "monoruby/builtins/range.rb:306-392", "monoruby/builtins/range.rb:969-1043", "monoruby/src/builtins/range.rs:192-261", "monoruby/src/builtins/range.rs:618-632", "monoruby/src/builtins/range.rs:726-932", "monoruby/builtins/integer.rb:20-57"]}
{"id": "C124", "title": "Stepping and arithmetic sequences describe the same terms", "statement": "(b..e).step(s) and b.step(e, s) with a block yield b, b+s, b+2s, ... as long as the end is not passed; the sequence object returned without a block answers size, to_a, each, first, first(n), last and last(n) for those very terms, as exact Integers.", "quantifier": "all Integer begins, ends and non-zero steps of either sign, inclusive or exclusive", "why_tests_cant": "the loop adds, the sequence object divides: that a truncating quotient with its exclusive-end correction equals the loop's count is a statement about all triples", "anchors": ["monoruby/builtins/range.rb:430-480", "monoruby/builtins/range.rb:750-847", "monoruby/src/builtins/arithmetic_sequence.rs:284-373", "monoruby/src/builtins/arithmetic_sequence.rs:482-640", "monoruby/builtins/arithmetic_sequence.rb:91-126", "monoruby/builtins/numeric.rb:186-296"]}
{"id": "C125", "title": "An array indexed by an arithmetic sequence gives the elements at its terms", "statement": "array[(b..e).step(s)] with b and e positions of the array gives the elements at b, b+s, ... up to the end; negative endpoints count from the end of the array; open ends stand for the whole array; and no sequence makes the call read outside the array.", "quantifier": "all arrays, begins, ends, steps", "why_tests_cant": "the elements are read without bounds checks after clamping, swapping and rounding that depend on the signs and sizes of four numbers", "anchors": ["monoruby/src/builtins/arithmetic_sequence.rs:655-793"]}
{"id": "C126", "title": "cover?, === and overlap? mean membership, inclusion and intersection", "statement": "For ranges of Integers with possibly open ends, cover?/include?/=== of an Integer is membership and agrees with each; cover? of a range holds exactly when that range has an element and all its elements belong to the receiver (an endless exclusive range does not cover an endless inclusive one); overlap? holds exactly when some Integer is in both.", "quantifier": "all pairs of ranges with Integer or nil endpoints, inclusive or exclusive", "why_tests_cant": "sixteen shapes of endpoints on each side, each with its own comparisons", "anchors": ["monoruby/builtins/range.rb:236-287", "monoruby/builtins/range.rb:394-428", "monoruby/builtins/range.rb:650-730"]}
{"id": "C127", "title": "Character sets of delete, count, squeeze and tr mean sets of characters", "statement": "count(set...) is the number of characters in every set, delete(set...) removes exactly those, squeeze(set...) collapses only their runs; a-b is the characters between, ^ the complement, backslash quotes; tr(from, to) replaces each character of from by the one at its place in to (the last one when to is shorter), deletes when to is empty, and the bang forms return nil exactly when nothing changed; the ASCII fast paths and the byte paths of other encodings give the same answers.", "quantifier": "all strings, all sets and lists of sets, all replacements", "why_tests_cant": "three implementations (bitmap, table, map) chosen by the contents of the arguments must agree on every string and set", "anchors": ["monoruby/src/builtins/string.rs:6368-6432", "monoruby/src/builtins/string.rs:6629-6735", "monoruby/src/builtins/string.rs:6742-6996", "monoruby/src/builtins/string.rs:7007-7160", "monoruby/src/builtins/string.rs:7230-7302"]}
{"id": "C128", "title": "String#succ counts", "statement": "On letters and digits succ is an odometer: the last character that is not the last of its kind goes up, those after it wrap, and a new first character appears only when all wrapped; so digits count in decimal, and repeating succ never returns to an earlier string. Trailing punctuation stays. Without letters and digits the last character goes up; on bytes the base 256 number goes up by one. succ never brings the interpreter down.", "quantifier": "all strings, any length", "why_tests_cant": "carries run through arbitrarily long strings with a state machine over kinds of neighbours", "anchors": ["monoruby/src/builtins/string.rs:1575-1715", "monoruby/src/builtins/string.rs:7556-7580"]}
{"id": "C129", "title": "Ranges of strings are the walk of succ between the ends", "statement": "(b..e).each yields b, b.succ, ... up to e (without e if exclusive) when e is reached and b does not sort after e; it always ends; it yields nothing past the end. String#upto yields the same strings. minmax of such a range returns.", "quantifier": "all pairs of strings, inclusive or exclusive", "why_tests_cant": "termination is a statement about unboundedly many steps; the two methods have different stopping rules", "anchors": ["monoruby/builtins/string.rb:129-193", "monoruby/builtins/range.rb:4-112", "monoruby/src/builtins/range.rs:1085-1100"]}
{"id": "C130", "title": "Searching in a string finds the first, or the last, place", "statement": "index(str, i) is the least place at or after i where str stands, rindex(str, i) the greatest at or before i, both in characters; byteindex and byterindex the same in bytes, refusing an offset inside a character; negative offsets count from the end; partition and rpartition cut at that place and their three parts put together are the receiver.", "quantifier": "all strings, needles and offsets", "why_tests_cant": "leftmost and rightmost are statements about every other place; overlapping places and offsets into the middle of characters are endless", "anchors": ["monoruby/src/builtins/string.rs:3410-4032", "monoruby/src/value/rvalue/string.rs:2005-2040", "monoruby/builtins/string.rb:70-118"]}
{"id": "C131", "title": "split, lines, chomp and strip cut without losing or inventing characters", "statement": "split(sep, n) joined by sep is the receiver when n is not 0, has at most n fields for n > 0, and no field but possibly the last holds a separator; without a limit the empty fields at the end are dropped; whitespace splitting gives the words, the empty separator the characters, in every encoding; lines joined are the receiver and each but the last ends at its first separator; chomp: true removes just the line end; chomp removes one line end or one separator; strip removes exactly the white characters at both ends, and strip! returns nil exactly when nothing changes.", "quantifier": "all strings, separators and limits", "why_tests_cant": "reconstruction and maximality must hold for every string, separators may overlap with themselves, and there are separate loops per kind of separator and per encoding", "anchors": ["monoruby/src/builtins/string.rs:1980-2335", "monoruby/src/builtins/string.rs:2525-2560", "monoruby/src/builtins/string.rs:2649-2737", "monoruby/src/builtins/string.rs:4950-5169"]}
{"id": "C132", "title": "dump can be undone", "statement": "s.dump.undump has the bytes and the encoding of s; two strings with the same dump are equal; the dump consists of printable ASCII, and neither it nor inspect, read as a Ruby literal, interpolates anything.", "quantifier": "all byte strings, well formed or not, of every encoding", "why_tests_cant": "the writer and the reader are separate programs over all byte sequences with one character of lookahead and several escape forms", "anchors": ["monoruby/src/value/rvalue/string.rs:921-1257", "monoruby/src/builtins/string.rs:7662-7704", "monoruby/src/builtins/string.rs:7913-8040"]}
{"id": "C133", "title": "Numbers in strings", "statement": "Integer#to_s(radix) followed by String#to_i(radix) gives the Integer back; to_i, hex and oct read optional white space, a sign, the prefix of the radix and digits with single underscores, ignore the rest, and give 0 when no digit is there; sum(bits) is the sum of the bytes modulo 2**bits.", "quantifier": "all Integers of any size, all radices, all strings", "why_tests_cant": "a machine-word parser falls back to a second parser at overflow, and the two have to agree on every text", "anchors": ["monoruby/src/builtins/string.rs:5326-5571", "monoruby/src/builtins/string.rs:7309-7323"]}
{"id": "C134", "title": "Lazy chains", "statement": "A chain of lazy stages yields exactly what the same stages yield eagerly; first(n) asks the source for no value beyond those needed for n results, take and take_while stop the source, take(0) asks for none, each value goes through all stages before the next is asked for, and size, when not nil, is the number of values.", "quantifier": "all chains of stages, all sources, all blocks with or without effects", "why_tests_cant": "the stop signal has to pass through every combination of stages, and laziness shows only in what is not done", "anchors": ["monoruby/builtins/lazy.rb:36-330", "monoruby/builtins/enumerable.rb:237-250", "monoruby/builtins/enumerable.rb:641-681"]}
{"id": "C135", "title": "Enumerable methods over each", "statement": "Every method of Enumerable gives what its documentation says of the sequence each yields: the arrays, the searches (which stop at the answer), inject, the groupings into pieces, windows and tables, first extremes, zip and cycle.", "quantifier": "all sources, all blocks", "why_tests_cant": "each method keeps its own state across the walk; boundaries, ties and early stops multiply", "anchors": ["monoruby/builtins/enumerable.rb:1-932"]}
{"id": "C136", "title": "Enumerable#sum of Floats", "statement": "sum over Floats gives the compensated sum: exact for values whose partial sums are exact, infinite or NaN exactly when the plain sum is.", "quantifier": "all sequences of Floats", "why_tests_cant": "compensation is visible only for particular magnitudes, and breaks on particular values", "anchors": ["monoruby/builtins/enumerable.rb:602-640"]}
{"id": "C137", "title": "Set", "statement": "A Set holds each element once, in the order of first insertion; union, intersection, difference, symmetric difference, subset and superset tests, <=>, disjoint?, == and hash agree with membership; dup, replace, filters, map, classify, divide and flatten give the sets their documentation says; compare_by_identity is kept by copies; reset makes changed elements findable.", "quantifier": "all sets, all elements, all blocks", "why_tests_cant": "the operations choose which operand to walk and when to stop by size; equality of keys and of identity interact", "anchors": ["monoruby/src/builtins/set.rs:119-1446"]}
{"id": "C138", "title": "Comparable", "statement": "Over any <=>, the operators of Comparable say what the sign of <=> says, raise ArgumentError where <=> gives nil, and == then is false; != is always the negation of ==; clamp limits to its bounds, and between? asks self to compare itself with each.", "quantifier": "all classes that include Comparable, all <=> (numbers, nil, other results, exceptions), all arguments", "why_tests_cant": "the operators meet every kind of result and every mix of user-defined methods; tests use one well-behaved order", "anchors": ["monoruby/builtins/comparable.rb:1-105", "monoruby/src/executor/op.rs:322-356", "monoruby/src/globals/store.rs:1243-1264"]}
{"id": "C139", "title": "Struct", "statement": "A Struct class keeps its members fixed; new by position and by keyword fill the members, refuse what does not fit and honour keyword_init in subclasses; a value is had by index, Symbol, String or reader alike whatever the members are called; assignment changes one member of an unfrozen object; ==, eql? and hash go by class and values.", "quantifier": "all lists of members, all arguments, all instances and subclasses", "why_tests_cant": "names of members, subclassing, user-defined readers and the form of the arguments multiply", "anchors": ["monoruby/src/builtins/struct_class.rs:50-714", "monoruby/builtins/struct.rb:1-200", "monoruby/src/globals/store/class.rs:390-420"]}
{"id": "C140", "title": "Data", "statement": "Objects of a Data class are frozen for good; new takes exactly the members, by position or by keyword (Symbols or Strings); to_h and new undo each other; with changes the members named and no other; deconstruct_keys stops at the first name that is no member.", "quantifier": "all lists of members, all arguments, all instances", "why_tests_cant": "missing, unknown and repeated keys combine with every list of members", "anchors": ["monoruby/builtins/data.rb:1-161", "monoruby/src/builtins/data_class.rs:60-145"]}
{"id": "C141", "title": "Comparing Integers and Floats", "statement": "<=>, ==, <, <=, >, >= of Integers and Floats compare the numbers themselves, exactly; the operators agree with each other and with the operands exchanged; NaN compares with nothing.", "quantifier": "all Integers and Floats", "why_tests_cant": "rounding shows only near large powers of two", "anchors": ["monoruby/src/executor/op.rs:14-46", "monoruby/src/executor/op.rs:80-165", "monoruby/src/executor/op.rs:238-273", "monoruby/src/executor/op.rs:796-817"]}
{"id": "C142", "title": "Class variables", "statement": "Reading @@x finds the variable of the nearest class or module among the ancestors that has it, raises NameError if none has, and RuntimeError if a class nearer the receiver and one above both have it; assignment changes the variable that a read would find, or makes one in the class where the code stands, and touches no other; class_variables lists each reachable name once, remove_class_variable takes away the class's own; defined? and class_variable_defined? say whether a read would succeed.", "quantifier": "all hierarchies of classes and modules, all sequences of assignments, all names", "why_tests_cant": "the outcome depends on which of the ancestors have the variable, and in which order they got it", "anchors": ["monoruby/src/globals/store/class/constants.rs:146-157", "monoruby/src/globals/store/class/constants.rs:527-610", "monoruby/src/globals/store/class.rs:762-789", "monoruby/src/executor.rs:2347-2408", "monoruby/src/builtins/module.rs:2568-2740", "monoruby/src/codegen/runtime.rs:1864-1873", "monoruby/src/codegen/runtime.rs:2173-2183"]}
{"id": "C143", "title": "Time as an instant", "statement": "Times compare, are equal and hash by their instants, whatever their offsets; Time.at(t.to_r) is t; t + d - d is t, and (t + d) - t is d; moving two Times by the same amount keeps their order and difference; floor, ceil and round give the multiple of the precision below, above and nearest; getutc and getlocal keep the instant.", "quantifier": "all instants in range, all offsets, all exact numbers of seconds, all precisions", "why_tests_cant": "the corners are in the size of the numbers, in the sign of the instant, in carries over the second", "anchors": ["monoruby/src/builtins/time.rs:703-768", "monoruby/src/builtins/time.rs:1549-1630", "monoruby/src/builtins/time.rs:2002-2023", "monoruby/src/builtins/time.rs:2647-2931", "monoruby/src/builtins/time.rs:2974-2999"]}
{"id": "C144", "title": "Time and the calendar, offsets and Marshal", "statement": "Time.new(y, m, d, h, mi, s) is the first of that month plus the days, hours, minutes and seconds given, and raises ArgumentError for fields out of range; the days are those of the Gregorian calendar; an offset printed by %z, %:z or %::z is read back as itself; a Time that Marshal dumps and loads is the same Time.", "quantifier": "all years, all fields, all offsets below a day, all wall clocks", "why_tests_cant": "dates, offsets and wall clocks are too many, and the corners (leap years, ends of months, years before 1900, gaps of the local zone) are far apart", "anchors": ["monoruby/src/builtins/time.rs:491-571", "monoruby/src/builtins/time.rs:1254-1316", "monoruby/src/builtins/time.rs:1776-1840", "monoruby/src/builtins/time.rs:2434-2472", "monoruby/src/builtins/marshal.rs:1668-1724", "monoruby/src/builtins/marshal.rs:537-562"]}
{"id": "C145", "title": "Names of files", "statement": "File.join puts the components of its parts after one another; File.basename is the last component and File.dirname the name without it, level by level, and the two joined name the file again; File.extname is the basename's part from its last dot; File.split is [dirname, basename]; File.expand_path and absolute_path give an absolute name without '.', '..' or empty components, reached from the directory along the name, and leave an expanded name as it is; the other methods ask the system for the name given.", "quantifier": "all names, all directories, all home directories, all levels", "why_tests_cant": "the corners are runs of slashes, dots at the beginning, slashes at the end and '..' above the root, in every combination", "anchors": ["monoruby/src/builtins/file.rs:431-504", "monoruby/src/builtins/file.rs:548-652", "monoruby/src/builtins/file.rs:695-822", "monoruby/src/builtins/file.rs:1656-1748", "monoruby/builtins/file.rb:94-124"]}
{"id": "C146", "title": "Pathname#cleanpath and relative_path_from", "statement": "cleanpath gives a name without '.' or empty components, with '..' only at the beginning of a relative name, that leads to the same place from every directory; cleaning again changes nothing, and two relative names have the same cleanpath exactly when they always lead to the same place; of an absolute name it is File.expand_path; dest.relative_path_from(base) leads from base to dest, and raises ArgumentError exactly when one of them is absolute and the other is not or base goes further up than dest.", "quantifier": "all names, all directories to start from", "why_tests_cant": "names are unbounded, and the loops go from the end of a name that shrinks by a search for its own last component", "anchors": ["monoruby/builtins/pathname_builtins.rb:359-438", "monoruby/builtins/pathname_builtins.rb:826-861"]}
{"id": "C147", "title": "Complex arithmetic", "statement": "+, -, *, -@, conjugate, abs2 and ** of Complex numbers with Integer and Rational parts are those of the complex numbers, without rounding, whichever operand is the Complex; a / b times b is a, and parts of a quotient that are whole are Integers; division by an exact zero raises ZeroDivisionError; == is equality and <=> the order of the real parts, nil if there is an imaginary part; denominator is the smallest Integer that makes the parts whole and numerator the product with it; to_i, to_f and to_r give the real part exactly when the imaginary part is zero.", "quantifier": "all Complex numbers with exact parts, all exponents, every rounding of Floats", "why_tests_cant": "parts are unbounded Integers and Rationals, and the classes of the parts decide which of three ways of computing is taken", "anchors": ["monoruby/src/builtins/numeric/complex.rs:75-97", "monoruby/src/builtins/numeric/complex.rs:242-277", "monoruby/src/builtins/numeric/complex.rs:323-342", "monoruby/src/builtins/numeric/complex.rs:393-514", "monoruby/src/builtins/numeric/complex.rs:551-646", "monoruby/src/builtins/numeric/complex.rs:744-1042", "monoruby/src/value/numeric.rs:87-300", "monoruby/src/executor/op/binary_ops.rs:83-256"]}
{"id": "C148", "title": "File.readlines", "statement": "File.readlines(path, sep, limit, chomp:) gives the lines that gets(sep, limit, chomp:) on the file gives one after another until nil, as IO.readlines and IO.foreach do; with a separator that is not empty the lines joined are the file, the separator is in a line only at its end and ends every line but the last, and no line is longer than the limit allows; it always returns.", "quantifier": "all files, all separators, all limits", "why_tests_cant": "File.readlines has its own loop over the bytes instead of the one of gets; the two can differ for separators that overlap themselves, at the end of the file and under a limit", "anchors": ["monoruby/src/builtins/file.rs:1896-1996", "monoruby/src/builtins/io.rs:1317-1334", "monoruby/src/builtins/io.rs:1983-2026"]}
{"id": "C149", "title": "Hash methods", "statement": "to_h with a block, transform_keys(!), transform_values, select/reject, delete_if/keep_if, reject!/select!, slice, except, compact(!), merge (with and without a block, several Hashes), invert, key, has_value?, ==, <, <=, >, >= and min_by give the entries Ruby gives: which value a key has when several entries end up under it, in which order the keys come, when nil is returned for 'nothing changed', two Hashes are == exactly if they have the same keys with equal values in any order, and transform_keys! leaves the entries transform_keys returns even if new keys collide with old ones not yet reached; delete_if removes each entry as the block answers for it.", "quantifier": "all Hashes, all blocks and mappings, all arguments", "why_tests_cant": "collisions between new and old keys, between several merged Hashes and between values being inverted have no bound on their pattern", "anchors": ["monoruby/builtins/hash.rb:107-282", "monoruby/builtins/hash.rb:402-445", "monoruby/src/builtins/hash.rs:673-704", "monoruby/src/builtins/hash.rs:807-888", "monoruby/src/builtins/hash.rs:1804-1868", "monoruby/src/builtins/hash.rs:1998-2097", "monoruby/src/builtins/hash.rs:2218-2305"]}
{"id": "C150", "title": "Enumerator::Product, Enumerator::Chain and Enumerator.produce", "statement": "A product yields each choice of one element out of each member exactly once, the rightmost varying fastest, and its size is their number (0 if a member is empty, otherwise what the first member of unknown or infinite size says); a chain yields its sources one after the other, its size is the sum, and rewind rewinds, the last first, exactly the sources that each reached; produce yields the initial value (or the block's first) and then the block applied again and again, until the block raises StopIteration, which ends the enumerator.", "quantifier": "any number of members of any lengths, any block, breaking out at any element", "why_tests_cant": "the number of members and the element at which a walk is broken off are not bounded", "anchors": ["monoruby/builtins/enumerator.rb:34-157", "monoruby/builtins/enumerable.rb:1115-1169"]}
{"id": "C151", "title": "Composing and currying callables", "statement": "f >> g calls f with the arguments and g with its result, f << g the other way round, whatever the arguments; it is associative, a lambda exactly if the one called first is, and refuses something without call. arity tells the numbers of arguments a lambda takes. A curried Proc, however its arguments are spread over calls, calls the original as soon as it has as many as its arity, with all of them in order, and nothing before; curry(n) on a lambda raises exactly if the lambda does not take n arguments.", "quantifier": "all callables, all arguments, all ways of spreading them, all parameter lists", "why_tests_cant": "the ways to spread arguments over calls and the parameter lists are not bounded", "anchors": ["monoruby/builtins/proc.rb:1-25", "monoruby/builtins/method.rb:1-35", "monoruby/src/builtins/proc.rs:64-250", "monoruby/src/globals/store/function.rs:1419-1445"]}
{"id": "C152", "title": "Dir.glob", "statement": "Dir.glob returns exactly the paths the pattern stands for, each once: a segment matches entries of its directory, **/ any number of directories in between that are no links and not hidden (unless FNM_DOTMATCH), a trailing slash only directories, a trailing ** means *, and a pattern without wildcards gives its own path if it exists; every result is a path that exists.", "quantifier": "all finite directory trees, all patterns, any matcher of one segment", "why_tests_cant": "the depth and the shape of the tree and the number of segments are not bounded", "anchors": ["monoruby/src/builtins/dir.rs:256-335", "monoruby/src/builtins/dir.rs:513-812"]}
{"id": "C153", "title": "Editing a String in place", "statement": "insert, concat, prepend, chop, delete_prefix, delete_suffix, slice!, byteslice and bytesplice replace exactly the characters (bytes) that the index, the start with the length or the Range means and keep all others; the arguments are what they were at the call; the forms with ! return nil exactly if nothing changed; a frozen String raises FrozenError whatever the arguments.", "quantifier": "all strings, all indices, lengths and ranges (also negative, open, outside), any number of arguments", "why_tests_cant": "lengths and indices are not bounded; off-by-one errors hide in combinations of negative, exclusive and open ends", "anchors": ["monoruby/builtins/string.rb:7-68", "monoruby/src/builtins/string.rs:987-1007", "monoruby/src/builtins/string.rs:1885-1930", "monoruby/src/builtins/string.rs:2340-2519", "monoruby/src/builtins/string.rs:4503-4880"]}
{"id": "C154", "title": "Fibers resume and yield like a stack", "statement": "Fiber#resume suspends the running fiber and runs the other; Fiber.yield and the end of a body go back to the fiber that resumed it and hand over the value. A fiber that has ended, runs, or waits for another one cannot be resumed; raise and kill enter a fiber that yielded, and no other. Fiber#transfer is refused by a fiber that has yielded, waits or has ended, and the end of a fiber reached by transfer goes to a fiber that can run.", "quantifier": "all programs of resume, yield, transfer, raise, kill and ends of fibers, any number of fibers", "why_tests_cant": "the interleavings of fibers and the depth of the resumptions are not bounded", "anchors": ["monoruby/src/value/rvalue/fiber.rs:189-375", "monoruby/src/value/rvalue/fiber.rs:437-590", "monoruby/src/builtins/fiber.rs:249-496", "monoruby/src/executor.rs:1962-2118"]}
{"id": "C155", "title": "An Enumerator used with next is a cursor", "statement": "next, next_values, peek and peek_values walk through what each yields, in order and without skipping or repeating: peek does not advance, rewind starts again, after the last element StopIteration with the value of each is raised until rewind, an exception of the iteration is raised and the next call starts again. feed sets what the pending yield returns and is refused while an earlier value has not been taken. Changing a returned Array changes nothing else.", "quantifier": "all iterations, all programs of next, next_values, peek, peek_values, rewind and feed", "why_tests_cant": "the order of the calls, the place of the end and of an exception are not bounded", "anchors": ["monoruby/src/value/rvalue/enumerator.rs:170-307", "monoruby/src/builtins/enumerator.rs:216-238", "monoruby/src/builtins/enumerator.rs:468-535", "monoruby/src/value/rvalue/fiber.rs:377-396"]}
{"id": "C156", "title": "Kernel#format lays numbers and strings out as its directives say", "statement": "A format string is literal text, %% and directives: flags in any order and number, a width and a precision written or taken from the arguments, and a letter. Arguments are taken from left to right, running out of them is an error. An Integer is written in its base with sign, prefix and as many digits as the precision asks for, a negative one without a sign flag in base 2, 8 or 16 as its two's complement with the fewest digits behind two dots; the field is filled to the width in characters, on the left with spaces or, with the 0 flag and no precision, between prefix and digits. A String is cut to the precision and filled to the width, in characters.", "quantifier": "all Integers, Strings, flags, widths, precisions, format strings and argument lists", "why_tests_cant": "the flags, widths, precisions and numbers interact, and each is unbounded", "anchors": ["monoruby/src/executor/format.rs:263-330", "monoruby/src/executor/format.rs:616-720", "monoruby/src/executor/format.rs:803-1302", "monoruby/src/executor/format.rs:1317-1545"]}
{"id": "C157", "title": "Arrays as sets and tables", "statement": "uniq and uniq! keep the first element of each kind under eql? (or of each block value), in order; uniq! returns nil exactly when nothing was removed, and an exception on the way leaves the array as it was. -, difference, &, intersection, |, union and intersect? are the set operations on these kinds, in the order of the receiver and then the arguments. delete and compact! remove exactly the equal elements, or nil. transpose turns rows into columns and refuses rows of different lengths, zip gives rows of the elements at one place, values_at the elements at its indices and ranges and RangeError for a range that begins before the array, <=> is decided by the first pair that differs, rindex finds the last place.", "quantifier": "all arrays, all classes of equal elements, all blocks, all argument lists", "why_tests_cant": "lengths, repetitions, the place of an exception and the combinations of ranges are unbounded", "anchors": ["monoruby/src/value/rvalue/array.rs:55-72", "monoruby/src/value/rvalue/array.rs:256-278", "monoruby/src/builtins/array.rs:720-860", "monoruby/src/builtins/array.rs:3729-3950", "monoruby/src/builtins/array.rs:3536-3561", "monoruby/src/builtins/array.rs:1794-1862", "monoruby/builtins/array.rb:493-690"]}
{"id": "C158", "title": "throw goes to the innermost catch with its tag", "statement": "throw ends the innermost running catch with the same tag, which returns the value; what lies between is abandoned, ensure clauses run from the inside out, rescue clauses do not see it, and catches further out go on. Without such a catch in the same Fiber or Thread throw raises UncaughtThrowError, which can be rescued; no throw ever leaves the program.", "quantifier": "all programs of catch, throw, ensure, rescue and Fibers, nested to any depth", "why_tests_cant": "the nesting of catches, clauses and tags is unbounded", "anchors": ["monoruby/src/builtins/kernel.rs:4252-4311", "monoruby/src/executor.rs:691-701", "monoruby/src/codegen/jit_module.rs:172-180"]}
{"id": "C159", "title": "at_exit handlers and the exit status", "statement": "When the program ends every at_exit handler runs exactly once, the last registered first and one registered by a handler right after that handler, whether or not handlers raise or call exit; the handler of trap(:EXIT) runs before them. The exit status is that of the last handler that called exit, else 1 if a handler raised, else the script's own.", "quantifier": "all lists of handlers that register further handlers and end in any way, all ends of the script", "why_tests_cant": "the number, nesting and outcomes of the handlers are unbounded", "anchors": ["monoruby/src/executor/op.rs:609-651", "monoruby/src/globals.rs:890-1006", "monoruby/src/builtins/kernel.rs:4987-4995"]}
{"id": "C160", "title": "The chain of causes of an exception ends", "statement": "An exception raised while another one is handled gets it as its cause unless it already has one; cause: sets another one. From every exception cause.cause... ends with nil: a cause: that would close a circle raises ArgumentError, re-raising an exception from the chain of $! changes nothing, and no raise hangs. The report of an uncaught exception shows the whole chain, each exception once. This holds whether the exception is raised with raise, Fiber#raise or Thread#raise.", "quantifier": "all sequences of raises, re-raises, copies and deliveries to other fibers and threads, all causes", "why_tests_cant": "the chains and the orders of raises are unbounded; a circle only appears after several steps", "anchors": ["monoruby/src/builtins/kernel.rs:990-1189", "monoruby/src/executor.rs:1834-1865", "monoruby/src/builtins/fiber.rs:455-490", "monoruby/src/builtins/thread.rs:232-300", "monoruby/src/globals/error.rs:262-291"]}
{"id": "C161", "title": "The report of an exception shows its message, its frames and its causes", "statement": "detailed_message keeps the message and puts the name of the class after its first line. full_message shows where and what, then every caller on a line of its own (at most --backtrace-limit of them and how many are left out), then the same for each cause in turn, and nothing else; highlight: changes nothing visible; order: :bottom shows the callers in the opposite order, each numbered by its distance from the error.", "quantifier": "all messages, class names, backtraces, limits and chains of causes", "why_tests_cant": "messages, backtraces and chains are unbounded; a test pins single reports", "anchors": ["monoruby/builtins/exception.rb:77-160"]}
{"id": "C162", "title": "Finalizers belong to their objects", "statement": "At the end of the program every finalizer that was defined and not undefined is called exactly once, the last defined first, with the id of its object. A callable is recorded once per object, undefine_finalizer drops those of its argument only, and a copy gets those of its original, no matter which objects were freed in between.", "quantifier": "all sequences of creating, freeing, copying objects and defining and undefining finalizers, all addresses given to new objects", "why_tests_cant": "whether an address is used again depends on the garbage collector and the allocator", "anchors": ["monoruby/src/builtins/kernel.rs:4884-4896", "monoruby/src/builtins/kernel.rs:4998-5073", "monoruby/src/executor/op.rs:639-667", "monoruby/src/globals.rs:335-341", "monoruby/src/globals.rs:419-430"]}
{"id": "C163", "title": "ARGF is the concatenation of its files", "statement": "Reading through ARGF yields the bytes of the files named in ARGV one after the other, or those of stdin if none is named, each byte once. read gives all that is left, read(n) the next n bytes across the ends of files, getbyte the next byte, and nil only if nothing is left. gets and readlines give the lines of the first file, then those of the second: a line never runs over the end of a file, and lineno counts the lines over all files. eof? reads nothing, and skip and close leave out the rest of the current file only.", "quantifier": "all lists of files, all contents, all sequences of reading operations", "why_tests_cant": "the ends of files can fall anywhere with respect to lines and lengths, files can be empty, and the operations can be mixed in any order", "anchors": ["monoruby/src/builtins/argf.rs:199-289", "monoruby/src/builtins/argf.rs:365-440", "monoruby/src/builtins/argf.rs:474-562", "monoruby/src/builtins/argf.rs:691-724", "monoruby/src/builtins/argf.rs:797-803", "monoruby/src/builtins/argf.rs:849-879"]}
{"id": "C164", "title": "A Dir object is a cursor over its names", "statement": "read gives every name of the directory once, in order, and then nil. Going back to a place that tell gave makes everything that follows come out the same. each gives all names from every place and leaves the cursor behind the last name given, also when the block breaks; children gives those other than . and .. . A closed Dir raises and does not change, close can be repeated, and the descriptor is closed exactly once, also by Dir.open with a block.", "quantifier": "all lists of names, all sequences of operations", "why_tests_cant": "the operations can be mixed in any order and repeated any number of times", "anchors": ["monoruby/builtins/dir.rb:4-31", "monoruby/builtins/dir.rb:55-116"]}
{"id": "C165", "title": "ENV is the environment of the process", "statement": "At all times ENV shows what the environment of the process holds, and a child process gets what ENV shows together with the changes asked for in the call. An assignment changes one variable or raises and changes nothing; nil and delete remove it; merge! gives every variable the value of its last pair; replace changes everything or, if one of the pairs cannot be, nothing.", "quantifier": "all environments, all sequences of operations on ENV, all names and values", "why_tests_cant": "the two copies have to agree after every sequence of operations, also failed ones", "anchors": ["monoruby/src/builtins/hash.rs:217-267", "monoruby/src/builtins/hash.rs:2572-2727", "monoruby/src/builtins/hash.rs:2888-3062", "monoruby/src/builtins/hash.rs:1673-1676", "monoruby/src/builtins/spawn.rs:283-293"]}
{"id": "C166", "title": "Redirections of spawn", "statement": "In a process started with redirections every redirected descriptor is what its option says: the descriptor of the parent that is named, the file that is opened, closed, or for [:child, n] what descriptor n of the child is. Every other descriptor is what it is in the parent, unless it is marked close-on-exec or close_others is given. The order of the options does not matter.", "quantifier": "all descriptor tables, all lists of redirections", "why_tests_cant": "redirections can use each other's descriptors in any combination, and the number that open(2) gives depends on the process", "anchors": ["monoruby/src/builtins/spawn.rs:15-34", "monoruby/src/builtins/spawn.rs:485-543"]}
{"id": "C167", "title": "How a command line is started", "statement": "A command given to system, spawn or exec as one string does what a shell makes of it, whether a shell is started or not. A program given with arguments is started under exactly this name with exactly these arguments, and no shell looks at them, whatever characters they contain.", "quantifier": "all strings, all lists of arguments", "why_tests_cant": "every character can have a meaning to the shell, in every position", "anchors": ["monoruby/src/builtins/kernel.rs:3457-3509", "monoruby/src/builtins/spawn.rs:253-279"]}
{"id": "C168", "title": "The program that spawn and exec start", "statement": "A program named with a slash is that file, and its error is reported. Any other name is looked for in the directories of PATH, in their order, an empty one being the current directory; the first file that can be executed is started (by a shell, if it is a script without interpreter line), and there is an error exactly if there is none.", "quantifier": "all values of PATH, all names, all states of the file system", "why_tests_cant": "which directories exist and what can be executed in them depends on the machine", "anchors": ["monoruby/src/builtins/spawn.rs:307-323", "monoruby/src/builtins/spawn.rs:552-580"]}

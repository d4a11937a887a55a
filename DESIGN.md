# Design of the formal model of monoruby

Lean 4.33.0, project in `lean/`.  Source of truth: the pinned commit in `/repo`
(read as text; nothing is built or run).

## Layout

Each area has up to three modules under `lean/Verif/`:

* `<Area>/Model.lean`  – definitions that follow the Rust code function by
  function.  Every definition cites file and lines, and says where it simplifies.
* `<Area>/Lemmas.lean` – helper lemmas.
* `<Area>/Props.lean`  – a small independent specification, the property
  theorems (named after the property ids) and `example`s showing that the
  hypotheses are met by non-trivial cases.

## Modelling conventions

* A fixed-width machine word is a `BitVec n`, or an `Int`/`Nat` with explicit
  wrap-around where the code relies on it; `BigInt` is `Int`.
* A panic, an overflow in a debug build, or a Ruby exception is an explicit value
  (`Except`/`Option`), never a silent default.
* Loops with a data-dependent bound are either structural recursions or carry a
  termination proof; where fuel is used, a theorem shows that the fuel suffices.
* Concurrent code is a transition system; one atomic memory operation (or one
  region the code executes without a safepoint) is one step.
* User code called back by the runtime (sort blocks, comparison, hash functions)
  is an arbitrary function, with state where the code allows it to have state.

## Trusted base

* Lean's kernel and the axioms `propext`, `Classical.choice`, `Quot.sound`
  (`#print axioms` of every theorem is a subset of these).
* The transcription of Rust into Lean definitions, checked by reading only.
* Behaviour of dependencies that are modelled by their documented contract:
  `num::BigInt` (exact integers, truncated division), `hashbrown::HashTable`
  (a multiset of stored indices, probed with hash and equality),
  `Vec`/`VecDeque`, OS calls (`read`, `write`, `poll`: arbitrary results within
  their contract), the atomic instructions.

## What is modelled, property by property

| id | model | proof |
|----|-------|-------|
| C01 | `value.rs` integer boxing over 64-bit words | round trip, canonicity |
| C02 | `value.rs` float boxing over 64-bit words | round trip by bit-vector reasoning |
| C03 | `value.rs` tag tests and constructors | disjointness and injectivity for all words |
| C04 | `numeric.rs` checked-then-bignum arithmetic | equality with `Int` arithmetic + canonicity |
| C05 | `numeric.rs` `RubyDiv`/`RubyMod`/`RubyDivMod` | equality with floored division |
| C06 | `binary_ops.rs` shifts | equality with `*2^n` / floor, `_partial` where counts exceed 32 bits |
| C07 | `binary_ops.rs` power | exactness, plus counterexamples where the code rejects or truncates |
| C08 | `binary_ops.rs` bit operators | bitwise law for all positions |
| C09 | `sort.rs` as a state machine over array + scratch with a stateful, raising comparator | permutation on every exit |
| C10 | same model, pure comparator | sortedness + stability |
| C11 | `hash.rs` + `rubymap` core | refinement to an ordered association list |
| C12 | `hash.rs` iteration cursor and tombstones | simulation against the list of live entries |
| C13 | `rubymap` core | invariant by induction over operations |
| C14 | `alloc.rs` collector + write barrier as a transition system | invariant by induction over histories |
| C15 | same, marking with depth limit and queue | mark set = reachable set |
| C16 | `alloc.rs` page/free-list allocator | invariant |
| C17 | `prng.rs`, `random.rs` | refinement to a live generator |
| C18 | `prng.rs` | range and counting |
| C19 | `id_table.rs` | invariant by induction over interning histories |
| C20 | `io/buf.rs` writer against an adversarial sink | invariant |
| C21 | `io/buf.rs` reader against an adversarial source | invariant |
| C22 | `signal_table.rs` + `poll_flag.rs` as transition system | invariant + progress |
| C23 | `poll_flag.rs` byte lanes | bit-vector reasoning |
| C24 | `scheduler.rs` transition system | invariant |
| C25 | same | invariant + witness runs |
| C26 | `scheduler.rs` interrupt queue | induction over histories |
| C27 | `native_pool.rs` transition system | safety invariant; liveness refuted by a run (see findings) |
| C28 | `rational.rs` | normal form + equality in `ℚ` |
| C29 | `rational.rs` rounding | equality with the definition where it holds, counterexamples elsewhere |
| C30 | `rational.rs` `find_simplest` | minimality |
| C31 | `fnmatch.rs` | equivalence with a declarative matching relation |
| C32 | `pack.rs` fixed width | round trip |
| C33 | `pack.rs` BER, ULEB128, SLEB128 | round trip; counterexample for BER of big integers |
| C34 | `pack.rs` base64, uu, qp, hex, bit strings | round trip |
| C35 | `pack.rs` `U` | round trip; counterexample above 0x1FFFFF |
| C36 | `ivar_table.rs` and its callers | invariant |
| C37 | `value.rs` `eql`, `ruby_hash` | induction over values |

The sections below are filled in as areas are completed.

### Value and Integer arithmetic (C01–C08): `Verif/Value`, `Verif/IntArith`

Modelled: `value.rs` boxing and tag tests over `BitVec 64`; `numeric.rs`/`binary_ops.rs`
operators over the two representations (inline / heap).  Not modelled: Float and
user-defined operands of these operators, machine code emitted by the JIT.

Findings: the float 2^-255 is stored as 0.0 (`C02_float_round_trip_fails`); `>>` by more than
2^32-1 of a very long Integer returns 0/-1 (`C06_shr_fails`); `C07_*_fails/_rejects/_panics`.

### Sorting (C09, C10): `Verif/Sort`

Modelled: the merge sort of `array.rs` (`sort_inner`, `sort_by!`) on an array and a scratch
buffer, comparator with arbitrary state and exceptions.  Not modelled: the comparison fast
paths for all-Integer/all-String arrays as machine code.

### The ordered map (C13, C38): `Verif/Rubymap`

Modelled: `rubymap/src/map/core.rs` over an abstract `Table` (hashbrown's contract); an
example table (`listTable`) shows the contract is satisfiable.  Keys compare by stateful
user code that may raise.  Finding: `C38_large_map_swallows_exception`.

### Hash (C11, C12): `Verif/Hash`

Modelled: `value/rvalue/hash.rs` – inline (≤3 immediate keys) and boxed bodies, promotion,
tombstones, lazy compaction, iteration guards (2-bit saturating depth inline, counter when
boxed), `compare_by_identity`, `shift`, `clear`, `rehash`, `dup`, the loop of `each`.  The
specification (`Spec.lean`) is a list of pairs plus a list of running traversals.  Not
modelled: default procs, `eql?` methods that raise or mutate the Hash (C38 covers the
former at the map level).  Finding: `C12_unnested_traversal_is_not_protected`.

### The heap (C14, C15, C16): `Verif/Gc`

Modelled: `alloc.rs` – pages, free list, mark and old bitmaps, recursive marking with the depth
limit and queue, minor and major collection, remembered set, aging, salvage of empty pages,
`sweep_bits` over 64-bit words; `rvalue.rs` – write barriers and header flags.  Objects are
reduced to their outgoing references, one datum and `is_promotable`.  The bitmaps and cells of
memory not yet in service hold arbitrary values.  `Legal` is what the runtime owes the collector:
references it holds are in the root set and stores go through the barrier.  Not modelled: root
enumeration, the store sites, when a collection is triggered, threads.
`Inv` is the invariant; `Mark`, `Gen`, `Sweep`, `Inv`, `Ops` the phases.
Finding: `C16_arena_overrun`.

### Random numbers (C17, C18, C41): `Verif/Random`

Modelled: `prng.rs` – seeding (`init_genrand`, `init_by_array`), in-place regeneration, tempering,
`limited_rand` and its callers, `next_real`, `fill_bytes`; `random.rs` – instances as seed and
count, replay, `==`, sessions of draws; integer ranges of `Kernel#rand` and `Random#rand` with
release-build wrapping.  Draws are generic in the source of words; the unbounded rejection loop
has fuel and the theorems speak of draws that return.  Not modelled: the float product
`f * max`, Float ranges, `Random.new_seed`, OS entropy, `srand` bookkeeping.
Findings: `C17_equality_ignores_sign`, `C17_reentrant_draw_is_lost`,
`C41_kernel_rand_all_fixnums_is_nil`, `C41_random_rand_wide_range_never_nonnegative`.

### shuffle and sample (C39, C40): `Verif/Sample`

Modelled: `array.rs` `shuffle_inner` and all branches of `sample_inner`, with the draws as input.
A `Scheme` is "each draw takes one of the remaining positions"; both algorithms are instances.
Finding: `C40_shrunk_receiver_panics`.

## Symbols (C19, C42, C43): `Verif/Symbol`

Modelled: all of `id_table.rs` (the table, its 95 registered names, `get_id`,
`get_id_from_string`, `get_id_from_bytes`, the name and encoding read-back, `compare`, the
derived names, `all_symbols`, the special-globals block), and the four places that choose what
to intern: `String#to_sym`, symbol literals, name arguments (`try_symbol_or_string`) and
`Marshal.load`; `Symbol#to_s`.  Each lock acquisition is one step, so a history of steps is an
interleaving of any number of threads; `get_id`'s read phase and write phase are separate steps.

Not modelled: std's `HashMap` and `RwLock` (trusted), `String::from_utf8_lossy` (a parameter),
the per-Symbol cache of `Symbol#name`, `Symbol#inspect`.

Proof: the invariant `Inv` (the reverse maps and the table are inverse to each other, away from
the five ids the constructor leaves unnamed) holds initially (a finite check of the 95 literal
entries of the constructor, lifted to all strings by list membership) and is kept by every step;
`Ext` says a step only adds.  The property theorems quantify over all histories.

Findings.
* `Symbol.all_symbols` lists five Symbols (ids 96-100) that read back as `""` and that no name
  denotes: `C43_all_symbols_lists_phantoms`.
* A String that is not valid UTF-8 names one Symbol in `define_method` and another after
  `to_sym`: `C42_invalid_name_argument_differs`; likewise `Marshal.load`.
* Binary Symbols: `<=>` ignores the encoding, and `attr_*` derives names lossily.

## IO buffers (C20, C21, C44, C45): `Verif/IoBuf`

Modelled: all of `io/buf.rs` (`WriteBuf`, `write_direct`, `IoReader`), the reading and writing
half of `io.rs` (`read_step`, `read_upto`, `read_all`, `read_until_step`, `read_partial_chunk`,
`utf8_missing_bytes`, pushback, `read_impl`, `read_underlying`, `read_line_bytes`, `getline`,
`readpartial`, `sysread`, `write`, `write_nonblock`, `flush`, `seek`), and from `builtins/io.rs`
`getc`, `eof?`, `pos` and the retry loop.  The kernel is a list of arbitrary answers (short
transfers, `EINTR`, `EAGAIN`, errors) and of arbitrary answers to "is a signal pending"; the
theorems quantify over both.  A result `none` means the list of answers ended; the completion
theorems show that enough answers suffice.

Not modelled: files that grow after an end of file was reported, `O_APPEND`, encodings other than
UTF-8/bytes for `getc`, closed and write-only streams (they raise earlier), text-mode conversion.

Specification (`IoSpec.lean`): pure functions on the byte sequence still to be read.  Proof: the
reader invariant (`Reader.Inv`: the buffer is the part of the file before the descriptor's
offset), the abstraction `Io.rest`, one lemma per function saying it computes the specification
or, interrupted, leaves a state with the same specified outcome.

Findings.
* Bare `gets` interrupted or parked twice inside a line drops what it had gathered
  (`C44_gets_twice_interrupted_loses`).
* `getc` parked inside a multi-byte character drops its first bytes (`C44_getc_parked_loses`).
* Standard input has no pushback: interrupted reads drop bytes, `$stdin.eof?` raises when input is
  available, paragraph mode eats the first byte of the next paragraph
  (`C44_stdin_interrupted_loses`, `C44_stdin_eof_raises`, `C44_stdin_paragraph_loses_byte`).
* `sysread` on a pipe returns bytes behind the buffered ones (`C44_sysread_overtakes_buffer`).
* `write_nonblock` overtakes buffered output (`C20_write_nonblock_overtakes`).
* A write right after a buffered read lands at the read-ahead offset
  (`C45_write_after_read_lands_elsewhere`); `seek` and `rewind` keep ungot bytes
  (`C45_seek_keeps_ungot_bytes`).

## Signals and poll requests (C22, C23) — `Verif/Signal`

Modelled: the poll word's lanes and their atomic operations (poll_flag.rs), the pending bitmap, the
handler, the signal tables (codegen/signal_table.rs), the timer's write (preempt.rs), the poll
(`execute_gc`, executor.rs:4816-4953) instruction by instruction, the trap table at start, and the
address registries.  A history is any interleaving of arriving signals (whose handler's two writes
are separate events), timer ticks, collection requests, poll sites and steps of any number of
running polls.  Not modelled: the stress modes, the watchdog, `sigaction` itself, weak memory order
(the model is sequentially consistent), and what the collector or the scheduler do when called.

* C22: `C22_pending_signal_stops_the_program` (the arming invariant over all histories),
  `C22_recorded_until_drained`, `C22_poll_drains` (under arbitrary asynchronous events between the
  poll's instructions), `C22_lowest_first`, `C22_delivered_at_most_as_often_as_arrived` (a token
  count over all histories), `C22_poll_delivers_partial`, `C22_installed_signals_raise`.
  **Finding** (`C22_coalesced_signal_is_lost`): the poll delivers only the lowest-numbered signal of
  the bitmap it drained; another distinct signal in the same bitmap is gone for good.
* C23: `C23_requests_independent` (for every sequence of lane operations),
  `C23_gc_request_survives`, `C23_requests_reach_a_live_word`.

## Rational and Float conversion (C28, C29, C30, C46): `Verif/Rational`

Modelled: all of `value/rvalue/rational.rs` but `to_s`/`inspect` (normalisation, arithmetic,
comparison, `ndigits_sufficient`, the four rounding functions, `from_f64`, `find_simplest`),
`**`, `==`, `!=` with an Integer and `Float#to_r`/`#rationalize` from `builtins/numeric`, and
`Rational#rationalize` from the Ruby file.  `BigInt` is `Int` (`div_rem` = `tdiv`/`tmod`,
`div_floor` = `fdiv`); `as u32` casts are kept.  A finite non-zero double is `±m·2^e`.  The two
search loops carry a turn bound; the theorems show any bound of at least numerator plus denominator
suffices, so the code's unbounded loop terminates.

Specification: Mathlib's `ℚ` (field operations, order, `Int.floor`, `Int.ceil`, `Int.fract`).
"Simplest" is defined by minimality over all fractions in the interval (`IsSimplest`).  Proof of the
search: the ends are Farey neighbours (`Inv`), hence every fraction between them is at least the
mediant in both parts; the Ruby loop is shown to take the same steps as the Rust one.

Findings: `C28_pow_exponent_wraps`, `C28_not_equal_to_its_own_bignum`,
`C29_round_negative_is_one_too_large` (every negative number past the half:
`Rational(-5,3).round == -1`), `C29_floor_negative_digits`, `C29_ceil_negative_digits`,
`C29_round_half_down_negative_digits`, `C29_digits_wrap`, `C30_interval_with_zero`,
`C46_rationalize_off_by_one` (every Float in [2^53, 2^54)).

Not modelled: `Rational#rationalize` with a Float `eps`, coercion of other operand classes,
`Rational#**` with a Rational or Float exponent, parsing (`String#to_r`, `Kernel#Rational`).

## pack and unpack (C32, C33, C34, C35, C47, C48): `Verif/Pack`

Modelled: `value/rvalue/string/pack.rs`: the template parser (directives, modifiers, counts,
comments), `pack` and `unpack` of every directive but the single-precision floats (`e f F g`) and
pointers (`p P`), which the parser accepts as `unmodelled`.  A template is a `String`, packed bytes
are a list of numbers below 256, a double is its 64 bits.  Not modelled: the encoding of the result,
the `buffer:` and `offset:` keywords, conversions by `to_int`/`to_str`, and the boxing of doubles
(C02).  `Vec` loops that stop at the end of data carry a fuel bound equal to the length.

Specification (`Spec.lean`, and the head of `TextProps.lean`): the table of directives with width,
sign and byte order as documented; `reduce` by `Int.bmod`/`Int.emod`; records as lists of `Field`;
Base64 over the bit string of the data; UTF-8 by Lean's own `String.utf8EncodeChar`.  Proof: every
field satisfies `Law` (its bytes, followed by anything, are read back and exactly consumed), laws
compose along the template, and the parser reads back the text of a record.

Findings: `C33_ber_loses_large` (every Integer from 2^63 on), `C35_long_forms_unreadable`,
`C48_count_rounded_up` (`["abcd"].pack("m4")`).

## fnmatch (C31): `Verif/Fnmatch`

Modelled: all of `builtins/fnmatch.rs`: bracket expressions, the backtracking loop, `FNM_PATHNAME`
with globstars, brace expansion, the flags.  Indices are replaced by the suffixes they stand for;
case folding of one character is an arbitrary function `lower`.  The backtracking loop has a fuel
argument and returns `none` when it runs out: `C31_terminates` shows that it does not.  Not modelled:
argument conversion, and the walk over directories of `Dir.glob`, which calls the same functions.

Specification (`Spec.lean`): the language as an inductive relation `Matches` over atoms (characters
with escapes resolved), `PathMatches` over segments, segments as the unique list whose join is the
path, balanced brace patterns as trees with their text and their words.  Proof: one backtrack point
is enough because a later star absorbs what an earlier one could have taken (`star_idem`,
`run_spec`'s `Alt`); `expandAux` by induction on the length.

Findings: `C31_star_before_period_matches_hidden`, `C31_stray_brace_disables_groups`.

## Instance variables (C36): `Verif/Ivar`

Modelled: `value/rvalue/ivar_table.rs` (allocation, growth, resize, clone; memory words may be
uninitialised), the ivar functions of `value/rvalue.rs`, the class tables of
`globals/store/class/instance_var.rs`, singleton classes, `dup`/`clone`, the inline caches of
`codegen.rs`, and the compiled accesses with their prologue (`emit_preparation`, the checked and
unchecked loads and stores) of the x86-64 back end.  Every read of memory outside the slots or never
written is `none`.  Not modelled: the write barrier, `IO#reopen` (which also changes an object's
class), copy hooks, always-frozen classes.

Specification (`Spec.lean`): an object is a map from names to values with a frozen flag; classes,
caches and compiled code do not exist.  Proof: the invariant says that slots beyond the class's
table are empty, caches and compiled ids agree with the table, tables only grow; each operation then
acts as on maps.

Findings: `C36_dup_after_singleton_loses`, `C36_dup_after_singleton_renames`,
`C36_clone_after_singleton_renames`, `C36_dup_drops_unknown` (a copy of an object with a singleton
class reads its slots through another class's table).

## `eql?` and `hash` (C37): `Verif/Eql`

Modelled: `Value::eql`, `ruby_hash` and `ruby_hash_packed` of `value.rs` with the structural arms for
Strings, Arrays, Ranges, Hashes and Sets, the lookup of a Hash as "same digest and `eql?`", and the
Ruby-level methods `hash` and `eql?` of these classes.  `ruby_hash` is modelled as the list of items
fed to the hasher, so the theorems hold for every hash function.  Not modelled: containers that
contain themselves (and the recursion guards), redefined methods, String encodings, Rational,
Complex, Struct, Time.

Specification (`Spec.lean`): `Same`, structural equality that ignores the order of a Hash; `WF`, the
values over one heap (one object per address, Floats boxed only when they must be, keys of a Hash
distinct).  Proof: `eql?` is symmetric and transitive by induction over the size, with a matching
lemma for the pairs of two Hashes (a total injective relation between lists of equal length is a
bijection); the hash by induction, with the same matching for the order-independent sums.

Findings: `C37_reordered_hash_not_found`, `C37_reordered_in_array`, `C37_reordered_key_not_same` (the
key digest of a Hash depends on insertion order although `eql?` does not), `C37_zero_keys`,
`C37_zero_range` (the two zeros are `eql?` with equal hashes but are different keys),
`C37_hash_eql_set` (a Hash is `eql?` to a Set, not conversely).

## Area: native worker pool (C27) — `Verif/NativePool`

Modelled: `native_pool.rs` l.56-148 and l.186-202 as an interleaving transition system.  An action is
one critical section or one access to a shared object of one worker or one waiter: `submit`, the
worker's end of call, lock, orphan test, insert, unlock, pipe write; the waiter's `try_take`, park,
drain, interrupt, and the four steps of `discard`; and the poller, which wakes every thread parked on
a readable pipe (`scheduler.rs` `poll_io_waiters`).  The `ORPHANS` lock is explicit because both sides
do two operations under it; operations on `RESULTS` are single steps.  The interleaving is arbitrary,
which includes every order the cooperative scheduler can produce.

Not modelled: a full pipe, a failing `thread::spawn`, poisoned locks.

Proved: `C27_at_most_once`, `C27_exactly_once`, `C27_no_leak`, `C27_quiescent`, `C27_lock_released`,
`C27_delivered`, `C27_wakeup_partial` (one outstanding job per interpreter).

Findings:
* `C27_lost_wakeup`.  All waiters of an interpreter share one pipe and the one that wakes first empties
  it.  Waiters 0 and 1 are parked; job 1 completes and the poll wakes both; waiter 0 empties the pipe,
  finds nothing and parks again; job 0 completes and writes its byte; waiter 1, which is still in the
  run queue from the first poll, empties the pipe before it looks for its own result.  Waiter 0 sleeps
  with its result stored and the pipe empty.  The theorem shows that no step of workers, poller or other
  waiters gets it out.  The scheduler polls before each dispatch, so job 0's byte has to arrive after
  that poll and before waiter 1's `drain`.
* `C27_abandoned_open_leaks`.  A thread killed while a FIFO `open` is in progress leaves the descriptor
  the call returns later open for good.

## Area: the thread scheduler (C24, C25, C26, C49, C50) — `Verif/Sched`

Modelled (`Model.lean`): `scheduler.rs` — the registry, run queue, sleepers, descriptor waiters, the
scheduler loop on main's stack with its idle wait and its error return, `dispatch`, `finalize_common`
with the forwarding of exceptions to main, `spawn`, `sleep`, `wakeup` with and without permit, `pass`
(both of main and of green threads), `join`, `wait_fds`, `interrupt` with masks and uninterruptible
sections, `fork_child_reset_threads`.  A step is a call of the running thread, a round of `join`, one
iteration of the loop, the idle wait, one thread of main's `pass`, or the passing of time.  Which
descriptors are ready is chosen freely at each poll, and so is the moment the loop fails.  Interrupts
carry a number, so that "at most once" and "in order" can be said; the ghost fields `queued`, `got`,
`roused` record the history and are read by nothing.

Not modelled: time-slice preemption (a `pass` that the model allows anywhere in user code), the
reports of exceptions, fibers inside threads, an error out of the poll inside main's `pass`, the
Ruby-level Mutex/Queue/ConditionVariable on top, the order of a mask Hash (a frame is a list).

Proof: `Q` and `CInv` (queue counts and deadline entries, on schedules where no timed wait for a
descriptor ends early and main is not thrown out of the loop), `P` (positions and masks, all
schedules), `J` (who waits for whom in `join`), `H` (numbers of interrupts), `D`, `Z` (death before and
after a fork), `step_evt`, `step_cv`, `step_pc` (what one step does to one thread), `run_order` (FIFO).

Findings:
* `C24_queued_while_running_and_dead`, `C24_double_entry_panics`: a timed `IO.select`/read that ends
  early leaves its deadline in the list of sleepers, because the thread is running again and parked
  again before the next sweep.  If the thread then sleeps and both deadlines pass between two sweeps, it
  is queued twice; it is then in the queue while it runs, and if it ends, the interpreter panics on the
  second entry (`resume_exec.take().unwrap()`).
* `C49_stale_deadline_cuts_sleep`: the same entry ends a later sleep too early.
* `C49_rescued_signal_cuts_next_sleep`: the same for main, when a signal handler raises out of `sleep`
  and the program rescues it and sleeps again.
* `C25_public_wakeup_before_sleep_is_lost` (as in CRuby), `C25_permit_lost_after_error_in_main`: after a
  handler has raised out of a park, main runs with state `Sleeping`, so that the permit of a Mutex,
  Queue or ConditionVariable wakeup is not kept.
* `C50_queued_thread_runs_in_child`, `C50_unstarted_thread_panics_in_child`,
  `C50_dead_main_runs_in_child`: `fork_child_reset_threads` marks threads dead and leaves the run queue
  as it is; `dispatch` has no test for dead threads.

## Area: Marshal (C51 to C54) — `Verif/Marshal`

Modelled (`Model.lean`): `builtins/marshal.rs` — both directions of the format for `nil`, booleans,
Integers, Floats, Symbols, Strings, Arrays, Hashes (default value, by identity), plain objects, Structs,
Ranges, Regexps, classes and modules; the symbol and object tables with their links; the `I`, `C` and `e`
wrappers; every length as the code reads it, `i32` to `usize` included, so that a negative one panics.
Values live in a heap, so sharing and cycles are real.

Not modelled: the `proc` and `freeze:` arguments, ports, objects that run Ruby code while they are dumped or
loaded (`marshal_dump`, `_dump`, Time, Rational, Complex), exceptions, anonymous classes, Hash default procs.
The text of a Float and its parser are parameters (a hypothesis says the text parses as the same Float).

`Spec.lean` says what a deep copy is: a renaming of addresses, injective on what is reachable, that maps
every reachable object to its image.  `Good.lean` says which graphs the theorem covers.

* C51 `C51_roundtrip_partial`: dumping such a graph succeeds (a measure counts the objects without slot) and
  loading gives a copy.  The proof keeps a simulation between the writer's and the reader's tables
  (`Sim.lean`), with one object open at a time (`Opn`), and a reading lemma for each kind of object
  (`Values`, `Objects`, `Containers`, `Hashes`, `Ranges`).  `C51_identity_partial` spells out identity.
  Ten theorems `C51_fails_…` show where the code breaks the property: an Integer of 31 to 62 bits shifts
  later links (`[2**40, s, s]` comes back as `[2**40, s, 2**40]`); so do Regexps, Strings in named encodings
  and Strings with variables; subclasses of String lose the encoding; subclasses `M::S` cannot be loaded;
  a Hash by identity merges equal Strings; subclasses of Range and cycles through Ranges are lost; ASCII
  Symbols in other encodings become US-ASCII.
* C52 `C52_integer`: every Integer at top level.
* C53 `C53_no_panic_partial`: data without bytes above 127 and without `C`.  The counterexamples: any data
  starting with a String or Array of length -1 panics, whatever follows.
  `C53_own_dump_no_panic`: what `dump` wrote never panics, whatever was dumped.
* C54: more data and more fuel do not change the result (`Trunc.lean`), and reading a dump raises or ends at
  its end whatever was dumped and whatever the tables hold (`Eats.lean`, `Whole.lean`).

## Area: Class hierarchy and method lookup (C55 to C63) — `Verif/Classes`

Modelled (`Model.lean`): the heap of module objects as the code keeps it — cells with a `superclass`
pointer, a kind (class, module, include-class), an origin — and the class table with its method tables;
`value/rvalue/module.rs` (`include_or_prepend_module` with its two-pointer loop, `check_cyclic`,
`prepend_module`, `get_real_superclass`), `globals/store/class.rs` (class and module creation, the method
tables, `search_method`, `propagate_prepend_to_subclasses`, `walk_method_names`, `check_super_at`),
`store.rs` (`ancestors`, the method cache with its `u32` version), `is_a?`, `<`, `superclass`.
The loops that follow `superclass` pointers are given fuel (the number of cells); `Build.lean` shows that
no reachable chain is longer, so fuel never runs out.

Not modelled: refinements, class names, constants, singleton-class creation on demand, `Module#dup`,
`extend` (an `include` into the singleton class), hooks (`included`, `prepended`, …), inline caches of the
bytecode, basic-operation redefinition checks.

Proof: `Heap` is an invariant of every reachable state (`Build`, `Mix`, `Zone`, `Prepend`): each chain is a
finite path with distinct cells, an origin is behind its class on its chain, modules end under `Object`.
`Path` and `view` turn the pointers into the list `ancestors`; an operation on cells becomes an insertion
into these lists.  The statements only mention `ancestors`, method tables and the answers.

* C55 (proved): lookup is the first decisive entry along `ancestors`.
* C56 partial: containment, descendants, nothing lost, the cycle rule and idempotence hold in general
  (classes as receivers); order and absence of panics when the modules are new and nothing is prepended.
  Findings: `C56_prepended_class_fails` (with a prepended module, an included module lands in front of the
  class and overrides its methods), `C56_late_include_fails`, `C56_object_module_fails`, `C56_panics`
  (a module that prepends and includes the same module; including it anywhere panics), `C56_order_fails`.
* C57 partial: when the modules are new.  Finding: `C57_superclass_changes_fails` (an include into a
  subclass inserts a module into the superclass).
* C58 partial: Findings: only the module itself, not its ancestors, reaches earlier includers; classes with
  prepended modules of their own and singleton classes are skipped.
* C59 partial: for fewer than 2³² - 2 operations.  Findings: `C59_wraparound_fails` (the version is a
  `u32`), `C59_initialize_fails` (`Class.allocate`, a lookup, then `initialize`).
* C60 partial: a body in one place of the chain, and for a body in several places the nearest definition.
  Finding: `C60_undef_skipped_fails`.
* C61 partial: no prepended modules, in front of `Object`.  Findings: `C61_prepended_fails`,
  `C61_object_methods_fails`, `C61_method_defined_fails`.
* C62 (proved).  C63 partial: `M < Object` is true for every module.
* C64 partial: classes nothing was prepended to.  Findings: `C64_prepended_fails`, `C64_removed_body_fails`.

## Area: Argument binding (C65 to C71) — `Verif/Args`

Modelled (`Model.lean`): a callee frame as a map from parameter slots to values (`none` is an absent
optional), `ParamsInfo`, call sites as compiled from source (`compileKw` keeps the split into literals and
`**` operands), and every binder: `codegen/runtime/args.rs` (`set_callee_frame_arguments` with its head fast
path, `fill_positional_args` on ascending and descending sources, keyword handling, `to_hash`, single-array
expansion, `to_ary`, `ruby2_keywords` flags, forwarding with its direct path and the lazy marker, the native
invoker, `send` with a splat), `runtime.rs` (the `yield` fast path), and the compiler's inline set-up
(`is_simple_call`, `apply_args`, `set_arguments`, the source-routed forward of `...`).  Reads of a register
that does not exist are the error `ub`.

Not modelled: block arguments, evaluation order and side effects of argument expressions, the compiled
array-expanding `yield` and trailing-splat copy, default-value expressions (an absent optional is `none`),
aliasing of the passed hashes and arrays.

Proof: `fillPositional_eq` gives every positional binder one closed form (`bindL`); `handleKeyword_eq` does
the same for keywords (`kwBind`); `setCallee_eq` composes them.  Every other route is reduced to these.
`outcome` is what the callee's body sees after the `CheckKwRest` prologue, or that the call raised.

* C65 (proved): `C65_placement_unique` pins the placement independently of the code.
* C66 partial: fast path, `set_simple` and `yield` agree always; `send(*ary)`, native calls and compiled
  calls with exclusions.  Findings: `C66_jit_surplus_fails` (a compiled `yield` of too many values to
  `|a, b = 5, c|` binds the last value to `c`), `C66_jit_unknown_keyword_fails` (compiled code drops an
  unknown keyword instead of raising), `C66_jit_duplicate_keyword_fails` (assertion failure in the compiler),
  `C66_define_method_fails`, `C66_define_method_spread_fails` (a compiled call of a `define_method` method
  binds like a block), `C66_send_splat_fails`, `C66_native_to_ary_fails`.
* C67 partial: literals before `**` operands with the same key.  Findings: `C67_literal_after_splat_fails`,
  `C67_rest_order_fails`, `C67_nil_rejects_promoted_fails`.
* C68 (proved).  C71 (proved).
* C69 partial: no `**nil` callee (`C69_nil_fails`), no flagged hash among the positional values.
* C70 partial: methods as final callees, no flagged hash among the values.

## Area: The compiler's register state (C72, C73, C77) — `Verif/JitState`

Modelled (`Model.lean`): `SlotState` (the place of each variable: stack, float register, both, constant), the
float register allocator with its eviction and spilling, the integer register cache (`gp_alloc.rs`) with
dirty residents, the code emitted for literals, moves and the operators `+ - * / & | ^` (guards, constant
folding, in-place and fresh destinations), write-backs, side exits, and a machine that runs this code.  The
interpreter's operators, float arithmetic and conversions are parameters (`Prim`); `Prim.Ok` says what is
assumed of them (integer arithmetic exact, float operators those of the machine); `stdPrim_ok` shows an
instance.  A step of the compiler that would panic is `none`.

`Merge.lean`: the meet of the states at a merge (`decide_join`, `apply_join`), the bridge code on each edge,
`if`/`else` on a condition of unknown class, side exits inside branches.

Not modelled: other bytecodes, method calls, inlining, loops, liveness analysis, garbage
collection, the encoding of instructions (but see the next area), aarch64.

Proof: `Rep st m a` says that the machine state `m` carries the interpreter's frame `a` under the abstract
state `st`, `Wf` is the invariant of the allocators.  Every allocator step and every emitted sequence carries
`Rep` (`Fpr`, `IntOp`, `BinInt`, `Load`, `BinFlt`, `Step`), whence `jit_agrees` by induction over the body.

* C72 partial: bodies without the hazards `Op.safe` names.  Findings: `C72_copy_fails` (`b = a` then
  `a = a * 3.0` changes `b`), `C72_div_fails` (`-2^62 / -1`).
* C73 partial: as C72.  Finding: `C73_spill_fails` (a dirty register evicted after the exit's write-back list
  was made: the exit overwrites the variable with a leftover).
* C77 partial.  `join2_ok`: the joined state describes what both describe.  `bridge1_ok`/`bridge_ok`: the code of
  a bridge carries the frame.  `Static.lean` shows the state well-formed without reference to the machine (only one
  branch runs); `prog_run` composes by induction over the program.  `Apart.lean`: without shared registers and
  literals the bridge succeeds.  Findings: `C77_clobber_fails` (a literal is loaded into a register that still
  holds another variable), `C77_swap_fails` (two variables sharing a register: an exchange made for the second
  undoes the placement of the first).

## Area: Machine code for small Integers and comparisons (C74 to C76) — `Verif/FixOps`

Modelled (`Model.lean`): the x86-64 instruction sequences of `arch/x86_64/compile/binary_op.rs`, `mod.rs`,
`builtin.rs` and `builtins/numeric/integer.rs`, on 64-bit words with tag bit, as functions on `BitVec 64`
(`none` = leaves for the generic path); `lzcnt`, shift-count masking, flags of `cmpq` and `ucomisd`; the
folding of literal shifts; `float_binop` on registers and spill slots.  Not modelled: instruction encoding,
register moves around the sequences, aarch64.

Proof: through `toInt` on words and uniqueness of floor division; nothing is enumerated (`C76_float` and
`C76_branch` are finite: six operators, four outcomes).

* C74 partial: `C74_div_fails` is the single wrong pair, `-2^62 / -1`.
* C75 partial: Finding `C75_shr_fails`: `a >> n` with variable negative `n` tests the shift amount with `jgt`
  for `jge`, so the first amount that overflows (e.g. `1 >> -62`, `5 >> -60`) wraps to a negative number.
  All other forms are proved.
* C76 (proved).

## Area: JSON (C78 to C80) — `Verif/Json`

Modelled (`Model.lean`): the native parser and generator of `json.rs` function by function, on bytes (parser) and
characters (generator); UTF-8 is Lean's own `utf8EncodeChar`/`utf8DecodeChar?`.  The parser's recursion carries
bounds for the number of turns; `C79_bound` shows they never matter.  Parameters: formatting and reading of floats
(`FloatIO`), of which `FloatOk` asks that a finite Float is written as a JSON number that reads back.  Not modelled:
options (Ruby code in stdlib/json/ext), messages, the machine stack.

`Spec.lean` states RFC 8259 on its own: the grammar as inductive predicates over characters together with what a text
stands for (`JText`, `JStr`, `Num`, `Collapsed` for repeated keys).

* C79 partial.  `C79_complete_partial`: every JSON text with 64-bit integers is parsed to what it stands for, by
  induction over the grammar (`text_ok`).  `C79_sound_partial`, `C79_lines_partial`: what is accepted begins with a
  JSON value, by inversion of the parser (`Sound.lean`).  Findings, each for all instances: what follows the value
  is ignored (`C79_trailing_fails`), leading zeros (`C79_leading_zero_fails`), integers beyond 64 bits become Floats
  (`C79_bigint_fails`), raw control characters (`C79_control_fails`), unknown escapes (`C79_escape_fails`), a
  character lost after a high surrogate (`C79_surrogate_fails`), `\u+041` (`C79_plus_fails`), no nesting limit
  (`C79_nesting_fails`).
* C80 partial: `C80_generate_partial`, `C80_string`.  Finding: `C80_nonfinite_fails` (NaN, Infinity are written
  instead of raising an error).
* C78 partial: `C78_round_trip_partial`, `C78_values_partial`, `C78_string`, `C78_injective`.  Finding:
  `C78_bignum_fails` (an Integer of 2^62 or more is written as a quoted String and comes back as a String).

## Area: Leaving begin/rescue/else/ensure (C81 to C84) — `Verif/Ensure`

Modelled (`Model.lean`): the compilation of `begin … rescue … else … ensure … end`, `while`, `break`, `next`, `retry`,
`return` to bytecode with an exception table (`gen_begin`, `gen_while`, `gen_all_pending_ensures`,
`gen_loop_pending_ensures`, `emit_ret`, encoding of the table), and the machine: `get_exception_dest`, `handle_error`
for exceptions, block returns and throws, `defer_unwind`, `finish_ensure`, `discard_deferred_unwind`.  Primitive
expressions, conditions, matching and assignment of the exception variable are an arbitrary interpretation over an
arbitrary state (`Interp`).  Not modelled: `$!`, back traces, `redo`, break out of a block, fatal errors, values of
statements, compiled code.

`Spec.lean` gives the meaning by the language as a big-step semantics (`Ev`); it is deterministic (`ev_det`), as is the
machine (`star_det`).  Proof: simulation by induction over `Ev` (`Correct.lean`), where a statement's code sits at any
address of any larger program whose table agrees (`Sim.lean`), copies of ensure clauses included.

* C81–C84 partial: `C81_method_partial` covers all bodies of the fragment `Ok` (in `Spec.lean`): an ensure clause
  finishes and has no region with ensure clause in it; an `else` beside an ensure clause neither raises nor unwinds;
  a region without ensure clause inside one with does not unwind in its body; a clause that binds a variable
  matches; `retry` does not leave a region with ensure clause; `return` inside such a region has an operand that is not a
  local variable nor an assignment.  For each of these conditions a `_fails` theorem shows a body without it on
  which the code departs from the language.

## Constants (Verif/Const, C85–C88)

`Model.lean` follows the lookup (`get_constant`, `search_constant_no_missing`, `find_constant` with prefixes, base
expressions and visibility), `require` with the states of autoload entries, the inline cache of a reference
(`vm_get_constant`), the version, the epochs of names and the wildcard, folding into compiled code and its salvage,
`const_get`, `private_constant`, `deprecate_constant`, `autoload`.  A file's body is any list of definitions, ending
normally or raising; `const_missing` is any function of what happened before.  Not modelled: methods nested in
`class << obj`, references inside file bodies, `eval`, names and locations, threads.

Proofs: `pfind` is lookup without effects (`Lemmas.lean`); `Evolve` says what an operation may change without moving the
epoch of a name (`Evolve.lean`); it is transitive, and every lookup and plain operation satisfies it.  The invariant
of the caches (`Inv`, `Cache.lean`) and of compiled units (`UInv`, `Fold.lean`) follow by induction over histories.

* C85 partial (`const_get`): `C85_bare`, `C85_bare_missing`, `C85_path`, `C85_path_from`, `C85_private` are full.
  `C85_const_get_fails`: `Object.const_get("A::X")` does not see inherited constants.
* C86 partial: `C86_fresh_partial` for histories of plain operations.  Defects, each a `_fails` theorem: `class X` and
  `module X` (no bump of the version, so a site keeps the outer `X`), `autoload` (same), answers of `const_missing` are
  cached, `private_constant` and `deprecate_constant` do not reach sites that were executed, a class body run
  for two classes.
* C87 partial: `C87_fold_partial`; `C87_class_keyword_fails`.
* C88 partial (`const_get`): `C88_defines`, `C88_defines_last`, `C88_raises`, `C88_silent`, `C88_once`;
  `C88_const_get_fails`: `const_get` turns an exception of the file into NameError.

## Closures (Verif/Closure, C89–C91)

`Model.lean` is the machine of frames: control stack, local frames in the stack, heap copies and the tombstones they
leave (`move_frame_to_heap`), block handlers as numbers of control frames to walk (`BlockHandler`, `delegate`,
`get_block`, `resolve_block_target`), `generate_proc_inner` with `materialize_escaped_block_handlers`, block parameters,
builtin methods that look their block up once and call it many times, `Proc#call`, `binding` and `eval`, the forwarding of
tombstones by the x86-64 block invoker, and the unwinding of a `return` in a block.  A run is any list of operations.  Not
modelled: values other than numbers, `self`, fibers and threads, compiled code that keeps locals in registers, lambdas on
the way of a `return`, identity of `Proc` objects (a block parameter read twice gives two objects).

`Spec.lean` is the language: one environment per call, never moved, never freed.  Proof: the invariant `WF` (`Inv.lean`),
whose field `zone` says that while a block frame with outer frame in the stack is running nothing above it refers into the
part of the stack it shields; so a frame never moves without the running blocks inside it.  `PW` describes the machine in
the middle of a move; `Move.lean`, `Mat.lean` show that moving and materializing keep it, `Sim.lean`, `Prim.lean`,
`Write.lean`, `Step.lean` that every operation keeps `WF` and the simulation.

* C89 partial: `C89_shared_partial`, all runs with fewer than 65536 calls in progress, no Integer as block, `binding` only
  where no method around was given a block.  `C89_binding_fails` (a running block writes to a dead copy after
  `binding` + closure in `eval`), `C89_aarch64_fails` (no forwarding in that back end).
* C90 partial: `C90_yield_partial` (same conditions); `C90_integer_fails` (`f(&65537)` enters function 1),
  `C90_binding_yield_fails` (`b.eval("yield")` after the method ended).
* C91 partial: `C91_return_partial`, `C91_lands_partial` for ensure clauses that make no closure; `C91_ensure_fails` (the
  `return` is swallowed), `C91_target_fails` (it passes its target).

## Threads: Mutex, ConditionVariable, Queue, SizedQueue, Monitor (Verif/Sync, C92–C97)

`Model.lean` is the Ruby code of thread.rb l.404-817 as a machine: each method is cut at its polls (entry of a Ruby method
or block, start of a loop round), which is where monoruby switches threads and raises interrupts; between two polls the
code runs alone.  Continuations (`LockK`, `UnlockK`, `SleepK`, `WaitK`, `SigK`, `CastK`) say who called `lock`, `unlock`,
`sleep`, `wait`, `signal`, `broadcast`.  Threads have the park permit and the status of scheduler.rs.  A run is any list of actions: a
thread makes a call, goes on, ends; `Thread#wakeup`; a time-out; an interrupt (`Thread#raise`, `kill`, `Timeout`).
Not modelled: fibers as owners of a mutex, `Thread.handle_interrupt` by the program, values other than numbers, the
lengths of time-outs, `num_waiting`, `Marshal`, and the moment a program's `ensure` runs.  `Monitor.lean` is monitor.rb l.8-66.

`Spec.lean`: who holds a mutex and what a queue contains, from the log of what happened.  `Own.lean`, `Bel.lean`,
`Refine.lean`, `Outcome.lean`, `Hold.lean` are the invariants of all runs.  For runs without interrupts, `Quiet.lean` lists what a
step can change (`T`), `Lock.lean` has the invariant of waiters of mutexes (`J`: whenever a mutex is free and has waiters some
running thread will look at it), `Flow.lean` and `Keep.lean` the invariant of queues (`K`: as long as somebody waits, at
least as many threads are on their way to take an item as there are items, or somebody is waking everybody; the same for places).

* C92 partial: `C92_mutual_exclusion`, `C92_returns_holding` (all runs); `C92_wait_interrupted_fails`.
* C93 partial: `C93_try_lock_partial`; `C93_dead_owner_fails`.
* C94 partial: `C94_no_lost_wakeup_partial`; `C94_owner_ends_fails`, `C94_woken_interrupted_fails`.
* C95 partial: `C95_fifo`, `C95_outcomes`, `C95_backed` (all runs); `C95_interrupted_pop_fails`.
* C96 partial: `C96_no_lost_signal_partial`; `C96_push_interrupted_fails`.
* C97 partial: `C97_monitor_partial`; `C97_enter_fails`, `C97_exit_fails`.

## Arrays (Verif/Arr, C98–C105)

`Model.lean` models the reading and writing of arrays (rvalue/array.rs l.322-486, builtins/array.rs): indices, start and length,
ranges, `insert`, `delete_at`, `slice!`, `shift`, `pop`, `rotate`, `fill`, with `usize` arithmetic where it can go below zero and
panics as an outcome.  `Select.lean` models the loops of `combination`, `permutation`, `repeated_*` (builtins/array.rb) on positions, and
`product`; a loop that ends is a relation.  `Search.lean` models `bsearch` of arrays and ranges, for floats on bit patterns;
`Iter.lean` `retain_with_block` and `map` with blocks that may change the array; `Flatten.lean` `flatten_inner` on numbered arrays.
Not modelled: copy on write of the inline and heap representations, `to_int`/`to_ary` conversions by user methods (except for one case in
`set2`), NaN in float ranges, float ranges without an end, enumerators apart from their `size`.

* C98 proved: `C98_element`, `C98_slice`, `C98_range`.
* C99 partial: `C99_element_partial`, `C99_slice_partial`, `C99_range_partial`, `C99_replaces_what_is_read`, `C99_read_back`;
  `C99_range_to_ary_fails`, `C99_huge_index_fails`.
* C100 partial: `C100_insert`, `C100_delete_at`, `C100_slice`, `C100_slice_range_partial`, `C100_shift_pop`, `C100_rotate`, `C100_fill`,
  `C100_fill_range_partial`; `C100_slice_range_fails`, `C100_fill_range_fails`.
* C101 partial: `C101_combination`, `C101_repeated_permutation`, `C101_repeated_combination`, `C101_permutation_partial`,
  `C101_product_partial`, `C101_product_raises`: by showing that each loop runs through a recursively defined list
  (`Way.gen`, `perms`), whose order, members and length are shown by induction; `C101_permutation_shrunk_fails`, `C101_product_fails`.
* C102 partial: `C102_array_find_minimum`, `C102_array_find_any_sound_partial`, `C102_array_find_any_reversed`, `C102_range_sound`,
  `C102_range_find_minimum`, `C102_range_find_any`, `C102_float_keys`, `C102_float_find_minimum_partial`; `C102_array_find_any_fails`,
  `C102_float_zero_fails`.
* C103 partial: `C103_keep_partial`, `C103_filter`, `C103_no_panic_partial`; `C103_shrunk_fails`.
* C104 partial: `C104_map_partial`; `C104_map_shrunk_fails`.
* C105 partial: `C105_flatten`, `C105_flatten_level_partial`, `C105_flatten_level_sound`; `C105_flatten_level_fails`.

## Operators and their redefinition (Verif/Bop, C106–C109)

`Model.lean`: the table of tracked (class, operator) pairs (basic_op.rs l.31-110), what marks a pair (class.rs l.2124-2540), the
interpreter's answers: assembly for fixnums (vmgen.rs), the guarded helpers (op.rs, binary_ops.rs), `get_index`/`set_index`
(runtime.rs), `!=` (`ne_values_vis`, `custom_neq`).  An answer is which implementation ran.  The method resolution order is a list per
class; `include`, `prepend` and new (singleton) classes change it.  `Jit.lean`: which pairs a compiled body relied on, entries of
units and loops, direct calls, frames of fibers, eviction and `chain_deopt`.  `Case.lean`: the jump table of `case`.
Not modelled: refinements, the values the builtins compute (see IntArith, FixOps), class-version guards and recompilation (Const, JitState),
threads (a thread's frames are like a fiber's), one body per unit instead of one per class of self, `protected`.

`Lemmas.lean`: invariant "a tracked pair is marked or its lookup is as at start-up", kept by every action of `Benign`.
`JitLemmas.lean`: invariant "no entry and no frame inlines a redefined pair, and every entry's pairs are recorded".

* C106 partial: `C106_operator_dispatch_partial`, `C106_only_the_named_pair`; `C106_prepend_fails`, `C106_inherited_fails`,
  `C106_subclass_fails`, `C106_private_fails`, `C106_method_index_fails`.
* C107 partial: `C107_not_equal_partial`; `C107_fixnum_fails`, `C107_symbol_fails`, `C107_comparable_fails`.
* C108 partial: `C108_no_stale_operator_partial`, `C108_others_stay_compiled`, `C108_never_reassumed`; `C108_direct_call_fails`,
  `C108_removal_fails`, `C108_fiber_fails`.
* C109 partial: `C109_jump_table_partial`, `C109_compiled_agrees`; `C109_repeated_literal_fails`, `C109_float_subject_fails`.

## Methods of Integer (Verif/IntMeth, C110–C115)

`Model.lean`: `pow` with a modulus, `floor`/`ceil`/`truncate`/`round`, `bit_length`, `to_s`, `[]` (numeric/integer.rs l.1335-1887, op.rs l.1003-1199) and the
Ruby methods `div`, `ceildiv`, `remainder`, `fdiv`, `gcd`, `lcm`, `Integer.sqrt`, `digits`, `allbits?`... (builtins/integer.rb).  An Integer
is a mathematical integer; whether it is an immediate is a function of the value (C01, C04), and the operators the Ruby code uses are exact
(C04-C08).  `i64` operators wrap, shift counts are taken modulo 64 (release build; a debug build panics at those places).  Not modelled: coercion
of other classes, memory exhaustion for enormous shifts and powers of ten, the conversion of the processor from i64 to double (taken to round to
nearest even), C's `ldexp` (taken to round once), the plain division of `fdiv`.

* C110 partial: `C110_pow_mod_partial` (induction over the exponent, congruence and range separately), `C110_errors`; `C110_mod_one_fails`,
  `C110_least_mod_fails`, `C110_big_args_fails`.
* C111 partial: `C111_floor_partial`, `C111_ceil_partial`, `C111_truncate_partial`, `C111_round_partial`, `C111_nonneg`; `C111_digits_cut_fails`,
  `C111_round_range_fails`.
* C112 proved: `C112_div_ceildiv`, `C112_remainder`, `C112_gcd`, `C112_lcm`.
* C113 proved: `C113_bit_length`, `C113_sqrt` (invariant of the Newton iteration), `C113_digits`, `C113_to_s`, `C113_to_s_injective`.
* C114 partial: `C114_bit_partial`, `C114_field_partial`, `C114_range_partial`, `C114_endless`, `C114_reversed`, `C114_neg_len`,
  `C114_beginless_partial`, `C114_bit_predicates`; `C114_far_bit_fails`, `C114_wide_field_fails`, `C114_far_range_fails`, `C114_big_bound_fails`.
* C115 partial: `C115_fdiv_partial` (the sticky bit makes rounding the 56- or 57-bit quotient the same as rounding the exact one),
  `C115_rounded_is_nearest`; `C115_subnormal_fails`.

## Strings: bytes, encodings, cached code range (Verif/Str, C116–C118, C120–C122)

`Model.lean`: `Encoding`, `classify`, the character iterator, `code_range`, `check_utf8`, `char_length`, `get_range`, `compatible_encoding`, `extend`,
`extend_from_slice_checked`/`_merge_cr`/`_no_validate`, `repeat`, `reverse`, `from_substring` with `propagated_cr`, `set_byte`, `bytesplice_with`, `scrub`
(value/rvalue/string.rs l.15-2620), `String#[]`, `<<` with an Integer, `ljust`/`rjust`/`center` (builtins/string.rs), interpolation
(codegen/runtime.rs l.945-1036) and the machine code of `<<` and `setbyte` (x86_64/compile/builtin.rs).  A program is a list of operations on a
numbered store of strings, starting from empty ones; every operation may be mixed with questions, which fill the cache.  Simplified: a byte is any
natural number; one buffer per string (sharing is the subject of Verif/Share); ISO-2022-JP validity is a parameter and its character count is not
modelled; `str::from_utf8` is modelled by the table of the standard library, which `C116_utf8_spec` relates to Unicode scalar values.

* C116 proved: invariant `Safe` through every operation (`step_safe`), `C116_text_reads`, `C116_ascii_reads`, `C116_valid_utf8`, `C116_utf8_spec`.
* C117 partial: invariant `Sound` through every `fine` operation (`step_sound`), `C117_valid_partial`, `C117_unasked`; eight `C117_..._fails`.
* C118 partial: `C118_chars`, `C118_chars_utf8`, `C118_length`, `C118_index`, `C118_slice_partial`, `C118_range_partial`, `C118_reverse`;
  `C118_empty_slice_fails`, `C118_slice_wraps_fails`, `C118_surrogates_fails`.
* C120 partial: `C120_when_joinable`, `C120_joined`, `C120_characters`, `C120_compiled_append`; `C120_cut_ascii_fails`.
* C121 partial: `C121_scrub_partial` (relation `Scrubbed`); `C121_utf16_fails`.
* C122 proved: `C122_pad`, `C122_repeat`.

## Strings that share a buffer (Verif/Share, C119)

`Model.lean`: `StringContent` (inline, owned on the heap, view of a root), `Drop`/`Clone for RStringInner`, `owned_mut`/`uniquify`, `string_substring`,
`string_snapshot`, `share_string_buffer`, `ensure_shared_root` (value/rvalue/string.rs l.770-807, 1300-1370, 2438-2597), `String#replace`/`initialize`
(builtins/string.rs l.7330-7366), literals (`value_deep_copy`, value.rs l.868-877), and for strings the collector: `young_child_exists`, promotion,
re-arming, minor and major collections (value/rvalue.rs l.1124-1163, alloc.rs l.1290-1700).  Simplified: buffers are numbered and never reused, so a
freed buffer is visible; whether a write reallocates is a parameter; promotion and re-arming happen at any time; other objects are the list of
strings they hold; code ranges are in Verif/Str.

* C119 partial: simulation against a table of separate copies (`C119_like_separate_copies_partial`, `C119_never_dangles_partial`; invariant `Inv`:
  every owned buffer has one owner, every view has a live frozen root that owns its buffer, an old string out of the remembered set has an old root);
  `C119_unchecked_write_fails`, `C119_unchecked_write_dangles_fails`, `C119_replace_dangles_fails`, `C119_snapshot_encoding_fails`.

## Ranges of Integers and arithmetic sequences (Verif/Rng, C123-C126)

`Model.lean`: the Integer paths of builtins/range.rb (`each`, `reverse_each`, `to_a`, `size`, `min`, `max`, `cover?`, `overlap?`, `step`), of
src/builtins/range.rs (`first`, `last`, `count`, `map`, `min`, `max`), `Integer#times/upto/downto`, and `Enumerator::ArithmeticSequence`
(`size`, `first`, `last`, `to_a`, `each`, and `[]` on an array with its unchecked reads).  Loops are recursive functions, proved equal to closed
forms.  Simplified: blocks are functions; `break` and exceptions in blocks are left out; Floats appear only as an unspecified count and term when a
big integer forces them, and as a half-integer begin of `max`.  Not modelled: String, Symbol, Float and other endpoints.

* C123 partial: `each` is characterised by membership and order; every other method by its relation to `each`.
* C124 partial: `C124_step_block` gives the k-th value yielded; `C124_sequence_agrees_partial` relates the closed count (`fixnum_count`) to the loop.
* C125 partial: `C125_never_outside` covers every sequence; `C125_selects_terms`, `C125_negative_positions_partial`, `C125_open_ends` say what is read.
* C126 proved: by reducing each range to a begin and one past its last element.

## Methods of String (Verif/Text, C127-C129)

`SetModel.lean`: the sets of `delete`, `count`, `squeeze`, `tr`, `tr_s` (expansion, bitmap, `Charset`, map, ASCII table, byte path of non-UTF-8
receivers).  `SuccModel.lean`: `str_next` with its state machine, `byte_succ_no_alnum`, `String#upto`, `Range#each` on Strings, and the loop of
`Range#minmax`.  A string is its list of code points (or bytes); the Unicode category is a parameter, of which the theorems ask only its ASCII part.
Panics of `char::from_u32(..).expect(..)` are `none`.  Loops that might not end take fuel, and the theorems say how much suffices or that none does.
Not modelled: blocks that break, the objects yielded (each is a new String), encodings of results.

* C127 partial: sets by membership; the three paths of `tr` proved equal (`C127_tr_paths`, `C127_encoding_irrelevant`).
* C128 partial: `C128_odometer` gives the result in closed form; `C128_decimal`, `C128_increases` follow from it.
* C129 partial: a measure (base 129 value, bounded by the length of the end) grows with every `succ`, which gives termination and the exact walk.

### Searching and cutting (Verif/Text, C130-C131)

`SearchModel.lean`: `index`, `rindex`, `byteindex`, `byterindex`, `partition`, `rpartition` with String needles, on a receiver given as its characters with
the byte places of their borders.  `PieceModel.lean`: `split` with a String, `lines`, `chomp`, `strip` as list functions; `str::find` is the least place of
the needle, `str::split_inclusive`, `str::ends_with` by their documented meaning.  Not modelled: Regexp arguments, blocks, `$;`, encodings of results,
`lstrip`/`rstrip` alone (they are the two halves of `strip`), `chomp!`, errors for broken receivers.

* C130 partial: both directions are the least and greatest hit by induction on the scanned places; two counterexamples.
* C131 partial: each loop is characterised by induction (`strLoop_spec`, `inclLoop_spec`, `paraLoop_spec`), then joined with the trimming of `push`;
  three counterexamples.

### dump and undump (Verif/Text, C132)

`DumpModel.lean`: `dump` (both paths), `inspect` (all but UTF-16/32, EUC-JP, Shift_JIS), `parse_undump` turn by turn, with `u8w` and `badLen` of Verif/Str for
`core::str::from_utf8`.  Not modelled: which error is raised, `is_printable` (a parameter).

* C132 partial: every rendered item is read back by one turn of the parser (`Reads`), so by induction on the items; the same walk with a reader of literals
  gives freedom from interpolation; two counterexamples.

### Numbers in strings (Verif/Text, C133)

`NumModel.lean`: `strip_sign`, `strip_int_prefix`, `parse_i64` (with its overflow), `parse_bigint`, `parse_int_value`, `to_i`, `hex`, `oct`, `sum`; strings are
lists of code points.  `Integer#to_s(radix)` is taken from its documentation.  `sum` shifts modulo 64, as a release build does.

* C133 partial: the loop on digits in groups gives the number or the overflow exactly when it exceeds an i64 (`scan_groups`), so both parsers agree;
  counterexamples for white space after sign or prefix, for two signs and for `sum(0)`.

### Lazy chains (Verif/Lazy, C134) and Enumerable (Verif/Enumer, C135, C136)

`Lazy/Model.lean`: the stages of lazy.rb as functions from one value and the stage's own state to what is passed on and whether to stop; `walk` drives a source
through a chain, `eachAll` models a nested walk (flat_map).  The world `W` is threaded through every block, so the order of effects is in the model.  Not modelled:
several values per yield, blocks that raise, `zip` with anything but Arrays, `eager`, `chunk_while` and the like of Lazy.

`Enumer/Model.lean`: each method of enumerable.rb as a fold over what `each` yields, with the point where it stops.  Equality, order and keys are decidable or
linear orders given from outside.  Not modelled: several values per yield, `<=>` that gives nil, each_entry, to_set.  Floats in `sum` are infinite, NaN or whole
numbers without rounding.

* C134 proved: `C134_to_a` by induction over the chain (the state of each stage is what it has seen), `C134_first`, `C134_stops`, `C134_take_zero`, `C134_in_turn`,
  `C134_size`, `C134_size_infinite`.
* C135 partial: see the manifest; `runs` is the specification of the pieces and is characterised by itself in `runs_spec` (non-empty, joined to the source, related
  within, unrelated between).
* C136 partial: Kahan's correction is infinity minus infinity as soon as an infinite value came.

### Set (Verif/SetAlg, C137)

`SetAlg/Model.lean`: a set is a flag (compare_by_identity) and its elements in order of insertion; an element is an object with an identity and a value, `same` is the
key equality in force.  Each operation of set.rs is a fold over elements in the order the code walks them, including the choice of operand by size.  `Stored`
remembers the hash under which an element was inserted, for `reset`.  Not modelled: subclasses (dup, & and | of a subclass give a plain Set), frozen sets,
`divide` with a two-parameter block, blocks that raise or change the set.

* Proved for all sets: add/delete, the algebra, order of first insertion, no repeats, comparisons, hash, replace, filters, map, classify, flatten (sound, total on
  well-founded nesting, refused on recursive ones).
* Fails, with witnesses: `C137_dup_identity_fails`, `C137_divide_fails`, `C137_reset_fails`.

### Comparable (Verif/Cmp, C138), Struct (Verif/StructCls, C139), Data (Verif/DataCls, C140), Integers with Floats (Verif/NumCmp, C141)

* `Cmp/Model.lean`: `<=>` is any function to nil, an Integer, another object or an exception; each method of comparable.rb over it, and the choice of `!=` in
  op.rs.  Order theorems instantiate `<=>` with any linear order.
* `StructCls/Model.lean`: a class is the chain of its levels (own members, own keyword_init) and the names of its readers; an instance its slots and a frozen flag.
  The methods of struct.rb go through `size`, `members` and `send` as they do in the code, so names of members can get in their way; the `_partial` theorems
  exclude those names and user-defined readers (`Clean`, `noOver`).  `panic` is the death of the process.
* `DataCls/Model.lean`: keyword normalisation, missing before unknown, `with` as allocate and initialize with the merged Hash.
* `NumCmp/Model.lean`: Floats are NaN, infinities and rationals; `i as f64` is the rounding already used for C115, shown nearest by `C115_rounded_is_nearest`.
  Coercion of other objects is not modelled; nor are the signs of zero (no comparison sees them).

### Class variables (Verif/ClassVar, C142) and Time (Verif/TimeCls, C143, C144)

* `ClassVar/Model.lean`: a state is the tables of class variables and the ancestors of each class (any list: the theorems do not ask how it came about); reads,
  assignments and the reflective methods walk it in the order the code does.  Singleton classes have an attached object and are passed over by `parent`.
  Not modelled: the inline caches of the bytecode (they hold no class variables), refinements.
* `TimeCls/Model.lean`: an instant is an integer number of nanoseconds and an optional offset.  Numbers of seconds are exact fractions; Floats are not modelled.
  chrono is modelled by its documented meaning (range, panics outside it, proleptic Gregorian calendar as a count of days).
* C143 by arithmetic (`omega`, floor division); `C143_round` covers the three modes at once through `rescale_spec`.
* C144: `year_len` and `months_fill` show that the closed formula for days before a year agrees with counting months, `C144_calendar` that the order of dates is
  that of their numbers; `C144_offset` through the digits; `C144_marshal_partial` through the fields of the two words.

### Names of files (Verif/PathName, C145, C146)

* `PathName/Model.lean`: a name is a list of characters.  The standard library's `split`, `Path::iter`, `PathBuf::push` are modelled by their documented meaning.
* `names` (what is between slashes) and `Walk` (following names from a directory) are the specification; `Walk` is a relation with one rule for `.`, for `..` at the
  root, for `..` below it and for a name.  `decompose`: a name is slashes, or a prefix that is empty or ends with a slash, a component, slashes.
* C145: by that decomposition; `C145_expand_walk` through `normalizeAbs_eq`.  The `_fails` theorems are computed witnesses.
* C146: `rindex_pre` shows that the search for the last component finds it at its own place; `splitNames_eq` then that the loop gives the leading slashes and the
  components; `aggr_shape` and `aggr_walk` by induction from the end of the name.  `C146_cleanpath_canonical` starts from a directory whose names are longer than any
  in the two paths.

### Complex (Verif/ComplexNum, C147)

* `ComplexNum/Model.lean`: a component is an Integer, a Rational or a Float; the Floats and their operations are a parameter (`FloatOps`), so the theorems hold for
  every rounding.  `RK` is the code's `RealKind`, into which a Rational goes as a Float; `nAdd`, `nMul`, ... are the components' own methods.
* Specification: Mathlib's `ℤ√(-1)` for Integer parts; `val`, the rational value of a component, for exact parts.
* `C147_pow_partial`: the square-and-multiply loop by strong induction.  `C147_div`: both branches of Smith's algorithm by field arithmetic; `C147_div_mul` from it by
  uniqueness of the quotient.
* Not modelled: components of other Numeric subclasses, Float and Complex exponents, polar form, to_s.

### File.readlines (Verif/Records, C148)

* `Records/Model.lean`: `split_records` and `chomp_line`; a loop gets a number of rounds, so that "never returns" can be stated.
* Specification: `Gets`, the lines that `lineSpec` (the specification of `IO#gets`, proved in Verif/IoBuf) gives one after another.
* `First`: the offset where the first separator ends.  `recordEnd_first` for the search by windows, `sepSpec_eq` and `paraSpec_eq` for the scan byte by byte; both reach
  the same offset, and the lists agree by induction on the rounds.

### Hash methods (Verif/HashMeth, C149)

* `HashMeth/Model.lean`: the methods over the list of entries with `get`, `set` (in place or at the end) and `del`, function by function.
* `WF`: the keys are distinct (C11 shows it of every Hash); every operation keeps it.
* `fill` (inserting entry after entry) is characterised once, by value (`get_fill`: the last) and by order (`keys_fill`: the first, duplicates dropped); `to_h`,
  `transform_keys`, `invert` and `slice` follow.
* `transform_keys!`: invariant of the loop `tkLoop_get`: the Hash at any time is what has been made, over what is still to come.
* `==`: two lists of distinct keys of the same length, one inside the other, are permutations of each other.

### Enumerator::Product, Chain and produce (Verif/EnumCls, C150)

* `EnumCls/Model.lean`: the recursive walk of a product with its accumulator, the loop of a chain with `@pos` and a block that breaks out, the loop of `produce`.
* Specification of the product by place: the row picked by the numbers `is` is at the place `rank` (mixed radix), and there are as many rows as places.

### Composing and currying (Verif/Callable, C151)

* `Callable/Model.lean`: `>>`, `<<`, `arity`, `curry` and the body of a curried Proc.
* `C151_curry_calls`: induction on the calls, with the arguments collected so far.

### Dir.glob (Verif/Glob, C152)

* `Glob/Model.lean`: a file system as a finite tree, `traverse_dir` over the components of a pattern with what it knows about how a place was reached (`Reached`), by recursion on the number of components and the size of the tree.
* Specification: `Spec`, with `Descend` (the directories a `**` may stand for) and `Resolves` (following a path as the system does). `C152_results_partial`: membership both ways. `C152_once_partial`: results of zero levels are shorter than results of more levels.

### Editing a String (Verif/StrEdit, C153)

* `StrEdit/Model.lean`: the Ruby-level `insert`, `concat`, `prepend`, `chop`, `delete_suffix`, and `delete_prefix`, `slice!`, `byteslice`, `bytesplice` with their index arithmetic. An argument may be the receiver itself.
* Specification: `rubyPlace` and `rubyRange`, what an index and a Range mean in Ruby for `n` elements.

### Fiber (Verif/Fiber, C154)

* `Fiber/Model.lean`: the links between executors (`parent_fiber`, `resuming_fiber`, `return_to`, `yielding`, `transferred`) and each operation as a change of them; what the switching code in assembly writes is taken from x86_64/invoker.rs.
* Specification: a machine with a stack of fibers (`specStep`). `C154_stack_partial` is a refinement, by the relation `Rel` between links and stack, for programs of any length without `transfer`. The three `_fails` theorems run programs with `transfer`.

### External enumeration (Verif/ExtEnum, C155)

* `ExtEnum/Model.lean`: the fields of an Enumerator and `next`, `peek`, `rewind`, `feed` over a producer that yields, returns or raises when resumed. Arrays handed out have a location, so that a program can change them.
* Specification: a cursor over the list of what the iteration yields (`specStep`), with the value that was fed. `C155_cursor_partial` is a refinement for programs of any length.

### Kernel#format (Verif/Sprintf, C156)

* `Sprintf/Model.lean`: the reader of format strings and the fields for Integers (`d i u b B o x X`) and Strings (`s`). Arguments are Integers and valid strings; floats, `%c`, `%p`, named and numbered references and the conversion methods are left out.
* Specification of the reader: a grammar of pieces (`Piece`), its text and its meaning; `C156_format` says that reading the text gives the meaning, errors included. Specification of the field: `specInt`, as the Ruby documentation lays it out. Digits are specified by their value (`val`): two's complement is worth b^k - n, begins with the digit b - 1, and is the shortest such list.

### Arrays as sets and tables (Verif/ArrSet, C157)

* `ArrSet/Model.lean`: the in-place loop `retain` (with its swaps), `uniq`, `uniq!` with and without a block, the set operations, `delete`, `compact!`, `transpose`, `zip`, `values_at`, `<=>`, `rindex`. Elements have a class under `eql?`; reading the class or calling the block may raise.
* Specification: `first` (the elements that no earlier one is the same as, by position), filters, and places. `retain` is proved against a fold over the test and its state, for any test; if the test raises the array is a permutation.

### catch, throw and exit (Verif/Exit, C158, C159)

* `Exit/Model.lean`: an evaluator with the executor's stack of tags, and the loop over the exit handlers with the choice of the exit status.
* `C158_innermost` is about any context of catches, ensure clauses, rescue clauses and code that follows (`plug`); `C158_no_escape` and `C158_balanced` are inductions over programs. The order of handlers is specified by recursion over the tree of registrations (`orders`).

### Causes of exceptions (Verif/Cause, C160)

* `Cause/Model.lean`: the graph of `/cause` variables, `cause_chain_contains` (a loop, so with fuel; `none` is "still looping"), `apply_cause`, `chain_cause`, the pinned cause of `Fiber#raise` and `Thread#raise`, and the loop of the uncaught report.
* Invariant over all sequences of operations: every chain ends (`Ends`, stated with iterated `cause` only). From it: no raise hangs, what `cause:` does, and that the report is the chain.
* Disagreement with the code: `Fiber#raise` and `Thread#raise` skip the check for circles. Two exceptions become each other's cause, and the next `raise` while one of them is handled does not return.

### Reports of exceptions (Verif/Cause/Message, C161)

* `Cause/Message.lean`: `detailed_message` and `full_message` over lists of characters; the chain of causes is a list (it ends by C160).
* `C161_top` splits the report at its newlines and compares with the lines of each exception; `C161_highlight` removes escape sequences with a separate automaton (`visible`).
* Disagreement with the code: with `order: :bottom` the frame nearest to the error has the largest number, the opposite of what the comment beside the loop says.

### Finalizers (Verif/Exit/Finalizer, C162)

* `Exit/Finalizer.lean`: the table of (address, callable) pairs beside a heap whose addresses can be given out again.
* The specification (`wanted`) is a registry by object. Invariant: the table is the image of the registry under the addresses, which are different for all objects that are alive or have finalizers.
* Disagreement with the code: nothing keeps the invariant when the collector frees an object that has finalizers and its address is used again; three counterexamples.

### ARGF (Verif/Argf, C163)

* `Argf/Model.lean`: `force_stream`, `finish_stream` and the loops of `gets`, `getbyte`, `readlines`, `read`, `read(n)` over a queue of byte lists; `eof?`, `skip`, `close`.
* The specification (`St.rest`, `St.streams`, `lines` in Props) is the list of unread parts; every operation is described by what it takes from it, for all states reached by any sequence of operations. The number of rounds given to the loops is shown to suffice.
* Not modelled: `-` in ARGV, in-place editing, encodings, `pos=`/`seek`/`rewind`, `each_*`, `readpartial`, changes of ARGV while reading.

### Dir objects (Verif/DirObj, C164)

* `DirObj/Model.lean`: the methods of `builtins/dir.rb` on the list of names, the position, the closed flag and a counter of close(2) calls.
* Proofs by induction over sequences of operations.
* Disagreement with the code: `each` sets the position only when it ran to the end.

### ENV (Verif/Env, C165)

* `Env/Model.lean`: the Hash that is ENV beside `environ`, with `[]=`, `delete`, `merge!`, `replace`, the methods inherited from Hash, and the environment that spawn gives to a child.
* Invariant by induction over operations: every name has the same value in both.
* Disagreement with the code: the inherited methods that remove entries do not reach `environ`.

### Redirections of spawn (Verif/Spawn, C166)

* `Spawn/Model.lean`: the descriptor table of the child with close-on-exec flags, the dup2 loops, open and close of `child_exec`, `close_others`, exec.
* The specification (`wanted` in Props) reads all sources from the table of the parent. `open` may give any free descriptor.
* Disagreement with the code: the redirections are done one after the other in the order of the options; two counterexamples.

### Command lines (Verif/Spawn/Command, C167)

* `Spawn/Command.lean`: `prepare_command_arg`, and what `system` and `spawn` make of a command and its arguments.
* The specification (`shellMeaning` in CommandProps) is the shell on lines without special characters: words at blanks, comments, assignments.
* Disagreements with the code: `system` treats the program of the form with arguments as a command line; `#` and `=` are not among the characters that need a shell; words are separated at all Unicode white space.

### Finding the program (Verif/Spawn/Path, C168)

* `Spawn/Path.lean`: the candidates made from PATH and the walk over them with execve, whose result for each file is arbitrary.
* Disagreement with the code: empty entries of PATH are dropped.

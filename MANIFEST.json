{
 "claims": [
  {
   "property": "C01",
   "status": "proved",
   "theorems": [
    "Verif.Value.C01_integer_round_trip",
    "Verif.Value.C01_bigint_round_trip",
    "Verif.Value.C01_u64_round_trip",
    "Verif.Value.C01_inline_iff",
    "Verif.Value.C01_canonical",
    "Verif.Value.C01_injective",
    "Verif.Value.C01_check_fixnum"
   ],
   "note": ""
  },
  {
   "property": "C02",
   "status": "partial",
   "theorems": [
    "Verif.Value.C02_float_round_trip_partial",
    "Verif.Value.C02_float_round_trip_fails",
    "Verif.Value.C02_float_round_trip_iff",
    "Verif.Value.C02_float_injective_partial"
   ],
   "note": "false for exactly one bit pattern (2^-255), proved by C02_float_round_trip_fails; true for every other pattern"
  },
  {
   "property": "C03",
   "status": "proved",
   "theorems": [
    "Verif.Value.C03_kind",
    "Verif.Value.C03_symbol_round_trip",
    "Verif.Value.C03_distinct",
    "Verif.Value.C03_truthiness",
    "Verif.Value.C03_truthy"
   ],
   "note": "the float 2^-255 is excluded (see C02)"
  },
  {
   "property": "C04",
   "status": "proved",
   "theorems": [
    "Verif.IntArith.C04_add",
    "Verif.IntArith.C04_sub",
    "Verif.IntArith.C04_mul",
    "Verif.IntArith.C04_neg"
   ],
   "note": ""
  },
  {
   "property": "C05",
   "status": "proved",
   "theorems": [
    "Verif.IntArith.C05_divmod",
    "Verif.IntArith.C05_div_eq_floor",
    "Verif.IntArith.C05_zero_div"
   ],
   "note": ""
  },
  {
   "property": "C06",
   "status": "partial",
   "theorems": [
    "Verif.IntArith.C06_shl_left",
    "Verif.IntArith.C06_shr_left",
    "Verif.IntArith.C06_shr_right_partial",
    "Verif.IntArith.C06_shl_right_partial",
    "Verif.IntArith.C06_shr_fails",
    "Verif.IntArith.C06_fold_shl",
    "Verif.IntArith.C06_fold_shr"
   ],
   "note": "right shift of a heap Integer with more than 2^32-1 bits by more than 2^32-1 returns 0/-1: C06_shr_fails"
  },
  {
   "property": "C07",
   "status": "partial",
   "theorems": [
    "Verif.IntArith.C07_pow_exact_or_error",
    "Verif.IntArith.C07_pow_computed_partial",
    "Verif.IntArith.C07_pow_rejects",
    "Verif.IntArith.C07_neg_pow_partial",
    "Verif.IntArith.C07_zero_neg_pow_partial",
    "Verif.IntArith.C07_neg_pow_fails",
    "Verif.IntArith.C07_neg_pow_panics",
    "Verif.IntArith.C07_pow_unit_fails"
   ],
   "note": "exact-or-error proved for all n>=0; completeness and negative exponents only within the ranges stated; the counterexamples are the theorems ending in _fails, _rejects, _panics"
  },
  {
   "property": "C08",
   "status": "proved",
   "theorems": [
    "Verif.IntArith.C08_and",
    "Verif.IntArith.C08_or",
    "Verif.IntArith.C08_xor",
    "Verif.IntArith.C08_bits_determine"
   ],
   "note": ""
  },
  {
   "property": "C09",
   "status": "proved",
   "theorems": [
    "Verif.Sort.C09_never_lost",
    "Verif.Sort.C09_no_raise_succeeds"
   ],
   "note": ""
  },
  {
   "property": "C10",
   "status": "proved",
   "theorems": [
    "Verif.Sort.C10_sorted_and_stable",
    "Verif.Sort.C10_integers"
   ],
   "note": ""
  },
  {
   "property": "C11",
   "status": "proved",
   "theorems": [
    "Verif.Hash.C11_history_refines_list",
    "Verif.Hash.C11_reads_last_stored",
    "Verif.Hash.C11_keys_distinct_and_counted",
    "Verif.Hash.C11_order_is_first_insertion"
   ],
   "note": "for every eql?/hash pair meeting the contract and every table meeting the Table contract; Hash default procs and user-visible dup of singleton state are not modelled"
  },
  {
   "property": "C12",
   "status": "proved",
   "theorems": [
    "Verif.Hash.C12_no_skip_no_repeat",
    "Verif.Hash.C12_yields_current_pair",
    "Verif.Hash.C12_new_key_raises",
    "Verif.Hash.C12_unnested_traversal_is_not_protected"
   ],
   "note": "for nested traversals, and any order of release of up to three; C12_unnested_traversal_is_not_protected shows the guard is lost when four enumerators over a small Hash end out of order"
  },
  {
   "property": "C13",
   "status": "proved",
   "theorems": [
    "Verif.Rubymap.C13_history_refines_list",
    "Verif.Rubymap.C13_entry_found_at_its_place",
    "Verif.Rubymap.C13_index_survives_any_comparison"
   ],
   "note": "for every raw table satisfying the Table contract; SwissTable itself is assumed to satisfy it"
  },
  {
   "property": "C14",
   "status": "proved",
   "theorems": [
    "Verif.Gc.C14_reachable_objects_survive",
    "Verif.Gc.C14_collection_is_invisible"
   ],
   "note": "for every legal history (stores of reachable references, through the barrier for promotable kinds); that every store site in the interpreter and JIT calls the barrier is not modelled"
  },
  {
   "property": "C15",
   "status": "proved",
   "theorems": [
    "Verif.Gc.C15_major_collection_is_exact"
   ],
   "note": "for every state a legal history reaches, including marking past the recursion limit"
  },
  {
   "property": "C16",
   "status": "proved",
   "theorems": [
    "Verif.Gc.C16_allocated_cell_was_free",
    "Verif.Gc.C16_free_list_is_exact",
    "Verif.Gc.C16_arena_overrun"
   ],
   "note": "C16_arena_overrun: page numbers are not bounded by the arena size, so a program that keeps more than 2 GiB of cells is given memory past its end"
  },
  {
   "property": "C17",
   "status": "partial",
   "theorems": [
    "Verif.Random.C17_instances_replay_their_streams",
    "Verif.Random.C17_stream_is_mt19937",
    "Verif.Random.C17_draw_reads_the_stream",
    "Verif.Random.C17_same_history_equal",
    "Verif.Random.C17_equal_instances_agree",
    "Verif.Random.C17_equal_counts_partial",
    "Verif.Random.C17_equality_ignores_sign",
    "Verif.Random.C17_reentrant_draw_is_lost"
   ],
   "note": "replay of every history, the MT19937 recurrence and 'equal instances agree' are proved; that equal instances have drawn the same amount is proved modulo 624 only (the rest needs the period); C17_equality_ignores_sign and C17_reentrant_draw_is_lost are defects found"
  },
  {
   "property": "C18",
   "status": "proved",
   "theorems": [
    "Verif.Random.C18_rand_int_in_range",
    "Verif.Random.C18_machine_word_draw",
    "Verif.Random.C18_machine_word_in_range",
    "Verif.Random.C18_unbiased",
    "Verif.Random.C18_one_attempt",
    "Verif.Random.C18_real_in_range"
   ],
   "note": "for every source of words; uniformity over finite word sequences including rejected attempts"
  },
  {
   "property": "C19",
   "status": "proved",
   "theorems": [
    "Verif.Symbol.C19_same_symbol_iff_same_name",
    "Verif.Symbol.C19_name_reads_back",
    "Verif.Symbol.C19_interning_again",
    "Verif.Symbol.C19_lookup_is_atomic",
    "Verif.Symbol.C19_interning_fails_only_out_of_ids",
    "Verif.Symbol.C19_names_known_in_advance",
    "Verif.Symbol.C19_operators_and_hooks",
    "Verif.Symbol.C19_special_globals",
    "Verif.Symbol.C19_to_sym_to_s",
    "Verif.Symbol.C19_to_s_to_sym",
    "Verif.Symbol.C19_to_sym_eq_iff"
   ],
   "note": "Over every history of lock acquisitions (read-phase lookups and write-phase interning by any threads, interleaved in any order) from the initial table: one Symbol per name and one name per Symbol, names and encodings read back unchanged later, the pre-registered ids and the special-globals range check are right, to_sym and to_s are inverse. Interning panics only when all 2^32-1 ids are taken. Std HashMap and RwLock are trusted."
  },
  {
   "property": "C20",
   "status": "proved",
   "theorems": [
    "Verif.IoBuf.C20_stream_conserves",
    "Verif.IoBuf.C20_flush_empties",
    "Verif.IoBuf.C20_flush_resumes",
    "Verif.IoBuf.C20_write_call",
    "Verif.IoBuf.C20_write_through",
    "Verif.IoBuf.C20_write_through_leaves_nothing",
    "Verif.IoBuf.C20_buffer_bounded",
    "Verif.IoBuf.C20_pending_signal_first",
    "Verif.IoBuf.C20_completes",
    "Verif.IoBuf.C20_writers_interleave",
    "Verif.IoBuf.C20_write_nonblock_overtakes"
   ],
   "note": "IO#write, flush and sync= proved for every history of attempts and OS answers. write_nonblock, which the statement does not mention, bypasses the buffer and overtakes it (C20_write_nonblock_overtakes)."
  },
  {
   "property": "C21",
   "status": "proved",
   "theorems": [
    "Verif.IoBuf.C21_read",
    "Verif.IoBuf.C21_peek_consume",
    "Verif.IoBuf.C21_seek",
    "Verif.IoBuf.C21_refines_unbuffered"
   ],
   "note": "The buffered reader refines an unbuffered file for every history of reads, peeks and seeks and every OS answer."
  },
  {
   "property": "C22",
   "status": "partial",
   "theorems": [
    "Verif.Signal.C22_pending_signal_stops_the_program",
    "Verif.Signal.C22_recorded_until_drained",
    "Verif.Signal.C22_poll_drains",
    "Verif.Signal.C22_lowest_first",
    "Verif.Signal.C22_delivered_at_most_as_often_as_arrived",
    "Verif.Signal.C22_poll_delivers_partial",
    "Verif.Signal.C22_installed_signals_raise",
    "Verif.Signal.C22_coalesced_signal_is_lost"
   ],
   "note": "any interleaving of handlers, polls, ticks: a recorded signal stays pending until drained, always stops the next poll site, is delivered at most once per arrival, lowest first. Fails (proved): a signal drained together with a lower-numbered one is dropped."
  },
  {
   "property": "C23",
   "status": "proved",
   "theorems": [
    "Verif.Signal.C23_requests_independent",
    "Verif.Signal.C23_gc_request_survives",
    "Verif.Signal.C23_requests_reach_a_live_word"
   ],
   "note": "each request's state is decided by the operations on that request alone, in any order; a collection request survives until a collection; requests only ever reach the word of a live interpreter."
  },
  {
   "property": "C24",
   "status": "partial",
   "theorems": [
    "Verif.Sched.C24_queue_partial",
    "Verif.Sched.C24_resumable_partial",
    "Verif.Sched.C24_queued_while_running_and_dead",
    "Verif.Sched.C24_double_entry_panics",
    "Verif.Sched.C24_registered_for_this_wait",
    "Verif.Sched.C24_descriptor_wakes_its_wait"
   ],
   "note": "Proved on schedules without fork in which no timed descriptor wait is ended early by a poll. Outside them the claim is false: a stale deadline queues a thread twice, so a running or dead thread can be queued, and the interpreter then panics (C24_queued_while_running_and_dead, C24_double_entry_panics)."
  },
  {
   "property": "C25",
   "status": "partial",
   "theorems": [
    "Verif.Sched.C25_wakeup_ends_sleep",
    "Verif.Sched.C25_queue_is_fifo",
    "Verif.Sched.C25_permit_armed",
    "Verif.Sched.C25_permit_kept",
    "Verif.Sched.C25_join_waits_for_the_living",
    "Verif.Sched.C25_join_returns",
    "Verif.Sched.C25_public_wakeup_before_sleep_is_lost",
    "Verif.Sched.C25_permit_lost_after_error_in_main"
   ],
   "note": "For all schedules: a wakeup ends a sleep, the queue is FIFO, a permit is kept until the next sleep consumes it, join waits only for live threads and returns only for the stated reasons. False: a public wakeup before the sleep is lost (as in CRuby), and after a handler raised out of main's park a permit is not armed."
  },
  {
   "property": "C26",
   "status": "partial",
   "theorems": [
    "Verif.Sched.C26_at_most_once",
    "Verif.Sched.C26_queue_order",
    "Verif.Sched.C26_delivery",
    "Verif.Sched.C26_never",
    "Verif.Sched.C26_kept",
    "Verif.Sched.C26_masks_own",
    "Verif.Sched.C26_parked_has_none_due",
    "Verif.Sched.C26_dead_partial"
   ],
   "note": "For all schedules: at most once, queue order, the first interrupt that may be delivered, never while masked, kept until delivered or dead, masks change only by the thread itself, no parked thread has a deliverable interrupt. No delivery after death is proved for processes that have not forked (in a forked child dead-marked threads can run, see C50)."
  },
  {
   "property": "C27",
   "status": "partial",
   "theorems": [
    "Verif.NativePool.C27_at_most_once",
    "Verif.NativePool.C27_exactly_once",
    "Verif.NativePool.C27_no_leak",
    "Verif.NativePool.C27_quiescent",
    "Verif.NativePool.C27_lock_released",
    "Verif.NativePool.C27_delivered",
    "Verif.NativePool.C27_wakeup_partial",
    "Verif.NativePool.C27_lost_wakeup",
    "Verif.NativePool.C27_abandoned_open_leaks"
   ],
   "note": "Proved for every interleaving: each job's result is handed to its own waiter or thrown away exactly once, nothing stays in the tables, the lock is always released, and with one outstanding job per interpreter a completed job's waiter is woken. The last clause fails with two outstanding jobs on one interpreter: C27_lost_wakeup gives the schedule and shows the waiter sleeps on. C27_abandoned_open_leaks: the descriptor of an abandoned open is never closed."
  },
  {
   "property": "C28",
   "status": "partial",
   "theorems": [
    "Verif.Rational.C28_new",
    "Verif.Rational.C28_equality",
    "Verif.Rational.C28_cmp",
    "Verif.Rational.C28_calculations_exact",
    "Verif.Rational.C28_pow_partial",
    "Verif.Rational.C28_pow_exponent_wraps",
    "Verif.Rational.C28_not_equal_to_its_own_bignum",
    "Verif.Rational.C28_equality_with_integer_partial"
   ],
   "note": "every calculation tree of + - * / neg abs on any operands is exact over Mathlib's Rat, in lowest terms; ==, <=> agree with the numbers; ** exact for exponents below 2^32. Fails (proved): exponents are cut to 32 bits; != with a big Integer is always true."
  },
  {
   "property": "C29",
   "status": "partial",
   "theorems": [
    "Verif.Rational.C29_floor_partial",
    "Verif.Rational.C29_ceil_partial",
    "Verif.Rational.C29_truncate_partial",
    "Verif.Rational.C29_round_negative_is_one_too_large",
    "Verif.Rational.C29_round_partial",
    "Verif.Rational.C29_floor_negative_digits",
    "Verif.Rational.C29_ceil_negative_digits",
    "Verif.Rational.C29_round_half_down_negative_digits",
    "Verif.Rational.C29_digits_wrap"
   ],
   "note": "floor, ceil, truncate, round to any digits below 2^32 against floor/ceil on Mathlib's Rat, where they hold. Fails (proved): round of every negative number past the half is one too large; floor/ceil/round half down/even with negative digits truncate first; digit counts are cut to 32 bits."
  },
  {
   "property": "C30",
   "status": "partial",
   "theorems": [
    "Verif.Rational.C30_float_rationalize_partial",
    "Verif.Rational.C30_rational_rationalize",
    "Verif.Rational.C30_simplest_unique",
    "Verif.Rational.C30_interval_with_zero"
   ],
   "note": "Stern-Brocot search terminates and returns the simplest fraction, unique, for every interval without zero; Rational#rationalize also with zero. Fails (proved): Float#rationalize(eps) never returns 0 when the interval contains it. Float eps for Rational#rationalize is not modelled."
  },
  {
   "property": "C31",
   "status": "partial",
   "theorems": [
    "Verif.Fnmatch.C31_terminates",
    "Verif.Fnmatch.C31_decides",
    "Verif.Fnmatch.C31_braces_expand",
    "Verif.Fnmatch.C31_decides_braces",
    "Verif.Fnmatch.C31_pathname_depth",
    "Verif.Fnmatch.C31_literal",
    "Verif.Fnmatch.C31_hidden_partial",
    "Verif.Fnmatch.C31_star_before_period_matches_hidden",
    "Verif.Fnmatch.C31_stray_brace_disables_groups"
   ],
   "note": "The matcher decides the documented language (an inductive relation) for every pattern and name and terminates; braces expand to the alternatives of every balanced pattern. Fails (proved): '*.x' matches the hidden name '.x'; a stray '}' disables all later groups."
  },
  {
   "property": "C32",
   "status": "proved",
   "theorems": [
    "Verif.Pack.C32_byte_order",
    "Verif.Pack.C32_roundtrip_star",
    "Verif.Pack.C32_reduce",
    "Verif.Pack.C32_in_range",
    "Verif.Pack.C32_missing_is_nil",
    "Verif.Pack.C32_too_few_raises"
   ],
   "note": "Every fixed-width directive with every modifier, *, counts and single values; byte order stated on the digits of the number; missing values and too few arguments. F32 directives are not modelled."
  },
  {
   "property": "C33",
   "status": "partial",
   "theorems": [
    "Verif.Pack.C33_uleb_roundtrip",
    "Verif.Pack.C33_sleb_roundtrip",
    "Verif.Pack.C33_sleb_refuses",
    "Verif.Pack.C33_ber_roundtrip_partial",
    "Verif.Pack.C33_ber_loses_large",
    "Verif.Pack.C33_uleb_self_delimiting",
    "Verif.Pack.C33_sleb_self_delimiting",
    "Verif.Pack.C33_ber_self_delimiting"
   ],
   "note": "R and r round-trip and are self-delimiting over their whole domains; w is self-delimiting for every size but (proved) reading returns another number for every Integer from 2^63 on."
  },
  {
   "property": "C34",
   "status": "proved",
   "theorems": [
    "Verif.Pack.C34_base64_skips",
    "Verif.Pack.C34_uu_format",
    "Verif.Pack.C34_qp_format",
    "Verif.Pack.C34_base64_roundtrip",
    "Verif.Pack.C34_uu_roundtrip",
    "Verif.Pack.C34_qp_roundtrip",
    "Verif.Pack.C34_hex_roundtrip",
    "Verif.Pack.C34_bits_roundtrip"
   ],
   "note": "m, u, M with no count, * and every count; H, h, B, b, whose text is also specified digit by digit."
  },
  {
   "property": "C35",
   "status": "proved",
   "theorems": [
    "Verif.Pack.C35_roundtrip",
    "Verif.Pack.C35_is_utf8",
    "Verif.Pack.C35_long_forms_unreadable",
    "Verif.Pack.C35_prefix_free"
   ],
   "note": "Round trip for every number up to 0x1fffff (all code points); agrees with UTF-8 as Lean's String encodes it; prefix-free over everything pack accepts. Also proved: numbers from 0x200000 on are written in forms unpack refuses."
  },
  {
   "property": "C36",
   "status": "partial",
   "theorems": [
    "Verif.Ivar.C36_history_partial",
    "Verif.Ivar.C36_write_frame",
    "Verif.Ivar.C36_listing",
    "Verif.Ivar.C36_dup_after_singleton_loses",
    "Verif.Ivar.C36_dup_after_singleton_renames",
    "Verif.Ivar.C36_clone_after_singleton_renames",
    "Verif.Ivar.C36_dup_drops_unknown"
   ],
   "note": "Refinement of all histories to maps, with no uninitialised or out-of-range access; copies of objects with a singleton class need their slots to agree with the real class (proved to fail otherwise)."
  },
  {
   "property": "C37",
   "status": "partial",
   "theorems": [
    "Verif.Eql.C37_equivalence",
    "Verif.Eql.C37_structural_partial",
    "Verif.Eql.C37_lookup_partial",
    "Verif.Eql.C37_lookup_sound",
    "Verif.Eql.C37_key_hash_partial",
    "Verif.Eql.C37_methods_partial",
    "Verif.Eql.C37_reordered_hash_not_found",
    "Verif.Eql.C37_reordered_in_array",
    "Verif.Eql.C37_reordered_key_not_same",
    "Verif.Eql.C37_zero_keys",
    "Verif.Eql.C37_zero_range",
    "Verif.Eql.C37_hash_eql_set"
   ],
   "note": "eql? of keys is an equivalence on all modelled values; hash agreement proved for values whose inner Hashes have at most one pair or that use Sets, and for the methods on outer Hashes of any size and order. Real failures proved: reordered Hashes as keys or in Arrays, the two zeros, Hash against Set. Cyclic containers and Rational, Complex, Struct, Time are not modelled."
  },
  {
   "property": "C38",
   "status": "partial",
   "theorems": [
    "Verif.Rubymap.C38_raise_leaves_map_unchanged",
    "Verif.Rubymap.C38_small_map_propagates_partial",
    "Verif.Rubymap.C38_large_map_swallows_exception"
   ],
   "note": "propagation proved for maps of at most eight entries; C38_large_map_swallows_exception shows that larger maps lose the exception and store a duplicate key"
  },
  {
   "property": "C39",
   "status": "proved",
   "theorems": [
    "Verif.Sample.C39_shuffle_is_permutation",
    "Verif.Sample.C39_every_arrangement_once",
    "Verif.Sample.C39_blind_to_elements"
   ],
   "note": "draws are an input; C18 gives their bounds and uniformity"
  },
  {
   "property": "C40",
   "status": "proved",
   "theorems": [
    "Verif.Sample.C40_sample_distinct_positions",
    "Verif.Sample.C40_every_selection_once",
    "Verif.Sample.C40_shrunk_receiver_panics"
   ],
   "note": "for a receiver that does not change during the draws; C40_shrunk_receiver_panics shows an out-of-bounds index when a user-defined rand shortens it"
  },
  {
   "property": "C41",
   "status": "partial",
   "theorems": [
    "Verif.Random.C41_kernel_rand_range_partial",
    "Verif.Random.C41_kernel_rand_all_fixnums_is_nil",
    "Verif.Random.C41_random_rand_range_partial",
    "Verif.Random.C41_random_rand_wide_range_never_nonnegative"
   ],
   "note": "fixnum ends only; C41_kernel_rand_all_fixnums_is_nil and C41_random_rand_wide_range_never_nonnegative show the failures at extreme ranges"
  },
  {
   "property": "C42",
   "status": "partial",
   "theorems": [
    "Verif.Symbol.C42_name_argument_iff_partial",
    "Verif.Symbol.C42_invalid_name_argument_differs",
    "Verif.Symbol.C42_marshal_invalid_differs"
   ],
   "note": "Refuted in general: C42_invalid_name_argument_differs and C42_marshal_invalid_differs show a String whose bytes are not valid UTF-8 naming a different Symbol than to_sym. C42_name_argument_iff_partial says exactly which Strings agree."
  },
  {
   "property": "C43",
   "status": "partial",
   "theorems": [
    "Verif.Symbol.C43_all_symbols_lists_all_partial",
    "Verif.Symbol.C43_all_symbols_lists_phantoms",
    "Verif.Symbol.C43_derived_names_of_text_partial",
    "Verif.Symbol.C43_binary_derived_names_collide",
    "Verif.Symbol.C43_comparison_of_text_partial",
    "Verif.Symbol.C43_comparison_ignores_encoding"
   ],
   "note": "Proved for text Symbols. Refuted for binary ones: same bytes under two encodings compare equal (C43_comparison_ignores_encoding), names a lossy conversion confuses share attr names (C43_binary_derived_names_collide); all_symbols also lists five Symbols no name denotes (C43_all_symbols_lists_phantoms)."
  },
  {
   "property": "C44",
   "status": "partial",
   "theorems": [
    "Verif.IoBuf.C44_getc_whole_character",
    "Verif.IoBuf.C44_limit_whole_characters",
    "Verif.IoBuf.C44_read",
    "Verif.IoBuf.C44_read_all",
    "Verif.IoBuf.C44_gets_attempt_partial",
    "Verif.IoBuf.C44_gets_partial",
    "Verif.IoBuf.C44_gets_bare_partial",
    "Verif.IoBuf.C44_gets_twice_interrupted_loses",
    "Verif.IoBuf.C44_stdin_interrupted_loses",
    "Verif.IoBuf.C44_stdin_paragraph_loses_byte",
    "Verif.IoBuf.C44_line_shape",
    "Verif.IoBuf.C44_limit_shape",
    "Verif.IoBuf.C44_unget",
    "Verif.IoBuf.C44_eof",
    "Verif.IoBuf.C44_stdin_eof_raises",
    "Verif.IoBuf.C44_readpartial",
    "Verif.IoBuf.C44_getc_partial",
    "Verif.IoBuf.C44_getc_parked_loses",
    "Verif.IoBuf.C44_sysread_overtakes_buffer",
    "Verif.IoBuf.C44_read_completes",
    "Verif.IoBuf.C44_gets_completes",
    "Verif.IoBuf.C44_history_partial"
   ],
   "note": "read, getbyte, gets with separator/limit/paragraph mode, ungetc, eof?, readpartial: nothing lost under any interrupts on files, pipes and popen. Fails (proved): bare gets interrupted twice, getc parked inside a character, standard input, sysread after a buffered read."
  },
  {
   "property": "C45",
   "status": "partial",
   "theorems": [
    "Verif.IoBuf.C45_write_partial",
    "Verif.IoBuf.C45_read",
    "Verif.IoBuf.C45_seek",
    "Verif.IoBuf.C45_pos",
    "Verif.IoBuf.C45_one_position_partial",
    "Verif.IoBuf.C45_write_after_read_lands_elsewhere",
    "Verif.IoBuf.C45_seek_keeps_ungot_bytes"
   ],
   "note": "One file, one position for every history in which no write directly follows a buffered read. Fails (proved): such a write lands at the read-ahead offset; seek/rewind keep ungot bytes."
  },
  {
   "property": "C46",
   "status": "partial",
   "theorems": [
    "Verif.Rational.C46_to_r_exact",
    "Verif.Rational.C46_rationalize_partial",
    "Verif.Rational.C46_rationalize_large",
    "Verif.Rational.C46_rationalize_off_by_one"
   ],
   "note": "to_r exact for every finite non-zero double; rationalize simplest within half an ulp below 2^53 and exact from 2^54. Fails (proved): off by one for every Float in [2^53, 2^54)."
  },
  {
   "property": "C47",
   "status": "proved",
   "theorems": [
    "Verif.Pack.C47_separators",
    "Verif.Pack.C47_pack_back",
    "Verif.Pack.C47_pack_at",
    "Verif.Pack.C47_unpack_back",
    "Verif.Pack.C47_unpack_at",
    "Verif.Pack.C47_record_roundtrip",
    "Verif.Pack.C47_count_too_big"
   ],
   "note": "Templates built from integer, double, string, hex, bit, UTF-8, BER, LEB and skip fields with counts."
  },
  {
   "property": "C48",
   "status": "partial",
   "theorems": [
    "Verif.Pack.C48_base64_is_rfc4648",
    "Verif.Pack.C48_lines_exact",
    "Verif.Pack.C48_line_length_partial",
    "Verif.Pack.C48_count_rounded_up"
   ],
   "note": "m0 is RFC 4648; mN has lines of N bytes each when N is a multiple of 3. Fails (proved): any other N is rounded up, not down."
  },
  {
   "property": "C49",
   "status": "partial",
   "theorems": [
    "Verif.Sched.C49_step_partial",
    "Verif.Sched.C49_sleep_lasts_partial",
    "Verif.Sched.C49_stale_deadline_cuts_sleep",
    "Verif.Sched.C49_rescued_signal_cuts_next_sleep"
   ],
   "note": "Proved for green threads on schedules in which no timed descriptor wait is ended early, and for main on those without errors out of the scheduler loop. Otherwise false: C49_stale_deadline_cuts_sleep, C49_rescued_signal_cuts_next_sleep."
  },
  {
   "property": "C50",
   "status": "partial",
   "theorems": [
    "Verif.Sched.C50_unqueued_stay_dead_partial",
    "Verif.Sched.C50_queued_thread_runs_in_child",
    "Verif.Sched.C50_unstarted_thread_panics_in_child",
    "Verif.Sched.C50_dead_main_runs_in_child"
   ],
   "note": "Proved for threads that were not in the run queue at the fork. False for queued ones: they run in the child, or the child panics; and dead main can run."
  },
  {
   "property": "C51",
   "status": "partial",
   "theorems": [
    "Verif.Marshal.C51_roundtrip_partial",
    "Verif.Marshal.C51_identity_partial",
    "Verif.Marshal.C51_fails_large_fixnum",
    "Verif.Marshal.C51_fails_regexp",
    "Verif.Marshal.C51_fails_named_encoding",
    "Verif.Marshal.C51_fails_string_variable",
    "Verif.Marshal.C51_fails_string_subclass",
    "Verif.Marshal.C51_fails_nested_subclass",
    "Verif.Marshal.C51_fails_identity_hash",
    "Verif.Marshal.C51_fails_range_subclass",
    "Verif.Marshal.C51_fails_cyclic_range",
    "Verif.Marshal.C51_fails_ascii_symbol"
   ],
   "note": "Proved for the object graphs described by Fine (Integers of 31 bits or Bignums, Symbols and Strings in UTF-8, US-ASCII or binary, Arrays, Hashes, Structs, objects, Ranges with immediate ends, subclasses, modules, variables, any sharing and cycles). False in general: ten counterexamples are proved."
  },
  {
   "property": "C52",
   "status": "proved",
   "theorems": [
    "Verif.Marshal.C52_integer"
   ],
   "note": "For dumps below 2 GiB."
  },
  {
   "property": "C53",
   "status": "partial",
   "theorems": [
    "Verif.Marshal.C53_no_panic_partial",
    "Verif.Marshal.C53_fails_negative_string",
    "Verif.Marshal.C53_fails_negative_array",
    "Verif.Marshal.C53_fails_negative_variables",
    "Verif.Marshal.C53_fails_class_of_immediate",
    "Verif.Marshal.C53_fails_class_confusion",
    "Verif.Marshal.C53_own_dump_no_panic"
   ],
   "note": "Proved for bytes below 128 other than C. False in general: negative lengths and C around an immediate panic, C can put any class on any payload."
  },
  {
   "property": "C54",
   "status": "proved",
   "theorems": [
    "Verif.Marshal.C54_trailing_ignored",
    "Verif.Marshal.C54_truncated_raises"
   ],
   "note": "Truncation: for every value whatsoever that dump accepts (dumps below 2 GiB, the format's own bound on lengths). Trailing bytes: for all data."
  },
  {
   "property": "C55",
   "status": "proved",
   "theorems": [
    "Verif.Classes.C55_calls_nearest",
    "Verif.Classes.C55_undef_hides",
    "Verif.Classes.C55_absent",
    "Verif.Classes.C55_found_in_ancestor",
    "Verif.Classes.C55_is_a",
    "Verif.Classes.C55_inherits",
    "Verif.Classes.C55_self"
   ],
   "note": "All reachable hierarchies, classes as receivers' classes."
  },
  {
   "property": "C56",
   "status": "partial",
   "theorems": [
    "Verif.Classes.C56_cyclic_raises",
    "Verif.Classes.C56_cyclic_only",
    "Verif.Classes.C56_adds_ancestors",
    "Verif.Classes.C56_descendants",
    "Verif.Classes.C56_succeeds_partial",
    "Verif.Classes.C56_order_class_partial",
    "Verif.Classes.C56_order_module_partial",
    "Verif.Classes.C56_again",
    "Verif.Classes.C56_prepended_class_fails",
    "Verif.Classes.C56_order_fails",
    "Verif.Classes.C56_late_include_fails",
    "Verif.Classes.C56_panics",
    "Verif.Classes.C56_object_module_fails"
   ],
   "note": "Order and success only for new modules and receivers without prepended modules; otherwise the code breaks the property (five counterexamples)."
  },
  {
   "property": "C57",
   "status": "partial",
   "theorems": [
    "Verif.Classes.C57_include_partial",
    "Verif.Classes.C57_prepend_partial",
    "Verif.Classes.C57_superclass_changes_fails"
   ],
   "note": "For modules new to the receiver; in general false (counterexample)."
  },
  {
   "property": "C58",
   "status": "partial",
   "theorems": [
    "Verif.Classes.C58_in_front_partial",
    "Verif.Classes.C58_cyclic_raises",
    "Verif.Classes.C58_reaches_includers_partial",
    "Verif.Classes.C58_keeps_ancestors",
    "Verif.Classes.C58_ancestors_of_module_fails",
    "Verif.Classes.C58_prepended_includer_fails"
   ],
   "note": "In front of the receiver for new modules; includers without prepended modules get the module itself. In general false (two counterexamples)."
  },
  {
   "property": "C59",
   "status": "partial",
   "theorems": [
    "Verif.Classes.C59_cache_is_fresh_partial",
    "Verif.Classes.C59_define_seen_partial",
    "Verif.Classes.C59_wraparound_fails",
    "Verif.Classes.C59_initialize_fails"
   ],
   "note": "For fewer than 2^32-2 operations, without Class.allocate; both exceptions are counterexamples."
  },
  {
   "property": "C60",
   "status": "partial",
   "theorems": [
    "Verif.Classes.C60_super_next",
    "Verif.Classes.C60_super_none",
    "Verif.Classes.C60_super_at_partial",
    "Verif.Classes.C60_undef_skipped_fails"
   ],
   "note": "Bodies in one place, or nearest definition behind the k-th place; an undef behind one of several places is skipped (counterexample)."
  },
  {
   "property": "C61",
   "status": "partial",
   "theorems": [
    "Verif.Classes.C61_listing_partial",
    "Verif.Classes.C61_own_listing_partial",
    "Verif.Classes.C61_method_defined_class",
    "Verif.Classes.C61_method_defined_module_partial",
    "Verif.Classes.C61_prepended_fails",
    "Verif.Classes.C61_object_methods_fails",
    "Verif.Classes.C61_method_defined_fails"
   ],
   "note": "Ancestors without prepended modules, in front of Object; counterexamples for the rest."
  },
  {
   "property": "C62",
   "status": "proved",
   "theorems": [
    "Verif.Classes.C62_superclass_stable",
    "Verif.Classes.C62_superclass_of_new"
   ],
   "note": "Every operation of the model, every history."
  },
  {
   "property": "C63",
   "status": "partial",
   "theorems": [
    "Verif.Classes.C63_class_less_than_partial",
    "Verif.Classes.C63_module_less_than_partial",
    "Verif.Classes.C63_module_less_than_object_fails"
   ],
   "note": "Classes in general, modules against modules not included in Object; M < Object is true for every module (counterexample)."
  },
  {
   "property": "C64",
   "status": "partial",
   "theorems": [
    "Verif.Classes.C64_set_visibility_partial",
    "Verif.Classes.C64_prepended_fails",
    "Verif.Classes.C64_removed_body_fails"
   ],
   "note": "Classes without prepended modules and methods with a definition; with a prepended definition the declaration has no effect, and a removed definition keeps being called (counterexamples)."
  },
  {
   "property": "C65",
   "status": "proved",
   "theorems": [
    "Verif.Args.C65_placement_unique",
    "Verif.Args.C65_method",
    "Verif.Args.C65_block",
    "Verif.Args.C65_reads_only_arguments"
   ],
   "note": "Positional placement for methods and blocks, pinned by a uniqueness theorem stated without the binder."
  },
  {
   "property": "C66",
   "status": "partial",
   "theorems": [
    "Verif.Args.C66_jit_partial",
    "Verif.Args.C66_jit_surplus_fails",
    "Verif.Args.C66_jit_unknown_keyword_fails",
    "Verif.Args.C66_jit_duplicate_keyword_fails",
    "Verif.Args.C66_define_method_fails",
    "Verif.Args.C66_define_method_spread_fails",
    "Verif.Args.C66_deferred",
    "Verif.Args.C66_fast_path",
    "Verif.Args.C66_simple",
    "Verif.Args.C66_yield",
    "Verif.Args.C66_send_splat_partial",
    "Verif.Args.C66_send_splat_fails",
    "Verif.Args.C66_native_partial",
    "Verif.Args.C66_native_to_ary_fails"
   ],
   "note": "Fast path, simple and yield routes agree in general; send with a splat, native calls and compiled calls agree with the exclusions shown by the _fails theorems. The compiled array-expanding yield and trailing-splat copy are not modelled."
  },
  {
   "property": "C67",
   "status": "partial",
   "theorems": [
    "Verif.Args.C67_keywords_partial",
    "Verif.Args.C67_literal_after_splat_fails",
    "Verif.Args.C67_rest_order_fails",
    "Verif.Args.C67_trailing_hash_partial",
    "Verif.Args.C67_nil_rejects",
    "Verif.Args.C67_nil_rejects_promoted_fails",
    "Verif.Args.C67_operand_raises"
   ],
   "note": "Keyword binding for literals written before ** operands with the same key; the _fails theorems give the excluded cases."
  },
  {
   "property": "C68",
   "status": "proved",
   "theorems": [
    "Verif.Args.C68_spread",
    "Verif.Args.C68_kept",
    "Verif.Args.C68_raises"
   ],
   "note": "Single-array expansion and to_ary coercion of block arguments."
  },
  {
   "property": "C69",
   "status": "partial",
   "theorems": [
    "Verif.Args.C69_ruby2_keywords_partial",
    "Verif.Args.C69_nil_fails"
   ],
   "note": "Any chain of ruby2_keywords delegates; final callee is a method without **nil, no flagged hash among the positional values."
  },
  {
   "property": "C70",
   "status": "partial",
   "theorems": [
    "Verif.Args.C70_forward_partial"
   ],
   "note": "Any chain of ... forwards, lazy or materialised; final callee is a method, no flagged hash among the values."
  },
  {
   "property": "C71",
   "status": "proved",
   "theorems": [
    "Verif.Args.C71_exact",
    "Verif.Args.C71_at_least"
   ],
   "note": "Arity against the accepted argument counts, for methods without keyword parameters."
  },
  {
   "property": "C72",
   "status": "partial",
   "theorems": [
    "Verif.JitState.C72_copy_fails",
    "Verif.JitState.C72_div_fails",
    "Verif.JitState.C72_block_partial"
   ],
   "note": "Straight-line bodies without the hazards of Op.safe. Counterexamples: C72_copy_fails, C72_div_fails."
  },
  {
   "property": "C73",
   "status": "partial",
   "theorems": [
    "Verif.JitState.C73_spill_fails",
    "Verif.JitState.C73_side_exit_partial"
   ],
   "note": "As C72. Counterexample: C73_spill_fails."
  },
  {
   "property": "C74",
   "status": "partial",
   "theorems": [
    "Verif.FixOps.C74_add",
    "Verif.FixOps.C74_sub",
    "Verif.FixOps.C74_mul",
    "Verif.FixOps.C74_div_partial",
    "Verif.FixOps.C74_div_fails",
    "Verif.FixOps.C74_rem",
    "Verif.FixOps.C74_addImm",
    "Verif.FixOps.C74_subImm",
    "Verif.FixOps.C74_dbl",
    "Verif.FixOps.C74_neg",
    "Verif.FixOps.C74_remPow2"
   ],
   "note": "All operators, all operands, except -2^62 / -1 (C74_div_fails)."
  },
  {
   "property": "C75",
   "status": "partial",
   "theorems": [
    "Verif.FixOps.C75_and",
    "Verif.FixOps.C75_or",
    "Verif.FixOps.C75_xor",
    "Verif.FixOps.C75_not",
    "Verif.FixOps.C75_bitIndex",
    "Verif.FixOps.C75_shl",
    "Verif.FixOps.C75_shlLhsImm",
    "Verif.FixOps.C75_shr_partial",
    "Verif.FixOps.C75_shr_fails",
    "Verif.FixOps.C75_shrImm",
    "Verif.FixOps.C75_shlLit",
    "Verif.FixOps.C75_shrLit",
    "Verif.FixOps.C75_fold"
   ],
   "note": "All forms; variable >> by a negative amount is wrong at the first overflowing amount (C75_shr_fails), proved for all other amounts."
  },
  {
   "property": "C76",
   "status": "proved",
   "theorems": [
    "Verif.FixOps.C76_int",
    "Verif.FixOps.C76_float",
    "Verif.FixOps.C76_branch",
    "Verif.FixOps.C76_floatBinop"
   ],
   "note": "All operators and orders including NaN; float operators for all register placements the allocator produces."
  },
  {
   "property": "C77",
   "status": "partial",
   "theorems": [
    "Verif.JitState.C77_program_partial",
    "Verif.JitState.C77_merge_partial",
    "Verif.JitState.C77_plain_partial",
    "Verif.JitState.C77_join",
    "Verif.JitState.C77_clobber_fails",
    "Verif.JitState.C77_swap_fails"
   ],
   "note": "Missing: bodies in which at the end of a branch two variables share a float register, or a literal variable is in a register after the merge (C77_clobber_fails and C77_swap_fails: with either, a variable gets another's value); loops, conditions known at compile time, other bytecodes."
  },
  {
   "property": "C78",
   "status": "partial",
   "theorems": [
    "Verif.Json.C78_round_trip_partial",
    "Verif.Json.C78_values_partial",
    "Verif.Json.C78_string",
    "Verif.Json.C78_injective",
    "Verif.Json.C78_bignum_fails"
   ],
   "note": "Round trip for all values with Integers of 62 bits and finite Floats, any strings, nesting, keys; float formatting is a parameter. Missing: larger Integers, which come back as Strings (C78_bignum_fails)."
  },
  {
   "property": "C79",
   "status": "partial",
   "theorems": [
    "Verif.Json.C79_complete_partial",
    "Verif.Json.C79_unambiguous",
    "Verif.Json.C79_sound_partial",
    "Verif.Json.C79_lines_partial",
    "Verif.Json.C79_bound",
    "Verif.Json.C79_trailing_fails",
    "Verif.Json.C79_leading_zero_fails",
    "Verif.Json.C79_bigint_fails",
    "Verif.Json.C79_control_fails",
    "Verif.Json.C79_escape_fails",
    "Verif.Json.C79_surrogate_fails",
    "Verif.Json.C79_plus_fails",
    "Verif.Json.C79_nesting_fails"
   ],
   "note": "Every RFC 8259 text with 64-bit integers is parsed to its value; accepted texts without backslashes start with a JSON value. The rest is false: trailing text, leading zeros, raw control characters, unknown escapes, \\u+041 are accepted, big integers become Floats, a character after a high surrogate is lost, nesting is unlimited (the _fails theorems)."
  },
  {
   "property": "C80",
   "status": "partial",
   "theorems": [
    "Verif.Json.C80_generate_partial",
    "Verif.Json.C80_string",
    "Verif.Json.C80_nonfinite_fails"
   ],
   "note": "What is written is a JSON text standing for the value, for small Integers and finite Floats and any strings. Non-finite Floats are written as non-JSON (C80_nonfinite_fails); Integers beyond 62 bits become strings (C78_bignum_fails)."
  },
  {
   "property": "C81",
   "status": "partial",
   "theorems": [
    "Verif.Ensure.C81_method_partial",
    "Verif.Ensure.C81_meaning_unique",
    "Verif.Ensure.C81_once_partial",
    "Verif.Ensure.C81_break_partial",
    "Verif.Ensure.C81_else_fails",
    "Verif.Ensure.C81_raise_on_return_fails",
    "Verif.Ensure.C81_retry_fails",
    "Verif.Ensure.C81_break_in_ensure_fails"
   ],
   "note": "For every body of the fragment Ok the compiled code ends as the language says, ensure clauses run once (simulation by induction over the semantics). False outside: an exception in else skips ensure; an ensure clause that raises during return runs twice; retry inside an inner region skips its ensure; break in an ensure clause copied for a return leaves the wrong loop (the _fails theorems)."
  },
  {
   "property": "C82",
   "status": "partial",
   "theorems": [
    "Verif.Ensure.C82_first_match_partial",
    "Verif.Ensure.C82_retry_partial",
    "Verif.Ensure.C82_own_ensure_fails",
    "Verif.Ensure.C82_bind_fails"
   ],
   "note": "First match, no match, else and retry hold for the fragment. False: a clause that does not match still assigns its variable (C82_bind_fails); a clause catches exceptions raised by its own region's ensure clause during return (C82_own_ensure_fails)."
  },
  {
   "property": "C83",
   "status": "partial",
   "theorems": [
    "Verif.Ensure.C83_nonlocal_partial",
    "Verif.Ensure.C83_rescue_inside_fails",
    "Verif.Ensure.C83_nested_fails",
    "Verif.Ensure.C83_override_fails",
    "Verif.Ensure.C83_other_frame_fails"
   ],
   "note": "Holds for the fragment, with any deferred unwindings of other frames left alone. False: a region without ensure inside one with ensure (C83_rescue_inside_fails), a region inside an ensure clause (C83_nested_fails), an ensure clause that leaves by break or return (C83_override_fails, and across calls C83_other_frame_fails)."
  },
  {
   "property": "C84",
   "status": "partial",
   "theorems": [
    "Verif.Ensure.C84_value_partial",
    "Verif.Ensure.C84_local_fails",
    "Verif.Ensure.C84_assign_fails"
   ],
   "note": "Holds for operands computed into a fresh temporary. False for a local variable assigned by the ensure clause (C84_local_fails) and for assignment expressions (C84_assign_fails)."
  },
  {
   "property": "C85",
   "status": "partial",
   "theorems": [
    "Verif.Const.C85_bare",
    "Verif.Const.C85_bare_missing",
    "Verif.Const.C85_path",
    "Verif.Const.C85_path_from",
    "Verif.Const.C85_private",
    "Verif.Const.C85_const_get_partial",
    "Verif.Const.C85_const_get_fails"
   ],
   "note": "C85_bare, C85_bare_missing, C85_path, C85_path_from, C85_private prove the lookup rule; const_get with a path does not see inherited constants (C85_const_get_fails), C85_const_get_partial covers a single name."
  },
  {
   "property": "C86",
   "status": "partial",
   "theorems": [
    "Verif.Const.C86_fresh_partial",
    "Verif.Const.C86_class_keyword_fails",
    "Verif.Const.C86_autoload_fails",
    "Verif.Const.C86_const_missing_fails",
    "Verif.Const.C86_private_fails",
    "Verif.Const.C86_deprecate_fails",
    "Verif.Const.C86_two_classes_fails"
   ],
   "note": "C86_fresh_partial for all histories of plain operations; the code departs from the property for class/module keywords, autoload registration, const_missing, private_constant, deprecate_constant and a class body run for two classes (C86_*_fails)."
  },
  {
   "property": "C87",
   "status": "partial",
   "theorems": [
    "Verif.Const.C87_fold_partial",
    "Verif.Const.C87_compiled",
    "Verif.Const.C87_class_keyword_fails"
   ],
   "note": "C87_fold_partial for all histories of plain operations and salvages; C87_class_keyword_fails shows the stale fold after a class definition."
  },
  {
   "property": "C88",
   "status": "partial",
   "theorems": [
    "Verif.Const.C88_defines",
    "Verif.Const.C88_defines_last",
    "Verif.Const.C88_raises",
    "Verif.Const.C88_silent",
    "Verif.Const.C88_once",
    "Verif.Const.C88_const_get_fails"
   ],
   "note": "C88_defines, C88_defines_last, C88_raises, C88_silent, C88_once; const_get swallows the file's exception (C88_const_get_fails)."
  },
  {
   "property": "C89",
   "status": "partial",
   "theorems": [
    "Verif.Closure.C89_shared_partial",
    "Verif.Closure.C89_binding_fails",
    "Verif.Closure.C89_aarch64_fails"
   ],
   "note": "C89_shared_partial: every run equals the environment semantics; without Integers as blocks, binding only where no block was given, x86-64. C89_binding_fails and C89_aarch64_fails show the code departs otherwise."
  },
  {
   "property": "C90",
   "status": "partial",
   "theorems": [
    "Verif.Closure.C90_yield_partial",
    "Verif.Closure.C90_integer_fails",
    "Verif.Closure.C90_binding_yield_fails"
   ],
   "note": "C90_yield_partial for all depths and histories under the conditions of C89; C90_integer_fails (f(&65537)), C90_binding_yield_fails (eval of yield after the method ended)."
  },
  {
   "property": "C91",
   "status": "partial",
   "theorems": [
    "Verif.Closure.C91_return_partial",
    "Verif.Closure.C91_lands_partial",
    "Verif.Closure.C91_ensure_fails",
    "Verif.Closure.C91_target_fails"
   ],
   "note": "C91_return_partial and C91_lands_partial for ensure clauses that make no closure; C91_ensure_fails, C91_target_fails show the return is swallowed or passes its target otherwise."
  },
  {
   "property": "C92",
   "status": "partial",
   "theorems": [
    "Verif.Sync.C92_mutual_exclusion",
    "Verif.Sync.C92_returns_holding",
    "Verif.Sync.C92_wait_interrupted_fails"
   ],
   "note": "C92_mutual_exclusion and C92_returns_holding (normal returns) for all runs, with interrupts. Missing: an interrupted ConditionVariable#wait can raise without the mutex (C92_wait_interrupted_fails)."
  },
  {
   "property": "C93",
   "status": "partial",
   "theorems": [
    "Verif.Sync.C93_try_lock_partial",
    "Verif.Sync.C93_dead_owner_fails"
   ],
   "note": "C93_try_lock_partial while no thread has ended holding a mutex; otherwise false although nobody holds it (C93_dead_owner_fails)."
  },
  {
   "property": "C94",
   "status": "partial",
   "theorems": [
    "Verif.Sync.C94_no_lost_wakeup_partial",
    "Verif.Sync.C94_owner_ends_fails",
    "Verif.Sync.C94_woken_interrupted_fails"
   ],
   "note": "C94_no_lost_wakeup_partial: runs without interrupts in which no thread ends holding a mutex. Both conditions are needed: C94_owner_ends_fails, C94_woken_interrupted_fails. That a run without new calls comes to rest (fair scheduling) is not proved."
  },
  {
   "property": "C95",
   "status": "partial",
   "theorems": [
    "Verif.Sync.C95_fifo",
    "Verif.Sync.C95_outcomes",
    "Verif.Sync.C95_backed",
    "Verif.Sync.C95_interrupted_pop_fails"
   ],
   "note": "C95_fifo, C95_outcomes, C95_backed for all runs, with interrupts. An item taken by an interrupted pop is lost (C95_interrupted_pop_fails)."
  },
  {
   "property": "C96",
   "status": "partial",
   "theorems": [
    "Verif.Sync.C96_no_lost_signal_partial",
    "Verif.Sync.C96_push_interrupted_fails"
   ],
   "note": "C96_no_lost_signal_partial: runs without interrupts; with an interrupt between the insertion and the signal a consumer sleeps while an item is there (C96_push_interrupted_fails)."
  },
  {
   "property": "C97",
   "status": "partial",
   "theorems": [
    "Verif.Sync.C97_monitor_partial",
    "Verif.Sync.C97_enter_fails",
    "Verif.Sync.C97_exit_fails"
   ],
   "note": "C97_monitor_partial when every enter is made while no other thread is inside; Monitor#enter never waits (C97_enter_fails) and exit without enter is accepted (C97_exit_fails)."
  },
  {
   "property": "C98",
   "status": "proved",
   "theorems": [
    "Verif.Arr.C98_element",
    "Verif.Arr.C98_slice",
    "Verif.Arr.C98_range"
   ],
   "note": "All index forms, on lists."
  },
  {
   "property": "C99",
   "status": "partial",
   "theorems": [
    "Verif.Arr.C99_element_partial",
    "Verif.Arr.C99_slice_partial",
    "Verif.Arr.C99_range_partial",
    "Verif.Arr.C99_replaces_what_is_read",
    "Verif.Arr.C99_read_back",
    "Verif.Arr.C99_range_to_ary_fails",
    "Verif.Arr.C99_huge_index_fails"
   ],
   "note": "Proved: C99_element_partial, C99_slice_partial, C99_range_partial, C99_replaces_what_is_read, C99_read_back. Disproved for two cases: C99_range_to_ary_fails (a[range] = x does not call to_ary), C99_huge_index_fails (an index beyond what fits in memory is a panic, not IndexError)."
  },
  {
   "property": "C100",
   "status": "partial",
   "theorems": [
    "Verif.Arr.C100_insert",
    "Verif.Arr.C100_delete_at",
    "Verif.Arr.C100_slice",
    "Verif.Arr.C100_slice_range_partial",
    "Verif.Arr.C100_slice_range_fails",
    "Verif.Arr.C100_shift_pop",
    "Verif.Arr.C100_rotate",
    "Verif.Arr.C100_fill",
    "Verif.Arr.C100_fill_range_fails",
    "Verif.Arr.C100_fill_range_partial"
   ],
   "note": "Proved for all methods but two cases that are disproved: C100_slice_range_fails (slice!(range) with a range that starts behind the array returns [] instead of nil), C100_fill_range_fails (fill with an empty range behind the array lengthens it)."
  },
  {
   "property": "C101",
   "status": "partial",
   "theorems": [
    "Verif.Arr.C101_combination",
    "Verif.Arr.C101_repeated_permutation",
    "Verif.Arr.C101_repeated_combination",
    "Verif.Arr.C101_permutation_partial",
    "Verif.Arr.C101_permutation_shrunk_fails",
    "Verif.Arr.C101_product_partial",
    "Verif.Arr.C101_product_raises",
    "Verif.Arr.C101_product_fails"
   ],
   "note": "Proved: completeness, order and enumerator size for all five. Missing: permutation when the block changes the size of the receiver (C101_permutation_shrunk_fails), product above 1,000,000 elements (C101_product_raises, C101_product_fails)."
  },
  {
   "property": "C102",
   "status": "partial",
   "theorems": [
    "Verif.Arr.C102_array_find_minimum",
    "Verif.Arr.C102_array_find_any_sound_partial",
    "Verif.Arr.C102_array_find_any_fails",
    "Verif.Arr.C102_array_find_any_reversed",
    "Verif.Arr.C102_range_sound",
    "Verif.Arr.C102_range_find_minimum",
    "Verif.Arr.C102_range_find_any",
    "Verif.Arr.C102_float_keys",
    "Verif.Arr.C102_float_find_minimum_partial",
    "Verif.Arr.C102_float_zero_fails"
   ],
   "note": "Proved: find-minimum for arrays, integer ranges with all kinds of ends, float ranges; find-any for integer ranges. Disproved: C102_array_find_any_fails (Array#bsearch goes the wrong way), C102_float_zero_fails (exclusive end 0.0 gives -0.0; 0.0..-0.0 is empty). For float ranges find-any is not stated."
  },
  {
   "property": "C103",
   "status": "partial",
   "theorems": [
    "Verif.Arr.C103_keep_partial",
    "Verif.Arr.C103_filter",
    "Verif.Arr.C103_no_panic_partial",
    "Verif.Arr.C103_shrunk_fails"
   ],
   "note": "Proved for blocks that leave the array alone, with exceptions (C103_keep_partial, C103_filter); no panic for blocks that do not shrink it (C103_no_panic_partial). C103_shrunk_fails: a block that shrinks the array brings the process down."
  },
  {
   "property": "C104",
   "status": "partial",
   "theorems": [
    "Verif.Arr.C104_map_partial",
    "Verif.Arr.C104_map_shrunk_fails"
   ],
   "note": "Proved for blocks that leave the array alone; C104_map_shrunk_fails: a block that shrinks the array leaves nils at the end."
  },
  {
   "property": "C105",
   "status": "partial",
   "theorems": [
    "Verif.Arr.C105_flatten",
    "Verif.Arr.C105_flatten_level_partial",
    "Verif.Arr.C105_flatten_level_sound",
    "Verif.Arr.C105_flatten_level_fails"
   ],
   "note": "C105_flatten is complete for flatten without a level; C105_flatten_level_partial for arrays without recursion; C105_flatten_level_fails: a level does not help with a recursive array. Elements with to_ary are not modelled."
  },
  {
   "property": "C106",
   "status": "partial",
   "theorems": [
    "Verif.Bop.C106_operator_dispatch_partial",
    "Verif.Bop.C106_only_the_named_pair",
    "Verif.Bop.C106_prepend_fails",
    "Verif.Bop.C106_inherited_fails",
    "Verif.Bop.C106_subclass_fails",
    "Verif.Bop.C106_private_fails",
    "Verif.Bop.C106_method_index_fails"
   ],
   "note": "Proved for receivers that are instances of a core class itself and for redefinitions made in that class (or hidden behind it); redefinition marks exactly the named pair. Fails for modules prepended to a core class, operators redefined in an ancestor (!, nil ===), subclasses and singleton classes of String, private operators, and Method#[]."
  },
  {
   "property": "C107",
   "status": "partial",
   "theorems": [
    "Verif.Bop.C107_not_equal_partial",
    "Verif.Bop.C107_fixnum_fails",
    "Verif.Bop.C107_symbol_fails",
    "Verif.Bop.C107_comparable_fails"
   ],
   "note": "Proved where != is the program's own or that of Integer, Float, String or BasicObject, two fixnums with a redefined Integer#== excepted. Fails for two fixnums with a redefined ==, for Symbol, and for classes including Comparable (whose != asks <=>)."
  },
  {
   "property": "C108",
   "status": "partial",
   "theorems": [
    "Verif.Bop.C108_no_stale_operator_partial",
    "Verif.Bop.C108_others_stay_compiled",
    "Verif.Bop.C108_never_reassumed",
    "Verif.Bop.C108_direct_call_fails",
    "Verif.Bop.C108_removal_fails",
    "Verif.Bop.C108_fiber_fails"
   ],
   "note": "Proved for redefinition by def/define_method/alias with no dependent frame suspended in another fiber, and direct calls that go where ordinary calls go (always on aarch64); other units keep their code; redefined operators are never assumed again. Fails for direct calls on x86-64, for remove_method/undef from a compiled frame, and for frames suspended in other fibers."
  },
  {
   "property": "C109",
   "status": "partial",
   "theorems": [
    "Verif.Bop.C109_jump_table_partial",
    "Verif.Bop.C109_compiled_agrees",
    "Verif.Bop.C109_repeated_literal_fails",
    "Verif.Bop.C109_float_subject_fails"
   ],
   "note": "Proved for all Integer subjects when no literal is repeated in two branches; compiled code agrees with the interpreter. Fails for a repeated literal (the later branch runs) and for a Float subject equal to a literal (else runs). A redefined Integer#=== is not consulted either (not modelled)."
  },
  {
   "property": "C110",
   "status": "partial",
   "theorems": [
    "Verif.IntMeth.C110_pow_mod_partial",
    "Verif.IntMeth.C110_errors",
    "Verif.IntMeth.C110_mod_one_fails",
    "Verif.IntMeth.C110_least_mod_fails",
    "Verif.IntMeth.C110_big_args_fails"
   ],
   "note": "Proved for exponents and moduli that are machine integers, other than the least one, and (e, m) other than (0, 1). Fails: pow(0, 1) is 1; the modulus -2**63 gives a result out of range; any bignum exponent or modulus raises RangeError."
  },
  {
   "property": "C111",
   "status": "partial",
   "theorems": [
    "Verif.IntMeth.C111_floor_partial",
    "Verif.IntMeth.C111_ceil_partial",
    "Verif.IntMeth.C111_truncate_partial",
    "Verif.IntMeth.C111_round_partial",
    "Verif.IntMeth.C111_nonneg",
    "Verif.IntMeth.C111_digits_cut_fails",
    "Verif.IntMeth.C111_round_range_fails"
   ],
   "note": "Proved for up to 2**32 - 1 digits (round: 2**30, its range). Fails: floor, ceil and truncate cut the number of digits to 32 bits, so -2**32 digits change nothing; round refuses digits from 2**30 on that the others accept."
  },
  {
   "property": "C112",
   "status": "proved",
   "theorems": [
    "Verif.IntMeth.C112_div_ceildiv",
    "Verif.IntMeth.C112_remainder",
    "Verif.IntMeth.C112_gcd",
    "Verif.IntMeth.C112_lcm"
   ],
   "note": ""
  },
  {
   "property": "C113",
   "status": "proved",
   "theorems": [
    "Verif.IntMeth.C113_bit_length",
    "Verif.IntMeth.C113_sqrt",
    "Verif.IntMeth.C113_digits",
    "Verif.IntMeth.C113_digits_errors",
    "Verif.IntMeth.C113_to_s",
    "Verif.IntMeth.C113_to_s_injective",
    "Verif.IntMeth.C113_to_s_radix"
   ],
   "note": "The decimal text of format! and BigInt's Display is taken to have the digits of the same loop."
  },
  {
   "property": "C114",
   "status": "partial",
   "theorems": [
    "Verif.IntMeth.C114_bit_partial",
    "Verif.IntMeth.C114_far_bit_fails",
    "Verif.IntMeth.C114_field_partial",
    "Verif.IntMeth.C114_neg_len",
    "Verif.IntMeth.C114_wide_field_fails",
    "Verif.IntMeth.C114_endless",
    "Verif.IntMeth.C114_beginless_partial",
    "Verif.IntMeth.C114_range_partial",
    "Verif.IntMeth.C114_reversed",
    "Verif.IntMeth.C114_far_range_fails",
    "Verif.IntMeth.C114_big_bound_fails",
    "Verif.IntMeth.C114_bit_predicates"
   ],
   "note": "Proved for positions that are immediates or machine integers; fields of 64 bits or more of a negative immediate, and small fields of an immediate at positions outside -63..63 given as a range, excepted. Fails there: (-1)[0, 64] is negative, 1[64..65] is 1, (-1)[2**64] is 0, and bounds that are not machine integers raise RangeError."
  },
  {
   "property": "C115",
   "status": "partial",
   "theorems": [
    "Verif.IntMeth.C115_rounded_is_nearest",
    "Verif.IntMeth.C115_fdiv_partial",
    "Verif.IntMeth.C115_subnormal_fails"
   ],
   "note": "Proved for quotients in the normal range or above it when one operand needs more than 53 bits (the other path is one hardware division of exact operands, not modelled). Fails below the normal range: the quotient is rounded twice, (2**60+1).fdiv(2**1135) is 0.0."
  },
  {
   "property": "C116",
   "status": "proved",
   "theorems": [
    "Verif.Str.C116_utf8_spec",
    "Verif.Str.C116_text_reads",
    "Verif.Str.C116_ascii_reads",
    "Verif.Str.C116_valid_utf8"
   ],
   "note": "Strings made by ISO-2022-JP decoding only through the decoder's verdict."
  },
  {
   "property": "C117",
   "status": "partial",
   "theorems": [
    "Verif.Str.C117_valid_partial",
    "Verif.Str.C117_unasked",
    "Verif.Str.C117_substring_fails",
    "Verif.Str.C117_splice_fails",
    "Verif.Str.C117_reverse_fails",
    "Verif.Str.C117_repeat_fails",
    "Verif.Str.C117_append_integer_fails",
    "Verif.Str.C117_compiled_append_fails",
    "Verif.Str.C117_pad_fails",
    "Verif.Str.C117_interpolation_fails"
   ],
   "note": "Proved for programs whose steps satisfy `fine`; a true answer to ascii_only? is then right. Fails: parts cut from and splices into non-ASCII strings deny ascii_only?; reversing or repeating a broken string keeps it broken; `<< 97` on UTF-16 and `<< 233` on US-ASCII keep a valid string valid; compiled `<<` on a broken Shift_JIS string disagrees with the interpreter; ljust on an empty UTF-16 string and interpolation of a UTF-16 string with an object claim validity."
  },
  {
   "property": "C118",
   "status": "partial",
   "theorems": [
    "Verif.Str.C118_chars",
    "Verif.Str.C118_chars_utf8",
    "Verif.Str.C118_length",
    "Verif.Str.C118_index",
    "Verif.Str.C118_slice_partial",
    "Verif.Str.C118_range_partial",
    "Verif.Str.C118_empty_slice_fails",
    "Verif.Str.C118_slice_wraps_fails",
    "Verif.Str.C118_surrogates_fails",
    "Verif.Str.C118_reverse"
   ],
   "note": "Proved except ISO-2022-JP; slices for positions and lengths below 2**62. Fails: s[i, 0] is always UTF-8; s[1, 2**62-1] on UTF-32 wraps to a range that ends before its start; UTF-16 surrogate pairs count as two characters."
  },
  {
   "property": "C120",
   "status": "partial",
   "theorems": [
    "Verif.Str.C120_when_joinable",
    "Verif.Str.C120_joined",
    "Verif.Str.C120_characters",
    "Verif.Str.C120_cut_ascii_fails",
    "Verif.Str.C120_compiled_append"
   ],
   "note": "Full in terms of the answers of ascii_only?; validity and characters for `fine` programs. Fails: a one-letter ASCII string cut from a non-ASCII one cannot be joined with Shift_JIS text."
  },
  {
   "property": "C121",
   "status": "partial",
   "theorems": [
    "Verif.Str.C121_scrub_partial",
    "Verif.Str.C121_utf16_fails"
   ],
   "note": "UTF-8, US-ASCII, EUC-JP and Shift_JIS, without a block. Fails: UTF-16 and UTF-32 strings are returned unrepaired."
  },
  {
   "property": "C122",
   "status": "proved",
   "theorems": [
    "Verif.Str.C122_pad",
    "Verif.Str.C122_repeat"
   ],
   "note": "Pad in the encoding of the receiver; ISO-2022-JP not modelled."
  },
  {
   "property": "C119",
   "status": "partial",
   "theorems": [
    "Verif.Share.C119_like_separate_copies_partial",
    "Verif.Share.C119_never_dangles_partial",
    "Verif.Share.C119_unchecked_write_fails",
    "Verif.Share.C119_unchecked_write_dangles_fails",
    "Verif.Share.C119_replace_dangles_fails",
    "Verif.Share.C119_snapshot_encoding_fails"
   ],
   "note": "Proved for all programs without the operations in `excluded`. Fails: methods that write without the frozen check (unicode_normalize!, IO#pread/sysread/read_nonblock with a frozen buffer, primitive_convert, recv) change or free what slices see; String#replace and initialize store a view into an old string without a write barrier, so that the next minor collection leaves it dangling; the snapshot of a view whose encoding was forced has the old encoding."
  },
  {
   "property": "C123",
   "status": "partial",
   "theorems": [
    "Verif.Rng.C123_each_is_the_range",
    "Verif.Rng.C123_size_and_reverse",
    "Verif.Rng.C123_first_min_max",
    "Verif.Rng.C123_min_max",
    "Verif.Rng.C123_native_partial",
    "Verif.Rng.C123_block_keeps_earliest",
    "Verif.Rng.C123_times_upto_downto",
    "Verif.Rng.C123_endless",
    "Verif.Rng.C123_big_last_fails",
    "Verif.Rng.C123_fractional_begin_max_fails"
   ],
   "note": "each, to_a, size, reverse_each, first(n), min, max, min(n), max(n), times/upto/downto proved for all Integers; last(n), count, map, min/max with a block for inline endpoints. Fails: those raise RuntimeError 'not supported' on big integers (C123_big_last_fails); a fractional begin makes max and max(n) return Integers below the begin (C123_fractional_begin_max_fails)."
  },
  {
   "property": "C124",
   "status": "partial",
   "theorems": [
    "Verif.Rng.C124_step_block",
    "Verif.Rng.C124_step_one",
    "Verif.Rng.C124_sequence_agrees_partial",
    "Verif.Rng.C124_endless_sequence",
    "Verif.Rng.C124_big_terms_fails",
    "Verif.Rng.C124_size_clamped_fails",
    "Verif.Rng.C124_first_of_empty_fails"
   ],
   "note": "Block iteration proved for all Integers; the sequence object for inline begin, end and step. Fails: big integers turn the terms of first(n) and last into Floats (C124_big_terms_fails), size is clamped to 2**63-1 (C124_size_clamped_fails), first of an empty sequence is its begin (C124_first_of_empty_fails). Float sequences not modelled."
  },
  {
   "property": "C125",
   "status": "partial",
   "theorems": [
    "Verif.Rng.C125_never_outside",
    "Verif.Rng.C125_selects_terms",
    "Verif.Rng.C125_negative_positions_partial",
    "Verif.Rng.C125_open_ends",
    "Verif.Rng.C125_exclusive_last_fails"
   ],
   "note": "Fails: an exclusive end of -1 with a negative step becomes position 0 (C125_exclusive_last_fails; CRuby's code does the same). Endpoints outside the array are covered only by C125_never_outside."
  },
  {
   "property": "C126",
   "status": "proved",
   "theorems": [
    "Verif.Rng.C126_cover_value",
    "Verif.Rng.C126_cover_is_each",
    "Verif.Rng.C126_overlap",
    "Verif.Rng.C126_cover_range",
    "Verif.Rng.C126_endless_exclusive"
   ],
   "note": "Over Integer and nil endpoints; the endless exclusive/inclusive exception is in the statement (C126_endless_exclusive)."
  },
  {
   "property": "C127",
   "status": "partial",
   "theorems": [
    "Verif.Text.C127_literal_set",
    "Verif.Text.C127_range_set",
    "Verif.Text.C127_escaped",
    "Verif.Text.C127_complement",
    "Verif.Text.C127_delete_count",
    "Verif.Text.C127_intersection",
    "Verif.Text.C127_tr_paths",
    "Verif.Text.C127_encoding_irrelevant",
    "Verif.Text.C127_other_encodings",
    "Verif.Text.C127_tr_empty_deletes",
    "Verif.Text.C127_bang_nil",
    "Verif.Text.C127_tr_pointwise_partial",
    "Verif.Text.C127_caret_in_replacement_fails",
    "Verif.Text.C127_squeeze",
    "Verif.Text.C127_tr_s_squeeze"
   ],
   "note": "tr place by place proved for sets without backslash, - and ^; the other clauses for all arguments. Fails: a replacement that begins with ^ is read as a negated set (C127_caret_in_replacement_fails)."
  },
  {
   "property": "C128",
   "status": "partial",
   "theorems": [
    "Verif.Text.C128_odometer",
    "Verif.Text.C128_decimal",
    "Verif.Text.C128_increases",
    "Verif.Text.C128_suffix_partial",
    "Verif.Text.C128_suffix_fails",
    "Verif.Text.C128_no_alnum",
    "Verif.Text.C128_last_code_point_fails",
    "Verif.Text.C128_bytes"
   ],
   "note": "Odometer, decimal, increase, byte counting for all strings of letters and digits; suffix rule when only letters and digits precede it. Fails: 'a-9>'.succ is 'b-0>' although 'a-9'.succ is 'a-10' (C128_suffix_fails); succ of a string ending in U+10FFFF or U+D7FF panics (C128_last_code_point_fails)."
  },
  {
   "property": "C129",
   "status": "partial",
   "theorems": [
    "Verif.Text.C129_each",
    "Verif.Text.C129_each_ends",
    "Verif.Text.C129_empty",
    "Verif.Text.C129_upto_each_partial",
    "Verif.Text.C129_digits",
    "Verif.Text.C129_upto_letters_fails",
    "Verif.Text.C129_upto_digits_fails",
    "Verif.Text.C129_minmax_fails"
   ],
   "note": "each characterised and proved to end for a begin of letters and digits; upto agrees for equal lengths. Fails: 'a'.upto('bb') and ('a'..'bb').each differ (C129_upto_letters_fails), also '9'.upto('11') (C129_upto_digits_fails); ('a'...'b!').minmax never returns (C129_minmax_fails)."
  },
  {
   "property": "C130",
   "status": "partial",
   "theorems": [
    "Verif.Text.C130_index",
    "Verif.Text.C130_rindex_bytes",
    "Verif.Text.C130_rindex_last",
    "Verif.Text.C130_rindex_sound",
    "Verif.Text.C130_rindex_negative",
    "Verif.Text.C130_rindex_partial",
    "Verif.Text.C130_rindex_fails",
    "Verif.Text.C130_index_chars",
    "Verif.Text.C130_byteindex",
    "Verif.Text.C130_byteindex_chars",
    "Verif.Text.C130_byte_offset_error",
    "Verif.Text.C130_byterindex",
    "Verif.Text.C130_partition_partial",
    "Verif.Text.C130_partition_fails",
    "Verif.Text.C130_rpartition"
   ],
   "note": "index, byteindex, byterindex, rpartition for all arguments; rindex for the default offset and for needles without overlaps with themselves. Fails: 'aaa'.rindex('aa', 0) is nil (C130_rindex_fails); 'あ'.partition(\"\\xE3\") loses bytes (C130_partition_fails)."
  },
  {
   "property": "C131",
   "status": "partial",
   "theorems": [
    "Verif.Text.C131_split",
    "Verif.Text.C131_split_default",
    "Verif.Text.C131_split_words",
    "Verif.Text.C131_split_words_limit",
    "Verif.Text.C131_split_chars",
    "Verif.Text.C131_split_chars_encoding_partial",
    "Verif.Text.C131_split_chars_encoding_fails",
    "Verif.Text.C131_lines",
    "Verif.Text.C131_lines_chomp",
    "Verif.Text.C131_lines_chomp_default",
    "Verif.Text.C131_lines_explicit_newline_fails",
    "Verif.Text.C131_paragraphs",
    "Verif.Text.C131_chomp",
    "Verif.Text.C131_chomp_paragraph",
    "Verif.Text.C131_chomp_separator_partial",
    "Verif.Text.C131_chomp_separator_fails",
    "Verif.Text.C131_strip",
    "Verif.Text.C131_strip_bang"
   ],
   "note": "All clauses on UTF-8 receivers. Fails: split('', n) past the number of characters depends on the encoding (C131_split_chars_encoding_fails); lines(\"\\n\", chomp: true) keeps \\r (C131_lines_explicit_newline_fails); 'hellollo'.chomp('llo') removes two (C131_chomp_separator_fails)."
  },
  {
   "property": "C132",
   "status": "partial",
   "theorems": [
    "Verif.Text.C132_dump_undump",
    "Verif.Text.C132_dump_injective",
    "Verif.Text.C132_inspect_undump",
    "Verif.Text.C132_dump_printable",
    "Verif.Text.C132_dump_no_interpolation",
    "Verif.Text.C132_inspect_no_interpolation_partial",
    "Verif.Text.C132_inspect_no_interpolation_fails",
    "Verif.Text.C132_encoding_partial",
    "Verif.Text.C132_encoding_fails",
    "Verif.Text.C132_undump_refuses"
   ],
   "note": "Bytes come back for every string and encoding; also through inspect in UTF-8 when nothing above ASCII is shown as itself. Fails: undump always gives UTF-8, and UTF-16LE and UTF-16BE dumps look the same (C132_encoding_fails); inspect of binary and US-ASCII strings leaves #{ unescaped (C132_inspect_no_interpolation_fails)."
  },
  {
   "property": "C133",
   "status": "partial",
   "theorems": [
    "Verif.Text.C133_to_i",
    "Verif.Text.C133_prefix",
    "Verif.Text.C133_no_digits",
    "Verif.Text.C133_round_trip",
    "Verif.Text.C133_space_fails",
    "Verif.Text.C133_signs_fails",
    "Verif.Text.C133_hex",
    "Verif.Text.C133_oct",
    "Verif.Text.C133_oct_prefix",
    "Verif.Text.C133_digits",
    "Verif.Text.C133_radix_zero",
    "Verif.Text.C133_sum_partial",
    "Verif.Text.C133_sum_fails"
   ],
   "note": "Round trip for every Integer and radix 2..36; to_i, hex, oct on every text of the documented form; 0 without digits. Fails: white space after the sign or prefix is skipped, so '- 5'.to_i is -5 (C133_space_fails); a second sign is dropped or counted depending on the size of the number (C133_signs_fails); sum(0) is 0 (C133_sum_fails)."
  },
  {
   "property": "C134",
   "status": "proved",
   "theorems": [
    "Verif.Lazy.C134_to_a",
    "Verif.Lazy.C134_first",
    "Verif.Lazy.C134_stops",
    "Verif.Lazy.C134_take_zero",
    "Verif.Lazy.C134_in_turn",
    "Verif.Lazy.C134_with_index_block",
    "Verif.Lazy.C134_size",
    "Verif.Lazy.C134_size_infinite"
   ],
   "note": "Every chain of sixteen kinds of stage; sources and blocks as functions on a world. One value per yield, blocks do not raise, zip with Arrays."
  },
  {
   "property": "C135",
   "status": "partial",
   "theorems": [
    "Verif.Enumer.C135_chunk_while",
    "Verif.Enumer.C135_pieces",
    "Verif.Enumer.C135_slice_before_after",
    "Verif.Enumer.C135_boundary_partial",
    "Verif.Enumer.C135_boundary_nil_fails",
    "Verif.Enumer.C135_each_slice",
    "Verif.Enumer.C135_each_cons",
    "Verif.Enumer.C135_arrays",
    "Verif.Enumer.C135_inject",
    "Verif.Enumer.C135_search",
    "Verif.Enumer.C135_one",
    "Verif.Enumer.C135_take",
    "Verif.Enumer.C135_chunk",
    "Verif.Enumer.C135_chunk_flatten",
    "Verif.Enumer.C135_group_by",
    "Verif.Enumer.C135_tally",
    "Verif.Enumer.C135_min_max",
    "Verif.Enumer.C135_minmax_by",
    "Verif.Enumer.C135_minmax_partial",
    "Verif.Enumer.C135_minmax_once_fails",
    "Verif.Enumer.C135_zip",
    "Verif.Enumer.C135_zip_lazy_fails",
    "Verif.Enumer.C135_cycle"
   ],
   "note": "All proved over every source and block, except: slice_before / slice_after with a nil pattern raise (C135_boundary_nil_fails); minmax without a block walks the source twice, so a source that can be read once has no maximum (C135_minmax_once_fails); zip reads all of its argument first, so an endless argument hangs (C135_zip_lazy_fails)."
  },
  {
   "property": "C136",
   "status": "partial",
   "theorems": [
    "Verif.Enumer.C136_sum_partial",
    "Verif.Enumer.C136_sum_infinite_fails"
   ],
   "note": "Exact on whole Floats (rounding is not modelled). Fails: infinity followed by anything gives NaN (C136_sum_infinite_fails)."
  },
  {
   "property": "C137",
   "status": "partial",
   "theorems": [
    "Verif.SetAlg.C137_add",
    "Verif.SetAlg.C137_delete",
    "Verif.SetAlg.C137_algebra",
    "Verif.SetAlg.C137_intersection",
    "Verif.SetAlg.C137_order",
    "Verif.SetAlg.C137_no_repeats",
    "Verif.SetAlg.C137_compare",
    "Verif.SetAlg.C137_disjoint",
    "Verif.SetAlg.C137_hash",
    "Verif.SetAlg.C137_dup_partial",
    "Verif.SetAlg.C137_dup_identity_fails",
    "Verif.SetAlg.C137_replace",
    "Verif.SetAlg.C137_filter",
    "Verif.SetAlg.C137_map",
    "Verif.SetAlg.C137_classify",
    "Verif.SetAlg.C137_divide_partial",
    "Verif.SetAlg.C137_divide_fails",
    "Verif.SetAlg.C137_flatten_sound",
    "Verif.SetAlg.C137_flatten_total",
    "Verif.SetAlg.C137_flatten_recursive",
    "Verif.SetAlg.C137_reset_fails"
   ],
   "note": "Algebra, order, comparison, hash, filters, map, classify, flatten proved for all sets. Fails: dup of an identity set merges eql? elements (C137_dup_identity_fails), divide groups by the object id of the block's result (C137_divide_fails), reset does nothing (C137_reset_fails). Not modelled: subclasses, frozen sets, divide with two parameters, blocks that raise."
  },
  {
   "property": "C138",
   "status": "partial",
   "theorems": [
    "Verif.Cmp.C138_operators",
    "Verif.Cmp.C138_trichotomy",
    "Verif.Cmp.C138_order",
    "Verif.Cmp.C138_incomparable",
    "Verif.Cmp.C138_eq_self",
    "Verif.Cmp.C138_raises",
    "Verif.Cmp.C138_ne_partial",
    "Verif.Cmp.C138_ne_fails",
    "Verif.Cmp.C138_ne_own_eq_fails",
    "Verif.Cmp.C138_clamp",
    "Verif.Cmp.C138_clamp_half",
    "Verif.Cmp.C138_clamp_refuses",
    "Verif.Cmp.C138_clamp_one_of",
    "Verif.Cmp.C138_clamp_one_fails",
    "Verif.Cmp.C138_clamp_incomparable_fails",
    "Verif.Cmp.C138_between_partial",
    "Verif.Cmp.C138_between_fails"
   ],
   "note": "Operators, ==, clamp over any linear order proved. Fails: != raises where <=> gives nil (Time.now != nil) and ignores a user-defined == (C138_ne_fails, C138_ne_own_eq_fails); clamp takes one plain bound (C138_clamp_one_fails) and raises NoMethodError on incomparable bounds; between? asks the bound, not self (C138_between_fails). Results of <=> that are Floats are not modelled."
  },
  {
   "property": "C139",
   "status": "partial",
   "theorems": [
    "Verif.StructCls.C139_define",
    "Verif.StructCls.C139_new_positional",
    "Verif.StructCls.C139_new_keywords",
    "Verif.StructCls.C139_new_same",
    "Verif.StructCls.C139_keyword_init_partial",
    "Verif.StructCls.C139_new_mixed",
    "Verif.StructCls.C139_keyword_init_keys",
    "Verif.StructCls.C139_subclass_keyword_init_fails",
    "Verif.StructCls.C139_keyword_init_false_fails",
    "Verif.StructCls.C139_string_key_fails",
    "Verif.StructCls.C139_string_member_fails",
    "Verif.StructCls.C139_to_a_partial",
    "Verif.StructCls.C139_fetch_partial",
    "Verif.StructCls.C139_store_partial",
    "Verif.StructCls.C139_dig_partial",
    "Verif.StructCls.C139_deconstruct_keys_partial",
    "Verif.StructCls.C139_ne",
    "Verif.StructCls.C139_eq",
    "Verif.StructCls.C139_hash",
    "Verif.StructCls.C139_eq_self_fails",
    "Verif.StructCls.C139_size_member_fails",
    "Verif.StructCls.C139_members_member_fails",
    "Verif.StructCls.C139_override_fails",
    "Verif.StructCls.C139_float_index_fails",
    "Verif.StructCls.C139_members_shared_fails",
    "Verif.StructCls.C139_members_baked_fails",
    "Verif.StructCls.C139_frozen_initialize_fails"
   ],
   "note": "new by position and keyword, access by index and name, assignment, dig, deconstruct_keys, ==, !=, hash proved for members that are Symbols. Fails: keyword_init is lost in subclasses, keyword_init: false ignored, String keys dropped, a String member kills the process, members named size/members break access, user-defined readers seen by to_a, members gives the class's own array, initialize changes a frozen struct, NaN (the C139_..._fails theorems). Not modelled: recursive structs, inspect, user-defined writers, values_at."
  },
  {
   "property": "C140",
   "status": "partial",
   "theorems": [
    "Verif.DataCls.C140_define",
    "Verif.DataCls.C140_keywords_partial",
    "Verif.DataCls.C140_positional_partial",
    "Verif.DataCls.C140_to_h_partial",
    "Verif.DataCls.C140_with_partial",
    "Verif.DataCls.C140_deconstruct_keys_partial",
    "Verif.DataCls.C140_class_member_fails",
    "Verif.DataCls.C140_frozen_fails",
    "Verif.DataCls.C140_members_shared_fails"
   ],
   "note": "Proved for classes without a member named class. Fails: such a class cannot be instantiated (C140_class_member_fails), initialize changes a frozen object (C140_frozen_fails), members gives the class's own array (C140_members_shared_fails). Not modelled: user-defined initialize, to_str keys."
  },
  {
   "property": "C141",
   "status": "partial",
   "theorems": [
    "Verif.NumCmp.C141_exact_partial",
    "Verif.NumCmp.C141_reverse",
    "Verif.NumCmp.C141_operators",
    "Verif.NumCmp.C141_nan",
    "Verif.NumCmp.C141_never_reversed",
    "Verif.NumCmp.C141_equal_fails"
   ],
   "note": "Exact but for Fixnums above 2^53 with Floats, which are rounded first (C141_equal_fails); even then never the wrong way round (C141_never_reversed)."
  },
  {
   "property": "C142",
   "status": "partial",
   "theorems": [
    "Verif.ClassVar.C142_read",
    "Verif.ClassVar.C142_uninitialized",
    "Verif.ClassVar.C142_overtaken",
    "Verif.ClassVar.C142_assign_partial",
    "Verif.ClassVar.C142_frame",
    "Verif.ClassVar.C142_names",
    "Verif.ClassVar.C142_defined_partial",
    "Verif.ClassVar.C142_once",
    "Verif.ClassVar.C142_remove",
    "Verif.ClassVar.C142_lexical",
    "Verif.ClassVar.C142_defined_fails",
    "Verif.ClassVar.C142_set_overtaken_fails",
    "Verif.ClassVar.C142_or_assign_fails",
    "Verif.ClassVar.C142_singleton_set_fails",
    "Verif.ClassVar.C142_class_variable_set",
    "Verif.ClassVar.C142_frozen_fails"
   ],
   "note": "Reads, overtaking, assignment, frame, names, removal proved. Fails: defined?(@@x) and class_variable_defined? say true for an overtaken variable whose read raises (C142_defined_fails), class_variable_set ignores overtaking (C142_set_overtaken_fails), @@x ||= v (C142_or_assign_fails), class_variable_set on a singleton class (C142_singleton_set_fails), frozen classes are written to (C142_frozen_fails)."
  },
  {
   "property": "C143",
   "status": "partial",
   "theorems": [
    "Verif.TimeCls.C143_order",
    "Verif.TimeCls.C143_zone",
    "Verif.TimeCls.C143_ne_fails",
    "Verif.TimeCls.C143_ne_zero_fails",
    "Verif.TimeCls.C143_ne_partial",
    "Verif.TimeCls.C143_fields",
    "Verif.TimeCls.C143_at",
    "Verif.TimeCls.C143_at_units",
    "Verif.TimeCls.C143_cmp_other",
    "Verif.TimeCls.C143_add_partial",
    "Verif.TimeCls.C143_add_sub",
    "Verif.TimeCls.C143_translate",
    "Verif.TimeCls.C143_diff_fails",
    "Verif.TimeCls.C143_far_fails",
    "Verif.TimeCls.C143_add_range_fails",
    "Verif.TimeCls.C143_fine_fails",
    "Verif.TimeCls.C143_round",
    "Verif.TimeCls.C143_round_total",
    "Verif.TimeCls.C143_precision_fails"
   ],
   "note": "Order, equality, hash, Time.at, add/sub inverse, translation and rounding proved. Fails: Time - Time more than 292 years apart kills the process (C143_diff_fails); t + n refuses more than 292 years (C143_far_fails) and kills the process past the range (C143_add_range_fails); parts finer than a nanosecond are dropped at each step (C143_fine_fails); Time != nil raises (C143_ne_fails); precision over 9 refused. Float arguments and results are not modelled."
  },
  {
   "property": "C144",
   "status": "partial",
   "theorems": [
    "Verif.TimeCls.C144_calendar",
    "Verif.TimeCls.C144_next",
    "Verif.TimeCls.C144_build",
    "Verif.TimeCls.C144_hour24_fails",
    "Verif.TimeCls.C144_offset",
    "Verif.TimeCls.C144_offset_range",
    "Verif.TimeCls.C144_letters",
    "Verif.TimeCls.C144_colons_fails",
    "Verif.TimeCls.C144_marshal_partial",
    "Verif.TimeCls.C144_year_fails",
    "Verif.TimeCls.C144_gap_fails"
   ],
   "note": "Calendar, construction, offsets proved. Marshal round trip for 1900..67435. Fails: years before 1900 come back as 67435 (C144_year_fails); a wall clock in a gap of the local zone cannot be loaded (C144_gap_fails); hour 24 refused (C144_hour24_fails); colons accepted anywhere in an offset (C144_colons_fails). chrono's calendar is modelled by its documented meaning; strftime apart from offsets, whole-time parsing and the zone database are not modelled."
  },
  {
   "property": "C145",
   "status": "partial",
   "theorems": [
    "Verif.PathName.C145_expand",
    "Verif.PathName.C145_expand_walk",
    "Verif.PathName.C145_expand_home",
    "Verif.PathName.C145_dirname_shape",
    "Verif.PathName.C145_absolute_fails",
    "Verif.PathName.C145_absolute_partial",
    "Verif.PathName.C145_system_fails",
    "Verif.PathName.C145_system_partial",
    "Verif.PathName.C145_split_fails",
    "Verif.PathName.C145_split_partial",
    "Verif.PathName.C145_join",
    "Verif.PathName.C145_join_split",
    "Verif.PathName.C145_join_step",
    "Verif.PathName.C145_join_absolute",
    "Verif.PathName.C145_basename",
    "Verif.PathName.C145_suffix",
    "Verif.PathName.C145_suffix_fails",
    "Verif.PathName.C145_dirname",
    "Verif.PathName.C145_dirname_basename",
    "Verif.PathName.C145_dirname_level",
    "Verif.PathName.C145_ext_partial",
    "Verif.PathName.C145_ext_fails"
   ],
   "note": "join, basename, dirname, expand_path proved for all names. Fails: extname of a name with a slash at its end is empty and basename(.., '.*') cuts a basename that begins with two dots (C145_ext_fails); basename('.rb', '.rb') is empty (C145_suffix_fails); absolute_path of a relative directory is relative, and '..' stays in it (C145_absolute_fails); the system is asked for a name with '..' taken out by text, an empty one for 'a/..', and without the slash at its end (C145_system_fails); File.split('/') and names with '..' (C145_split_fails). Encodings and NUL bytes are not modelled."
  },
  {
   "property": "C146",
   "status": "proved",
   "theorems": [
    "Verif.PathName.C146_cleanpath_shape",
    "Verif.PathName.C146_cleanpath_walk",
    "Verif.PathName.C146_cleanpath_idempotent",
    "Verif.PathName.C146_cleanpath_canonical",
    "Verif.PathName.C146_cleanpath_expand",
    "Verif.PathName.C146_relative",
    "Verif.PathName.C146_relative_raises"
   ],
   "note": "All names. Symbolic links are not seen by cleanpath (documented). cleanpath(true) is not modelled."
  },
  {
   "property": "C147",
   "status": "partial",
   "theorems": [
    "Verif.ComplexNum.C147_ring_partial",
    "Verif.ComplexNum.C147_integer",
    "Verif.ComplexNum.C147_pow_partial",
    "Verif.ComplexNum.C147_pow_add_partial",
    "Verif.ComplexNum.C147_pow_fails",
    "Verif.ComplexNum.C147_div",
    "Verif.ComplexNum.C147_div_zero",
    "Verif.ComplexNum.C147_div_mul",
    "Verif.ComplexNum.C147_div_real",
    "Verif.ComplexNum.C147_rational_right_partial",
    "Verif.ComplexNum.C147_neg",
    "Verif.ComplexNum.C147_rational_fails",
    "Verif.ComplexNum.C147_rational_side_fails",
    "Verif.ComplexNum.C147_quotient_fails",
    "Verif.ComplexNum.C147_eq_partial",
    "Verif.ComplexNum.C147_eq_fails",
    "Verif.ComplexNum.C147_cmp_partial",
    "Verif.ComplexNum.C147_cmp_fails",
    "Verif.ComplexNum.C147_denominator",
    "Verif.ComplexNum.C147_to_real"
   ],
   "note": "Integer parts: the Gaussian integers (C147_ring_partial, C147_pow_partial); division, negation, a Rational on the right, numerator and denominator: all exact parts. Fails: a Rational part becomes a Float under +, -, *, conjugate, abs2, and so does a Rational on the left (C147_rational_fails, C147_rational_side_fails), so a quotient times its divisor is not the dividend (C147_quotient_fails); a negative power is Floats (C147_pow_fails); == compares Rational parts as Floats (C147_eq_fails); <=> with a Rational is nil (C147_cmp_fails). Float exponents, polar form and Float rounding are not modelled."
  },
  {
   "property": "C148",
   "status": "partial",
   "theorems": [
    "Verif.Records.C148_gets_partial",
    "Verif.Records.C148_records",
    "Verif.Records.C148_chomp",
    "Verif.Records.C148_chomp_paragraph",
    "Verif.Records.C148_limit_zero_fails",
    "Verif.Records.C148_limit_ignored_fails",
    "Verif.Records.C148_limit_char_fails"
   ],
   "note": "All files and separators without a limit, and with a limit for a non-empty separator in a single-byte encoding (C148_gets_partial). Fails: with the limit 0 and a file that is not empty it never returns (C148_limit_zero_fails); the limit is ignored with a nil or empty separator (C148_limit_ignored_fails); a limit cuts a character (C148_limit_char_fails)."
  },
  {
   "property": "C149",
   "status": "partial",
   "theorems": [
    "Verif.HashMeth.C149_to_h",
    "Verif.HashMeth.C149_to_h_order",
    "Verif.HashMeth.C149_new_key",
    "Verif.HashMeth.C149_transform_keys",
    "Verif.HashMeth.C149_transform_keys_bang",
    "Verif.HashMeth.C149_transform_keys_bang_order_fails",
    "Verif.HashMeth.C149_transform_values",
    "Verif.HashMeth.C149_select",
    "Verif.HashMeth.C149_delete_if_partial",
    "Verif.HashMeth.C149_delete_if_raise",
    "Verif.HashMeth.C149_delete_if_fails",
    "Verif.HashMeth.C149_reject_bang",
    "Verif.HashMeth.C149_slice",
    "Verif.HashMeth.C149_except",
    "Verif.HashMeth.C149_compact",
    "Verif.HashMeth.C149_merge",
    "Verif.HashMeth.C149_merge_order",
    "Verif.HashMeth.C149_merge_several",
    "Verif.HashMeth.C149_invert",
    "Verif.HashMeth.C149_invert_invert",
    "Verif.HashMeth.C149_key",
    "Verif.HashMeth.C149_has_value",
    "Verif.HashMeth.C149_eq",
    "Verif.HashMeth.C149_le",
    "Verif.HashMeth.C149_lt",
    "Verif.HashMeth.C149_min_by_partial",
    "Verif.HashMeth.C149_min_by_fails"
   ],
   "note": "All Hashes and all blocks that do not change the Hash they are called for. Fails: delete_if, keep_if, select! and reject! take nothing out if the block raises or breaks, also what it had answered for (C149_delete_if_raise, C149_delete_if_fails; Ruby removes as it goes); min_by passes over nil for the first entry where Ruby raises ArgumentError (C149_min_by_fails). C149_transform_keys_bang_order_fails only notes that the order of transform_keys! can differ from transform_keys (it does in Ruby too). Defaults, compare_by_identity and subclasses are not modelled."
  },
  {
   "property": "C150",
   "status": "partial",
   "theorems": [
    "Verif.EnumCls.C150_product",
    "Verif.EnumCls.C150_product_size",
    "Verif.EnumCls.C150_product_size_unknown",
    "Verif.EnumCls.C150_chain",
    "Verif.EnumCls.C150_chain_rewind",
    "Verif.EnumCls.C150_chain_size",
    "Verif.EnumCls.C150_produce_partial",
    "Verif.EnumCls.C150_produce_fails",
    "Verif.EnumCls.C150_produce_first"
   ],
   "note": "Members are finite and do not raise. Fails: produce without an initial value lets a StopIteration of the first call out of each, because that call is before the loop that catches it (C150_produce_fails)."
  },
  {
   "property": "C151",
   "status": "partial",
   "theorems": [
    "Verif.Callable.C151_compose_partial",
    "Verif.Callable.C151_compose_type",
    "Verif.Callable.C151_compose_assoc",
    "Verif.Callable.C151_compose_keywords_fails",
    "Verif.Callable.C151_compose_keywords_witness_fails",
    "Verif.Callable.C151_arity",
    "Verif.Callable.C151_arity_proc",
    "Verif.Callable.C151_curry_partial",
    "Verif.Callable.C151_curry_arity_partial",
    "Verif.Callable.C151_curry_keyword_fails",
    "Verif.Callable.C151_curry_negative_fails",
    "Verif.Callable.C151_curry_calls",
    "Verif.Callable.C151_curry_zero"
   ],
   "note": "Without keywords for composition, without required keywords and for n >= 0 for curry. Fails: a composition hands keywords to the first callable as a Hash (C151_compose_keywords_fails); a lambda with a required keyword cannot be curried, its own arity is refused (C151_curry_keyword_fails); a negative arity is accepted (C151_curry_negative_fails)."
  },
  {
   "property": "C152",
   "status": "partial",
   "theorems": [
    "Verif.Glob.C152_results_partial",
    "Verif.Glob.C152_trailing_globstar",
    "Verif.Glob.C152_globstar",
    "Verif.Glob.C152_globstar_not_entered",
    "Verif.Glob.C152_exists_partial",
    "Verif.Glob.C152_literal",
    "Verif.Glob.C152_once_partial",
    "Verif.Glob.C152_trailing_slash",
    "Verif.Glob.C152_once_fails",
    "Verif.Glob.C152_exists_fails"
   ],
   "note": "The matcher of one segment is a parameter (C31); the tree does not change during the walk; order, doubled slashes and .. in the exact statement are left out. Fails: a pattern with two ** returns paths more than once (C152_once_fails); file/. and file/../other are returned although there is no such path (C152_exists_fails)."
  },
  {
   "property": "C153",
   "status": "partial",
   "theorems": [
    "Verif.StrEdit.C153_insert",
    "Verif.StrEdit.C153_concat_partial",
    "Verif.StrEdit.C153_prepend_partial",
    "Verif.StrEdit.C153_concat_fails",
    "Verif.StrEdit.C153_frozen_partial",
    "Verif.StrEdit.C153_frozen_fails",
    "Verif.StrEdit.C153_chop",
    "Verif.StrEdit.C153_chop_bang_partial",
    "Verif.StrEdit.C153_delete_affix",
    "Verif.StrEdit.C153_delete_affix_bang_partial",
    "Verif.StrEdit.C153_delete_empty_fails",
    "Verif.StrEdit.C153_slice_at",
    "Verif.StrEdit.C153_slice_at_before",
    "Verif.StrEdit.C153_slice_len",
    "Verif.StrEdit.C153_slice_range_partial",
    "Verif.StrEdit.C153_slice_range_parts",
    "Verif.StrEdit.C153_slice_range_fails",
    "Verif.StrEdit.C153_byteslice_at",
    "Verif.StrEdit.C153_byteslice_len",
    "Verif.StrEdit.C153_byteslice_range_partial",
    "Verif.StrEdit.C153_byteslice_range_fails",
    "Verif.StrEdit.C153_bytesplice_len",
    "Verif.StrEdit.C153_bytesplice_raises",
    "Verif.StrEdit.C153_bytesplice_range_partial",
    "Verif.StrEdit.C153_bytesplice_range_fails",
    "Verif.StrEdit.C153_bytesplice_source_fails",
    "Verif.StrEdit.C153_bytesplice_source"
   ],
   "note": "Forms with a Regexp or a String to look for are left out; encodings are in C118-C120. Fails: slice!(0...0) removes the whole string, an endless Range is refused by slice! and bytesplice, a Range that ends before the beginning gives nil (C153_slice_range_fails, C153_byteslice_range_fails, C153_bytesplice_range_fails); s.concat(s, s) appends the changed s (C153_concat_fails); frozen strings raise nothing if there is nothing to do (C153_frozen_fails); delete_suffix!(\"\") returns self (C153_delete_empty_fails); bytesplice accepts an offset within a character of the source (C153_bytesplice_source_fails)."
  },
  {
   "property": "C154",
   "status": "partial",
   "theorems": [
    "Verif.Fiber.C154_stack_partial",
    "Verif.Fiber.C154_no_crash",
    "Verif.Fiber.C154_ping_pong",
    "Verif.Fiber.C154_transfer_first",
    "Verif.Fiber.C154_transfer_back",
    "Verif.Fiber.C154_return_fails",
    "Verif.Fiber.C154_resume_root_fails",
    "Verif.Fiber.C154_resume_after_transfer_fails"
   ],
   "note": "Exact for programs without transfer, and for the first transfer of a program (to an unstarted fiber also its end). One thread; stacks and registers are left out. Fails with transfers: the end of a fiber can lead to one that has ended (C154_return_fails), the root can be resumed from a fiber it transferred to (C154_resume_root_fails), a fiber once transferred to cannot be resumed after it yielded (C154_resume_after_transfer_fails)."
  },
  {
   "property": "C155",
   "status": "partial",
   "theorems": [
    "Verif.ExtEnum.C155_cursor_partial",
    "Verif.ExtEnum.C155_next_all",
    "Verif.ExtEnum.C155_peek_fails",
    "Verif.ExtEnum.C155_feed_fails"
   ],
   "note": "The iteration is a machine that starts again in the same state; the source's own rewind is left out. Fails: the Array that peek returns is the one next returns later, so changing it changes the element (C155_peek_fails); a value fed to an iteration that yields nothing stays after the end (C155_feed_fails)."
  },
  {
   "property": "C156",
   "status": "partial",
   "theorems": [
    "Verif.Sprintf.C156_format",
    "Verif.Sprintf.C156_too_few",
    "Verif.Sprintf.C156_digits",
    "Verif.Sprintf.C156_twos_complement",
    "Verif.Sprintf.C156_int_partial",
    "Verif.Sprintf.C156_zero_precision_fails",
    "Verif.Sprintf.C156_octal_prefix_fails",
    "Verif.Sprintf.C156_str_partial",
    "Verif.Sprintf.C156_width_fails"
   ],
   "note": "Exact for the reading of format strings and for two's complement; the field of an Integer outside the cases below, the field of an ASCII String. Floats, %c, %p, %{} and %<> and numbered references are left out. Fails: the 0 flag is not turned off by a precision (C156_zero_precision_fails), the prefix of a signed negative octal number comes before the zeros of the precision (C156_octal_prefix_fails), the width counts bytes (C156_width_fails)."
  },
  {
   "property": "C157",
   "status": "partial",
   "theorems": [
    "Verif.ArrSet.C157_uniq",
    "Verif.ArrSet.C157_uniq_block",
    "Verif.ArrSet.C157_uniq_raise_partial",
    "Verif.ArrSet.C157_uniq_raise_fails",
    "Verif.ArrSet.C157_uniq_block_raise_fails",
    "Verif.ArrSet.C157_difference",
    "Verif.ArrSet.C157_intersection",
    "Verif.ArrSet.C157_intersect",
    "Verif.ArrSet.C157_union",
    "Verif.ArrSet.C157_delete",
    "Verif.ArrSet.C157_transpose_partial",
    "Verif.ArrSet.C157_transpose_fails",
    "Verif.ArrSet.C157_zip",
    "Verif.ArrSet.C157_values_at_partial",
    "Verif.ArrSet.C157_values_at_fails",
    "Verif.ArrSet.C157_cmp",
    "Verif.ArrSet.C157_rindex"
   ],
   "note": "hash and eql? agree (a class for each element); arrays that contain themselves, conversions and callbacks that change the array are left out. Fails: uniq! that raises has moved elements (C157_uniq_raise_fails), with a block it has lost one (C157_uniq_block_raise_fails); transpose does not refuse longer rows behind an empty first row (C157_transpose_fails); values_at passes over a range that begins before the array (C157_values_at_fails)."
  },
  {
   "property": "C158",
   "status": "proved",
   "theorems": [
    "Verif.Exit.C158_balanced",
    "Verif.Exit.C158_no_escape",
    "Verif.Exit.C158_innermost",
    "Verif.Exit.C158_uncaught"
   ],
   "note": "Clauses stand in methods of their own; several clauses in one method, where an ensure clause can be skipped, are in C83. Values and tags are numbers, tags compared by identity."
  },
  {
   "property": "C159",
   "status": "proved",
   "theorems": [
    "Verif.Exit.C159_order",
    "Verif.Exit.C159_status",
    "Verif.Exit.C159_reverse"
   ],
   "note": "Handlers register finitely many handlers. Finalizers, an uncaught SignalException and Threads that are stopped at exit are left out."
  },
  {
   "property": "C160",
   "status": "partial",
   "theorems": [
    "Verif.Cause.C160_ends_partial",
    "Verif.Cause.C160_implicit",
    "Verif.Cause.C160_explicit",
    "Verif.Cause.C160_reraise",
    "Verif.Cause.C160_report_partial",
    "Verif.Cause.C160_report_once",
    "Verif.Cause.C160_remote_fails",
    "Verif.Cause.C160_remote_hangs_fails",
    "Verif.Cause.C160_late_fails",
    "Verif.Cause.C160_deliver_partial"
   ],
   "note": "Proved for every program without Fiber#raise and Thread#raise. With them it is false: they take $! as the cause without looking for a circle (C160_remote_fails), after which the next error raised in the rescue hangs (C160_remote_hangs_fails); an explicit cause: is checked too early (C160_late_fails). C160_deliver_partial says which deliveries are safe. An #exception method of the user and the backtrace argument are left out."
  },
  {
   "property": "C161",
   "status": "partial",
   "theorems": [
    "Verif.Cause.C161_message",
    "Verif.Cause.C161_highlight",
    "Verif.Cause.C161_top",
    "Verif.Cause.C161_frames",
    "Verif.Cause.C161_bottom_partial",
    "Verif.Cause.C161_numbers_fails"
   ],
   "note": "False for the numbers with order: :bottom, which count the wrong way (C161_numbers_fails); the rest of that form is C161_bottom_partial. A detailed_message or message defined by the user is left out, as is the choice of the default for highlight:."
  },
  {
   "property": "C162",
   "status": "partial",
   "theorems": [
    "Verif.Exit.Fin.C162_calls_partial",
    "Verif.Exit.Fin.C162_define",
    "Verif.Exit.Fin.C162_lost_fails",
    "Verif.Exit.Fin.C162_shared_fails",
    "Verif.Exit.Fin.C162_inherited_fails"
   ],
   "note": "Proved when no new object is put at an address that is in the table. Without that it is false: the table holds addresses and does not keep the objects, so a new object takes over the finalizers of a freed one (C162_lost_fails, C162_shared_fails, C162_inherited_fails). Finalizers that define finalizers and the checks for immediates and frozen objects are left out."
  },
  {
   "property": "C163",
   "status": "proved",
   "theorems": [
    "Verif.Argf.C163_start",
    "Verif.Argf.C163_read",
    "Verif.Argf.C163_read_len",
    "Verif.Argf.C163_getbyte",
    "Verif.Argf.C163_gets",
    "Verif.Argf.C163_gets_line",
    "Verif.Argf.C163_line",
    "Verif.Argf.C163_readlines",
    "Verif.Argf.C163_lines",
    "Verif.Argf.C163_skip"
   ],
   "note": "For files that exist and do not change, and an ARGV that is not changed during the walk. The name `-`, in-place editing, encodings, positioning and separators other than newline are left out."
  },
  {
   "property": "C164",
   "status": "partial",
   "theorems": [
    "Verif.DirObj.C164_close_once",
    "Verif.DirObj.C164_open_block",
    "Verif.DirObj.C164_closed",
    "Verif.DirObj.C164_read",
    "Verif.DirObj.C164_seek",
    "Verif.DirObj.C164_each",
    "Verif.DirObj.C164_break_fails",
    "Verif.DirObj.C164_break_partial"
   ],
   "note": "All parts are proved but one, which is false: a block of each that breaks leaves the cursor where it was before, so read gives names again that the block had (C164_break_fails; what holds is C164_break_partial). Encodings, for_fd and operations on the Dir inside its own each are left out."
  },
  {
   "property": "C165",
   "status": "partial",
   "theorems": [
    "Verif.Env.C165_agree_partial",
    "Verif.Env.C165_assign",
    "Verif.Env.C165_delete",
    "Verif.Env.C165_merge",
    "Verif.Env.C165_merge_block",
    "Verif.Env.C165_replace",
    "Verif.Env.C165_child_partial",
    "Verif.Env.C165_clear_fails",
    "Verif.Env.C165_dropped_fails"
   ],
   "note": "Proved for the methods that ENV has of its own. For those it has from Hash (clear, delete_if, reject!, select!, keep_if, shift) it is false: they change the Hash only, so that a child still gets the variables (C165_clear_fails, C165_dropped_fails). Conversion with to_str, frozen ENV and names that occur twice in the environment at the start are left out."
  },
  {
   "property": "C166",
   "status": "partial",
   "theorems": [
    "Verif.Spawn.C166_redirect_partial",
    "Verif.Spawn.C166_succeeds",
    "Verif.Spawn.C166_swap_fails",
    "Verif.Spawn.C166_child_fails"
   ],
   "note": "Proved when no redirection changes the source of a later one and [:child, n] comes after the redirection of n. Without that it is false: dup2 is called in the order of the options, so `out: :err, err: :out` sends both to stderr (C166_swap_fails) and `err: [:child, :out], out: file` leaves stderr on the old stdout (C166_child_fails). Parsing of the options and chains of [:child, n] are left out."
  },
  {
   "property": "C167",
   "status": "partial",
   "theorems": [
    "Verif.Spawn.C167_split",
    "Verif.Spawn.C167_line_partial",
    "Verif.Spawn.C167_shell",
    "Verif.Spawn.C167_args",
    "Verif.Spawn.C167_system_fails",
    "Verif.Spawn.C167_system_partial",
    "Verif.Spawn.C167_line_fails"
   ],
   "note": "Proved for spawn and exec with arguments, for lines without `#`, `=` and unusual white space, and for system with arguments when the name of the program has no white space and no special characters. Otherwise it is false: system with arguments splits the name of the program or gives it to a shell (C167_system_fails), and assignments before a command, comments and no-break spaces are taken for words or separators (C167_line_fails). Options, environments and [command, argv0] are left out, and the shell is modelled only for lines without special characters."
  },
  {
   "property": "C168",
   "status": "partial",
   "theorems": [
    "Verif.Spawn.Path.C168_first",
    "Verif.Spawn.Path.C168_error",
    "Verif.Spawn.Path.C168_slash",
    "Verif.Spawn.Path.C168_dirs_partial",
    "Verif.Spawn.Path.C168_current_fails"
   ],
   "note": "Proved but for empty entries of PATH, which are left out instead of standing for the current directory (C168_current_fails). The file system does not change during the walk."
  }
 ]
}
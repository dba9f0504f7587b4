#!/usr/bin/env python3
"""Writes MANIFEST.json. Each entry: property, status, theorems, note. Theorem names are written here
without their namespace; the script looks the full name up in the Lean sources."""
import glob, json, os, re
root = os.path.join(os.path.dirname(os.path.abspath(__file__)), "..")
claims = [
 ("C01","proved",["C01_finite_map","C01_len_unique"],""),
 ("C02","proved",["C02_enumeration"],""),
 ("C03","proved",["C03_seek"],""),
 ("C04","partial",["C04_refuted","C04_partial"],"false of the code: Next after ok=false panics; the partial theorem covers Rewind"),
 ("C05","proved",["C05_iteration_under_modification","C05_calls_return","C05_isNext_unique","C05_deleted","C05_passed_over"],"The key the iterator stands on is not deleted; what happens when it is: C05_deleted, C05_passed_over."),
 ("C06","partial",["C06_refuted","C06_partial"],"false for NaN keys; holds for totally ordered key types"),
 ("C07","proved",["C07_generator","C07_root_state","C07_draws","C07_drawn_unique","C07_half"],"the share of greater heights is not counted: it depends on successive draws"),
 ("C08","proved",["C08_string"],"formatting of single entries is a parameter"),
 ("C09","proved",["C09_ordmap_finite_map"],""),
 ("C10","proved",["C10_ordmap_enumeration","visit_record"],"callbacks that modify the map itself: C88"),
 ("C11","proved",["C11_linearizable","C11_no_deadlock","C11_ends","C11_all_return"],""),
 ("C12","proved",["C12_no_race"],""),
 ("C13","partial",["C13_refuted","C13_partial","C13_other_calls","C13_fresh_partial","C13_fresh_other_calls"],"false of the code: Dequeue reports the element behind the removed one and panics on the last; removal order, Peek, IsEmpty proved while one element stays, and for every history when the pool hands out new nodes"),
 ("C14","partial",["C14_refuted","C14_partial","C14_other_calls"],"false of the code: Pop reports the element below the removed one and panics on the last; everything else proved for all histories"),
 ("C15","partial",["C15_refuted","C15_partial","C15_fresh_partial","C15_other_end","C15_other_end_push"],"false of the code once a pop empties the deque; proved for all other histories, and with new nodes as long as an emptied deque is used at the end it was emptied from; what the other end does is proved too"),
 ("C16","partial",["C16_refuted","C16_partial","C16_exact","C16_no_hang","C16_no_panic"],"false of the code: stale tail after Insert/Remove at the end, Len after failed Remove; proved for histories avoiding these; the results of all other histories are proved against an exact description without a heap"),
 ("C17","partial",["C17_refuted","C17_exact","C17_partial"],"false of the code: data has cap cells but indices go modulo cap+1, so once cap elements were enqueued a further Enqueue on a ring that is not full panics; exact behaviour proved for all histories"),
 ("C18","proved",["C18_slice_stack"],""),
 ("C19","proved",["C19_slice_list","C19_visits_unique"],""),
 ("C20","proved",["C20_get_set"],""),
 ("C21","partial",["C21_refuted","C21_partial","C21_noClash","C21_insert_cut_delete"],"false for argument slices whose spare capacity covers the receiver's prefix and for Delete(MaxInt64); proved otherwise"),
 ("C22","proved",["C22_deque"],""),
 ("C23","proved",["C23_copy_independent"],""),
 ("C24","partial",["C24_refuted","C24_reverse","C24_rotate_partial","C24_rotate_undo"],"Rotate(MinInt64) panics unless the length divides 2^63; proved for every other int"),
 ("C25","proved",["C25_filter","C25_indexOf","C25_contains","C25_each"],"callbacks that modify the slice itself: C89"),
 ("C26","partial",["C26_refuted","C26_split_partial","C26_batch"],"Split is false when the running total overflows; Batch proved for every size"),
 ("C27","partial",["C27_refuted","C27_partial"],"false for DeleteReplace, Repeat, Rotate, Extend; exact conditions under which each method returns are proved"),
 ("C28","proved",["C28_slice","C28_extend","C28_clear","C28_repeat","C28_deleteReplace"],"Extend and Repeat within what make can allocate"),
 ("C29","proved",["C29_shuffle"],""),
 ("C30","partial",["C30_refuted","C30_partial"],"false for argument slices with spare capacity; frame proved otherwise"),
 ("C31","proved",["C31_join"],"rendering of one element is a parameter"),
 ("C32","proved",["C32_set","C32_clear","C32_toggle","C32_test"],""),
 ("C33","proved",["C33_whole_set"],""),
 ("C34","proved",["C34_match","C34_match_any"],""),
 ("C35","proved",["C35_lazy","C35_same_value","C35_result_stable","C35_no_race","C35_no_deadlock"],"after a panicking constructor Get returns the zero value"),
 ("C36","proved",["C36_exclusive","C36_one_holder","C36_panic","C36_zero_pool"],""),
 ("C37","partial",["C37_refuted","C37_refuted_self","C37_partial"],"false of the code: the compare-and-swap compares the variable's content with its address, so every call spins forever; mutual exclusion holds for a variable containing its own address"),
 ("C38","proved",["C38_fixed_floor","C38_monday","C38_compose","C38_range_needed"],"for times whose period start fits int64; outside that range it fails, witnessed"),
 ("C39","partial",["C39_refuted","C39_any_period_partial","C39_nonpositive"],"false for periods above 9223372036 s, whose nanoseconds overflow; proved below"),
 ("C40","proved",["C40_year","C40_month","C40_range_needed"],"from the first second the time package can date; before it fails, witnessed"),
 ("C41","proved",["C41_one_sleeper","C41_busy","C41_reusable","C41_return"],""),
 ("C42","partial",["C42_refuted","C42_refuted_overlap","C42_partial","C42_no_sleeper","C42_sleeper_seen","C42_no_spurious"],"false of the code: a wakeup can be lost; proved for one waker and a call already waiting"),
 ("C43","partial",["C43_refuted","C43_partial"],"false for every duration but 0: the duration is multiplied by time.Second"),
 ("C44","proved",["C44_sound"],""),
 ("C45","proved",["C45_full_agreement","C45_few"],""),
 ("C46","partial",["C46_refuted","C46_order_partial","C46_identical_partial"],"false when edges or midpoints of different kinds coincide; proved otherwise"),
 ("C47","proved",["C47_readings","C47_diff"],""),
 ('C48', 'proved', ['C48_exactly_once', 'C48_eventually', 'C48_run_returns'], 'all schedules of any number of Run/Stop calls, workers and the collector'),
 ('C49', 'proved', ['C49_exactly_once', 'C49_eventually', 'C49_run_returns'], 'any preheat count'),
 ('C50', 'partial', ['C50_counts', 'C50_bound_partial', 'C50_bound_max', 'C50_refuted'], 'count always right; bound false for preheat > maxWorkers'),
 ('C51', 'partial', ['C51_rejects', 'C51_run_returns', 'C51_comes_to_rest', 'C51_all_handled', 'C51_no_workers_partial', 'C51_refuted'], 'Workers() = 0 at rest only without preheated workers; with them a goroutine can wait on a nil channel for good'),
 ('C52', 'proved', ['C52_exact', 'C52_prefix'], ''),
 ('C53', 'partial', ['C53_validates', 'C53_preheat_partial', 'C53_refuted'], 'preheat > maxWorkers is accepted'),
 ('C80', 'partial', ['C80_accepts_partial', 'C80_refuted', 'C80_full_refuted'], 'true without preheated workers; with them a pool can become useless'),
 ('C81', 'partial', ['C81_stop_returns_partial', 'C81_again', 'C81_refuted'], 'true for one Stop at a time; concurrent Stop calls can block for ever'),
 ('C54', 'partial', ['C54_once_per_signal', 'C54_closed_after_first', 'C54_can_close', 'C54_needs_signal', 'C54_no_crash_partial', 'C54_second_crashes', 'C54_refuted'], 'a second signal closes the channel again and the program panics'),
 ('C55', 'proved', ['C55_left_to_right', 'C55_compose'], ''),
 ('C56', 'proved', ['C56_closes_all', 'C56_errors', 'C56_panics', 'C56_order'], 'closers that do not panic; close_panicking_closer shows what happens otherwise'),
 ('C60', 'proved', ['C60_close', 'C60_order'], ''),
 ('C61', 'partial', ['C61_empty_partial', 'C61_wrapped', 'C61_refuted'], 'false: Close never returns nil'),
 ('C57', 'partial', ['C57_safe_partial', 'C57_refuted'], 'Proved for runs in which the 64-bit ticket counter was taken fewer than 2^64-2 times; the counter then collides with the empty mark and an accepted payload is lost (C57_refuted).'),
 ('C58', 'partial', ['C58_fifo_partial', 'C58_refuted', 'C58_refuted_hang', 'C58_refuted_order'], 'Proved for histories without a write dropped for lack of room. A dropped write consumes a ticket, after which Next can wait for ever or show payloads out of order (refuted).'),
 ('C59', 'partial', ['C59_drop_partial', 'C59_refuted', 'C59_size_zero'], "The drop part is proved (for size 0, Write panics: C59_size_zero); 'later Next calls still return' is refuted."),
 ('C82', 'partial', ['C82_next_returns_partial', 'C82_refuted'], 'Proved for size 1; refuted for size 2 by a schedule in which nothing is dropped: a writer that loses the compare-and-swap gives up its ticket.'),
 ('C62', 'proved', ['C62_latest_registration'], 'Converters are total functions that do not use the registry (those that do: C90); a nil converter makes Into panic.'),
 ('C63', 'partial', ['C63_no_collision_partial', 'C63_refuted', 'C63_refuted_into'], 'reflect.TypeOf(*new(I)) is nil for every interface type I, so all interface types share one key. Proved for pairs that differ where not both types are interfaces.'),
 ('C64', 'proved', ['C64_signed_round_trip', 'C64_unsigned_round_trip'], 'strconv is modelled from its documentation and source.'),
 ('C65', 'partial', ['C65_total_partial', 'C65_overflow_first', 'C65_cases', 'C65_refuted'], 'An invalid string that starts with digits of a number beyond 64 bits gives the bound, not 0 (ParseUint reports the overflow before it sees the invalid byte); all other strings are proved as stated.'),
 ('C66', 'proved', ['C66_congruent', 'C66_widening_round_trip', 'C66_bool', 'C66_string_bool', 'C66_string_bool_two'], 'Integer and boolean types; float conversions: C86, C87.'),
 ('C67', 'proved', ['C67_bytes', 'C67_runes_round_trip', 'C67_string_round_trip', 'C67_invalid_bytes'], "UTF-8 is Lean's String.utf8EncodeChar."),
 ('C68', 'proved', ['C68_round_trip'], 'For sizes that fit an int; the record is also compared with a separately stated layout, and read from slices of any capacity.'),
 ('C69', 'proved', ['C69_no_panic', 'C69_accessor_needs_validate', 'C69_base64'], 'Argon2 is any total function.'),
 ('C70', 'proved', ['C70_hash_verify', 'C70_bad_level', 'C70_bad_rand'], 'Assumes that the key derivation function returns as many bytes as asked for and that the random source fills the slice when it reports success.'),
 ('C71', 'proved', ['C71_accepts_iff', 'C71_rejects', 'C71_truncated', 'C71_bytes_only'], "'Derived key' is the separately stated table of Argon2id parameters."),
 ('C72', 'partial', ['C72_encoding', 'C72_hash', 'C72_hash_error', 'C72_verify', 'C72_other_characters_partial', 'C72_newlines', 'C72_decodes_iff', 'C72_refuted'], 'Everything but the last clause is proved; the last clause is false for carriage return and newline, which encoding/base64 skips (C72_refuted), and proved for every other character.'),
 ('C83', 'partial', ['C83_one_form_partial', 'C83_refuted', 'C83_hash_refuted'], 'False: the decoder is not strict, so the bits left over in the last character are free; every text form HashBase64 gives has another accepted one (C83_hash_refuted). Proved for strings without newlines whose length is a multiple of four.'),
 ('C73', 'proved', ['C73_round_trip', 'C73_ragged', 'C73_chain'], 'AES is any block cipher, SHA-256 any function; the mode is also stated block by block.'),
 ('C74', 'proved', ['C74_round_trip', 'C74_counter_mode', 'C74_no_iv'], 'Byte-by-byte description of counter mode, including wrap-around at 2^128.'),
 ('C75', 'partial', ['C75_round_trip_partial', 'C75_refuted', 'C75_accepts_iff', 'C75_tag', 'C75_counter_mode'], 'GHASH is any function. The round trip is proved up to the size GCM takes, about 64 GiB; beyond it EncryptGCM panics (C75_refuted). Decryption is characterised completely: it accepts exactly what encryption returns.'),
 ('C76', 'partial', ['C76_panics_iff', 'C76_refuted', 'C76_long_partial'], 'False: all three panic on short input, and DecryptCBC on input that is not whole blocks (C76_refuted, exact conditions in C76_panics_iff).'),
 ('C84', 'partial', ['C84_counters', 'C84_malleable', 'C84_integrity_refuted'], 'No counter block is used twice; the second half is false for CTR: changed bits are decrypted to changed bits without an error.'),
 ('C77', 'partial', ['C77_encrypt', 'C77_decrypt', 'C77_collisions', 'C77_refuted', 'C77_distinct_partial'], 'The last clause is false: Decrypt does not check the length, so everything after byte 72 is ignored, and zero bytes are confused with the end of the password (C77_collisions, C77_refuted). Proved for passwords without zero bytes of at most 72 bytes, up to a collision of the function underneath.'),
 ('C78', 'partial', ['C78_any', 'C78_consistent', 'C78_sorted', 'C78_found', 'C78_float_refuted'], 'Proved for linear orders and for every comparison; false for floats with NaN (C78_float_refuted).'),
 ('C79', 'partial', ['C79_sort_partial', 'C79_others', 'C79_stable', 'C79_reverse_ignored', 'C79_refuted', 'C79_isSorted_custom', 'C79_isSorted', 'C79_float_refuted'], 'False for Sort with reverse = true, which is ignored (C79_reverse_ignored, C79_refuted), and for floats with NaN; everything else is proved for linear orders and every sorting routine that meets its documentation.'),
 ('C85', 'proved', ['C85_builtin', 'C85_all_basic'], 'All 202 registrations of init.go are modelled; every pair is checked, and the theorem holds after any further history of calls for other pairs.'),
 ('C86', 'partial', ['C86_nearest', 'C86_exact', 'C86_round_trip_partial', 'C86_monotone', 'C86_truncates', 'C86_floats', 'C86_formats', 'C86_bool', 'C86_refuted', 'C86_refuted_max'], 'False for integer types with more bits than the float has digits: 2^53+1 comes back as 2^53 from float64, and the largest int64 does not fit when it comes back. Proved for all others, and for all integers that are floats.'),
 ('C87', 'partial', ['C87_round_trip', 'C87_nearest_partial', 'C87_integers', 'C87_refuted_any', 'C87_refuted'], 'strconv is any pair of functions that meets its documentation (an instance is constructed). The round trip is proved for both types; decimals are rounded correctly to float64 but twice for float32, which is refuted.'),
 ('C88', 'partial', ['C88_partial', 'C88_ends', 'C88_log', 'C88_filter', 'C88_clear', 'C88_refuted', 'C88_refuted_clear', 'C88_endless'], 'False for callbacks that clear the map (panic, for every non-empty map) and for callbacks that delete their own key and the next one (the deleted key is visited). Proved for callbacks that do not clear and, if they delete their own key, delete no other; everything else is allowed.'),
 ('C89', 'partial', ['C89_loop', 'C89_partial', 'C89_filter_partial', 'C89_map', 'C89_shift', 'C89_refuted', 'C89_filter_panic'], 'False for callbacks that delete (elements are skipped or seen twice; Filter panics). Proved for callbacks that push and set elements already reached; for Filter, callbacks that push. The loops end for every callback.'),
 ('C90', 'partial', ['C90_exclusion', 'C90_lookups', 'C90_unchanged', 'C90_partial', 'C90_calls', 'C90_nested_partial', 'C90_change_in_converter', 'C90_lookup_in_converter', 'C90_refuted', 'C90_refuted_nested'], 'Exclusion and lookups hold for all converters. That calls end is false when converters use the registry: a converter that registers waits for ever, a converter that converts waits for ever if another goroutine registers meanwhile. Proved for converters that leave the registry alone (every schedule ends), and for nested conversions while nothing changes the registry (no waiting).'),
 ('C91', 'partial', ['C91_sequential', 'C91_released', 'C91_program', 'C91_partial', 'C91_ends_partial', 'C91_reentrant', 'C91_refuted', 'C91_refuted_crossed'], 'The order of effects holds for all closers. That calls end is false for closers that use their own manager (for ever, in every execution) and for two managers whose closers use each other. Proved for managers that can be ranked.'),
 ('C92', 'partial', ['C92_once', 'C92_values', 'C92_solution', 'C92_partial', 'C92_ends_partial', 'C92_reentrant', 'C92_refuted', 'C92_refuted_crossed'], 'At most one start and the values hold for all families of lazies. That Get ends is false for a lazy that needs itself, directly or through others. Proved for lazies that can be ranked. Constructors that panic: C35.'),
 ('C93', 'proved', ['C93_no_new_states', 'C93_safe', 'C93_shown_again'], 'Fewer than 2^64-2 tickets, as in C57. The caller recovers from the panic and may call Next again.'),
 ('C94', 'partial', ['C94_refuted', 'C94_close_partial', 'C94_usable', 'C94_using_partial'], 'False: the closers after the one that panics are not closed, and a second Close closes the ones before it again. Proved: exactly which closers are closed, that the lock is released and the list is kept, and what usingx.Close does.'),
 ('C95', 'partial', ['C95_refuted', 'C95_exact_partial', 'C95_all_kept', 'C95_rest_kept', 'C95_returns'], 'False for Filter, which moves elements while it calls: exact content after the panic proved.'),
 ('C96', 'partial', ['C96_refuted', 'C96_which', 'C96_safe', 'C96_exact', 'C96_writer_panics', 'C96_reader_panics', 'C96_partial'], 'False: no method defers its unlock, so Set(k) with a key that cannot be hashed blocks every later call for ever, and Get(k) every later writer and, once one waits, every later reader. Proved: exactly which calls can still return; the map stays linearizable. sync.RWMutex with waiting writers ahead of new readers.'),
 ('C97', 'proved', ['C97_any_keys', 'C97_kept', 'C97_unequal', 'C97_origin'], 'Nothing is assumed about < and ==. Lookups may miss entries (C06); the entries themselves are never lost.'),
 ('C98', 'partial', ['C98_refuted', 'C98_partial', 'C98_never_found'], 'False for floats: after Set(1), Set(NaN), Del(1) the index still lists 1. Proved for every symmetric and transitive == and any <: no call panics or hangs, Get is right, Keys has every present key, Values and Range go through Keys with the values of Get.'),
 ('C99', 'partial', ['C99_refuted', 'C99_partial', 'C99_stuck'], 'False for keys with k != k: Keys lists them, Has never finds them, Delete never removes them. Proved for every symmetric and transitive ==: exactly what Get, Has, Keys and Size give. One goroutine.'),
 ('C100', 'partial', ['C100_refuted', 'C100_partial'], 'False with recycled nodes, whose links are not reset: an empty deque returns (zero value, true). Proved for every history when the pool hands out new nodes.'),
 ('C101', 'partial', ['C101_refuted', 'C101_partial', 'C101_count_partial'], 'False for directories without permissions: one that cannot be read gets the command twice, for one that cannot be entered it runs in the start directory. Proved when all may be read and entered; exact counts for all permissions.'),
 ('C102', 'proved', ['C102_outside'], 'For every tree and all permissions. The commands do not add or remove directories; Getwd succeeds.'),
 ('C103', 'partial', ['C103_only', 'C103_partial', 'C103_refuted', 'C103_refuted_stop'], 'False with preheated workers (the collector clears w.ch while the goroutine is about to read it) and for concurrent Stop calls (pool.stop). Proved: these are the only races there are, for every pool.'),
 ('C104', 'partial', ['C104_delivers_partial', 'C104_no_race_partial', 'C104_changes_partial', 'C104_refuted'], 'The last clause is false: the next Write into the slot copies its bytes over those of the slice that was shown (C104_refuted). The rest is proved byte by byte for runs in which the ticket counter was taken fewer than 2^64-2 times; the bytes of a slot are changed only by the Write that holds it and by the view.'),
 ('C105', 'partial', ['C105_removes_partial', 'C105_exact_partial', 'C105_throw_out', 'C105_refuted', 'C105_refuted_removed', 'C105_forever'], 'False when the callback puts something in after it removed its element: the node may be in use again and the loop ends early (C105_refuted). Proved for all callbacks that only remove, and exactly for all that leave their element in the list or remove it as the last thing that matters. An element removed before its turn can still be handed out (C105_refuted_removed), and a callback that appends in every round never ends (C105_forever).'),
 ('C106', 'proved', ['C106_linearizable', 'C106_no_race', 'C106_all_return'], 'The sequential object is the history of Set, Delete and Clear with the meaning of C99. Proved through a general theorem on objects behind a sync.RWMutex (Verif/Conc/RW.lean). Assumes == is symmetric and transitive (linearizability only). Writer preference of the lock only removes schedules and is not modelled.'),
 ('C107', 'partial', ['C107_partial', 'C107_exact', 'C107_only_idle', 'C107_refuted'], 'False as stated: workers stamp themselves before they take the lock, so the idle list need not be ordered by stamp, and the binary search stops a worker before its time (C107_refuted). Proved up to the longest time a worker takes from the return of the handler to the idle list, and exactly when that is zero. Assumes a clock that does not go back.'),
 ('C108', 'partial', ['C108_partial', 'C108_lost', 'C108_hang', 'C108_refuted'], 'False as stated: two calls of Next that overlap are shown the same payload, and the second then clears the slot whatever is in it by now, so an accepted payload is lost (C108_lost) or the length falls below zero and the next call waits for ever (C108_hang). Proved when the calls of Next, from any number of goroutines, do not overlap; the writers are free.'),
 ('C109', 'partial', ['C109_partial', 'C109_even', 'C109_refuted'], 'False as stated: with an odd number of intervals the loop stops one round early, so two of three intervals that agree are not found (C109_refuted). Proved for fault numbers below half the intervals rounded down, which is the full statement for an even number. For intervals whose edges and midpoints of different kinds do not coincide (see C46 for the others).'),
 ('C110', 'partial', ['C110_partial', 'C110_stale', 'C110_refuted'], 'False for iterators that stand on an entry: the old nodes stay linked, so the iterator gives the old entries, then the zero key and value with ok = true (the end mark of the old list is not the end mark of the new one), and then panics (C110_stale, exact for every history and whatever is done to the cleared map). Proved for iterators at the start.'),
 ('C111', 'partial', ['C111_partial', 'C111_earlier', 'C111_push', 'C111_rotate_refuted', 'C111_refuted'], 'False: every piece but the last has the following pieces in its spare capacity, so Push on it replaces the first element of the next piece (C111_push, exact for every split), and Rotate overwrites too. Proved for all sequences of calls that add nothing (Set, Reverse, Shuffle, Filter, Clear, Slice, Cut, Delete, Pop, Shift, DeleteReplace, Repeat); and no call at all changes an earlier piece. Sizes that are negative or overflow are excluded: their pieces overlap.'),
 ('C112', 'partial', ['C112_partial', 'C112_hang', 'C112_order', 'C112_refuted'], 'False even for one producer and one reader and with nothing dropped: a call that finds its slot taken goes on to the next ticket; if the reader has made room meanwhile the payload lands behind an empty slot. Then Next waits for ever although all writes have returned (C112_hang), and a later payload is shown first (C112_order). Proved for all runs in which no call finds its slot taken (and fewer than 2^64-2 tickets).'),
 ('C113', 'partial', ['C113_partial', 'C113_one_waker', 'C113_sleep_wakeup', 'C113_sleep_again', 'C113_two_wakers', 'C113_refuted'], 'False: Wakeup assigns the plain fields ctx and cancel while a call of Sleep... that has just set slept reads ctx (C113_sleep_wakeup; also on the second sleep of a goroutine just woken, C113_sleep_again), and two calls of Wakeup conflict on cancel (C113_two_wakers). With one waking goroutine these conflicts on ctx are the only ones (C113_one_waker). Proved: none if one goroutine wakes, and Wakeup and the beginning of a sleep do not overlap; the callers have to arrange that with synchronisation of their own. A race is two goroutines about to use a field, one writing.'),
 ('C114', 'partial', ['C114_partial', 'C114_time', 'C114_wrapped', 'C114_refuted'], 'False for the last 62135596800 seconds an int64 can name: the seconds since the year 1 wrap round and the time lies in the past (C114_refuted). Proved: the instant is the right one exactly when these seconds fit (C114_partial); otherwise it is off by 2^64 seconds; the result is always a time.'),
 ('C115', 'partial', ['C115_partial', 'C115_timer', 'C115_not_late', 'C115_custom', 'C115_refuted'], 'False for instants 292 years or more ahead: the duration saturates and the call returns before the instant has come (C115_refuted). Proved for all others; the timer is the time left, saturated (C115_timer), and never longer than it has to be (C115_not_late).'),
 ('C116', 'partial', ['C116_partial', 'C116_blocks', 'C116_same_iv', 'C116_any_change', 'C116_refuted'], 'False: there is no authentication; whoever can change a message changes the first block of its data as they like, without the key and without an error (C116_any_change). Proved for every cipher and every message: what a change does, block by block (C116_blocks, C116_partial), and that no change that keeps the IV goes without effect (C116_same_iv).'),
 ('C117', 'partial', ['C117_partial', 'C117_content', 'C117_shared', 'C117_shared_runes', 'C117_refuted'], 'False for []byte to []byte and []rune to []rune: the converters hand the slice on, so every write through the result is a write to the argument (C117_shared, C117_shared_runes). Proved: the bytes and runes made from a string are a slice of their own, separate from every slice the program has, for every surplus capacity.'),
 ('C118', 'partial', ['C118_partial', 'C118_slice_stack', 'C118_queue', 'C118_deque', 'C118_stack', 'C118_list', 'C118_ring', 'C118_ring_made', 'C118_map_reads', 'C118_map_cleared', 'C118_map_set', 'C118_skl', 'C118_ord', 'C118_refuted'], 'False of every container but the slice stack: pushes into the linked containers panic (and Len of the stack and the list count them), the ring divides by zero, a store into the zero Map panics with the lock held so that every later call waits for ever, the skip list map dereferences nil until it is cleared, the ordered map for ever. Proved: the exact results of every history on each zero value; the slice stack is as good as new; the others are while nothing is put in.'),
 ('C119', 'partial', ['C119_stack_iff', 'C119_queue_partial', 'C119_queue_iff', 'C119_list_partial', 'C119_refuted'], 'False of all three interfaces (Push, Pop; Enqueue, Dequeue; Remove past the end). Proved exactly: programs over Stack see the same iff each Pop is on an empty stack or on two equal elements, whatever pool and memory do; programs over Queue see the same as with a ring of capacity n iff they make at most n Enqueue calls in all and each Dequeue is on an empty queue or two equal elements (one direction for every pool, both without recycling); programs over List see the same if indices are in range and nothing is appended once the end was changed otherwise.'),
 ('C120', 'partial', ['C120_ends', 'C120_partial', 'C120_flat', 'C120_empty', 'C120_using', 'C120_refuted'], 'False: an empty manager in a manager is reported as an error, a manager registered twice is closed twice, a manager in itself waits for ever. Proved: Close ends iff neither the manager nor one below it is below itself, and waits for ever otherwise; when it ends all closers below were called in order, once per way down, repeated AsErrs yields exactly their errors in order, and the text of the error has their texts in order; the report is empty (usingx.Close: nil) iff no manager is registered and no closer failed.'),
 ('C121', 'partial', ['C121_partial', 'C121_unique', 'C121_reverse', 'C121_custom', 'C121_refuted', 'C121_zeros'], 'False after SortReverse and SortStableReverse: Search goes to an end of the slice and finds nothing but possibly the largest element. Proved: after Sort (either flag) and SortStable the search yields the number of smaller elements and membership in the slice as it was; for linear orders all routines agree, the descending results are the ascending ones backwards, and sorting what is sorted changes nothing; SearchCustom with the comparison turned around searches a descending slice; for float zeros the reversal law fails.'),
 ('C122', 'partial', ['C122_partial', 'C122_no_panic', 'C122_value_unique', 'C122_poisoned', 'C122_refuted'], 'False when constructors panic: a lazy whose constructor gets a lazy that panics has no value if it is got first, and a value made of the zero value if the other was got before. Proved for every program of Gets with panics recovered, and constructors that decide what to get next by what they got and may recover: a lazy that has a value by its definition can always be got and every Get returns that value, whatever else panicked; without panics every Get returns the value of the definition; after a panicking Get every later Get returns the zero value. One goroutine; C35 and C92 have many.'),
 ('C123', 'partial', ['C123_count', 'C123_partial', 'C123_settled', 'C123_one_slot', 'C123_refuted', 'C123_refuted_turns'], 'False: a Write stores its payload before it counts it. If the reader shows it in between, on the count of another Write, Next then returns false though the payload of that other Write, which has returned, is there (two writers; also one producer, after a retry). Proved for any number of writers and one reader: the accepted payloads not shown when Next returns false are no more than the Writes under way whose payload was shown before it was counted; none if no Write is at that point; none with one slot and distinct payloads. Fewer than 2^64-2 tickets, as in C57.'),
 ('C124', 'partial', ['C124_iff', 'C124_partial', 'C124_one_way', 'C124_writer', 'C124_reader', 'C124_refuted'], 'False: a Write goes round for ever while another one stands between storing its payload and counting it, or while Next stands between emptying the slot and counting that. Proved exactly, in every reachable state: on its own a Write returns if and only if some slot is empty, or some slot is full and the fill counter says that all are; it then takes at most size tickets. So it returns if no other Write is under way and Next is not at that point. Fewer than 2^64-2 tickets, as in C57.'),
 ('C125', 'proved', ['C125_outcome', 'C125_run_returns', 'C125_handled'], "Over infinite executions under weak fairness: a goroutine that could go on at every moment from some moment on does go on. Nothing is assumed about a worker inside the handler, so handlers may never return, and nothing about the clock, the cleaner or Stop. A critical section under the pool's mutex is one step, so the mutex is taken not to starve its waiters. For pools with a positive maximum."),
 ('C126', 'partial', ['C126_partial', 'C126_left', 'C126_stop_returns', 'C126_once', 'C126_all_left', 'C126_refuted'], 'False with preheated workers: one that is collected before its goroutine starts leaves a goroutine on a nil channel, and Workers() stays 1 (C126_refuted). Without them, in every fair execution, the only Stop call returns (C126_stop_returns) and from some moment on no worker goroutine is left and none is counted (C126_partial, C126_once). With them, the goroutines left over wait in line 33 for good, they are the ones Workers() counts, and there are at most as many as were preheated (C126_left); for every number of preheated workers all of them can be left (C126_all_left). Fairness: weak for workers, handlers, Run calls and the collector, strong for the select between Stop and the ticker. That concurrent Stop calls can block is C81.'),
 ('C127', 'partial', ['C127_partial', 'C127_step', 'C127_determined', 'C127_refuted'], 'False of Delete(MaxInt64), which empties the slice (C127_refuted). For every history of calls of the 30 methods whose integer arguments do not overflow, results and final elements are those of the list reading (C127_partial); each single call panics exactly where that reading says, else returns, and never hangs (C127_step); apart from Shuffle the reading fixes results and elements (C127_determined). Excluded arguments (Op.Fits): Delete of the largest int, Rotate by the smallest, Repeat with an overflowing length, Split with negative or overflowing sizes. Arguments of Splice and Expand are given one by one; a spread slice is C21 and C30.'),
 ('C128', 'proved', ['C128_calls', 'C128_tight', 'C128_same', 'C128_search'], 'For fewer than 2^k elements at most k+1 calls (C128_calls), reached for 2^k-1 elements (C128_tight); outcomes are those of C78 (C128_same). The comparison may answer differently from call to call and may panic.'),
 ('C129', 'partial', ['C129_partial', 'C129_timed', 'C129_wakeup_returns', 'C129_refuted'], 'False with several goroutines that call Wakeup: two calls that overlap once can leave ctx and cancel of different contexts, and the next sleeper waits on a context no later Wakeup cancels (C129_refuted, an infinite fair execution). With one such goroutine every SleepForever returns (C129_partial); every SleepFor and SleepUntil returns in any case (C129_timed), and so does every Wakeup (C129_wakeup_returns). Fairness is weak fairness of goroutines inside calls; that a timer fires in the end is part of it. How long a timer runs is C43 and C115.'),
 ('C130', 'partial', ['C130_partial', 'C130_lockfree', 'C130_starved', 'C130_refuted', 'C130_refuted_marks'], 'False: a Write can be overtaken for ever by others (C130_starved, C130_refuted, an infinite fair execution with size 1), and with a ticket that equals one of the two marks the last of four calls never returns (C130_refuted_marks). With finitely many calls and no such ticket every Write returns (C130_partial); the ticket counter may wrap any number of times. With infinitely many calls, one waits for ever only if infinitely many others are accepted (C130_lockfree). Fairness is weak fairness of each Write and of a Next that has begun; nobody need call Next. The drop function returns.'),
 ('C131', 'proved', ['C131_clock', 'C131_noties', 'C131_overflow'], 'For every order that the unstable sort may leave equal offsets in: the set of possible results on the other clock is exactly the set of possible results read on that clock (C131_clock); without ties the one result is (C131_noties). The bounds returned with ok = false are not part of the claim. All bounds have to be int64s on both clocks; C131_overflow shows that this is needed.'),
 ('C132', 'partial', ['C132_partial', 'C132_refuted', 'C132_drain'], 'False of the deque: after PushBack(7), PopBack(), 64 calls of PopFront return 7 and 63 zero values with ok = true, then it panics. Proved for queue, stack and list in every history and for every behaviour of the pool; for the deque up to zero values (C132_partial). C132_drain: draining at the other end after the last element was taken always goes wrong in this way.'),
 ('C133', 'partial', ['C133_partial', 'C133_first', 'C133_compare', 'C133_refuted'], 'False: errors.Is finds nothing in the result of Close, since ErrorList does not unwrap; of two joined results AsErrs finds only the first, even an empty one; comparing two results with == panics. Proved: AsErrs finds exactly the first error list, through any wrapping and joining, and errors.Is on its elements finds exactly what the closers failed with.'),
 ('C134', 'partial', ['C134_partial', 'C134_max', 'C134_serial', 'C134_covers', 'C134_refuted'], 'False when more workers are preheated than maxWorkers (1 and 2: two handlers at the same time). Proved for all schedules: otherwise at most maxWorkers jobs are in progress, with any preheat count at most the larger of the two; with one worker the jobs are handled one after the other in the order in which Run takes them on.'),
 ('C135', 'proved', ['C135_fair', 'C135_unique'], 'The random source draws one of 0..i for each i, each as likely as the others (trusted).'),
 ('C136', 'proved', ['C136_order', 'C136_convex', 'C136_nest', 'C136_weeks'], 'For times in the range of C40 (and of C38 for the finer units). Weeks are no part of the chain: they do not nest in months, witnessed.'),
 ('C137', 'proved', ['C137_few'], 'The worst case over all seeds; how well the heights spread the keys is in C151.'),
 ('C138', 'proved', ['C138_verify', 'C138_garbage', 'C138_base64', 'C138_hash', 'C138_password'], 'Argon2 is a parameter of the model; how long one derivation takes is not part of it.'),
 ('C139', 'proved', ['C139_collection', 'C139_history', 'C139_set', 'C139_sorts'], 'Element types with a total order and comparisons that agree with it; slices short enough that the sum of two indices does not overflow.'),
 ('C140', 'partial', ['C140_skl', 'C140_stack', 'C140_queue_partial', 'C140_list_partial', 'C140_ring', 'C140_slice', 'C140_refuted'], 'Holds of the skip-list map and the linked stack; false of the linked queue, the linked list, the deque, the ring and the slice.'),
 ('C141', 'partial', ['C141_partial', 'C141_any_way', 'C141_bool', 'C141_ints', 'C141_string_value', 'C141_string', 'C141_through', 'C141_floats', 'C141_double_rounding', 'C141_refuted'], 'Holds of every number that all types on the way have. False in general: -1 from int8 to uint8 and back is -1, but through uint8 it is 255 as int16. For integers through integers and through strings the exact condition is proved.'),
 ('C142', 'proved', ['C142_once', 'C142_complete', 'C142_visited', 'C142_returns', 'C142_ends'], 'For all trees, numbers of workers, preheat counts and schedules, also if Stop is called during the walk. The progress parts are for fair executions.'),
 ('C143', 'proved', ['C143_exclusion', 'C143_lookups', 'C143_does', 'C143_released', 'C143_usable', 'C143_ends', 'C143_nested'], 'For all converters (panicking, recovering, ending their goroutine, nested), programs and schedules. That every schedule ends is for converters that leave the registry alone: what nested use of the registry does to progress is C90.'),
 ('C144', 'proved', ['C144_linearizable', 'C144_no_race', 'C144_all_return', 'C144_set', 'C144_without'], 'Calls that read go through the nodes one at a time and interleave; calls that write hold the lock alone and are one step. C144_without: without the lock two overlapping Set calls hide a key.'),
 ('C145', 'proved', ['C145_order', 'C145_once', 'C145_ends', 'C145_all_closed', 'C145_reached', 'C145_circle', 'C145_exactly', 'C145_second'], 'All registrations exist before the signal; handlers wait for channels and return. C145_second: a second signal then crashes the program in every schedule (the disagreement of C54).'),
 ('C146', 'proved', ['C146_undo', 'C146_back', 'C146_same_index'], 'For all 30 methods with arguments that do not overflow an int (Op.Fits of C127) and lengths that are ints. The calls written down use indices already brought into range; C146_same_index says when the raw index would do.'),
 ('C147', 'partial', ['C147_refuted', 'C147_ends', 'C147_bound', 'C147_bound_tight', 'C147_partial', 'C147_noties', 'C147_apart'], 'False when a wrong clock has times in common with the right ones: two clocks have the time 5, a third narrows the result to [-3, 3] (C147_refuted). Proved for every order of equal edges: both ends are times that a right clock has, so nothing reported is off by more than two bands of a right clock (C147_bound, tight); the true time is in the result if no time is in more intervals (C147_partial, C147_noties), in particular if the wrong intervals meet no right one (C147_apart).'),
 ('C148', 'proved', ['C148_output', 'C148_hex', 'C148_unique'], 'For every width of int, every strconv for floats and all bytes. fmt.Println is modelled for the types the program prints, hex.EncodeToString after its source, rand.Read as any bytes.'),
 ('C149', 'partial', ['C149_refuted', 'C149_race', 'C149_worn', 'C149_exact', 'C149_partial', 'C149_fifo', 'C149_elements', 'C149_writers', 'C149_no_waiting'], 'False: head and tail are accessed by both goroutines without synchronization (C149_race), and the ring wears out (C149_worn, see C17). With every read and write of memory a step and reads seeing the last write, the calls are linearizable for any use (C149_exact), to a bounded queue as long as Enqueue is called no more often than there is room (C149_partial); elements come out in the order they went in (C149_fifo), no element is accessed by both at once (C149_elements), each index is written by one side only (C149_writers) and no call waits for the other side (C149_no_waiting). Missing from the full claim: longer use, and the absence of data races.'),
 ('C150', 'partial', ['C150_refuted', 'C150_partial', 'C150_call', 'C150_lists', 'C150_program', 'C150_next'], 'False of New(x...), which takes over the memory of x (C150_refuted). In programs without it a command changes nothing any other variable shows, whatever its arguments (C150_partial), also Splice with an existing slice; for any two slices in any memory see C150_call. With arguments that do not overflow all variables together are a family of lists (C150_lists, C150_program), and no command gets stuck (C150_next). Missing from the full claim: calls after New(x...).'),
 ('C151', 'proved', ['C151_mean', 'C151_runs', 'C151_heights', 'C151_height', 'C151_generator'], 'The mean over all ways the coins of rand_height can fall, for any history that does not depend on them. That the bits of splitmix64 are as good as fair coins is trusted; C151_height and C151_generator say which bits they are.'),
 ('C152', 'partial', ['C152_skl', 'C152_stack', 'C152_queue_partial', 'C152_list_partial', 'C152_deque_partial', 'C152_refuted'], 'False of the linked list and the deque: with never more than two elements both can come to keep any number of nodes, in histories in which everything else works. Proved: the skip-list map keeps two nodes more than it has keys and the stack one per element, always; the queue, the list and the deque keep what they need as long as no node is used a second time (queue, deque), the end of the list is not changed by Insert or Remove, and the deque is not emptied.'),
 ('C153', 'proved', ['C153_linearizable', 'C153_no_race', 'C153_all_return', 'C153_set', 'C153_without'], 'Keys of a totally ordered type. The loops of Keys, Values and Range run node by node, interleaved with other readers. Callbacks of Range that call the map are not in this model. C153_without shows what a reader without the lock can see.'),
 ('C154', 'proved', ['C154_handed_on', 'C154_reset', 'C154_reads', 'C154_no_panic', 'C154_get', 'C154_reset_needed', 'C154_single_put_needed', 'C154_no_use_after_put_needed', 'C154_no_nil_needed', 'C154_init_needed'], 'The rules are not built into the model: callers may break them, and the last five theorems show for each rule an execution that breaks it and goes wrong. sync.Pool is a collection from which Get takes any pointer or none and the collector removes pointers at any time; every method is one step.'),
 ('C155', 'partial', ['C155_account', 'C155_partial', 'C155_accepts', 'C155_progress', 'C155_after_handler', 'C155_while_collecting', 'C155_refuted'], 'False of the code: a job is turned down while nothing is in progress, because a worker goes back to the idle list only after its handler has returned and because the collector takes workers off the list before it stops them. Proved instead: what the workers of a pool that turns a job down are doing, and that jobs are taken on again and again in fair executions. Pools with preheated workers are left out, see C80.'),
 ('C156', 'proved', ['C156_tail', 'C156_rare', 'C156_history'], 'About fair coins in place of the generator, as C151: all ways the coins can fall are counted, and the history does not depend on them. That each run of the program is one of these ways is C151_generator.'),
 ('C157', 'partial', ['C157_partial', 'C157_no_signal', 'C157_one_signal', 'C157_live', 'C157_second_signal', 'C157_late', 'C157_twice', 'C157_refuted'], 'False of the code: closers registered while the handler is at work are never closed although Append returned before the channel was closed, and a second signal closes everything again and then panics. Proved: closers registered before the signal are closed, once if there is one signal; the channel is closed in every fair execution; a signal after that ends the program in every fair execution. Closers return, the logger is not nil, Append is one step.'),
 ('C158', 'partial', ['C158_partial', 'C158_stack', 'C158_ring', 'C158_linked', 'C158_refuted', 'C158_all_return', 'C158_total', 'C158_without_defer', 'C158_panics'], 'False of the linked stack, which hands one element out twice and loses others, and of the linked queue, which loses its first element. Proved for the slice stack and the ring (also when it is worn out, C17), which are a stack and, while Enqueue is called no more often than there is room, a bounded queue for all goroutines together; the linked stack is described exactly. Calls run alone and are one step. Without defer one panic blocks all later calls (C158_without_defer).'),
 ('C159', 'partial', ['C159_refuted', 'C159_push', 'C159_partial', 'C159_no_race', 'C159_never', 'C159_elsewhere', 'C159_ends', 'C159_whole'], "False for methods that add elements: Push on a piece writes where the next piece begins, a data race with the goroutine that works there, which then reads the other's element (C159_push). With every read and write of an element a step and any interleaving, the methods that add nothing give every goroutine the results of a list of its own (C159_partial), no two goroutines are ever about to use the same element (C159_no_race), elements outside the slice stay (C159_elsewhere), calls end within four accesses per element and panic only where C27 says (C159_ends), and at the end the slice shows the goroutines' lists one after the other (C159_whole). Missing from the full claim: adding elements. Not in the model: Push that has to grow, Finalize, Split, Batch, Repeat and Rotate of a piece."),
 ('C160', 'partial', ['C160_refuted', 'C160_partial', 'C160_one_panic', 'C160_once', 'C160_value', 'C160_no_panic', 'C160_can_step', 'C160_ends'], 'False when a constructor panics: the Get that ran it panics, the others return the zero value (the disagreement of C122, here between goroutines). In every interleaving of the steps of sync.Once, with constructors that choose the lazies they get by what they got, recover or panic: values returned for one lazy are equal (C160_partial), at most one Get panics and then the others return zero (C160_one_panic), a constructor starts once (C160_once), a lazy with a value by the definitions gives it to everybody (C160_value), without panics everybody gets the value (C160_no_panic), and if no lazy needs itself nobody waits forever (C160_can_step, C160_ends).'),
 ('C161', 'partial', ['C161_refuted', 'C161_race', 'C161_readers', 'C161_named', 'C161_partial', 'C161_word', 'C161_no_race', 'C161_uses', 'C161_can_step', 'C161_ends'], 'False without a mutex: Set reads the word and writes it later, so a goroutine finds a bit clear that it has set and nobody else uses (C161_refuted, C161_race). Behind a mutex with a deferred Unlock it is true (C161_partial, C161_word), also when calls panic on a negative index, without races (C161_no_race) or deadlocks (C161_can_step, C161_ends). Without a mutex goroutines that only call Test get right results (C161_readers), and no bit is set that nobody set (C161_named). The calls are Set, Clear, Toggle, Test; the others are about all bits.'),
 ('C162', 'partial', ['C162_refuted', 'C162_two_pushes', 'C162_remove', 'C162_shows', 'C162_partial', 'C162_snapshots'], 'False: a copy shares the array, so a Pop and a Push on the original replace the top of the copy (C162_refuted), two pushes write the same place (C162_two_pushes) and Remove moves the elements of the copy (C162_remove); C162_shows is the general case. True when calls write only at indices where no copy has an element, whatever capacities append chooses (C162_partial); in particular for copies, only read and popped, of a stack or list that only grows (C162_snapshots).'),
 ('C163', 'proved', ['C163_weakly_consistent', 'C163_returns', 'C163_up', 'C163_given', 'C163_all', 'C163_all_upto', 'C163_ends', 'C163_stale'], 'The iteration may begin anywhere (start, after Seek, after some Next calls), and the key the iterator stands on and those after it may be deleted and set again. Keys and values given may be out of date at the time of the call, but then their key has been deleted since the iteration began (C163_given, C163_stale). Clear is left out: C110. The key type is totally ordered (no NaN).'),
 ('C164', 'proved', ['C164_one_after_another', 'C164_two_keys', 'C164_unstable'], 'Comparisons are strict weak orderings; every stable routine that meets its documentation, also different ones. With SortCustom it is false (C164_unstable).'),
 ('C165', 'partial', ['C165_refuted', 'C165_own_key', 'C165_partial', 'C165_locked', 'C165_count', 'C165_no_race', 'C165_can_step', 'C165_ends'], 'False of the code: the methods are safe one by one, but an update made of Get and Set can be lost (C165_refuted, two goroutines count to 1). Proved: nothing is lost for a key that one goroutine updates (C165_own_key, C165_partial), or behind a mutex of the program (C165_locked); without, counts end up between one more than at the start and all (C165_count). No race, no deadlock, an end.'),
 ('C166', 'proved', ['C166_atomic', 'C166_from', 'C166_rest', 'C166_sequential', 'C166_stuck', 'C166_ends'], 'Through a general theorem on programs that use an object behind a sync.RWMutex (Verif/Conc/Client.lean). A program is any local state with the next call and what its result does; goroutines share nothing but the map. Assumes == is symmetric and transitive (NaN keys are allowed).'),
 ('C167', 'partial', ['C167_refuted', 'C167_partial', 'C167_once', 'C167_drops', 'C167_get', 'C167_ends', 'C167_twice'], 'False when entries are deleted meanwhile: between Has and Get the entry can go, and Get returns the zero value (C167_refuted). Proved: without Delete and Clear all values are right and each goroutine computes a value at most once (C167_partial, C167_once); with them values are right or zero (C167_drops); with Get alone, computing on the zero value, all values are right whatever is deleted (C167_get).'),
 ('C168', 'partial', ['C168_refuted', 'C168_partial', 'C168_once', 'C168_kept', 'C168_ends'], 'False: other goroutines can Set between the Gets, and the loop finds a mixture that was never in the map (C168_refuted). Proved: the keys are those of one moment, each value is that of a later moment, in order (C168_partial); each key is found once (C168_once); what no call touches while the loop runs is found exactly (C168_kept); loops end when the others do (C168_ends).'),
 ('C169', 'proved', ['C169_loop', 'C169_no_panic', 'C169_ends', 'C169_bound', 'C169_missed'], 'The mutex is held for one call at a time. The others run any programs without Clear (C110 is about iterators and Clear). C169_missed is a run that shows why the claim speaks of keys that were in the map all the time: a key set ahead of the iterator can be missed.'),
 ('C170', 'proved', ['C170_atomic', 'C170_stuck', 'C170_ends', 'C170_atomic_ord', 'C170_stuck_ord', 'C170_ends_ord', 'C170_wait'], 'Through the general theorem on programs that use an object behind a sync.RWMutex (Verif/Conc/Client.lean). A program is any local state with the next call and what its result does. Key types have a lawful order (no NaN).'),
 ('C171', 'proved', ['C171_atomic', 'C171_stuck', 'C171_entries', 'C171_all', 'C171_shared', 'C171_get', 'C171_stop'], 'Composition of the pool (C48-C53, C126), the concurrent map (C106) and programs over an object behind a lock (C166). C171_atomic and C171_stuck are for any object behind an RWMutex and any handler programs. C171_stop takes it as given that handlers return and has no preheated workers, for which a pool may never get back to 0 workers (C126).'),
 ('C172', 'proved', ['C172_serial', 'C172_stuck', 'C172_ends', 'C172_invariant', 'C172_bank', 'C172_make', 'C172_serial_ord', 'C172_stuck_ord', 'C172_ends_ord', 'C172_stack', 'C172_apart'], 'Programs are arbitrary; that a section for reading makes only calls that read is a hypothesis (Honest). The mutex is sync.RWMutex as documented. C172_apart shows that a lock around each single call is not enough. Fairness of the mutex is not needed; C172_ends is for programs whose number of calls is bounded.'),
 ('C173', 'proved', ['C173_atomic', 'C173_stuck', 'C173_ends', 'C173_safe', 'C173_worker_ends', 'C173_done', 'C173_found', 'C173_reached'], 'The first three theorems are for any number of objects of any kinds and any programs; a goroutine makes one call at a time and no call uses another object. The stack has a mutex of the program around every call. Result function f is pure; for C173_found equal keys have equal results.'),
 ('C174', 'proved', ['C174_text', 'C174_same', 'C174_known', 'C174_hash', 'C174_match'], 'fmt.Sprint of a []byte is modelled from package fmt (decimal bytes in brackets). Equal texts do not mean equal bytes: bytes after the record and the number of an unknown algorithm are not shown; an example has both. Verify looks at neither. Parameter.Match and MatchS have one model.'),
 ('C175', 'proved', ['C175_syncmap', 'C175_atomic', 'C175_sorted', 'C175_handed', 'C175_needs_preference', 'C175_schedules'], 'Liveness over endless executions. Assumed of the runtime: a goroutine inside a call that can go on again and again does go on, and sync.RWMutex lets no reader pass a blocked writer (its documentation). C175_needs_preference shows that the second assumption is used; C175_schedules that the two exclude no finite schedule. The waking of readers inside Unlock is a step of each reader.'),
 ('C176', 'proved', ['C176_visible', 'C176_seen', 'C176_all', 'C176_poll'], "Same executions and fairness as C175. The key that is asked for has to be == the key that is stored; Delete of an equal key and Clear must not be called. An example has an execution that meets the hypotheses and whose first answer is no."),
 ('C177', 'proved', ['C177_linearizable', 'C177_no_race', 'C177_all_return', 'C177_served'], 'Types are concrete (interface types: C63) and converters do not call the registry (C90). The registry may start with any history of registrations, so that of init.go as well. Converters are total functions or nil; the steps of their work are a parameter. Examples have a fair execution that meets all hypotheses and two converters at work at the same time.'),
 ('C178', 'proved', ['C178_linearizable', 'C178_same', 'C178_alone', 'C178_all_return', 'C178_covers', 'C178_reported'], 'Closers are effects on a world of their own that return an error or nil; they do not panic (C94) and do not use the manager (C91). The mutex lets every goroutine that waits for ever in at some time (that is the fairness, as for C175). An example has a fair execution that meets all hypotheses, with an Append that comes too late for a running Close.'),
 ('C179', 'partial', ['C179_refuted', 'C179_again', 'C179_partial', 'C179_careful', 'C179_pages', 'C179_unique', 'C179_missed_nothing', 'C179_ends'], 'False of the code: Seek of a key that has been deleted leaves the iterator at the beginning, so the next page repeats what was read (C179_again). Proved: right pages as long as the last key of each page is still there; right pages in any case for a program that looks at ok and leaves out smaller keys (C179_careful); what right pages have in common (C179_pages, C179_ends) and that they are unique; the simple program misses nothing. Set, Del and Clear may be called between the pages, not while a page is read (C163, C169 are about that).'),
 ('C180', 'proved', ['C180_linearizable', 'C180_once', 'C180_all_return', 'C180_first', 'C180_order', 'C180_served'], 'The map is used behind a sync.Mutex (unlocked with defer); each call of the queue (Get and Set, or Iterator, Next and Del) is one step under the lock. Keys of a totally ordered type (no NaN). C180_served needs more pop calls than there are calls that put in smaller keys: an entry can wait for ever when smaller keys keep coming.'),
 ('C181', 'partial', ['C181_refuted', 'C181_limit_partial', 'C181_linearizable', 'C181_exclusive', 'C181_none', 'C181_all_return'], 'False of the code: Set of a bit at or above the width does nothing, so with a limit above the width the same number is handed out again and again (C181_refuted). Proved: for a limit up to the width, and for the program that asks IsFull first, at any width, with a sync.Mutex whose Unlock is deferred; every call is one step under the lock.'),
 ('C182', 'proved', ['C182_latest', 'C182_sound', 'C182_right', 'C182_wrong', 'C182_all_return'], 'For every key derivation function with keys of the length asked for (argon2 is a parameter) and every random source that fills its buffer, failing ones included; every goroutine makes the map calls that its requests need. The random source and the KDF are outside the model; records are not changed in place.'),
 ('C183', 'partial', ['C183_refuted', 'C183_sound_partial', 'C183_after_partial', 'C183_apart_partial', 'C183_mutex_partial', 'C183_mutex_winner', 'C183_mutex_refused', 'C183_mutex_ends'], 'False of the code: Get and Set of the map are two calls, so two changes that both look up the old record before either stores a new one both go through (C183_refuted). Proved: a change goes through only with a password that may have been the current one when it was looked up; of two changes that do not overlap only one goes through; and under a mutex that the program holds during each change, of any number of goroutines at most one goes through, under every schedule, its own new password is the one that is let in afterwards, and all come to an end.'),
]
full = {}
for f in glob.glob(os.path.join(root, "lean/Verif/**/*.lean"), recursive=True):
    ns = []
    for line in open(f):
        m = re.match(r"namespace (\S+)", line)
        if m: ns.append(m.group(1)); continue
        m = re.match(r"end (\S+)", line)
        if m and ns and ns[-1] == m.group(1): ns.pop(); continue
        m = re.match(r"(?:private |protected )?theorem (\S+)", line)
        if m: full.setdefault(m.group(1), []).append(".".join(ns + [m.group(1)]))
def look(t):
    c = full.get(t, [])
    assert len(c) == 1, (t, c)
    return c[0]
out = {"claims":[{"property":p,"status":s,"theorems":[look(x) for x in t],"note":n} for p,s,t,n in claims]}
p = os.path.join(root,"MANIFEST.json")
json.dump(out, open(p,"w"), indent=1); open(p,"a").write("\n")

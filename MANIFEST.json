{
 "claims": [
  {
   "property": "C01",
   "status": "proved",
   "theorems": [
    "Verif.Skl.C01_finite_map",
    "Verif.Skl.C01_len_unique"
   ],
   "note": ""
  },
  {
   "property": "C02",
   "status": "proved",
   "theorems": [
    "Verif.Skl.C02_enumeration"
   ],
   "note": ""
  },
  {
   "property": "C03",
   "status": "proved",
   "theorems": [
    "Verif.Skl.C03_seek"
   ],
   "note": ""
  },
  {
   "property": "C04",
   "status": "partial",
   "theorems": [
    "Verif.Skl.C04_refuted",
    "Verif.Skl.C04_partial"
   ],
   "note": "false of the code: Next after ok=false panics; the partial theorem covers Rewind"
  },
  {
   "property": "C05",
   "status": "proved",
   "theorems": [
    "Verif.Skl.C05_iteration_under_modification",
    "Verif.Skl.C05_calls_return",
    "Verif.Skl.C05_isNext_unique",
    "Verif.Skl.C05_deleted",
    "Verif.Skl.C05_passed_over"
   ],
   "note": "The key the iterator stands on is not deleted; what happens when it is: C05_deleted, C05_passed_over."
  },
  {
   "property": "C06",
   "status": "partial",
   "theorems": [
    "Verif.Skl.C06_refuted",
    "Verif.Skl.C06_partial"
   ],
   "note": "false for NaN keys; holds for totally ordered key types"
  },
  {
   "property": "C07",
   "status": "proved",
   "theorems": [
    "Verif.Skl.C07_generator",
    "Verif.Skl.C07_root_state",
    "Verif.Skl.C07_draws",
    "Verif.Skl.C07_drawn_unique",
    "Verif.Skl.C07_half"
   ],
   "note": "the share of greater heights is not counted: it depends on successive draws"
  },
  {
   "property": "C08",
   "status": "proved",
   "theorems": [
    "Verif.Skl.C08_string"
   ],
   "note": "formatting of single entries is a parameter"
  },
  {
   "property": "C09",
   "status": "proved",
   "theorems": [
    "Verif.Ord.C09_ordmap_finite_map"
   ],
   "note": ""
  },
  {
   "property": "C10",
   "status": "proved",
   "theorems": [
    "Verif.Ord.C10_ordmap_enumeration",
    "Verif.MapSpec.visit_record"
   ],
   "note": "callbacks that modify the map itself: C88"
  },
  {
   "property": "C11",
   "status": "proved",
   "theorems": [
    "Verif.SyncMap.C11_linearizable",
    "Verif.SyncMap.C11_no_deadlock",
    "Verif.SyncMap.C11_ends",
    "Verif.SyncMap.C11_all_return"
   ],
   "note": ""
  },
  {
   "property": "C12",
   "status": "proved",
   "theorems": [
    "Verif.SyncMap.C12_no_race"
   ],
   "note": ""
  },
  {
   "property": "C13",
   "status": "partial",
   "theorems": [
    "Verif.Linked.Queue.C13_refuted",
    "Verif.Linked.Queue.C13_partial",
    "Verif.Linked.Queue.C13_other_calls",
    "Verif.Linked.Queue.C13_fresh_partial",
    "Verif.Linked.Queue.C13_fresh_other_calls"
   ],
   "note": "false of the code: Dequeue reports the element behind the removed one and panics on the last; removal order, Peek, IsEmpty proved while one element stays, and for every history when the pool hands out new nodes"
  },
  {
   "property": "C14",
   "status": "partial",
   "theorems": [
    "Verif.Linked.Stack.C14_refuted",
    "Verif.Linked.Stack.C14_partial",
    "Verif.Linked.Stack.C14_other_calls"
   ],
   "note": "false of the code: Pop reports the element below the removed one and panics on the last; everything else proved for all histories"
  },
  {
   "property": "C15",
   "status": "partial",
   "theorems": [
    "Verif.Linked.Deque.C15_refuted",
    "Verif.Linked.Deque.C15_partial",
    "Verif.DequeEnd.C15_fresh_partial",
    "Verif.DequeEnd.C15_other_end",
    "Verif.DequeEnd.C15_other_end_push"
   ],
   "note": "false of the code once a pop empties the deque; proved for all other histories, and with new nodes as long as an emptied deque is used at the end it was emptied from; what the other end does is proved too"
  },
  {
   "property": "C16",
   "status": "partial",
   "theorems": [
    "Verif.Linked.LList.C16_refuted",
    "Verif.Linked.LList.C16_partial",
    "Verif.ListExact.C16_exact",
    "Verif.ListExact.C16_no_hang",
    "Verif.ListExact.C16_no_panic"
   ],
   "note": "false of the code: stale tail after Insert/Remove at the end, Len after failed Remove; proved for histories avoiding these; the results of all other histories are proved against an exact description without a heap"
  },
  {
   "property": "C17",
   "status": "partial",
   "theorems": [
    "Verif.Ring.C17_refuted",
    "Verif.Ring.C17_exact",
    "Verif.Ring.C17_partial"
   ],
   "note": "false of the code: data has cap cells but indices go modulo cap+1, so once cap elements were enqueued a further Enqueue on a ring that is not full panics; exact behaviour proved for all histories"
  },
  {
   "property": "C18",
   "status": "proved",
   "theorems": [
    "Verif.SliceC.C18_slice_stack"
   ],
   "note": ""
  },
  {
   "property": "C19",
   "status": "proved",
   "theorems": [
    "Verif.SliceC.C19_slice_list",
    "Verif.SliceC.C19_visits_unique"
   ],
   "note": ""
  },
  {
   "property": "C20",
   "status": "proved",
   "theorems": [
    "Verif.Slicex.C20_get_set"
   ],
   "note": ""
  },
  {
   "property": "C21",
   "status": "partial",
   "theorems": [
    "Verif.Slicex.C21_refuted",
    "Verif.Slicex.C21_partial",
    "Verif.Slicex.C21_noClash",
    "Verif.Slicex.C21_insert_cut_delete"
   ],
   "note": "false for argument slices whose spare capacity covers the receiver's prefix and for Delete(MaxInt64); proved otherwise"
  },
  {
   "property": "C22",
   "status": "proved",
   "theorems": [
    "Verif.Slicex.C22_deque"
   ],
   "note": ""
  },
  {
   "property": "C23",
   "status": "proved",
   "theorems": [
    "Verif.Slicex.C23_copy_independent"
   ],
   "note": ""
  },
  {
   "property": "C24",
   "status": "partial",
   "theorems": [
    "Verif.Slicex.C24_refuted",
    "Verif.Slicex.C24_reverse",
    "Verif.Slicex.C24_rotate_partial",
    "Verif.Slicex.C24_rotate_undo"
   ],
   "note": "Rotate(MinInt64) panics unless the length divides 2^63; proved for every other int"
  },
  {
   "property": "C25",
   "status": "proved",
   "theorems": [
    "Verif.Slicex.C25_filter",
    "Verif.Slicex.C25_indexOf",
    "Verif.Slicex.C25_contains",
    "Verif.Slicex.C25_each"
   ],
   "note": "callbacks that modify the slice itself: C89"
  },
  {
   "property": "C26",
   "status": "partial",
   "theorems": [
    "Verif.Slicex.C26_refuted",
    "Verif.Slicex.C26_split_partial",
    "Verif.Slicex.C26_batch"
   ],
   "note": "Split is false when the running total overflows; Batch proved for every size"
  },
  {
   "property": "C27",
   "status": "partial",
   "theorems": [
    "Verif.Slicex.C27_refuted",
    "Verif.Slicex.C27_partial"
   ],
   "note": "false for DeleteReplace, Repeat, Rotate, Extend; exact conditions under which each method returns are proved"
  },
  {
   "property": "C28",
   "status": "proved",
   "theorems": [
    "Verif.Slicex.C28_slice",
    "Verif.Slicex.C28_extend",
    "Verif.Slicex.C28_clear",
    "Verif.Slicex.C28_repeat",
    "Verif.Slicex.C28_deleteReplace"
   ],
   "note": "Extend and Repeat within what make can allocate"
  },
  {
   "property": "C29",
   "status": "proved",
   "theorems": [
    "Verif.Slicex.C29_shuffle"
   ],
   "note": ""
  },
  {
   "property": "C30",
   "status": "partial",
   "theorems": [
    "Verif.Slicex.C30_refuted",
    "Verif.Slicex.C30_partial"
   ],
   "note": "false for argument slices with spare capacity; frame proved otherwise"
  },
  {
   "property": "C31",
   "status": "proved",
   "theorems": [
    "Verif.Slicex.C31_join"
   ],
   "note": "rendering of one element is a parameter"
  },
  {
   "property": "C32",
   "status": "proved",
   "theorems": [
    "Verif.BitSet.C32_set",
    "Verif.BitSet.C32_clear",
    "Verif.BitSet.C32_toggle",
    "Verif.BitSet.C32_test"
   ],
   "note": ""
  },
  {
   "property": "C33",
   "status": "proved",
   "theorems": [
    "Verif.BitSet.C33_whole_set"
   ],
   "note": ""
  },
  {
   "property": "C34",
   "status": "proved",
   "theorems": [
    "Verif.Functional.C34_match",
    "Verif.Functional.C34_match_any"
   ],
   "note": ""
  },
  {
   "property": "C35",
   "status": "proved",
   "theorems": [
    "Verif.Lazy.C35_lazy",
    "Verif.Lazy.C35_same_value",
    "Verif.Lazy.C35_result_stable",
    "Verif.Lazy.C35_no_race",
    "Verif.Lazy.C35_no_deadlock"
   ],
   "note": "after a panicking constructor Get returns the zero value"
  },
  {
   "property": "C36",
   "status": "proved",
   "theorems": [
    "Verif.Pool.C36_exclusive",
    "Verif.Pool.C36_one_holder",
    "Verif.Pool.C36_panic",
    "Verif.Pool.C36_zero_pool"
   ],
   "note": ""
  },
  {
   "property": "C37",
   "status": "partial",
   "theorems": [
    "Verif.Lockx.C37_refuted",
    "Verif.Lockx.C37_refuted_self",
    "Verif.Lockx.C37_partial"
   ],
   "note": "false of the code: the compare-and-swap compares the variable's content with its address, so every call spins forever; mutual exclusion holds for a variable containing its own address"
  },
  {
   "property": "C38",
   "status": "proved",
   "theorems": [
    "Verif.Trunc.C38_fixed_floor",
    "Verif.Trunc.C38_monday",
    "Verif.Trunc.C38_compose",
    "Verif.Trunc.C38_range_needed"
   ],
   "note": "for times whose period start fits int64; outside that range it fails, witnessed"
  },
  {
   "property": "C39",
   "status": "partial",
   "theorems": [
    "Verif.Trunc.C39_refuted",
    "Verif.Trunc.C39_any_period_partial",
    "Verif.Trunc.C39_nonpositive"
   ],
   "note": "false for periods above 9223372036 s, whose nanoseconds overflow; proved below"
  },
  {
   "property": "C40",
   "status": "proved",
   "theorems": [
    "Verif.Trunc.C40_year",
    "Verif.Trunc.C40_month",
    "Verif.Trunc.C40_range_needed"
   ],
   "note": "from the first second the time package can date; before it fails, witnessed"
  },
  {
   "property": "C41",
   "status": "proved",
   "theorems": [
    "Verif.Sleep.C41_one_sleeper",
    "Verif.Sleep.C41_busy",
    "Verif.Sleep.C41_reusable",
    "Verif.Sleep.C41_return"
   ],
   "note": ""
  },
  {
   "property": "C42",
   "status": "partial",
   "theorems": [
    "Verif.Sleep.C42_refuted",
    "Verif.Sleep.C42_refuted_overlap",
    "Verif.Sleep.C42_partial",
    "Verif.Sleep.C42_no_sleeper",
    "Verif.Sleep.C42_sleeper_seen",
    "Verif.Sleep.C42_no_spurious"
   ],
   "note": "false of the code: a wakeup can be lost; proved for one waker and a call already waiting"
  },
  {
   "property": "C43",
   "status": "partial",
   "theorems": [
    "Verif.Sleep.C43_refuted",
    "Verif.Sleep.C43_partial"
   ],
   "note": "false for every duration but 0: the duration is multiplied by time.Second"
  },
  {
   "property": "C44",
   "status": "proved",
   "theorems": [
    "Verif.Inter.C44_sound"
   ],
   "note": ""
  },
  {
   "property": "C45",
   "status": "proved",
   "theorems": [
    "Verif.Inter.C45_full_agreement",
    "Verif.Inter.C45_few"
   ],
   "note": ""
  },
  {
   "property": "C46",
   "status": "partial",
   "theorems": [
    "Verif.Inter.C46_refuted",
    "Verif.Inter.C46_order_partial",
    "Verif.Inter.C46_identical_partial"
   ],
   "note": "false when edges or midpoints of different kinds coincide; proved otherwise"
  },
  {
   "property": "C47",
   "status": "proved",
   "theorems": [
    "Verif.Diff.C47_readings",
    "Verif.Diff.C47_diff"
   ],
   "note": ""
  },
  {
   "property": "C48",
   "status": "proved",
   "theorems": [
    "Verif.GoPool.C48_exactly_once",
    "Verif.GoPool.C48_eventually",
    "Verif.GoPool.C48_run_returns"
   ],
   "note": "all schedules of any number of Run/Stop calls, workers and the collector"
  },
  {
   "property": "C49",
   "status": "proved",
   "theorems": [
    "Verif.GoPool.C49_exactly_once",
    "Verif.GoPool.C49_eventually",
    "Verif.GoPool.C49_run_returns"
   ],
   "note": "any preheat count"
  },
  {
   "property": "C50",
   "status": "partial",
   "theorems": [
    "Verif.GoPool.C50_counts",
    "Verif.GoPool.C50_bound_partial",
    "Verif.GoPool.C50_bound_max",
    "Verif.GoPool.C50_refuted"
   ],
   "note": "count always right; bound false for preheat > maxWorkers"
  },
  {
   "property": "C51",
   "status": "partial",
   "theorems": [
    "Verif.GoPool.C51_rejects",
    "Verif.GoPool.C51_run_returns",
    "Verif.GoPool.C51_comes_to_rest",
    "Verif.GoPool.C51_all_handled",
    "Verif.GoPool.C51_no_workers_partial",
    "Verif.GoPool.C51_refuted"
   ],
   "note": "Workers() = 0 at rest only without preheated workers; with them a goroutine can wait on a nil channel for good"
  },
  {
   "property": "C52",
   "status": "proved",
   "theorems": [
    "Verif.GoPool.C52_exact",
    "Verif.GoPool.C52_prefix"
   ],
   "note": ""
  },
  {
   "property": "C53",
   "status": "partial",
   "theorems": [
    "Verif.GoPool.C53_validates",
    "Verif.GoPool.C53_preheat_partial",
    "Verif.GoPool.C53_refuted"
   ],
   "note": "preheat > maxWorkers is accepted"
  },
  {
   "property": "C80",
   "status": "partial",
   "theorems": [
    "Verif.GoPool.C80_accepts_partial",
    "Verif.GoPool.C80_refuted",
    "Verif.GoPool.C80_full_refuted"
   ],
   "note": "true without preheated workers; with them a pool can become useless"
  },
  {
   "property": "C81",
   "status": "partial",
   "theorems": [
    "Verif.GoPool.C81_stop_returns_partial",
    "Verif.GoPool.C81_again",
    "Verif.GoPool.C81_refuted"
   ],
   "note": "true for one Stop at a time; concurrent Stop calls can block for ever"
  },
  {
   "property": "C54",
   "status": "partial",
   "theorems": [
    "Verif.KillSig.C54_once_per_signal",
    "Verif.KillSig.C54_closed_after_first",
    "Verif.KillSig.C54_can_close",
    "Verif.KillSig.C54_needs_signal",
    "Verif.KillSig.C54_no_crash_partial",
    "Verif.KillSig.C54_second_crashes",
    "Verif.KillSig.C54_refuted"
   ],
   "note": "a second signal closes the channel again and the program panics"
  },
  {
   "property": "C55",
   "status": "proved",
   "theorems": [
    "Verif.Param.C55_left_to_right",
    "Verif.Param.C55_compose"
   ],
   "note": ""
  },
  {
   "property": "C56",
   "status": "proved",
   "theorems": [
    "Verif.Using.C56_closes_all",
    "Verif.Using.C56_errors",
    "Verif.Using.C56_panics",
    "Verif.Using.C56_order"
   ],
   "note": "closers that do not panic; close_panicking_closer shows what happens otherwise"
  },
  {
   "property": "C60",
   "status": "proved",
   "theorems": [
    "Verif.CloseMgr.C60_close",
    "Verif.CloseMgr.C60_order"
   ],
   "note": ""
  },
  {
   "property": "C61",
   "status": "partial",
   "theorems": [
    "Verif.CloseMgr.C61_empty_partial",
    "Verif.CloseMgr.C61_wrapped",
    "Verif.CloseMgr.C61_refuted"
   ],
   "note": "false: Close never returns nil"
  },
  {
   "property": "C57",
   "status": "partial",
   "theorems": [
    "Verif.Decouple.C57_safe_partial",
    "Verif.Decouple.C57_refuted"
   ],
   "note": "Proved for runs in which the 64-bit ticket counter was taken fewer than 2^64-2 times; the counter then collides with the empty mark and an accepted payload is lost (C57_refuted)."
  },
  {
   "property": "C58",
   "status": "partial",
   "theorems": [
    "Verif.Decouple.C58_fifo_partial",
    "Verif.Decouple.C58_refuted",
    "Verif.Decouple.C58_refuted_hang",
    "Verif.Decouple.C58_refuted_order"
   ],
   "note": "Proved for histories without a write dropped for lack of room. A dropped write consumes a ticket, after which Next can wait for ever or show payloads out of order (refuted)."
  },
  {
   "property": "C59",
   "status": "partial",
   "theorems": [
    "Verif.Decouple.C59_drop_partial",
    "Verif.Decouple.C59_refuted",
    "Verif.Decouple.C59_size_zero"
   ],
   "note": "The drop part is proved (for size 0, Write panics: C59_size_zero); 'later Next calls still return' is refuted."
  },
  {
   "property": "C82",
   "status": "partial",
   "theorems": [
    "Verif.Decouple.C82_next_returns_partial",
    "Verif.Decouple.C82_refuted"
   ],
   "note": "Proved for size 1; refuted for size 2 by a schedule in which nothing is dropped: a writer that loses the compare-and-swap gives up its ticket."
  },
  {
   "property": "C62",
   "status": "proved",
   "theorems": [
    "Verif.ConvReg.C62_latest_registration"
   ],
   "note": "Converters are total functions that do not use the registry (those that do: C90); a nil converter makes Into panic."
  },
  {
   "property": "C63",
   "status": "partial",
   "theorems": [
    "Verif.ConvReg.C63_no_collision_partial",
    "Verif.ConvReg.C63_refuted",
    "Verif.ConvReg.C63_refuted_into"
   ],
   "note": "reflect.TypeOf(*new(I)) is nil for every interface type I, so all interface types share one key. Proved for pairs that differ where not both types are interfaces."
  },
  {
   "property": "C64",
   "status": "proved",
   "theorems": [
    "Verif.ConvNum.C64_signed_round_trip",
    "Verif.ConvNum.C64_unsigned_round_trip"
   ],
   "note": "strconv is modelled from its documentation and source."
  },
  {
   "property": "C65",
   "status": "partial",
   "theorems": [
    "Verif.ConvNum.C65_total_partial",
    "Verif.ConvNum.C65_overflow_first",
    "Verif.ConvNum.C65_cases",
    "Verif.ConvNum.C65_refuted"
   ],
   "note": "An invalid string that starts with digits of a number beyond 64 bits gives the bound, not 0 (ParseUint reports the overflow before it sees the invalid byte); all other strings are proved as stated."
  },
  {
   "property": "C66",
   "status": "proved",
   "theorems": [
    "Verif.ConvNum.C66_congruent",
    "Verif.ConvNum.C66_widening_round_trip",
    "Verif.ConvNum.C66_bool",
    "Verif.ConvNum.C66_string_bool",
    "Verif.ConvNum.C66_string_bool_two"
   ],
   "note": "Integer and boolean types; float conversions: C86, C87."
  },
  {
   "property": "C67",
   "status": "proved",
   "theorems": [
    "Verif.ConvUtf8.C67_bytes",
    "Verif.ConvUtf8.C67_runes_round_trip",
    "Verif.ConvUtf8.C67_string_round_trip",
    "Verif.ConvUtf8.C67_invalid_bytes"
   ],
   "note": "UTF-8 is Lean's String.utf8EncodeChar."
  },
  {
   "property": "C68",
   "status": "proved",
   "theorems": [
    "Verif.PassHash.C68_round_trip"
   ],
   "note": "For sizes that fit an int; the record is also compared with a separately stated layout, and read from slices of any capacity."
  },
  {
   "property": "C69",
   "status": "proved",
   "theorems": [
    "Verif.PassHash.C69_no_panic",
    "Verif.PassHash.C69_accessor_needs_validate",
    "Verif.PassHash.C69_base64"
   ],
   "note": "Argon2 is any total function."
  },
  {
   "property": "C70",
   "status": "proved",
   "theorems": [
    "Verif.PassHash.C70_hash_verify",
    "Verif.PassHash.C70_bad_level",
    "Verif.PassHash.C70_bad_rand"
   ],
   "note": "Assumes that the key derivation function returns as many bytes as asked for and that the random source fills the slice when it reports success."
  },
  {
   "property": "C71",
   "status": "proved",
   "theorems": [
    "Verif.PassHash.C71_accepts_iff",
    "Verif.PassHash.C71_rejects",
    "Verif.PassHash.C71_truncated",
    "Verif.PassHash.C71_bytes_only"
   ],
   "note": "'Derived key' is the separately stated table of Argon2id parameters."
  },
  {
   "property": "C72",
   "status": "partial",
   "theorems": [
    "Verif.PassHash.C72_encoding",
    "Verif.PassHash.C72_hash",
    "Verif.PassHash.C72_hash_error",
    "Verif.PassHash.C72_verify",
    "Verif.PassHash.C72_other_characters_partial",
    "Verif.PassHash.C72_newlines",
    "Verif.PassHash.C72_decodes_iff",
    "Verif.PassHash.C72_refuted"
   ],
   "note": "Everything but the last clause is proved; the last clause is false for carriage return and newline, which encoding/base64 skips (C72_refuted), and proved for every other character."
  },
  {
   "property": "C83",
   "status": "partial",
   "theorems": [
    "Verif.PassHash.C83_one_form_partial",
    "Verif.PassHash.C83_refuted",
    "Verif.PassHash.C83_hash_refuted"
   ],
   "note": "False: the decoder is not strict, so the bits left over in the last character are free; every text form HashBase64 gives has another accepted one (C83_hash_refuted). Proved for strings without newlines whose length is a multiple of four."
  },
  {
   "property": "C73",
   "status": "proved",
   "theorems": [
    "Verif.Aes.C73_round_trip",
    "Verif.Aes.C73_ragged",
    "Verif.Aes.C73_chain"
   ],
   "note": "AES is any block cipher, SHA-256 any function; the mode is also stated block by block."
  },
  {
   "property": "C74",
   "status": "proved",
   "theorems": [
    "Verif.Aes.C74_round_trip",
    "Verif.Aes.C74_counter_mode",
    "Verif.Aes.C74_no_iv"
   ],
   "note": "Byte-by-byte description of counter mode, including wrap-around at 2^128."
  },
  {
   "property": "C75",
   "status": "partial",
   "theorems": [
    "Verif.Aes.C75_round_trip_partial",
    "Verif.Aes.C75_refuted",
    "Verif.Aes.C75_accepts_iff",
    "Verif.Aes.C75_tag",
    "Verif.Aes.C75_counter_mode"
   ],
   "note": "GHASH is any function. The round trip is proved up to the size GCM takes, about 64 GiB; beyond it EncryptGCM panics (C75_refuted). Decryption is characterised completely: it accepts exactly what encryption returns."
  },
  {
   "property": "C76",
   "status": "partial",
   "theorems": [
    "Verif.Aes.C76_panics_iff",
    "Verif.Aes.C76_refuted",
    "Verif.Aes.C76_long_partial"
   ],
   "note": "False: all three panic on short input, and DecryptCBC on input that is not whole blocks (C76_refuted, exact conditions in C76_panics_iff)."
  },
  {
   "property": "C84",
   "status": "partial",
   "theorems": [
    "Verif.Aes.C84_counters",
    "Verif.Aes.C84_malleable",
    "Verif.Aes.C84_integrity_refuted"
   ],
   "note": "No counter block is used twice; the second half is false for CTR: changed bits are decrypted to changed bits without an error."
  },
  {
   "property": "C77",
   "status": "partial",
   "theorems": [
    "Verif.Bcrypt.C77_encrypt",
    "Verif.Bcrypt.C77_decrypt",
    "Verif.Bcrypt.C77_collisions",
    "Verif.Bcrypt.C77_refuted",
    "Verif.Bcrypt.C77_distinct_partial"
   ],
   "note": "The last clause is false: Decrypt does not check the length, so everything after byte 72 is ignored, and zero bytes are confused with the end of the password (C77_collisions, C77_refuted). Proved for passwords without zero bytes of at most 72 bytes, up to a collision of the function underneath."
  },
  {
   "property": "C78",
   "status": "partial",
   "theorems": [
    "Verif.Search.C78_any",
    "Verif.Search.C78_consistent",
    "Verif.Search.C78_sorted",
    "Verif.Search.C78_found",
    "Verif.Search.C78_float_refuted"
   ],
   "note": "Proved for linear orders and for every comparison; false for floats with NaN (C78_float_refuted)."
  },
  {
   "property": "C79",
   "status": "partial",
   "theorems": [
    "Verif.SortX.C79_sort_partial",
    "Verif.SortX.C79_others",
    "Verif.SortX.C79_stable",
    "Verif.SortX.C79_reverse_ignored",
    "Verif.SortX.C79_refuted",
    "Verif.SortX.C79_isSorted_custom",
    "Verif.SortX.C79_isSorted",
    "Verif.SortX.C79_float_refuted"
   ],
   "note": "False for Sort with reverse = true, which is ignored (C79_reverse_ignored, C79_refuted), and for floats with NaN; everything else is proved for linear orders and every sorting routine that meets its documentation."
  },
  {
   "property": "C85",
   "status": "proved",
   "theorems": [
    "Verif.ConvInit.C85_builtin",
    "Verif.ConvInit.C85_all_basic"
   ],
   "note": "All 202 registrations of init.go are modelled; every pair is checked, and the theorem holds after any further history of calls for other pairs."
  },
  {
   "property": "C86",
   "status": "partial",
   "theorems": [
    "Verif.ConvFloat.C86_nearest",
    "Verif.ConvFloat.C86_exact",
    "Verif.ConvFloat.C86_round_trip_partial",
    "Verif.ConvFloat.C86_monotone",
    "Verif.ConvFloat.C86_truncates",
    "Verif.ConvFloat.C86_floats",
    "Verif.ConvFloat.C86_formats",
    "Verif.ConvFloat.C86_bool",
    "Verif.ConvFloat.C86_refuted",
    "Verif.ConvFloat.C86_refuted_max"
   ],
   "note": "False for integer types with more bits than the float has digits: 2^53+1 comes back as 2^53 from float64, and the largest int64 does not fit when it comes back. Proved for all others, and for all integers that are floats."
  },
  {
   "property": "C87",
   "status": "partial",
   "theorems": [
    "Verif.ConvFloat.C87_round_trip",
    "Verif.ConvFloat.C87_nearest_partial",
    "Verif.ConvFloat.C87_integers",
    "Verif.ConvFloat.C87_refuted_any",
    "Verif.ConvFloat.C87_refuted"
   ],
   "note": "strconv is any pair of functions that meets its documentation (an instance is constructed). The round trip is proved for both types; decimals are rounded correctly to float64 but twice for float32, which is refuted."
  },
  {
   "property": "C88",
   "status": "partial",
   "theorems": [
    "Verif.OrdMod.C88_partial",
    "Verif.OrdMod.C88_ends",
    "Verif.OrdMod.C88_log",
    "Verif.OrdMod.C88_filter",
    "Verif.OrdMod.C88_clear",
    "Verif.OrdMod.C88_refuted",
    "Verif.OrdMod.C88_refuted_clear",
    "Verif.OrdMod.C88_endless"
   ],
   "note": "False for callbacks that clear the map (panic, for every non-empty map) and for callbacks that delete their own key and the next one (the deleted key is visited). Proved for callbacks that do not clear and, if they delete their own key, delete no other; everything else is allowed."
  },
  {
   "property": "C89",
   "status": "partial",
   "theorems": [
    "Verif.SliceMod.C89_loop",
    "Verif.SliceMod.C89_partial",
    "Verif.SliceMod.C89_filter_partial",
    "Verif.SliceMod.C89_map",
    "Verif.SliceMod.C89_shift",
    "Verif.SliceMod.C89_refuted",
    "Verif.SliceMod.C89_filter_panic"
   ],
   "note": "False for callbacks that delete (elements are skipped or seen twice; Filter panics). Proved for callbacks that push and set elements already reached; for Filter, callbacks that push. The loops end for every callback."
  },
  {
   "property": "C90",
   "status": "partial",
   "theorems": [
    "Verif.ConvConc.C90_exclusion",
    "Verif.ConvConc.C90_lookups",
    "Verif.ConvConc.C90_unchanged",
    "Verif.ConvConc.C90_partial",
    "Verif.ConvConc.C90_calls",
    "Verif.ConvConc.C90_nested_partial",
    "Verif.ConvConc.C90_change_in_converter",
    "Verif.ConvConc.C90_lookup_in_converter",
    "Verif.ConvConc.C90_refuted",
    "Verif.ConvConc.C90_refuted_nested"
   ],
   "note": "Exclusion and lookups hold for all converters. That calls end is false when converters use the registry: a converter that registers waits for ever, a converter that converts waits for ever if another goroutine registers meanwhile. Proved for converters that leave the registry alone (every schedule ends), and for nested conversions while nothing changes the registry (no waiting)."
  },
  {
   "property": "C91",
   "status": "partial",
   "theorems": [
    "Verif.CloseConc.C91_sequential",
    "Verif.CloseConc.C91_released",
    "Verif.CloseConc.C91_program",
    "Verif.CloseConc.C91_partial",
    "Verif.CloseConc.C91_ends_partial",
    "Verif.CloseConc.C91_reentrant",
    "Verif.CloseConc.C91_refuted",
    "Verif.CloseConc.C91_refuted_crossed"
   ],
   "note": "The order of effects holds for all closers. That calls end is false for closers that use their own manager (for ever, in every execution) and for two managers whose closers use each other. Proved for managers that can be ranked."
  },
  {
   "property": "C92",
   "status": "partial",
   "theorems": [
    "Verif.LazyConc.C92_once",
    "Verif.LazyConc.C92_values",
    "Verif.LazyConc.C92_solution",
    "Verif.LazyConc.C92_partial",
    "Verif.LazyConc.C92_ends_partial",
    "Verif.LazyConc.C92_reentrant",
    "Verif.LazyConc.C92_refuted",
    "Verif.LazyConc.C92_refuted_crossed"
   ],
   "note": "At most one start and the values hold for all families of lazies. That Get ends is false for a lazy that needs itself, directly or through others. Proved for lazies that can be ranked. Constructors that panic: C35."
  },
  {
   "property": "C93",
   "status": "proved",
   "theorems": [
    "Verif.DecPanic.C93_no_new_states",
    "Verif.DecPanic.C93_safe",
    "Verif.DecPanic.C93_shown_again"
   ],
   "note": "Fewer than 2^64-2 tickets, as in C57. The caller recovers from the panic and may call Next again."
  },
  {
   "property": "C94",
   "status": "partial",
   "theorems": [
    "Verif.ClosePanic.C94_refuted",
    "Verif.ClosePanic.C94_close_partial",
    "Verif.ClosePanic.C94_usable",
    "Verif.ClosePanic.C94_using_partial"
   ],
   "note": "False: the closers after the one that panics are not closed, and a second Close closes the ones before it again. Proved: exactly which closers are closed, that the lock is released and the list is kept, and what usingx.Close does."
  },
  {
   "property": "C95",
   "status": "partial",
   "theorems": [
    "Verif.SlicePanic.C95_refuted",
    "Verif.SlicePanic.C95_exact_partial",
    "Verif.SlicePanic.C95_all_kept",
    "Verif.SlicePanic.C95_rest_kept",
    "Verif.SlicePanic.C95_returns"
   ],
   "note": "False for Filter, which moves elements while it calls: exact content after the panic proved."
  },
  {
   "property": "C96",
   "status": "partial",
   "theorems": [
    "Verif.SyncPanic.C96_refuted",
    "Verif.SyncPanic.C96_which",
    "Verif.SyncPanic.C96_safe",
    "Verif.SyncPanic.C96_exact",
    "Verif.SyncPanic.C96_writer_panics",
    "Verif.SyncPanic.C96_reader_panics",
    "Verif.SyncPanic.C96_partial"
   ],
   "note": "False: no method defers its unlock, so Set(k) with a key that cannot be hashed blocks every later call for ever, and Get(k) every later writer and, once one waits, every later reader. Proved: exactly which calls can still return; the map stays linearizable. sync.RWMutex with waiting writers ahead of new readers."
  },
  {
   "property": "C97",
   "status": "proved",
   "theorems": [
    "Verif.SklAny.C97_any_keys",
    "Verif.SklAny.C97_kept",
    "Verif.SklAny.C97_unequal",
    "Verif.SklAny.C97_origin"
   ],
   "note": "Nothing is assumed about < and ==. Lookups may miss entries (C06); the entries themselves are never lost."
  },
  {
   "property": "C98",
   "status": "partial",
   "theorems": [
    "Verif.OrdAny.C98_refuted",
    "Verif.OrdAny.C98_partial",
    "Verif.OrdAny.C98_never_found"
   ],
   "note": "False for floats: after Set(1), Set(NaN), Del(1) the index still lists 1. Proved for every symmetric and transitive == and any <: no call panics or hangs, Get is right, Keys has every present key, Values and Range go through Keys with the values of Get."
  },
  {
   "property": "C99",
   "status": "partial",
   "theorems": [
    "Verif.SyncAny.C99_refuted",
    "Verif.SyncAny.C99_partial",
    "Verif.SyncAny.C99_stuck"
   ],
   "note": "False for keys with k != k: Keys lists them, Has never finds them, Delete never removes them. Proved for every symmetric and transitive ==: exactly what Get, Has, Keys and Size give. One goroutine."
  },
  {
   "property": "C100",
   "status": "partial",
   "theorems": [
    "Verif.DequeEnd.C100_refuted",
    "Verif.DequeEnd.C100_partial"
   ],
   "note": "False with recycled nodes, whose links are not reset: an empty deque returns (zero value, true). Proved for every history when the pool hands out new nodes."
  },
  {
   "property": "C101",
   "status": "partial",
   "theorems": [
    "Verif.AutoCmd.C101_refuted",
    "Verif.AutoCmd.C101_partial",
    "Verif.AutoCmd.C101_count_partial"
   ],
   "note": "False for directories without permissions: one that cannot be read gets the command twice, for one that cannot be entered it runs in the start directory. Proved when all may be read and entered; exact counts for all permissions."
  },
  {
   "property": "C102",
   "status": "proved",
   "theorems": [
    "Verif.AutoCmd.C102_outside"
   ],
   "note": "For every tree and all permissions. The commands do not add or remove directories; Getwd succeeds."
  },
  {
   "property": "C103",
   "status": "partial",
   "theorems": [
    "Verif.PoolRace.C103_only",
    "Verif.PoolRace.C103_partial",
    "Verif.PoolRace.C103_refuted",
    "Verif.PoolRace.C103_refuted_stop"
   ],
   "note": "False with preheated workers (the collector clears w.ch while the goroutine is about to read it) and for concurrent Stop calls (pool.stop). Proved: these are the only races there are, for every pool."
  },
  {
   "property": "C104",
   "status": "partial",
   "theorems": [
    "Verif.DecMem.C104_delivers_partial",
    "Verif.DecMem.C104_no_race_partial",
    "Verif.DecMem.C104_changes_partial",
    "Verif.DecMem.C104_refuted"
   ],
   "note": "The last clause is false: the next Write into the slot copies its bytes over those of the slice that was shown (C104_refuted). The rest is proved byte by byte for runs in which the ticket counter was taken fewer than 2^64-2 times; the bytes of a slot are changed only by the Write that holds it and by the view."
  },
  {
   "property": "C105",
   "status": "partial",
   "theorems": [
    "Verif.ListMod.C105_removes_partial",
    "Verif.ListMod.C105_exact_partial",
    "Verif.ListMod.C105_throw_out",
    "Verif.ListMod.C105_refuted",
    "Verif.ListMod.C105_refuted_removed",
    "Verif.ListMod.C105_forever"
   ],
   "note": "False when the callback puts something in after it removed its element: the node may be in use again and the loop ends early (C105_refuted). Proved for all callbacks that only remove, and exactly for all that leave their element in the list or remove it as the last thing that matters. An element removed before its turn can still be handed out (C105_refuted_removed), and a callback that appends in every round never ends (C105_forever)."
  },
  {
   "property": "C106",
   "status": "proved",
   "theorems": [
    "Verif.SyncKey.C106_linearizable",
    "Verif.SyncKey.C106_no_race",
    "Verif.SyncKey.C106_all_return"
   ],
   "note": "The sequential object is the history of Set, Delete and Clear with the meaning of C99. Proved through a general theorem on objects behind a sync.RWMutex (Verif/Conc/RW.lean). Assumes == is symmetric and transitive (linearizability only). Writer preference of the lock only removes schedules and is not modelled."
  },
  {
   "property": "C107",
   "status": "partial",
   "theorems": [
    "Verif.PoolIdle.C107_partial",
    "Verif.PoolIdle.C107_exact",
    "Verif.PoolIdle.C107_only_idle",
    "Verif.PoolIdle.C107_refuted"
   ],
   "note": "False as stated: workers stamp themselves before they take the lock, so the idle list need not be ordered by stamp, and the binary search stops a worker before its time (C107_refuted). Proved up to the longest time a worker takes from the return of the handler to the idle list, and exactly when that is zero. Assumes a clock that does not go back."
  },
  {
   "property": "C108",
   "status": "partial",
   "theorems": [
    "Verif.DecMulti.C108_partial",
    "Verif.DecMulti.C108_lost",
    "Verif.DecMulti.C108_hang",
    "Verif.DecMulti.C108_refuted"
   ],
   "note": "False as stated: two calls of Next that overlap are shown the same payload, and the second then clears the slot whatever is in it by now, so an accepted payload is lost (C108_lost) or the length falls below zero and the next call waits for ever (C108_hang). Proved when the calls of Next, from any number of goroutines, do not overlap; the writers are free."
  },
  {
   "property": "C109",
   "status": "partial",
   "theorems": [
    "Verif.InterExact.C109_partial",
    "Verif.InterExact.C109_even",
    "Verif.InterExact.C109_refuted"
   ],
   "note": "False as stated: with an odd number of intervals the loop stops one round early, so two of three intervals that agree are not found (C109_refuted). Proved for fault numbers below half the intervals rounded down, which is the full statement for an even number. For intervals whose edges and midpoints of different kinds do not coincide (see C46 for the others)."
  },
  {
   "property": "C110",
   "status": "partial",
   "theorems": [
    "Verif.SklClear.C110_partial",
    "Verif.SklClear.C110_stale",
    "Verif.SklClear.C110_refuted"
   ],
   "note": "False for iterators that stand on an entry: the old nodes stay linked, so the iterator gives the old entries, then the zero key and value with ok = true (the end mark of the old list is not the end mark of the new one), and then panics (C110_stale, exact for every history and whatever is done to the cleared map). Proved for iterators at the start."
  },
  {
   "property": "C111",
   "status": "partial",
   "theorems": [
    "Verif.SliceParts.C111_partial",
    "Verif.SliceParts.C111_earlier",
    "Verif.SliceParts.C111_push",
    "Verif.SliceParts.C111_rotate_refuted",
    "Verif.SliceParts.C111_refuted"
   ],
   "note": "False: every piece but the last has the following pieces in its spare capacity, so Push on it replaces the first element of the next piece (C111_push, exact for every split), and Rotate overwrites too. Proved for all sequences of calls that add nothing (Set, Reverse, Shuffle, Filter, Clear, Slice, Cut, Delete, Pop, Shift, DeleteReplace, Repeat); and no call at all changes an earlier piece. Sizes that are negative or overflow are excluded: their pieces overlap."
  },
  {
   "property": "C112",
   "status": "partial",
   "theorems": [
    "Verif.DecOrder.C112_partial",
    "Verif.DecOrder.C112_hang",
    "Verif.DecOrder.C112_order",
    "Verif.DecOrder.C112_refuted"
   ],
   "note": "False even for one producer and one reader and with nothing dropped: a call that finds its slot taken goes on to the next ticket; if the reader has made room meanwhile the payload lands behind an empty slot. Then Next waits for ever although all writes have returned (C112_hang), and a later payload is shown first (C112_order). Proved for all runs in which no call finds its slot taken (and fewer than 2^64-2 tickets)."
  },
  {
   "property": "C113",
   "status": "partial",
   "theorems": [
    "Verif.SleepRace.C113_partial",
    "Verif.SleepRace.C113_one_waker",
    "Verif.SleepRace.C113_sleep_wakeup",
    "Verif.SleepRace.C113_sleep_again",
    "Verif.SleepRace.C113_two_wakers",
    "Verif.SleepRace.C113_refuted"
   ],
   "note": "False: Wakeup assigns the plain fields ctx and cancel while a call of Sleep... that has just set slept reads ctx (C113_sleep_wakeup; also on the second sleep of a goroutine just woken, C113_sleep_again), and two calls of Wakeup conflict on cancel (C113_two_wakers). With one waking goroutine these conflicts on ctx are the only ones (C113_one_waker). Proved: none if one goroutine wakes, and Wakeup and the beginning of a sleep do not overlap; the callers have to arrange that with synchronisation of their own. A race is two goroutines about to use a field, one writing."
  },
  {
   "property": "C114",
   "status": "partial",
   "theorems": [
    "Verif.SleepUntil.C114_partial",
    "Verif.SleepUntil.C114_time",
    "Verif.SleepUntil.C114_wrapped",
    "Verif.SleepUntil.C114_refuted"
   ],
   "note": "False for the last 62135596800 seconds an int64 can name: the seconds since the year 1 wrap round and the time lies in the past (C114_refuted). Proved: the instant is the right one exactly when these seconds fit (C114_partial); otherwise it is off by 2^64 seconds; the result is always a time."
  },
  {
   "property": "C115",
   "status": "partial",
   "theorems": [
    "Verif.SleepUntil.C115_partial",
    "Verif.SleepUntil.C115_timer",
    "Verif.SleepUntil.C115_not_late",
    "Verif.SleepUntil.C115_custom",
    "Verif.SleepUntil.C115_refuted"
   ],
   "note": "False for instants 292 years or more ahead: the duration saturates and the call returns before the instant has come (C115_refuted). Proved for all others; the timer is the time left, saturated (C115_timer), and never longer than it has to be (C115_not_late)."
  },
  {
   "property": "C116",
   "status": "partial",
   "theorems": [
    "Verif.AesCbc.C116_partial",
    "Verif.AesCbc.C116_blocks",
    "Verif.AesCbc.C116_same_iv",
    "Verif.AesCbc.C116_any_change",
    "Verif.AesCbc.C116_refuted"
   ],
   "note": "False: there is no authentication; whoever can change a message changes the first block of its data as they like, without the key and without an error (C116_any_change). Proved for every cipher and every message: what a change does, block by block (C116_blocks, C116_partial), and that no change that keeps the IV goes without effect (C116_same_iv)."
  },
  {
   "property": "C117",
   "status": "partial",
   "theorems": [
    "Verif.ConvMem.C117_partial",
    "Verif.ConvMem.C117_content",
    "Verif.ConvMem.C117_shared",
    "Verif.ConvMem.C117_shared_runes",
    "Verif.ConvMem.C117_refuted"
   ],
   "note": "False for []byte to []byte and []rune to []rune: the converters hand the slice on, so every write through the result is a write to the argument (C117_shared, C117_shared_runes). Proved: the bytes and runes made from a string are a slice of their own, separate from every slice the program has, for every surplus capacity."
  },
  {
   "property": "C118",
   "status": "partial",
   "theorems": [
    "Verif.ZeroVal.C118_partial",
    "Verif.ZeroVal.C118_slice_stack",
    "Verif.ZeroVal.C118_queue",
    "Verif.ZeroVal.C118_deque",
    "Verif.ZeroVal.C118_stack",
    "Verif.ZeroVal.C118_list",
    "Verif.ZeroVal.C118_ring",
    "Verif.ZeroVal.C118_ring_made",
    "Verif.ZeroVal.C118_map_reads",
    "Verif.ZeroVal.C118_map_cleared",
    "Verif.ZeroVal.C118_map_set",
    "Verif.ZeroVal.C118_skl",
    "Verif.ZeroVal.C118_ord",
    "Verif.ZeroVal.C118_refuted"
   ],
   "note": "False of every container but the slice stack: pushes into the linked containers panic (and Len of the stack and the list count them), the ring divides by zero, a store into the zero Map panics with the lock held so that every later call waits for ever, the skip list map dereferences nil until it is cleared, the ordered map for ever. Proved: the exact results of every history on each zero value; the slice stack is as good as new; the others are while nothing is put in."
  },
  {
   "property": "C119",
   "status": "partial",
   "theorems": [
    "Verif.Dsx.C119_stack_iff",
    "Verif.Dsx.C119_queue_partial",
    "Verif.Dsx.C119_queue_iff",
    "Verif.Dsx.C119_list_partial",
    "Verif.Dsx.C119_refuted"
   ],
   "note": "False of all three interfaces (Push, Pop; Enqueue, Dequeue; Remove past the end). Proved exactly: programs over Stack see the same iff each Pop is on an empty stack or on two equal elements, whatever pool and memory do; programs over Queue see the same as with a ring of capacity n iff they make at most n Enqueue calls in all and each Dequeue is on an empty queue or two equal elements (one direction for every pool, both without recycling); programs over List see the same if indices are in range and nothing is appended once the end was changed otherwise."
  },
  {
   "property": "C120",
   "status": "partial",
   "theorems": [
    "Verif.CloseNest.C120_ends",
    "Verif.CloseNest.C120_partial",
    "Verif.CloseNest.C120_flat",
    "Verif.CloseNest.C120_empty",
    "Verif.CloseNest.C120_using",
    "Verif.CloseNest.C120_refuted"
   ],
   "note": "False: an empty manager in a manager is reported as an error, a manager registered twice is closed twice, a manager in itself waits for ever. Proved: Close ends iff neither the manager nor one below it is below itself, and waits for ever otherwise; when it ends all closers below were called in order, once per way down, repeated AsErrs yields exactly their errors in order, and the text of the error has their texts in order; the report is empty (usingx.Close: nil) iff no manager is registered and no closer failed."
  },
  {
   "property": "C121",
   "status": "partial",
   "theorems": [
    "Verif.SortSearch.C121_partial",
    "Verif.SortSearch.C121_unique",
    "Verif.SortSearch.C121_reverse",
    "Verif.SortSearch.C121_custom",
    "Verif.SortSearch.C121_refuted",
    "Verif.SortSearch.C121_zeros"
   ],
   "note": "False after SortReverse and SortStableReverse: Search goes to an end of the slice and finds nothing but possibly the largest element. Proved: after Sort (either flag) and SortStable the search yields the number of smaller elements and membership in the slice as it was; for linear orders all routines agree, the descending results are the ascending ones backwards, and sorting what is sorted changes nothing; SearchCustom with the comparison turned around searches a descending slice; for float zeros the reversal law fails."
  },
  {
   "property": "C122",
   "status": "partial",
   "theorems": [
    "Verif.LazyPanic.C122_partial",
    "Verif.LazyPanic.C122_no_panic",
    "Verif.LazyPanic.C122_value_unique",
    "Verif.LazyPanic.C122_poisoned",
    "Verif.LazyPanic.C122_refuted"
   ],
   "note": "False when constructors panic: a lazy whose constructor gets a lazy that panics has no value if it is got first, and a value made of the zero value if the other was got before. Proved for every program of Gets with panics recovered, and constructors that decide what to get next by what they got and may recover: a lazy that has a value by its definition can always be got and every Get returns that value, whatever else panicked; without panics every Get returns the value of the definition; after a panicking Get every later Get returns the zero value. One goroutine; C35 and C92 have many."
  },
  {
   "property": "C123",
   "status": "partial",
   "theorems": [
    "Verif.DecNone.C123_count",
    "Verif.DecNone.C123_partial",
    "Verif.DecNone.C123_settled",
    "Verif.DecNone.C123_one_slot",
    "Verif.DecNone.C123_refuted",
    "Verif.DecNone.C123_refuted_turns"
   ],
   "note": "False: a Write stores its payload before it counts it. If the reader shows it in between, on the count of another Write, Next then returns false though the payload of that other Write, which has returned, is there (two writers; also one producer, after a retry). Proved for any number of writers and one reader: the accepted payloads not shown when Next returns false are no more than the Writes under way whose payload was shown before it was counted; none if no Write is at that point; none with one slot and distinct payloads. Fewer than 2^64-2 tickets, as in C57."
  },
  {
   "property": "C124",
   "status": "partial",
   "theorems": [
    "Verif.DecAlone.C124_iff",
    "Verif.DecAlone.C124_partial",
    "Verif.DecAlone.C124_one_way",
    "Verif.DecAlone.C124_writer",
    "Verif.DecAlone.C124_reader",
    "Verif.DecAlone.C124_refuted"
   ],
   "note": "False: a Write goes round for ever while another one stands between storing its payload and counting it, or while Next stands between emptying the slot and counting that. Proved exactly, in every reachable state: on its own a Write returns if and only if some slot is empty, or some slot is full and the fill counter says that all are; it then takes at most size tickets. So it returns if no other Write is under way and Next is not at that point. Fewer than 2^64-2 tickets, as in C57."
  },
  {
   "property": "C125",
   "status": "proved",
   "theorems": [
    "Verif.PoolFair.C125_outcome",
    "Verif.PoolFair.C125_run_returns",
    "Verif.PoolFair.C125_handled"
   ],
   "note": "Over infinite executions under weak fairness: a goroutine that could go on at every moment from some moment on does go on. Nothing is assumed about a worker inside the handler, so handlers may never return, and nothing about the clock, the cleaner or Stop. A critical section under the pool's mutex is one step, so the mutex is taken not to starve its waiters. For pools with a positive maximum."
  },
  {
   "property": "C126",
   "status": "partial",
   "theorems": [
    "Verif.PoolDrain.C126_partial",
    "Verif.PoolDrain.C126_left",
    "Verif.PoolDrain.C126_stop_returns",
    "Verif.PoolDrain.C126_once",
    "Verif.PoolDrain.C126_all_left",
    "Verif.PoolDrain.C126_refuted"
   ],
   "note": "False with preheated workers: one that is collected before its goroutine starts leaves a goroutine on a nil channel, and Workers() stays 1 (C126_refuted). Without them, in every fair execution, the only Stop call returns (C126_stop_returns) and from some moment on no worker goroutine is left and none is counted (C126_partial, C126_once). With them, the goroutines left over wait in line 33 for good, they are the ones Workers() counts, and there are at most as many as were preheated (C126_left); for every number of preheated workers all of them can be left (C126_all_left). Fairness: weak for workers, handlers, Run calls and the collector, strong for the select between Stop and the ticker. That concurrent Stop calls can block is C81."
  },
  {
   "property": "C127",
   "status": "partial",
   "theorems": [
    "Verif.SliceAll.C127_partial",
    "Verif.SliceAll.C127_step",
    "Verif.SliceAll.C127_determined",
    "Verif.SliceAll.C127_refuted"
   ],
   "note": "False of Delete(MaxInt64), which empties the slice (C127_refuted). For every history of calls of the 30 methods whose integer arguments do not overflow, results and final elements are those of the list reading (C127_partial); each single call panics exactly where that reading says, else returns, and never hangs (C127_step); apart from Shuffle the reading fixes results and elements (C127_determined). Excluded arguments (Op.Fits): Delete of the largest int, Rotate by the smallest, Repeat with an overflowing length, Split with negative or overflowing sizes. Arguments of Splice and Expand are given one by one; a spread slice is C21 and C30."
  },
  {
   "property": "C128",
   "status": "proved",
   "theorems": [
    "Verif.SearchCost.C128_calls",
    "Verif.SearchCost.C128_tight",
    "Verif.SearchCost.C128_same",
    "Verif.SearchCost.C128_search"
   ],
   "note": "For fewer than 2^k elements at most k+1 calls (C128_calls), reached for 2^k-1 elements (C128_tight); outcomes are those of C78 (C128_same). The comparison may answer differently from call to call and may panic."
  },
  {
   "property": "C129",
   "status": "partial",
   "theorems": [
    "Verif.SleepFair.C129_partial",
    "Verif.SleepFair.C129_timed",
    "Verif.SleepFair.C129_wakeup_returns",
    "Verif.SleepFair.C129_refuted"
   ],
   "note": "False with several goroutines that call Wakeup: two calls that overlap once can leave ctx and cancel of different contexts, and the next sleeper waits on a context no later Wakeup cancels (C129_refuted, an infinite fair execution). With one such goroutine every SleepForever returns (C129_partial); every SleepFor and SleepUntil returns in any case (C129_timed), and so does every Wakeup (C129_wakeup_returns). Fairness is weak fairness of goroutines inside calls; that a timer fires in the end is part of it. How long a timer runs is C43 and C115."
  },
  {
   "property": "C130",
   "status": "partial",
   "theorems": [
    "Verif.DecFair.C130_partial",
    "Verif.DecFair.C130_lockfree",
    "Verif.DecFair.C130_starved",
    "Verif.DecFair.C130_refuted",
    "Verif.DecFair.C130_refuted_marks"
   ],
   "note": "False: a Write can be overtaken for ever by others (C130_starved, C130_refuted, an infinite fair execution with size 1), and with a ticket that equals one of the two marks the last of four calls never returns (C130_refuted_marks). With finitely many calls and no such ticket every Write returns (C130_partial); the ticket counter may wrap any number of times. With infinitely many calls, one waits for ever only if infinitely many others are accepted (C130_lockfree). Fairness is weak fairness of each Write and of a Next that has begun; nobody need call Next. The drop function returns."
  },
  {
   "property": "C131",
   "status": "proved",
   "theorems": [
    "Verif.InterMove.C131_clock",
    "Verif.InterMove.C131_noties",
    "Verif.InterMove.C131_overflow"
   ],
   "note": "For every order that the unstable sort may leave equal offsets in: the set of possible results on the other clock is exactly the set of possible results read on that clock (C131_clock); without ties the one result is (C131_noties). The bounds returned with ok = false are not part of the claim. All bounds have to be int64s on both clocks; C131_overflow shows that this is needed."
  },
  {
   "property": "C132",
   "status": "partial",
   "theorems": [
    "Verif.LinkSrc.C132_partial",
    "Verif.LinkSrc.C132_refuted",
    "Verif.LinkSrc.C132_drain"
   ],
   "note": "False of the deque: after PushBack(7), PopBack(), 64 calls of PopFront return 7 and 63 zero values with ok = true, then it panics. Proved for queue, stack and list in every history and for every behaviour of the pool; for the deque up to zero values (C132_partial). C132_drain: draining at the other end after the last element was taken always goes wrong in this way."
  },
  {
   "property": "C133",
   "status": "partial",
   "theorems": [
    "Verif.CloseFind.C133_partial",
    "Verif.CloseFind.C133_first",
    "Verif.CloseFind.C133_compare",
    "Verif.CloseFind.C133_refuted"
   ],
   "note": "False: errors.Is finds nothing in the result of Close, since ErrorList does not unwrap; of two joined results AsErrs finds only the first, even an empty one; comparing two results with == panics. Proved: AsErrs finds exactly the first error list, through any wrapping and joining, and errors.Is on its elements finds exactly what the closers failed with."
  },
  {
   "property": "C134",
   "status": "partial",
   "theorems": [
    "Verif.PoolSerial.C134_partial",
    "Verif.PoolSerial.C134_max",
    "Verif.PoolSerial.C134_serial",
    "Verif.PoolSerial.C134_covers",
    "Verif.PoolSerial.C134_refuted"
   ],
   "note": "False when more workers are preheated than maxWorkers (1 and 2: two handlers at the same time). Proved for all schedules: otherwise at most maxWorkers jobs are in progress, with any preheat count at most the larger of the two; with one worker the jobs are handled one after the other in the order in which Run takes them on."
  },
  {
   "property": "C135",
   "status": "proved",
   "theorems": [
    "Verif.ShuffleFair.C135_fair",
    "Verif.ShuffleFair.C135_unique"
   ],
   "note": "The random source draws one of 0..i for each i, each as likely as the others (trusted)."
  },
  {
   "property": "C136",
   "status": "proved",
   "theorems": [
    "Verif.TruncCal.C136_order",
    "Verif.TruncCal.C136_convex",
    "Verif.TruncCal.C136_nest",
    "Verif.TruncCal.C136_weeks"
   ],
   "note": "For times in the range of C40 (and of C38 for the finer units). Weeks are no part of the chain: they do not nest in months, witnessed."
  },
  {
   "property": "C137",
   "status": "proved",
   "theorems": [
    "Verif.SklCost.C137_few"
   ],
   "note": "The worst case over all seeds; how well the heights spread the keys is in C151."
  },
  {
   "property": "C138",
   "status": "proved",
   "theorems": [
    "Verif.PassCost.C138_verify",
    "Verif.PassCost.C138_garbage",
    "Verif.PassCost.C138_base64",
    "Verif.PassCost.C138_hash",
    "Verif.PassCost.C138_password"
   ],
   "note": "Argon2 is a parameter of the model; how long one derivation takes is not part of it."
  },
  {
   "property": "C139",
   "status": "proved",
   "theorems": [
    "Verif.SortedSet.C139_collection",
    "Verif.SortedSet.C139_history",
    "Verif.SortedSet.C139_set",
    "Verif.SortedSet.C139_sorts"
   ],
   "note": "Element types with a total order and comparisons that agree with it; slices short enough that the sum of two indices does not overflow."
  },
  {
   "property": "C140",
   "status": "partial",
   "theorems": [
    "Verif.Retain.C140_skl",
    "Verif.Retain.C140_stack",
    "Verif.Retain.C140_queue_partial",
    "Verif.Retain.C140_list_partial",
    "Verif.Retain.C140_ring",
    "Verif.Retain.C140_slice",
    "Verif.Retain.C140_refuted"
   ],
   "note": "Holds of the skip-list map and the linked stack; false of the linked queue, the linked list, the deque, the ring and the slice."
  },
  {
   "property": "C141",
   "status": "partial",
   "theorems": [
    "Verif.ConvChain.C141_partial",
    "Verif.ConvChain.C141_any_way",
    "Verif.ConvChain.C141_bool",
    "Verif.ConvChain.C141_ints",
    "Verif.ConvChain.C141_string_value",
    "Verif.ConvChain.C141_string",
    "Verif.ConvChain.C141_through",
    "Verif.ConvChain.C141_floats",
    "Verif.ConvChain.C141_double_rounding",
    "Verif.ConvChain.C141_refuted"
   ],
   "note": "Holds of every number that all types on the way have. False in general: -1 from int8 to uint8 and back is -1, but through uint8 it is 255 as int16. For integers through integers and through strings the exact condition is proved."
  },
  {
   "property": "C142",
   "status": "proved",
   "theorems": [
    "Verif.PoolTree.C142_once",
    "Verif.PoolTree.C142_complete",
    "Verif.PoolTree.C142_visited",
    "Verif.PoolTree.C142_returns",
    "Verif.PoolTree.C142_ends"
   ],
   "note": "For all trees, numbers of workers, preheat counts and schedules, also if Stop is called during the walk. The progress parts are for fair executions."
  },
  {
   "property": "C143",
   "status": "proved",
   "theorems": [
    "Verif.ConvPanic.C143_exclusion",
    "Verif.ConvPanic.C143_lookups",
    "Verif.ConvPanic.C143_does",
    "Verif.ConvPanic.C143_released",
    "Verif.ConvPanic.C143_usable",
    "Verif.ConvPanic.C143_ends",
    "Verif.ConvPanic.C143_nested"
   ],
   "note": "For all converters (panicking, recovering, ending their goroutine, nested), programs and schedules. That every schedule ends is for converters that leave the registry alone: what nested use of the registry does to progress is C90."
  },
  {
   "property": "C144",
   "status": "proved",
   "theorems": [
    "Verif.SklShare.C144_linearizable",
    "Verif.SklShare.C144_no_race",
    "Verif.SklShare.C144_all_return",
    "Verif.SklShare.C144_set",
    "Verif.SklShare.C144_without"
   ],
   "note": "Calls that read go through the nodes one at a time and interleave; calls that write hold the lock alone and are one step. C144_without: without the lock two overlapping Set calls hide a key."
  },
  {
   "property": "C145",
   "status": "proved",
   "theorems": [
    "Verif.KillMany.C145_order",
    "Verif.KillMany.C145_once",
    "Verif.KillMany.C145_ends",
    "Verif.KillMany.C145_all_closed",
    "Verif.KillMany.C145_reached",
    "Verif.KillMany.C145_circle",
    "Verif.KillMany.C145_exactly",
    "Verif.KillMany.C145_second"
   ],
   "note": "All registrations exist before the signal; handlers wait for channels and return. C145_second: a second signal then crashes the program in every schedule (the disagreement of C54)."
  },
  {
   "property": "C146",
   "status": "proved",
   "theorems": [
    "Verif.SliceUndo.C146_undo",
    "Verif.SliceUndo.C146_back",
    "Verif.SliceUndo.C146_same_index"
   ],
   "note": "For all 30 methods with arguments that do not overflow an int (Op.Fits of C127) and lengths that are ints. The calls written down use indices already brought into range; C146_same_index says when the raw index would do."
  },
  {
   "property": "C147",
   "status": "partial",
   "theorems": [
    "Verif.InterTrue.C147_refuted",
    "Verif.InterTrue.C147_ends",
    "Verif.InterTrue.C147_bound",
    "Verif.InterTrue.C147_bound_tight",
    "Verif.InterTrue.C147_partial",
    "Verif.InterTrue.C147_noties",
    "Verif.InterTrue.C147_apart"
   ],
   "note": "False when a wrong clock has times in common with the right ones: two clocks have the time 5, a third narrows the result to [-3, 3] (C147_refuted). Proved for every order of equal edges: both ends are times that a right clock has, so nothing reported is off by more than two bands of a right clock (C147_bound, tight); the true time is in the result if no time is in more intervals (C147_partial, C147_noties), in particular if the wrong intervals meet no right one (C147_apart)."
  },
  {
   "property": "C148",
   "status": "proved",
   "theorems": [
    "Verif.Demo.C148_output",
    "Verif.Demo.C148_hex",
    "Verif.Demo.C148_unique"
   ],
   "note": "For every width of int, every strconv for floats and all bytes. fmt.Println is modelled for the types the program prints, hex.EncodeToString after its source, rand.Read as any bytes."
  },
  {
   "property": "C149",
   "status": "partial",
   "theorems": [
    "Verif.RingPair.C149_refuted",
    "Verif.RingPair.C149_race",
    "Verif.RingPair.C149_worn",
    "Verif.RingPair.C149_exact",
    "Verif.RingPair.C149_partial",
    "Verif.RingPair.C149_fifo",
    "Verif.RingPair.C149_elements",
    "Verif.RingPair.C149_writers",
    "Verif.RingPair.C149_no_waiting"
   ],
   "note": "False: head and tail are accessed by both goroutines without synchronization (C149_race), and the ring wears out (C149_worn, see C17). With every read and write of memory a step and reads seeing the last write, the calls are linearizable for any use (C149_exact), to a bounded queue as long as Enqueue is called no more often than there is room (C149_partial); elements come out in the order they went in (C149_fifo), no element is accessed by both at once (C149_elements), each index is written by one side only (C149_writers) and no call waits for the other side (C149_no_waiting). Missing from the full claim: longer use, and the absence of data races."
  },
  {
   "property": "C150",
   "status": "partial",
   "theorems": [
    "Verif.SliceSide.C150_refuted",
    "Verif.SliceSide.C150_partial",
    "Verif.SliceSide.C150_call",
    "Verif.SliceSide.C150_lists",
    "Verif.SliceSide.C150_program",
    "Verif.SliceSide.C150_next"
   ],
   "note": "False of New(x...), which takes over the memory of x (C150_refuted). In programs without it a command changes nothing any other variable shows, whatever its arguments (C150_partial), also Splice with an existing slice; for any two slices in any memory see C150_call. With arguments that do not overflow all variables together are a family of lists (C150_lists, C150_program), and no command gets stuck (C150_next). Missing from the full claim: calls after New(x...)."
  },
  {
   "property": "C151",
   "status": "proved",
   "theorems": [
    "Verif.SklMean.C151_mean",
    "Verif.SklMean.C151_runs",
    "Verif.SklMean.C151_heights",
    "Verif.SklMean.C151_height",
    "Verif.SklMean.C151_generator"
   ],
   "note": "The mean over all ways the coins of rand_height can fall, for any history that does not depend on them. That the bits of splitmix64 are as good as fair coins is trusted; C151_height and C151_generator say which bits they are."
  },
  {
   "property": "C152",
   "status": "partial",
   "theorems": [
    "Verif.Footprint.C152_skl",
    "Verif.Footprint.C152_stack",
    "Verif.Footprint.C152_queue_partial",
    "Verif.Footprint.C152_list_partial",
    "Verif.Footprint.C152_deque_partial",
    "Verif.Footprint.C152_refuted"
   ],
   "note": "False of the linked list and the deque: with never more than two elements both can come to keep any number of nodes, in histories in which everything else works. Proved: the skip-list map keeps two nodes more than it has keys and the stack one per element, always; the queue, the list and the deque keep what they need as long as no node is used a second time (queue, deque), the end of the list is not changed by Insert or Remove, and the deque is not emptied."
  },
  {
   "property": "C153",
   "status": "proved",
   "theorems": [
    "Verif.OrdShare.C153_linearizable",
    "Verif.OrdShare.C153_no_race",
    "Verif.OrdShare.C153_all_return",
    "Verif.OrdShare.C153_set",
    "Verif.OrdShare.C153_without"
   ],
   "note": "Keys of a totally ordered type. The loops of Keys, Values and Range run node by node, interleaved with other readers. Callbacks of Range that call the map are not in this model. C153_without shows what a reader without the lock can see."
  },
  {
   "property": "C154",
   "status": "proved",
   "theorems": [
    "Verif.PoolUse.C154_handed_on",
    "Verif.PoolUse.C154_reset",
    "Verif.PoolUse.C154_reads",
    "Verif.PoolUse.C154_no_panic",
    "Verif.PoolUse.C154_get",
    "Verif.PoolUse.C154_reset_needed",
    "Verif.PoolUse.C154_single_put_needed",
    "Verif.PoolUse.C154_no_use_after_put_needed",
    "Verif.PoolUse.C154_no_nil_needed",
    "Verif.PoolUse.C154_init_needed"
   ],
   "note": "The rules are not built into the model: callers may break them, and the last five theorems show for each rule an execution that breaks it and goes wrong. sync.Pool is a collection from which Get takes any pointer or none and the collector removes pointers at any time; every method is one step."
  },
  {
   "property": "C155",
   "status": "partial",
   "theorems": [
    "Verif.PoolFull.C155_account",
    "Verif.PoolFull.C155_partial",
    "Verif.PoolFull.C155_accepts",
    "Verif.PoolFull.C155_progress",
    "Verif.PoolFull.C155_after_handler",
    "Verif.PoolFull.C155_while_collecting",
    "Verif.PoolFull.C155_refuted"
   ],
   "note": "False of the code: a job is turned down while nothing is in progress, because a worker goes back to the idle list only after its handler has returned and because the collector takes workers off the list before it stops them. Proved instead: what the workers of a pool that turns a job down are doing, and that jobs are taken on again and again in fair executions. Pools with preheated workers are left out, see C80."
  },
  {
   "property": "C156",
   "status": "proved",
   "theorems": [
    "Verif.SklTail.C156_tail",
    "Verif.SklTail.C156_rare",
    "Verif.SklTail.C156_history"
   ],
   "note": "About fair coins in place of the generator, as C151: all ways the coins can fall are counted, and the history does not depend on them. That each run of the program is one of these ways is C151_generator."
  },
  {
   "property": "C157",
   "status": "partial",
   "theorems": [
    "Verif.KillClose.C157_partial",
    "Verif.KillClose.C157_no_signal",
    "Verif.KillClose.C157_one_signal",
    "Verif.KillClose.C157_live",
    "Verif.KillClose.C157_second_signal",
    "Verif.KillClose.C157_late",
    "Verif.KillClose.C157_twice",
    "Verif.KillClose.C157_refuted"
   ],
   "note": "False of the code: closers registered while the handler is at work are never closed although Append returned before the channel was closed, and a second signal closes everything again and then panics. Proved: closers registered before the signal are closed, once if there is one signal; the channel is closed in every fair execution; a signal after that ends the program in every fair execution. Closers return, the logger is not nil, Append is one step."
  },
  {
   "property": "C158",
   "status": "partial",
   "theorems": [
    "Verif.HandOut.C158_partial",
    "Verif.HandOut.C158_stack",
    "Verif.HandOut.C158_ring",
    "Verif.HandOut.C158_linked",
    "Verif.HandOut.C158_refuted",
    "Verif.HandOut.C158_all_return",
    "Verif.HandOut.C158_total",
    "Verif.HandOut.C158_without_defer",
    "Verif.HandOut.C158_panics"
   ],
   "note": "False of the linked stack, which hands one element out twice and loses others, and of the linked queue, which loses its first element. Proved for the slice stack and the ring (also when it is worn out, C17), which are a stack and, while Enqueue is called no more often than there is room, a bounded queue for all goroutines together; the linked stack is described exactly. Calls run alone and are one step. Without defer one panic blocks all later calls (C158_without_defer)."
  },
  {
   "property": "C159",
   "status": "partial",
   "theorems": [
    "Verif.SlicePar.C159_refuted",
    "Verif.SlicePar.C159_push",
    "Verif.SlicePar.C159_partial",
    "Verif.SlicePar.C159_no_race",
    "Verif.SlicePar.C159_never",
    "Verif.SlicePar.C159_elsewhere",
    "Verif.SlicePar.C159_ends",
    "Verif.SlicePar.C159_whole"
   ],
   "note": "False for methods that add elements: Push on a piece writes where the next piece begins, a data race with the goroutine that works there, which then reads the other's element (C159_push). With every read and write of an element a step and any interleaving, the methods that add nothing give every goroutine the results of a list of its own (C159_partial), no two goroutines are ever about to use the same element (C159_no_race), elements outside the slice stay (C159_elsewhere), calls end within four accesses per element and panic only where C27 says (C159_ends), and at the end the slice shows the goroutines' lists one after the other (C159_whole). Missing from the full claim: adding elements. Not in the model: Push that has to grow, Finalize, Split, Batch, Repeat and Rotate of a piece."
  },
  {
   "property": "C160",
   "status": "partial",
   "theorems": [
    "Verif.LazyAll.C160_refuted",
    "Verif.LazyAll.C160_partial",
    "Verif.LazyAll.C160_one_panic",
    "Verif.LazyAll.C160_once",
    "Verif.LazyAll.C160_value",
    "Verif.LazyAll.C160_no_panic",
    "Verif.LazyAll.C160_can_step",
    "Verif.LazyAll.C160_ends"
   ],
   "note": "False when a constructor panics: the Get that ran it panics, the others return the zero value (the disagreement of C122, here between goroutines). In every interleaving of the steps of sync.Once, with constructors that choose the lazies they get by what they got, recover or panic: values returned for one lazy are equal (C160_partial), at most one Get panics and then the others return zero (C160_one_panic), a constructor starts once (C160_once), a lazy with a value by the definitions gives it to everybody (C160_value), without panics everybody gets the value (C160_no_panic), and if no lazy needs itself nobody waits forever (C160_can_step, C160_ends)."
  },
  {
   "property": "C161",
   "status": "partial",
   "theorems": [
    "Verif.BitShare.C161_refuted",
    "Verif.BitShare.C161_race",
    "Verif.BitShare.C161_readers",
    "Verif.BitShare.C161_named",
    "Verif.BitShare.C161_partial",
    "Verif.BitShare.C161_word",
    "Verif.BitShare.C161_no_race",
    "Verif.BitShare.C161_uses",
    "Verif.BitShare.C161_can_step",
    "Verif.BitShare.C161_ends"
   ],
   "note": "False without a mutex: Set reads the word and writes it later, so a goroutine finds a bit clear that it has set and nobody else uses (C161_refuted, C161_race). Behind a mutex with a deferred Unlock it is true (C161_partial, C161_word), also when calls panic on a negative index, without races (C161_no_race) or deadlocks (C161_can_step, C161_ends). Without a mutex goroutines that only call Test get right results (C161_readers), and no bit is set that nobody set (C161_named). The calls are Set, Clear, Toggle, Test; the others are about all bits."
  },
  {
   "property": "C162",
   "status": "partial",
   "theorems": [
    "Verif.CopyVal.C162_refuted",
    "Verif.CopyVal.C162_two_pushes",
    "Verif.CopyVal.C162_remove",
    "Verif.CopyVal.C162_shows",
    "Verif.CopyVal.C162_partial",
    "Verif.CopyVal.C162_snapshots"
   ],
   "note": "False: a copy shares the array, so a Pop and a Push on the original replace the top of the copy (C162_refuted), two pushes write the same place (C162_two_pushes) and Remove moves the elements of the copy (C162_remove); C162_shows is the general case. True when calls write only at indices where no copy has an element, whatever capacities append chooses (C162_partial); in particular for copies, only read and popped, of a stack or list that only grows (C162_snapshots)."
  },
  {
   "property": "C163",
   "status": "proved",
   "theorems": [
    "Verif.SklWeak.C163_weakly_consistent",
    "Verif.SklWeak.C163_returns",
    "Verif.SklWeak.C163_up",
    "Verif.SklWeak.C163_given",
    "Verif.SklWeak.C163_all",
    "Verif.SklWeak.C163_all_upto",
    "Verif.SklWeak.C163_ends",
    "Verif.SklWeak.C163_stale"
   ],
   "note": "The iteration may begin anywhere (start, after Seek, after some Next calls), and the key the iterator stands on and those after it may be deleted and set again. Keys and values given may be out of date at the time of the call, but then their key has been deleted since the iteration began (C163_given, C163_stale). Clear is left out: C110. The key type is totally ordered (no NaN)."
  },
  {
   "property": "C164",
   "status": "proved",
   "theorems": [
    "Verif.SortKeys.C164_one_after_another",
    "Verif.SortKeys.C164_two_keys",
    "Verif.SortKeys.C164_unstable"
   ],
   "note": "Comparisons are strict weak orderings; every stable routine that meets its documentation, also different ones. With SortCustom it is false (C164_unstable)."
  },
  {
   "property": "C165",
   "status": "partial",
   "theorems": [
    "Verif.MapUpd.C165_refuted",
    "Verif.MapUpd.C165_own_key",
    "Verif.MapUpd.C165_partial",
    "Verif.MapUpd.C165_locked",
    "Verif.MapUpd.C165_count",
    "Verif.MapUpd.C165_no_race",
    "Verif.MapUpd.C165_can_step",
    "Verif.MapUpd.C165_ends"
   ],
   "note": "False of the code: the methods are safe one by one, but an update made of Get and Set can be lost (C165_refuted, two goroutines count to 1). Proved: nothing is lost for a key that one goroutine updates (C165_own_key, C165_partial), or behind a mutex of the program (C165_locked); without, counts end up between one more than at the start and all (C165_count). No race, no deadlock, an end."
  },
  {
   "property": "C166",
   "status": "proved",
   "theorems": [
    "Verif.MapProg.C166_atomic",
    "Verif.MapProg.C166_from",
    "Verif.MapProg.C166_rest",
    "Verif.MapProg.C166_sequential",
    "Verif.MapProg.C166_stuck",
    "Verif.MapProg.C166_ends"
   ],
   "note": "Through a general theorem on programs that use an object behind a sync.RWMutex (Verif/Conc/Client.lean). A program is any local state with the next call and what its result does; goroutines share nothing but the map. Assumes == is symmetric and transitive (NaN keys are allowed)."
  },
  {
   "property": "C167",
   "status": "partial",
   "theorems": [
    "Verif.MapCache.C167_refuted",
    "Verif.MapCache.C167_partial",
    "Verif.MapCache.C167_once",
    "Verif.MapCache.C167_drops",
    "Verif.MapCache.C167_get",
    "Verif.MapCache.C167_ends",
    "Verif.MapCache.C167_twice"
   ],
   "note": "False when entries are deleted meanwhile: between Has and Get the entry can go, and Get returns the zero value (C167_refuted). Proved: without Delete and Clear all values are right and each goroutine computes a value at most once (C167_partial, C167_once); with them values are right or zero (C167_drops); with Get alone, computing on the zero value, all values are right whatever is deleted (C167_get)."
  },
  {
   "property": "C168",
   "status": "partial",
   "theorems": [
    "Verif.MapLoop.C168_refuted",
    "Verif.MapLoop.C168_partial",
    "Verif.MapLoop.C168_once",
    "Verif.MapLoop.C168_kept",
    "Verif.MapLoop.C168_ends"
   ],
   "note": "False: other goroutines can Set between the Gets, and the loop finds a mixture that was never in the map (C168_refuted). Proved: the keys are those of one moment, each value is that of a later moment, in order (C168_partial); each key is found once (C168_once); what no call touches while the loop runs is found exactly (C168_kept); loops end when the others do (C168_ends)."
  },
  {
   "property": "C169",
   "status": "proved",
   "theorems": [
    "Verif.SklLoop.C169_loop",
    "Verif.SklLoop.C169_no_panic",
    "Verif.SklLoop.C169_ends",
    "Verif.SklLoop.C169_bound",
    "Verif.SklLoop.C169_missed"
   ],
   "note": "The mutex is held for one call at a time. The others run any programs without Clear (C110 is about iterators and Clear). C169_missed is a run that shows why the claim speaks of keys that were in the map all the time: a key set ahead of the iterator can be missed."
  },
  {
   "property": "C170",
   "status": "proved",
   "theorems": [
    "Verif.ShareProg.C170_atomic",
    "Verif.ShareProg.C170_stuck",
    "Verif.ShareProg.C170_ends",
    "Verif.ShareProg.C170_atomic_ord",
    "Verif.ShareProg.C170_stuck_ord",
    "Verif.ShareProg.C170_ends_ord",
    "Verif.ShareProg.C170_wait"
   ],
   "note": "Through the general theorem on programs that use an object behind a sync.RWMutex (Verif/Conc/Client.lean). A program is any local state with the next call and what its result does. Key types have a lawful order (no NaN)."
  },
  {
   "property": "C171",
   "status": "proved",
   "theorems": [
    "Verif.PoolProg.C171_atomic",
    "Verif.PoolProg.C171_stuck",
    "Verif.PoolProg.C171_entries",
    "Verif.PoolProg.C171_all",
    "Verif.PoolProg.C171_shared",
    "Verif.PoolProg.C171_get",
    "Verif.PoolProg.C171_stop"
   ],
   "note": "Composition of the pool (C48-C53, C126), the concurrent map (C106) and programs over an object behind a lock (C166). C171_atomic and C171_stuck are for any object behind an RWMutex and any handler programs. C171_stop takes it as given that handlers return and has no preheated workers, for which a pool may never get back to 0 workers (C126)."
  },
  {
   "property": "C172",
   "status": "proved",
   "theorems": [
    "Verif.CritSec.C172_serial",
    "Verif.CritSec.C172_stuck",
    "Verif.CritSec.C172_ends",
    "Verif.CritSec.C172_invariant",
    "Verif.CritSec.C172_bank",
    "Verif.CritSec.C172_make",
    "Verif.CritSec.C172_serial_ord",
    "Verif.CritSec.C172_stuck_ord",
    "Verif.CritSec.C172_ends_ord",
    "Verif.CritSec.C172_stack",
    "Verif.CritSec.C172_apart"
   ],
   "note": "Programs are arbitrary; that a section for reading makes only calls that read is a hypothesis (Honest). The mutex is sync.RWMutex as documented. C172_apart shows that a lock around each single call is not enough. Fairness of the mutex is not needed; C172_ends is for programs whose number of calls is bounded."
  },
  {
   "property": "C173",
   "status": "proved",
   "theorems": [
    "Verif.WorkMap.C173_atomic",
    "Verif.WorkMap.C173_stuck",
    "Verif.WorkMap.C173_ends",
    "Verif.WorkMap.C173_safe",
    "Verif.WorkMap.C173_worker_ends",
    "Verif.WorkMap.C173_done",
    "Verif.WorkMap.C173_found",
    "Verif.WorkMap.C173_reached"
   ],
   "note": "The first three theorems are for any number of objects of any kinds and any programs; a goroutine makes one call at a time and no call uses another object. The stack has a mutex of the program around every call. Result function f is pure; for C173_found equal keys have equal results."
  },
  {
   "property": "C174",
   "status": "proved",
   "theorems": [
    "Verif.PassText.C174_text",
    "Verif.PassText.C174_same",
    "Verif.PassText.C174_known",
    "Verif.PassText.C174_hash",
    "Verif.PassText.C174_match"
   ],
   "note": "fmt.Sprint of a []byte is modelled from package fmt (decimal bytes in brackets). Equal texts do not mean equal bytes: bytes after the record and the number of an unknown algorithm are not shown; an example has both. Verify looks at neither. Parameter.Match and MatchS have one model."
  },
  {
   "property": "C175",
   "status": "proved",
   "theorems": [
    "Verif.MapFair.C175_syncmap",
    "Verif.MapFair.C175_atomic",
    "Verif.MapFair.C175_sorted",
    "Verif.MapFair.C175_handed",
    "Verif.MapFair.C175_needs_preference",
    "Verif.MapFair.C175_schedules"
   ],
   "note": "Liveness over endless executions. Assumed of the runtime: a goroutine inside a call that can go on again and again does go on, and sync.RWMutex lets no reader pass a blocked writer (its documentation). C175_needs_preference shows that the second assumption is used; C175_schedules that the two exclude no finite schedule. The waking of readers inside Unlock is a step of each reader."
  },
  {
   "property": "C176",
   "status": "proved",
   "theorems": [
    "Verif.MapFlag.C176_visible",
    "Verif.MapFlag.C176_seen",
    "Verif.MapFlag.C176_all",
    "Verif.MapFlag.C176_poll"
   ],
   "note": "Same executions and fairness as C175. The key that is asked for has to be == the key that is stored; Delete of an equal key and Clear must not be called. An example has an execution that meets the hypotheses and whose first answer is no."
  },
  {
   "property": "C177",
   "status": "proved",
   "theorems": [
    "Verif.ConvServe.C177_linearizable",
    "Verif.ConvServe.C177_no_race",
    "Verif.ConvServe.C177_all_return",
    "Verif.ConvServe.C177_served"
   ],
   "note": "Types are concrete (interface types: C63) and converters do not call the registry (C90). The registry may start with any history of registrations, so that of init.go as well. Converters are total functions or nil; the steps of their work are a parameter. Examples have a fair execution that meets all hypotheses and two converters at work at the same time."
  },
  {
   "property": "C178",
   "status": "proved",
   "theorems": [
    "Verif.CloseServe.C178_linearizable",
    "Verif.CloseServe.C178_same",
    "Verif.CloseServe.C178_alone",
    "Verif.CloseServe.C178_all_return",
    "Verif.CloseServe.C178_covers",
    "Verif.CloseServe.C178_reported"
   ],
   "note": "Closers are effects on a world of their own that return an error or nil; they do not panic (C94) and do not use the manager (C91). The mutex lets every goroutine that waits for ever in at some time (that is the fairness, as for C175). An example has a fair execution that meets all hypotheses, with an Append that comes too late for a running Close."
  },
  {
   "property": "C179",
   "status": "partial",
   "theorems": [
    "Verif.SklPage.C179_refuted",
    "Verif.SklPage.C179_again",
    "Verif.SklPage.C179_partial",
    "Verif.SklPage.C179_careful",
    "Verif.SklPage.C179_pages",
    "Verif.SklPage.C179_unique",
    "Verif.SklPage.C179_missed_nothing",
    "Verif.SklPage.C179_ends"
   ],
   "note": "False of the code: Seek of a key that has been deleted leaves the iterator at the beginning, so the next page repeats what was read (C179_again). Proved: right pages as long as the last key of each page is still there; right pages in any case for a program that looks at ok and leaves out smaller keys (C179_careful); what right pages have in common (C179_pages, C179_ends) and that they are unique; the simple program misses nothing. Set, Del and Clear may be called between the pages, not while a page is read (C163, C169 are about that)."
  },
  {
   "property": "C180",
   "status": "proved",
   "theorems": [
    "Verif.SklPrio.C180_linearizable",
    "Verif.SklPrio.C180_once",
    "Verif.SklPrio.C180_all_return",
    "Verif.SklPrio.C180_first",
    "Verif.SklPrio.C180_order",
    "Verif.SklPrio.C180_served"
   ],
   "note": "The map is used behind a sync.Mutex (unlocked with defer); each call of the queue (Get and Set, or Iterator, Next and Del) is one step under the lock. Keys of a totally ordered type (no NaN). C180_served needs more pop calls than there are calls that put in smaller keys: an entry can wait for ever when smaller keys keep coming."
  },
  {
   "property": "C181",
   "status": "partial",
   "theorems": [
    "Verif.BitAlloc.C181_refuted",
    "Verif.BitAlloc.C181_limit_partial",
    "Verif.BitAlloc.C181_linearizable",
    "Verif.BitAlloc.C181_exclusive",
    "Verif.BitAlloc.C181_none",
    "Verif.BitAlloc.C181_all_return"
   ],
   "note": "False of the code: Set of a bit at or above the width does nothing, so with a limit above the width the same number is handed out again and again (C181_refuted). Proved: for a limit up to the width, and for the program that asks IsFull first, at any width, with a sync.Mutex whose Unlock is deferred; every call is one step under the lock."
  },
  {
   "property": "C182",
   "status": "proved",
   "theorems": [
    "Verif.UserStore.C182_latest",
    "Verif.UserStore.C182_sound",
    "Verif.UserStore.C182_right",
    "Verif.UserStore.C182_wrong",
    "Verif.UserStore.C182_all_return"
   ],
   "note": "For every key derivation function with keys of the length asked for (argon2 is a parameter) and every random source that fills its buffer, failing ones included; every goroutine makes the map calls that its requests need. The random source and the KDF are outside the model; records are not changed in place."
  },
  {
   "property": "C183",
   "status": "partial",
   "theorems": [
    "Verif.PassChange.C183_refuted",
    "Verif.PassChange.C183_sound_partial",
    "Verif.PassChange.C183_after_partial",
    "Verif.PassChange.C183_apart_partial",
    "Verif.PassChange.C183_mutex_partial",
    "Verif.PassChange.C183_mutex_winner",
    "Verif.PassChange.C183_mutex_refused",
    "Verif.PassChange.C183_mutex_ends"
   ],
   "note": "False of the code: Get and Set of the map are two calls, so two changes that both look up the old record before either stores a new one both go through (C183_refuted). Proved: a change goes through only with a password that may have been the current one when it was looked up; of two changes that do not overlap only one goes through; and under a mutex that the program holds during each change, of any number of goroutines at most one goes through, under every schedule, its own new password is the one that is let in afterwards, and all come to an end."
  }
 ]
}

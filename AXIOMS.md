# Axioms behind each property theorem

Written by `tools/axioms.py` from `#print axioms`. Do not edit by hand.

| Property | Theorem | Axioms |
|---|---|---|
| C01 | `Verif.Skl.C01_finite_map` | propext, Classical.choice, Quot.sound |
| C01 | `Verif.Skl.C01_len_unique` | propext, Classical.choice, Quot.sound |
| C02 | `Verif.Skl.C02_enumeration` | propext, Classical.choice, Quot.sound |
| C03 | `Verif.Skl.C03_seek` | propext, Classical.choice, Quot.sound |
| C04 | `Verif.Skl.C04_refuted` | propext, Classical.choice, Quot.sound |
| C04 | `Verif.Skl.C04_partial` | propext, Classical.choice, Quot.sound |
| C05 | `Verif.Skl.C05_iteration_under_modification` | propext, Classical.choice, Quot.sound |
| C05 | `Verif.Skl.C05_calls_return` | propext, Classical.choice, Quot.sound |
| C05 | `Verif.Skl.C05_isNext_unique` | none |
| C05 | `Verif.Skl.C05_deleted` | propext, Classical.choice, Quot.sound |
| C05 | `Verif.Skl.C05_passed_over` | propext, Classical.choice, Quot.sound |
| C06 | `Verif.Skl.C06_refuted` | propext, Quot.sound |
| C06 | `Verif.Skl.C06_partial` | propext, Classical.choice, Quot.sound |
| C07 | `Verif.Skl.C07_generator` | propext, Classical.choice, Quot.sound |
| C07 | `Verif.Skl.C07_root_state` | propext, Quot.sound |
| C07 | `Verif.Skl.C07_draws` | propext, Classical.choice, Quot.sound |
| C07 | `Verif.Skl.C07_drawn_unique` | propext |
| C07 | `Verif.Skl.C07_half` | propext, Classical.choice, Quot.sound |
| C08 | `Verif.Skl.C08_string` | propext, Classical.choice, Quot.sound |
| C09 | `Verif.Ord.C09_ordmap_finite_map` | propext, Classical.choice, Quot.sound |
| C10 | `Verif.Ord.C10_ordmap_enumeration` | propext, Classical.choice, Quot.sound |
| C10 | `Verif.MapSpec.visit_record` | propext |
| C11 | `Verif.SyncMap.C11_linearizable` | propext, Classical.choice, Quot.sound |
| C11 | `Verif.SyncMap.C11_no_deadlock` | propext, Classical.choice, Quot.sound |
| C11 | `Verif.SyncMap.C11_ends` | propext, Classical.choice, Quot.sound |
| C11 | `Verif.SyncMap.C11_all_return` | propext, Classical.choice, Quot.sound |
| C12 | `Verif.SyncMap.C12_no_race` | propext, Classical.choice, Quot.sound |
| C13 | `Verif.Linked.Queue.C13_refuted` | propext |
| C13 | `Verif.Linked.Queue.C13_partial` | propext, Classical.choice, Quot.sound |
| C13 | `Verif.Linked.Queue.C13_other_calls` | propext |
| C13 | `Verif.Linked.Queue.C13_fresh_partial` | propext, Classical.choice, Quot.sound |
| C13 | `Verif.Linked.Queue.C13_fresh_other_calls` | propext |
| C14 | `Verif.Linked.Stack.C14_refuted` | propext |
| C14 | `Verif.Linked.Stack.C14_partial` | propext, Classical.choice, Quot.sound |
| C14 | `Verif.Linked.Stack.C14_other_calls` | propext |
| C15 | `Verif.Linked.Deque.C15_refuted` | propext |
| C15 | `Verif.Linked.Deque.C15_partial` | propext, Classical.choice, Quot.sound |
| C15 | `Verif.DequeEnd.C15_fresh_partial` | propext, Classical.choice, Quot.sound |
| C15 | `Verif.DequeEnd.C15_other_end` | propext, Classical.choice, Quot.sound |
| C15 | `Verif.DequeEnd.C15_other_end_push` | propext, Classical.choice, Quot.sound |
| C16 | `Verif.Linked.LList.C16_refuted` | propext |
| C16 | `Verif.Linked.LList.C16_partial` | propext, Classical.choice, Quot.sound |
| C16 | `Verif.ListExact.C16_exact` | propext, Classical.choice, Quot.sound |
| C16 | `Verif.ListExact.C16_no_hang` | propext, Classical.choice, Quot.sound |
| C16 | `Verif.ListExact.C16_no_panic` | propext, Classical.choice, Quot.sound |
| C17 | `Verif.Ring.C17_refuted` | propext, Classical.choice, Quot.sound |
| C17 | `Verif.Ring.C17_exact` | propext, Classical.choice, Quot.sound |
| C17 | `Verif.Ring.C17_partial` | propext, Classical.choice, Quot.sound |
| C18 | `Verif.SliceC.C18_slice_stack` | propext, Classical.choice, Quot.sound |
| C19 | `Verif.SliceC.C19_slice_list` | propext, Classical.choice, Quot.sound |
| C19 | `Verif.SliceC.C19_visits_unique` | propext, Classical.choice, Quot.sound |
| C20 | `Verif.Slicex.C20_get_set` | propext, Classical.choice, Quot.sound |
| C21 | `Verif.Slicex.C21_refuted` | propext, Classical.choice, Quot.sound |
| C21 | `Verif.Slicex.C21_partial` | propext, Classical.choice, Quot.sound |
| C21 | `Verif.Slicex.C21_noClash` | propext, Quot.sound |
| C21 | `Verif.Slicex.C21_insert_cut_delete` | propext, Classical.choice, Quot.sound |
| C22 | `Verif.Slicex.C22_deque` | propext, Classical.choice, Quot.sound |
| C23 | `Verif.Slicex.C23_copy_independent` | propext, Classical.choice, Quot.sound |
| C24 | `Verif.Slicex.C24_refuted` | propext, Quot.sound |
| C24 | `Verif.Slicex.C24_reverse` | propext, Classical.choice, Quot.sound |
| C24 | `Verif.Slicex.C24_rotate_partial` | propext, Classical.choice, Quot.sound |
| C24 | `Verif.Slicex.C24_rotate_undo` | propext, Classical.choice, Quot.sound |
| C25 | `Verif.Slicex.C25_filter` | propext, Classical.choice, Quot.sound |
| C25 | `Verif.Slicex.C25_indexOf` | propext, Classical.choice, Quot.sound |
| C25 | `Verif.Slicex.C25_contains` | propext, Quot.sound |
| C25 | `Verif.Slicex.C25_each` | propext, Quot.sound |
| C26 | `Verif.Slicex.C26_refuted` | propext |
| C26 | `Verif.Slicex.C26_split_partial` | propext, Classical.choice, Quot.sound |
| C26 | `Verif.Slicex.C26_batch` | propext, Classical.choice, Quot.sound |
| C27 | `Verif.Slicex.C27_refuted` | propext |
| C27 | `Verif.Slicex.C27_partial` | propext, Classical.choice, Quot.sound |
| C28 | `Verif.Slicex.C28_slice` | propext, Classical.choice, Quot.sound |
| C28 | `Verif.Slicex.C28_extend` | propext, Classical.choice, Quot.sound |
| C28 | `Verif.Slicex.C28_clear` | propext, Quot.sound |
| C28 | `Verif.Slicex.C28_repeat` | propext, Classical.choice, Quot.sound |
| C28 | `Verif.Slicex.C28_deleteReplace` | propext, Classical.choice, Quot.sound |
| C29 | `Verif.Slicex.C29_shuffle` | propext, Classical.choice, Quot.sound |
| C30 | `Verif.Slicex.C30_refuted` | propext |
| C30 | `Verif.Slicex.C30_partial` | propext, Classical.choice, Quot.sound |
| C31 | `Verif.Slicex.C31_join` | propext, Quot.sound |
| C32 | `Verif.BitSet.C32_set` | propext, Classical.choice, Quot.sound |
| C32 | `Verif.BitSet.C32_clear` | propext, Classical.choice, Quot.sound |
| C32 | `Verif.BitSet.C32_toggle` | propext, Classical.choice, Quot.sound |
| C32 | `Verif.BitSet.C32_test` | propext, Classical.choice, Quot.sound |
| C33 | `Verif.BitSet.C33_whole_set` | propext, Classical.choice, Quot.sound |
| C34 | `Verif.Functional.C34_match` | none |
| C34 | `Verif.Functional.C34_match_any` | none |
| C35 | `Verif.Lazy.C35_lazy` | propext, Classical.choice, Quot.sound |
| C35 | `Verif.Lazy.C35_same_value` | propext, Classical.choice, Quot.sound |
| C35 | `Verif.Lazy.C35_result_stable` | propext, Classical.choice, Quot.sound |
| C35 | `Verif.Lazy.C35_no_race` | propext, Classical.choice, Quot.sound |
| C35 | `Verif.Lazy.C35_no_deadlock` | propext, Classical.choice, Quot.sound |
| C36 | `Verif.Pool.C36_exclusive` | propext, Classical.choice, Quot.sound |
| C36 | `Verif.Pool.C36_one_holder` | propext, Classical.choice, Quot.sound |
| C36 | `Verif.Pool.C36_panic` | none |
| C36 | `Verif.Pool.C36_zero_pool` | none |
| C37 | `Verif.Lockx.C37_refuted` | propext, Classical.choice, Quot.sound |
| C37 | `Verif.Lockx.C37_refuted_self` | propext, Classical.choice, Quot.sound |
| C37 | `Verif.Lockx.C37_partial` | propext, Classical.choice, Quot.sound |
| C38 | `Verif.Trunc.C38_fixed_floor` | propext, Classical.choice, Quot.sound |
| C38 | `Verif.Trunc.C38_monday` | propext, Classical.choice, Quot.sound |
| C38 | `Verif.Trunc.C38_compose` | propext, Classical.choice, Quot.sound |
| C38 | `Verif.Trunc.C38_range_needed` | propext, Quot.sound |
| C39 | `Verif.Trunc.C39_refuted` | propext, Quot.sound |
| C39 | `Verif.Trunc.C39_any_period_partial` | propext, Classical.choice, Quot.sound |
| C39 | `Verif.Trunc.C39_nonpositive` | propext, Classical.choice, Quot.sound |
| C40 | `Verif.Trunc.C40_year` | propext, Classical.choice, Quot.sound |
| C40 | `Verif.Trunc.C40_month` | propext, Classical.choice, Quot.sound |
| C40 | `Verif.Trunc.C40_range_needed` | propext, Classical.choice, Quot.sound |
| C41 | `Verif.Sleep.C41_one_sleeper` | propext, Classical.choice, Quot.sound |
| C41 | `Verif.Sleep.C41_busy` | propext, Classical.choice, Quot.sound |
| C41 | `Verif.Sleep.C41_reusable` | propext, Classical.choice, Quot.sound |
| C41 | `Verif.Sleep.C41_return` | propext, Classical.choice, Quot.sound |
| C42 | `Verif.Sleep.C42_refuted` | propext, Quot.sound |
| C42 | `Verif.Sleep.C42_refuted_overlap` | propext, Quot.sound |
| C42 | `Verif.Sleep.C42_partial` | propext, Classical.choice, Quot.sound |
| C42 | `Verif.Sleep.C42_no_sleeper` | propext, Classical.choice, Quot.sound |
| C42 | `Verif.Sleep.C42_sleeper_seen` | propext, Classical.choice, Quot.sound |
| C42 | `Verif.Sleep.C42_no_spurious` | propext, Classical.choice, Quot.sound |
| C43 | `Verif.Sleep.C43_refuted` | propext, Classical.choice, Quot.sound |
| C43 | `Verif.Sleep.C43_partial` | propext, Classical.choice, Quot.sound |
| C44 | `Verif.Inter.C44_sound` | propext, Classical.choice, Quot.sound |
| C45 | `Verif.Inter.C45_full_agreement` | propext, Classical.choice, Quot.sound |
| C45 | `Verif.Inter.C45_few` | propext, Quot.sound |
| C46 | `Verif.Inter.C46_refuted` | propext |
| C46 | `Verif.Inter.C46_order_partial` | propext, Quot.sound |
| C46 | `Verif.Inter.C46_identical_partial` | propext, Classical.choice, Quot.sound |
| C47 | `Verif.Diff.C47_readings` | propext |
| C47 | `Verif.Diff.C47_diff` | propext, Classical.choice, Quot.sound |
| C48 | `Verif.GoPool.C48_exactly_once` | propext, Classical.choice, Quot.sound |
| C48 | `Verif.GoPool.C48_eventually` | propext, Classical.choice, Quot.sound |
| C48 | `Verif.GoPool.C48_run_returns` | propext, Classical.choice, Quot.sound |
| C49 | `Verif.GoPool.C49_exactly_once` | propext, Classical.choice, Quot.sound |
| C49 | `Verif.GoPool.C49_eventually` | propext, Classical.choice, Quot.sound |
| C49 | `Verif.GoPool.C49_run_returns` | propext, Classical.choice, Quot.sound |
| C50 | `Verif.GoPool.C50_counts` | propext, Classical.choice, Quot.sound |
| C50 | `Verif.GoPool.C50_bound_partial` | propext, Classical.choice, Quot.sound |
| C50 | `Verif.GoPool.C50_bound_max` | propext, Classical.choice, Quot.sound |
| C50 | `Verif.GoPool.C50_refuted` | propext, Classical.choice, Quot.sound |
| C51 | `Verif.GoPool.C51_rejects` | propext, Classical.choice, Quot.sound |
| C51 | `Verif.GoPool.C51_run_returns` | propext, Quot.sound |
| C51 | `Verif.GoPool.C51_comes_to_rest` | propext, Classical.choice, Quot.sound |
| C51 | `Verif.GoPool.C51_all_handled` | propext, Classical.choice, Quot.sound |
| C51 | `Verif.GoPool.C51_no_workers_partial` | propext, Classical.choice, Quot.sound |
| C51 | `Verif.GoPool.C51_refuted` | propext, Classical.choice, Quot.sound |
| C52 | `Verif.GoPool.C52_exact` | propext, Classical.choice, Quot.sound |
| C52 | `Verif.GoPool.C52_prefix` | propext, Quot.sound |
| C53 | `Verif.GoPool.C53_validates` | propext |
| C53 | `Verif.GoPool.C53_preheat_partial` | propext, Quot.sound |
| C53 | `Verif.GoPool.C53_refuted` | propext, Classical.choice, Quot.sound |
| C80 | `Verif.GoPool.C80_accepts_partial` | propext, Classical.choice, Quot.sound |
| C80 | `Verif.GoPool.C80_refuted` | propext, Classical.choice, Quot.sound |
| C80 | `Verif.GoPool.C80_full_refuted` | propext, Classical.choice, Quot.sound |
| C81 | `Verif.GoPool.C81_stop_returns_partial` | propext, Classical.choice, Quot.sound |
| C81 | `Verif.GoPool.C81_again` | propext, Quot.sound |
| C81 | `Verif.GoPool.C81_refuted` | propext, Quot.sound |
| C54 | `Verif.KillSig.C54_once_per_signal` | propext, Classical.choice, Quot.sound |
| C54 | `Verif.KillSig.C54_closed_after_first` | propext, Classical.choice, Quot.sound |
| C54 | `Verif.KillSig.C54_can_close` | propext, Classical.choice, Quot.sound |
| C54 | `Verif.KillSig.C54_needs_signal` | none |
| C54 | `Verif.KillSig.C54_no_crash_partial` | propext, Classical.choice, Quot.sound |
| C54 | `Verif.KillSig.C54_second_crashes` | propext, Classical.choice, Quot.sound |
| C54 | `Verif.KillSig.C54_refuted` | none |
| C55 | `Verif.Param.C55_left_to_right` | propext, Classical.choice, Quot.sound |
| C55 | `Verif.Param.C55_compose` | propext |
| C56 | `Verif.Using.C56_closes_all` | propext, Quot.sound |
| C56 | `Verif.Using.C56_errors` | propext, Classical.choice, Quot.sound |
| C56 | `Verif.Using.C56_panics` | propext, Quot.sound |
| C56 | `Verif.Using.C56_order` | propext, Quot.sound |
| C60 | `Verif.CloseMgr.C60_close` | propext, Quot.sound |
| C60 | `Verif.CloseMgr.C60_order` | propext, Quot.sound |
| C61 | `Verif.CloseMgr.C61_empty_partial` | propext, Quot.sound |
| C61 | `Verif.CloseMgr.C61_wrapped` | propext, Quot.sound |
| C61 | `Verif.CloseMgr.C61_refuted` | propext |
| C57 | `Verif.Decouple.C57_safe_partial` | propext, Classical.choice, Quot.sound |
| C57 | `Verif.Decouple.C57_refuted` | propext, Classical.choice, Quot.sound |
| C58 | `Verif.Decouple.C58_fifo_partial` | propext, Classical.choice, Quot.sound |
| C58 | `Verif.Decouple.C58_refuted` | propext, Quot.sound |
| C58 | `Verif.Decouple.C58_refuted_hang` | propext, Quot.sound |
| C58 | `Verif.Decouple.C58_refuted_order` | propext, Quot.sound |
| C59 | `Verif.Decouple.C59_drop_partial` | propext, Classical.choice, Quot.sound |
| C59 | `Verif.Decouple.C59_refuted` | propext, Quot.sound |
| C59 | `Verif.Decouple.C59_size_zero` | propext |
| C82 | `Verif.Decouple.C82_next_returns_partial` | propext, Classical.choice, Quot.sound |
| C82 | `Verif.Decouple.C82_refuted` | propext, Classical.choice, Quot.sound |
| C62 | `Verif.ConvReg.C62_latest_registration` | propext, Quot.sound |
| C63 | `Verif.ConvReg.C63_no_collision_partial` | propext, Quot.sound |
| C63 | `Verif.ConvReg.C63_refuted` | propext |
| C63 | `Verif.ConvReg.C63_refuted_into` | propext |
| C64 | `Verif.ConvNum.C64_signed_round_trip` | propext, Classical.choice, Quot.sound |
| C64 | `Verif.ConvNum.C64_unsigned_round_trip` | propext, Classical.choice, Quot.sound |
| C65 | `Verif.ConvNum.C65_total_partial` | propext, Classical.choice, Quot.sound |
| C65 | `Verif.ConvNum.C65_overflow_first` | propext, Classical.choice, Quot.sound |
| C65 | `Verif.ConvNum.C65_cases` | propext, Quot.sound |
| C65 | `Verif.ConvNum.C65_refuted` | propext, Classical.choice, Quot.sound |
| C66 | `Verif.ConvNum.C66_congruent` | propext, Classical.choice, Quot.sound |
| C66 | `Verif.ConvNum.C66_widening_round_trip` | propext, Classical.choice, Quot.sound |
| C66 | `Verif.ConvNum.C66_bool` | propext, Classical.choice, Quot.sound |
| C66 | `Verif.ConvNum.C66_string_bool` | propext, Classical.choice, Quot.sound |
| C66 | `Verif.ConvNum.C66_string_bool_two` | propext, Classical.choice, Quot.sound |
| C67 | `Verif.ConvUtf8.C67_bytes` | none |
| C67 | `Verif.ConvUtf8.C67_runes_round_trip` | propext, Classical.choice, Quot.sound |
| C67 | `Verif.ConvUtf8.C67_string_round_trip` | propext, Classical.choice, Quot.sound |
| C67 | `Verif.ConvUtf8.C67_invalid_bytes` | propext, Classical.choice, Quot.sound |
| C68 | `Verif.PassHash.C68_round_trip` | propext, Classical.choice, Quot.sound |
| C69 | `Verif.PassHash.C69_no_panic` | propext, Classical.choice, Quot.sound |
| C69 | `Verif.PassHash.C69_accessor_needs_validate` | propext |
| C69 | `Verif.PassHash.C69_base64` | propext, Classical.choice, Quot.sound |
| C70 | `Verif.PassHash.C70_hash_verify` | propext, Classical.choice, Quot.sound |
| C70 | `Verif.PassHash.C70_bad_level` | propext, Classical.choice, Quot.sound |
| C70 | `Verif.PassHash.C70_bad_rand` | propext, Quot.sound |
| C71 | `Verif.PassHash.C71_accepts_iff` | propext, Classical.choice, Quot.sound |
| C71 | `Verif.PassHash.C71_rejects` | propext, Classical.choice, Quot.sound |
| C71 | `Verif.PassHash.C71_truncated` | propext, Classical.choice, Quot.sound |
| C71 | `Verif.PassHash.C71_bytes_only` | propext, Classical.choice, Quot.sound |
| C72 | `Verif.PassHash.C72_encoding` | propext, Classical.choice, Quot.sound |
| C72 | `Verif.PassHash.C72_hash` | propext, Classical.choice, Quot.sound |
| C72 | `Verif.PassHash.C72_hash_error` | propext, Classical.choice, Quot.sound |
| C72 | `Verif.PassHash.C72_verify` | propext, Classical.choice, Quot.sound |
| C72 | `Verif.PassHash.C72_other_characters_partial` | propext, Classical.choice, Quot.sound |
| C72 | `Verif.PassHash.C72_newlines` | propext, Classical.choice, Quot.sound |
| C72 | `Verif.PassHash.C72_decodes_iff` | propext, Classical.choice, Quot.sound |
| C72 | `Verif.PassHash.C72_refuted` | propext, Classical.choice, Quot.sound |
| C83 | `Verif.PassHash.C83_one_form_partial` | propext, Classical.choice, Quot.sound |
| C83 | `Verif.PassHash.C83_refuted` | propext, Classical.choice, Quot.sound |
| C83 | `Verif.PassHash.C83_hash_refuted` | propext, Classical.choice, Quot.sound |
| C73 | `Verif.Aes.C73_round_trip` | propext, Classical.choice, Quot.sound |
| C73 | `Verif.Aes.C73_ragged` | propext, Classical.choice, Quot.sound |
| C73 | `Verif.Aes.C73_chain` | propext, Classical.choice, Quot.sound |
| C74 | `Verif.Aes.C74_round_trip` | propext, Classical.choice, Quot.sound |
| C74 | `Verif.Aes.C74_counter_mode` | propext, Classical.choice, Quot.sound |
| C74 | `Verif.Aes.C74_no_iv` | propext, Classical.choice, Quot.sound |
| C75 | `Verif.Aes.C75_round_trip_partial` | propext, Classical.choice, Quot.sound |
| C75 | `Verif.Aes.C75_refuted` | propext, Classical.choice, Quot.sound |
| C75 | `Verif.Aes.C75_accepts_iff` | propext, Classical.choice, Quot.sound |
| C75 | `Verif.Aes.C75_tag` | propext, Classical.choice, Quot.sound |
| C75 | `Verif.Aes.C75_counter_mode` | propext, Classical.choice, Quot.sound |
| C76 | `Verif.Aes.C76_panics_iff` | propext, Classical.choice, Quot.sound |
| C76 | `Verif.Aes.C76_refuted` | propext, Classical.choice, Quot.sound |
| C76 | `Verif.Aes.C76_long_partial` | propext, Classical.choice, Quot.sound |
| C84 | `Verif.Aes.C84_counters` | propext, Classical.choice, Quot.sound |
| C84 | `Verif.Aes.C84_malleable` | propext, Classical.choice, Quot.sound |
| C84 | `Verif.Aes.C84_integrity_refuted` | propext, Classical.choice, Quot.sound |
| C77 | `Verif.Bcrypt.C77_encrypt` | propext, Quot.sound |
| C77 | `Verif.Bcrypt.C77_decrypt` | propext, Quot.sound |
| C77 | `Verif.Bcrypt.C77_collisions` | propext, Quot.sound |
| C77 | `Verif.Bcrypt.C77_refuted` | propext, Quot.sound |
| C77 | `Verif.Bcrypt.C77_distinct_partial` | propext, Quot.sound |
| C78 | `Verif.Search.C78_any` | propext, Quot.sound |
| C78 | `Verif.Search.C78_consistent` | propext, Classical.choice, Quot.sound |
| C78 | `Verif.Search.C78_sorted` | propext, Classical.choice, Quot.sound |
| C78 | `Verif.Search.C78_found` | propext, Classical.choice, Quot.sound |
| C78 | `Verif.Search.C78_float_refuted` | propext, Classical.choice, Quot.sound |
| C79 | `Verif.SortX.C79_sort_partial` | propext |
| C79 | `Verif.SortX.C79_others` | propext |
| C79 | `Verif.SortX.C79_stable` | propext, Classical.choice, Quot.sound |
| C79 | `Verif.SortX.C79_reverse_ignored` | propext, Quot.sound |
| C79 | `Verif.SortX.C79_refuted` | propext, Classical.choice, Quot.sound |
| C79 | `Verif.SortX.C79_isSorted_custom` | propext, Quot.sound |
| C79 | `Verif.SortX.C79_isSorted` | propext, Quot.sound |
| C79 | `Verif.SortX.C79_float_refuted` | propext |
| C85 | `Verif.ConvInit.C85_builtin` | propext, Classical.choice, Quot.sound |
| C85 | `Verif.ConvInit.C85_all_basic` | propext |
| C86 | `Verif.ConvFloat.C86_nearest` | propext, Classical.choice, Quot.sound |
| C86 | `Verif.ConvFloat.C86_exact` | propext, Classical.choice, Quot.sound |
| C86 | `Verif.ConvFloat.C86_round_trip_partial` | propext, Classical.choice, Quot.sound |
| C86 | `Verif.ConvFloat.C86_monotone` | propext, Classical.choice, Quot.sound |
| C86 | `Verif.ConvFloat.C86_truncates` | propext, Classical.choice, Quot.sound |
| C86 | `Verif.ConvFloat.C86_floats` | propext, Classical.choice, Quot.sound |
| C86 | `Verif.ConvFloat.C86_formats` | propext, Classical.choice, Quot.sound |
| C86 | `Verif.ConvFloat.C86_bool` | propext, Classical.choice, Quot.sound |
| C86 | `Verif.ConvFloat.C86_refuted` | propext, Classical.choice, Quot.sound |
| C86 | `Verif.ConvFloat.C86_refuted_max` | propext, Classical.choice, Quot.sound |
| C87 | `Verif.ConvFloat.C87_round_trip` | propext, Classical.choice, Quot.sound |
| C87 | `Verif.ConvFloat.C87_nearest_partial` | propext, Classical.choice, Quot.sound |
| C87 | `Verif.ConvFloat.C87_integers` | propext, Classical.choice, Quot.sound |
| C87 | `Verif.ConvFloat.C87_refuted_any` | propext, Classical.choice, Quot.sound |
| C87 | `Verif.ConvFloat.C87_refuted` | propext, Classical.choice, Quot.sound |
| C88 | `Verif.OrdMod.C88_partial` | propext, Classical.choice, Quot.sound |
| C88 | `Verif.OrdMod.C88_ends` | propext, Classical.choice, Quot.sound |
| C88 | `Verif.OrdMod.C88_log` | propext, Quot.sound |
| C88 | `Verif.OrdMod.C88_filter` | propext, Classical.choice, Quot.sound |
| C88 | `Verif.OrdMod.C88_clear` | propext, Classical.choice, Quot.sound |
| C88 | `Verif.OrdMod.C88_refuted` | propext, Quot.sound |
| C88 | `Verif.OrdMod.C88_refuted_clear` | propext, Classical.choice, Quot.sound |
| C88 | `Verif.OrdMod.C88_endless` | propext, Classical.choice, Quot.sound |
| C89 | `Verif.SliceMod.C89_loop` | propext, Classical.choice, Quot.sound |
| C89 | `Verif.SliceMod.C89_partial` | propext, Classical.choice, Quot.sound |
| C89 | `Verif.SliceMod.C89_filter_partial` | propext, Classical.choice, Quot.sound |
| C89 | `Verif.SliceMod.C89_map` | propext, Classical.choice, Quot.sound |
| C89 | `Verif.SliceMod.C89_shift` | propext |
| C89 | `Verif.SliceMod.C89_refuted` | propext, Classical.choice, Quot.sound |
| C89 | `Verif.SliceMod.C89_filter_panic` | propext |
| C90 | `Verif.ConvConc.C90_exclusion` | propext, Classical.choice, Quot.sound |
| C90 | `Verif.ConvConc.C90_lookups` | propext, Classical.choice, Quot.sound |
| C90 | `Verif.ConvConc.C90_unchanged` | propext, Classical.choice, Quot.sound |
| C90 | `Verif.ConvConc.C90_partial` | propext, Classical.choice, Quot.sound |
| C90 | `Verif.ConvConc.C90_calls` | propext, Quot.sound |
| C90 | `Verif.ConvConc.C90_nested_partial` | propext, Classical.choice, Quot.sound |
| C90 | `Verif.ConvConc.C90_change_in_converter` | propext, Classical.choice, Quot.sound |
| C90 | `Verif.ConvConc.C90_lookup_in_converter` | propext, Classical.choice, Quot.sound |
| C90 | `Verif.ConvConc.C90_refuted` | propext, Quot.sound |
| C90 | `Verif.ConvConc.C90_refuted_nested` | propext, Quot.sound |
| C91 | `Verif.CloseConc.C91_sequential` | propext, Classical.choice, Quot.sound |
| C91 | `Verif.CloseConc.C91_released` | propext, Classical.choice, Quot.sound |
| C91 | `Verif.CloseConc.C91_program` | propext, Quot.sound |
| C91 | `Verif.CloseConc.C91_partial` | propext, Classical.choice, Quot.sound |
| C91 | `Verif.CloseConc.C91_ends_partial` | propext, Classical.choice, Quot.sound |
| C91 | `Verif.CloseConc.C91_reentrant` | propext, Classical.choice, Quot.sound |
| C91 | `Verif.CloseConc.C91_refuted` | propext, Classical.choice, Quot.sound |
| C91 | `Verif.CloseConc.C91_refuted_crossed` | propext, Quot.sound |
| C92 | `Verif.LazyConc.C92_once` | propext, Classical.choice, Quot.sound |
| C92 | `Verif.LazyConc.C92_values` | propext, Classical.choice, Quot.sound |
| C92 | `Verif.LazyConc.C92_solution` | propext, Quot.sound |
| C92 | `Verif.LazyConc.C92_partial` | propext, Classical.choice, Quot.sound |
| C92 | `Verif.LazyConc.C92_ends_partial` | propext, Classical.choice, Quot.sound |
| C92 | `Verif.LazyConc.C92_reentrant` | propext, Classical.choice, Quot.sound |
| C92 | `Verif.LazyConc.C92_refuted` | propext, Quot.sound |
| C92 | `Verif.LazyConc.C92_refuted_crossed` | propext, Quot.sound |
| C93 | `Verif.DecPanic.C93_no_new_states` | propext |
| C93 | `Verif.DecPanic.C93_safe` | propext, Classical.choice, Quot.sound |
| C93 | `Verif.DecPanic.C93_shown_again` | propext, Classical.choice, Quot.sound |
| C94 | `Verif.ClosePanic.C94_refuted` | none |
| C94 | `Verif.ClosePanic.C94_close_partial` | propext |
| C94 | `Verif.ClosePanic.C94_usable` | propext |
| C94 | `Verif.ClosePanic.C94_using_partial` | propext, Classical.choice, Quot.sound |
| C95 | `Verif.SlicePanic.C95_refuted` | propext |
| C95 | `Verif.SlicePanic.C95_exact_partial` | propext, Classical.choice, Quot.sound |
| C95 | `Verif.SlicePanic.C95_all_kept` | propext, Classical.choice, Quot.sound |
| C95 | `Verif.SlicePanic.C95_rest_kept` | propext, Classical.choice, Quot.sound |
| C95 | `Verif.SlicePanic.C95_returns` | propext, Classical.choice, Quot.sound |
| C96 | `Verif.SyncPanic.C96_refuted` | propext, Classical.choice, Quot.sound |
| C96 | `Verif.SyncPanic.C96_which` | propext, Quot.sound |
| C96 | `Verif.SyncPanic.C96_safe` | propext, Classical.choice, Quot.sound |
| C96 | `Verif.SyncPanic.C96_exact` | propext, Classical.choice, Quot.sound |
| C96 | `Verif.SyncPanic.C96_writer_panics` | propext, Classical.choice, Quot.sound |
| C96 | `Verif.SyncPanic.C96_reader_panics` | propext, Classical.choice, Quot.sound |
| C96 | `Verif.SyncPanic.C96_partial` | propext, Classical.choice, Quot.sound |
| C97 | `Verif.SklAny.C97_any_keys` | propext, Classical.choice, Quot.sound |
| C97 | `Verif.SklAny.C97_kept` | propext, Classical.choice, Quot.sound |
| C97 | `Verif.SklAny.C97_unequal` | none |
| C97 | `Verif.SklAny.C97_origin` | propext, Quot.sound |
| C98 | `Verif.OrdAny.C98_refuted` | propext, Quot.sound |
| C98 | `Verif.OrdAny.C98_partial` | propext, Classical.choice, Quot.sound |
| C98 | `Verif.OrdAny.C98_never_found` | propext, Classical.choice, Quot.sound |
| C99 | `Verif.SyncAny.C99_refuted` | propext |
| C99 | `Verif.SyncAny.C99_partial` | propext, Classical.choice, Quot.sound |
| C99 | `Verif.SyncAny.C99_stuck` | propext, Quot.sound |
| C100 | `Verif.DequeEnd.C100_refuted` | propext, Quot.sound |
| C100 | `Verif.DequeEnd.C100_partial` | propext, Classical.choice, Quot.sound |
| C101 | `Verif.AutoCmd.C101_refuted` | propext |
| C101 | `Verif.AutoCmd.C101_partial` | propext, Quot.sound |
| C101 | `Verif.AutoCmd.C101_count_partial` | propext, Quot.sound |
| C102 | `Verif.AutoCmd.C102_outside` | propext, Quot.sound |
| C103 | `Verif.PoolRace.C103_only` | propext, Classical.choice, Quot.sound |
| C103 | `Verif.PoolRace.C103_partial` | propext, Classical.choice, Quot.sound |
| C103 | `Verif.PoolRace.C103_refuted` | propext, Classical.choice, Quot.sound |
| C103 | `Verif.PoolRace.C103_refuted_stop` | propext, Quot.sound |
| C104 | `Verif.DecMem.C104_delivers_partial` | propext, Classical.choice, Quot.sound |
| C104 | `Verif.DecMem.C104_no_race_partial` | propext, Classical.choice, Quot.sound |
| C104 | `Verif.DecMem.C104_changes_partial` | propext, Classical.choice, Quot.sound |
| C104 | `Verif.DecMem.C104_refuted` | propext, Classical.choice, Quot.sound |
| C105 | `Verif.ListMod.C105_removes_partial` | propext, Classical.choice, Quot.sound |
| C105 | `Verif.ListMod.C105_exact_partial` | propext, Classical.choice, Quot.sound |
| C105 | `Verif.ListMod.C105_throw_out` | propext, Classical.choice, Quot.sound |
| C105 | `Verif.ListMod.C105_refuted` | propext, Quot.sound |
| C105 | `Verif.ListMod.C105_refuted_removed` | propext, Quot.sound |
| C105 | `Verif.ListMod.C105_forever` | propext, Classical.choice, Quot.sound |
| C106 | `Verif.SyncKey.C106_linearizable` | propext, Classical.choice, Quot.sound |
| C106 | `Verif.SyncKey.C106_no_race` | propext, Classical.choice, Quot.sound |
| C106 | `Verif.SyncKey.C106_all_return` | propext, Classical.choice, Quot.sound |
| C107 | `Verif.PoolIdle.C107_partial` | propext, Classical.choice, Quot.sound |
| C107 | `Verif.PoolIdle.C107_exact` | propext, Classical.choice, Quot.sound |
| C107 | `Verif.PoolIdle.C107_only_idle` | propext, Classical.choice, Quot.sound |
| C107 | `Verif.PoolIdle.C107_refuted` | propext, Classical.choice, Quot.sound |
| C108 | `Verif.DecMulti.C108_partial` | propext, Classical.choice, Quot.sound |
| C108 | `Verif.DecMulti.C108_lost` | propext, Quot.sound |
| C108 | `Verif.DecMulti.C108_hang` | propext, Quot.sound |
| C108 | `Verif.DecMulti.C108_refuted` | propext, Quot.sound |
| C109 | `Verif.InterExact.C109_partial` | propext, Classical.choice, Quot.sound |
| C109 | `Verif.InterExact.C109_even` | propext, Classical.choice, Quot.sound |
| C109 | `Verif.InterExact.C109_refuted` | propext, Classical.choice, Quot.sound |
| C110 | `Verif.SklClear.C110_partial` | propext, Classical.choice, Quot.sound |
| C110 | `Verif.SklClear.C110_stale` | propext, Classical.choice, Quot.sound |
| C110 | `Verif.SklClear.C110_refuted` | propext, Classical.choice, Quot.sound |
| C111 | `Verif.SliceParts.C111_partial` | propext, Classical.choice, Quot.sound |
| C111 | `Verif.SliceParts.C111_earlier` | propext, Classical.choice, Quot.sound |
| C111 | `Verif.SliceParts.C111_push` | propext, Classical.choice, Quot.sound |
| C111 | `Verif.SliceParts.C111_rotate_refuted` | propext |
| C111 | `Verif.SliceParts.C111_refuted` | propext |
| C112 | `Verif.DecOrder.C112_partial` | propext, Classical.choice, Quot.sound |
| C112 | `Verif.DecOrder.C112_hang` | propext, Classical.choice, Quot.sound |
| C112 | `Verif.DecOrder.C112_order` | propext, Classical.choice, Quot.sound |
| C112 | `Verif.DecOrder.C112_refuted` | propext, Classical.choice, Quot.sound |
| C113 | `Verif.SleepRace.C113_partial` | propext, Classical.choice, Quot.sound |
| C113 | `Verif.SleepRace.C113_one_waker` | propext, Classical.choice, Quot.sound |
| C113 | `Verif.SleepRace.C113_sleep_wakeup` | propext, Quot.sound |
| C113 | `Verif.SleepRace.C113_sleep_again` | propext, Quot.sound |
| C113 | `Verif.SleepRace.C113_two_wakers` | propext |
| C113 | `Verif.SleepRace.C113_refuted` | propext |
| C114 | `Verif.SleepUntil.C114_partial` | propext, Classical.choice, Quot.sound |
| C114 | `Verif.SleepUntil.C114_time` | propext, Classical.choice, Quot.sound |
| C114 | `Verif.SleepUntil.C114_wrapped` | propext, Classical.choice, Quot.sound |
| C114 | `Verif.SleepUntil.C114_refuted` | propext, Classical.choice, Quot.sound |
| C115 | `Verif.SleepUntil.C115_partial` | propext, Classical.choice, Quot.sound |
| C115 | `Verif.SleepUntil.C115_timer` | propext, Classical.choice, Quot.sound |
| C115 | `Verif.SleepUntil.C115_not_late` | propext, Classical.choice, Quot.sound |
| C115 | `Verif.SleepUntil.C115_custom` | propext, Classical.choice, Quot.sound |
| C115 | `Verif.SleepUntil.C115_refuted` | propext, Classical.choice, Quot.sound |
| C116 | `Verif.AesCbc.C116_partial` | propext, Classical.choice, Quot.sound |
| C116 | `Verif.AesCbc.C116_blocks` | propext, Classical.choice, Quot.sound |
| C116 | `Verif.AesCbc.C116_same_iv` | propext, Classical.choice, Quot.sound |
| C116 | `Verif.AesCbc.C116_any_change` | propext, Classical.choice, Quot.sound |
| C116 | `Verif.AesCbc.C116_refuted` | propext, Classical.choice, Quot.sound |
| C117 | `Verif.ConvMem.C117_partial` | propext, Quot.sound |
| C117 | `Verif.ConvMem.C117_content` | propext, Quot.sound |
| C117 | `Verif.ConvMem.C117_shared` | propext, Quot.sound |
| C117 | `Verif.ConvMem.C117_shared_runes` | propext, Quot.sound |
| C117 | `Verif.ConvMem.C117_refuted` | propext, Quot.sound |
| C118 | `Verif.ZeroVal.C118_partial` | propext, Classical.choice, Quot.sound |
| C118 | `Verif.ZeroVal.C118_slice_stack` | propext, Classical.choice, Quot.sound |
| C118 | `Verif.ZeroVal.C118_queue` | propext |
| C118 | `Verif.ZeroVal.C118_deque` | propext |
| C118 | `Verif.ZeroVal.C118_stack` | propext |
| C118 | `Verif.ZeroVal.C118_list` | propext |
| C118 | `Verif.ZeroVal.C118_ring` | propext |
| C118 | `Verif.ZeroVal.C118_ring_made` | propext |
| C118 | `Verif.ZeroVal.C118_map_reads` | propext, Quot.sound |
| C118 | `Verif.ZeroVal.C118_map_cleared` | propext, Quot.sound |
| C118 | `Verif.ZeroVal.C118_map_set` | propext, Quot.sound |
| C118 | `Verif.ZeroVal.C118_skl` | propext, Quot.sound |
| C118 | `Verif.ZeroVal.C118_ord` | propext |
| C118 | `Verif.ZeroVal.C118_refuted` | propext, Quot.sound |
| C119 | `Verif.Dsx.C119_stack_iff` | propext, Classical.choice, Quot.sound |
| C119 | `Verif.Dsx.C119_queue_partial` | propext, Classical.choice, Quot.sound |
| C119 | `Verif.Dsx.C119_queue_iff` | propext, Classical.choice, Quot.sound |
| C119 | `Verif.Dsx.C119_list_partial` | propext, Classical.choice, Quot.sound |
| C119 | `Verif.Dsx.C119_refuted` | propext, Classical.choice, Quot.sound |
| C120 | `Verif.CloseNest.C120_ends` | propext, Classical.choice, Quot.sound |
| C120 | `Verif.CloseNest.C120_partial` | propext, Classical.choice, Quot.sound |
| C120 | `Verif.CloseNest.C120_flat` | propext, Quot.sound |
| C120 | `Verif.CloseNest.C120_empty` | propext, Classical.choice, Quot.sound |
| C120 | `Verif.CloseNest.C120_using` | propext, Classical.choice, Quot.sound |
| C120 | `Verif.CloseNest.C120_refuted` | propext, Classical.choice, Quot.sound |
| C121 | `Verif.SortSearch.C121_partial` | propext, Classical.choice, Quot.sound |
| C121 | `Verif.SortSearch.C121_unique` | propext, Quot.sound |
| C121 | `Verif.SortSearch.C121_reverse` | propext, Classical.choice, Quot.sound |
| C121 | `Verif.SortSearch.C121_custom` | propext, Classical.choice, Quot.sound |
| C121 | `Verif.SortSearch.C121_refuted` | propext, Classical.choice, Quot.sound |
| C121 | `Verif.SortSearch.C121_zeros` | propext, Classical.choice, Quot.sound |
| C122 | `Verif.LazyPanic.C122_partial` | propext |
| C122 | `Verif.LazyPanic.C122_no_panic` | none |
| C122 | `Verif.LazyPanic.C122_value_unique` | none |
| C122 | `Verif.LazyPanic.C122_poisoned` | propext |
| C122 | `Verif.LazyPanic.C122_refuted` | propext |
| C123 | `Verif.DecNone.C123_count` | propext, Classical.choice, Quot.sound |
| C123 | `Verif.DecNone.C123_partial` | propext, Classical.choice, Quot.sound |
| C123 | `Verif.DecNone.C123_settled` | propext, Classical.choice, Quot.sound |
| C123 | `Verif.DecNone.C123_one_slot` | propext, Classical.choice, Quot.sound |
| C123 | `Verif.DecNone.C123_refuted` | propext, Classical.choice, Quot.sound |
| C123 | `Verif.DecNone.C123_refuted_turns` | propext, Classical.choice, Quot.sound |
| C124 | `Verif.DecAlone.C124_iff` | propext, Classical.choice, Quot.sound |
| C124 | `Verif.DecAlone.C124_partial` | propext, Classical.choice, Quot.sound |
| C124 | `Verif.DecAlone.C124_one_way` | propext, Quot.sound |
| C124 | `Verif.DecAlone.C124_writer` | propext, Classical.choice, Quot.sound |
| C124 | `Verif.DecAlone.C124_reader` | propext, Classical.choice, Quot.sound |
| C124 | `Verif.DecAlone.C124_refuted` | propext, Classical.choice, Quot.sound |
| C125 | `Verif.PoolFair.C125_outcome` | propext, Classical.choice, Quot.sound |
| C125 | `Verif.PoolFair.C125_run_returns` | propext, Classical.choice, Quot.sound |
| C125 | `Verif.PoolFair.C125_handled` | propext, Classical.choice, Quot.sound |
| C126 | `Verif.PoolDrain.C126_partial` | propext, Classical.choice, Quot.sound |
| C126 | `Verif.PoolDrain.C126_left` | propext, Classical.choice, Quot.sound |
| C126 | `Verif.PoolDrain.C126_stop_returns` | propext, Classical.choice, Quot.sound |
| C126 | `Verif.PoolDrain.C126_once` | propext, Classical.choice, Quot.sound |
| C126 | `Verif.PoolDrain.C126_all_left` | propext, Classical.choice, Quot.sound |
| C126 | `Verif.PoolDrain.C126_refuted` | propext, Classical.choice, Quot.sound |
| C127 | `Verif.SliceAll.C127_partial` | propext, Classical.choice, Quot.sound |
| C127 | `Verif.SliceAll.C127_step` | propext, Classical.choice, Quot.sound |
| C127 | `Verif.SliceAll.C127_determined` | propext, Classical.choice, Quot.sound |
| C127 | `Verif.SliceAll.C127_refuted` | propext, Classical.choice, Quot.sound |
| C128 | `Verif.SearchCost.C128_calls` | propext, Classical.choice, Quot.sound |
| C128 | `Verif.SearchCost.C128_tight` | propext, Classical.choice, Quot.sound |
| C128 | `Verif.SearchCost.C128_same` | propext, Quot.sound |
| C128 | `Verif.SearchCost.C128_search` | propext, Classical.choice, Quot.sound |
| C129 | `Verif.SleepFair.C129_partial` | propext, Classical.choice, Quot.sound |
| C129 | `Verif.SleepFair.C129_timed` | propext, Classical.choice, Quot.sound |
| C129 | `Verif.SleepFair.C129_wakeup_returns` | propext, Classical.choice, Quot.sound |
| C129 | `Verif.SleepFair.C129_refuted` | propext, Classical.choice, Quot.sound |
| C130 | `Verif.DecFair.C130_partial` | propext, Classical.choice, Quot.sound |
| C130 | `Verif.DecFair.C130_lockfree` | propext, Classical.choice, Quot.sound |
| C130 | `Verif.DecFair.C130_starved` | propext, Classical.choice, Quot.sound |
| C130 | `Verif.DecFair.C130_refuted` | propext, Classical.choice, Quot.sound |
| C130 | `Verif.DecFair.C130_refuted_marks` | propext, Classical.choice, Quot.sound |
| C131 | `Verif.InterMove.C131_clock` | propext, Classical.choice, Quot.sound |
| C131 | `Verif.InterMove.C131_noties` | propext, Classical.choice, Quot.sound |
| C131 | `Verif.InterMove.C131_overflow` | propext |
| C132 | `Verif.LinkSrc.C132_partial` | propext, Classical.choice, Quot.sound |
| C132 | `Verif.LinkSrc.C132_refuted` | propext, Quot.sound |
| C132 | `Verif.LinkSrc.C132_drain` | propext, Classical.choice, Quot.sound |
| C133 | `Verif.CloseFind.C133_partial` | propext, Classical.choice, Quot.sound |
| C133 | `Verif.CloseFind.C133_first` | propext, Classical.choice, Quot.sound |
| C133 | `Verif.CloseFind.C133_compare` | propext, Classical.choice, Quot.sound |
| C133 | `Verif.CloseFind.C133_refuted` | propext |
| C134 | `Verif.PoolSerial.C134_partial` | propext, Classical.choice, Quot.sound |
| C134 | `Verif.PoolSerial.C134_max` | propext, Classical.choice, Quot.sound |
| C134 | `Verif.PoolSerial.C134_serial` | propext, Classical.choice, Quot.sound |
| C134 | `Verif.PoolSerial.C134_covers` | propext, Classical.choice, Quot.sound |
| C134 | `Verif.PoolSerial.C134_refuted` | propext, Classical.choice, Quot.sound |
| C135 | `Verif.ShuffleFair.C135_fair` | propext, Classical.choice, Quot.sound |
| C135 | `Verif.ShuffleFair.C135_unique` | propext, Classical.choice, Quot.sound |
| C136 | `Verif.TruncCal.C136_order` | propext, Classical.choice, Quot.sound |
| C136 | `Verif.TruncCal.C136_convex` | propext, Classical.choice, Quot.sound |
| C136 | `Verif.TruncCal.C136_nest` | propext, Classical.choice, Quot.sound |
| C136 | `Verif.TruncCal.C136_weeks` | propext |
| C137 | `Verif.SklCost.C137_few` | propext, Classical.choice, Quot.sound |
| C138 | `Verif.PassCost.C138_verify` | propext, Classical.choice, Quot.sound |
| C138 | `Verif.PassCost.C138_garbage` | propext, Classical.choice, Quot.sound |
| C138 | `Verif.PassCost.C138_base64` | propext, Classical.choice, Quot.sound |
| C138 | `Verif.PassCost.C138_hash` | propext, Classical.choice, Quot.sound |
| C138 | `Verif.PassCost.C138_password` | propext, Classical.choice, Quot.sound |
| C139 | `Verif.SortedSet.C139_collection` | propext, Classical.choice, Quot.sound |
| C139 | `Verif.SortedSet.C139_history` | propext, Classical.choice, Quot.sound |
| C139 | `Verif.SortedSet.C139_set` | propext, Classical.choice, Quot.sound |
| C139 | `Verif.SortedSet.C139_sorts` | propext, Classical.choice, Quot.sound |
| C140 | `Verif.Retain.C140_skl` | propext, Classical.choice, Quot.sound |
| C140 | `Verif.Retain.C140_stack` | propext, Classical.choice, Quot.sound |
| C140 | `Verif.Retain.C140_queue_partial` | propext, Classical.choice, Quot.sound |
| C140 | `Verif.Retain.C140_list_partial` | propext, Classical.choice, Quot.sound |
| C140 | `Verif.Retain.C140_ring` | propext, Classical.choice, Quot.sound |
| C140 | `Verif.Retain.C140_slice` | propext, Classical.choice, Quot.sound |
| C140 | `Verif.Retain.C140_refuted` | propext, Classical.choice, Quot.sound |
| C141 | `Verif.ConvChain.C141_partial` | propext, Classical.choice, Quot.sound |
| C141 | `Verif.ConvChain.C141_any_way` | propext, Classical.choice, Quot.sound |
| C141 | `Verif.ConvChain.C141_bool` | propext, Classical.choice, Quot.sound |
| C141 | `Verif.ConvChain.C141_ints` | propext, Classical.choice, Quot.sound |
| C141 | `Verif.ConvChain.C141_string_value` | propext, Classical.choice, Quot.sound |
| C141 | `Verif.ConvChain.C141_string` | propext, Classical.choice, Quot.sound |
| C141 | `Verif.ConvChain.C141_through` | propext, Classical.choice, Quot.sound |
| C141 | `Verif.ConvChain.C141_floats` | propext, Classical.choice, Quot.sound |
| C141 | `Verif.ConvChain.C141_double_rounding` | propext, Classical.choice, Quot.sound |
| C141 | `Verif.ConvChain.C141_refuted` | propext, Classical.choice, Quot.sound |
| C142 | `Verif.PoolTree.C142_once` | propext, Classical.choice, Quot.sound |
| C142 | `Verif.PoolTree.C142_complete` | propext, Classical.choice, Quot.sound |
| C142 | `Verif.PoolTree.C142_visited` | propext, Classical.choice, Quot.sound |
| C142 | `Verif.PoolTree.C142_returns` | propext, Classical.choice, Quot.sound |
| C142 | `Verif.PoolTree.C142_ends` | propext, Classical.choice, Quot.sound |
| C143 | `Verif.ConvPanic.C143_exclusion` | propext, Classical.choice, Quot.sound |
| C143 | `Verif.ConvPanic.C143_lookups` | propext, Classical.choice, Quot.sound |
| C143 | `Verif.ConvPanic.C143_does` | propext, Quot.sound |
| C143 | `Verif.ConvPanic.C143_released` | propext, Classical.choice, Quot.sound |
| C143 | `Verif.ConvPanic.C143_usable` | propext, Classical.choice, Quot.sound |
| C143 | `Verif.ConvPanic.C143_ends` | propext, Classical.choice, Quot.sound |
| C143 | `Verif.ConvPanic.C143_nested` | propext, Classical.choice, Quot.sound |
| C144 | `Verif.SklShare.C144_linearizable` | propext, Classical.choice, Quot.sound |
| C144 | `Verif.SklShare.C144_no_race` | propext, Classical.choice, Quot.sound |
| C144 | `Verif.SklShare.C144_all_return` | propext, Classical.choice, Quot.sound |
| C144 | `Verif.SklShare.C144_set` | propext, Quot.sound |
| C144 | `Verif.SklShare.C144_without` | propext, Quot.sound |
| C145 | `Verif.KillMany.C145_order` | propext, Classical.choice, Quot.sound |
| C145 | `Verif.KillMany.C145_once` | propext, Classical.choice, Quot.sound |
| C145 | `Verif.KillMany.C145_ends` | propext, Classical.choice, Quot.sound |
| C145 | `Verif.KillMany.C145_all_closed` | propext, Classical.choice, Quot.sound |
| C145 | `Verif.KillMany.C145_reached` | propext, Classical.choice, Quot.sound |
| C145 | `Verif.KillMany.C145_circle` | propext, Classical.choice, Quot.sound |
| C145 | `Verif.KillMany.C145_exactly` | propext, Classical.choice, Quot.sound |
| C145 | `Verif.KillMany.C145_second` | propext, Classical.choice, Quot.sound |
| C146 | `Verif.SliceUndo.C146_undo` | propext, Classical.choice, Quot.sound |
| C146 | `Verif.SliceUndo.C146_back` | propext |
| C146 | `Verif.SliceUndo.C146_same_index` | propext, Classical.choice, Quot.sound |
| C147 | `Verif.InterTrue.C147_refuted` | propext, Classical.choice, Quot.sound |
| C147 | `Verif.InterTrue.C147_ends` | propext, Classical.choice, Quot.sound |
| C147 | `Verif.InterTrue.C147_bound` | propext, Classical.choice, Quot.sound |
| C147 | `Verif.InterTrue.C147_bound_tight` | propext, Classical.choice, Quot.sound |
| C147 | `Verif.InterTrue.C147_partial` | propext, Classical.choice, Quot.sound |
| C147 | `Verif.InterTrue.C147_noties` | propext, Classical.choice, Quot.sound |
| C147 | `Verif.InterTrue.C147_apart` | propext, Classical.choice, Quot.sound |
| C148 | `Verif.Demo.C148_output` | propext, Classical.choice, Quot.sound |
| C148 | `Verif.Demo.C148_hex` | propext, Classical.choice, Quot.sound |
| C148 | `Verif.Demo.C148_unique` | propext, Quot.sound |
| C149 | `Verif.RingPair.C149_refuted` | propext |
| C149 | `Verif.RingPair.C149_race` | propext |
| C149 | `Verif.RingPair.C149_worn` | propext, Quot.sound |
| C149 | `Verif.RingPair.C149_exact` | propext, Classical.choice, Quot.sound |
| C149 | `Verif.RingPair.C149_partial` | propext, Classical.choice, Quot.sound |
| C149 | `Verif.RingPair.C149_fifo` | propext, Classical.choice, Quot.sound |
| C149 | `Verif.RingPair.C149_elements` | propext, Classical.choice, Quot.sound |
| C149 | `Verif.RingPair.C149_writers` | propext |
| C149 | `Verif.RingPair.C149_no_waiting` | propext, Classical.choice, Quot.sound |
| C150 | `Verif.SliceSide.C150_refuted` | propext |
| C150 | `Verif.SliceSide.C150_partial` | propext, Classical.choice, Quot.sound |
| C150 | `Verif.SliceSide.C150_call` | propext, Classical.choice, Quot.sound |
| C150 | `Verif.SliceSide.C150_lists` | propext, Classical.choice, Quot.sound |
| C150 | `Verif.SliceSide.C150_program` | propext, Classical.choice, Quot.sound |
| C150 | `Verif.SliceSide.C150_next` | propext, Classical.choice, Quot.sound |
| C151 | `Verif.SklMean.C151_mean` | propext, Classical.choice, Quot.sound |
| C151 | `Verif.SklMean.C151_runs` | propext, Classical.choice, Quot.sound |
| C151 | `Verif.SklMean.C151_heights` | propext, Classical.choice, Quot.sound |
| C151 | `Verif.SklMean.C151_height` | propext, Classical.choice, Quot.sound |
| C151 | `Verif.SklMean.C151_generator` | propext, Classical.choice, Quot.sound |
| C152 | `Verif.Footprint.C152_skl` | propext, Classical.choice, Quot.sound |
| C152 | `Verif.Footprint.C152_stack` | propext, Classical.choice, Quot.sound |
| C152 | `Verif.Footprint.C152_queue_partial` | propext, Classical.choice, Quot.sound |
| C152 | `Verif.Footprint.C152_list_partial` | propext, Classical.choice, Quot.sound |
| C152 | `Verif.Footprint.C152_deque_partial` | propext, Classical.choice, Quot.sound |
| C152 | `Verif.Footprint.C152_refuted` | propext, Classical.choice, Quot.sound |
| C153 | `Verif.OrdShare.C153_linearizable` | propext, Classical.choice, Quot.sound |
| C153 | `Verif.OrdShare.C153_no_race` | propext, Classical.choice, Quot.sound |
| C153 | `Verif.OrdShare.C153_all_return` | propext, Classical.choice, Quot.sound |
| C153 | `Verif.OrdShare.C153_set` | propext, Quot.sound |
| C153 | `Verif.OrdShare.C153_without` | propext, Quot.sound |
| C154 | `Verif.PoolUse.C154_handed_on` | propext, Classical.choice, Quot.sound |
| C154 | `Verif.PoolUse.C154_reset` | propext, Classical.choice, Quot.sound |
| C154 | `Verif.PoolUse.C154_reads` | propext, Classical.choice, Quot.sound |
| C154 | `Verif.PoolUse.C154_no_panic` | propext |
| C154 | `Verif.PoolUse.C154_get` | propext |
| C154 | `Verif.PoolUse.C154_reset_needed` | propext, Quot.sound |
| C154 | `Verif.PoolUse.C154_single_put_needed` | propext, Quot.sound |
| C154 | `Verif.PoolUse.C154_no_use_after_put_needed` | propext, Quot.sound |
| C154 | `Verif.PoolUse.C154_no_nil_needed` | propext, Quot.sound |
| C154 | `Verif.PoolUse.C154_init_needed` | propext, Quot.sound |
| C155 | `Verif.PoolFull.C155_account` | propext, Classical.choice, Quot.sound |
| C155 | `Verif.PoolFull.C155_partial` | propext, Classical.choice, Quot.sound |
| C155 | `Verif.PoolFull.C155_accepts` | propext, Classical.choice, Quot.sound |
| C155 | `Verif.PoolFull.C155_progress` | propext, Classical.choice, Quot.sound |
| C155 | `Verif.PoolFull.C155_after_handler` | propext, Classical.choice, Quot.sound |
| C155 | `Verif.PoolFull.C155_while_collecting` | propext, Classical.choice, Quot.sound |
| C155 | `Verif.PoolFull.C155_refuted` | propext, Classical.choice, Quot.sound |
| C156 | `Verif.SklTail.C156_tail` | propext, Classical.choice, Quot.sound |
| C156 | `Verif.SklTail.C156_rare` | propext, Classical.choice, Quot.sound |
| C156 | `Verif.SklTail.C156_history` | propext, Classical.choice, Quot.sound |
| C157 | `Verif.KillClose.C157_partial` | propext, Classical.choice, Quot.sound |
| C157 | `Verif.KillClose.C157_no_signal` | propext, Quot.sound |
| C157 | `Verif.KillClose.C157_one_signal` | propext, Classical.choice, Quot.sound |
| C157 | `Verif.KillClose.C157_live` | propext, Classical.choice, Quot.sound |
| C157 | `Verif.KillClose.C157_second_signal` | propext, Classical.choice, Quot.sound |
| C157 | `Verif.KillClose.C157_late` | propext, Quot.sound |
| C157 | `Verif.KillClose.C157_twice` | propext, Quot.sound |
| C157 | `Verif.KillClose.C157_refuted` | propext, Quot.sound |
| C158 | `Verif.HandOut.C158_partial` | propext, Classical.choice, Quot.sound |
| C158 | `Verif.HandOut.C158_stack` | propext, Classical.choice, Quot.sound |
| C158 | `Verif.HandOut.C158_ring` | propext, Classical.choice, Quot.sound |
| C158 | `Verif.HandOut.C158_linked` | propext, Classical.choice, Quot.sound |
| C158 | `Verif.HandOut.C158_refuted` | propext, Quot.sound |
| C158 | `Verif.HandOut.C158_all_return` | propext, Classical.choice, Quot.sound |
| C158 | `Verif.HandOut.C158_total` | propext |
| C158 | `Verif.HandOut.C158_without_defer` | propext, Classical.choice, Quot.sound |
| C158 | `Verif.HandOut.C158_panics` | propext, Classical.choice, Quot.sound |
| C159 | `Verif.SlicePar.C159_refuted` | propext |
| C159 | `Verif.SlicePar.C159_push` | propext |
| C159 | `Verif.SlicePar.C159_partial` | propext, Classical.choice, Quot.sound |
| C159 | `Verif.SlicePar.C159_no_race` | propext, Classical.choice, Quot.sound |
| C159 | `Verif.SlicePar.C159_never` | propext, Classical.choice, Quot.sound |
| C159 | `Verif.SlicePar.C159_elsewhere` | propext, Classical.choice, Quot.sound |
| C159 | `Verif.SlicePar.C159_ends` | propext, Classical.choice, Quot.sound |
| C159 | `Verif.SlicePar.C159_whole` | propext, Classical.choice, Quot.sound |
| C160 | `Verif.LazyAll.C160_refuted` | propext |
| C160 | `Verif.LazyAll.C160_partial` | propext, Classical.choice, Quot.sound |
| C160 | `Verif.LazyAll.C160_one_panic` | propext, Classical.choice, Quot.sound |
| C160 | `Verif.LazyAll.C160_once` | propext, Classical.choice, Quot.sound |
| C160 | `Verif.LazyAll.C160_value` | propext, Classical.choice, Quot.sound |
| C160 | `Verif.LazyAll.C160_no_panic` | propext, Classical.choice, Quot.sound |
| C160 | `Verif.LazyAll.C160_can_step` | propext, Classical.choice, Quot.sound |
| C160 | `Verif.LazyAll.C160_ends` | propext, Classical.choice, Quot.sound |
| C161 | `Verif.BitShare.C161_refuted` | propext, Classical.choice, Quot.sound |
| C161 | `Verif.BitShare.C161_race` | propext, Quot.sound |
| C161 | `Verif.BitShare.C161_readers` | propext, Classical.choice, Quot.sound |
| C161 | `Verif.BitShare.C161_named` | propext, Classical.choice, Quot.sound |
| C161 | `Verif.BitShare.C161_partial` | propext, Classical.choice, Quot.sound |
| C161 | `Verif.BitShare.C161_word` | propext, Classical.choice, Quot.sound |
| C161 | `Verif.BitShare.C161_no_race` | propext, Quot.sound |
| C161 | `Verif.BitShare.C161_uses` | propext, Quot.sound |
| C161 | `Verif.BitShare.C161_can_step` | propext, Classical.choice, Quot.sound |
| C161 | `Verif.BitShare.C161_ends` | propext, Classical.choice, Quot.sound |
| C162 | `Verif.CopyVal.C162_refuted` | propext |
| C162 | `Verif.CopyVal.C162_two_pushes` | propext |
| C162 | `Verif.CopyVal.C162_remove` | propext |
| C162 | `Verif.CopyVal.C162_shows` | propext, Quot.sound |
| C162 | `Verif.CopyVal.C162_partial` | propext, Classical.choice, Quot.sound |
| C162 | `Verif.CopyVal.C162_snapshots` | propext, Classical.choice, Quot.sound |
| C163 | `Verif.SklWeak.C163_weakly_consistent` | propext, Classical.choice, Quot.sound |
| C163 | `Verif.SklWeak.C163_returns` | propext, Classical.choice, Quot.sound |
| C163 | `Verif.SklWeak.C163_up` | propext, Classical.choice, Quot.sound |
| C163 | `Verif.SklWeak.C163_given` | propext, Classical.choice, Quot.sound |
| C163 | `Verif.SklWeak.C163_all` | propext, Classical.choice, Quot.sound |
| C163 | `Verif.SklWeak.C163_all_upto` | propext, Classical.choice, Quot.sound |
| C163 | `Verif.SklWeak.C163_ends` | propext, Classical.choice, Quot.sound |
| C163 | `Verif.SklWeak.C163_stale` | propext, Quot.sound |
| C164 | `Verif.SortKeys.C164_one_after_another` | propext, Quot.sound |
| C164 | `Verif.SortKeys.C164_two_keys` | propext, Quot.sound |
| C164 | `Verif.SortKeys.C164_unstable` | propext, Quot.sound |
| C165 | `Verif.MapUpd.C165_refuted` | propext, Quot.sound |
| C165 | `Verif.MapUpd.C165_own_key` | propext, Classical.choice, Quot.sound |
| C165 | `Verif.MapUpd.C165_partial` | propext, Classical.choice, Quot.sound |
| C165 | `Verif.MapUpd.C165_locked` | propext, Classical.choice, Quot.sound |
| C165 | `Verif.MapUpd.C165_count` | propext, Classical.choice, Quot.sound |
| C165 | `Verif.MapUpd.C165_no_race` | propext, Classical.choice, Quot.sound |
| C165 | `Verif.MapUpd.C165_can_step` | propext, Classical.choice, Quot.sound |
| C165 | `Verif.MapUpd.C165_ends` | propext, Classical.choice, Quot.sound |
| C166 | `Verif.MapProg.C166_atomic` | propext, Classical.choice, Quot.sound |
| C166 | `Verif.MapProg.C166_from` | propext, Classical.choice, Quot.sound |
| C166 | `Verif.MapProg.C166_rest` | propext, Classical.choice, Quot.sound |
| C166 | `Verif.MapProg.C166_sequential` | propext, Quot.sound |
| C166 | `Verif.MapProg.C166_stuck` | propext, Classical.choice, Quot.sound |
| C166 | `Verif.MapProg.C166_ends` | propext, Classical.choice, Quot.sound |
| C167 | `Verif.MapCache.C167_refuted` | propext, Quot.sound |
| C167 | `Verif.MapCache.C167_partial` | propext, Classical.choice, Quot.sound |
| C167 | `Verif.MapCache.C167_once` | propext, Classical.choice, Quot.sound |
| C167 | `Verif.MapCache.C167_drops` | propext, Classical.choice, Quot.sound |
| C167 | `Verif.MapCache.C167_get` | propext, Classical.choice, Quot.sound |
| C167 | `Verif.MapCache.C167_ends` | propext, Classical.choice, Quot.sound |
| C167 | `Verif.MapCache.C167_twice` | propext, Quot.sound |
| C168 | `Verif.MapLoop.C168_refuted` | propext, Classical.choice, Quot.sound |
| C168 | `Verif.MapLoop.C168_partial` | propext, Classical.choice, Quot.sound |
| C168 | `Verif.MapLoop.C168_once` | propext, Classical.choice, Quot.sound |
| C168 | `Verif.MapLoop.C168_kept` | propext, Classical.choice, Quot.sound |
| C168 | `Verif.MapLoop.C168_ends` | propext, Classical.choice, Quot.sound |
| C169 | `Verif.SklLoop.C169_loop` | propext, Classical.choice, Quot.sound |
| C169 | `Verif.SklLoop.C169_no_panic` | propext, Classical.choice, Quot.sound |
| C169 | `Verif.SklLoop.C169_ends` | propext, Classical.choice, Quot.sound |
| C169 | `Verif.SklLoop.C169_bound` | propext, Classical.choice, Quot.sound |
| C169 | `Verif.SklLoop.C169_missed` | propext, Classical.choice, Quot.sound |
| C170 | `Verif.ShareProg.C170_atomic` | propext, Classical.choice, Quot.sound |
| C170 | `Verif.ShareProg.C170_stuck` | propext, Classical.choice, Quot.sound |
| C170 | `Verif.ShareProg.C170_ends` | propext, Classical.choice, Quot.sound |
| C170 | `Verif.ShareProg.C170_atomic_ord` | propext, Classical.choice, Quot.sound |
| C170 | `Verif.ShareProg.C170_stuck_ord` | propext, Classical.choice, Quot.sound |
| C170 | `Verif.ShareProg.C170_ends_ord` | propext, Classical.choice, Quot.sound |
| C170 | `Verif.ShareProg.C170_wait` | propext, Classical.choice, Quot.sound |
| C171 | `Verif.PoolProg.C171_atomic` | propext, Classical.choice, Quot.sound |
| C171 | `Verif.PoolProg.C171_stuck` | propext, Classical.choice, Quot.sound |
| C171 | `Verif.PoolProg.C171_entries` | propext, Classical.choice, Quot.sound |
| C171 | `Verif.PoolProg.C171_all` | propext, Classical.choice, Quot.sound |
| C171 | `Verif.PoolProg.C171_shared` | propext, Classical.choice, Quot.sound |
| C171 | `Verif.PoolProg.C171_get` | propext, Classical.choice, Quot.sound |
| C171 | `Verif.PoolProg.C171_stop` | propext, Classical.choice, Quot.sound |
| C172 | `Verif.CritSec.C172_serial` | propext, Classical.choice, Quot.sound |
| C172 | `Verif.CritSec.C172_stuck` | propext, Classical.choice, Quot.sound |
| C172 | `Verif.CritSec.C172_ends` | propext, Classical.choice, Quot.sound |
| C172 | `Verif.CritSec.C172_invariant` | propext, Classical.choice, Quot.sound |
| C172 | `Verif.CritSec.C172_bank` | propext, Classical.choice, Quot.sound |
| C172 | `Verif.CritSec.C172_make` | propext, Classical.choice, Quot.sound |
| C172 | `Verif.CritSec.C172_serial_ord` | propext, Classical.choice, Quot.sound |
| C172 | `Verif.CritSec.C172_stuck_ord` | propext, Classical.choice, Quot.sound |
| C172 | `Verif.CritSec.C172_ends_ord` | propext, Classical.choice, Quot.sound |
| C172 | `Verif.CritSec.C172_stack` | propext, Classical.choice, Quot.sound |
| C172 | `Verif.CritSec.C172_apart` | propext, Classical.choice, Quot.sound |
| C173 | `Verif.WorkMap.C173_atomic` | propext, Classical.choice, Quot.sound |
| C173 | `Verif.WorkMap.C173_stuck` | propext, Classical.choice, Quot.sound |
| C173 | `Verif.WorkMap.C173_ends` | propext, Classical.choice, Quot.sound |
| C173 | `Verif.WorkMap.C173_safe` | propext, Classical.choice, Quot.sound |
| C173 | `Verif.WorkMap.C173_worker_ends` | propext, Classical.choice, Quot.sound |
| C173 | `Verif.WorkMap.C173_done` | propext, Classical.choice, Quot.sound |
| C173 | `Verif.WorkMap.C173_found` | propext, Classical.choice, Quot.sound |
| C173 | `Verif.WorkMap.C173_reached` | propext, Classical.choice, Quot.sound |
| C174 | `Verif.PassText.C174_text` | propext, Classical.choice, Quot.sound |
| C174 | `Verif.PassText.C174_same` | propext, Classical.choice, Quot.sound |
| C174 | `Verif.PassText.C174_known` | propext, Classical.choice, Quot.sound |
| C174 | `Verif.PassText.C174_hash` | propext, Classical.choice, Quot.sound |
| C174 | `Verif.PassText.C174_match` | propext, Classical.choice, Quot.sound |
| C175 | `Verif.MapFair.C175_syncmap` | propext, Classical.choice, Quot.sound |
| C175 | `Verif.MapFair.C175_atomic` | propext, Classical.choice, Quot.sound |
| C175 | `Verif.MapFair.C175_sorted` | propext, Classical.choice, Quot.sound |
| C175 | `Verif.MapFair.C175_handed` | propext, Classical.choice, Quot.sound |
| C175 | `Verif.MapFair.C175_needs_preference` | propext, Classical.choice, Quot.sound |
| C175 | `Verif.MapFair.C175_schedules` | propext, Classical.choice, Quot.sound |
| C176 | `Verif.MapFlag.C176_visible` | propext, Classical.choice, Quot.sound |
| C176 | `Verif.MapFlag.C176_seen` | propext, Classical.choice, Quot.sound |
| C176 | `Verif.MapFlag.C176_all` | propext, Classical.choice, Quot.sound |
| C176 | `Verif.MapFlag.C176_poll` | propext, Classical.choice, Quot.sound |
| C177 | `Verif.ConvServe.C177_linearizable` | propext, Classical.choice, Quot.sound |
| C177 | `Verif.ConvServe.C177_no_race` | propext, Classical.choice, Quot.sound |
| C177 | `Verif.ConvServe.C177_all_return` | propext, Classical.choice, Quot.sound |
| C177 | `Verif.ConvServe.C177_served` | propext, Classical.choice, Quot.sound |
| C178 | `Verif.CloseServe.C178_linearizable` | propext, Classical.choice, Quot.sound |
| C178 | `Verif.CloseServe.C178_same` | propext |
| C178 | `Verif.CloseServe.C178_alone` | propext, Classical.choice, Quot.sound |
| C178 | `Verif.CloseServe.C178_all_return` | propext, Classical.choice, Quot.sound |
| C178 | `Verif.CloseServe.C178_covers` | propext, Classical.choice, Quot.sound |
| C178 | `Verif.CloseServe.C178_reported` | propext, Classical.choice, Quot.sound |
| C179 | `Verif.SklPage.C179_refuted` | propext, Quot.sound |
| C179 | `Verif.SklPage.C179_again` | propext, Quot.sound |
| C179 | `Verif.SklPage.C179_partial` | propext, Classical.choice, Quot.sound |
| C179 | `Verif.SklPage.C179_careful` | propext, Classical.choice, Quot.sound |
| C179 | `Verif.SklPage.C179_pages` | propext, Classical.choice, Quot.sound |
| C179 | `Verif.SklPage.C179_unique` | propext, Classical.choice, Quot.sound |
| C179 | `Verif.SklPage.C179_missed_nothing` | propext, Classical.choice, Quot.sound |
| C179 | `Verif.SklPage.C179_ends` | propext, Classical.choice, Quot.sound |
| C180 | `Verif.SklPrio.C180_linearizable` | propext, Classical.choice, Quot.sound |
| C180 | `Verif.SklPrio.C180_once` | propext, Classical.choice, Quot.sound |
| C180 | `Verif.SklPrio.C180_all_return` | propext, Classical.choice, Quot.sound |
| C180 | `Verif.SklPrio.C180_first` | propext, Classical.choice, Quot.sound |
| C180 | `Verif.SklPrio.C180_order` | propext, Classical.choice, Quot.sound |
| C180 | `Verif.SklPrio.C180_served` | propext, Classical.choice, Quot.sound |
| C181 | `Verif.BitAlloc.C181_refuted` | propext, Quot.sound |
| C181 | `Verif.BitAlloc.C181_limit_partial` | propext, Classical.choice, Quot.sound |
| C181 | `Verif.BitAlloc.C181_linearizable` | propext, Classical.choice, Quot.sound |
| C181 | `Verif.BitAlloc.C181_exclusive` | propext, Classical.choice, Quot.sound |
| C181 | `Verif.BitAlloc.C181_none` | propext, Classical.choice, Quot.sound |
| C181 | `Verif.BitAlloc.C181_all_return` | propext, Classical.choice, Quot.sound |
| C182 | `Verif.UserStore.C182_latest` | propext, Classical.choice, Quot.sound |
| C182 | `Verif.UserStore.C182_sound` | propext, Classical.choice, Quot.sound |
| C182 | `Verif.UserStore.C182_right` | propext, Classical.choice, Quot.sound |
| C182 | `Verif.UserStore.C182_wrong` | propext, Classical.choice, Quot.sound |
| C182 | `Verif.UserStore.C182_all_return` | propext, Classical.choice, Quot.sound |
| C183 | `Verif.PassChange.C183_refuted` | propext, Classical.choice, Quot.sound |
| C183 | `Verif.PassChange.C183_sound_partial` | propext, Classical.choice, Quot.sound |
| C183 | `Verif.PassChange.C183_after_partial` | propext, Classical.choice, Quot.sound |
| C183 | `Verif.PassChange.C183_apart_partial` | propext, Classical.choice, Quot.sound |
| C183 | `Verif.PassChange.C183_mutex_partial` | propext, Classical.choice, Quot.sound |
| C183 | `Verif.PassChange.C183_mutex_winner` | propext, Classical.choice, Quot.sound |
| C183 | `Verif.PassChange.C183_mutex_refused` | propext, Classical.choice, Quot.sound |
| C183 | `Verif.PassChange.C183_mutex_ends` | propext, Classical.choice, Quot.sound |

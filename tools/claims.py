claim('C01', 'proved', 'C01_get_is_versioned_map C01_last_write')
claim('C02', 'proved', 'C02_get_with_proof_agrees')
claim('C03', 'proved', 'C03_same_map_same_queries C03_listing_exists C03_root_hash_canonical C03_commit_returns_canonical_roots C03_history_independence')
claim('C04', 'proved', 'C04_existence_complete')
claim('C05', 'proved', 'C05_nonexistence_complete')
claim('C06', 'proved', 'C06_existence_sound C06_existence_sound_bytes C06_existence_sound_history')
claim('C07', 'proved', 'C07_nonexistence_sound C07_nonexistence_sound_history C07_no_contradictory_proofs')
claim('C08', 'proved', 'C08_root_binds_map C08_root_binds_map_bytes')
claim('C09', 'proved', 'C09_commit_keeps_queries C09_commit_keeps_versions')
claim('C10', 'proved', 'C10_purge_keeps_queries C10_purge_safe')
claim('C11', 'proved', 'C11_stale_sound C11_stale_exact C11_stale_unique C11_no_index_failures')
claim('C12', 'proved', 'C12_no_leak_below_root C12_purge_leaves_nothing_older C12_changed_root_retired C12_roots_retired_exactly C12_batch_roots_retired_exactly C12_root_entries_exactly C12_stored_roots_exactly C12_empty_root_never_deleted C12_root_before_noop_never_deleted C12_null_root_leaks C12_noop_root_leaks', 'Root nodes: the exact set of retired and of stored roots over every history; the last four show that some root nodes leak, in general and on concrete histories')
claim('C13', 'proved', 'C13_commit_never_fails C13_history_never_fails')
claim('C14', 'proved', 'C14_multi_set_same_queries C16_put_value_set C14_multi_set_is_consecutive C14_multi_set_same_hashes')
claim('C16', 'proved', 'C16_update_proofs_complete C16_put_value_set')
claim('C17', 'partial', 'C17_update_sound_partial C17_accepted_update_exact C17_false_for_deletes C17_false_without_overflow_checks C17_false_for_long_proofs C17_panics_on_bad_proofs', 'the full statement is false of the code (proved counterexamples); the partial theorem holds with overflow checks on, or without them unless a delete comes with more than 256 siblings or an insertion with the proof of another leaf one level too deep, and with deletes proved by a leaf; C17_accepted_update_exact says in general what an accepted update means: deletes whose proof has no leaf count as no-ops')
claim('C18', 'proved', 'C18_noop_same_queries C18_noop_set C18_noop_meets C18_noop_first')
claim('C19', 'proved', 'C19_leaf_count_exact')
claim('C29', 'proved', 'C29_node_stats_exact C29_num_nodes C29_num_nodes_commit C29_num_nodes_purge')
claim('C30', 'proved', 'C30_last_write_same_queries C30_keepLast_map C30_last_write_wins C30_batch_last_write_wins')
claim('C31', 'proved', 'C31_proof_size C31_proof_shape C31_shape_determines', 'Exact: length, leaf and every sibling as functions of the map; the shape fixes the proof.')
claim('C32', 'proved', 'C32_missing_root C32_uncommitted C32_missing_root_others', '')
claim('C37', 'proved', 'C37_internal_hash')
claim('C40', 'proved', 'C40_newest_value C40_put_accepted_iff C40_put_leaf C40_accepted_write_is_stored')
claim('C20','proved','C20_iterator Iter.Yields.det', 'items, order, no errors or panics, and termination (None for ever).')
claim('C21','proved','C21_iterator_by_index', '')
claim('C33','proved','C33_refines C33_queries C33_new C33_unique C33_iter C33_bits', '')
claim('C34','proved','C34_skip_common_prefix C34_skip_common_prefix_list C34_common_prefix_len', '')
claim('C35','proved','C35_views C35_order', '')
claim('C36','proved','C36_nibble_ranges C36_refuses_depth', '')
claim('C27','proved','C27_exclusion_neighbours C27_neighbours_unique C27_present_key C27_empty_tree','')
claim('C22','proved','C22_range_complete C22_range_absent C22_range_sound','')
claim('C23','proved','C23_restore_reproduces C23_empty_map_panics','For non-empty maps; an empty map panics (proved).  Hypothesis: no node of the tree hashes to the placeholder.')
claim('C24','proved','C24_accepted_chunk C24_only_authentic_values C24_error_writes_nothing C24_write_never_fails C24_hostile_key_panics','Adversarial histories including restarts.  write_node_batch of the store is assumed atomic.')
claim('C25','proved','C25_crash_restore C25_finish_when_all_sent C25_restart_succeeds C25_restart_then_finish_loses_last C25_new_after_completion_panics','Crashes between calls; write_node_batch atomic.')
claim('C26','partial','C26_finish_stores_received_partial C26_complete_root C26_incomplete_root C26_finish_checks_nothing C26_finish_after_refused_chunk_panics','The property is false of the code (proved): finish compares nothing.  Proved instead: what finish stores, and that its root is the expected one iff nothing was left out.')
claim('C15','proved','C15_batch_same_queries C15_batch_same_batches C15_batch_with_hashes C15_hashes_same_store C15_any_hashes_same_values C15_any_hashes_get C15_any_hashes_keep_older C15_wrong_hash_keeps_values C15_batch_same_store C15_empty_set_fails C15_cache_count_mismatch_fails C15_missing_previous_root_fails C15_missing_previous_root_put_succeeds C15_wrong_hash_trusted C15_missing_hash_panics','Same roots, same nodes, same stale set, same statistics; the remaining theorems are the boundaries of the hypotheses (empty set, cache length, missing previous root, wrong or missing precomputed hash).')
claim('C41','proved','C41_writes_are_local','')
claim('C28','proved','C28_conversion C28_present C28_absent C28_membership_sound C28_nonmembership_sound C28_mock_preimages C28_empty_value_rejected C28_deep_proof_rejected','The ics23 verifier is written down in Spec/Ics23.lean from the external crate.  Acceptance is characterised exactly (iff); outside the limits of the format (empty key or value, more than 64 steps) honest proofs are rejected (proved).')
claim('C38','proved','C38_proofs_fail_or_agree C38_roots_fail_or_agree C38_iteration_fails_or_agrees C38_get_fails_or_agrees C38_writes_fail_or_agree C38_faulty_store_never_lies C38_lost_root_is_silent C38_lost_value_is_silent','For every reader and every faulty view of it, reachable or not.  The two exclusions (a lost root for writes, a lost value for get) are necessary: witnesses proved.  Faults are per key, not per call: the functions stop at the first failing lookup, so a per-call fault pattern that lets a call succeed is a fault-free one.')
claim('C39','partial','C39_append_keeps_map_partial C39_purge_succeeds_partial C39_append_succeeds_partial C39_append_refuses_empty C39_append_refuses_other_version C39_delete_all_then_delete_fails C39_delete_all_twice_panics C39_purge_destroys_latest C39_any_purge_destroys C39_no_second_append C39_latest_refused C39_second_append_fails','The full statement is false of the code: five proved counterexamples (deleting from an emptied map returns the old root or panics; a purge after an append destroys the latest version; the latest version may be refused and an older one accepted; a second append at the same version cannot be written).  Proved: the statement for every interleaving of commits (through either API), appends that never delete from an emptied map, and purges of versions below the one that was the latest when the appends began.  Beyond the witnesses, in general: after any append that changes the root hash every pruning of that version loses it, and no second append that changes the root hash can be written.')
claim('C42','proved','C42_later_versions_do_not_matter C42_leftovers_same_update C42_leftovers_same_batch C42_retry_after_crash C42_retry_retires_live_root C42_leftover_root_wrong_hash','The last two show that the restriction in the statement is necessary.')
claim('C43','proved','C43_concurrent_reads C43_iterating_meanwhile','A schedule assigns to each lookup an arbitrary state of the run; lookups themselves are atomic.')
claim('C44','proved','C44_continue_after_restore C44_restoredAs_map','For restores from an honest sender of a non-empty map (C25); an adversarial sender cannot make finish store anything but a prefix of the map (C24, C26).')
claim('C45','partial','C45_pregenesis_tree_partial C45_pregenesis_history_partial C45_pregenesis_update_partial C45_noop_loses_tree C45_restored_values_invisible C45_restored_key_not_writable','The full statement is false of the code (three proved counterexamples).  Proved: roots, leaf counts and, for keys absent or written since genesis, values and proofs, provided the first value set takes effect, for any sequence of calls of put_value_sets and any backend that stores the batches; for the first call also the statistics, the stale entries (exactly) and pruning on the in-memory store.')
claim('C46','partial','C46_verify_never_panics C46_range_verify_panics_iff C46_update_panics_iff C46_update_panics_iff_release C46_update_no_panic_partial C46_served_proofs_well_shaped C46_update_panics C46_genuine_proof_panics C46_genuine_proof_panics_in_release C46_long_range_proof_panics','The full statement is false of the code for range proofs and for verify_update (both characterised exactly for both kinds of build; genuine proofs of another key panic: proved for every tree with overflow checks, by example without).  Proved: panic freedom of verify*, and of verify_update on well-shaped proofs.')
claim('C47','proved','C47_backend_commit C47_backend_batch C47_backend_queries C47_backend_reads C47_mock_is_backend','A backend is known only through its reader; C47_mock_is_backend shows that the mock store is one.')
claim('C48','proved','C48_update_contents C48_batch_update_contents C48_merge_is_consecutive_write C48_node_batch_ops C48_get_node_is_written','')
claim('C49','proved','C49_roundtrip C49_key_layout C49_bytes C49_served_proof_bytes C49_update_bytes C49_served_proofs C49_served_range_proofs C49_served_update_proofs C49_update_encodes C49_batch_update_encodes C49_byte_store_is_backend C49_byte_store_reads C49_byte_store_exists C49_tree_update_roundtrip C49_batch_update_same_bytes C49_decoding_is_unchecked','The borsh format itself is an external specification (Spec/Borsh.lean).')
claim('C50','proved','C50_rollback C50_rolledBackAs_map','The rollback itself is done by the operator (Spec/Rollback.lean); the crate has no such call.')
claim('C51','proved','C51_build_on_any_version C51_batch_on_any_version C51_same_as_when_last C51_batch_same_as_when_last C51_delete_from_empty_picks_up_later_version','The last one shows that the restriction in the statement is necessary.')
claim('C52','partial','C52_wrong_version_refused_partial C52_batch_gap_refused C52_mock_refuses_committed_version C52_mock_refuses_committed_version_batch C52_mock_refuses_version_zero C52_gap_starts_from_empty C52_noop_gap_writes_predecessor C52_gap_hides_data','The full statement is false of the code for put_value_sets: proved in general what it does at a gap (starts from the empty map), with a concrete witness that data disappears.')
claim('C53','proved','C53_proof_unique C53_only_served_proof C53_range_unique C53_long_range_proofs C53_ics23_membership_unique C53_ics23_only_served_membership C53_ics23_nonmembership_neighbours C53_ics23_nonmembership_unique C53_ics23_needs_map','')
claim('C54','partial','C54_interrupted_chunk_partial C54_recovery_succeeds_partial C54_values_lost_silently C54_leaves_lost_silently C54_restore_stuck','The full statement is false of the code (three proved counterexamples with the order in which the mock store writes).  Proved for stores that write values before nodes and nodes from left to right, children first.')
claim('C55','partial','C55_iterator_resumes_partial C55_only_pair_lost','The full statement is false of the code: with one key, an error while the value is read loses the pair (proved in general). Proved for every other failure: any failures if the map does not have exactly one key, any but failing to read its value if it has.')
claim('C56','proved','C56_pruned_reads_fail_or_tell C56_pruned_proofs_fail_or_agree C56_pruned_iteration C56_missing_reported_iff C56_pruned_read_panics','The last one is a concrete history after which get_with_proof of a pruned version panics.')
claim('C57','proved','C57_reads_bounded C57_writes_bounded C57_writes_with_proof_bounded C57_append_bounded C57_batch_bounded C57_bounds_reached','For every reader, reachable or not (the batch API: on reachable stores, through C15).')
claim('C58','proved','C58_client_follows C58_node_serves C58_client_checks_reads C58_client_not_misled C58_client_reads_sound','Completeness without any assumption on the hash; soundness barring collisions, with the condition on leafless deletes that C17 shows to be necessary.')
claim('C59','proved','C59_stored_nodes_exactly C59_stored_roots C59_stale_entries_exactly C59_value_history_exactly C59_layout_deterministic C59_every_node_stored','Roots of versions that are not retained depend on the grouping (example in Props/Layout.lean); they are accounted for exactly by C12.')
claim('C60','proved','C60_sync_never_fails C60_sync_completes','For snapshots with at least one key and no string hashing to the placeholder, as in C23. Restarts at chunk boundaries (C54 is about restarts inside a chunk).')
claim('C61','proved','C61_get C61_get_with_proof C61_same_map_same_root C61_same_root_same_map C61_existence_sound C61_nonexistence_sound C61_iterator C61_ics23_complete C61_ics23_membership_sound C61_ics23_nonmembership_sound','Hypotheses are collision-freeness of the byte strings actually involved (keys, values, node strings of the tree and of the proof).')
claim('C62','proved','C62_key_literal C62_key_form_injective C62_hash_form C62_path_form','Text is a list of characters; core::fmt and hex::encode are modelled by what they write for bytes and digits.')
claim('C63','proved','C63_nodes_of_version C63_nodes_total C63_nodes_after_pruning C63_nodes_after_pruning_tidy C63_stale_of_version C63_stale_waiting C63_stale_fewer_than_nodes C63_values C63_empty_versions_accumulate','The last one shows that the term for the roots is necessary (the leak of C12).')

claim('C64','proved','C64_compute_while_pruning C64_compute_batch_while_pruning C64_write_after_pruning C64_commit_and_pruning_commute','')
claim('C65','partial','C65_late_write_refused_partial C65_overtaken_write_refused_partial C65_failed_write_keeps_older_partial C65_failed_write_leaves_part C65_refused_write_replaces_root C65_models_agree C65_purge_models_agree C65_refused_write_loses_committed_key C65_late_write_after_pruning C65_late_write_with_overwrite C65_late_write_with_overwrite_refused','The full statement is false of the code (proved counterexamples). The in-memory store inserts a node before it asserts that there was none, and its lock survives the panic.')
claim('C66','proved','C66_update_calls C66_one_process C66_queries C66_writes C66_histories C66_next_commit C66_rightmost_leaf C66_restart C66_append_depends_on_order C66_example','Every table may be in any order whenever it is iterated; batches are B-trees and compared as sets of entries. The exception for get_rightmost_leaf is part of the statement and witnessed.')
claim('C67','proved','C67_next_chunk C67_restart C67_finish C67_finish_after_written_chunk C67_single_pair_failed_write C67_resend_refused C67_invisible_until_finished C67_add_chunk_is C67_finish_is C67_mock_finds_rightmost','Any backend, specified by lookups before and after the write. Restart only over completely written batches; restarting over a partly written chunk is C54.')
claim('C68','proved','C68_roundtrip C68_injective C68_proofs_have_texts C68_update_has_texts C68_proof_text C68_proof_texts C68_node_texts C68_update_texts C68_field_order C68_unknown_fields C68_missing_leaf C68_not_canonical C68_reading_is_unchecked','The rules of serde_derive and serde_json are written down in Spec/Json.lean and Spec/Serde.lean from knowledge of the crates; escapes in strings, floats, negative numbers and booleans (none of which these types write) are not read.')
claim('C69','proved','C69_node_after_sync C69_node_never_fails C69_node_follows_source C69_backendRun_is','Composition of C67 (restoring into any backend), C44 (working on with a restored store) and C47 (any backend).')
claim('C70','proved','C70_next_chunk C70_finish C70_finish_after_written_chunk C70_restored_over C70_same_queries C70_start_again C70_rest_untouched C70_root_comes_last C70_older_versions C70_get_shows_old_value C70_next_commit C70_works_on C70_works_on_rest C70_older_versions_stay C70_life C70_life_never_fails C70_life_older_versions C70_old_value_witness C70_new_fails C70_new_over_a_history_fails C70_new_over_a_tree_panics C70_new_over_a_pruned_tree','As in C67, for non-empty maps none of whose tree strings hashes to the placeholder; finish for a map of one pair needs the last chunk written (C67_single_pair_failed_write).')
claim('C71','proved','C71_path_order C71_key_order C71_stale_order C71_value_order C71_orders_are_strict C71_versions_and_ancestors_first C71_key_hash_order C71_prune_scan C71_one_listing C71_bytes_are_not_ordered','')

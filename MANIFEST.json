{
 "claims": [
  {
   "property": "C01",
   "status": "proved",
   "theorems": [
    "Jmt.C01_get_is_versioned_map",
    "Jmt.C01_last_write"
   ],
   "note": ""
  },
  {
   "property": "C02",
   "status": "proved",
   "theorems": [
    "Jmt.C02_get_with_proof_agrees"
   ],
   "note": ""
  },
  {
   "property": "C03",
   "status": "proved",
   "theorems": [
    "Jmt.C03_same_map_same_queries",
    "Jmt.C03_listing_exists",
    "Jmt.C03_root_hash_canonical",
    "Jmt.C03_commit_returns_canonical_roots",
    "Jmt.C03_history_independence"
   ],
   "note": ""
  },
  {
   "property": "C04",
   "status": "proved",
   "theorems": [
    "Jmt.C04_existence_complete"
   ],
   "note": ""
  },
  {
   "property": "C05",
   "status": "proved",
   "theorems": [
    "Jmt.C05_nonexistence_complete"
   ],
   "note": ""
  },
  {
   "property": "C06",
   "status": "proved",
   "theorems": [
    "Jmt.C06_existence_sound",
    "Jmt.C06_existence_sound_bytes",
    "Jmt.C06_existence_sound_history"
   ],
   "note": ""
  },
  {
   "property": "C07",
   "status": "proved",
   "theorems": [
    "Jmt.C07_nonexistence_sound",
    "Jmt.C07_nonexistence_sound_history",
    "Jmt.C07_no_contradictory_proofs"
   ],
   "note": ""
  },
  {
   "property": "C08",
   "status": "proved",
   "theorems": [
    "Jmt.C08_root_binds_map",
    "Jmt.C08_root_binds_map_bytes"
   ],
   "note": ""
  },
  {
   "property": "C09",
   "status": "proved",
   "theorems": [
    "Jmt.C09_commit_keeps_queries",
    "Jmt.C09_commit_keeps_versions"
   ],
   "note": ""
  },
  {
   "property": "C10",
   "status": "proved",
   "theorems": [
    "Jmt.C10_purge_keeps_queries",
    "Jmt.C10_purge_safe"
   ],
   "note": ""
  },
  {
   "property": "C11",
   "status": "proved",
   "theorems": [
    "Jmt.C11_stale_sound",
    "Jmt.C11_stale_exact",
    "Jmt.C11_stale_unique",
    "Jmt.C11_no_index_failures"
   ],
   "note": ""
  },
  {
   "property": "C12",
   "status": "proved",
   "theorems": [
    "Jmt.C12_no_leak_below_root",
    "Jmt.C12_purge_leaves_nothing_older",
    "Jmt.C12_changed_root_retired",
    "Jmt.C12_roots_retired_exactly",
    "Jmt.C12_batch_roots_retired_exactly",
    "Jmt.C12_root_entries_exactly",
    "Jmt.C12_stored_roots_exactly",
    "Jmt.C12_empty_root_never_deleted",
    "Jmt.C12_root_before_noop_never_deleted",
    "Jmt.C12_null_root_leaks",
    "Jmt.C12_noop_root_leaks"
   ],
   "note": "Root nodes: the exact set of retired and of stored roots over every history; the last four show that some root nodes leak, in general and on concrete histories"
  },
  {
   "property": "C13",
   "status": "proved",
   "theorems": [
    "Jmt.C13_commit_never_fails",
    "Jmt.C13_history_never_fails"
   ],
   "note": ""
  },
  {
   "property": "C14",
   "status": "proved",
   "theorems": [
    "Jmt.C14_multi_set_same_queries",
    "Jmt.C16_put_value_set",
    "Jmt.C14_multi_set_is_consecutive",
    "Jmt.C14_multi_set_same_hashes"
   ],
   "note": ""
  },
  {
   "property": "C15",
   "status": "proved",
   "theorems": [
    "Jmt.C15_batch_same_queries",
    "Jmt.C15_batch_same_batches",
    "Jmt.C15_batch_with_hashes",
    "Jmt.C15_hashes_same_store",
    "Jmt.C15_any_hashes_same_values",
    "Jmt.C15_any_hashes_get",
    "Jmt.C15_any_hashes_keep_older",
    "Jmt.C15_wrong_hash_keeps_values",
    "Jmt.C15_batch_same_store",
    "Jmt.C15_empty_set_fails",
    "Jmt.C15_cache_count_mismatch_fails",
    "Jmt.C15_missing_previous_root_fails",
    "Jmt.C15_missing_previous_root_put_succeeds",
    "Jmt.C15_wrong_hash_trusted",
    "Jmt.C15_missing_hash_panics"
   ],
   "note": "Same roots, same nodes, same stale set, same statistics; the remaining theorems are the boundaries of the hypotheses (empty set, cache length, missing previous root, wrong or missing precomputed hash)."
  },
  {
   "property": "C16",
   "status": "proved",
   "theorems": [
    "Jmt.C16_update_proofs_complete",
    "Jmt.C16_put_value_set"
   ],
   "note": ""
  },
  {
   "property": "C17",
   "status": "partial",
   "theorems": [
    "Jmt.C17_update_sound_partial",
    "Jmt.C17_accepted_update_exact",
    "Jmt.C17_false_for_deletes",
    "Jmt.C17_false_without_overflow_checks",
    "Jmt.C17_false_for_long_proofs",
    "Jmt.C17_panics_on_bad_proofs"
   ],
   "note": "the full statement is false of the code (proved counterexamples); the partial theorem holds with overflow checks on, or without them unless a delete comes with more than 256 siblings or an insertion with the proof of another leaf one level too deep, and with deletes proved by a leaf; C17_accepted_update_exact says in general what an accepted update means: deletes whose proof has no leaf count as no-ops"
  },
  {
   "property": "C18",
   "status": "proved",
   "theorems": [
    "Jmt.C18_noop_same_queries",
    "Jmt.C18_noop_set",
    "Jmt.C18_noop_meets",
    "Jmt.C18_noop_first"
   ],
   "note": ""
  },
  {
   "property": "C19",
   "status": "proved",
   "theorems": [
    "Jmt.C19_leaf_count_exact"
   ],
   "note": ""
  },
  {
   "property": "C20",
   "status": "proved",
   "theorems": [
    "Jmt.C20_iterator",
    "Jmt.Iter.Yields.det"
   ],
   "note": "items, order, no errors or panics, and termination (None for ever)."
  },
  {
   "property": "C21",
   "status": "proved",
   "theorems": [
    "Jmt.C21_iterator_by_index"
   ],
   "note": ""
  },
  {
   "property": "C22",
   "status": "proved",
   "theorems": [
    "Jmt.C22_range_complete",
    "Jmt.C22_range_absent",
    "Jmt.C22_range_sound"
   ],
   "note": ""
  },
  {
   "property": "C23",
   "status": "proved",
   "theorems": [
    "Jmt.C23_restore_reproduces",
    "Jmt.C23_empty_map_panics"
   ],
   "note": "For non-empty maps; an empty map panics (proved).  Hypothesis: no node of the tree hashes to the placeholder."
  },
  {
   "property": "C24",
   "status": "proved",
   "theorems": [
    "Jmt.C24_accepted_chunk",
    "Jmt.C24_only_authentic_values",
    "Jmt.C24_error_writes_nothing",
    "Jmt.C24_write_never_fails",
    "Jmt.C24_hostile_key_panics"
   ],
   "note": "Adversarial histories including restarts.  write_node_batch of the store is assumed atomic."
  },
  {
   "property": "C25",
   "status": "proved",
   "theorems": [
    "Jmt.C25_crash_restore",
    "Jmt.C25_finish_when_all_sent",
    "Jmt.C25_restart_succeeds",
    "Jmt.C25_restart_then_finish_loses_last",
    "Jmt.C25_new_after_completion_panics"
   ],
   "note": "Crashes between calls; write_node_batch atomic."
  },
  {
   "property": "C26",
   "status": "partial",
   "theorems": [
    "Jmt.C26_finish_stores_received_partial",
    "Jmt.C26_complete_root",
    "Jmt.C26_incomplete_root",
    "Jmt.C26_finish_checks_nothing",
    "Jmt.C26_finish_after_refused_chunk_panics"
   ],
   "note": "The property is false of the code (proved): finish compares nothing.  Proved instead: what finish stores, and that its root is the expected one iff nothing was left out."
  },
  {
   "property": "C27",
   "status": "proved",
   "theorems": [
    "Jmt.C27_exclusion_neighbours",
    "Jmt.C27_neighbours_unique",
    "Jmt.C27_present_key",
    "Jmt.C27_empty_tree"
   ],
   "note": ""
  },
  {
   "property": "C28",
   "status": "proved",
   "theorems": [
    "Jmt.C28_conversion",
    "Jmt.C28_present",
    "Jmt.C28_absent",
    "Jmt.C28_membership_sound",
    "Jmt.C28_nonmembership_sound",
    "Jmt.C28_mock_preimages",
    "Jmt.C28_empty_value_rejected",
    "Jmt.C28_deep_proof_rejected"
   ],
   "note": "The ics23 verifier is written down in Spec/Ics23.lean from the external crate.  Acceptance is characterised exactly (iff); outside the limits of the format (empty key or value, more than 64 steps) honest proofs are rejected (proved)."
  },
  {
   "property": "C29",
   "status": "proved",
   "theorems": [
    "Jmt.C29_node_stats_exact",
    "Jmt.C29_num_nodes",
    "Jmt.C29_num_nodes_commit",
    "Jmt.C29_num_nodes_purge"
   ],
   "note": ""
  },
  {
   "property": "C30",
   "status": "proved",
   "theorems": [
    "Jmt.C30_last_write_same_queries",
    "Jmt.C30_keepLast_map",
    "Jmt.C30_last_write_wins",
    "Jmt.C30_batch_last_write_wins"
   ],
   "note": ""
  },
  {
   "property": "C31",
   "status": "proved",
   "theorems": [
    "Jmt.C31_proof_size",
    "Jmt.C31_proof_shape",
    "Jmt.C31_shape_determines"
   ],
   "note": "Exact: length, leaf and every sibling as functions of the map; the shape fixes the proof."
  },
  {
   "property": "C32",
   "status": "proved",
   "theorems": [
    "Jmt.C32_missing_root",
    "Jmt.C32_uncommitted",
    "Jmt.C32_missing_root_others"
   ],
   "note": ""
  },
  {
   "property": "C33",
   "status": "proved",
   "theorems": [
    "Jmt.C33_refines",
    "Jmt.C33_queries",
    "Jmt.C33_new",
    "Jmt.C33_unique",
    "Jmt.C33_iter",
    "Jmt.C33_bits"
   ],
   "note": ""
  },
  {
   "property": "C34",
   "status": "proved",
   "theorems": [
    "Jmt.C34_skip_common_prefix",
    "Jmt.C34_skip_common_prefix_list",
    "Jmt.C34_common_prefix_len"
   ],
   "note": ""
  },
  {
   "property": "C35",
   "status": "proved",
   "theorems": [
    "Jmt.C35_views",
    "Jmt.C35_order"
   ],
   "note": ""
  },
  {
   "property": "C36",
   "status": "proved",
   "theorems": [
    "Jmt.C36_nibble_ranges",
    "Jmt.C36_refuses_depth"
   ],
   "note": ""
  },
  {
   "property": "C37",
   "status": "proved",
   "theorems": [
    "Jmt.C37_internal_hash"
   ],
   "note": ""
  },
  {
   "property": "C38",
   "status": "proved",
   "theorems": [
    "Jmt.C38_proofs_fail_or_agree",
    "Jmt.C38_roots_fail_or_agree",
    "Jmt.C38_iteration_fails_or_agrees",
    "Jmt.C38_get_fails_or_agrees",
    "Jmt.C38_writes_fail_or_agree",
    "Jmt.C38_faulty_store_never_lies",
    "Jmt.C38_lost_root_is_silent",
    "Jmt.C38_lost_value_is_silent"
   ],
   "note": "For every reader and every faulty view of it, reachable or not.  The two exclusions (a lost root for writes, a lost value for get) are necessary: witnesses proved.  Faults are per key, not per call: the functions stop at the first failing lookup, so a per-call fault pattern that lets a call succeed is a fault-free one."
  },
  {
   "property": "C39",
   "status": "partial",
   "theorems": [
    "Jmt.C39_append_keeps_map_partial",
    "Jmt.C39_purge_succeeds_partial",
    "Jmt.C39_append_succeeds_partial",
    "Jmt.C39_append_refuses_empty",
    "Jmt.C39_append_refuses_other_version",
    "Jmt.C39_delete_all_then_delete_fails",
    "Jmt.C39_delete_all_twice_panics",
    "Jmt.C39_purge_destroys_latest",
    "Jmt.C39_any_purge_destroys",
    "Jmt.C39_no_second_append",
    "Jmt.C39_latest_refused",
    "Jmt.C39_second_append_fails"
   ],
   "note": "The full statement is false of the code: five proved counterexamples (deleting from an emptied map returns the old root or panics; a purge after an append destroys the latest version; the latest version may be refused and an older one accepted; a second append at the same version cannot be written).  Proved: the statement for every interleaving of commits (through either API), appends that never delete from an emptied map, and purges of versions below the one that was the latest when the appends began.  Beyond the witnesses, in general: after any append that changes the root hash every pruning of that version loses it, and no second append that changes the root hash can be written."
  },
  {
   "property": "C40",
   "status": "proved",
   "theorems": [
    "Jmt.C40_newest_value",
    "Jmt.C40_put_accepted_iff",
    "Jmt.C40_put_leaf",
    "Jmt.C40_accepted_write_is_stored"
   ],
   "note": ""
  },
  {
   "property": "C41",
   "status": "proved",
   "theorems": [
    "Jmt.C41_writes_are_local"
   ],
   "note": ""
  },
  {
   "property": "C42",
   "status": "proved",
   "theorems": [
    "Jmt.C42_later_versions_do_not_matter",
    "Jmt.C42_leftovers_same_update",
    "Jmt.C42_leftovers_same_batch",
    "Jmt.C42_retry_after_crash",
    "Jmt.C42_retry_retires_live_root",
    "Jmt.C42_leftover_root_wrong_hash"
   ],
   "note": "The last two show that the restriction in the statement is necessary."
  },
  {
   "property": "C43",
   "status": "proved",
   "theorems": [
    "Jmt.C43_concurrent_reads",
    "Jmt.C43_iterating_meanwhile"
   ],
   "note": "A schedule assigns to each lookup an arbitrary state of the run; lookups themselves are atomic."
  },
  {
   "property": "C44",
   "status": "proved",
   "theorems": [
    "Jmt.C44_continue_after_restore",
    "Jmt.C44_restoredAs_map"
   ],
   "note": "For restores from an honest sender of a non-empty map (C25); an adversarial sender cannot make finish store anything but a prefix of the map (C24, C26)."
  },
  {
   "property": "C45",
   "status": "partial",
   "theorems": [
    "Jmt.C45_pregenesis_tree_partial",
    "Jmt.C45_pregenesis_history_partial",
    "Jmt.C45_pregenesis_update_partial",
    "Jmt.C45_noop_loses_tree",
    "Jmt.C45_restored_values_invisible",
    "Jmt.C45_restored_key_not_writable"
   ],
   "note": "The full statement is false of the code (three proved counterexamples).  Proved: roots, leaf counts and, for keys absent or written since genesis, values and proofs, provided the first value set takes effect, for any sequence of calls of put_value_sets and any backend that stores the batches; for the first call also the statistics, the stale entries (exactly) and pruning on the in-memory store."
  },
  {
   "property": "C46",
   "status": "partial",
   "theorems": [
    "Jmt.C46_verify_never_panics",
    "Jmt.C46_range_verify_panics_iff",
    "Jmt.C46_update_panics_iff",
    "Jmt.C46_update_panics_iff_release",
    "Jmt.C46_update_no_panic_partial",
    "Jmt.C46_served_proofs_well_shaped",
    "Jmt.C46_update_panics",
    "Jmt.C46_genuine_proof_panics",
    "Jmt.C46_genuine_proof_panics_in_release",
    "Jmt.C46_long_range_proof_panics"
   ],
   "note": "The full statement is false of the code for range proofs and for verify_update (both characterised exactly for both kinds of build; genuine proofs of another key panic: proved for every tree with overflow checks, by example without).  Proved: panic freedom of verify*, and of verify_update on well-shaped proofs."
  },
  {
   "property": "C47",
   "status": "proved",
   "theorems": [
    "Jmt.C47_backend_commit",
    "Jmt.C47_backend_batch",
    "Jmt.C47_backend_queries",
    "Jmt.C47_backend_reads",
    "Jmt.C47_mock_is_backend"
   ],
   "note": "A backend is known only through its reader; C47_mock_is_backend shows that the mock store is one."
  },
  {
   "property": "C48",
   "status": "proved",
   "theorems": [
    "Jmt.C48_update_contents",
    "Jmt.C48_batch_update_contents",
    "Jmt.C48_merge_is_consecutive_write",
    "Jmt.C48_node_batch_ops",
    "Jmt.C48_get_node_is_written"
   ],
   "note": ""
  },
  {
   "property": "C49",
   "status": "proved",
   "theorems": [
    "Jmt.C49_roundtrip",
    "Jmt.C49_key_layout",
    "Jmt.C49_bytes",
    "Jmt.C49_served_proof_bytes",
    "Jmt.C49_update_bytes",
    "Jmt.C49_served_proofs",
    "Jmt.C49_served_range_proofs",
    "Jmt.C49_served_update_proofs",
    "Jmt.C49_update_encodes",
    "Jmt.C49_batch_update_encodes",
    "Jmt.C49_byte_store_is_backend",
    "Jmt.C49_byte_store_reads",
    "Jmt.C49_byte_store_exists",
    "Jmt.C49_tree_update_roundtrip",
    "Jmt.C49_batch_update_same_bytes",
    "Jmt.C49_decoding_is_unchecked"
   ],
   "note": "The borsh format itself is an external specification (Spec/Borsh.lean)."
  },
  {
   "property": "C50",
   "status": "proved",
   "theorems": [
    "Jmt.C50_rollback",
    "Jmt.C50_rolledBackAs_map"
   ],
   "note": "The rollback itself is done by the operator (Spec/Rollback.lean); the crate has no such call."
  },
  {
   "property": "C51",
   "status": "proved",
   "theorems": [
    "Jmt.C51_build_on_any_version",
    "Jmt.C51_batch_on_any_version",
    "Jmt.C51_same_as_when_last",
    "Jmt.C51_batch_same_as_when_last",
    "Jmt.C51_delete_from_empty_picks_up_later_version"
   ],
   "note": "The last one shows that the restriction in the statement is necessary."
  },
  {
   "property": "C52",
   "status": "partial",
   "theorems": [
    "Jmt.C52_wrong_version_refused_partial",
    "Jmt.C52_batch_gap_refused",
    "Jmt.C52_mock_refuses_committed_version",
    "Jmt.C52_mock_refuses_committed_version_batch",
    "Jmt.C52_mock_refuses_version_zero",
    "Jmt.C52_gap_starts_from_empty",
    "Jmt.C52_noop_gap_writes_predecessor",
    "Jmt.C52_gap_hides_data"
   ],
   "note": "The full statement is false of the code for put_value_sets: proved in general what it does at a gap (starts from the empty map), with a concrete witness that data disappears."
  },
  {
   "property": "C53",
   "status": "proved",
   "theorems": [
    "Jmt.C53_proof_unique",
    "Jmt.C53_only_served_proof",
    "Jmt.C53_range_unique",
    "Jmt.C53_long_range_proofs",
    "Jmt.C53_ics23_membership_unique",
    "Jmt.C53_ics23_only_served_membership",
    "Jmt.C53_ics23_nonmembership_neighbours",
    "Jmt.C53_ics23_nonmembership_unique",
    "Jmt.C53_ics23_needs_map"
   ],
   "note": ""
  },
  {
   "property": "C54",
   "status": "partial",
   "theorems": [
    "Jmt.C54_interrupted_chunk_partial",
    "Jmt.C54_recovery_succeeds_partial",
    "Jmt.C54_values_lost_silently",
    "Jmt.C54_leaves_lost_silently",
    "Jmt.C54_restore_stuck"
   ],
   "note": "The full statement is false of the code (three proved counterexamples with the order in which the mock store writes).  Proved for stores that write values before nodes and nodes from left to right, children first."
  },
  {
   "property": "C55",
   "status": "partial",
   "theorems": [
    "Jmt.C55_iterator_resumes_partial",
    "Jmt.C55_only_pair_lost"
   ],
   "note": "The full statement is false of the code: with one key, an error while the value is read loses the pair (proved in general). Proved for every other failure: any failures if the map does not have exactly one key, any but failing to read its value if it has."
  },
  {
   "property": "C56",
   "status": "proved",
   "theorems": [
    "Jmt.C56_pruned_reads_fail_or_tell",
    "Jmt.C56_pruned_proofs_fail_or_agree",
    "Jmt.C56_pruned_iteration",
    "Jmt.C56_missing_reported_iff",
    "Jmt.C56_pruned_read_panics"
   ],
   "note": "The last one is a concrete history after which get_with_proof of a pruned version panics."
  },
  {
   "property": "C57",
   "status": "proved",
   "theorems": [
    "Jmt.C57_reads_bounded",
    "Jmt.C57_writes_bounded",
    "Jmt.C57_writes_with_proof_bounded",
    "Jmt.C57_append_bounded",
    "Jmt.C57_batch_bounded",
    "Jmt.C57_bounds_reached"
   ],
   "note": "For every reader, reachable or not (the batch API: on reachable stores, through C15)."
  },
  {
   "property": "C58",
   "status": "proved",
   "theorems": [
    "Jmt.C58_client_follows",
    "Jmt.C58_node_serves",
    "Jmt.C58_client_checks_reads",
    "Jmt.C58_client_not_misled",
    "Jmt.C58_client_reads_sound"
   ],
   "note": "Completeness without any assumption on the hash; soundness barring collisions, with the condition on leafless deletes that C17 shows to be necessary."
  },
  {
   "property": "C59",
   "status": "proved",
   "theorems": [
    "Jmt.C59_stored_nodes_exactly",
    "Jmt.C59_stored_roots",
    "Jmt.C59_stale_entries_exactly",
    "Jmt.C59_value_history_exactly",
    "Jmt.C59_layout_deterministic",
    "Jmt.C59_every_node_stored"
   ],
   "note": "Roots of versions that are not retained depend on the grouping (example in Props/Layout.lean); they are accounted for exactly by C12."
  },
  {
   "property": "C60",
   "status": "proved",
   "theorems": [
    "Jmt.C60_sync_never_fails",
    "Jmt.C60_sync_completes"
   ],
   "note": "For snapshots with at least one key and no string hashing to the placeholder, as in C23. Restarts at chunk boundaries (C54 is about restarts inside a chunk)."
  },
  {
   "property": "C61",
   "status": "proved",
   "theorems": [
    "Jmt.C61_get",
    "Jmt.C61_get_with_proof",
    "Jmt.C61_same_map_same_root",
    "Jmt.C61_same_root_same_map",
    "Jmt.C61_existence_sound",
    "Jmt.C61_nonexistence_sound",
    "Jmt.C61_iterator",
    "Jmt.C61_ics23_complete",
    "Jmt.C61_ics23_membership_sound",
    "Jmt.C61_ics23_nonmembership_sound"
   ],
   "note": "Hypotheses are collision-freeness of the byte strings actually involved (keys, values, node strings of the tree and of the proof)."
  },
  {
   "property": "C62",
   "status": "proved",
   "theorems": [
    "Jmt.C62_key_literal",
    "Jmt.C62_key_form_injective",
    "Jmt.C62_hash_form",
    "Jmt.C62_path_form"
   ],
   "note": "Text is a list of characters; core::fmt and hex::encode are modelled by what they write for bytes and digits."
  },
  {
   "property": "C63",
   "status": "proved",
   "theorems": [
    "Jmt.C63_nodes_of_version",
    "Jmt.C63_nodes_total",
    "Jmt.C63_nodes_after_pruning",
    "Jmt.C63_nodes_after_pruning_tidy",
    "Jmt.C63_stale_of_version",
    "Jmt.C63_stale_waiting",
    "Jmt.C63_stale_fewer_than_nodes",
    "Jmt.C63_values",
    "Jmt.C63_empty_versions_accumulate"
   ],
   "note": "The last one shows that the term for the roots is necessary (the leak of C12)."
  },
  {
   "property": "C64",
   "status": "proved",
   "theorems": [
    "Jmt.C64_compute_while_pruning",
    "Jmt.C64_compute_batch_while_pruning",
    "Jmt.C64_write_after_pruning",
    "Jmt.C64_commit_and_pruning_commute"
   ],
   "note": ""
  },
  {
   "property": "C65",
   "status": "partial",
   "theorems": [
    "Jmt.C65_late_write_refused_partial",
    "Jmt.C65_overtaken_write_refused_partial",
    "Jmt.C65_failed_write_keeps_older_partial",
    "Jmt.C65_failed_write_leaves_part",
    "Jmt.C65_refused_write_replaces_root",
    "Jmt.C65_models_agree",
    "Jmt.C65_purge_models_agree",
    "Jmt.C65_refused_write_loses_committed_key",
    "Jmt.C65_late_write_after_pruning",
    "Jmt.C65_late_write_with_overwrite",
    "Jmt.C65_late_write_with_overwrite_refused"
   ],
   "note": "The full statement is false of the code (proved counterexamples). The in-memory store inserts a node before it asserts that there was none, and its lock survives the panic."
  },
  {
   "property": "C66",
   "status": "proved",
   "theorems": [
    "Jmt.C66_update_calls",
    "Jmt.C66_one_process",
    "Jmt.C66_queries",
    "Jmt.C66_writes",
    "Jmt.C66_histories",
    "Jmt.C66_next_commit",
    "Jmt.C66_rightmost_leaf",
    "Jmt.C66_restart",
    "Jmt.C66_append_depends_on_order",
    "Jmt.C66_example"
   ],
   "note": "Every table may be in any order whenever it is iterated; batches are B-trees and compared as sets of entries. The exception for get_rightmost_leaf is part of the statement and witnessed."
  },
  {
   "property": "C67",
   "status": "proved",
   "theorems": [
    "Jmt.C67_next_chunk",
    "Jmt.C67_restart",
    "Jmt.C67_finish",
    "Jmt.C67_finish_after_written_chunk",
    "Jmt.C67_single_pair_failed_write",
    "Jmt.C67_resend_refused",
    "Jmt.C67_invisible_until_finished",
    "Jmt.C67_add_chunk_is",
    "Jmt.C67_finish_is",
    "Jmt.C67_mock_finds_rightmost"
   ],
   "note": "Any backend, specified by lookups before and after the write. Restart only over completely written batches; restarting over a partly written chunk is C54."
  },
  {
   "property": "C68",
   "status": "proved",
   "theorems": [
    "Jmt.C68_roundtrip",
    "Jmt.C68_injective",
    "Jmt.C68_proofs_have_texts",
    "Jmt.C68_update_has_texts",
    "Jmt.C68_proof_text",
    "Jmt.C68_proof_texts",
    "Jmt.C68_node_texts",
    "Jmt.C68_update_texts",
    "Jmt.C68_field_order",
    "Jmt.C68_unknown_fields",
    "Jmt.C68_missing_leaf",
    "Jmt.C68_not_canonical",
    "Jmt.C68_reading_is_unchecked"
   ],
   "note": "The rules of serde_derive and serde_json are written down in Spec/Json.lean and Spec/Serde.lean from knowledge of the crates; escapes in strings, floats, negative numbers and booleans (none of which these types write) are not read."
  },
  {
   "property": "C69",
   "status": "proved",
   "theorems": [
    "Jmt.C69_node_after_sync",
    "Jmt.C69_node_never_fails",
    "Jmt.C69_node_follows_source",
    "Jmt.C69_backendRun_is"
   ],
   "note": "Composition of C67 (restoring into any backend), C44 (working on with a restored store) and C47 (any backend)."
  },
  {
   "property": "C70",
   "status": "proved",
   "theorems": [
    "Jmt.C70_next_chunk",
    "Jmt.C70_finish",
    "Jmt.C70_finish_after_written_chunk",
    "Jmt.C70_restored_over",
    "Jmt.C70_same_queries",
    "Jmt.C70_start_again",
    "Jmt.C70_rest_untouched",
    "Jmt.C70_root_comes_last",
    "Jmt.C70_older_versions",
    "Jmt.C70_get_shows_old_value",
    "Jmt.C70_next_commit",
    "Jmt.C70_works_on",
    "Jmt.C70_works_on_rest",
    "Jmt.C70_older_versions_stay",
    "Jmt.C70_life",
    "Jmt.C70_life_never_fails",
    "Jmt.C70_life_older_versions",
    "Jmt.C70_old_value_witness",
    "Jmt.C70_new_fails",
    "Jmt.C70_new_over_a_history_fails",
    "Jmt.C70_new_over_a_tree_panics",
    "Jmt.C70_new_over_a_pruned_tree"
   ],
   "note": "As in C67, for non-empty maps none of whose tree strings hashes to the placeholder; finish for a map of one pair needs the last chunk written (C67_single_pair_failed_write)."
  },
  {
   "property": "C71",
   "status": "proved",
   "theorems": [
    "Jmt.C71_path_order",
    "Jmt.C71_key_order",
    "Jmt.C71_stale_order",
    "Jmt.C71_value_order",
    "Jmt.C71_orders_are_strict",
    "Jmt.C71_versions_and_ancestors_first",
    "Jmt.C71_key_hash_order",
    "Jmt.C71_prune_scan",
    "Jmt.C71_one_listing",
    "Jmt.C71_bytes_are_not_ordered"
   ],
   "note": ""
  }
 ]
}

{
 "claims": [
  {
   "property": "C01",
   "status": "proved",
   "theorems": [
    "Verif.Props.C01_root_hash",
    "Verif.Props.C01_root_hash_option",
    "Verif.Props.C01_returned_roots",
    "Verif.Props.C01_returned_root",
    "Verif.Props.C01_lists_exist"
   ],
   "note": "For every reachable store and readable version."
  },
  {
   "property": "C02",
   "status": "proved",
   "theorems": [
    "Verif.Props.C02_history_independent"
   ],
   "note": ""
  },
  {
   "property": "C03",
   "status": "proved",
   "theorems": [
    "Verif.Props.C03_versions_readable",
    "Verif.Props.C03_versions_immutable"
   ],
   "note": ""
  },
  {
   "property": "C04",
   "status": "proved",
   "theorems": [
    "Verif.Props.C04_proofs_verify",
    "Verif.Props.C04_root_hash",
    "Verif.Props.C04_returned_root_hash",
    "Verif.Props.C04_root_hash_panics"
   ],
   "note": ""
  },
  {
   "property": "C05",
   "status": "proved",
   "theorems": [
    "Verif.Props.C05_inclusion_sound"
   ],
   "note": "Conclusion is disjunctive: value stored, or an explicit hash collision."
  },
  {
   "property": "C06",
   "status": "proved",
   "theorems": [
    "Verif.Props.C06_exclusion_sound"
   ],
   "note": "Same form as C05."
  },
  {
   "property": "C07",
   "status": "proved",
   "theorems": [
    "Verif.Props.C07_root_binds"
   ],
   "note": "Same form as C05."
  },
  {
   "property": "C08",
   "status": "proved",
   "theorems": [
    "Verif.Props.C08_updates_succeed",
    "Verif.Props.C08_next_update"
   ],
   "note": ""
  },
  {
   "property": "C09",
   "status": "proved",
   "theorems": [
    "Verif.Props.C09_multi_version"
   ],
   "note": ""
  },
  {
   "property": "C10",
   "status": "partial",
   "theorems": [
    "Verif.Props.C10_batch_roots_partial",
    "Verif.Props.C10_batch_reads_partial",
    "Verif.Props.C10_missing_root_false",
    "Verif.Props.C10_empty_set_panics"
   ],
   "note": "Reached stores; on a store whose root of the preceding version is missing the batch function errs while put_value_sets starts an empty tree (witness proved)."
  },
  {
   "property": "C11",
   "status": "proved",
   "theorems": [
    "Verif.Props.C11_pruning_safe"
   ],
   "note": "Reads, leaf count and nodes; iteration follows from C16/C17 holding for every reachable store."
  },
  {
   "property": "C12",
   "status": "proved",
   "theorems": [
    "Verif.Props.C12_stale_marks",
    "Verif.Props.C12_marks_complete",
    "Verif.Props.C12_root_mark"
   ],
   "note": "C12_root_mark shows why roots are excepted in the statement."
  },
  {
   "property": "C13",
   "status": "partial",
   "theorems": [
    "Verif.Props.C13_fresh_keys_partial",
    "Verif.Props.C13_first_version_false"
   ],
   "note": "Reached stores; an effect-free first version above 0 writes a node of the version before (witness proved)."
  },
  {
   "property": "C14",
   "status": "partial",
   "theorems": [
    "Verif.Props.C14_counts",
    "Verif.Props.C14_leaf_difference_partial",
    "Verif.Props.C14_single_leaf_copy",
    "Verif.Props.C14_leaf_difference_false"
   ],
   "note": "Counts proved in full. The leaf difference is false exactly when an effect-free version copies a root leaf (proved)."
  },
  {
   "property": "C15",
   "status": "proved",
   "theorems": [
    "Verif.Props.C15_leaf_count"
   ],
   "note": ""
  },
  {
   "property": "C16",
   "status": "proved",
   "theorems": [
    "Verif.Props.C16_iterate_from_key"
   ],
   "note": ""
  },
  {
   "property": "C17",
   "status": "proved",
   "theorems": [
    "Verif.Props.C17_iterate_from_index",
    "Verif.Props.C17_iterate_all"
   ],
   "note": ""
  },
  {
   "property": "C18",
   "status": "proved",
   "theorems": [
    "Verif.Props.C18_get_agrees"
   ],
   "note": ""
  },
  {
   "property": "C19",
   "status": "partial",
   "theorems": [
    "Verif.Props.C19_answers_right",
    "Verif.Props.C19_present",
    "Verif.Props.C19_total",
    "Verif.Props.C19_exclusion_partial",
    "Verif.Props.C19_empty_tree",
    "Verif.Props.C19_older_neighbour_false",
    "Verif.Props.C19_exact",
    "Verif.Props.C19_written_partial"
   ],
   "note": "False: the call fails when a neighbour's subtree is older than the queried version (witness proved). Every answer given is right, the call never panics, and it succeeds when the neighbours were written by the queried version or it is the first one. C19_exact says exactly when it succeeds."
  },
  {
   "property": "C20",
   "status": "proved",
   "theorems": [
    "Verif.Props.C20_range_proof_verifies",
    "Verif.Props.C20_absent_key_rejected"
   ],
   "note": ""
  },
  {
   "property": "C21",
   "status": "proved",
   "theorems": [
    "Verif.Props.C21_restore_complete"
   ],
   "note": "No hash input of the tree may hash to the placeholder."
  },
  {
   "property": "C22",
   "status": "proved",
   "theorems": [
    "Verif.Props.C22_restore_sound"
   ],
   "note": "Conclusion is disjunctive, as for C05."
  },
  {
   "property": "C23",
   "status": "partial",
   "theorems": [
    "Verif.Props.C23_finished_root_partial",
    "Verif.Props.C23_all_received_partial",
    "Verif.Props.C23_truncated_restore_false",
    "Verif.Props.C23_finish_empty_panics"
   ],
   "note": "False: a truncated restore can be finished and has another root (proved). The root of a finished restore is that of the pairs taken, and the expected one when the last key has been received."
  },
  {
   "property": "C24",
   "status": "proved",
   "theorems": [
    "Verif.Props.C24_restore_resumes"
   ],
   "note": "Sessions dropped between add_chunk calls; the store is that left by the last call. No hash input of the tree may hash to the placeholder."
  },
  {
   "property": "C25",
   "status": "proved",
   "theorems": [
    "Verif.Props.C25_canonical",
    "Verif.Props.C25_every_key_has_leaf",
    "Verif.Props.C25_path_unique"
   ],
   "note": ""
  },
  {
   "property": "C26",
   "status": "proved",
   "theorems": [
    "Verif.Props.C26_path_is_list",
    "Verif.Props.C26_overfull_panics",
    "Verif.Props.C26_equal_iff",
    "Verif.Props.C26_key_path",
    "Verif.Props.C26_new",
    "Verif.Props.C26_iterator",
    "Verif.Props.C26_iterator_of_part",
    "Verif.Props.C26_iterator_bits",
    "Verif.Props.C26_skip_common_prefix"
   ],
   "note": ""
  },
  {
   "property": "C27",
   "status": "proved",
   "theorems": [
    "Verif.Props.C27_bits",
    "Verif.Props.C27_nibbles",
    "Verif.Props.C27_order",
    "Verif.Props.C27_injective",
    "Verif.Props.C27_rebuild",
    "Verif.Props.C27_rebuild_any",
    "Verif.Props.C27_common_prefix"
   ],
   "note": ""
  },
  {
   "property": "C28",
   "status": "proved",
   "theorems": [
    "Verif.Props.C28_node_hash",
    "Verif.Props.C28_siblings"
   ],
   "note": ""
  },
  {
   "property": "C29",
   "status": "proved",
   "theorems": [
    "Verif.Props.C29_latest_value",
    "Verif.Props.C29_rejected",
    "Verif.Props.C29_batch"
   ],
   "note": ""
  },
  {
   "property": "C30",
   "status": "partial",
   "theorems": [
    "Verif.Props.C30_len",
    "Verif.Props.C30_version_partial",
    "Verif.Props.C30_version_latest_partial",
    "Verif.Props.C30_version_false"
   ],
   "note": "len and is_empty in full; version() ignores versions with an empty value set (witness proved)."
  },
  {
   "property": "C31",
   "status": "partial",
   "theorems": [
    "Verif.Props.C31_existence_root",
    "Verif.Props.C31_existence_verifies_partial",
    "Verif.Props.C31_depth_false",
    "Verif.Props.C31_empty_value_false"
   ],
   "note": "The evaluated proof gives the root hash. Verification against ics23_spec succeeds exactly when key and value are non-empty and no other key shares the first 64 bits of the key hash; without that it is false, for every hash function (witnesses)."
  },
  {
   "property": "C32",
   "status": "proved",
   "theorems": [
    "Verif.Props.C32_separated",
    "Verif.Props.C32_leaf_injective",
    "Verif.Props.C32_internal_injective",
    "Verif.Props.C32_clash_is_collision",
    "Verif.Props.C32_texts"
   ],
   "note": ""
  },
  {
   "property": "C33",
   "status": "partial",
   "theorems": [
    "Verif.Props.C33_verify_total",
    "Verif.Props.C33_range_verify_total_partial",
    "Verif.Props.C33_range_verify_panics"
   ],
   "note": "Range proof verification panics on some inputs (witness proved); total on the rest."
  },
  {
   "property": "C34",
   "status": "partial",
   "theorems": [
    "Verif.Props.C34_noop_update_partial",
    "Verif.Props.C34_noop_first",
    "Verif.Props.C34_first_version_false"
   ],
   "note": "Holds for every non-first version; false for a no-op first version above 0 (witness proved)."
  },
  {
   "property": "C35",
   "status": "proved",
   "theorems": [
    "Verif.Props.C35_trie_is_map",
    "Verif.Props.C35_calls_succeed"
   ],
   "note": "Several tries over one archive database; conclusion is disjunctive: the claim, or an explicit hash collision among the stored encodings."
  },
  {
   "property": "C36",
   "status": "partial",
   "theorems": [
    "Verif.Props.C36_remove_present_partial",
    "Verif.Props.C36_remove_reports_partial",
    "Verif.Props.C36_remove_exact_partial",
    "Verif.Props.C36_unmarked_partial",
    "Verif.Props.C36_absent_reported_removed"
   ],
   "note": "False: removing an absent key can report true (witness proved). True is returned for every present key; in tries without leftover branches (C100) true is returned exactly for present keys and keys at which other entries part."
  },
  {
   "property": "C37",
   "status": "proved",
   "theorems": [
    "Verif.Props.C37_empty_value_rejected",
    "Verif.Props.C37_empty_value_no_effect"
   ],
   "note": ""
  },
  {
   "property": "C38",
   "status": "proved",
   "theorems": [
    "Verif.Props.C38_insertion_order"
   ],
   "note": "Same form as C35."
  },
  {
   "property": "C39",
   "status": "partial",
   "theorems": [
    "Verif.Props.C39_unmarked_partial",
    "Verif.Props.C39_contents_partial",
    "Verif.Props.C39_empty_partial",
    "Verif.Props.C39_contents_do_not_determine_root",
    "Verif.Props.C39_emptied_trie_has_other_root"
   ],
   "note": "False: after removing a key all of whose present extensions go on with the same half byte the root differs (witnesses proved). Proved for histories without such removals, and for tries without leftover branches (C100)."
  },
  {
   "property": "C40",
   "status": "proved",
   "theorems": [
    "Verif.Props.C40_committed_roots_readable"
   ],
   "note": "Same form as C35."
  },
  {
   "property": "C41",
   "status": "partial",
   "theorems": [
    "Verif.Props.C41_pruning_safe_partial",
    "Verif.Props.C41_absent_removal_false",
    "Verif.Props.C41_shared_leaf_false",
    "Verif.Props.C41_removed_prefix_false"
   ],
   "note": "False: removing an absent key, changing one of two places at which the entries go on in the same way, or removing proper prefixes of present keys at which no entries part may delete live nodes (witnesses proved). Programs without these three agree call by call with an archive database and stay readable."
  },
  {
   "property": "C42",
   "status": "partial",
   "theorems": [
    "Verif.Props.C42_proofs_verify_partial",
    "Verif.Props.C42_empty_trie_false",
    "Verif.Props.C42_view_panics"
   ],
   "note": "Proved for tries that are not empty; false for the empty trie and on at_root views (proved)."
  },
  {
   "property": "C43",
   "status": "proved",
   "theorems": [
    "Verif.Props.C43_proof_sound"
   ],
   "note": "Conclusion is disjunctive: the claim, or an explicit hash collision among stored and proof bytes."
  },
  {
   "property": "C44",
   "status": "partial",
   "theorems": [
    "Verif.Props.C44_honest_root_partial",
    "Verif.Props.C44_harmless_parts_partial",
    "Verif.Props.C44_bytes_partial",
    "Verif.Props.C44_one_part",
    "Verif.Props.C44_verify_panics"
   ],
   "note": "False: a malformed proof node panics (proved). Never a panic for root hashes of commits, nor for proofs whose parts decode without panic and whose bare hashes do not lead in a circle. C44_one_part says for which single parts it panics."
  },
  {
   "property": "C45",
   "status": "partial",
   "theorems": [
    "Verif.Props.C45_iterate_partial",
    "Verif.Props.C45_exactly",
    "Verif.Props.C45_pruning_partial",
    "Verif.Props.C45_empty_key_panics",
    "Verif.Props.C45_lone_empty_key_false"
   ],
   "note": "Proved for tries without the empty key and with the empty key alone, on archive databases and, for programs as in C41, on pruning databases; with the empty key and another the iterator panics (proved), and with the empty key alone it may after a proper prefix of a present key was removed (witness). C45_exactly says when it holds and when it panics, in terms of the branches that removals have left (C100)."
  },
  {
   "property": "C46",
   "status": "partial",
   "theorems": [
    "Verif.Props.C46_compact_roundtrip_partial",
    "Verif.Props.C46_compact_injective",
    "Verif.Props.C46_raw_roundtrip_partial",
    "Verif.Props.C46_empty_path_panics"
   ],
   "note": "All nibble strings but the empty one without terminator, on which the encoders panic (proved)."
  },
  {
   "property": "C47",
   "status": "proved",
   "theorems": [
    "Verif.Props.C47_node_roundtrip",
    "Verif.Props.C47_same_encoding",
    "Verif.Props.C47_distinct"
   ],
   "note": ""
  },
  {
   "property": "C48",
   "status": "partial",
   "theorems": [
    "Verif.Props.C48_failed_insert_partial",
    "Verif.Props.C48_failed_remove_partial",
    "Verif.Props.C48_light_false",
    "Verif.Props.C48_lost_root_panics"
   ],
   "note": "Proved on archive databases with any set of lost nodes, unless the root node itself is lost and unread; false on a pruning database and for a view of a lost root (proved)."
  },
  {
   "property": "C49",
   "status": "partial",
   "theorems": [
    "Verif.Props.C49_reclaimed_partial",
    "Verif.Props.C49_root_copy_false"
   ],
   "note": "Proved for all nodes but roots; false for roots copied by an empty version (witness proved)."
  },
  {
   "property": "C50",
   "status": "partial",
   "theorems": [
    "Verif.Props.C50_stale_marks_partial",
    "Verif.Props.C50_root_marks_false"
   ],
   "note": "Proved for all nodes but roots; false for roots when a set in the middle is empty (witness proved)."
  },
  {
   "property": "C51",
   "status": "proved",
   "theorems": [
    "Verif.Props.C51_supplied_hashes",
    "Verif.Props.C51_some_hashes",
    "Verif.Props.C51_missing_hash",
    "Verif.Props.C51_wrong_hash_false"
   ],
   "note": "C51_wrong_hash_false: wrong hashes are not detected, so the condition is needed."
  },
  {
   "property": "C52",
   "status": "proved",
   "theorems": [
    "Verif.Props.C52_error_repeats"
   ],
   "note": "Any reader, any iterator state."
  },
  {
   "property": "C53",
   "status": "proved",
   "theorems": [
    "Verif.Props.C53_add_chunks_total",
    "Verif.Props.C53_resumed_panics"
   ],
   "note": "The second theorem shows that the restriction to a fresh store is needed."
  },
  {
   "property": "C54",
   "status": "proved",
   "theorems": [
    "Verif.Props.C54_root_determines_contents"
   ],
   "note": "Same form as C35."
  },
  {
   "property": "C55",
   "status": "partial",
   "theorems": [
    "Verif.Props.C55_nonexistence_exists_partial",
    "Verif.Props.C55_nonexistence_verifies_partial",
    "Verif.Props.C55_empty_value_false",
    "Verif.Props.C55_exact",
    "Verif.Props.C55_verifies_exact"
   ],
   "note": "Returned under the condition of C19 and stored preimages; verifies when the neighbours' keys and values are non-empty and within the depth limit of ics23_spec. False next to an empty value (witness). C55_exact and C55_verifies_exact say exactly when a proof is returned and when it verifies."
  },
  {
   "property": "C56",
   "status": "proved",
   "theorems": [
    "Verif.Props.C56_existence_sound"
   ],
   "note": "Conclusion is disjunctive: the claim, or an explicit collision between bytes hashed on the two sides."
  },
  {
   "property": "C57",
   "status": "proved",
   "theorems": [
    "Verif.Props.C57_nonexistence_sound"
   ],
   "note": "Same form as C56."
  },
  {
   "property": "C58",
   "status": "partial",
   "theorems": [
    "Verif.Props.C58_unmarked_partial",
    "Verif.Props.C58_insert_only",
    "Verif.Props.C58_yellow_paper_root_partial",
    "Verif.Props.C58_committed_roots_partial",
    "Verif.Props.C58_entries_exist",
    "Verif.Props.C58_rlp",
    "Verif.Props.C58_hex_prefix_partial",
    "Verif.Props.C58_removed_prefix_false"
   ],
   "note": "Proved for programs without remove, and for programs whose removals are of keys that are absent, proper prefixes of no present key, or keys at which other entries part, and for tries without leftover branches (C100); false otherwise (witness). Disjunctive: the claim, or a collision among the stored encodings."
  },
  {
   "property": "C59",
   "status": "partial",
   "theorems": [
    "Verif.Props.C59_only_old_roots_partial",
    "Verif.Props.C59_old_root_false",
    "Verif.Props.C59_proof_false"
   ],
   "note": "False: the root node of every commit stays stored, and get_proof before a change leaves nodes behind (witnesses). For programs as in C41 without get_proof: everything found from the last root is stored, and everything stored is found from it or is an earlier root. Disjunctive: the claim, or a collision among the stored encodings."
  },
  {
   "property": "C60",
   "status": "proved",
   "theorems": [
    "Verif.Props.C60_proof_unique"
   ],
   "note": "Conclusion is disjunctive: the claim, or an explicit clash between inputs hashed by the verification and by the root hash."
  },
  {
   "property": "C61",
   "status": "proved",
   "theorems": [
    "Verif.Props.C61_node",
    "Verif.Props.C61_node_fits",
    "Verif.Props.C61_node_key",
    "Verif.Props.C61_stale",
    "Verif.Props.C61_proof",
    "Verif.Props.C61_range_proof",
    "Verif.Props.C61_store",
    "Verif.Props.C61_node_key_unchecked_false",
    "Verif.Props.C61_node_unchecked_false"
   ],
   "note": "The two _false theorems show that reading arbitrary bytes does not check what the constructors require; this is not part of the claim."
  },
  {
   "property": "C62",
   "status": "proved",
   "theorems": [
    "Verif.Props.C62_contains",
    "Verif.Props.C62_accepts",
    "Verif.Props.C62_only"
   ],
   "note": "C62_only is disjunctive: the claim, or an explicit clash between inputs hashed by the verification and by the root hash."
  },
  {
   "property": "C63",
   "status": "proved",
   "theorems": [
    "Verif.Props.C63_as_unpruned",
    "Verif.Props.C63_get_with_proof",
    "Verif.Props.C63_root_hash",
    "Verif.Props.C63_iterate"
   ],
   "note": ""
  },
  {
   "property": "C64",
   "status": "proved",
   "theorems": [
    "Verif.Props.C64_roundtrip",
    "Verif.Props.C64_order",
    "Verif.Props.C64_other_length"
   ],
   "note": "Byte strings of another length are read as version 0."
  },
  {
   "property": "C65",
   "status": "partial",
   "theorems": [
    "Verif.Props.C65_update_same_partial",
    "Verif.Props.C65_update_roots_partial",
    "Verif.Props.C65_batch_same",
    "Verif.Props.C65_batch_roots",
    "Verif.Props.C65_update_false"
   ],
   "note": "False for put_value_sets with a set that deletes again after it has removed the last key (witness). Proved for put_value_sets without such sets, and for batch_put_value_sets."
  },
  {
   "property": "C66",
   "status": "partial",
   "theorems": [
    "Verif.Props.C66_update_partial",
    "Verif.Props.C66_batch",
    "Verif.Props.C66_pruned_false",
    "Verif.Props.C66_gap_false"
   ],
   "note": "False for put_value_sets when the root node of the version is missing: it starts from the empty map (witnesses). Proved where the root hash of the version can be read, under the condition of C65, and for batch_put_value_sets at every version."
  },
  {
   "property": "C67",
   "status": "partial",
   "theorems": [
    "Verif.Props.C67_iterate_lost_partial",
    "Verif.Props.C67_silent_false",
    "Verif.Props.C67_lost_root_yields_nothing"
   ],
   "note": "False in that the loss is not reported (witness). The rest is proved for tries without the empty key; disjunctive: the claim, or a collision among the stored encodings."
  },
  {
   "property": "C68",
   "status": "proved",
   "theorems": [
    "Verif.Props.C68_accepts_exactly"
   ],
   "note": "Conclusion is disjunctive: the claim, or an explicit hash collision among stored and proof bytes."
  },
  {
   "property": "C69",
   "status": "proved",
   "theorems": [
    "Verif.Props.C69_literal",
    "Verif.Props.C69_distinct",
    "Verif.Props.C69_printable"
   ],
   "note": ""
  },
  {
   "property": "C70",
   "status": "proved",
   "theorems": [
    "Verif.Props.C70_update_local",
    "Verif.Props.C70_batch_local"
   ],
   "note": ""
  },
  {
   "property": "C71",
   "status": "partial",
   "theorems": [
    "Verif.Props.C71_as_undamaged_partial",
    "Verif.Props.C71_ics23",
    "Verif.Props.C71_get_with_proof",
    "Verif.Props.C71_root_hash",
    "Verif.Props.C71_iterate",
    "Verif.Props.C71_history_false"
   ],
   "note": "Proved for lost nodes and for values that are not found at all; false when a single entry of a key's history is lost (witness)."
  },
  {
   "property": "C72",
   "status": "partial",
   "theorems": [
    "Verif.Props.C72_ends_partial",
    "Verif.Props.C72_repeats",
    "Verif.Props.C72_endless_false"
   ],
   "note": "False: after an error the iterator reports it forever (witness). Proved: the pairs are finitely many; then the iterator ends, or reports an error and ends, or repeats the error forever."
  },
  {
   "property": "C73",
   "status": "partial",
   "theorems": [
    "Verif.Props.C73_reopen_partial",
    "Verif.Props.C73_same_contents_panics",
    "Verif.Props.C73_absent_removal_panics"
   ],
   "note": "False when an opened trie is committed with the contents of the opened root and the root node is short (witnesses). Proved for programs as in C41 that avoid this. Disjunctive: the claim, or a collision among the stored encodings."
  },
  {
   "property": "C74",
   "status": "proved",
   "theorems": [
    "Verif.Props.C74_proof_shape",
    "Verif.Props.C74_present_key",
    "Verif.Props.C74_at_most_one_key"
   ],
   "note": ""
  },
  {
   "property": "C75",
   "status": "proved",
   "theorems": [
    "Verif.Props.C75_range_proof_unique",
    "Verif.Props.C75_chunk_proof"
   ],
   "note": "Conclusions are disjunctive: the claim, or an explicit clash between inputs hashed by the verification and by the root hash."
  },
  {
   "property": "C76",
   "status": "proved",
   "theorems": [
    "Verif.Props.C76_batch_read_back",
    "Verif.Props.C76_batch_bytes_injective",
    "Verif.Props.C76_computed_fits",
    "Verif.Props.C76_other_bytes_false"
   ],
   "note": "The _false theorem shows that other bytes are read as the same batch too; this is not part of the claim."
  },
  {
   "property": "C77",
   "status": "partial",
   "theorems": [
    "Verif.Props.C77_failed_commits",
    "Verif.Props.C77_pruning_partial",
    "Verif.Props.C77_insert_failure_partial",
    "Verif.Props.C77_last_root_lost"
   ],
   "note": "Proved on archive databases. On pruning databases proved for the trie itself in programs as in C41, and for views when the failure is while writing; false for views of the last root when it is while removing (witness). Disjunctive: the claim, or a collision among the stored encodings."
  },
  {
   "property": "C78",
   "status": "proved",
   "theorems": [
    "Verif.Props.C78_is_empty",
    "Verif.Props.C78_len",
    "Verif.Props.C78_len_grows",
    "Verif.Props.C78_not_contents"
   ],
   "note": "C78_len and C78_len_grows are disjunctive: the claim, or a collision among the stored encodings. C78_not_contents shows that the functions do not describe the contents of the trie."
  },
  {
   "property": "C79",
   "status": "proved",
   "theorems": [
    "Verif.Props.C79_get_with_proof",
    "Verif.Props.C79_root_hash",
    "Verif.Props.C79_range_proof",
    "Verif.Props.C79_iterate",
    "Verif.Props.C79_iterate_index",
    "Verif.Props.C79_moments"
   ],
   "note": "C79_moments shows that the moments spoken of occur: every beginning of the writes, in every order, succeeds."
  },
  {
   "property": "C80",
   "status": "partial",
   "theorems": [
    "Verif.Props.C80_redo",
    "Verif.Props.C80_redo_one",
    "Verif.Props.C80_redo_panics",
    "Verif.Props.C80_recompute_partial",
    "Verif.Props.C80_reads_before_marks",
    "Verif.Props.C80_failed_attempt",
    "Verif.Props.C80_recompute_false",
    "Verif.Props.C80_other_update_false"
   ],
   "note": "Proved exactly when writing the same batch again succeeds (no stale mark and at most one value per key written so far), and that it then completes the write. Computing the update again gives the same batch for batch_put_value_sets, and for put_value_sets under the condition of C65 when a version exists; false otherwise (witness)."
  },
  {
   "property": "C81",
   "status": "proved",
   "theorems": [
    "Verif.Props.C81_calls_read_little",
    "Verif.Props.C81_commit_writes_little",
    "Verif.Props.C81_one_update",
    "Verif.Props.C81_pruning"
   ],
   "note": "Costs are counted in database entries that a result depends on and in nodes written and removed, not in time."
  },
  {
   "property": "C82",
   "status": "proved",
   "theorems": [
    "Verif.Props.C82_continue",
    "Verif.Props.C82_same_as_source",
    "Verif.Props.C82_resumed"
   ],
   "note": "The destination is empty: no nodes, values or stale node indices."
  },
  {
   "property": "C83",
   "status": "partial",
   "theorems": [
    "Verif.Props.C83_roundtrip",
    "Verif.Props.C83_distinct",
    "Verif.Props.C83_programs",
    "Verif.Props.C83_unsaved_partial",
    "Verif.Props.C83_never_wrong",
    "Verif.Props.C83_text",
    "Verif.Props.C83_documents",
    "Verif.Props.C83_written",
    "Verif.Props.C83_arrays",
    "Verif.Props.C83_unchecked",
    "Verif.Props.C83_committed_false",
    "Verif.Props.C83_too_deep"
   ],
   "note": "False of tries that have been committed (C83_committed_false), proved for tries in memory only; what is read is never wrong (C83_never_wrong). Deep tries cannot be deserialised (C83_too_deep)."
  },
  {
   "property": "C84",
   "status": "partial",
   "theorems": [
    "Verif.Props.C84_beside_partial",
    "Verif.Props.C84_genuine",
    "Verif.Props.C84_room",
    "Verif.Props.C84_new_false",
    "Verif.Props.C84_new_goes_on",
    "Verif.Props.C84_value_left_false"
   ],
   "note": "Proved for new_overwrite. The full claim is false of new, which cannot be used on a store with other versions (C84_new_false, C84_new_goes_on), and of get_value_option for keys not in the restored version (C84_value_left_false)."
  },
  {
   "property": "C85",
   "status": "partial",
   "theorems": [
    "Verif.Props.C85_trie",
    "Verif.Props.C85_store_partial",
    "Verif.Props.C85_calls",
    "Verif.Props.C85_freeze",
    "Verif.Props.C85_rightmost_partial",
    "Verif.Props.C85_new_false"
   ],
   "note": "Proved of the trie, and of updates, pruning and reads of the tree. False of get_rightmost_leaf and hence of JellyfishMerkleRestore::new when the greatest key has several leaves (C85_new_false)."
  },
  {
   "property": "C86",
   "status": "proved",
   "theorems": [
    "Verif.Props.C86_reads",
    "Verif.Props.C86_goes_on",
    "Verif.Props.C86_newest_kept",
    "Verif.Props.C86_room"
   ],
   "note": "Any number of restores with new_overwrite at unused version numbers, each followed by updates and prunings. new cannot be used for this (C84)."
  },
  {
   "property": "C87",
   "status": "partial",
   "theorems": [
    "Verif.Props.C87_refused",
    "Verif.Props.C87_older_partial",
    "Verif.Props.C87_damage_false"
   ],
   "note": "Proved: the write panics, values and stale marks are unchanged and older versions are read as before. False of the version itself, since a node is replaced before the assertion fails (C87_damage_false)."
  },
  {
   "property": "C88",
   "status": "partial",
   "theorems": [
    "Verif.Props.C88_node",
    "Verif.Props.C88_node_fits",
    "Verif.Props.C88_node_key",
    "Verif.Props.C88_proof",
    "Verif.Props.C88_distinct",
    "Verif.Props.C88_no_panic",
    "Verif.Props.C88_proof_fields",
    "Verif.Props.C88_node_fields",
    "Verif.Props.C88_absent",
    "Verif.Props.C88_documents",
    "Verif.Props.C88_written",
    "Verif.Props.C88_refused",
    "Verif.Props.C88_arrays",
    "Verif.Props.C88_proof_verifies",
    "Verif.Props.C88_store",
    "Verif.Props.C88_made_partial",
    "Verif.Props.C88_new",
    "Verif.Props.C88_leaf_count",
    "Verif.Props.C88_node_unchecked_false",
    "Verif.Props.C88_path_unchecked_false"
   ],
   "note": "Proved of JSON values; the text of a document is not modelled. The claim that what is read could have been made with the constructors is false (C88_node_unchecked_false, C88_path_unchecked_false)."
  },
  {
   "property": "C89",
   "status": "partial",
   "theorems": [
    "Verif.Props.C89_contents",
    "Verif.Props.C89_write_partial",
    "Verif.Props.C89_collected",
    "Verif.Props.C89_refused_false"
   ],
   "note": "Proved wherever the batches can be written one after another; false that the merged batch is refused where one of them is (C89_refused_false)."
  },
  {
   "property": "C90",
   "status": "partial",
   "theorems": [
    "Verif.Props.C90_when",
    "Verif.Props.C90_stored",
    "Verif.Props.C90_root",
    "Verif.Props.C90_refused_partial",
    "Verif.Props.C90_refused_false"
   ],
   "note": "A failing put_leaf changes nothing when the node key is taken (C90_refused_partial); false when the value is refused (C90_refused_false)."
  },
  {
   "property": "C91",
   "status": "proved",
   "theorems": [
    "Verif.Props.C91_preimage",
    "Verif.Props.C91_sound",
    "Verif.Props.C91_nonexistence"
   ],
   "note": "C91_nonexistence has the conditions of C55 (keys alone in their first 64 bits, non-empty values, neighbours written by the commit), without which C55 is false."
  },
  {
   "property": "C92",
   "status": "proved",
   "theorems": [
    "Verif.Props.C92_key",
    "Verif.Props.C92_path"
   ],
   "note": ""
  },
  {
   "property": "C93",
   "status": "partial",
   "theorems": [
    "Verif.Props.C93_hash_text",
    "Verif.Props.C93_path_text_partial",
    "Verif.Props.C93_node_key_distinct_partial",
    "Verif.Props.C93_missing_root",
    "Verif.Props.C93_unchecked_panics_false"
   ],
   "note": "Proved of paths made with the methods of NibblePath. False of paths read from documents, which can panic when printed (C93_unchecked_panics_false). Only the one-line form of the texts is modelled."
  },
  {
   "property": "C94",
   "status": "partial",
   "theorems": [
    "Verif.Props.C94_wellformed",
    "Verif.Props.C94_lengths",
    "Verif.Props.C94_written_again",
    "Verif.Props.C94_format",
    "Verif.Props.C94_read_back_partial",
    "Verif.Props.C94_accepted",
    "Verif.Props.C94_breaks",
    "Verif.Props.C94_one_encoding_false"
   ],
   "note": "False: other bytes than those written are accepted (C94_one_encoding_false). Proved: what is accepted is a well-formed node, lengths are accepted in one form only, the bytes written are exactly the encodings of the node items of the Yellow Paper, and these are read back and written as the same bytes. C94_accepted and C94_breaks say exactly which bytes are accepted and which panic."
  },
  {
   "property": "C95",
   "status": "partial",
   "theorems": [
    "Verif.Props.C95_reads_partial",
    "Verif.Props.C95_ics23_partial",
    "Verif.Props.C95_lookups",
    "Verif.Props.C95_updates",
    "Verif.Props.C95_restore",
    "Verif.Props.C95_right_or_error",
    "Verif.Props.C95_flawless",
    "Verif.Props.C95_root_false"
   ],
   "note": "False in that an error in reading the root is reported as a missing root by get_with_proof and exclusion proofs (C95_root_false); the rest is proved."
  },
  {
   "property": "C96",
   "status": "partial",
   "theorems": [
    "Verif.Props.C96_resume_partial",
    "Verif.Props.C96_resume_index_partial",
    "Verif.Props.C96_all_in_the_end_partial",
    "Verif.Props.C96_single_false"
   ],
   "note": "False for versions with exactly one key, whose pair is lost when its value cannot be read (C96_single_false); proved otherwise. The order and the errors are proved for all versions."
  },
  {
   "property": "C97",
   "status": "partial",
   "theorems": [
    "Verif.Props.C97_calls",
    "Verif.Props.C97_no_failures",
    "Verif.Props.C97_failed_calls_partial",
    "Verif.Props.C97_made_again",
    "Verif.Props.C97_values_partial",
    "Verif.Props.C97_pruning_false",
    "Verif.Props.C97_values_false",
    "Verif.Props.C97_skips_false",
    "Verif.Props.C97_len_false"
   ],
   "note": "False for failed updates that are not made again on a pruning database (C97_pruning_false), and in that listings, iterators, len and is_empty hide the error (C97_values_false, C97_skips_false, C97_len_false); the rest is proved."
  },
  {
   "property": "C98",
   "status": "partial",
   "theorems": [
    "Verif.Props.C98_threads_partial",
    "Verif.Props.C98_no_proof_partial",
    "Verif.Props.C98_maps_partial",
    "Verif.Props.C98_finishes_partial",
    "Verif.Props.C98_pruning_false",
    "Verif.Props.C98_len_false"
   ],
   "note": "Proved for archive databases; false of pruning databases (C98_pruning_false) and of len, is_empty and values of MemoryDB while another thread writes (C98_len_false)."
  },
  {
   "property": "C99",
   "status": "partial",
   "theorems": [
    "Verif.Props.C99_calls_partial",
    "Verif.Props.C99_pairs_partial",
    "Verif.Props.C99_threads_partial",
    "Verif.Props.C99_pruning_false"
   ],
   "note": "Proved for archive databases, with the exceptions of C45 for the empty key; false of pruning databases (C99_pruning_false)."
  },
  {
   "property": "C100",
   "status": "proved",
   "theorems": [
    "Verif.Props.C100_removals_leave_marked_branches",
    "Verif.Props.C100_committed_roots",
    "Verif.Props.C100_maps",
    "Verif.Props.C100_unmarked_root",
    "Verif.Props.C100_plain_unmarked",
    "Verif.Props.C100_marks_not_needed",
    "Verif.Props.C100_marks_were_removed",
    "Verif.Props.C100_example",
    "Verif.Props.C100_depends_on_memory"
   ],
   "note": ""
  },
  {
   "property": "C101",
   "status": "partial",
   "theorems": [
    "Verif.Props.C101_new_genesis_partial",
    "Verif.Props.C101_idle_first_version",
    "Verif.Props.C101_mock_store",
    "Verif.Props.C101_old_keys_false",
    "Verif.Props.C101_state_lost",
    "Verif.Props.C101_state_lost_false",
    "Verif.Props.C101_batch_fails"
   ],
   "note": "The roots are right for the first call. The rest of the claim is false: keys that keep their value from before genesis can not be read (C101_old_keys_false, and for all runs the last clause of the partial theorem), a version 0 without effect has no root (C101_idle_first_version) and if it is the only one of the first call the state is lost (C101_state_lost, for all restores, and the witness C101_state_lost_false; batch_put_value_sets fails instead, C101_batch_fails), and the mock store refuses sets that mention an old key (C101_mock_store). The partial theorem has everything else: further calls, roots, leaf counts and proofs of all other versions."
  },
  {
   "property": "C102",
   "status": "partial",
   "theorems": [
    "Verif.Props.C102_put_partial",
    "Verif.Props.C102_batch_partial",
    "Verif.Props.C102_history_partial",
    "Verif.Props.C102_checked_put",
    "Verif.Props.C102_checked_batch",
    "Verif.Props.C102_checked_history",
    "Verif.Props.C102_last_version_false",
    "Verif.Props.C102_wraps_false"
   ],
   "note": "Proved for all calls and histories whose versions stay below u64::MAX, and without overflow checks for those that end with u64::MAX. With overflow checks the claim is false for every call that makes version u64::MAX (C102_checked_put, C102_checked_batch, for all inputs; C102_checked_history says exactly which histories go through; witness C102_last_version_false). C102_wraps_false shows what happens beyond the range without checks."
  },
  {
   "property": "C103",
   "status": "partial",
   "theorems": [
    "Verif.Props.C103_store_down_partial",
    "Verif.Props.C103_finish",
    "Verif.Props.C103_finish_down",
    "Verif.Props.C103_sound",
    "Verif.Props.C103_store_kept",
    "Verif.Props.C103_again_false",
    "Verif.Props.C103_unconfirmed_false"
   ],
   "note": "Proved for all calls on a fresh restore and all patterns of failing writes: outcomes, soundness of what a successful call leaves, and the finished version, node for node. False: a chunk whose write failed is refused when it is given again (C103_again_false, for every state and chunk). C103_finish says exactly when finish returns Ok and when it panics; C103_unconfirmed_false shows that it also writes pairs whose proof was refused."
  },
  {
   "property": "C104",
   "status": "partial",
   "theorems": [
    "Verif.Props.C104_started_over_partial",
    "Verif.Props.C104_genuine",
    "Verif.Props.C104_outcomes",
    "Verif.Props.C104_left",
    "Verif.Props.C104_no_panic",
    "Verif.Props.C104_resume_false",
    "Verif.Props.C104_resume_leaf_false",
    "Verif.Props.C104_no_overwrite_false"
   ],
   "note": "Proved for restores by new_overwrite on a store that lets nodes be overwritten, after any number of restores of the version that broke off in any call with any part of the batch written. False of new: it goes on after the rightmost stored leaf, and finish returns Ok with the expected root hash for a version with a missing value (C104_resume_false) or a missing leaf (C104_resume_leaf_false). False of a store that does not allow overwriting: new_overwrite panics (C104_no_overwrite_false)."
  },
  {
   "property": "C105",
   "status": "partial",
   "theorems": [
    "Verif.Props.C105_unchanged_partial",
    "Verif.Props.C105_refused",
    "Verif.Props.C105_no_way_on",
    "Verif.Props.C105_refused_chunk_false",
    "Verif.Props.C105_next_chunk_panics"
   ],
   "note": "Proved for stores without values of a later version than the one restored for keys in the chunks. False of others: the nodes of a refused chunk are written, over nodes in use (C105_refused_chunk_false), no later call and no finish returns Ok (C105_no_way_on), and the next chunk panics on a store that does not allow overwriting (C105_next_chunk_panics)."
  },
  {
   "property": "C106",
   "status": "proved",
   "theorems": [
    "Verif.Props.C106_answer",
    "Verif.Props.C106_panic",
    "Verif.Props.C106_invalid",
    "Verif.Props.C106_more_parts",
    "Verif.Props.C106_one_answer"
   ],
   "note": "The depth of the recursion is not limited in the model; a long chain of parts can overflow the stack of the Rust program."
  },
  {
   "property": "C107",
   "status": "proved",
   "theorems": [
    "Verif.Props.C107_answer",
    "Verif.Props.C107_panic",
    "Verif.Props.C107_error",
    "Verif.Props.C107_lost",
    "Verif.Props.C107_same"
   ],
   "note": "The depth of the recursion is not limited in the model."
  },
  {
   "property": "C108",
   "status": "proved",
   "theorems": [
    "Verif.Props.C108_inserted",
    "Verif.Props.C108_error",
    "Verif.Props.C108_panic",
    "Verif.Props.C108_succeeds",
    "Verif.Props.C108_many"
   ],
   "note": "The depth of the recursion is not limited in the model."
  },
  {
   "property": "C109",
   "status": "proved",
   "theorems": [
    "Verif.Props.C109_removed",
    "Verif.Props.C109_failed",
    "Verif.Props.C109_error",
    "Verif.Props.C109_panic",
    "Verif.Props.C109_calls",
    "Verif.Props.C109_wellformed",
    "Verif.Props.C109_may_fail"
   ],
   "note": "The depth of the recursion is not limited in the model."
  },
  {
   "property": "C110",
   "status": "proved",
   "theorems": [
    "Verif.Props.C110_error",
    "Verif.Props.C110_panic",
    "Verif.Props.C110_readable",
    "Verif.Props.C110_committed",
    "Verif.Props.C110_proofs",
    "Verif.Props.C110_honest",
    "Verif.Props.C110_program"
   ],
   "note": "The depth of the recursion is not limited in the model. The proof of an empty trie does not verify (C42_empty_trie_false), and get_proof on a view made by at_root panics (C42_view_panics); both are outside of the hypotheses of C110_proofs."
  },
  {
   "property": "C111",
   "status": "proved",
   "theorems": [
    "Verif.Props.C111_reads",
    "Verif.Props.C111_pruning",
    "Verif.Props.C111_again",
    "Verif.Props.C111_succeeds",
    "Verif.Props.C111_root",
    "Verif.Props.C111_insert",
    "Verif.Props.C111_calls",
    "Verif.Props.C111_program",
    "Verif.Props.C111_empty"
   ],
   "note": "On pruning databases only C111_pruning: a commit removes nodes that other tries may refer to (C41, C73), so a key may be missing afterwards. C111_empty is the witness that the hypothesis on empty values is needed. The depth of the recursion is not limited in the model."
  },
  {
   "property": "C112",
   "status": "proved",
   "theorems": [
    "Verif.Props.C112_values",
    "Verif.Props.C112_pairs",
    "Verif.Props.C112_fails",
    "Verif.Props.C112_ends",
    "Verif.Props.C112_cycle",
    "Verif.Props.C112_odd",
    "Verif.Props.C112_stops"
   ],
   "note": "The iterator has a limit of rounds in the model; a database with a cycle among its nodes uses up every limit (C112_cycle), one without does not (C112_ends). C112_odd and C112_stops are the witnesses that the hypotheses on paths and stored bytes are needed. Extends C45 and C67, which are about databases written by this crate."
  },
  {
   "property": "C113",
   "status": "proved",
   "theorems": [
    "Verif.Props.C113_calls",
    "Verif.Props.C113_rest",
    "Verif.Props.C113_odd",
    "Verif.Props.C113_total",
    "Verif.Props.C113_program"
   ],
   "note": "Builds on C109, C111 and C112. That iterating ends is a hypothesis of C113_calls, C113_rest and C113_program; C113_total derives it if no walk along stored nodes is endless. In C113_program the paths at the end have to be of an even length, because a commit may have written a node that was missing before."
  }
 ]
}
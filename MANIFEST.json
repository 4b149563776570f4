{
 "claims": [
  {
   "property": "C01",
   "status": "proved",
   "theorems": [
    "FuelMerkle.Props.C01_binary_root",
    "FuelMerkle.Props.C01_binary_root_sha256"
   ],
   "note": "Every hash function; instantiated for SHA-256 in C01_binary_root_sha256."
  },
  {
   "property": "C02",
   "status": "proved",
   "theorems": [
    "FuelMerkle.Props.C02_binary_empty_root",
    "FuelMerkle.Props.C02_sum_empty_root"
   ],
   "note": ""
  },
  {
   "property": "C03",
   "status": "proved",
   "theorems": [
    "FuelMerkle.Props.C03_binary_proof"
   ],
   "note": "Fewer than 2^62 leaves (sharp under overflow checks, C22)."
  },
  {
   "property": "C04",
   "status": "proved",
   "theorems": [
    "FuelMerkle.Props.C04_index_rejected",
    "FuelMerkle.Props.C04_max_index_panics",
    "FuelMerkle.Props.C04_max_index_wraps"
   ],
   "note": "Defect: i = u64::MAX panics (checks on) or passes the range check (checks off)."
  },
  {
   "property": "C05",
   "status": "proved",
   "theorems": [
    "FuelMerkle.Props.C05_generated_proofs_verify"
   ],
   "note": ""
  },
  {
   "property": "C06",
   "status": "proved",
   "theorems": [
    "FuelMerkle.Props.C06_accepted_proofs_sound",
    "FuelMerkle.Props.C06_length_not_checked"
   ],
   "note": "Collision extraction, no injectivity assumption. C06_length_not_checked: verify does not check the proof set length, so a padded proof is accepted too."
  },
  {
   "property": "C07",
   "status": "proved",
   "theorems": [
    "FuelMerkle.Props.C07_root_commits",
    "FuelMerkle.Props.C07_root_commits_sha256"
   ],
   "note": ""
  },
  {
   "property": "C08",
   "status": "proved",
   "theorems": [
    "FuelMerkle.Props.C08_storage_contents"
   ],
   "note": ""
  },
  {
   "property": "C09",
   "status": "proved",
   "theorems": [
    "FuelMerkle.Props.C09_load_restores"
   ],
   "note": ""
  },
  {
   "property": "C10",
   "status": "proved",
   "theorems": [
    "FuelMerkle.Props.C10_load_prefix",
    "FuelMerkle.Props.C10_load_prefix_root"
   ],
   "note": ""
  },
  {
   "property": "C11",
   "status": "proved",
   "theorems": [
    "FuelMerkle.Props.C11_load_missing",
    "FuelMerkle.Props.C11_load_panics_beyond"
   ],
   "note": "Defect: load panics for 2^62 <= n < 2^63 under overflow checks."
  },
  {
   "property": "C12",
   "status": "proved",
   "theorems": [
    "FuelMerkle.Props.C12_interrupted_push",
    "FuelMerkle.Props.C12_push_error_is_storage_error"
   ],
   "note": ""
  },
  {
   "property": "C13",
   "status": "proved",
   "theorems": [
    "FuelMerkle.Props.C13_failed_push_changes_root",
    "FuelMerkle.Props.C13_failed_push"
   ],
   "note": "Defect: C13_failed_push_changes_root refutes the expectation that a failed push leaves the open tree unchanged; C13_failed_push is the exact behaviour."
  },
  {
   "property": "C14",
   "status": "proved",
   "theorems": [
    "FuelMerkle.Props.C14_prove_pure",
    "FuelMerkle.Props.C14_observations_invisible"
   ],
   "note": ""
  },
  {
   "property": "C15",
   "status": "proved",
   "theorems": [
    "FuelMerkle.Props.C15_records_immutable",
    "FuelMerkle.Props.C15_records_immutable_crash"
   ],
   "note": ""
  },
  {
   "property": "C16",
   "status": "proved",
   "theorems": [
    "FuelMerkle.Props.C16_storage_growth"
   ],
   "note": ""
  },
  {
   "property": "C17",
   "status": "proved",
   "theorems": [
    "FuelMerkle.Props.C17_acknowledged_survive",
    "FuelMerkle.Props.C17_reopen_succeeds"
   ],
   "note": ""
  },
  {
   "property": "C18",
   "status": "proved",
   "theorems": [
    "FuelMerkle.Props.C18_in_order",
    "FuelMerkle.Props.C18_height",
    "FuelMerkle.Props.C18_leaf"
   ],
   "note": ""
  },
  {
   "property": "C19",
   "status": "proved",
   "theorems": [
    "FuelMerkle.Props.C19_parent_of_children",
    "FuelMerkle.Props.C19_child_of_parent"
   ],
   "note": ""
  },
  {
   "property": "C20",
   "status": "proved",
   "theorems": [
    "FuelMerkle.Props.C20_sibling",
    "FuelMerkle.Props.C20_uncle"
   ],
   "note": ""
  },
  {
   "property": "C21",
   "status": "proved",
   "theorems": [
    "FuelMerkle.Props.C21_leaf_index_round_trip",
    "FuelMerkle.Props.C21_leaves",
    "FuelMerkle.Props.C21_leaf_index_overflow"
   ],
   "note": ""
  },
  {
   "property": "C22",
   "status": "proved",
   "theorems": [
    "FuelMerkle.Props.C22_parent",
    "FuelMerkle.Props.C22_sibling",
    "FuelMerkle.Props.C22_children",
    "FuelMerkle.Props.C22_wrapping",
    "FuelMerkle.Props.C22_path_panics_beyond"
   ],
   "note": "Exact set of overflowing indices."
  },
  {
   "property": "C23",
   "status": "proved",
   "theorems": [
    "FuelMerkle.Props.C23_path_iteration"
   ],
   "note": ""
  },
  {
   "property": "C24",
   "status": "proved",
   "theorems": [
    "FuelMerkle.Props.C24_position_path"
   ],
   "note": ""
  },
  {
   "property": "C25",
   "status": "proved",
   "theorems": [
    "FuelMerkle.Props.C25_peaks",
    "FuelMerkle.Props.C25_peaks_cover"
   ],
   "note": ""
  },
  {
   "property": "C26",
   "status": "proved",
   "theorems": [
    "FuelMerkle.Props.C26_bit_addressing"
   ],
   "note": ""
  },
  {
   "property": "C27",
   "status": "proved",
   "theorems": [
    "FuelMerkle.Props.C27_common_prefix"
   ],
   "note": ""
  },
  {
   "property": "C28",
   "status": "proved",
   "theorems": [
    "FuelMerkle.Props.C28_root_of_history",
    "FuelMerkle.Props.C28_root_canonical",
    "FuelMerkle.Props.C28_updates_clean",
    "FuelMerkle.Props.C28_stale_delete_loses_key"
   ],
   "note": "Defect: stale deletes remove other keys (C28_stale_delete_loses_key). C28_root_of_history gives the exact root after every history, C28_root_canonical the intended one for histories without stale deletes. The hash function is arbitrary; the finitely many messages of the history must not collide, hash to zero or to a used key (shown satisfiable for SHA-256)."
  },
  {
   "property": "C29",
   "status": "proved",
   "theorems": [
    "FuelMerkle.Props.C29_same_state_same_root",
    "FuelMerkle.Props.C29_same_map_same_root",
    "FuelMerkle.Props.C29_update_order"
   ],
   "note": "Any two histories with the same final map, update histories in particular."
  },
  {
   "property": "C30",
   "status": "proved",
   "theorems": [
    "FuelMerkle.Props.C30_delete_present",
    "FuelMerkle.Props.C30_delete_present_clean",
    "FuelMerkle.Props.C30_insert_delete",
    "FuelMerkle.Props.C30_zero_key_undeletable"
   ],
   "note": "Exception for the all-zero key after a stale delete: C30_zero_key_undeletable."
  },
  {
   "property": "C31",
   "status": "proved",
   "theorems": [
    "FuelMerkle.Props.C31_delete_never_stored",
    "FuelMerkle.Props.C31_delete_stale"
   ],
   "note": "Defect: see C28_stale_delete_loses_key and C31_delete_stale."
  },
  {
   "property": "C32",
   "status": "proved",
   "theorems": [
    "FuelMerkle.Props.C32_update_overwrites",
    "FuelMerkle.Props.C32_update_idempotent"
   ],
   "note": ""
  },
  {
   "property": "C33",
   "status": "proved",
   "theorems": [
    "FuelMerkle.Props.C33_update_empty",
    "FuelMerkle.Props.C33_in_histories"
   ],
   "note": ""
  },
  {
   "property": "C34",
   "status": "proved",
   "theorems": [
    "FuelMerkle.Props.C34_zero_root",
    "FuelMerkle.Props.C34_zero_root_clean"
   ],
   "note": ""
  },
  {
   "property": "C35",
   "status": "proved",
   "theorems": [
    "FuelMerkle.Props.C35_load_current",
    "FuelMerkle.Props.C35_load_empty",
    "FuelMerkle.Props.C35_load_empty_resurrects"
   ],
   "note": "Defect: the empty tree cannot be re-loaded (C35_load_empty), and loading the zero root can resurrect a deleted leaf (C35_load_empty_resurrects)."
  },
  {
   "property": "C36",
   "status": "proved",
   "theorems": [
    "FuelMerkle.Props.C36_load_error",
    "FuelMerkle.Props.C36_deserialize_error",
    "FuelMerkle.Props.C36_storage_error",
    "FuelMerkle.Props.C36_load_total"
   ],
   "note": ""
  },
  {
   "property": "C37",
   "status": "proved",
   "theorems": [
    "FuelMerkle.Props.C37_old_root"
   ],
   "note": ""
  },
  {
   "property": "C38",
   "status": "proved",
   "theorems": [
    "FuelMerkle.Props.C38_failed_call_keeps_root",
    "FuelMerkle.Props.C38_interrupted_updates"
   ],
   "note": "Any number of failing updates at any calls, with or without the failing write applied."
  },
  {
   "property": "C39",
   "status": "proved",
   "theorems": [
    "FuelMerkle.Props.C39_root_after_failures",
    "FuelMerkle.Props.C39_interrupted_delete_loses_root",
    "FuelMerkle.Props.C39_interrupted_delete_loses_node"
   ],
   "note": "Defect: delete removes nodes before writing the new ones; C39_interrupted_delete_* are witnesses with SHA-256 in all four build profiles. C39_root_after_failures is what holds."
  },
  {
   "property": "C40",
   "status": "proved",
   "theorems": [
    "FuelMerkle.Props.C40_root_commits",
    "FuelMerkle.Props.C40_equal_roots"
   ],
   "note": "Collision extraction, no injectivity assumption."
  },
  {
   "property": "C41",
   "status": "proved",
   "theorems": [
    "FuelMerkle.Props.C41_delete_leaf_hash",
    "FuelMerkle.Props.C41_delete_root_panics",
    "FuelMerkle.Props.C41_update_leaf_hash_loses_key"
   ],
   "note": "Defect: node hashes and user keys share one storage namespace. C41_* are the counterexamples; safety for all other keys is C28/C42."
  },
  {
   "property": "C42",
   "status": "proved",
   "theorems": [
    "FuelMerkle.Props.C42_never_panics",
    "FuelMerkle.Props.C42_load_never_panics"
   ],
   "note": "All profiles, all histories, all fault schedules."
  },
  {
   "property": "C43",
   "status": "proved",
   "theorems": [
    "FuelMerkle.Props.C43_sparse_round_trip",
    "FuelMerkle.Props.C43_sparse_decode",
    "FuelMerkle.Props.C43_binary_round_trip"
   ],
   "note": ""
  },
  {
   "property": "C44",
   "status": "proved",
   "theorems": [
    "FuelMerkle.Props.C44_update_records",
    "FuelMerkle.Props.C44_delete_keeps_records",
    "FuelMerkle.Props.C44_residue"
   ],
   "note": ""
  },
  {
   "property": "C45",
   "status": "proved",
   "theorems": [
    "FuelMerkle.Props.C45_sum_root",
    "FuelMerkle.Props.C45_sum_root_sha256"
   ],
   "note": ""
  },
  {
   "property": "C46",
   "status": "proved",
   "theorems": [
    "FuelMerkle.Props.C46_overflow_panics",
    "FuelMerkle.Props.C46_overflow_wraps"
   ],
   "note": "Defect class: fee addition is unchecked u64 arithmetic."
  },
  {
   "property": "C47",
   "status": "proved",
   "theorems": [
    "FuelMerkle.Props.C47_sum_root_commits",
    "FuelMerkle.Props.C47_tree_roots_commit",
    "FuelMerkle.Props.C47_reported_roots_commit",
    "FuelMerkle.Props.C47_reported_roots_commit_sha256"
   ],
   "note": "Collision extraction, no injectivity assumption."
  },
  {
   "property": "C48",
   "status": "proved",
   "theorems": [
    "FuelMerkle.Props.C48_histories",
    "FuelMerkle.Props.C48_root_keeps_tree"
   ],
   "note": ""
  },
  {
   "property": "C49",
   "status": "proved",
   "theorems": [
    "FuelMerkle.Props.C49_storage_walk"
   ],
   "note": "Explicit finite no-collision hypothesis, shown satisfiable for SHA-256."
  },
  {
   "property": "C50",
   "status": "proved",
   "theorems": [
    "FuelMerkle.Props.C50_failed_push",
    "FuelMerkle.Props.C50_failed_push_changes_root"
   ],
   "note": "Defect: C50_failed_push_changes_root refutes the naive expectation; C50_failed_push is the exact behaviour."
  },
  {
   "property": "C51",
   "status": "proved",
   "theorems": [
    "FuelMerkle.Props.C51_map_laws",
    "FuelMerkle.Props.C51_frame"
   ],
   "note": "After every history of insert/remove/get/contains_key; the map is the look-back function Spec.latest."
  },
  {
   "property": "C52",
   "status": "proved",
   "theorems": [
    "FuelMerkle.Props.C52_same_root",
    "FuelMerkle.Props.C52_same_proof",
    "FuelMerkle.Props.C52_missing_index",
    "FuelMerkle.Props.C52_proof_index_first"
   ],
   "note": "Same root for every list up to 2^63 leaves, same proof for every leaf of lists below 2^62 leaves, and the exact difference for an index that is not a leaf."
  },
  {
   "property": "C53",
   "status": "proved",
   "theorems": [
    "FuelMerkle.Props.C53_binary_in_memory",
    "FuelMerkle.Props.C53_binary_in_memory_prove",
    "FuelMerkle.Props.C53_sparse_in_memory",
    "FuelMerkle.Props.C53_pass_through"
   ],
   "note": "Binary wrappers for up to 2^63 leaves (proofs below 2^62), sparse wrappers for every history."
  },
  {
   "property": "C54",
   "status": "proved",
   "theorems": [
    "FuelMerkle.Props.C54_filed",
    "FuelMerkle.Props.C54_load_root",
    "FuelMerkle.Props.C54_load_key"
   ],
   "note": "No assumption on the hash function or on failures for C54_filed and C54_load_root. Defect: C54_load_key, load does not check the hash of what it finds, so a user key is accepted as a root."
  },
  {
   "property": "C55",
   "status": "proved",
   "theorems": [
    "FuelMerkle.Props.C55_updates_keep_records"
   ],
   "note": "No assumption on the hash function, the records or the failures."
  },
  {
   "property": "C56",
   "status": "proved",
   "theorems": [
    "FuelMerkle.Props.C56_update_cost",
    "FuelMerkle.Props.C56_delete_cost"
   ],
   "note": "No assumption on the records or the failures."
  },
  {
   "property": "C57",
   "status": "proved",
   "theorems": [
    "FuelMerkle.Props.C57_sessions_safe",
    "FuelMerkle.Props.C57_sessions_live"
   ],
   "note": "Sessions open new trees or non-empty reported roots (see C35 for the empty root)."
  },
  {
   "property": "C58",
   "status": "proved",
   "theorems": [
    "FuelMerkle.Props.C58_success_is_complete",
    "FuelMerkle.Props.C58_error_reported_or_inherent",
    "FuelMerkle.Props.C58_errors_from_storage"
   ],
   "note": "Proved for all trees, storage contents and failure schedules (first two theorems) and for all histories from empty storage without failed removals (third)."
  },
  {
   "property": "C59",
   "status": "proved",
   "theorems": [
    "FuelMerkle.Props.C59_restarts_silently",
    "FuelMerkle.Props.C59_overwrites_records",
    "FuelMerkle.Props.C59_retry_example",
    "FuelMerkle.Props.C59_sum_restarts"
   ],
   "note": "A defect of the code, stated exactly; the SHA-256 history shows the wrong root after reopening."
  },
  {
   "property": "C60",
   "status": "proved",
   "theorems": [
    "FuelMerkle.Props.C60_binary",
    "FuelMerkle.Props.C60_binary_load",
    "FuelMerkle.Props.C60_sum",
    "FuelMerkle.Props.C60_sparse",
    "FuelMerkle.Props.C60_in_memory",
    "FuelMerkle.Props.C60_positions",
    "FuelMerkle.Props.C60_helpers",
    "FuelMerkle.Props.C60_differ"
   ],
   "note": "Holds for every state, also corrupt ones."
  },
  {
   "property": "C61",
   "status": "proved",
   "theorems": [
    "FuelMerkle.Props.C61_new_tree_sound",
    "FuelMerkle.Props.C61_delete_unloads",
    "FuelMerkle.Props.C61_delete_breaks_other_trees"
   ],
   "note": "A defect for users who keep several roots in one storage: recorded in DESIGN.md."
  },
  {
   "property": "C62",
   "status": "proved",
   "theorems": [
    "FuelMerkle.Props.C62_path",
    "FuelMerkle.Props.C62_too_high",
    "FuelMerkle.Props.C62_unique"
   ],
   "note": "Any user-defined node type; children are functions without side effects."
  },
  {
   "property": "C63",
   "status": "proved",
   "theorems": [
    "FuelMerkle.Props.C63_binary_histories",
    "FuelMerkle.Props.C63_binary_same",
    "FuelMerkle.Props.C63_binary_load",
    "FuelMerkle.Props.C63_sum_histories",
    "FuelMerkle.Props.C63_sum_same",
    "FuelMerkle.Props.C63_subtree",
    "FuelMerkle.Props.C63_plain_storage"
   ],
   "note": "All theorems about the list models carry over by C63_binary_same, C63_binary_load and C63_sum_same."
  },
  {
   "property": "C64",
   "status": "proved",
   "theorems": [
    "FuelMerkle.Props.C64_binary_call",
    "FuelMerkle.Props.C64_binary_load",
    "FuelMerkle.Props.C64_sum_call",
    "FuelMerkle.Props.C64_binary_reachable",
    "FuelMerkle.Props.C64_sum_reachable",
    "FuelMerkle.Props.C64_sum_root_retry"
   ],
   "note": "C58 is the corresponding property of the sparse tree."
  },
  {
   "property": "C65",
   "status": "proved",
   "theorems": [
    "FuelMerkle.Props.C65_prove_reads",
    "FuelMerkle.Props.C65_load_reads",
    "FuelMerkle.Props.C65_push_writes",
    "FuelMerkle.Props.C65_sum_push_writes",
    "FuelMerkle.Props.C65_sum_root_writes"
   ],
   "note": "C16 gives the total over a history of pushes."
  },
  {
   "property": "C66",
   "status": "proved",
   "theorems": [
    "FuelMerkle.Props.C66_membership_any_count",
    "FuelMerkle.Props.C66_only_directions",
    "FuelMerkle.Props.C66_last_leaf_same",
    "FuelMerkle.Props.C66_last_leaf_any_odd_count"
   ],
   "note": "Shows that the number of leaves is an input that must come from a trusted source: root and proof do not fix it."
  },
  {
   "property": "C67",
   "status": "proved",
   "theorems": [
    "FuelMerkle.Props.C67_sum_leaf_is_binary_leaf",
    "FuelMerkle.Props.C67_shaped_sparse_is_binary",
    "FuelMerkle.Props.C67_full_is_shaped",
    "FuelMerkle.Props.C67_sum_binary",
    "FuelMerkle.Props.C67_sum_binary_trees",
    "FuelMerkle.Props.C67_sum_sparse",
    "FuelMerkle.Props.C67_sparse_binary"
   ],
   "note": "Spec/Kinds.lean defines the shape condition."
  },
  {
   "property": "C68",
   "status": "proved",
   "theorems": [
    "FuelMerkle.Props.C68_agreeing_trees",
    "FuelMerkle.Props.C68_sum_trees_independent",
    "FuelMerkle.Props.C68_sum_trees_keep_records",
    "FuelMerkle.Props.C68_disagreeing_trees"
   ],
   "note": "Sum trees: independent and record-keeping on reliable storage. Binary trees: agreement on one list is necessary (C68_disagreeing_trees is a concrete counterexample)."
  },
  {
   "property": "C69",
   "status": "proved",
   "theorems": [
    "FuelMerkle.Props.C69_values_round_trip",
    "FuelMerkle.Props.C69_standard_codecs",
    "FuelMerkle.Props.C69_proof_test_verdict",
    "FuelMerkle.Props.C69_written_tests_pass",
    "FuelMerkle.Props.C69_written_negative_tests_pass",
    "FuelMerkle.Props.C69_sparse_test_passes_iff",
    "FuelMerkle.Props.C69_sparse_test_verdict",
    "FuelMerkle.Props.C69_sparse_bad_step"
   ],
   "note": "YAML reading and writing is not modelled; base64 and hex are external crates and a parameter of the model."
  },
  {
   "property": "C70",
   "status": "proved",
   "theorems": [
    "FuelMerkle.Props.C70_rejected_at_once",
    "FuelMerkle.Props.C70_answers_below",
    "FuelMerkle.Props.C70_unchecked_answers",
    "FuelMerkle.Props.C70_checked_panics_iff",
    "FuelMerkle.Props.C70_builds_agree",
    "FuelMerkle.Props.C70_lower_half_lost",
    "FuelMerkle.Props.C70_any_proof_crashes"
   ],
   "note": "Counts from 2^63 on are out of reach of the trees themselves (C11, C22) but not of whoever supplies a proof."
  },
  {
   "property": "C71",
   "status": "proved",
   "theorems": [
    "FuelMerkle.Props.C71_calls_of_one",
    "FuelMerkle.Props.C71_calls_of_history",
    "FuelMerkle.Props.C71_short_paths"
   ],
   "note": "The numbers are computed from key lists in Spec/SparseCounts.lean, which mentions no tree."
  },
  {
   "property": "C72",
   "status": "proved",
   "theorems": [
    "FuelMerkle.Props.C72_binary",
    "FuelMerkle.Props.C72_binary_load",
    "FuelMerkle.Props.C72_sum",
    "FuelMerkle.Props.C72_sparse",
    "FuelMerkle.Props.C72_in_memory",
    "FuelMerkle.Props.C72_helpers"
   ],
   "note": "Pointer-sized integers are modelled where they are subtracted; lengths and indices of containers in memory fit in them by construction."
  },
  {
   "property": "C73",
   "status": "proved",
   "theorems": [
    "FuelMerkle.Props.C73_leaf_below_root",
    "FuelMerkle.Props.C73_any_root",
    "FuelMerkle.Props.C73_missing_leaf",
    "FuelMerkle.Props.C73_counts",
    "FuelMerkle.Props.C73_not_a_leaf",
    "FuelMerkle.Props.C73_ends"
   ],
   "note": "C73_leaf_below_root, C73_any_root, C73_missing_leaf, C73_counts, C73_not_a_leaf, C73_ends. Spec in Spec/BlockPath.lean. Roots of height 63 and 64 are covered by C73_leaf_below_root, C73_ends and C22_path_panics_beyond, not by C73_any_root."
  },
  {
   "property": "C74",
   "status": "proved",
   "theorems": [
    "FuelMerkle.Props.C74_checked",
    "FuelMerkle.Props.C74_unchecked",
    "FuelMerkle.Props.C74_max",
    "FuelMerkle.Props.C74_unchecked_goes_on"
   ],
   "note": "Defect: without overflow checks a leaf count of 2^63 or more is accepted by load."
  },
  {
   "property": "C75",
   "status": "proved",
   "theorems": [
    "FuelMerkle.Props.C75_sparse_prints",
    "FuelMerkle.Props.C75_sparse_text",
    "FuelMerkle.Props.C75_binary_text",
    "FuelMerkle.Props.C75_sum_prints",
    "FuelMerkle.Props.C75_sum_reachable",
    "FuelMerkle.Props.C75_sum_text",
    "FuelMerkle.Props.C75_binary_messages",
    "FuelMerkle.Props.C75_sparse_messages",
    "FuelMerkle.Props.C75_sparse_shows",
    "FuelMerkle.Props.C75_binary_shows",
    "FuelMerkle.Props.C75_sum_shows",
    "FuelMerkle.Props.C75_messages"
   ],
   "note": ""
  },
  {
   "property": "C76",
   "status": "proved",
   "theorems": [
    "FuelMerkle.Props.C76_branch_loads",
    "FuelMerkle.Props.C76_branch_update",
    "FuelMerkle.Props.C76_branch_fork_corrupts",
    "FuelMerkle.Props.C76_branch_fork",
    "FuelMerkle.Props.C76_fork_of_no_map",
    "FuelMerkle.Props.C76_branch_delete",
    "FuelMerkle.Props.C76_branch_delete_breaks",
    "FuelMerkle.Props.C76_branch_delete_breaks_sha256"
   ],
   "note": "Which keys are lost after a fork is shown in an example only."
  },
  {
   "property": "C77",
   "status": "proved",
   "theorems": [
    "FuelMerkle.Props.C77_writes_name_their_keys",
    "FuelMerkle.Props.C77_loaded_root",
    "FuelMerkle.Props.C77_checked_root",
    "FuelMerkle.Props.C77_positions_trusted",
    "FuelMerkle.Props.C77_positions_panic"
   ],
   "note": "Whether a returned proof is valid depends on records that the root does not cover; see C06 for what the verifier guarantees."
  },
  {
   "property": "C78",
   "status": "proved",
   "theorems": [
    "FuelMerkle.Props.C78_roots_right",
    "FuelMerkle.Props.C78_reopened_root",
    "FuelMerkle.Props.C78_lost_record_delete"
   ],
   "note": "`delete` reads the record under the key first and takes its absence for the absence of the key."
  },
  {
   "property": "C79",
   "status": "proved",
   "theorems": [
    "FuelMerkle.Props.C79_proof_length",
    "FuelMerkle.Props.C79_length_bounds",
    "FuelMerkle.Props.C79_audit_path_length",
    "FuelMerkle.Props.C79_length_checked",
    "FuelMerkle.Props.C79_proof_unique"
   ],
   "note": "C06_length_not_checked shows what is accepted without the check."
  },
  {
   "property": "C80",
   "status": "proved",
   "theorems": [
    "FuelMerkle.Props.C80_sound_storage",
    "FuelMerkle.Props.C80_check",
    "FuelMerkle.Props.C80_loaded_root",
    "FuelMerkle.Props.C80_root_check",
    "FuelMerkle.Props.C80_leaf_trusted",
    "FuelMerkle.Props.C80_height_trusted"
   ],
   "note": "C80_leaf_trusted and C80_height_trusted state what goes wrong on storages that are not sound (heights are trusted, records below the root are not re-hashed)."
  },
  {
   "property": "C81",
   "status": "proved",
   "theorems": [
    "FuelMerkle.Props.C81_contents",
    "FuelMerkle.Props.C81_new",
    "FuelMerkle.Props.C81_failing"
   ],
   "note": "Needs all records of the tree to be in storage at the start; for storage that loses records see C78, for unsound storage C80."
  },
  {
   "property": "C82",
   "status": "proved",
   "theorems": [
    "FuelMerkle.Props.C82_roots",
    "FuelMerkle.Props.C82_considerate",
    "FuelMerkle.Props.C82_damage"
   ],
   "note": "C82_roots allows any failures and any calls; C82_considerate gives success and exact contents under a condition on the maps only; C82_damage shows that the condition is exact."
  },
  {
   "property": "C83",
   "status": "proved",
   "theorems": [
    "FuelMerkle.Props.C83_machine",
    "FuelMerkle.Props.C83_contents",
    "FuelMerkle.Props.C83_failures"
   ],
   "note": "The machine (Spec/SumMachine.lean) is a few lines about lists of leaves and does not mention the tree's internal list of subtrees."
  },
  {
   "property": "C84",
   "status": "proved",
   "theorems": [
    "FuelMerkle.Props.C84_machine",
    "FuelMerkle.Props.C84_failures",
    "FuelMerkle.Props.C84_prove_panics"
   ],
   "note": "Includes the trees that a failed push has made inconsistent (C13, C59). The panic of prove after a failed push is a defect of the code."
  },
  {
   "property": "C85",
   "status": "proved",
   "theorems": [
    "FuelMerkle.Props.C85_machine",
    "FuelMerkle.Props.C85_new"
   ],
   "note": "C85_machine and C85_new; full."
  },
  {
   "property": "C86",
   "status": "proved",
   "theorems": [
    "FuelMerkle.Props.C86_linked",
    "FuelMerkle.Props.C86_complete",
    "FuelMerkle.Props.C86_resume",
    "FuelMerkle.Props.C86_new"
   ],
   "note": "C86_linked, C86_complete, C86_resume, C86_new; full."
  },
  {
   "property": "C87",
   "status": "proved",
   "theorems": [
    "FuelMerkle.Props.C87_visits",
    "FuelMerkle.Props.C87_empty",
    "FuelMerkle.Props.C87_load",
    "FuelMerkle.Props.C87_found",
    "FuelMerkle.Props.C87_mixed"
   ],
   "note": "C87_mixed is the counterexample without a common list."
  },
  {
   "property": "C88",
   "status": "proved",
   "theorems": [
    "FuelMerkle.Props.C88_open",
    "FuelMerkle.Props.C88_pushed",
    "FuelMerkle.Props.C88_intact"
   ],
   "note": ""
  },
  {
   "property": "C89",
   "status": "proved",
   "theorems": [
    "FuelMerkle.Props.C89_linked",
    "FuelMerkle.Props.C89_root_stored",
    "FuelMerkle.Props.C89_found",
    "FuelMerkle.Props.C89_returned"
   ],
   "note": ""
  },
  {
   "property": "C90",
   "status": "proved",
   "theorems": [
    "FuelMerkle.Props.C90_exact",
    "FuelMerkle.Props.C90_linked",
    "FuelMerkle.Props.C90_found",
    "FuelMerkle.Props.C90_returned"
   ],
   "note": "Extends the sum part of C68 to failing storage."
  },
  {
   "property": "C91",
   "status": "proved",
   "theorems": [
    "FuelMerkle.Props.C91_exact",
    "FuelMerkle.Props.C91_roots",
    "FuelMerkle.Props.C91_contents",
    "FuelMerkle.Props.C91_prove",
    "FuelMerkle.Props.C91_foreign_leaf"
   ],
   "note": "Explains the hazard of C68 in general."
  },
  {
   "property": "C92",
   "status": "proved",
   "theorems": [
    "FuelMerkle.Props.C92_exact",
    "FuelMerkle.Props.C92_root",
    "FuelMerkle.Props.C92_panics",
    "FuelMerkle.Props.C92_reliable"
   ],
   "note": "Subsumes the exactness parts of C84, C88 and C91; those state the same in terms of leaves. The storage's records must name their keys: C77 shows what happens otherwise."
  },
  {
   "property": "C93",
   "status": "proved",
   "theorems": [
    "FuelMerkle.Props.C93_exact",
    "FuelMerkle.Props.C93_errors",
    "FuelMerkle.Props.C93_works",
    "FuelMerkle.Props.C93_updates"
   ],
   "note": "Exact answers, storage and roots for all interleavings and failures; exact condition for success; wholeness without removals."
  },
  {
   "property": "C94",
   "status": "proved",
   "theorems": [
    "FuelMerkle.Props.C94_binary",
    "FuelMerkle.Props.C94_binary_root",
    "FuelMerkle.Props.C94_binary_proof",
    "FuelMerkle.Props.C94_sum",
    "FuelMerkle.Props.C94_sum_root",
    "FuelMerkle.Props.C94_sparse",
    "FuelMerkle.Props.C94_sparse_root"
   ],
   "note": "A storage that panics or does not return is not modelled. An append-only journal with a cache, which may run full or time out, is shown to behave like a map."
  },
  {
   "property": "C95",
   "status": "proved",
   "theorems": [
    "FuelMerkle.Props.C95_binary",
    "FuelMerkle.Props.C95_binary_root",
    "FuelMerkle.Props.C95_binary_prove",
    "FuelMerkle.Props.C95_sum",
    "FuelMerkle.Props.C95_sum_root",
    "FuelMerkle.Props.C95_sparse"
   ],
   "note": "A storage that panics or does not return is not modelled. What sparse trees do with wrong records is the subject of C78 and C80."
  },
  {
   "property": "C96",
   "status": "proved",
   "theorems": [
    "FuelMerkle.Props.C96_right",
    "FuelMerkle.Props.C96_fair",
    "FuelMerkle.Props.C96_fresh",
    "FuelMerkle.Props.C96_mapLike"
   ],
   "note": "The record under a user key is not determined by its key; a stale one there only decides whether a delete takes effect (C28, C31, C78)."
  },
  {
   "property": "C97",
   "status": "proved",
   "theorems": [
    "FuelMerkle.Props.C97_right",
    "FuelMerkle.Props.C97_trusted",
    "FuelMerkle.Props.C97_fresh",
    "FuelMerkle.Props.C97_replies"
   ],
   "note": "With different lists on one storage this fails already on storage that behaves like a map (C68, C91), and so it does if a tree is used after a failed push (C92). Sum trees never read (C95)."
  },
  {
   "property": "C98",
   "status": "proved",
   "theorems": [
    "FuelMerkle.Props.C98_right",
    "FuelMerkle.Props.C98_alone"
   ],
   "note": "With different lists of leaves on one storage this fails already for two trees in one process (C68, C91)."
  },
  {
   "property": "C99",
   "status": "proved",
   "theorems": [
    "FuelMerkle.Props.C99_right",
    "FuelMerkle.Props.C99_alone",
    "FuelMerkle.Props.C99_all"
   ],
   "note": "The maps that the hash function must behave on are those of the requests begun in the schedule at hand."
  },
  {
   "property": "C100",
   "status": "proved",
   "theorems": [
    "FuelMerkle.Props.C100_succeeds",
    "FuelMerkle.Props.C100_working",
    "FuelMerkle.Props.C100_visible",
    "FuelMerkle.Props.C100_handover",
    "FuelMerkle.Props.C100_fresh"
   ],
   "note": "Together with C98 the replies are also the right ones. Binary trees never remove a record; for sparse trees the analogous claim is false, because they remove each other's records (C99)."
  },
  {
   "property": "C101",
   "status": "proved",
   "theorems": [
    "FuelMerkle.Props.C101_succeeds",
    "FuelMerkle.Props.C101_working",
    "FuelMerkle.Props.C101_visible",
    "FuelMerkle.Props.C101_handover",
    "FuelMerkle.Props.C101_fresh"
   ],
   "note": "Together with C99 the roots are also the right ones. Removals are left out because with them the claim is false: a removal takes away records that other trees share (C61, C93)."
  },
  {
   "property": "C102",
   "status": "proved",
   "theorems": [
    "FuelMerkle.Props.C102_own",
    "FuelMerkle.Props.C102_right",
    "FuelMerkle.Props.C102_working",
    "FuelMerkle.Props.C102_end",
    "FuelMerkle.Props.C102_linked",
    "FuelMerkle.Props.C102_found",
    "FuelMerkle.Props.C102_returned",
    "FuelMerkle.Props.C102_alone"
   ],
   "note": "The processes are processes of the model of C98: a turn is one storage call; `Storage` calls are atomic."
  },
  {
   "property": "C103",
   "status": "proved",
   "theorems": [
    "FuelMerkle.Props.C103_fair",
    "FuelMerkle.Props.C103_kept",
    "FuelMerkle.Props.C103_plain",
    "FuelMerkle.Props.C103_end",
    "FuelMerkle.Props.C103_alone"
   ],
   "note": "The processes are processes of the model of C98: a turn is one storage call; `Storage` calls are atomic."
  },
  {
   "property": "C104",
   "status": "proved",
   "theorems": [
    "FuelMerkle.Props.C104_binary_same",
    "FuelMerkle.Props.C104_sum_same",
    "FuelMerkle.Props.C104_sparse_same",
    "FuelMerkle.Props.C104_one_per_write",
    "FuelMerkle.Props.C104_binary_cost",
    "FuelMerkle.Props.C104_binary_total",
    "FuelMerkle.Props.C104_sum_cost",
    "FuelMerkle.Props.C104_sparse_cost",
    "FuelMerkle.Props.C104_kinds",
    "FuelMerkle.Props.C104_nothing_else",
    "FuelMerkle.Props.C104_verify"
   ],
   "note": "Model/Metered.lean repeats the functions of Model/Binary, Sum, Sparse and Verify that hash; (1) is the proof that it repeats them faithfully. `load` and constructors hash nothing; they are not metered."
  },
  {
   "property": "C105",
   "status": "proved",
   "theorems": [
    "FuelMerkle.Props.C105_sparse",
    "FuelMerkle.Props.C105_binary",
    "FuelMerkle.Props.C105_binary_calls",
    "FuelMerkle.Props.C105_sum",
    "FuelMerkle.Props.C105_returns"
   ],
   "note": "The bounds for binary and sum trees are per call on average over the calls of the process, not for the single call. A turn is one storage call that returns; a storage whose call never returns is not modelled."
  },
  {
   "property": "C106",
   "status": "proved",
   "theorems": [
    "FuelMerkle.Props.C106_sparse_fixed",
    "FuelMerkle.Props.C106_binary_fixed",
    "FuelMerkle.Props.C106_calls_fixed",
    "FuelMerkle.Props.C106_sum_fixed",
    "FuelMerkle.Props.C106_sparse_stays",
    "FuelMerkle.Props.C106_binary_stays",
    "FuelMerkle.Props.C106_calls_stay",
    "FuelMerkle.Props.C106_sum_stays",
    "FuelMerkle.Props.C106_binary_right",
    "FuelMerkle.Props.C106_binary_succeeds",
    "FuelMerkle.Props.C106_binary_handover",
    "FuelMerkle.Props.C106_calls_fair",
    "FuelMerkle.Props.C106_sum_own",
    "FuelMerkle.Props.C106_sparse_right",
    "FuelMerkle.Props.C106_sparse_handover"
   ],
   "note": "(4) and (3) for sparse trees ask for a hash function that behaves on the maps the requests lead to, as C99 and C101 do; (4) for binary trees asks for a storage that starts as in C100."
  },
  {
   "property": "C107",
   "status": "proved",
   "theorems": [
    "FuelMerkle.Props.C107_binary",
    "FuelMerkle.Props.C107_binary_exact",
    "FuelMerkle.Props.C107_binary_load",
    "FuelMerkle.Props.C107_binary_any",
    "FuelMerkle.Props.C107_binary_new",
    "FuelMerkle.Props.C107_scratch",
    "FuelMerkle.Props.C107_sum",
    "FuelMerkle.Props.C107_sum_exact",
    "FuelMerkle.Props.C107_chains",
    "FuelMerkle.Props.C107_sparse"
   ],
   "note": "Proved. Example beside the theorem: with a record that names another position, a tree that counts two leaves keeps two nodes, so the hypothesis of (1) is needed."
  },
  {
   "property": "C108",
   "status": "proved",
   "theorems": [
    "FuelMerkle.Props.C108_own",
    "FuelMerkle.Props.C108_trusted",
    "FuelMerkle.Props.C108_alone",
    "FuelMerkle.Props.C108_shared",
    "FuelMerkle.Props.C108_right",
    "FuelMerkle.Props.C108_tables",
    "FuelMerkle.Props.C108_each",
    "FuelMerkle.Props.C108_so_far",
    "FuelMerkle.Props.C108_each_so_far",
    "FuelMerkle.Props.C108_through",
    "FuelMerkle.Props.C108_each_done"
   ],
   "note": "Proved. Examples beside the theorems: a storage with a table for binary trees, one for sum trees, one for sparse trees and a further one for binary trees, whose users take turns until all are through; changes that leave a table alone, and one that does not but brings up no record."
  },
  {
   "property": "C109",
   "status": "proved",
   "theorems": [
    "FuelMerkle.Props.C109_same_length",
    "FuelMerkle.Props.C109_one_leaf",
    "FuelMerkle.Props.C109_two_leaves",
    "FuelMerkle.Props.C109_all_leaves",
    "FuelMerkle.Props.C109_one_list"
   ],
   "note": "Collision extraction, no injectivity assumption; C109_two_leaves is a refutation of the stronger claim without the check of the length."
  },
  {
   "property": "C110",
   "status": "proved",
   "theorems": [
    "FuelMerkle.Props.C110_kept",
    "FuelMerkle.Props.C110_session",
    "FuelMerkle.Props.C110_changed",
    "FuelMerkle.Props.C110_perfect"
   ],
   "note": "Pushes and proofs on any storage; if the storage fails the calls return errors (C64) and the hypotheses are not met."
  },
  {
   "property": "C111",
   "status": "proved",
   "theorems": [
    "FuelMerkle.Props.C111_pruned",
    "FuelMerkle.Props.C111_failing",
    "FuelMerkle.Props.C111_what_to_keep"
   ],
   "note": "C111_pruned for storages that do not fail, C111_failing for all. For storages that may lose any record see C97."
  },
  {
   "property": "C112",
   "status": "proved",
   "theorems": [
    "FuelMerkle.Props.C112_last_proof",
    "FuelMerkle.Props.C112_start"
   ],
   "note": "The doc comment of `build` says that the side positions on the path to the next leaf are the peaks; this is that claim for hashes and with its use."
  },
  {
   "property": "C113",
   "status": "proved",
   "theorems": [
    "FuelMerkle.Props.C113_exact",
    "FuelMerkle.Props.C113_few_records",
    "FuelMerkle.Props.C113_whole",
    "FuelMerkle.Props.C113_how_few",
    "FuelMerkle.Props.C113_client"
   ],
   "note": "The records handed over must be right. A client can hash each and compare it with its key, but must also know the heights, which are not hashed (C80). A delete for which the record under the key is not handed over has no effect (C78), and with a stale record under a key that is not stored the key it meets is removed; the map after the call is defined accordingly, as in C85."
  }
 ]
}
{
 "claims": [
  {
   "property": "C01",
   "status": "proved",
   "theorems": [
    "Upsi.Tree.Props.C01_conservation",
    "Upsi.Tree.Props.C01_conservation_step"
   ],
   "note": ""
  },
  {
   "property": "C02",
   "status": "proved",
   "theorems": [
    "Upsi.Tree.Props.C02_findable",
    "Upsi.Tree.Props.C02_inserted_found"
   ],
   "note": ""
  },
  {
   "property": "C03",
   "status": "proved",
   "theorems": [
    "Upsi.Tree.Props.C03_path_exact",
    "Upsi.Tree.Props.C03_path_nodes",
    "Upsi.Tree.Props.C03_reachable"
   ],
   "note": ""
  },
  {
   "property": "C04",
   "status": "proved",
   "theorems": [
    "Upsi.Tree.Props.C04_capacity"
   ],
   "note": ""
  },
  {
   "property": "C05",
   "status": "proved",
   "theorems": [
    "Upsi.Tree.Props.C05_sync",
    "Upsi.Tree.Props.C05_path",
    "Upsi.Tree.Props.C05_session_total"
   ],
   "note": ""
  },
  {
   "property": "C06",
   "status": "proved",
   "theorems": [
    "Upsi.Tree.Props.C06_public_shape",
    "Upsi.Tree.Props.C06_oblivious"
   ],
   "note": ""
  },
  {
   "property": "C07",
   "status": "proved",
   "theorems": [
    "Upsi.Tree.Props.C07_indices_exact",
    "Upsi.Tree.Props.C07_order_independent",
    "Upsi.Tree.Props.C07_stash_root"
   ],
   "note": ""
  },
  {
   "property": "C08",
   "status": "proved",
   "theorems": [
    "Upsi.Tree.Props.C08_minimal_loss",
    "Upsi.Tree.Props.C08_lossless_iff_arrangeable",
    "Upsi.Tree.Props.C08_loss_iff_overfull",
    "Upsi.Tree.Props.C08_batch_is_singles",
    "Upsi.Tree.Props.C08_deletion_minimal_loss",
    "Upsi.Tree.Props.C08_no_loss_below_stash",
    "Upsi.Tree.Props.C08_collision_loss",
    "Upsi.Tree.Props.C08_silent_loss"
   ],
   "note": "The naive property (never silently lost) is false of the code built with asserts off: C08_silent_loss and C08_collision_loss are machine-checked counterexamples. The exact characterisation is proved: losses are unavoidable and minimal (C08_minimal_loss, C08_deletion_minimal_loss), batches reduce to single insertions (C08_batch_is_singles)."
  },
  {
   "property": "C09",
   "status": "proved",
   "theorems": [
    "Upsi.Tree.Props.C09_depth",
    "Upsi.Tree.Props.C09_int_bound"
   ],
   "note": ""
  },
  {
   "property": "C10",
   "status": "proved",
   "theorems": [
    "Upsi.Tree.Props.C10_in_bounds",
    "Upsi.Tree.Props.C10_session"
   ],
   "note": ""
  },
  {
   "property": "C11",
   "status": "proved",
   "theorems": [
    "Upsi.Tree.Props.C11_replace_exact",
    "Upsi.Tree.Props.C11_oversized_ub",
    "Upsi.Tree.Props.C11_short_accepted"
   ],
   "note": "C11_oversized_ub and C11_short_accepted are the witnesses that malformed messages are not rejected; C11_replace_exact characterises all message sizes."
  },
  {
   "property": "C12",
   "status": "proved",
   "theorems": [
    "Upsi.Tree.Props.C12_roundtrip",
    "Upsi.Tree.Props.C12_roundtrip_payload"
   ],
   "note": ""
  },
  {
   "property": "C13",
   "status": "proved",
   "theorems": [
    "Upsi.Tree.Props.C13_signed_payloads",
    "Upsi.Tree.Props.C13_abort_reachable"
   ],
   "note": "Round trip holds iff all payloads are non-negative; C13_abort_reachable shows a reachable tree that aborts."
  },
  {
   "property": "C14",
   "status": "proved",
   "theorems": [
    "Upsi.Tree.Props.C14_path_sum",
    "Upsi.Tree.Props.C14_net_payload"
   ],
   "note": ""
  },
  {
   "property": "C15",
   "status": "proved",
   "theorems": [
    "Upsi.Tree.Props.C15_path_merged",
    "Upsi.Tree.Props.C15_no_zero",
    "Upsi.Tree.Props.C15_insert_merged"
   ],
   "note": ""
  },
  {
   "property": "C16",
   "status": "proved",
   "theorems": [
    "Upsi.ElGamal.C16_decrypt_encrypt",
    "Upsi.ElGamal.C16_decrypt_encrypt_exp",
    "Upsi.ElGamal.C16_homomorphic",
    "Upsi.ElGamal.C16_rerandomize",
    "Upsi.ElGamal.C16_rerandomize_coins",
    "Upsi.ElGamal.C16_is_zero"
   ],
   "note": ""
  },
  {
   "property": "C17",
   "status": "proved",
   "theorems": [
    "Upsi.ElGamal.C17_threshold",
    "Upsi.ElGamal.C17_rerandomize_between"
   ],
   "note": ""
  },
  {
   "property": "C18",
   "status": "proved",
   "theorems": [
    "Upsi.ElGamal.C18_joint_key",
    "Upsi.ElGamal.C18_all_open",
    "Upsi.ElGamal.C18_empty",
    "Upsi.ElGamal.C18_mismatch"
   ],
   "note": ""
  },
  {
   "property": "C19",
   "status": "proved",
   "theorems": [
    "Upsi.ElGamal.C19_masked_equality",
    "Upsi.ElGamal.C19_exact",
    "Upsi.ElGamal.C19_zero_mask"
   ],
   "note": ""
  },
  {
   "property": "C20",
   "status": "proved",
   "theorems": [
    "Upsi.ElGamal.C20_decrypt_exp",
    "Upsi.ElGamal.C20_exact_or_error",
    "Upsi.ElGamal.C20_uninitialised"
   ],
   "note": ""
  },
  {
   "property": "C21",
   "status": "proved",
   "theorems": [
    "Upsi.Paillier.C21_decrypt",
    "Upsi.Paillier.C21_roundtrip",
    "Upsi.Paillier.C21_homomorphic",
    "Upsi.Paillier.C21_private_rejects",
    "Upsi.Paillier.C21_nonunit_aborts",
    "Upsi.Paillier.C21_encrypt",
    "Upsi.Paillier.C21_encrypt_rejects",
    "Upsi.Paillier.C21_encrypt_with_rand",
    "Upsi.Paillier.C21_add",
    "Upsi.Paillier.C21_multiply",
    "Upsi.Paillier.C21_rerand"
   ],
   "note": ""
  },
  {
   "property": "C22",
   "status": "proved",
   "theorems": [
    "Upsi.Paillier.C22_private_encrypt",
    "Upsi.Paillier.C22_interoperable"
   ],
   "note": ""
  },
  {
   "property": "C23",
   "status": "proved",
   "theorems": [
    "Upsi.Paillier.C23_keys",
    "Upsi.Paillier.C23_keys_succeed",
    "Upsi.Paillier.C23_shares_range",
    "Upsi.Paillier.C23_decrypt",
    "Upsi.Paillier.C23_add",
    "Upsi.Paillier.C23_nonunit_aborts",
    "Upsi.Paillier.C23_units_are_ciphertexts",
    "Upsi.Paillier.C23_total",
    "Upsi.Paillier.C23_range",
    "Upsi.Paillier.C23_equal_primes_wrong"
   ],
   "note": ""
  },
  {
   "property": "C24",
   "status": "proved",
   "theorems": [
    "Upsi.Num.C24_crt",
    "Upsi.Num.C24_not_coprime"
   ],
   "note": ""
  },
  {
   "property": "C25",
   "status": "proved",
   "theorems": [
    "Upsi.Num.C25_simple",
    "Upsi.Num.C25_two_k_ary",
    "Upsi.Num.C25_negative",
    "Upsi.Num.C25_large_base",
    "Upsi.Num.C25_agree"
   ],
   "note": ""
  },
  {
   "property": "C26",
   "status": "proved",
   "theorems": [
    "Upsi.Curve.C26_commutes",
    "Upsi.Curve.C26_decrypt",
    "Upsi.Curve.C26_decrypt_encrypt",
    "Upsi.Curve.C26_injective",
    "Upsi.Curve.C26_elgamal"
   ],
   "note": ""
  },
  {
   "property": "C27",
   "status": "proved",
   "theorems": [
    "Upsi.Curve.C27_checked",
    "Upsi.Curve.C27_exact",
    "Upsi.Curve.C27_deterministic",
    "Upsi.Curve.C27_stable",
    "Upsi.Curve.C27_on_curve",
    "Upsi.Curve.C27_not_infinity"
   ],
   "note": ""
  },
  {
   "property": "C28",
   "status": "proved",
   "theorems": [
    "Upsi.Curve.C28_hash_types",
    "Upsi.Curve.C28_from_key",
    "Upsi.Curve.C28_new_key",
    "Upsi.Curve.C28_seed",
    "Upsi.Curve.C28_seed_zero",
    "Upsi.Curve.C28_check",
    "Upsi.Curve.C28_generated"
   ],
   "note": ""
  },
  {
   "property": "C29",
   "status": "proved",
   "theorems": [
    "Upsi.ElGamal.C29_wire",
    "Upsi.ElGamal.C29_no_infinity"
   ],
   "note": "Ciphertexts with a component at infinity cannot be serialized at all (error)."
  },
  {
   "property": "C30",
   "status": "proved",
   "theorems": [
    "Upsi.Num.C30_bytes_roundtrip",
    "Upsi.Num.C30_bytes_injective",
    "Upsi.Num.C30_negative_aborts",
    "Upsi.Num.C30_canonical"
   ],
   "note": ""
  },
  {
   "property": "C31",
   "status": "proved",
   "theorems": [
    "Upsi.Num.C31_to_int",
    "Upsi.Num.C31_negative_loses_sign"
   ],
   "note": ""
  },
  {
   "property": "C32",
   "status": "proved",
   "theorems": [
    "Upsi.Num.C32_low64",
    "Upsi.Num.C32_bignum"
   ],
   "note": ""
  },
  {
   "property": "C33",
   "status": "proved",
   "theorems": [
    "Upsi.Num.C33_block_roundtrip",
    "Upsi.Num.C33_block_overflow"
   ],
   "note": ""
  },
  {
   "property": "C34",
   "status": "proved",
   "theorems": [
    "Upsi.Num.C34_bits",
    "Upsi.Num.C34_caller"
   ],
   "note": "Bits are exact when the byte string is long enough; otherwise undefined behaviour, which the caller can reach (C34_caller)."
  },
  {
   "property": "C35",
   "status": "proved",
   "theorems": [
    "Upsi.Rec.C35_missing_file",
    "Upsi.Rec.C35_unwritable",
    "Upsi.Rec.C35_record_piece",
    "Upsi.Rec.C35_any_pieces",
    "Upsi.Rec.C35_protos_roundtrip",
    "Upsi.Rec.C35_proto_roundtrip",
    "Upsi.Rec.C35_roundtrip",
    "Upsi.Rec.C35_writable",
    "Upsi.Rec.C35_too_long",
    "Upsi.Rec.C35_truncated",
    "Upsi.Rec.C35_any_bytes"
   ],
   "note": ""
  },
  {
   "property": "C36",
   "status": "proved",
   "theorems": [
    "Upsi.Data.C36_roundtrip",
    "Upsi.Data.C36_lenient"
   ],
   "note": ""
  },
  {
   "property": "C37",
   "status": "proved",
   "theorems": [
    "Upsi.Rec.C37_shards",
    "Upsi.Rec.C37_shard_bound",
    "Upsi.Rec.C37_external_sort",
    "Upsi.Rec.C37_canonical",
    "Upsi.Rec.C37_unhealthy"
   ],
   "note": ""
  },
  {
   "property": "C38",
   "status": "proved",
   "theorems": [
    "Upsi.Rec.C38_schedule",
    "Upsi.Rec.C38_parallel",
    "Upsi.Rec.C38_damaged_input",
    "Upsi.Rec.C38_zero_threads"
   ],
   "note": ""
  },
  {
   "property": "C39",
   "status": "proved",
   "theorems": [
    "Upsi.Data.C39_roundtrip",
    "Upsi.Data.C39_exact",
    "Upsi.Data.C39_names"
   ],
   "note": ""
  },
  {
   "property": "C40",
   "status": "proved",
   "theorems": [
    "Upsi.Data.C40_numeric_exact",
    "Upsi.Data.C40_pad_range",
    "Upsi.Data.C40_set_range",
    "Upsi.Data.C40_no_collision",
    "Upsi.Data.C40_user_collision"
   ],
   "note": ""
  },
  {
   "property": "C41",
   "status": "proved",
   "theorems": [
    "Upsi.Data.C41_two_parts",
    "Upsi.Data.C41_all_parts",
    "Upsi.Data.C41_empty_parts",
    "Upsi.Data.C41_dangling_dot"
   ],
   "note": ""
  },
  {
   "property": "C42",
   "status": "proved",
   "theorems": [
    "Upsi.Proto.C42_cardinality_pairs",
    "Upsi.Proto.C42_cardinality"
   ],
   "note": ""
  },
  {
   "property": "C43",
   "status": "proved",
   "theorems": [
    "Upsi.Proto.C43_psi"
   ],
   "note": ""
  },
  {
   "property": "C44",
   "status": "proved",
   "theorems": [
    "Upsi.Proto.C44_sum",
    "Upsi.Proto.C44_sum_limit"
   ],
   "note": ""
  },
  {
   "property": "C45",
   "status": "proved",
   "theorems": [
    "Upsi.Proto.C45_secret_shares"
   ],
   "note": ""
  },
  {
   "property": "C46",
   "status": "proved",
   "theorems": [
    "Upsi.Proto.Examples.C46_wrap_witness",
    "Upsi.Proto.Examples.C46_zero_share_fails",
    "Upsi.Proto.C46_inner_product",
    "Upsi.Proto.C46_sum",
    "Upsi.Proto.C46_cardinality"
   ],
   "note": ""
  },
  {
   "property": "C47",
   "status": "proved",
   "theorems": [
    "Upsi.Proto.Examples.C47_reorder_witness",
    "Upsi.Proto.Examples.C47_zero_element_witness",
    "Upsi.Proto.C47_cardinality",
    "Upsi.Proto.C47_intersection"
   ],
   "note": ""
  },
  {
   "property": "C48",
   "status": "proved",
   "theorems": [
    "Upsi.Proto.Props.C48_collision_false_positive",
    "Upsi.Proto.Props.C48_repeated_element",
    "Upsi.Proto.Props.C48_message_iii_length",
    "Upsi.Proto.Props.C48_message_v_length",
    "Upsi.Proto.Props.C48_too_many_sets_ub",
    "Upsi.Proto.Props.C48_message_v_ub",
    "Upsi.Proto.Props.C48_message_v_short",
    "Upsi.Proto.Props.C48_original",
    "Upsi.Proto.Props.C48_original_lossy",
    "Upsi.Proto.Props.C48_original_from"
   ],
   "note": ""
  },
  {
   "property": "C49",
   "status": "proved",
   "theorems": [
    "Upsi.Proto.C49_centered",
    "Upsi.Proto.C49_share_word",
    "Upsi.Proto.C49_exact_iff",
    "Upsi.Proto.C49_otherwise_off_by_n",
    "Upsi.Proto.C49_words",
    "Upsi.Proto.C49_wrap_count"
   ],
   "note": ""
  },
  {
   "property": "C50",
   "status": "proved",
   "theorems": [
    "Upsi.Role.C50_del_rejects",
    "Upsi.Role.C50_del_day",
    "Upsi.Role.C50_del_run",
    "Upsi.Role.C50_del_too_many_days",
    "Upsi.Role.C50_order_not_enforced",
    "Upsi.Role.C50_repeat_not_rejected",
    "Upsi.Role.C50_refines_cardinality",
    "Upsi.Role.C50_refines_psi",
    "Upsi.Role.C50_refines_sum",
    "Upsi.Role.C50_refines_secret_share",
    "Upsi.Role.C50_day_count",
    "Upsi.Role.C50_finished_rejects",
    "Upsi.Role.C50_unexpected",
    "Upsi.Role.C50_failure_keeps_day",
    "Upsi.Role.C50_each_data_set_once",
    "Upsi.Role.C50_run",
    "Upsi.Role.C50_lockstep"
   ],
   "note": ""
  },
  {
   "property": "C51",
   "status": "proved",
   "theorems": [
    "Upsi.Role.C51_single_response",
    "Upsi.Role.C51_second_send",
    "Upsi.Role.C51_status",
    "Upsi.Role.C51_end_to_end"
   ],
   "note": ""
  },
  {
   "property": "C52",
   "status": "proved",
   "theorems": [
    "Upsi.Role.C52_del_day",
    "Upsi.Role.C52_del_printed",
    "Upsi.Role.C52_del_zero_days",
    "Upsi.Role.C52_day_counter",
    "Upsi.Role.C52_printed_exact",
    "Upsi.Role.C52_wraps"
   ],
   "note": ""
  },
  {
   "property": "C53",
   "status": "proved",
   "theorems": [
    "Upsi.Proto.C53_cardinality_independent",
    "Upsi.Proto.C53_psi_independent",
    "Upsi.Proto.Props.C53_sum_independent",
    "Upsi.Proto.Props.C53_shares_independent",
    "Upsi.Proto.Props.C53_deletion_independent",
    "Upsi.Proto.Props.C53_deletion_psi_independent",
    "Upsi.Proto.Props.C53_original_independent"
   ],
   "note": ""
  },
  {
   "property": "C54",
   "status": "proved",
   "theorems": [
    "Upsi.Data.C54_deletion_result",
    "Upsi.Data.C54_add_only_rejects",
    "Upsi.Data.C54_deletion_rejects",
    "Upsi.Data.C54_sum_exact",
    "Upsi.Data.C54_add_only",
    "Upsi.Data.C54_deletion",
    "Upsi.Data.C54_duplicate_witness",
    "Upsi.Data.C54_map_assign",
    "Upsi.Data.C54_deletion_values"
   ],
   "note": ""
  },
  {
   "property": "C55",
   "status": "proved",
   "theorems": [
    "Upsi.Main.C55_original_succeeds",
    "Upsi.Setup.C55_addition",
    "Upsi.Setup.C55_addition_works",
    "Upsi.Setup.C55_original",
    "Upsi.Setup.C55_deletion",
    "Upsi.Setup.C55_deletion_works",
    "Upsi.Setup.C55_pair_refused",
    "Upsi.Setup.C55_defaults",
    "Upsi.Setup.C55_addition_succeeds",
    "Upsi.Setup.C55_missing_keys_abort",
    "Upsi.Setup.C55_opposite_keys_fail",
    "Upsi.Setup.C55_same_directory_wrong"
   ],
   "note": ""
  },
  {
   "property": "C56",
   "status": "proved",
   "theorems": [
    "Upsi.Rec.C56_lines_roundtrip",
    "Upsi.Rec.C56_cr_witness",
    "Upsi.Rec.C56_long_witness"
   ],
   "note": ""
  },
  {
   "property": "C57",
   "status": "proved",
   "theorems": [
    "Upsi.Data.C57_roundtrip",
    "Upsi.Data.C57_values_match",
    "Upsi.Data.C57_elements_exact",
    "Upsi.Data.C57_pairs_exact",
    "Upsi.Data.C57_gaps",
    "Upsi.Data.C57_least_value"
   ],
   "note": ""
  },
  {
   "property": "C58",
   "status": "proved",
   "theorems": [
    "Upsi.Curve.C58_bit_length",
    "Upsi.Curve.C58_oracle_value",
    "Upsi.Curve.C58_relprime_exact",
    "Upsi.Curve.C58_relprime_zero",
    "Upsi.Curve.C58_oracle",
    "Upsi.Curve.C58_prf",
    "Upsi.Curve.C58_between",
    "Upsi.Curve.C58_relprime"
   ],
   "note": ""
  },
  {
   "property": "C59",
   "status": "proved",
   "theorems": [
    "Upsi.Curve.C59_roundtrip",
    "Upsi.Curve.C59_identity",
    "Upsi.Curve.C59_export",
    "Upsi.Curve.C59_ec_key",
    "Upsi.Curve.C59_identity_total"
   ],
   "note": ""
  },
  {
   "property": "C60",
   "status": "proved",
   "theorems": [
    "Upsi.Setup.C60_psi_empty_witness",
    "Upsi.Setup.C60_shares_value_witness",
    "Upsi.Setup.C60_wrong_functionality_witness",
    "Upsi.Setup.C60_cardinality",
    "Upsi.Setup.C60_psi",
    "Upsi.Setup.C60_sum",
    "Upsi.Setup.C60_shares"
   ],
   "note": ""
  },
  {
   "property": "C61",
   "status": "proved",
   "theorems": [
    "Upsi.Setup.C61_original_import",
    "Upsi.Setup.C61_tags_written"
   ],
   "note": ""
  },
  {
   "property": "C62",
   "status": "proved",
   "theorems": [
    "Upsi.Setup.C62_inner_product",
    "Upsi.Setup.C62_sum",
    "Upsi.Setup.C62_intersection",
    "Upsi.Setup.C62_wrap_witness",
    "Upsi.Setup.C62_negated_witness",
    "Upsi.Setup.C62_negative_initial_witness"
   ],
   "note": ""
  },
  {
   "property": "C63",
   "status": "proved",
   "theorems": [
    "Upsi.Proto.Examples.C63_short_hash_witness",
    "Upsi.Proto.Examples.C63_low_mask_witness",
    "Upsi.Proto.Examples.C63_negate_min_witness",
    "Upsi.Proto.C63_deletion_only",
    "Upsi.Proto.C63_deletion_small",
    "Upsi.Proto.C63_deletion_psi_only",
    "Upsi.Proto.C63_deletion_psi_small",
    "Upsi.Proto.Examples.C63_infinity_happens",
    "Upsi.Proto.C63_original_only",
    "Upsi.Proto.C63_original_small",
    "Upsi.Proto.C63_original_infinity",
    "Upsi.Proto.C63_cardinality_only",
    "Upsi.Proto.C63_cardinality_small",
    "Upsi.Proto.C63_psi_only",
    "Upsi.Proto.C63_psi_small",
    "Upsi.Proto.C63_sum_only",
    "Upsi.Proto.C63_sum_small",
    "Upsi.Proto.C63_secret_shares_only",
    "Upsi.Proto.C63_secret_shares_small"
   ],
   "note": ""
  },
  {
   "property": "C64",
   "status": "proved",
   "theorems": [
    "Upsi.View.C64_cardinality_view",
    "Upsi.View.C64_cardinality_state",
    "Upsi.View.C64_cardinality_history",
    "Upsi.View.C64_sum_view",
    "Upsi.View.C64_share_view",
    "Upsi.View.C64_psi_view"
   ],
   "note": ""
  },
  {
   "property": "C65",
   "status": "proved",
   "theorems": [
    "Upsi.View.C65_sizes_deletion",
    "Upsi.View.C65_sizes_deletion_intersection",
    "Upsi.View.Examples.C65_sizes_leak",
    "Upsi.View.C65_sizes_cardinality",
    "Upsi.View.C65_sizes_intersection",
    "Upsi.View.C65_sizes_sum",
    "Upsi.View.C65_sizes_sharing",
    "Upsi.View.C65_constant",
    "Upsi.View.C65_bounds"
   ],
   "note": ""
  },
  {
   "property": "C66",
   "status": "proved",
   "theorems": [
    "Upsi.View.C66_shares_uniform"
   ],
   "note": ""
  },
  {
   "property": "C67",
   "status": "proved",
   "theorems": [
    "Upsi.View.C67_message_iii",
    "Upsi.View.C67_message_iv",
    "Upsi.View.C67_message_ii",
    "Upsi.View.C67_message_ii_leak",
    "Upsi.View.C67_message_iv_leak"
   ],
   "note": ""
  },
  {
   "property": "C68",
   "status": "proved",
   "theorems": [
    "Upsi.Num.BN.C68_refinement",
    "Upsi.Num.BN.C68_decimal",
    "Upsi.Num.BN.C68_safe_prime",
    "Upsi.Num.BN.C68_mod_inverse",
    "Upsi.Num.BN.C68_unique",
    "Upsi.Num.BN.C68_ring",
    "Upsi.Num.BN.C68_compare",
    "Upsi.Num.BN.C68_operators",
    "Upsi.Num.BN.C68_division",
    "Upsi.Num.BN.C68_modular",
    "Upsi.Num.BN.C68_exp",
    "Upsi.Num.BN.C68_mod_exp",
    "Upsi.Num.BN.C68_mod_negate",
    "Upsi.Num.BN.C68_bits",
    "Upsi.Num.BN.C68_gcd_tests"
   ],
   "note": ""
  },
  {
   "property": "C69",
   "status": "proved",
   "theorems": [
    "Upsi.Paillier.C69_generator",
    "Upsi.Paillier.C69_private_uniform",
    "Upsi.Paillier.C69_public_uniform",
    "Upsi.Paillier.C69_reported_rand",
    "Upsi.Paillier.C69_same_length",
    "Upsi.Paillier.C69_related_primes",
    "Upsi.Paillier.C69_public_encrypt_half"
   ],
   "note": ""
  },
  {
   "property": "C70",
   "status": "proved",
   "theorems": [
    "Upsi.View.C70_zero_range",
    "Upsi.View.C70_one_range",
    "Upsi.View.C70_zero_determines",
    "Upsi.View.C70_one_determines",
    "Upsi.View.C70_zero_hides",
    "Upsi.View.C70_one_hides",
    "Upsi.View.C70_zero_completes",
    "Upsi.View.C70_one_completes"
   ],
   "note": ""
  },
  {
   "property": "C71",
   "status": "proved",
   "theorems": [
    "Upsi.Paillier.C71_add_symbol",
    "Upsi.Paillier.C71_multiply_symbol",
    "Upsi.Paillier.C71_public_symbol",
    "Upsi.Paillier.C71_rerand_symbol",
    "Upsi.Paillier.C71_private_symbol",
    "Upsi.View.C71_candidates",
    "Upsi.View.C71_message_one",
    "Upsi.View.C71_message_two",
    "Upsi.View.C71_paths_told_apart",
    "Upsi.View.C71_paths_told_apart_two",
    "Upsi.View.C71_match",
    "Upsi.View.C71_day_zero",
    "Upsi.View.C71_day_one"
   ],
   "note": ""
  },
  {
   "property": "C72",
   "status": "proved",
   "theorems": [
    "Upsi.Wire.C72_layout_data",
    "Upsi.Wire.C72_layout_messages",
    "Upsi.Wire.C72_layout_keys",
    "Upsi.Wire.C72_concat",
    "Upsi.Wire.C72_int32",
    "Upsi.Wire.C72_client",
    "Upsi.Wire.C72_server",
    "Upsi.Wire.C72_injective",
    "Upsi.Wire.C72_injective_server",
    "Upsi.Wire.C72_unset",
    "Upsi.Wire.C72_last_wins",
    "Upsi.Wire.C72_plain_tree",
    "Upsi.Wire.C72_encrypted_tree",
    "Upsi.Wire.C72_oprf",
    "Upsi.Wire.C72_tree_file",
    "Upsi.Wire.C72_overflow"
   ],
   "note": ""
  },
  {
   "property": "C73",
   "status": "proved",
   "theorems": [
    "Upsi.Main.C73_original",
    "Upsi.Main.C73_deletion",
    "Upsi.Main.C73_deletion_psi",
    "Upsi.Main.C73_cardinality",
    "Upsi.Main.C73_psi",
    "Upsi.Main.C73_sum",
    "Upsi.Main.C73_shares",
    "Upsi.Main.C73_limit",
    "Upsi.Main.C73_cardinality_run",
    "Upsi.Main.C73_psi_run",
    "Upsi.Main.C73_sum_run",
    "Upsi.Main.C73_shares_run",
    "Upsi.Main.C73_original_run",
    "Upsi.Main.C73_deletion_run",
    "Upsi.Main.C73_deletion_psi_run"
   ],
   "note": ""
  },
  {
   "property": "C74",
   "status": "proved",
   "theorems": [
    "Upsi.Main.C74_cardinality",
    "Upsi.Main.C74_psi",
    "Upsi.Main.C74_sum",
    "Upsi.Main.C74_sum_wrap",
    "Upsi.Main.C74_prints",
    "Upsi.Main.C74_random_elements",
    "Upsi.Main.C74_shares",
    "Upsi.Main.C74_shares_initial",
    "Upsi.Main.C74_shared_size",
    "Upsi.Main.C74_count",
    "Upsi.Main.C74_missing_day"
   ],
   "note": ""
  },
  {
   "property": "C75",
   "status": "proved",
   "theorems": [
    "Upsi.Main.C75_printed",
    "Upsi.Main.C75_cardinality_sum",
    "Upsi.Main.C75_intersection",
    "Upsi.Main.C75_functionality"
   ],
   "note": ""
  },
  {
   "property": "C76",
   "status": "proved",
   "theorems": [
    "Upsi.Main.C76_original",
    "Upsi.Main.C76_prints",
    "Upsi.Main.C76_default_trees",
    "Upsi.Main.C76_total"
   ],
   "note": ""
  },
  {
   "property": "C77",
   "status": "proved",
   "theorems": [
    "Upsi.Curve.C77_group",
    "Upsi.Curve.C77_random",
    "Upsi.Curve.C77_hash",
    "Upsi.Curve.C77_hash_deterministic",
    "Upsi.Curve.C77_create",
    "Upsi.Curve.C77_decode",
    "Upsi.Curve.C77_is_point",
    "Upsi.Curve.C77_total",
    "Upsi.Curve.C77_encode",
    "Upsi.Curve.C77_canonical",
    "Upsi.Curve.C77_injective"
   ],
   "note": ""
  },
  {
   "property": "C78",
   "status": "proved",
   "theorems": [
    "Upsi.Mock.C78_shares",
    "Upsi.Mock.C78_inner_product",
    "Upsi.Mock.C78_sum",
    "Upsi.Mock.C78_intersection",
    "Upsi.Proto.Examples.C78_collision_witness",
    "Upsi.Proto.Examples.C78_collision_deletion_witness",
    "Upsi.Proto.Examples.C78_zero_witness",
    "Upsi.Proto.Examples.C78_sizes_witness"
   ],
   "note": ""
  },
  {
   "property": "C79",
   "status": "proved",
   "theorems": [
    "Upsi.Hide.C79_transcript",
    "Upsi.Hide.C79_run",
    "Upsi.Hide.C79_honest",
    "Upsi.Hide.C79_cardinality",
    "Upsi.Hide.C79_intersection",
    "Upsi.Hide.C79_sum",
    "Upsi.Hide.C79_places"
   ],
   "note": ""
  },
  {
   "property": "C80",
   "status": "proved",
   "theorems": [
    "Upsi.Hide.C80_cardinality",
    "Upsi.Hide.C80_places",
    "Upsi.Hide.C80_run"
   ],
   "note": ""
  },
  {
   "property": "C81",
   "status": "proved",
   "theorems": [
    "Upsi.Hide.C81_tree_updates",
    "Upsi.Hide.C81_private_encrypt",
    "Upsi.Hide.C81_places",
    "Upsi.Hide.C81_party_zero",
    "Upsi.Hide.C81_party_one"
   ],
   "note": ""
  },
  {
   "property": "C82",
   "status": "proved",
   "theorems": [
    "Upsi.Hide.C82_psi",
    "Upsi.Hide.C82_places",
    "Upsi.Hide.C82_run"
   ],
   "note": ""
  },
  {
   "property": "C83",
   "status": "proved",
   "theorems": [
    "Upsi.Setup.C83_generation_addition",
    "Upsi.Setup.C83_generation_shares",
    "Upsi.Setup.C83_generation_deletion",
    "Upsi.Setup.C83_cardinality_only",
    "Upsi.Setup.C83_cardinality_small",
    "Upsi.Setup.C83_psi_only",
    "Upsi.Setup.C83_psi_small",
    "Upsi.Setup.C83_sum_only",
    "Upsi.Setup.C83_sum_small",
    "Upsi.Setup.C83_shares_only",
    "Upsi.Setup.C83_shares_small",
    "Upsi.Setup.C83_original_only",
    "Upsi.Setup.C83_original_small",
    "Upsi.Setup.C83_deletion_only",
    "Upsi.Setup.C83_deletion_small",
    "Upsi.Setup.C83_deletion_psi_only",
    "Upsi.Setup.C83_deletion_psi_small"
   ],
   "note": ""
  },
  {
   "property": "C84",
   "status": "proved",
   "theorems": [
    "Upsi.Main.C84_cardinality_sum",
    "Upsi.Main.C84_intersection",
    "Upsi.Main.C84_refused",
    "Upsi.Main.C84_shares"
   ],
   "note": ""
  },
  {
   "property": "C85",
   "status": "proved",
   "theorems": [
    "Upsi.Main.C85_deletion",
    "Upsi.Main.C85_deletion_small",
    "Upsi.Main.C85_deletion_psi",
    "Upsi.Main.C85_deletion_psi_small",
    "Upsi.Main.C85_original",
    "Upsi.Main.C85_original_small",
    "Upsi.Main.C85_cardinality",
    "Upsi.Main.C85_cardinality_small",
    "Upsi.Main.C85_psi",
    "Upsi.Main.C85_psi_small",
    "Upsi.Main.C85_sum",
    "Upsi.Main.C85_sum_small",
    "Upsi.Main.C85_shares",
    "Upsi.Main.C85_shares_small"
   ],
   "note": ""
  },
  {
   "property": "C86",
   "status": "proved",
   "theorems": [
    "Upsi.Main.C86_addition_setup",
    "Upsi.Main.C86_original_setup"
   ],
   "note": ""
  },
  {
   "property": "C87",
   "status": "proved",
   "theorems": [
    "Upsi.Main.C87_own_keys",
    "Upsi.Main.C87_addition_files",
    "Upsi.Main.C87_addition_no_other",
    "Upsi.Main.C87_deletion_files",
    "Upsi.Main.C87_deletion_no_other",
    "Upsi.Main.C87_mock_files",
    "Upsi.Main.C87_mock_no_other",
    "Upsi.Main.C87_original_files",
    "Upsi.Main.C87_original_no_other"
   ],
   "note": ""
  },
  {
   "property": "C88",
   "status": "proved",
   "theorems": [
    "Upsi.Main.C88_addition_outputs",
    "Upsi.Main.C88_ss_outputs",
    "Upsi.Main.C88_deletion_outputs",
    "Upsi.Main.C88_original_outputs",
    "Upsi.Main.C88_inputs_written"
   ],
   "note": ""
  },
  {
   "property": "C89",
   "status": "proved",
   "theorems": [
    "Upsi.Main.C89_addition_fresh",
    "Upsi.Main.C89_ss_fresh",
    "Upsi.Main.C89_original_fresh",
    "Upsi.Main.C89_deletion_fresh",
    "Upsi.Main.C89_runs_agree"
   ],
   "note": ""
  }
 ]
}
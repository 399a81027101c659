{
 "claims": [
  {
   "property": "C01",
   "status": "proved",
   "theorems": [
    "Schnorrkel.Props.divide_by_cofactor_value",
    "Schnorrkel.Props.multiply_by_cofactor_value",
    "Schnorrkel.Props.cofactor_helpers_never_overflow",
    "Schnorrkel.Props.divide_multiply_iff",
    "Schnorrkel.Props.multiply_divide_value",
    "Schnorrkel.Props.multiply_divide_iff"
   ],
   "note": ""
  },
  {
   "property": "C02",
   "status": "proved",
   "theorems": [
    "Schnorrkel.Props.check_scalar_iff"
   ],
   "note": ""
  },
  {
   "property": "C03",
   "status": "proved",
   "theorems": [
    "Schnorrkel.Props.expand_ed25519_spec",
    "Schnorrkel.Props.expand_ed25519_eq_from_ed25519_bytes"
   ],
   "note": ""
  },
  {
   "property": "C04",
   "status": "proved",
   "theorems": [
    "Schnorrkel.Props.expand_uniform_spec",
    "Schnorrkel.Props.expand_uniform_local",
    "Schnorrkel.Props.expand_uniform_queries_disjoint",
    "Schnorrkel.Props.expand_entry_points_agree"
   ],
   "note": ""
  },
  {
   "property": "C05",
   "status": "proved",
   "theorems": [
    "Schnorrkel.Props.secretkey_bytes_roundtrip",
    "Schnorrkel.Props.secretkey_bytes_canonical",
    "Schnorrkel.Props.secretkey_ed25519_roundtrip",
    "Schnorrkel.Props.secretkey_ed25519_import_drops_low_bits"
   ],
   "note": ""
  },
  {
   "property": "C06",
   "status": "proved",
   "theorems": [
    "Schnorrkel.Props.minisecretkey_from_bytes_table",
    "Schnorrkel.Props.secretkey_from_bytes_table",
    "Schnorrkel.Props.secretkey_from_ed25519_bytes_table",
    "Schnorrkel.Props.publickey_from_bytes_table",
    "Schnorrkel.Props.ristretto_from_bytes_table",
    "Schnorrkel.Props.keypair_from_bytes_table",
    "Schnorrkel.Props.keypair_from_half_ed25519_bytes_table",
    "Schnorrkel.Props.keypair_bytes_roundtrip"
   ],
   "note": ""
  },
  {
   "property": "C07",
   "status": "proved",
   "theorems": [
    "Schnorrkel.Props.reach_scalars_canonical"
   ],
   "note": ""
  },
  {
   "property": "C08",
   "status": "proved",
   "theorems": [
    "Schnorrkel.Props.publickey_eq_ord_hash_consistent",
    "Schnorrkel.Props.publickey_cmp_total_order",
    "Schnorrkel.Props.publickey_constructors_wf",
    "Schnorrkel.Props.reach_points_consistent",
    "Schnorrkel.Props.reach_eq_never_panics"
   ],
   "note": ""
  },
  {
   "property": "C09",
   "status": "proved",
   "theorems": [
    "Schnorrkel.Props.signature_to_bytes_layout",
    "Schnorrkel.Props.signature_from_bytes_ok_iff",
    "Schnorrkel.Props.signature_from_bytes_err_iff",
    "Schnorrkel.Props.signature_bytes_roundtrip"
   ],
   "note": ""
  },
  {
   "property": "C10",
   "status": "proved",
   "theorems": [
    "Schnorrkel.Props.sign_then_verify",
    "Schnorrkel.Props.merlin_sign_then_verify",
    "Schnorrkel.Props.attached_rng_sign_then_verify",
    "Schnorrkel.Props.xof_sign_then_verify",
    "Schnorrkel.Props.keypair_sign_variants_succeed"
   ],
   "note": ""
  },
  {
   "property": "C11",
   "status": "proved",
   "theorems": [
    "Schnorrkel.Props.verify_iff_schnorr",
    "Schnorrkel.Props.verify_simple_iff_schnorr",
    "Schnorrkel.Props.verify_outcomes",
    "Schnorrkel.Props.keypair_verify_iff_schnorr"
   ],
   "note": ""
  },
  {
   "property": "C12",
   "status": "proved",
   "theorems": [
    "Schnorrkel.Props.signature_s_unique",
    "Schnorrkel.Props.accepted_encodings_unique",
    "Schnorrkel.Props.invalid_R_never_verifies"
   ],
   "note": ""
  },
  {
   "property": "C13",
   "status": "proved",
   "theorems": [
    "Schnorrkel.Props.double_acceptance_relation",
    "Schnorrkel.Props.message_transfer_needs_collision",
    "Schnorrkel.Props.key_transfer_different_queries"
   ],
   "note": ""
  },
  {
   "property": "C14",
   "status": "proved",
   "theorems": [
    "Schnorrkel.Props.identity_key_universal_forgery",
    "Schnorrkel.Props.identity_key_one_signature_all_messages",
    "Schnorrkel.Props.nonidentity_key_pins_challenge"
   ],
   "note": ""
  },
  {
   "property": "C15",
   "status": "proved",
   "theorems": [
    "Schnorrkel.Props.nonce_reuse_reveals_key",
    "Schnorrkel.Props.sign_nonce_is_hash",
    "Schnorrkel.Props.nonce_query_injective",
    "Schnorrkel.Props.nonce_query_ne_challenge_query"
   ],
   "note": ""
  },
  {
   "property": "C16",
   "status": "proved",
   "theorems": [
    "Schnorrkel.Props.keypair_from_bytes_accepts_any_pair",
    "Schnorrkel.Props.keypair_from_bytes_not_always_consistent",
    "Schnorrkel.Props.keypair_from_half_ed25519_accepts_any_pair",
    "Schnorrkel.Props.keypair_from_half_ed25519_not_always_consistent",
    "Schnorrkel.Props.keypair_constructors_consistent"
   ],
   "note": ""
  },
  {
   "property": "C17",
   "status": "proved",
   "theorems": [
    "Schnorrkel.Props.doublecheck_sound",
    "Schnorrkel.Props.doublecheck_detects_mismatch"
   ],
   "note": ""
  },
  {
   "property": "C18",
   "status": "proved",
   "theorems": [
    "Schnorrkel.Props.transcript_after_sign_and_verify",
    "Schnorrkel.Props.sign_rng_usage",
    "Schnorrkel.Props.sign_then_verify"
   ],
   "note": ""
  },
  {
   "property": "C19",
   "status": "proved",
   "theorems": [
    "Schnorrkel.Props.context_transcripts_injective",
    "Schnorrkel.Props.context_transcript_history",
    "Schnorrkel.Props.context_prehash_history",
    "Schnorrkel.Props.attach_rng_transparent",
    "Schnorrkel.Props.attach_rng_replaces_system_rng"
   ],
   "note": ""
  },
  {
   "property": "C20",
   "status": "proved",
   "theorems": [
    "Schnorrkel.Props.xof_answers_are_queries",
    "Schnorrkel.Props.xof_query_injective"
   ],
   "note": ""
  },
  {
   "property": "C21",
   "status": "proved",
   "theorems": [
    "Schnorrkel.Props.verify_batch_iff",
    "Schnorrkel.Props.verify_batch_complete",
    "Schnorrkel.Props.dedup_irrelevant",
    "Schnorrkel.Props.iterator_kind_irrelevant"
   ],
   "note": ""
  },
  {
   "property": "C22",
   "status": "proved",
   "theorems": [
    "Schnorrkel.Props.verify_batch_iff",
    "Schnorrkel.Props.vanishing_count",
    "Schnorrkel.Props.verify_batch_is_check_of_drawn_coefficients",
    "Schnorrkel.Props.verify_batch_sound_count",
    "Schnorrkel.Props.batch_query_injective"
   ],
   "note": ""
  },
  {
   "property": "C23",
   "status": "proved",
   "theorems": [
    "Schnorrkel.Props.verify_batch_panics_iff",
    "Schnorrkel.Props.surplus_transcript_ignored"
   ],
   "note": ""
  },
  {
   "property": "C24",
   "status": "proved",
   "theorems": [
    "Schnorrkel.Props.prepared_batch_write",
    "Schnorrkel.Props.prepared_batch_write_layout",
    "Schnorrkel.Props.prepared_batch_read_never_ok",
    "Schnorrkel.Props.prepared_batch_read_body"
   ],
   "note": ""
  },
  {
   "property": "C25",
   "status": "proved",
   "theorems": [
    "Schnorrkel.Props.vrf_sign_then_verify",
    "Schnorrkel.Props.vrf_sign_then_verify_merlin",
    "Schnorrkel.Props.vrf_output_identity_iff",
    "Schnorrkel.Props.dleq_prove_then_verify"
   ],
   "note": ""
  },
  {
   "property": "C26",
   "status": "proved",
   "theorems": [
    "Schnorrkel.Props.vrf_shorten_agrees",
    "Schnorrkel.Props.shorten_vrf_agrees",
    "Schnorrkel.Props.vrf_preout_codec",
    "Schnorrkel.Props.vrf_proof_codec",
    "Schnorrkel.Props.vrf_proof_batchable_codec"
   ],
   "note": ""
  },
  {
   "property": "C27",
   "status": "proved",
   "theorems": [
    "Schnorrkel.Props.attach_input_hash_table",
    "Schnorrkel.Props.vrf_attach_hash_table",
    "Schnorrkel.Props.vrf_verify_rejects_identity",
    "Schnorrkel.Props.vrfs_verify_accepts",
    "Schnorrkel.Props.vrf_verify_batch_spec"
   ],
   "note": ""
  },
  {
   "property": "C28",
   "status": "proved",
   "theorems": [
    "Schnorrkel.Props.dleq_verify_iff",
    "Schnorrkel.Props.dleq_wrong_output_pins_challenge",
    "Schnorrkel.Props.dleq_fork_extracts",
    "Schnorrkel.Props.dleq_challenge_is_query",
    "Schnorrkel.Props.dleq_query_injective"
   ],
   "note": ""
  },
  {
   "property": "C29",
   "status": "proved",
   "theorems": [
    "Schnorrkel.Props.vrf_sign_extra_after_check_iff",
    "Schnorrkel.Props.vrf_sign_after_check_verifies"
   ],
   "note": ""
  },
  {
   "property": "C30",
   "status": "proved",
   "theorems": [
    "Schnorrkel.Props.vrfs_sign_then_verify",
    "Schnorrkel.Props.vrfs_sign_then_verify_no_extra",
    "Schnorrkel.Props.vrfs_merge_spec",
    "Schnorrkel.Props.merge_query_injective",
    "Schnorrkel.Props.vrfs_merge_sound_count",
    "Schnorrkel.Props.vrfs_verify_accepts"
   ],
   "note": ""
  },
  {
   "property": "C31",
   "status": "proved",
   "theorems": [
    "Schnorrkel.Props.vrfs_verify_panics_iff",
    "Schnorrkel.Props.vrfs_verify_ignores_one_surplus",
    "Schnorrkel.Props.vrf_verify_batch_panics_iff",
    "Schnorrkel.Props.vrf_verify_batch_spec"
   ],
   "note": ""
  },
  {
   "property": "C32",
   "status": "proved",
   "theorems": [
    "Schnorrkel.Props.dleq_batch_equation_iff",
    "Schnorrkel.Props.dleq_verify_batch_is_check_of_drawn_coefficients",
    "Schnorrkel.Props.dleq_verify_batch_complete",
    "Schnorrkel.Props.dleq_verify_batch_sound_count",
    "Schnorrkel.Props.dleq_valid_iff_shortened_verifies",
    "Schnorrkel.Props.dleq_verify_batch_panics_iff",
    "Schnorrkel.Props.vrf_verify_batch_spec"
   ],
   "note": ""
  },
  {
   "property": "C33",
   "status": "proved",
   "theorems": [
    "Schnorrkel.Props.make_bytes_is_query",
    "Schnorrkel.Props.make_rng_is_query",
    "Schnorrkel.Props.vrf_rng_is_query",
    "Schnorrkel.Props.vrf_result_query_injective",
    "Schnorrkel.Props.vrf_rng_query_injective",
    "Schnorrkel.Props.make_bytes_agree"
   ],
   "note": ""
  },
  {
   "property": "C34",
   "status": "proved",
   "theorems": [
    "Schnorrkel.Props.vrf_input_is_query",
    "Schnorrkel.Props.vrf_input_query_injective",
    "Schnorrkel.Props.malleable_vrf_child_related"
   ],
   "note": ""
  },
  {
   "property": "C35",
   "status": "proved",
   "theorems": [
    "Schnorrkel.Props.soft_derivation_commutes",
    "Schnorrkel.Props.soft_derivation_path_commutes",
    "Schnorrkel.Props.derivation_entry_points_agree",
    "Schnorrkel.Props.soft_derivation_spec",
    "Schnorrkel.Props.derived_key_simple_spec",
    "Schnorrkel.Props.soft_query_injective"
   ],
   "note": ""
  },
  {
   "property": "C36",
   "status": "proved",
   "theorems": [
    "Schnorrkel.Props.parent_secret_from_child",
    "Schnorrkel.Props.root_secret_from_descendant",
    "Schnorrkel.Props.hard_derivation_spec",
    "Schnorrkel.Props.hard_query_injective"
   ],
   "note": ""
  },
  {
   "property": "C37",
   "status": "proved",
   "theorems": [
    "Schnorrkel.Props.accept_adaptor_cert_table",
    "Schnorrkel.Props.open_adaptor_cert_table",
    "Schnorrkel.Props.issue_adaptor_cert_spec",
    "Schnorrkel.Props.adaptor_cert_complete",
    "Schnorrkel.Props.issue_self_adaptor_cert_complete",
    "Schnorrkel.Props.accepted_cert_matches_iff",
    "Schnorrkel.Props.cert_transplant_reveals_issuer",
    "Schnorrkel.Props.cert_challenge_is_query",
    "Schnorrkel.Props.cert_query_injective"
   ],
   "note": ""
  },
  {
   "property": "C38",
   "status": "proved",
   "theorems": [
    "Schnorrkel.Props.raw_key_exchange_agree",
    "Schnorrkel.Props.commit_key_exchange_agree",
    "Schnorrkel.Props.aead_unauthenticated_agree",
    "Schnorrkel.Props.init_aead_agree",
    "Schnorrkel.Props.two_dh_aead_agree",
    "Schnorrkel.Props.adaptor_cert_aead_agree",
    "Schnorrkel.Props.reciever_cert_aead_error",
    "Schnorrkel.Props.aead_unauthenticated_is_query",
    "Schnorrkel.Props.reciever_aead_is_query",
    "Schnorrkel.Props.kex_query_injective",
    "Schnorrkel.Props.two_dh_query_injective",
    "Schnorrkel.Props.identity_public_key_gives_known_key"
   ],
   "note": ""
  },
  {
   "property": "C39",
   "status": "proved",
   "theorems": [
    "Schnorrkel.Props.musig_rejection_changes_nothing",
    "Schnorrkel.Props.musig_session_never_panics",
    "Schnorrkel.Props.musig_collector_never_panics"
   ],
   "note": ""
  },
  {
   "property": "C40",
   "status": "proved",
   "theorems": [
    "Schnorrkel.Props.musig_public_keys",
    "Schnorrkel.Props.add_their_commitment_table",
    "Schnorrkel.Props.add_their_reveal_table",
    "Schnorrkel.Props.add_trusted_table",
    "Schnorrkel.Props.add_their_cosignature_table",
    "Schnorrkel.Props.collector_add_table",
    "Schnorrkel.Props.musig_entries_immutable",
    "Schnorrkel.Props.musig_recorded_entries_persist",
    "Schnorrkel.Props.musig_commitment_binding"
   ],
   "note": ""
  },
  {
   "property": "C41",
   "status": "proved",
   "theorems": [
    "Schnorrkel.Props.musig_complete",
    "Schnorrkel.Props.plain_honest",
    "Schnorrkel.Props.musig_plain_run"
   ],
   "note": ""
  },
  {
   "property": "C42",
   "status": "proved",
   "theorems": [
    "Schnorrkel.Props.sort_unstable_any",
    "Schnorrkel.Props.aggregate_from_slice_iff",
    "Schnorrkel.Props.aggregate_from_sorted_slice_iff",
    "Schnorrkel.Props.aggregate_key_of_set",
    "Schnorrkel.Props.increasing_list_exists",
    "Schnorrkel.Props.aggregate_key_order_independent",
    "Schnorrkel.Props.weightQuery_injective",
    "Schnorrkel.Props.map_weighting",
    "Schnorrkel.Props.aggregate_empty_slice",
    "Schnorrkel.Props.session_public_keys",
    "Schnorrkel.Props.musig_sign_verifies_iff",
    "Schnorrkel.Props.aggregate_slice_after"
   ],
   "note": ""
  },
  {
   "property": "C43",
   "status": "proved",
   "theorems": [
    "Schnorrkel.Props.slice_weighting_inverted",
    "Schnorrkel.Props.sorted_slice_weighting_inverted",
    "Schnorrkel.Props.map_weighting"
   ],
   "note": ""
  },
  {
   "property": "C44",
   "status": "proved",
   "theorems": [
    "Schnorrkel.Props.deserialize_is_from_bytes",
    "Schnorrkel.Props.deserialize_no_alloc_is_from_bytes",
    "Schnorrkel.Props.serde_roundtrip",
    "Schnorrkel.Props.serde_byte_string_formats_fail",
    "Schnorrkel.Props.deserialize_validates"
   ],
   "note": ""
  },
  {
   "property": "C45",
   "status": "proved",
   "theorems": [
    "Schnorrkel.Props.unmarked_from_bytes_table",
    "Schnorrkel.Props.preaudit_unmarked_table",
    "Schnorrkel.Props.preaudit_marked_is_current",
    "Schnorrkel.Props.preaudit_unmarked_is_legacy"
   ],
   "note": ""
  },
  {
   "property": "C46",
   "status": "proved",
   "theorems": [
    "Schnorrkel.Props.zeroize_erases"
   ],
   "note": ""
  },
  {
   "property": "C47",
   "status": "proved",
   "theorems": [
    "Schnorrkel.Props.secretkey_eq_ignores_nonce",
    "Schnorrkel.Props.mini_secret_eq_iff",
    "Schnorrkel.Props.secretkey_eq_iff_public_eq",
    "Schnorrkel.Props.generate_spec"
   ],
   "note": ""
  },
  {
   "property": "C48",
   "status": "proved",
   "theorems": [
    "Schnorrkel.Props.prepared_batch_agrees",
    "Schnorrkel.Props.prepared_batch_complete"
   ],
   "note": ""
  },
  {
   "property": "C49",
   "status": "proved",
   "theorems": [
    "Schnorrkel.Props.musig_sign_verifies_iff",
    "Schnorrkel.Props.musig_single_share"
   ],
   "note": ""
  },
  {
   "property": "C50",
   "status": "proved",
   "theorems": [
    "Schnorrkel.Props.musig_nonces_are_hashes",
    "Schnorrkel.Props.musig_nonce_query_injective",
    "Schnorrkel.Props.musig_nonce_reuse_reveals_key"
   ],
   "note": ""
  },
  {
   "property": "C51",
   "status": "proved",
   "theorems": [
    "Schnorrkel.Props.witness_query_injective",
    "Schnorrkel.Props.vrf_nonce_is_hash",
    "Schnorrkel.Props.vrf_nonce_query_injective",
    "Schnorrkel.Props.vrf_kusama_nonce_ignores_public_key",
    "Schnorrkel.Props.vrf_sign_malleable_shares_nonce"
   ],
   "note": ""
  },
  {
   "property": "C52",
   "status": "proved",
   "theorems": [
    "Schnorrkel.Props.issuing_nonce_is_hash",
    "Schnorrkel.Props.accepting_nonce_is_hash",
    "Schnorrkel.Props.self_cert_randomness_is_hash",
    "Schnorrkel.Props.derived_nonce_is_hash",
    "Schnorrkel.Props.sender_ephemeral_is_hash"
   ],
   "note": ""
  },
  {
   "property": "C53",
   "status": "proved",
   "theorems": [
    "Schnorrkel.Props.attached_rng_is_the_rng",
    "Schnorrkel.Props.attached_chacharng_deterministic",
    "Schnorrkel.Props.merlin_default_witness",
    "Schnorrkel.Props.xof_default_witness"
   ],
   "note": "issue_self_adaptor_cert and sign_doublecheck need a Clone transcript, which the RNG-carrying transcript is not"
  },
  {
   "property": "C54",
   "status": "proved",
   "theorems": [
    "Schnorrkel.Props.hash_uses_separated",
    "Schnorrkel.Props.hash_uses_separated_exact",
    "Schnorrkel.Props.musig_coeffs_are_queries",
    "Schnorrkel.Props.musig_coeff_query_injective",
    "Schnorrkel.Props.batch_digest_is_query"
   ],
   "note": ""
  },
  {
   "property": "C55",
   "status": "proved",
   "theorems": [
    "Schnorrkel.Props.make_rng_is_query",
    "Schnorrkel.Props.vrf_rng_is_query",
    "Schnorrkel.Props.vrf_rng_query_injective"
   ],
   "note": "ChaChaRng::from_seed is an arbitrary function of the seed"
  },
  {
   "property": "C56",
   "status": "proved",
   "theorems": [
    "Schnorrkel.Props.debug_prints_secrets",
    "Schnorrkel.Props.debug_injective",
    "Schnorrkel.Props.debug_public",
    "Schnorrkel.Props.debug_same_text_iff"
   ],
   "note": ""
  },
  {
   "property": "C57",
   "status": "proved",
   "theorems": [
    "Schnorrkel.Props.signature_simulation",
    "Schnorrkel.Props.signature_nonces",
    "Schnorrkel.Props.signature_distribution",
    "Schnorrkel.Props.dleq_simulation",
    "Schnorrkel.Props.dleq_nonces",
    "Schnorrkel.Props.dleq_distribution"
   ],
   "note": "the nonce answer ranges over all 64-byte strings; the other answers are arbitrary but fixed"
  },
  {
   "property": "C58",
   "status": "proved",
   "theorems": [
    "Schnorrkel.Props.wide_reduction_uniform"
   ],
   "note": ""
  },
  {
   "property": "C59",
   "status": "proved",
   "theorems": [
    "Schnorrkel.Props.signature_fork_extracts",
    "Schnorrkel.Props.musig_weight_fork_extracts",
    "Schnorrkel.Props.musig_forgery_extracts"
   ],
   "note": "the extraction step; how often a fork succeeds is C63 for signatures and C68 for MuSig"
  },
  {
   "property": "C60",
   "status": "proved",
   "theorems": [
    "Schnorrkel.Props.musig_cosigned_lists",
    "Schnorrkel.Props.musig_transcript_edits"
   ],
   "note": ""
  },
  {
   "property": "C61",
   "status": "proved",
   "theorems": [
    "Schnorrkel.Props.vrf_verify_wire",
    "Schnorrkel.Props.vrf_verify_wire_no_extra",
    "Schnorrkel.Props.vrf_sign_wire",
    "Schnorrkel.Props.vrf_output_bytes",
    "Schnorrkel.Props.vrfs_verify_wire",
    "Schnorrkel.Props.vrfs_wire_no_extra"
   ],
   "note": ""
  },
  {
   "property": "C62",
   "status": "proved",
   "theorems": [
    "Schnorrkel.Props.vrf_uniqueness_random_oracle",
    "Schnorrkel.Props.vrf_two_outputs_random_oracle"
   ],
   "note": "random-oracle model: merlin answers of 64 bytes on a finite set of queries are a uniformly random table"
  },
  {
   "property": "C63",
   "status": "proved",
   "theorems": [
    "Schnorrkel.Props.signatures_unforgeable",
    "Schnorrkel.Props.every_attacker_is_bounded"
   ],
   "note": "random-oracle model as in C62; the hardness of discrete logarithms is not assumed, the theorem gives the reduction"
  },
  {
   "property": "C64",
   "status": "proved",
   "theorems": [
    "Schnorrkel.Props.batch_verdict_by_weighted_sum",
    "Schnorrkel.Props.deterministic_batch_accepts_invalid_signatures",
    "Schnorrkel.Props.prepared_batch_verify_iff",
    "Schnorrkel.Props.preparedVerifyWith_iff",
    "Schnorrkel.Props.half_aggregate_extracts"
   ],
   "note": ""
  },
  {
   "property": "C65",
   "status": "proved",
   "theorems": [
    "Schnorrkel.Props.verify_batch_sound_random_oracle",
    "Schnorrkel.Props.dleq_verify_batch_sound_random_oracle",
    "Schnorrkel.Props.vrf_verify_batch_sound_random_oracle",
    "Schnorrkel.Props.vrf_verify_batch_unique_random_oracle"
   ],
   "note": "random-oracle model as in C62, with short answers taken from the same table; the verifier's RNG bytes are uniform and independent"
  },
  {
   "property": "C66",
   "status": "proved",
   "theorems": [
    "Schnorrkel.Props.vrfs_uniqueness_random_oracle",
    "Schnorrkel.Props.vrfs_two_outputs_random_oracle"
   ],
   "note": "random-oracle model as in C65"
  },
  {
   "property": "C67",
   "status": "proved",
   "theorems": [
    "Schnorrkel.Props.mutRef_sim",
    "Schnorrkel.Props.mutRef_sim_both",
    "Schnorrkel.Props.mut_ref_transparent",
    "Schnorrkel.Props.mut_ref_transparent_more",
    "Schnorrkel.Props.mut_ref_attach_rng",
    "Schnorrkel.Props.attach_rng_twice",
    "Schnorrkel.Props.protocol_in_step",
    "Schnorrkel.Props.protocol_log",
    "Schnorrkel.Props.protocol_binding",
    "Schnorrkel.Props.accept_one_challenge_behind",
    "Schnorrkel.Props.cert_logs"
   ],
   "note": ""
  },
  {
   "property": "C68",
   "status": "proved",
   "theorems": [
    "Schnorrkel.Props.rogue_keys_random_oracle",
    "Schnorrkel.Props.joint_forgery_random_oracle"
   ],
   "note": "random-oracle model as in C63; the forger has no access to signing sessions of the honest key"
  },
  {
   "property": "C69",
   "status": "proved",
   "theorems": [
    "Schnorrkel.Props.signature_exclusive_random_oracle",
    "Schnorrkel.Props.signature_simple_exclusive_random_oracle",
    "Schnorrkel.Props.dleq_proof_exclusive_random_oracle"
   ],
   "note": "random-oracle model as in C63"
  },
  {
   "property": "C70",
   "status": "proved",
   "theorems": [
    "Schnorrkel.Props.musig_commitment_binding_random_oracle",
    "Schnorrkel.Props.vrf_bytes_collision_random_oracle",
    "Schnorrkel.Props.hard_derivation_collision_random_oracle",
    "Schnorrkel.Props.aead_key_collision_random_oracle",
    "Schnorrkel.Props.soft_derivation_collision_random_oracle",
    "Schnorrkel.Props.cert_collision_random_oracle"
   ],
   "note": "random-oracle model as in C63; one table entry of 64 bytes per query, shorter outputs are its prefixes"
  },
  {
   "property": "C71",
   "status": "proved",
   "theorems": [
    "Schnorrkel.Props.soft_derivation_pseudorandom",
    "Schnorrkel.Props.soft_derivation_unlinkable",
    "Schnorrkel.Props.hard_derivation_pseudorandom",
    "Schnorrkel.Props.aead_key_pseudorandom",
    "Schnorrkel.Props.two_dh_key_pseudorandom",
    "Schnorrkel.Props.vrf_bytes_pseudorandom",
    "Schnorrkel.Props.musig_commitment_hiding",
    "Schnorrkel.Props.expand_uniform_pseudorandom",
    "Schnorrkel.Props.expanded_keys_unforgeable",
    "Schnorrkel.Props.every_client_is_bounded"
   ],
   "note": "random-oracle model as in C70; output sizes up to 64 bytes"
  },
  {
   "property": "C72",
   "status": "proved",
   "theorems": [
    "Schnorrkel.Props.error_display_injective",
    "Schnorrkel.Props.error_messages",
    "Schnorrkel.Props.length_error_messages"
   ],
   "note": ""
  },
  {
   "property": "C73",
   "status": "proved",
   "theorems": [
    "Schnorrkel.Props.one_key_unforgeable",
    "Schnorrkel.Props.no_vrf_no_outputs",
    "Schnorrkel.Props.vrf_sign_extra_is_request",
    "Schnorrkel.Props.vrfs_sign_extra_is_request",
    "Schnorrkel.Props.every_key_attacker_is_limited"
   ],
   "note": "random-oracle model as in C63; the reduction is given the VRF outputs at the requested points"
  },
  {
   "property": "C74",
   "status": "proved",
   "theorems": [
    "Schnorrkel.Props.secret_values_pseudorandom",
    "Schnorrkel.Props.owner_unforgeable",
    "Schnorrkel.Props.serve_value_is_query",
    "Schnorrkel.Props.value_query_names",
    "Schnorrkel.Props.every_owner_attacker_is_limited"
   ],
   "note": "random-oracle model as in C73; output sizes up to 64 bytes"
  },
  {
   "property": "C75",
   "status": "proved",
   "theorems": [
    "Schnorrkel.Props.wallet_unforgeable",
    "Schnorrkel.Props.wallet_public_keys",
    "Schnorrkel.Props.every_wallet_attacker_is_limited",
    "Schnorrkel.Props.knowing_play"
   ],
   "note": "random-oracle model as in C73, the derivation hash arbitrary; transcripts are merlin transcripts"
  },
  {
   "property": "C76",
   "status": "proved",
   "theorems": [
    "Schnorrkel.Props.mini_wallet_unforgeable",
    "Schnorrkel.Props.mini_wallet_like_random",
    "Schnorrkel.Props.mini_wallet_ed_unforgeable",
    "Schnorrkel.Props.mini_wallet_ed_like_random",
    "Schnorrkel.Props.every_mini_wallet_attacker_is_limited",
    "Schnorrkel.Props.every_mini_wallet_ed_attacker_is_limited"
   ],
   "note": "random-oracle model as in C75; SHA-512 of 32-byte strings is a random function in Ed25519 mode"
  },
  {
   "property": "C77",
   "status": "proved",
   "theorems": [
    "Schnorrkel.Props.sign_simple_unforgeable"
   ],
   "note": "random-oracle model as in C76; in the theorem the hash function is random on any sufficiently large finite domain"
  },
  {
   "property": "C78",
   "status": "proved",
   "theorems": [
    "Schnorrkel.Props.secret_values_need_diffie_hellman",
    "Schnorrkel.Props.forging_needs_diffie_hellman",
    "Schnorrkel.Props.sharedIn_value",
    "Schnorrkel.Props.every_dh_attacker_is_limited"
   ],
   "note": "random-oracle model as in C74; the reduction knows the logarithms of the points at which VRF proofs are requested; session keys with peers of the attacker's own choice are outside the claim (they would need a decision oracle)"
  },
  {
   "property": "C79",
   "status": "proved",
   "theorems": [
    "Schnorrkel.Props.verify_batch_unforgeable",
    "Schnorrkel.Props.every_batch_attacker_is_limited",
    "Schnorrkel.Props.vrf_verify_batch_unforgeable",
    "Schnorrkel.Props.every_vrf_batch_attacker_is_limited"
   ],
   "note": "random-oracle model as in C73; the verifier's random bytes are drawn after the attacker has named the batch; verify_batch's keys are well formed public keys (as every constructor makes them)"
  },
  {
   "property": "C80",
   "status": "proved",
   "theorems": [
    "Schnorrkel.Props.vrf_outputs_pseudorandom",
    "Schnorrkel.Props.every_vrf_client_is_limited",
    "Schnorrkel.Props.vrf_outputs_unpredictable"
   ],
   "note": "random-oracle model as in C74; the procedure needs hash answers whose points have known logarithms (made by drawing the logarithm and inverting the map to the group); transcripts with proofs and transcripts with bytes have different hash inputs"
  },
  {
   "property": "C81",
   "status": "proved",
   "theorems": [
    "Schnorrkel.Props.family_unforgeable",
    "Schnorrkel.Props.family_public_keys",
    "Schnorrkel.Props.certified_member_key",
    "Schnorrkel.Props.every_family_attacker_is_limited",
    "Schnorrkel.Props.family_knowing_play"
   ],
   "note": "random-oracle model as in C75, the derivation hash arbitrary; transcripts are merlin transcripts; self-issued certificates are not among the steps"
  },
  {
   "property": "C82",
   "status": "proved",
   "theorems": [
    "Schnorrkel.Props.cosigner_forgery_random_oracle",
    "Schnorrkel.Props.joint_forgery_coins",
    "Schnorrkel.Props.cosign_bounded_exists",
    "Schnorrkel.Props.cosign_covers_exists",
    "Schnorrkel.Props.countingRng_noRepeat",
    "Schnorrkel.Props.thief_wins"
   ],
   "note": "random-oracle model as in C68; the owner cosigns only when everyone on record has revealed, as in the statement; a session counts as used once the owner has revealed in it; transcripts are merlin transcripts and are not edited after the session has started; add_trusted is not used; keys of cosigners are given as group elements"
  },
  {
   "property": "C83",
   "status": "proved",
   "theorems": [
    "Schnorrkel.Props.many_users_unforgeable",
    "Schnorrkel.Props.play_alone",
    "Schnorrkel.Props.every_users_attacker_is_limited"
   ],
   "note": "random-oracle model as in C73; the users draw their secrets independently and uniformly"
  },
  {
   "property": "C84",
   "status": "proved",
   "theorems": [
    "Schnorrkel.Props.dual_forgery_random_oracle",
    "Schnorrkel.Props.dual_no_vrf_no_outputs",
    "Schnorrkel.Props.sessionsOnly_forges",
    "Schnorrkel.Props.dual_bounded_exists",
    "Schnorrkel.Props.covers_key_exists",
    "Schnorrkel.Props.busyThief_wins"
   ],
   "note": "random-oracle model as in C73 and C82, with the conventions of C82 on sessions; the secret key is not zero; the RNG answers of plain requests are the attacker's, those in sessions must not repeat"
  },
  {
   "property": "C85",
   "status": "proved",
   "theorems": [
    "Schnorrkel.Props.mixed_forgery_random_oracle",
    "Schnorrkel.Props.mixed_no_vrf_no_outputs",
    "Schnorrkel.Props.servicesOnly_forges",
    "Schnorrkel.Props.mixed_bounded_exists",
    "Schnorrkel.Props.mixed_hypotheses_met",
    "Schnorrkel.Props.mixedInsider_wins"
   ],
   "note": "random-oracle model and conventions as in C84"
  },
  {
   "property": "C86",
   "status": "proved",
   "theorems": [
    "Schnorrkel.Props.witness_reads",
    "Schnorrkel.Props.signing_reads",
    "Schnorrkel.Props.sign_simple_reads",
    "Schnorrkel.Props.proving_reads",
    "Schnorrkel.Props.certificate_reads",
    "Schnorrkel.Props.derivation_reads",
    "Schnorrkel.Props.generation_reads",
    "Schnorrkel.Props.musig_reads",
    "Schnorrkel.Props.batch_reads"
   ],
   "note": "where the model keeps the final RNG (Reads) the requests are exact; where it does not (Uses) only the dependence is stated. Calls that take no RNG in the model are the ones whose code never calls getrandom_or_panic, which is part of reading the code"
  },
  {
   "property": "C87",
   "status": "proved",
   "theorems": [
    "Schnorrkel.Props.prepared_batch_new_panics_iff",
    "Schnorrkel.Props.prepared_batch_verify_panics_iff",
    "Schnorrkel.Props.prepared_batch_read_table",
    "Schnorrkel.Props.vrfs_sign_panics_iff",
    "Schnorrkel.Props.issue_self_never_panics",
    "Schnorrkel.Props.sender_with_cert_never_panics",
    "Schnorrkel.Props.verify_batch_panics_iff",
    "Schnorrkel.Props.prepared_batch_write_layout",
    "Schnorrkel.Props.dleq_verify_batch_panics_iff",
    "Schnorrkel.Props.vrf_verify_batch_panics_iff",
    "Schnorrkel.Props.vrfs_verify_panics_iff",
    "Schnorrkel.Props.vrfs_merge_spec",
    "Schnorrkel.Props.musig_session_never_panics",
    "Schnorrkel.Props.musig_collector_never_panics",
    "Schnorrkel.Props.reach_eq_never_panics"
   ],
   "note": "A panic is the outcome Outcome.panic of the model; functions whose model does not return an Outcome contain no panicking operation (DESIGN section 2). Keys in the batch theorems carry their own encoding (WF), which every reachable key does (reach_eq_never_panics). Failure of the operating system's random source (getrandom_or_panic) is outside the model."
  },
  {
   "property": "C88",
   "status": "proved",
   "theorems": [
    "Schnorrkel.Props.inout_eq_ord_hash",
    "Schnorrkel.Props.inout_total_order",
    "Schnorrkel.Props.preout_eq_iff",
    "Schnorrkel.Props.preout_compare",
    "Schnorrkel.Props.signature_eq_iff",
    "Schnorrkel.Props.proof_eq_iff",
    "Schnorrkel.Props.parsed_signatures_eq",
    "Schnorrkel.Props.key_views",
    "Schnorrkel.Props.generate_system",
    "Schnorrkel.Props.drop_erases",
    "Schnorrkel.Props.announced_lengths"
   ],
   "note": "the derived traits are expanded field by field in declaration order; Hash is the bytes fed to the hasher without the constant length prefix; that the compiler keeps the erasing writes is zeroize's promise and outside the model"
  },
  {
   "property": "C89",
   "status": "proved",
   "theorems": [
    "Schnorrkel.Props.create_from_point_spec",
    "Schnorrkel.Props.create_from_compressed_table",
    "Schnorrkel.Props.evaluation_proof_verifies",
    "Schnorrkel.Props.oprf_unblind",
    "Schnorrkel.Props.oprf_blinding_hides",
    "Schnorrkel.Props.sequential_evaluation",
    "Schnorrkel.Props.key_exchange_is_evaluation",
    "Schnorrkel.Props.evaluation_oracle_gives_outputs",
    "Schnorrkel.Props.evaluation_accepts_identity",
    "Schnorrkel.Props.commit_binds"
   ],
   "note": "soundness of the proofs is C28 and C62; commit_binds is for merlin transcripts"
  },
  {
   "property": "C90",
   "status": "proved",
   "theorems": [
    "Schnorrkel.Props.dleq_proof_unique",
    "Schnorrkel.Props.dleq_same_challenge",
    "Schnorrkel.Props.vrf_accepted_bytes_unique",
    "Schnorrkel.Props.honest_proof_accepted"
   ],
   "note": "scalars in decoded and honestly made proofs are canonical (vrf_proof_codec, C07)"
  },
  {
   "property": "C91",
   "status": "proved",
   "theorems": [
    "Schnorrkel.Props.same_length_paths_distinct",
    "Schnorrkel.Props.paths_distinct",
    "Schnorrkel.Props.same_length_paths_keys",
    "Schnorrkel.Props.paths_keys",
    "Schnorrkel.Props.public_paths_distinct",
    "Schnorrkel.Props.paths_collision_random_oracle",
    "Schnorrkel.Props.wallet_paths_random_oracle",
    "Schnorrkel.Props.wallet_keys_random_oracle",
    "Schnorrkel.Props.public_paths_any_length",
    "Schnorrkel.Props.watch_paths_random_oracle",
    "Schnorrkel.Props.watch_keys_random_oracle",
    "Schnorrkel.Props.wallet_keys_ed_random_oracle",
    "Schnorrkel.Props.moded_paths_distinct",
    "Schnorrkel.Props.mode_not_in_chain_code",
    "Schnorrkel.Props.moded_paths_any_length",
    "Schnorrkel.Props.moded_wallet_paths_random_oracle",
    "Schnorrkel.Props.moded_wallet_keys_random_oracle"
   ],
   "note": "Mixed hard and soft paths over ExtendedKey<SecretKey>, soft paths over ExtendedKey<PublicKey>; the mode is not hashed into the chain code; the reductions and the bounds on equal chain codes and equal keys are also proved for walks whose hard junctions use different modes. Reduction to an explicit hash collision, and its probability, also for whole wallets; the bound on equal keys is proved for both expansion modes (in mode Ed25519 with SHA-512 answered from the same random table under names no merlin transcript has)."
  },
  {
   "property": "C92",
   "status": "proved",
   "theorems": [
    "Schnorrkel.Props.context_limit",
    "Schnorrkel.Props.expand_limit",
    "Schnorrkel.Props.sign_limit",
    "Schnorrkel.Props.sign_simple_limit",
    "Schnorrkel.Props.hard_derivation_limit",
    "Schnorrkel.Props.soft_derivation_limit",
    "Schnorrkel.Props.cert_limit",
    "Schnorrkel.Props.aead_limit",
    "Schnorrkel.Props.vrf_limit",
    "Schnorrkel.Props.vrfs_limit",
    "Schnorrkel.Props.vrf_bytes_limit",
    "Schnorrkel.Props.batch_limit",
    "Schnorrkel.Props.musig_limit",
    "Schnorrkel.Props.attached_rng_limit",
    "Schnorrkel.Props.limit_exact"
   ],
   "note": ""
  },
  {
   "property": "C93",
   "status": "proved",
   "theorems": [
    "Schnorrkel.Props.commitments_order",
    "Schnorrkel.Props.reveals_order",
    "Schnorrkel.Props.session_order",
    "Schnorrkel.Props.cosignatures_order",
    "Schnorrkel.Props.delivery_order",
    "Schnorrkel.Props.contributions_order"
   ],
   "note": "keys are well formed (bytes encode the point), as every value the API produces is"
  },
  {
   "property": "C94",
   "status": "proved",
   "theorems": [
    "Schnorrkel.Props.commitment_again",
    "Schnorrkel.Props.reveal_again",
    "Schnorrkel.Props.cosignature_again",
    "Schnorrkel.Props.contribution_again"
   ],
   "note": "an error may turn into acceptance when repeated later (a reveal for a key nobody knew, once add_trusted added it); the converse is what is excluded"
  },
  {
   "property": "C95",
   "status": "proved",
   "theorems": [
    "Schnorrkel.Props.commitments_isolated",
    "Schnorrkel.Props.reveals_isolated",
    "Schnorrkel.Props.cosignatures_isolated",
    "Schnorrkel.Props.contributions_isolated"
   ],
   "note": "answers within a stage; whether cosign_stage succeeds, the challenge and the final signature of course depend on everybody"
  }
 ]
}
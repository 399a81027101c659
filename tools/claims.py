C["C01"]=("proved","divide_by_cofactor_value multiply_by_cofactor_value cofactor_helpers_never_overflow divide_multiply_iff multiply_divide_value multiply_divide_iff","")
C["C02"]=("proved","check_scalar_iff","")
C["C03"]=("proved","expand_ed25519_spec expand_ed25519_eq_from_ed25519_bytes","")
C["C04"]=("proved","expand_uniform_spec expand_uniform_local expand_uniform_queries_disjoint expand_entry_points_agree","")
C["C05"]=("proved","secretkey_bytes_roundtrip secretkey_bytes_canonical secretkey_ed25519_roundtrip secretkey_ed25519_import_drops_low_bits","")
C["C06"]=("proved","minisecretkey_from_bytes_table secretkey_from_bytes_table secretkey_from_ed25519_bytes_table publickey_from_bytes_table ristretto_from_bytes_table keypair_from_bytes_table keypair_from_half_ed25519_bytes_table keypair_bytes_roundtrip","")
C["C07"]=("proved","reach_scalars_canonical","")
C["C08"]=("proved","publickey_eq_ord_hash_consistent publickey_cmp_total_order publickey_constructors_wf reach_points_consistent reach_eq_never_panics","")
C["C09"]=("proved","signature_to_bytes_layout signature_from_bytes_ok_iff signature_from_bytes_err_iff signature_bytes_roundtrip","")
C["C10"]=("proved","sign_then_verify merlin_sign_then_verify attached_rng_sign_then_verify xof_sign_then_verify keypair_sign_variants_succeed","")
C["C11"]=("proved","verify_iff_schnorr verify_simple_iff_schnorr verify_outcomes keypair_verify_iff_schnorr","")
C["C12"]=("proved","signature_s_unique accepted_encodings_unique invalid_R_never_verifies","")
C["C13"]=("proved","double_acceptance_relation message_transfer_needs_collision key_transfer_different_queries","")
C["C14"]=("proved","identity_key_universal_forgery identity_key_one_signature_all_messages nonidentity_key_pins_challenge","")
C["C15"]=("proved","nonce_reuse_reveals_key sign_nonce_is_hash nonce_query_injective nonce_query_ne_challenge_query","")
C["C16"]=("proved","keypair_from_bytes_accepts_any_pair keypair_from_bytes_not_always_consistent keypair_from_half_ed25519_accepts_any_pair keypair_from_half_ed25519_not_always_consistent keypair_constructors_consistent","")
C["C17"]=("proved","doublecheck_sound doublecheck_detects_mismatch","")
C["C18"]=("proved","transcript_after_sign_and_verify sign_rng_usage sign_then_verify","")
C["C19"]=("proved","context_transcripts_injective context_transcript_history context_prehash_history attach_rng_transparent attach_rng_replaces_system_rng","")
C["C20"]=("proved","xof_answers_are_queries xof_query_injective","")
C["C21"]=("proved","verify_batch_iff verify_batch_complete dedup_irrelevant iterator_kind_irrelevant","")
C["C22"]=("proved","verify_batch_iff vanishing_count verify_batch_is_check_of_drawn_coefficients verify_batch_sound_count batch_query_injective","")
C["C23"]=("proved","verify_batch_panics_iff surplus_transcript_ignored","")
C["C24"]=("proved","prepared_batch_write prepared_batch_write_layout prepared_batch_read_never_ok prepared_batch_read_body","")
C["C45"]=("proved","unmarked_from_bytes_table preaudit_unmarked_table preaudit_marked_is_current preaudit_unmarked_is_legacy","")
C["C46"]=("proved","zeroize_erases","")
C["C47"]=("proved","secretkey_eq_ignores_nonce mini_secret_eq_iff secretkey_eq_iff_public_eq generate_spec","")
C["C25"]=("proved","vrf_sign_then_verify vrf_sign_then_verify_merlin vrf_output_identity_iff dleq_prove_then_verify","")
C["C26"]=("proved","vrf_shorten_agrees shorten_vrf_agrees vrf_preout_codec vrf_proof_codec vrf_proof_batchable_codec","")
C["C27"]=("proved","attach_input_hash_table vrf_verify_rejects_identity","")
C["C28"]=("proved","dleq_verify_iff dleq_wrong_output_pins_challenge dleq_fork_extracts dleq_challenge_is_query dleq_query_injective","")
C["C27"]=("proved","attach_input_hash_table vrf_verify_rejects_identity vrfs_verify_accepts vrf_verify_batch_spec","")
C["C29"]=("proved","vrf_sign_extra_after_check_iff vrf_sign_after_check_verifies","")
C["C30"]=("proved","vrfs_sign_then_verify vrfs_sign_then_verify_no_extra vrfs_merge_spec merge_query_injective vrfs_merge_sound_count vrfs_verify_accepts","")
C["C31"]=("proved","vrfs_verify_panics_iff vrfs_verify_ignores_one_surplus vrf_verify_batch_panics_iff vrf_verify_batch_spec","")
C["C32"]=("proved","dleq_batch_equation_iff dleq_verify_batch_is_check_of_drawn_coefficients dleq_verify_batch_complete dleq_verify_batch_sound_count dleq_valid_iff_shortened_verifies dleq_verify_batch_panics_iff vrf_verify_batch_spec","")
C["C33"]=("proved","make_bytes_is_query make_rng_is_query vrf_rng_is_query vrf_result_query_injective vrf_rng_query_injective make_bytes_agree","")
C["C34"]=("proved","vrf_input_is_query vrf_input_query_injective malleable_vrf_child_related","")
C["C35"]=("proved","soft_derivation_commutes soft_derivation_path_commutes derivation_entry_points_agree soft_derivation_spec derived_key_simple_spec soft_query_injective","")
C["C36"]=("proved","parent_secret_from_child root_secret_from_descendant hard_derivation_spec hard_query_injective","")
C["C37"]=("proved","accept_adaptor_cert_table open_adaptor_cert_table issue_adaptor_cert_spec adaptor_cert_complete issue_self_adaptor_cert_complete accepted_cert_matches_iff cert_transplant_reveals_issuer cert_challenge_is_query cert_query_injective","")
C["C38"]=("proved","raw_key_exchange_agree commit_key_exchange_agree aead_unauthenticated_agree init_aead_agree two_dh_aead_agree adaptor_cert_aead_agree reciever_cert_aead_error aead_unauthenticated_is_query reciever_aead_is_query kex_query_injective two_dh_query_injective identity_public_key_gives_known_key","")
C["C39"]=("proved","musig_rejection_changes_nothing musig_session_never_panics musig_collector_never_panics","")
C["C40"]=("proved","musig_public_keys add_their_commitment_table add_their_reveal_table add_trusted_table add_their_cosignature_table collector_add_table musig_entries_immutable musig_recorded_entries_persist musig_commitment_binding","")
C["C41"]=("proved","musig_complete plain_honest musig_plain_run","")
C["C42"]=("proved","sort_unstable_any aggregate_from_slice_iff aggregate_from_sorted_slice_iff aggregate_key_of_set increasing_list_exists aggregate_key_order_independent weightQuery_injective map_weighting aggregate_empty_slice session_public_keys musig_sign_verifies_iff aggregate_slice_after","")
C["C43"]=("proved","slice_weighting_inverted sorted_slice_weighting_inverted map_weighting","")
C["C44"]=("proved","deserialize_is_from_bytes deserialize_no_alloc_is_from_bytes serde_roundtrip serde_byte_string_formats_fail deserialize_validates","")
C["C48"]=("proved","prepared_batch_agrees prepared_batch_complete","")
C["C49"]=("proved","musig_sign_verifies_iff musig_single_share","")
C["C50"]=("proved","musig_nonces_are_hashes musig_nonce_query_injective musig_nonce_reuse_reveals_key","")
C["C51"]=("proved","witness_query_injective vrf_nonce_is_hash vrf_nonce_query_injective vrf_kusama_nonce_ignores_public_key vrf_sign_malleable_shares_nonce","")
C["C52"]=("proved","issuing_nonce_is_hash accepting_nonce_is_hash self_cert_randomness_is_hash derived_nonce_is_hash sender_ephemeral_is_hash","")
C["C53"]=("proved","attached_rng_is_the_rng attached_chacharng_deterministic merlin_default_witness xof_default_witness","issue_self_adaptor_cert and sign_doublecheck need a Clone transcript, which the RNG-carrying transcript is not")
C["C54"]=("proved","hash_uses_separated hash_uses_separated_exact musig_coeffs_are_queries musig_coeff_query_injective batch_digest_is_query","")
C["C55"]=("proved","make_rng_is_query vrf_rng_is_query vrf_rng_query_injective","ChaChaRng::from_seed is an arbitrary function of the seed")
C["C56"]=("proved","debug_prints_secrets debug_injective debug_public debug_same_text_iff","")
C["C57"]=("proved","signature_simulation signature_nonces signature_distribution dleq_simulation dleq_nonces dleq_distribution","the nonce answer ranges over all 64-byte strings; the other answers are arbitrary but fixed")
C["C58"]=("proved","wide_reduction_uniform","")
C["C59"]=("proved","signature_fork_extracts musig_weight_fork_extracts musig_forgery_extracts","the extraction step; how often a fork succeeds is C63 for signatures and C68 for MuSig")
C["C60"]=("proved","musig_cosigned_lists","")
C["C61"]=("proved","vrf_verify_wire vrf_verify_wire_no_extra vrf_sign_wire vrf_output_bytes vrfs_verify_wire vrfs_wire_no_extra","")
C["C62"]=("proved","vrf_uniqueness_random_oracle vrf_two_outputs_random_oracle","random-oracle model: merlin answers of 64 bytes on a finite set of queries are a uniformly random table")
C["C63"]=("proved","signatures_unforgeable every_attacker_is_bounded","random-oracle model as in C62; the hardness of discrete logarithms is not assumed, the theorem gives the reduction")
C["C64"]=("proved","batch_verdict_by_weighted_sum deterministic_batch_accepts_invalid_signatures prepared_batch_verify_iff preparedVerifyWith_iff half_aggregate_extracts","")
C["C65"]=("proved","verify_batch_sound_random_oracle dleq_verify_batch_sound_random_oracle vrf_verify_batch_sound_random_oracle vrf_verify_batch_unique_random_oracle","random-oracle model as in C62, with short answers taken from the same table; the verifier's RNG bytes are uniform and independent")

C["C27"]=("proved","attach_input_hash_table vrf_attach_hash_table vrf_verify_rejects_identity vrfs_verify_accepts vrf_verify_batch_spec","")
C["C60"]=("proved","musig_cosigned_lists musig_transcript_edits","")
C["C66"]=("proved","vrfs_uniqueness_random_oracle vrfs_two_outputs_random_oracle","random-oracle model as in C65")
C["C67"]=("proved","mutRef_sim mutRef_sim_both mut_ref_transparent mut_ref_transparent_more mut_ref_attach_rng attach_rng_twice protocol_in_step protocol_log protocol_binding accept_one_challenge_behind cert_logs","")
C["C68"]=("proved","rogue_keys_random_oracle joint_forgery_random_oracle","random-oracle model as in C63; the forger has no access to signing sessions of the honest key")
C["C69"]=("proved","signature_exclusive_random_oracle signature_simple_exclusive_random_oracle dleq_proof_exclusive_random_oracle","random-oracle model as in C63")
C["C70"]=("proved","musig_commitment_binding_random_oracle vrf_bytes_collision_random_oracle hard_derivation_collision_random_oracle aead_key_collision_random_oracle soft_derivation_collision_random_oracle cert_collision_random_oracle","random-oracle model as in C63; one table entry of 64 bytes per query, shorter outputs are its prefixes")
C["C71"]=("proved","soft_derivation_pseudorandom soft_derivation_unlinkable hard_derivation_pseudorandom aead_key_pseudorandom two_dh_key_pseudorandom vrf_bytes_pseudorandom musig_commitment_hiding expand_uniform_pseudorandom expanded_keys_unforgeable every_client_is_bounded","random-oracle model as in C70; output sizes up to 64 bytes")
C["C72"]=("proved","error_display_injective error_messages length_error_messages","")
C["C73"]=("proved","one_key_unforgeable no_vrf_no_outputs vrf_sign_extra_is_request vrfs_sign_extra_is_request every_key_attacker_is_limited","random-oracle model as in C63; the reduction is given the VRF outputs at the requested points")
C["C74"]=("proved","secret_values_pseudorandom owner_unforgeable serve_value_is_query value_query_names every_owner_attacker_is_limited","random-oracle model as in C73; output sizes up to 64 bytes")
C["C75"]=("proved","wallet_unforgeable wallet_public_keys every_wallet_attacker_is_limited knowing_play","random-oracle model as in C73, the derivation hash arbitrary; transcripts are merlin transcripts")
C["C76"]=("proved","mini_wallet_unforgeable mini_wallet_like_random mini_wallet_ed_unforgeable mini_wallet_ed_like_random every_mini_wallet_attacker_is_limited every_mini_wallet_ed_attacker_is_limited","random-oracle model as in C75; SHA-512 of 32-byte strings is a random function in Ed25519 mode")
C["C77"]=("proved","sign_simple_unforgeable","random-oracle model as in C76; in the theorem the hash function is random on any sufficiently large finite domain")
C["C78"]=("proved","secret_values_need_diffie_hellman forging_needs_diffie_hellman sharedIn_value every_dh_attacker_is_limited","random-oracle model as in C74; the reduction knows the logarithms of the points at which VRF proofs are requested; session keys with peers of the attacker's own choice are outside the claim (they would need a decision oracle)")
C["C79"]=("proved","verify_batch_unforgeable every_batch_attacker_is_limited vrf_verify_batch_unforgeable every_vrf_batch_attacker_is_limited","random-oracle model as in C73; the verifier's random bytes are drawn after the attacker has named the batch; verify_batch's keys are well formed public keys (as every constructor makes them)")
C["C80"]=("proved","vrf_outputs_pseudorandom every_vrf_client_is_limited vrf_outputs_unpredictable","random-oracle model as in C74; the procedure needs hash answers whose points have known logarithms (made by drawing the logarithm and inverting the map to the group); transcripts with proofs and transcripts with bytes have different hash inputs")
C["C81"]=("proved","family_unforgeable family_public_keys certified_member_key every_family_attacker_is_limited family_knowing_play","random-oracle model as in C75, the derivation hash arbitrary; transcripts are merlin transcripts; self-issued certificates are not among the steps")
C["C82"]=("proved","cosigner_forgery_random_oracle joint_forgery_coins cosign_bounded_exists cosign_covers_exists countingRng_noRepeat thief_wins","random-oracle model as in C68; the owner cosigns only when everyone on record has revealed, as in the statement; a session counts as used once the owner has revealed in it; transcripts are merlin transcripts and are not edited after the session has started; add_trusted is not used; keys of cosigners are given as group elements")
C["C83"]=("proved","many_users_unforgeable play_alone every_users_attacker_is_limited","random-oracle model as in C73; the users draw their secrets independently and uniformly")
C["C84"]=("proved","dual_forgery_random_oracle dual_no_vrf_no_outputs sessionsOnly_forges dual_bounded_exists covers_key_exists busyThief_wins","random-oracle model as in C73 and C82, with the conventions of C82 on sessions; the secret key is not zero; the RNG answers of plain requests are the attacker's, those in sessions must not repeat")
C["C85"]=("proved","mixed_forgery_random_oracle mixed_no_vrf_no_outputs servicesOnly_forges mixed_bounded_exists mixed_hypotheses_met mixedInsider_wins","random-oracle model and conventions as in C84")
C["C86"]=("proved","witness_reads signing_reads sign_simple_reads proving_reads certificate_reads derivation_reads generation_reads musig_reads batch_reads","where the model keeps the final RNG (Reads) the requests are exact; where it does not (Uses) only the dependence is stated. Calls that take no RNG in the model are the ones whose code never calls getrandom_or_panic, which is part of reading the code")
C["C87"]=("proved","prepared_batch_new_panics_iff prepared_batch_verify_panics_iff prepared_batch_read_table vrfs_sign_panics_iff issue_self_never_panics sender_with_cert_never_panics verify_batch_panics_iff prepared_batch_write_layout dleq_verify_batch_panics_iff vrf_verify_batch_panics_iff vrfs_verify_panics_iff vrfs_merge_spec musig_session_never_panics musig_collector_never_panics reach_eq_never_panics","A panic is the outcome Outcome.panic of the model; functions whose model does not return an Outcome contain no panicking operation (DESIGN section 2). Keys in the batch theorems carry their own encoding (WF), which every reachable key does (reach_eq_never_panics). Failure of the operating system's random source (getrandom_or_panic) is outside the model.")
C["C88"]=("proved","inout_eq_ord_hash inout_total_order preout_eq_iff preout_compare signature_eq_iff proof_eq_iff parsed_signatures_eq key_views generate_system drop_erases announced_lengths","the derived traits are expanded field by field in declaration order; Hash is the bytes fed to the hasher without the constant length prefix; that the compiler keeps the erasing writes is zeroize's promise and outside the model")
C["C89"]=("proved","create_from_point_spec create_from_compressed_table evaluation_proof_verifies oprf_unblind oprf_blinding_hides sequential_evaluation key_exchange_is_evaluation evaluation_oracle_gives_outputs evaluation_accepts_identity commit_binds","soundness of the proofs is C28 and C62; commit_binds is for merlin transcripts")
C["C90"]=("proved","dleq_proof_unique dleq_same_challenge vrf_accepted_bytes_unique honest_proof_accepted","scalars in decoded and honestly made proofs are canonical (vrf_proof_codec, C07)")
C["C91"]=("proved","same_length_paths_distinct paths_distinct same_length_paths_keys paths_keys public_paths_distinct paths_collision_random_oracle wallet_paths_random_oracle wallet_keys_random_oracle public_paths_any_length watch_paths_random_oracle watch_keys_random_oracle wallet_keys_ed_random_oracle moded_paths_distinct mode_not_in_chain_code moded_paths_any_length moded_wallet_paths_random_oracle moded_wallet_keys_random_oracle","Mixed hard and soft paths over ExtendedKey<SecretKey>, soft paths over ExtendedKey<PublicKey>; the mode is not hashed into the chain code; the reductions and the bounds on equal chain codes and equal keys are also proved for walks whose hard junctions use different modes. Reduction to an explicit hash collision, and its probability, also for whole wallets; the bound on equal keys is proved for both expansion modes (in mode Ed25519 with SHA-512 answered from the same random table under names no merlin transcript has).")
C["C92"]=("proved","context_limit expand_limit sign_limit sign_simple_limit hard_derivation_limit soft_derivation_limit cert_limit aead_limit vrf_limit vrfs_limit vrf_bytes_limit batch_limit musig_limit attached_rng_limit limit_exact","")
C["C93"]=("proved","commitments_order reveals_order session_order cosignatures_order delivery_order contributions_order","keys are well formed (bytes encode the point), as every value the API produces is")
C["C94"]=("proved","commitment_again reveal_again cosignature_again contribution_again","an error may turn into acceptance when repeated later (a reveal for a key nobody knew, once add_trusted added it); the converse is what is excluded")
C["C95"]=("proved","commitments_isolated reveals_isolated cosignatures_isolated contributions_isolated","answers within a stage; whether cosign_stage succeeds, the challenge and the final signature of course depend on everybody")

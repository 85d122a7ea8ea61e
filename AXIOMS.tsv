Rezip.C01_bits_roundtrip	Classical.choice Quot.sound propext
Rezip.C02_fixed_width_roundtrip	Classical.choice Quot.sound propext
Rezip.C02_too_wide	Quot.sound propext
Rezip.C02_release	Quot.sound propext
Rezip.C03_bitvec_sequence	Classical.choice Quot.sound propext
Rezip.C03_bitvec_eq	Classical.choice Quot.sound propext
Rezip.C03_from_slice	Classical.choice Quot.sound propext
Rezip.C04_bitvec_stack_partial	Classical.choice Quot.sound propext
Rezip.C04_bitvec_stack_false	Quot.sound propext
Rezip.C04_exact	Classical.choice Quot.sound propext
Rezip.C04_iff	Classical.choice Quot.sound propext
Rezip.C05_stored_roundtrip_partial	Classical.choice Quot.sound propext
Rezip.C05_stored_swapped	Classical.choice Quot.sound propext
Rezip.C05_stored_false	Classical.choice Quot.sound propext
Rezip.C06_stored_read	Classical.choice Quot.sound propext
Rezip.C07_too_many	Quot.sound propext
Rezip.C07_above	Classical.choice Quot.sound propext
Rezip.C07_far_unused	Classical.choice Quot.sound propext
Rezip.C07_far_used	Classical.choice Quot.sound propext
Rezip.C07_which	Classical.choice Quot.sound propext
Rezip.C07_new_iff_complete	Classical.choice Quot.sound propext
Rezip.C07_too_few	propext
Rezip.C08_wide	Classical.choice Quot.sound propext
Rezip.C08_canonical	Classical.choice Quot.sound propext
Rezip.C09_wide	Classical.choice Quot.sound propext
Rezip.C09_decode_encode	Classical.choice Quot.sound propext
Rezip.C09_encode_decode	Classical.choice Quot.sound propext
Rezip.C10_wide	Classical.choice Quot.sound propext
Rezip.C10_prefix_free	Classical.choice Quot.sound propext
Rezip.C11_fixed_tables	Classical.choice Quot.sound propext
Rezip.C12_run_roundtrip	Classical.choice Quot.sound propext
Rezip.C13_distance_roundtrip	Classical.choice Quot.sound propext
Rezip.C14_refused	Quot.sound propext
Rezip.C14_decode_run	Classical.choice Quot.sound propext
Rezip.C14_decode_distance	Classical.choice Quot.sound propext
Rezip.C15_header_complete	Classical.choice Quot.sound propext
Rezip.C16_header_sound	Classical.choice Quot.sound propext
Rezip.C17_total	Classical.choice Quot.sound propext
Rezip.C17_collect	Classical.choice Quot.sound propext
Rezip.C18_refs_ok	Classical.choice Quot.sound propext
Rezip.C19_suffix	Classical.choice Quot.sound propext
Rezip.C20_truncation	Classical.choice Quot.sound propext
Rezip.C21_exact	Classical.choice Quot.sound propext
Rezip.C21_flag	Classical.choice Quot.sound propext
Rezip.C21_drain_false	Quot.sound propext
Rezip.C21_drain_ended_partial	Classical.choice Quot.sound propext
Rezip.C22_parse_iff	Classical.choice Quot.sound propext
Rezip.C22_unambiguous	Classical.choice Quot.sound propext
Rezip.C23_compress_parse_partial	Classical.choice Quot.sound propext
Rezip.C23_compress_parse_false	Quot.sound propext
Rezip.C23_fixed_encodable	Classical.choice Quot.sound propext
Rezip.C23_exact	Classical.choice Quot.sound propext
Rezip.C24_recompress_partial	Classical.choice Quot.sound propext
Rezip.C24_recompress_false	Quot.sound propext
Rezip.C25_reserialise_partial	Classical.choice Quot.sound propext
Rezip.C25_reserialise_strict_partial	Classical.choice Quot.sound propext
Rezip.C25_reserialise_false	Quot.sound propext
Rezip.C25_reserialise_iff	Classical.choice Quot.sound propext
Rezip.C26_replay	Classical.choice Quot.sound propext
Rezip.C26_block	Classical.choice Quot.sound propext
Rezip.C27_exact	Classical.choice Quot.sound propext
Rezip.C27_literal_partial	Classical.choice Quot.sound propext
Rezip.C27_no_distance_partial	Classical.choice Quot.sound propext
Rezip.C27_written_expressible	Classical.choice Quot.sound propext
Rezip.C27_unencodable_false	Quot.sound propext
Rezip.C28_estimate_partial	Classical.choice Quot.sound propext
Rezip.C28_estimate_none	Classical.choice Quot.sound propext
Rezip.C28_estimate_false	Classical.choice Quot.sound propext
Rezip.C29_contents	Quot.sound propext
Rezip.C29_out_of_range	Quot.sound propext
Rezip.C30_vec_partial	Classical.choice Quot.sound propext
Rezip.C30_vec_false	Quot.sound propext
Rezip.C31_copy	Classical.choice Quot.sound propext
Rezip.C32_expansion	Classical.choice Quot.sound propext
Rezip.C32_block	Classical.choice Quot.sound propext
Rezip.C33_blocks	Classical.choice Quot.sound propext
Rezip.C33_codes	Quot.sound propext
Rezip.C34_size	Classical.choice Quot.sound propext
Rezip.C35_failing_output	Classical.choice Quot.sound propext
Rezip.C35_decodable	propext
Rezip.C36_roundtrip	Quot.sound propext
Rezip.C37_read_total	Quot.sound propext
Rezip.C38_prefix	Quot.sound propext
Rezip.C39_detected_partial	Quot.sound propext
Rezip.C39_truncation_false	Quot.sound propext
Rezip.C40_size	Quot.sound propext
Rezip.C40_run	Quot.sound propext
Rezip.C40_entries	Quot.sound propext
Rezip.C41_false	Classical.choice Quot.sound propext
Rezip.C41_wrong_byte	Classical.choice Quot.sound propext
Rezip.C41_no_preroll_partial	Classical.choice Quot.sound propext
Rezip.C41_no_literal_hint_partial	Classical.choice Quot.sound propext
Rezip.C41_exact_partial	Classical.choice Quot.sound propext
Rezip.C42_trace_total	Classical.choice Quot.sound propext
Rezip.C42_consistent	Classical.choice Quot.sound propext
Rezip.C43_try_gzip	Classical.choice Quot.sound propext
Rezip.C43_expand	Classical.choice Quot.sound propext
Rezip.C43_level_range	Quot.sound propext
Rezip.C44_all_correct	Classical.choice Quot.sound propext
Rezip.C44_decompress	Classical.choice Quot.sound propext
Rezip.C45_guess	Classical.choice Quot.sound propext
Rezip.C45_guess_correct	Classical.choice Quot.sound propext
Rezip.C46_real_match	Classical.choice Quot.sound propext
Rezip.C47_maximal	Classical.choice Quot.sound propext
Rezip.C48_complete	Classical.choice Quot.sound propext
Rezip.C48_sound	Classical.choice Quot.sound propext
Rezip.C49_chain	Classical.choice Quot.sound propext
Rezip.C50_candidates	Classical.choice Quot.sound propext
Rezip.C50_guess	Classical.choice Quot.sound propext
Rezip.C51_pick_longest	Quot.sound propext
Rezip.C52_far_threes	propext
Rezip.C53_abort_false	Classical.choice Quot.sound propext
Rezip.C53_inverted_partial	Classical.choice Quot.sound propext
Rezip.C54_lazy	Classical.choice Quot.sound propext
Rezip.C55_filter	Quot.sound propext
Rezip.C55_recorded	Quot.sound propext
Rezip.C56_header	Quot.sound propext
Rezip.C57_accepted	Quot.sound propext
Rezip.C57_others_refused	Quot.sound propext
Rezip.C58_read	propext
Rezip.C58_write	propext
Rezip.C58_bad_writer	Quot.sound propext
Rezip.C59_chunks	Quot.sound propext
Rezip.C59_are_chunks	Quot.sound propext
Rezip.C60_first_chunk	Quot.sound propext
Rezip.C60_unique	Quot.sound propext
Rezip.C60_local	Classical.choice Quot.sound propext
Rezip.C60_error	Quot.sound propext
Rezip.C60_failing	Classical.choice Quot.sound propext
Rezip.C61_rewrite_partial	Classical.choice Quot.sound propext
Rezip.C61_short_partial	Classical.choice Quot.sound propext
Rezip.C61_lost	Classical.choice Quot.sound propext
Rezip.C61_false	Classical.choice Quot.sound propext
Rezip.C61_empty	propext
Rezip.C61_exact_partial	Classical.choice Quot.sound propext
Rezip.C61_vanishes	Classical.choice Quot.sound propext
Rezip.C62_cat	Classical.choice Quot.sound propext
Rezip.C62_only	Classical.choice Quot.sound propext
Rezip.C62_errors	Classical.choice Quot.sound propext
Rezip.C62_no_header	Quot.sound propext
Rezip.C63_recreate	Classical.choice Quot.sound propext
Rezip.C63_end_to_end	Classical.choice Quot.sound propext
Rezip.C63_one_block	Classical.choice Quot.sound propext
Rezip.C64_three_step	Classical.choice Quot.sound propext
Rezip.C64_defer	Classical.choice Quot.sound propext
Rezip.C65_mean	Classical.choice Quot.sound propext
Rezip.C66_presets	Quot.sound propext
Rezip.C66_level_range	propext
Rezip.C66_default	propext
Rezip.C67_hash	Classical.choice Quot.sound propext
Rezip.C67_collide	Classical.choice Quot.sound propext
Rezip.C67_same_tail	Classical.choice Quot.sound propext
Rezip.C68_candidates	Classical.choice Quot.sound propext
Rezip.C69_greedy	Classical.choice Quot.sound propext
Rezip.C69_gzip	Classical.choice Quot.sound propext
Rezip.C70_trace	Classical.choice Quot.sound propext
Rezip.C70_try_gzip	Classical.choice Quot.sound propext
Rezip.C71_writer	Classical.choice Quot.sound propext
Rezip.C71_reader	Classical.choice Quot.sound propext
Rezip.C72_eq_false	Quot.sound propext
Rezip.C72_eq_partial	Classical.choice Quot.sound propext
Rezip.C72_exact	Classical.choice Quot.sound propext
Rezip.C73_shortest	Quot.sound propext
Rezip.C74_preroll	Classical.choice Quot.sound propext
Rezip.C74_restore_any	Classical.choice Quot.sound propext
Rezip.C74_missing	Classical.choice Quot.sound propext
Rezip.C74_gzip	Classical.choice Quot.sound propext
Rezip.C75_char	Classical.choice Quot.sound propext
Rezip.C75_dump	Classical.choice Quot.sound propext
Rezip.C75_errors	Classical.choice Quot.sound propext
Rezip.C75_no_header	Classical.choice Quot.sound propext
Rezip.C75_faithful	Classical.choice Quot.sound propext
Rezip.C76_traces	Classical.choice Quot.sound propext
Rezip.C76_codes	Classical.choice Quot.sound propext
Rezip.C76_single	Classical.choice Quot.sound propext
Rezip.C76_bits	Classical.choice Quot.sound propext
Rezip.C76_popped	Classical.choice Quot.sound propext
Rezip.C77_bound	Classical.choice Quot.sound propext
Rezip.C77_tight	Classical.choice Quot.sound propext
Rezip.C78_blocks	Classical.choice Quot.sound propext
Rezip.C78_cat	Classical.choice Quot.sound propext
Rezip.C78_dump	Classical.choice Quot.sound propext
Rezip.C79_failing_writer	Quot.sound propext
Rezip.C79_recompress	Quot.sound propext
Rezip.C80_file	Classical.choice Quot.sound propext
Rezip.C80_canonical	Quot.sound propext
Rezip.C80_idempotent	Classical.choice Quot.sound propext
Rezip.C81_damaged	Classical.choice Quot.sound propext
Rezip.C81_not_complete	Classical.choice Quot.sound propext
Rezip.C81_output	Quot.sound propext
Rezip.C82_overhead	Quot.sound propext
Rezip.C83_members_false	Classical.choice Quot.sound propext
Rezip.C83_trailer_false	Quot.sound propext
Rezip.C83_single_partial	Classical.choice Quot.sound propext
Rezip.C83_exact_partial	Classical.choice Quot.sound propext
Rezip.C84_valid_partial	Classical.choice Quot.sound propext
Rezip.C84_false	Classical.choice Quot.sound propext
Rezip.C84_wide	Classical.choice Quot.sound propext
Rezip.C85_round_trip	Classical.choice Quot.sound propext
Rezip.C85_else_panics	Classical.choice Quot.sound propext
Rezip.C86_try_gzip	Classical.choice Quot.sound propext
Rezip.C87_run_gzip	Classical.choice Quot.sound propext
Rezip.C87_else_panics	Classical.choice Quot.sound propext
Rezip.C87_one_block	Classical.choice Quot.sound propext
Rezip.C87_profile	Classical.choice Quot.sound propext
Rezip.C87_false	Classical.choice Quot.sound propext
Rezip.C88_try_gzip	Classical.choice Quot.sound propext
Rezip.C88_else_panics	Classical.choice Quot.sound propext
Rezip.C89_own_codes	Classical.choice Quot.sound propext
Rezip.C90_exists	Classical.choice Quot.sound propext
Rezip.C90_unique	Classical.choice Quot.sound propext
Rezip.C91_shown	Classical.choice Quot.sound propext
Rezip.C91_else	Classical.choice Quot.sound propext
Rezip.C91_panics	Classical.choice Quot.sound propext
Rezip.C91_one_block	Classical.choice Quot.sound propext
Rezip.C92_enough	Classical.choice Quot.sound propext
Rezip.C92_window	Classical.choice Quot.sound propext
Rezip.C92_one_short	Classical.choice Quot.sound propext
Rezip.C93_false	Quot.sound propext
Rezip.C93_before_partial	Classical.choice Quot.sound propext
Rezip.C93_after_partial	Quot.sound propext
Rezip.C93_resync_partial	Classical.choice Quot.sound propext
Rezip.C94_trace	Classical.choice Quot.sound propext
Rezip.C94_try	Classical.choice Quot.sound propext
Rezip.C94_try_gzip	Classical.choice Quot.sound propext
Rezip.C95_exec	Classical.choice Quot.sound propext
Rezip.C95_trace	Classical.choice Quot.sound propext
Rezip.C95_split	Classical.choice Quot.sound propext
Rezip.C95_malformed	Classical.choice Quot.sound propext
Rezip.C95_empty	Quot.sound propext
Rezip.C96_cat	Classical.choice Quot.sound propext
Rezip.C96_dump	Classical.choice Quot.sound propext
Rezip.C96_header	Classical.choice Quot.sound propext
Rezip.C96_blocks	Classical.choice Quot.sound propext
Rezip.C96_trace	Classical.choice Quot.sound propext
Rezip.C96_pieces	Classical.choice Quot.sound propext
Rezip.C97_position	Classical.choice Quot.sound propext
Rezip.C97_hash	Classical.choice Quot.sound propext
Rezip.C98_cat	Classical.choice Quot.sound propext
Rezip.C98_pieces	Classical.choice Quot.sound propext
Rezip.C98_compress	Classical.choice Quot.sound propext
Rezip.C98_recompress	Classical.choice Quot.sound propext
Rezip.C98_decompress	Classical.choice Quot.sound propext
Rezip.C98_zero	Classical.choice Quot.sound propext
Rezip.C99_canonical	Classical.choice Quot.sound propext
Rezip.C99_faithful	Classical.choice Quot.sound propext
Rezip.C100_text	Classical.choice Quot.sound propext
Rezip.C100_hash	Classical.choice Quot.sound propext
Rezip.C101_unambiguous	propext
Rezip.C101_form	Classical.choice Quot.sound propext
Rezip.C102_pretty	Classical.choice Quot.sound propext
Rezip.C103_table	Classical.choice Quot.sound propext
Rezip.C103_count	Classical.choice Quot.sound propext
Rezip.C103_left_out	Classical.choice Quot.sound propext
Rezip.C103_output	Classical.choice Quot.sound propext
Rezip.C104_normal	Classical.choice Quot.sound propext
Rezip.C104_same	Classical.choice Quot.sound propext
Rezip.C104_cat	Classical.choice Quot.sound propext
Rezip.C105_complete	Classical.choice Quot.sound propext
Rezip.C105_tree	Classical.choice Quot.sound propext
Rezip.C105_text	Classical.choice Quot.sound propext
Rezip.C106_form	Quot.sound propext
Rezip.C106_endless	Quot.sound propext
Rezip.C106_full	Quot.sound propext
Rezip.C106_any	Quot.sound propext
Rezip.C107_fits	Classical.choice Quot.sound propext
Rezip.C107_full	Classical.choice Quot.sound propext
Rezip.C108_input	Classical.choice Quot.sound propext
Rezip.C108_missing	Classical.choice Quot.sound propext
Rezip.C108_pipe	Classical.choice Quot.sound propext
Rezip.C108_dump	Classical.choice Quot.sound propext
Rezip.C109_same	Quot.sound propext
Rezip.C109_far	Classical.choice Quot.sound propext
Rezip.C109_zero	Classical.choice Quot.sound propext
Rezip.C110_text	Classical.choice Quot.sound propext
Rezip.C110_faithful	Classical.choice Quot.sound propext
Rezip.C110_config	Classical.choice Quot.sound propext
Rezip.C111_lossy	Classical.choice Quot.sound propext
Rezip.C111_text	Classical.choice Quot.sound propext
Rezip.C111_quote	Classical.choice Quot.sound propext
Rezip.C111_faithful	Classical.choice Quot.sound propext
Rezip.C112_runs	Classical.choice Quot.sound propext
Rezip.C112_bytes	Classical.choice Quot.sound propext
Rezip.C112_fast	Classical.choice Quot.sound propext
Rezip.C112_file	Classical.choice Quot.sound propext
Rezip.C112_documented	Classical.choice Quot.sound propext
Rezip.C112_dump	Classical.choice Quot.sound propext
Rezip.C113_cat	Classical.choice Quot.sound propext
Rezip.C113_cat_partial	Classical.choice Quot.sound propext
Rezip.C113_cat_lost	Classical.choice Quot.sound propext
Rezip.C113_cat_false	Quot.sound propext
Rezip.C113_zero	Classical.choice Quot.sound propext
Rezip.C113_zero_partial	Classical.choice Quot.sound propext
Rezip.C113_zero_lost	Classical.choice Quot.sound propext
Rezip.C113_zero_false	Quot.sound propext
Rezip.C113_dump	Classical.choice Quot.sound propext
Rezip.C114_release	Quot.sound propext
Rezip.C114_default	Quot.sound propext
Rezip.C114_zero	none
Rezip.C115_guess	Classical.choice Quot.sound propext
Rezip.C115_trace	Classical.choice Quot.sound propext
Rezip.C115_restore	Classical.choice Quot.sound propext
Rezip.C115_short	Classical.choice Quot.sound propext
Rezip.C115_never_lazy	Classical.choice Quot.sound propext
Rezip.C116_read	Quot.sound propext
Rezip.C116_error	Quot.sound propext
Rezip.C116_write	Quot.sound propext
Rezip.C116_verify	Quot.sound propext
Rezip.C117_header	Classical.choice Quot.sound propext
Rezip.C117_items	Classical.choice Quot.sound propext
Rezip.C117_invalid	Classical.choice Quot.sound propext
Rezip.C117_cut	Classical.choice Quot.sound propext
Rezip.C117_cat	Classical.choice Quot.sound propext
Rezip.C117_dump	Classical.choice Quot.sound propext
Rezip.C117_cat_cut	Classical.choice Quot.sound propext
Rezip.C117_endless	Classical.choice Quot.sound propext
Rezip.C118_fault	Classical.choice Quot.sound propext
Rezip.C118_parse	Classical.choice Quot.sound propext
Rezip.C118_unique	Classical.choice Quot.sound propext
Rezip.C118_eof	Classical.choice Quot.sound propext
Rezip.C118_kinds	Classical.choice Quot.sound propext
Rezip.C118_dump	Classical.choice Quot.sound propext
Rezip.C118_cat	Classical.choice Quot.sound propext
Rezip.C119_blocks	Classical.choice Quot.sound propext
Rezip.C119_gzip_bytes	Classical.choice Quot.sound propext
Rezip.C119_fast	Classical.choice Quot.sound propext
Rezip.C119_recognised_partial	Classical.choice Quot.sound propext
Rezip.C119_short_partial	Classical.choice Quot.sound propext
Rezip.C119_file_partial	Classical.choice Quot.sound propext
Rezip.C119_fuzz_partial	Classical.choice Quot.sound propext
Rezip.C119_not_zero	Quot.sound propext
Rezip.C119_fuzz_finds	Classical.choice Quot.sound propext
Rezip.C119_not_two	Quot.sound propext
Rezip.C119_not_three	Quot.sound propext
Rezip.C119_not_lazy	Quot.sound propext
Rezip.C119_not_far	Classical.choice Quot.sound propext
Rezip.C119_sparse_partial	Classical.choice Quot.sound propext
Rezip.C119_lazy	Classical.choice Quot.sound propext
Rezip.C119_settled_partial	Classical.choice Quot.sound propext
Rezip.C119_distinct_partial	Classical.choice Quot.sound propext
Rezip.C120_cut	Classical.choice Quot.sound propext
Rezip.C120_short	Classical.choice Quot.sound propext
Rezip.C120_not_fast	Classical.choice Quot.sound propext
Rezip.C120_not_join	Classical.choice Quot.sound propext
Rezip.C120_not_reach	Classical.choice Quot.sound propext
Rezip.C121_recognised	Classical.choice Quot.sound propext
Rezip.C121_trace	Classical.choice Quot.sound propext
Rezip.C121_file	Classical.choice Quot.sound propext
Rezip.C121_not_same	Classical.choice Quot.sound propext
Rezip.C121_not_traced	Classical.choice Quot.sound propext

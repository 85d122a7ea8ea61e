{
 "claims": [
  {
   "property": "C01",
   "status": "proved",
   "theorems": [
    "Rezip.C01_bits_roundtrip"
   ],
   "note": ""
  },
  {
   "property": "C02",
   "status": "proved",
   "theorems": [
    "Rezip.C02_fixed_width_roundtrip",
    "Rezip.C02_too_wide",
    "Rezip.C02_release"
   ],
   "note": ""
  },
  {
   "property": "C03",
   "status": "proved",
   "theorems": [
    "Rezip.C03_bitvec_sequence",
    "Rezip.C03_bitvec_eq",
    "Rezip.C03_from_slice"
   ],
   "note": ""
  },
  {
   "property": "C04",
   "status": "partial",
   "theorems": [
    "Rezip.C04_bitvec_stack_partial",
    "Rezip.C04_bitvec_stack_false",
    "Rezip.C04_exact",
    "Rezip.C04_iff"
   ],
   "note": "False as stated: BitVec::pop leaves the popped bit set, so a later push of 0 reads back as 1. The negation is proved on a concrete history; the partial theorem covers every history in which popped bits are 0 or are pushed again as 1. C04_exact says what any history leaves, and C04_iff that the claim holds of a history exactly if it never pushes 0 over a popped 1."
  },
  {
   "property": "C05",
   "status": "partial",
   "theorems": [
    "Rezip.C05_stored_roundtrip_partial",
    "Rezip.C05_stored_swapped",
    "Rezip.C05_stored_false"
   ],
   "note": "False as stated: the writer stores LEN and NLEN big endian (bit.rs:164). The negation is proved; the partial theorem covers exactly the lengths whose two bytes are equal, and C05_stored_swapped says what is read in general."
  },
  {
   "property": "C06",
   "status": "proved",
   "theorems": [
    "Rezip.C06_stored_read"
   ],
   "note": ""
  },
  {
   "property": "C07",
   "status": "proved",
   "theorems": [
    "Rezip.C07_too_many",
    "Rezip.C07_above",
    "Rezip.C07_far_unused",
    "Rezip.C07_far_used",
    "Rezip.C07_which",
    "Rezip.C07_new_iff_complete",
    "Rezip.C07_too_few"
   ],
   "note": ""
  },
  {
   "property": "C08",
   "status": "proved",
   "theorems": [
    "Rezip.C08_wide",
    "Rezip.C08_canonical"
   ],
   "note": ""
  },
  {
   "property": "C09",
   "status": "proved",
   "theorems": [
    "Rezip.C09_wide",
    "Rezip.C09_decode_encode",
    "Rezip.C09_encode_decode"
   ],
   "note": ""
  },
  {
   "property": "C10",
   "status": "proved",
   "theorems": [
    "Rezip.C10_wide",
    "Rezip.C10_prefix_free"
   ],
   "note": ""
  },
  {
   "property": "C11",
   "status": "proved",
   "theorems": [
    "Rezip.C11_fixed_tables"
   ],
   "note": ""
  },
  {
   "property": "C12",
   "status": "proved",
   "theorems": [
    "Rezip.C12_run_roundtrip"
   ],
   "note": ""
  },
  {
   "property": "C13",
   "status": "proved",
   "theorems": [
    "Rezip.C13_distance_roundtrip"
   ],
   "note": ""
  },
  {
   "property": "C14",
   "status": "proved",
   "theorems": [
    "Rezip.C14_refused",
    "Rezip.C14_decode_run",
    "Rezip.C14_decode_distance"
   ],
   "note": ""
  },
  {
   "property": "C15",
   "status": "proved",
   "theorems": [
    "Rezip.C15_header_complete"
   ],
   "note": ""
  },
  {
   "property": "C16",
   "status": "proved",
   "theorems": [
    "Rezip.C16_header_sound"
   ],
   "note": ""
  },
  {
   "property": "C17",
   "status": "proved",
   "theorems": [
    "Rezip.C17_total",
    "Rezip.C17_collect"
   ],
   "note": ""
  },
  {
   "property": "C18",
   "status": "proved",
   "theorems": [
    "Rezip.C18_refs_ok"
   ],
   "note": ""
  },
  {
   "property": "C19",
   "status": "proved",
   "theorems": [
    "Rezip.C19_suffix"
   ],
   "note": ""
  },
  {
   "property": "C20",
   "status": "proved",
   "theorems": [
    "Rezip.C20_truncation"
   ],
   "note": ""
  },
  {
   "property": "C21",
   "status": "partial",
   "theorems": [
    "Rezip.C21_exact",
    "Rezip.C21_flag",
    "Rezip.C21_drain_false",
    "Rezip.C21_drain_ended_partial"
   ],
   "note": "False as stated: the iterator repeats the error for ever on truncated input. The partial theorem covers streams that parse. C21_exact: on every input the iterator either ends within 8·len+7 calls or repeats the end-of-file error for ever."
  },
  {
   "property": "C22",
   "status": "proved",
   "theorems": [
    "Rezip.C22_parse_iff",
    "Rezip.C22_unambiguous"
   ],
   "note": ""
  },
  {
   "property": "C23",
   "status": "partial",
   "theorems": [
    "Rezip.C23_compress_parse_partial",
    "Rezip.C23_compress_parse_false",
    "Rezip.C23_fixed_encodable",
    "Rezip.C23_exact"
   ],
   "note": "False as stated for stored blocks (big endian length). The partial theorem covers every list of expressible blocks whose stored lengths have two equal bytes."
  },
  {
   "property": "C24",
   "status": "partial",
   "theorems": [
    "Rezip.C24_recompress_partial",
    "Rezip.C24_recompress_false"
   ],
   "note": "False as stated for stored blocks and for length 258 written as symbol 284 plus 31. The partial theorem is an exact characterisation: recompression is the identity iff the stream uses neither."
  },
  {
   "property": "C25",
   "status": "partial",
   "theorems": [
    "Rezip.C25_reserialise_partial",
    "Rezip.C25_reserialise_strict_partial",
    "Rezip.C25_reserialise_false",
    "Rezip.C25_reserialise_iff"
   ],
   "note": "False as stated: a dynamic block with length 258 as 284 plus 31 and no code for 285 panics. Exact condition proved in C25_reserialise_iff."
  },
  {
   "property": "C26",
   "status": "proved",
   "theorems": [
    "Rezip.C26_replay",
    "Rezip.C26_block"
   ],
   "note": ""
  },
  {
   "property": "C27",
   "status": "partial",
   "theorems": [
    "Rezip.C27_exact",
    "Rezip.C27_literal_partial",
    "Rezip.C27_no_distance_partial",
    "Rezip.C27_written_expressible",
    "Rezip.C27_unencodable_false"
   ],
   "note": "False as stated: missing length or distance symbols panic. Missing literals and a missing distance tree are proved to be errors; success is proved to imply that everything was expressible. C27_exact gives the outcome of every block of codes: which code decides it and what it fails with."
  },
  {
   "property": "C28",
   "status": "partial",
   "theorems": [
    "Rezip.C28_estimate_partial",
    "Rezip.C28_estimate_none",
    "Rezip.C28_estimate_false"
   ],
   "note": "False as stated: the estimate omits the extra bits of the run length. The partial theorem gives the exact difference."
  },
  {
   "property": "C29",
   "status": "proved",
   "theorems": [
    "Rezip.C29_contents",
    "Rezip.C29_out_of_range"
   ],
   "note": ""
  },
  {
   "property": "C30",
   "status": "partial",
   "theorems": [
    "Rezip.C30_vec_partial",
    "Rezip.C30_vec_false"
   ],
   "note": "False as stated: a full buffer of capacity 65535 panics in the dev profile and dumps nothing in release (C30_vec_false). The partial theorem covers every other buffer."
  },
  {
   "property": "C31",
   "status": "proved",
   "theorems": [
    "Rezip.C31_copy"
   ],
   "note": ""
  },
  {
   "property": "C32",
   "status": "proved",
   "theorems": [
    "Rezip.C32_expansion",
    "Rezip.C32_block"
   ],
   "note": ""
  },
  {
   "property": "C33",
   "status": "proved",
   "theorems": [
    "Rezip.C33_blocks",
    "Rezip.C33_codes"
   ],
   "note": ""
  },
  {
   "property": "C34",
   "status": "proved",
   "theorems": [
    "Rezip.C34_size"
   ],
   "note": ""
  },
  {
   "property": "C35",
   "status": "proved",
   "theorems": [
    "Rezip.C35_failing_output",
    "Rezip.C35_decodable"
   ],
   "note": ""
  },
  {
   "property": "C36",
   "status": "proved",
   "theorems": [
    "Rezip.C36_roundtrip"
   ],
   "note": ""
  },
  {
   "property": "C37",
   "status": "proved",
   "theorems": [
    "Rezip.C37_read_total"
   ],
   "note": ""
  },
  {
   "property": "C38",
   "status": "proved",
   "theorems": [
    "Rezip.C38_prefix"
   ],
   "note": ""
  },
  {
   "property": "C39",
   "status": "partial",
   "theorems": [
    "Rezip.C39_detected_partial",
    "Rezip.C39_truncation_false"
   ],
   "note": "False as stated: a cut is noticed only when it leaves the two distance bytes of a reference. The partial theorem is an exact characterisation; the negation has a concrete witness."
  },
  {
   "property": "C40",
   "status": "proved",
   "theorems": [
    "Rezip.C40_size",
    "Rezip.C40_run",
    "Rezip.C40_entries"
   ],
   "note": ""
  },
  {
   "property": "C41",
   "status": "partial",
   "theorems": [
    "Rezip.C41_false",
    "Rezip.C41_wrong_byte",
    "Rezip.C41_no_preroll_partial",
    "Rezip.C41_no_literal_hint_partial",
    "Rezip.C41_exact_partial"
   ],
   "note": "False as stated when there is a preroll: Technique::byte_at indexes the data with a position that counts the preroll. Negation proved (a panic, and a silently wrong byte). C41_exact_partial is an exact characterisation; C41_no_preroll_partial covers the case without preroll in full."
  },
  {
   "property": "C42",
   "status": "proved",
   "theorems": [
    "Rezip.C42_trace_total",
    "Rezip.C42_consistent"
   ],
   "note": ""
  },
  {
   "property": "C43",
   "status": "proved",
   "theorems": [
    "Rezip.C43_try_gzip",
    "Rezip.C43_expand",
    "Rezip.C43_level_range"
   ],
   "note": ""
  },
  {
   "property": "C44",
   "status": "proved",
   "theorems": [
    "Rezip.C44_all_correct",
    "Rezip.C44_decompress"
   ],
   "note": ""
  },
  {
   "property": "C45",
   "status": "proved",
   "theorems": [
    "Rezip.C45_guess",
    "Rezip.C45_guess_correct"
   ],
   "note": ""
  },
  {
   "property": "C46",
   "status": "proved",
   "theorems": [
    "Rezip.C46_real_match"
   ],
   "note": ""
  },
  {
   "property": "C47",
   "status": "proved",
   "theorems": [
    "Rezip.C47_maximal"
   ],
   "note": ""
  },
  {
   "property": "C48",
   "status": "proved",
   "theorems": [
    "Rezip.C48_complete",
    "Rezip.C48_sound"
   ],
   "note": ""
  },
  {
   "property": "C49",
   "status": "proved",
   "theorems": [
    "Rezip.C49_chain"
   ],
   "note": ""
  },
  {
   "property": "C50",
   "status": "proved",
   "theorems": [
    "Rezip.C50_candidates",
    "Rezip.C50_guess"
   ],
   "note": ""
  },
  {
   "property": "C51",
   "status": "proved",
   "theorems": [
    "Rezip.C51_pick_longest"
   ],
   "note": ""
  },
  {
   "property": "C52",
   "status": "proved",
   "theorems": [
    "Rezip.C52_far_threes"
   ],
   "note": ""
  },
  {
   "property": "C53",
   "status": "partial",
   "theorems": [
    "Rezip.C53_abort_false",
    "Rezip.C53_inverted_partial"
   ],
   "note": "False as stated: the comparison that abandons a long match is inverted. Negation proved; C53_inverted_partial says what the code does instead."
  },
  {
   "property": "C54",
   "status": "proved",
   "theorems": [
    "Rezip.C54_lazy"
   ],
   "note": ""
  },
  {
   "property": "C55",
   "status": "proved",
   "theorems": [
    "Rezip.C55_filter",
    "Rezip.C55_recorded"
   ],
   "note": ""
  },
  {
   "property": "C56",
   "status": "proved",
   "theorems": [
    "Rezip.C56_header"
   ],
   "note": ""
  },
  {
   "property": "C57",
   "status": "proved",
   "theorems": [
    "Rezip.C57_accepted",
    "Rezip.C57_others_refused"
   ],
   "note": ""
  },
  {
   "property": "C58",
   "status": "proved",
   "theorems": [
    "Rezip.C58_read",
    "Rezip.C58_write",
    "Rezip.C58_bad_writer"
   ],
   "note": ""
  },
  {
   "property": "C59",
   "status": "proved",
   "theorems": [
    "Rezip.C59_chunks",
    "Rezip.C59_are_chunks"
   ],
   "note": ""
  },
  {
   "property": "C60",
   "status": "proved",
   "theorems": [
    "Rezip.C60_first_chunk",
    "Rezip.C60_unique",
    "Rezip.C60_local",
    "Rezip.C60_error",
    "Rezip.C60_failing"
   ],
   "note": ""
  },
  {
   "property": "C61",
   "status": "partial",
   "theorems": [
    "Rezip.C61_rewrite_partial",
    "Rezip.C61_short_partial",
    "Rezip.C61_lost",
    "Rezip.C61_false",
    "Rezip.C61_empty",
    "Rezip.C61_exact_partial",
    "Rezip.C61_vanishes"
   ],
   "note": "False as stated: a chunk of exactly 65536 bytes is written with length 0. Negation proved with a witness; C61_rewrite_partial covers all data with no such chunk; C61_exact_partial says what cat makes of the file otherwise (it takes the data in the chunk for compressed data)."
  },
  {
   "property": "C62",
   "status": "proved",
   "theorems": [
    "Rezip.C62_cat",
    "Rezip.C62_only",
    "Rezip.C62_errors",
    "Rezip.C62_no_header"
   ],
   "note": ""
  },
  {
   "property": "C63",
   "status": "proved",
   "theorems": [
    "Rezip.C63_recreate",
    "Rezip.C63_end_to_end",
    "Rezip.C63_one_block"
   ],
   "note": ""
  },
  {
   "property": "C64",
   "status": "proved",
   "theorems": [
    "Rezip.C64_three_step",
    "Rezip.C64_defer"
   ],
   "note": ""
  },
  {
   "property": "C65",
   "status": "proved",
   "theorems": [
    "Rezip.C65_mean"
   ],
   "note": ""
  },
  {
   "property": "C66",
   "status": "proved",
   "theorems": [
    "Rezip.C66_presets",
    "Rezip.C66_level_range",
    "Rezip.C66_default"
   ],
   "note": ""
  },
  {
   "property": "C67",
   "status": "proved",
   "theorems": [
    "Rezip.C67_hash",
    "Rezip.C67_collide",
    "Rezip.C67_same_tail"
   ],
   "note": ""
  },
  {
   "property": "C68",
   "status": "proved",
   "theorems": [
    "Rezip.C68_candidates"
   ],
   "note": ""
  },
  {
   "property": "C69",
   "status": "proved",
   "theorems": [
    "Rezip.C69_greedy",
    "Rezip.C69_gzip"
   ],
   "note": ""
  },
  {
   "property": "C70",
   "status": "proved",
   "theorems": [
    "Rezip.C70_trace",
    "Rezip.C70_try_gzip"
   ],
   "note": ""
  },
  {
   "property": "C71",
   "status": "proved",
   "theorems": [
    "Rezip.C71_writer",
    "Rezip.C71_reader"
   ],
   "note": ""
  },
  {
   "property": "C72",
   "status": "partial",
   "theorems": [
    "Rezip.C72_eq_false",
    "Rezip.C72_eq_partial",
    "Rezip.C72_exact"
   ],
   "note": "False as stated: pop leaves the popped bit set in the last byte, which the derived equality compares. Negation proved with a witness; the partial theorem covers vectors built by pushing. C72_exact says when the vectors of any two histories are equal."
  },
  {
   "property": "C73",
   "status": "proved",
   "theorems": [
    "Rezip.C73_shortest"
   ],
   "note": ""
  },
  {
   "property": "C74",
   "status": "proved",
   "theorems": [
    "Rezip.C74_preroll",
    "Rezip.C74_restore_any",
    "Rezip.C74_missing",
    "Rezip.C74_gzip"
   ],
   "note": ""
  },
  {
   "property": "C75",
   "status": "proved",
   "theorems": [
    "Rezip.C75_char",
    "Rezip.C75_dump",
    "Rezip.C75_errors",
    "Rezip.C75_no_header",
    "Rezip.C75_faithful"
   ],
   "note": ""
  },
  {
   "property": "C76",
   "status": "proved",
   "theorems": [
    "Rezip.C76_traces",
    "Rezip.C76_codes",
    "Rezip.C76_single",
    "Rezip.C76_bits",
    "Rezip.C76_popped"
   ],
   "note": ""
  },
  {
   "property": "C77",
   "status": "proved",
   "theorems": [
    "Rezip.C77_bound",
    "Rezip.C77_tight"
   ],
   "note": ""
  },
  {
   "property": "C78",
   "status": "proved",
   "theorems": [
    "Rezip.C78_blocks",
    "Rezip.C78_cat",
    "Rezip.C78_dump"
   ],
   "note": ""
  },
  {
   "property": "C79",
   "status": "proved",
   "theorems": [
    "Rezip.C79_failing_writer",
    "Rezip.C79_recompress"
   ],
   "note": ""
  },
  {
   "property": "C80",
   "status": "proved",
   "theorems": [
    "Rezip.C80_file",
    "Rezip.C80_canonical",
    "Rezip.C80_idempotent"
   ],
   "note": ""
  },
  {
   "property": "C81",
   "status": "proved",
   "theorems": [
    "Rezip.C81_damaged",
    "Rezip.C81_not_complete",
    "Rezip.C81_output"
   ],
   "note": ""
  },
  {
   "property": "C82",
   "status": "proved",
   "theorems": [
    "Rezip.C82_overhead"
   ],
   "note": ""
  },
  {
   "property": "C83",
   "status": "partial",
   "theorems": [
    "Rezip.C83_members_false",
    "Rezip.C83_trailer_false",
    "Rezip.C83_single_partial",
    "Rezip.C83_exact_partial"
   ],
   "note": "False as stated: cat stops after the first member and never looks at the trailer. Both negations are proved with witnesses; C83_single_partial covers files of one member and C83_exact_partial says exactly what is accepted."
  },
  {
   "property": "C84",
   "status": "partial",
   "theorems": [
    "Rezip.C84_valid_partial",
    "Rezip.C84_false",
    "Rezip.C84_wide"
   ],
   "note": "False as stated: a chunk of exactly 65536 bytes is written with length 0 (see C61). The partial theorem covers all data without such a chunk; C84_wide: with one at the end only, the file never holds the data."
  },
  {
   "property": "C85",
   "status": "proved",
   "theorems": [
    "Rezip.C85_round_trip",
    "Rezip.C85_else_panics"
   ],
   "note": ""
  },
  {
   "property": "C86",
   "status": "proved",
   "theorems": [
    "Rezip.C86_try_gzip"
   ],
   "note": ""
  },
  {
   "property": "C87",
   "status": "proved",
   "theorems": [
    "Rezip.C87_run_gzip",
    "Rezip.C87_else_panics",
    "Rezip.C87_one_block",
    "Rezip.C87_profile",
    "Rezip.C87_false"
   ],
   "note": ""
  },
  {
   "property": "C88",
   "status": "proved",
   "theorems": [
    "Rezip.C88_try_gzip",
    "Rezip.C88_else_panics"
   ],
   "note": ""
  },
  {
   "property": "C89",
   "status": "proved",
   "theorems": [
    "Rezip.C89_own_codes"
   ],
   "note": ""
  },
  {
   "property": "C90",
   "status": "proved",
   "theorems": [
    "Rezip.C90_exists",
    "Rezip.C90_unique"
   ],
   "note": ""
  },
  {
   "property": "C91",
   "status": "proved",
   "theorems": [
    "Rezip.C91_shown",
    "Rezip.C91_else",
    "Rezip.C91_panics",
    "Rezip.C91_one_block"
   ],
   "note": ""
  },
  {
   "property": "C92",
   "status": "proved",
   "theorems": [
    "Rezip.C92_enough",
    "Rezip.C92_window",
    "Rezip.C92_one_short"
   ],
   "note": ""
  },
  {
   "property": "C93",
   "status": "partial",
   "theorems": [
    "Rezip.C93_false",
    "Rezip.C93_before_partial",
    "Rezip.C93_after_partial",
    "Rezip.C93_resync_partial"
   ],
   "note": "False as stated (C93_false, for every k). Proved instead: chunks before the edit stay; after a common cut all chunks agree; two content boundaries 8192 to 57345 apart with none between force a common cut, whatever comes before."
  },
  {
   "property": "C94",
   "status": "proved",
   "theorems": [
    "Rezip.C94_trace",
    "Rezip.C94_try",
    "Rezip.C94_try_gzip"
   ],
   "note": ""
  },
  {
   "property": "C95",
   "status": "proved",
   "theorems": [
    "Rezip.C95_exec",
    "Rezip.C95_trace",
    "Rezip.C95_split",
    "Rezip.C95_malformed",
    "Rezip.C95_empty"
   ],
   "note": ""
  },
  {
   "property": "C96",
   "status": "proved",
   "theorems": [
    "Rezip.C96_cat",
    "Rezip.C96_dump",
    "Rezip.C96_header",
    "Rezip.C96_blocks",
    "Rezip.C96_trace",
    "Rezip.C96_pieces"
   ],
   "note": ""
  },
  {
   "property": "C97",
   "status": "proved",
   "theorems": [
    "Rezip.C97_position",
    "Rezip.C97_hash"
   ],
   "note": ""
  },
  {
   "property": "C98",
   "status": "proved",
   "theorems": [
    "Rezip.C98_cat",
    "Rezip.C98_pieces",
    "Rezip.C98_compress",
    "Rezip.C98_recompress",
    "Rezip.C98_decompress",
    "Rezip.C98_zero"
   ],
   "note": ""
  },
  {
   "property": "C99",
   "status": "proved",
   "theorems": [
    "Rezip.C99_canonical",
    "Rezip.C99_faithful"
   ],
   "note": ""
  },
  {
   "property": "C100",
   "status": "proved",
   "theorems": [
    "Rezip.C100_text",
    "Rezip.C100_hash"
   ],
   "note": ""
  },
  {
   "property": "C101",
   "status": "proved",
   "theorems": [
    "Rezip.C101_unambiguous",
    "Rezip.C101_form"
   ],
   "note": ""
  },
  {
   "property": "C102",
   "status": "proved",
   "theorems": [
    "Rezip.C102_pretty"
   ],
   "note": ""
  },
  {
   "property": "C103",
   "status": "proved",
   "theorems": [
    "Rezip.C103_table",
    "Rezip.C103_count",
    "Rezip.C103_left_out",
    "Rezip.C103_output"
   ],
   "note": ""
  },
  {
   "property": "C104",
   "status": "proved",
   "theorems": [
    "Rezip.C104_normal",
    "Rezip.C104_same",
    "Rezip.C104_cat"
   ],
   "note": ""
  },
  {
   "property": "C105",
   "status": "proved",
   "theorems": [
    "Rezip.C105_complete",
    "Rezip.C105_tree",
    "Rezip.C105_text"
   ],
   "note": ""
  },
  {
   "property": "C106",
   "status": "proved",
   "theorems": [
    "Rezip.C106_form",
    "Rezip.C106_endless",
    "Rezip.C106_full",
    "Rezip.C106_any"
   ],
   "note": ""
  },
  {
   "property": "C107",
   "status": "proved",
   "theorems": [
    "Rezip.C107_fits",
    "Rezip.C107_full"
   ],
   "note": ""
  },
  {
   "property": "C108",
   "status": "proved",
   "theorems": [
    "Rezip.C108_input",
    "Rezip.C108_missing",
    "Rezip.C108_pipe",
    "Rezip.C108_dump"
   ],
   "note": ""
  },
  {
   "property": "C109",
   "status": "proved",
   "theorems": [
    "Rezip.C109_same",
    "Rezip.C109_far",
    "Rezip.C109_zero"
   ],
   "note": ""
  },
  {
   "property": "C110",
   "status": "proved",
   "theorems": [
    "Rezip.C110_text",
    "Rezip.C110_faithful",
    "Rezip.C110_config"
   ],
   "note": ""
  },
  {
   "property": "C111",
   "status": "proved",
   "theorems": [
    "Rezip.C111_lossy",
    "Rezip.C111_text",
    "Rezip.C111_quote",
    "Rezip.C111_faithful"
   ],
   "note": ""
  },
  {
   "property": "C112",
   "status": "proved",
   "theorems": [
    "Rezip.C112_runs",
    "Rezip.C112_bytes",
    "Rezip.C112_fast",
    "Rezip.C112_file",
    "Rezip.C112_documented",
    "Rezip.C112_dump"
   ],
   "note": ""
  },
  {
   "property": "C113",
   "status": "partial",
   "theorems": [
    "Rezip.C113_cat",
    "Rezip.C113_cat_partial",
    "Rezip.C113_cat_lost",
    "Rezip.C113_cat_false",
    "Rezip.C113_zero",
    "Rezip.C113_zero_partial",
    "Rezip.C113_zero_lost",
    "Rezip.C113_zero_false",
    "Rezip.C113_dump"
   ],
   "note": "False as stated for cat and zero, which do not flush standard output: negations C113_cat_false, C113_zero_false, and C113_cat_lost, C113_zero_lost for all outputs. C113_cat and C113_zero say exactly what is written and reported; the partial theorems bound what a successful run can lose. C113_dump: true for dump."
  },
  {
   "property": "C114",
   "status": "proved",
   "theorems": [
    "Rezip.C114_release",
    "Rezip.C114_default",
    "Rezip.C114_zero"
   ],
   "note": ""
  },
  {
   "property": "C115",
   "status": "proved",
   "theorems": [
    "Rezip.C115_guess",
    "Rezip.C115_trace",
    "Rezip.C115_restore",
    "Rezip.C115_short",
    "Rezip.C115_never_lazy"
   ],
   "note": ""
  },
  {
   "property": "C116",
   "status": "proved",
   "theorems": [
    "Rezip.C116_read",
    "Rezip.C116_error",
    "Rezip.C116_write",
    "Rezip.C116_verify"
   ],
   "note": ""
  },
  {
   "property": "C117",
   "status": "proved",
   "theorems": [
    "Rezip.C117_header",
    "Rezip.C117_items",
    "Rezip.C117_invalid",
    "Rezip.C117_cut",
    "Rezip.C117_cat",
    "Rezip.C117_dump",
    "Rezip.C117_cat_cut",
    "Rezip.C117_endless"
   ],
   "note": ""
  },
  {
   "property": "C118",
   "status": "proved",
   "theorems": [
    "Rezip.C118_fault",
    "Rezip.C118_parse",
    "Rezip.C118_unique",
    "Rezip.C118_eof",
    "Rezip.C118_kinds",
    "Rezip.C118_dump",
    "Rezip.C118_cat"
   ],
   "note": ""
  },
  {
   "property": "C119",
   "status": "partial",
   "theorems": [
    "Rezip.C119_blocks",
    "Rezip.C119_gzip_bytes",
    "Rezip.C119_fast",
    "Rezip.C119_recognised_partial",
    "Rezip.C119_short_partial",
    "Rezip.C119_file_partial",
    "Rezip.C119_fuzz_partial",
    "Rezip.C119_not_zero",
    "Rezip.C119_fuzz_finds",
    "Rezip.C119_not_two",
    "Rezip.C119_not_three",
    "Rezip.C119_not_lazy",
    "Rezip.C119_not_far",
    "Rezip.C119_sparse_partial",
    "Rezip.C119_lazy",
    "Rezip.C119_settled_partial",
    "Rezip.C119_distinct_partial"
   ],
   "note": "False as stated: with a zero byte already at level 1 (C119_not_zero), at levels 2 and 3 because the tracer searches fewer positions than gzip (C119_not_two, C119_not_three), at levels 4 to 9 because gzip is lazy and the tracer is not (C119_not_lazy), and at every level because gzip looks back 32506 bytes and the tracer 32768 (C119_not_far). True at level 1 of all data that does not end in three bytes that also occur right before a zero byte and where equal hashes are less than 32506 apart (C119_recognised_partial, C119_file_partial, C119_fuzz_partial); that includes all data without zero bytes of at most 32507 bytes (C119_short_partial). C119_fast says exactly which codes are predicted at levels 1 to 3. Where at most max_insert (levels 2 and 3) or max_chain / 4 (levels 4 to 9) earlier positions have the same hash, levels 2 and 3 are recognised too (C119_sparse_partial), and levels 4 to 9 exactly if no match that is guessed is followed by a longer one at the next byte (C119_lazy, C119_settled_partial). Data in which no hash occurs twice is recognised at every level (C119_distinct_partial). At levels 4 to 9 it does not matter where gzip cuts its codes into compressed blocks (C119_blocks)."
  },
  {
   "property": "C120",
   "status": "proved",
   "theorems": [
    "Rezip.C120_cut",
    "Rezip.C120_short",
    "Rezip.C120_not_fast",
    "Rezip.C120_not_join",
    "Rezip.C120_not_reach"
   ],
   "note": "C120_cut at levels 4 to 9 and C120_short at levels 1 to 3; C120_not_fast and C120_not_join are the counterexamples that the statement mentions; C120_not_reach shows that the exception (a reference exactly 32768 back) is needed."
  },
  {
   "property": "C121",
   "status": "proved",
   "theorems": [
    "Rezip.C121_recognised",
    "Rezip.C121_trace",
    "Rezip.C121_file",
    "Rezip.C121_not_same",
    "Rezip.C121_not_traced"
   ],
   "note": "C121_recognised for whole files, C121_file for the traces of whole files and C121_trace for the entries of one block; C121_not_same shows that the exception is needed and its bound is sharp, C121_not_traced that the beginning of a file that can be traced may not be."
  }
 ]
}

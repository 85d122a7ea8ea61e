{
 "C04": "False as stated: BitVec::pop leaves the popped bit set, so a later push of 0 reads back as 1. The negation is proved on a concrete history; the partial theorem covers every history in which popped bits are 0 or are pushed again as 1. C04_exact says what any history leaves, and C04_iff that the claim holds of a history exactly if it never pushes 0 over a popped 1.",
 "C05": "False as stated: the writer stores LEN and NLEN big endian (bit.rs:164). The negation is proved; the partial theorem covers exactly the lengths whose two bytes are equal, and C05_stored_swapped says what is read in general.",
 "C21": "False as stated: the iterator repeats the error for ever on truncated input. The partial theorem covers streams that parse. C21_exact: on every input the iterator either ends within 8·len+7 calls or repeats the end-of-file error for ever.",
 "C23": "False as stated for stored blocks (big endian length). The partial theorem covers every list of expressible blocks whose stored lengths have two equal bytes.",
 "C24": "False as stated for stored blocks and for length 258 written as symbol 284 plus 31. The partial theorem is an exact characterisation: recompression is the identity iff the stream uses neither.",
 "C25": "False as stated: a dynamic block with length 258 as 284 plus 31 and no code for 285 panics. Exact condition proved in C25_reserialise_iff.",
 "C27": "False as stated: missing length or distance symbols panic. Missing literals and a missing distance tree are proved to be errors; success is proved to imply that everything was expressible. C27_exact gives the outcome of every block of codes: which code decides it and what it fails with.",
 "C28": "False as stated: the estimate omits the extra bits of the run length. The partial theorem gives the exact difference.",
 "C30": "False as stated: a full buffer of capacity 65535 panics in the dev profile and dumps nothing in release (C30_vec_false). The partial theorem covers every other buffer.",
 "C39": "False as stated: a cut is noticed only when it leaves the two distance bytes of a reference. The partial theorem is an exact characterisation; the negation has a concrete witness.",
 "C41": "False as stated when there is a preroll: Technique::byte_at indexes the data with a position that counts the preroll. Negation proved (a panic, and a silently wrong byte). C41_exact_partial is an exact characterisation; C41_no_preroll_partial covers the case without preroll in full.",
 "C53": "False as stated: the comparison that abandons a long match is inverted. Negation proved; C53_inverted_partial says what the code does instead.",
 "C61": "False as stated: a chunk of exactly 65536 bytes is written with length 0. Negation proved with a witness; C61_rewrite_partial covers all data with no such chunk; C61_exact_partial says what cat makes of the file otherwise (it takes the data in the chunk for compressed data).",
 "C72": "False as stated: pop leaves the popped bit set in the last byte, which the derived equality compares. Negation proved with a witness; the partial theorem covers vectors built by pushing. C72_exact says when the vectors of any two histories are equal.",
 "C83": "False as stated: cat stops after the first member and never looks at the trailer. Both negations are proved with witnesses; C83_single_partial covers files of one member and C83_exact_partial says exactly what is accepted.",
 "C84": "False as stated: a chunk of exactly 65536 bytes is written with length 0 (see C61). The partial theorem covers all data without such a chunk; C84_wide: with one at the end only, the file never holds the data.",
 "C93": "False as stated (C93_false, for every k). Proved instead: chunks before the edit stay; after a common cut all chunks agree; two content boundaries 8192 to 57345 apart with none between force a common cut, whatever comes before.",
 "C113": "False as stated for cat and zero, which do not flush standard output: negations C113_cat_false, C113_zero_false, and C113_cat_lost, C113_zero_lost for all outputs. C113_cat and C113_zero say exactly what is written and reported; the partial theorems bound what a successful run can lose. C113_dump: true for dump.",
 "C119": "False as stated: with a zero byte already at level 1 (C119_not_zero), at levels 2 and 3 because the tracer searches fewer positions than gzip (C119_not_two, C119_not_three), at levels 4 to 9 because gzip is lazy and the tracer is not (C119_not_lazy), and at every level because gzip looks back 32506 bytes and the tracer 32768 (C119_not_far). True at level 1 of all data that does not end in three bytes that also occur right before a zero byte and where equal hashes are less than 32506 apart (C119_recognised_partial, C119_file_partial, C119_fuzz_partial); that includes all data without zero bytes of at most 32507 bytes (C119_short_partial). C119_fast says exactly which codes are predicted at levels 1 to 3. Where at most max_insert (levels 2 and 3) or max_chain / 4 (levels 4 to 9) earlier positions have the same hash, levels 2 and 3 are recognised too (C119_sparse_partial), and levels 4 to 9 exactly if no match that is guessed is followed by a longer one at the next byte (C119_lazy, C119_settled_partial). Data in which no hash occurs twice is recognised at every level (C119_distinct_partial). At levels 4 to 9 it does not matter where gzip cuts its codes into compressed blocks (C119_blocks).",
 "C120": "C120_cut at levels 4 to 9 and C120_short at levels 1 to 3; C120_not_fast and C120_not_join are the counterexamples that the statement mentions; C120_not_reach shows that the exception (a reference exactly 32768 back) is needed.",
 "C121": "C121_recognised for whole files, C121_file for the traces of whole files and C121_trace for the entries of one block; C121_not_same shows that the exception is needed and its bound is sharp, C121_not_traced that the beginning of a file that can be traced may not be."
}
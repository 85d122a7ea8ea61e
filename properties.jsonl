{"id": "C01", "title": "Bit writer then bit reader is the identity", "statement": "Writing any sequence of bits to a bit writer, aligning it, and reading the produced bytes back with a bit reader yields the same bits in the same order, followed only by fewer than eight zero padding bits; the bytes hold exactly ceil(n/8) bytes.", "quantifier": "every finite sequence of bits", "why_tests_cant": "A test writes one fixed byte; the claim covers every length (mod 8) and every bit pattern.", "anchors": ["lib/src/bit.rs: BitWriter::write_bit, BitWriter::align, BitReader::read_bit"]}
{"id": "C02", "title": "Fixed-width integers round-trip", "statement": "For every width 0..=16 and every 16-bit value, writing the value with that width and reading that many bits back yields the value modulo 2^width, and leaves the following bits untouched. With a width above 16 reading panics at once, and writing, in a debug build, after 16 bits.", "quantifier": "every width up to 16, every u16 value, every following bit sequence, every bit offset", "why_tests_cant": "2^16 values times 17 widths times 8 offsets times arbitrary suffixes.", "anchors": ["lib/src/bit.rs: BitWriter::write_bits_val, BitSource::read_part"]}
{"id": "C03", "title": "A bit vector is the sequence pushed into it", "statement": "After any sequence of pushes onto an empty bit vector, iterating it gives exactly the pushed bits, its length is the number of pushes, and two such vectors compare equal exactly when the pushed sequences are equal.", "quantifier": "every sequence of pushes", "why_tests_cant": "Equality is derived from the byte storage, so it depends on padding bits never being dirty, for every history.", "anchors": ["lib/src/bit.rs: BitVec::push, BitVec::get, BitVec::iter, BitVec::len, derived Eq"]}
{"id": "C04", "title": "A bit vector is a LIFO stack under any history of push and pop", "statement": "After any interleaving of pushes and pops, the bit vector holds exactly the bits a stack would hold (pop returns the last unpopped push).", "quantifier": "every history of push and pop operations", "why_tests_cant": "Tests only pop after all pushes are done; the failing histories interleave them.", "anchors": ["lib/src/bit.rs: BitVec::push, BitVec::pop, BitVec::pop_byte"]}
{"id": "C05", "title": "Stored-block payloads round-trip through writer and reader", "statement": "Writing a length-prefixed payload of at most 65535 bytes and reading it back gives the same payload.", "quantifier": "every payload of length 0..=65535", "why_tests_cant": "The defect depends on the two bytes of the length; tests contain no stored block.", "anchors": ["lib/src/bit.rs: BitWriter::write_length_prefixed, BitWriter::write_aligned_u16, BitReader::read_length_prefixed, BitReader::read_aligned_u16"]}
{"id": "C06", "title": "Stored blocks are read per RFC 1951", "statement": "Reading a length-prefixed payload succeeds exactly when the next four bytes are LEN and its one's complement, both little endian, and at least LEN bytes follow; it returns exactly those bytes and leaves the reader just after them.", "quantifier": "every byte string at every aligned position", "why_tests_cant": "2^32 header patterns and every payload length.", "anchors": ["lib/src/bit.rs: BitReader::read_length_prefixed"]}
{"id": "C07", "title": "A set of code lengths is accepted exactly when it is a complete prefix code", "statement": "Building a decoding tree from at least two code lengths (each at most 15) succeeds exactly when the sum of 2^-length over non-zero lengths is one; otherwise it returns an error and never panics. Fewer than two or more than 2^32-1 lengths are an error; lengths above 15 count as unused; beyond 65536 lengths, unused ones change nothing and any other one makes it fail.", "quantifier": "every list of code lengths", "why_tests_cant": "The acceptance condition ranges over every length vector; tests use the fixed one.", "anchors": ["lib/src/code_tree.rs: CodeTree::new"]}
{"id": "C08", "title": "Codes are the canonical RFC 1951 codes", "statement": "For an accepted list of code lengths, the code of each symbol with non-zero length is the one the RFC 1951 3.2.2 algorithm assigns, and symbols of length zero have no code. The table of codes has 288 entries; making it panics if a symbol beyond it has a code.", "quantifier": "every accepted list of up to 65536 code lengths and every symbol (for longer lists see C07)", "why_tests_cant": "Canonicity must hold for every length vector an encoder may choose.", "anchors": ["lib/src/code_tree.rs: CodeTree::new, CodeTree::invert"]}
{"id": "C09", "title": "Huffman decoding inverts encoding, for any following bits", "statement": "Decoding the code of a symbol followed by any bits returns that symbol and leaves exactly the following bits; and whatever symbol decoding returns, the bits consumed are that symbol's code.", "quantifier": "every accepted list of up to 65536 code lengths, every symbol with a code, every continuation", "why_tests_cant": "Infinitely many continuations; every tree shape.", "anchors": ["lib/src/code_tree.rs: CodeTree::decode_symbol, CodeTree::invert"]}
{"id": "C10", "title": "Codes are prefix free and at most 15 bits", "statement": "No symbol's code is a prefix of another symbol's code, and every code has the declared length, between 1 and 15.", "quantifier": "every accepted list of up to 65536 code lengths, every pair of symbols", "why_tests_cant": "Quantifies over all pairs in all codes.", "anchors": ["lib/src/code_tree.rs: CodeTree::invert, store_code"]}
{"id": "C11", "title": "Fixed Huffman tables are those of RFC 1951 3.2.6", "statement": "The fixed literal/length code assigns to every symbol 0..=287 the code RFC 1951 lists, and the fixed distance code assigns to every symbol 0..=31 its five bit binary representation; building them never fails.", "quantifier": "all 288 + 32 symbols", "why_tests_cant": "Tests print the table but assert nothing.", "anchors": ["lib/src/huffman.rs: FIXED_LENGTH_TREE, FIXED_DISTANCE_TREE"]}
{"id": "C12", "title": "Run lengths round-trip", "statement": "Encoding any run length 3..=258 as symbol plus extra bits and decoding gives the same run length; the symbol is in 257..=285 and the extra value fits its width.", "quantifier": "every run length and every continuation of the bit stream", "why_tests_cant": "Every length with every continuation.", "anchors": ["lib/src/huffman.rs: encode_run_length, extra_run_length, decode_run_length"]}
{"id": "C13", "title": "Distances round-trip", "statement": "Encoding any distance 1..=32768 as symbol plus extra bits and decoding gives the same distance; the symbol is in 0..=29 and the extra value fits its width.", "quantifier": "every distance and every continuation of the bit stream", "why_tests_cant": "32768 distances with every continuation; the encoder is a loop.", "anchors": ["lib/src/huffman.rs: encode_distance, decode_distance"]}
{"id": "C14", "title": "Decoding run lengths and distances agrees with the RFC 1951 tables", "statement": "For every symbol the decoded run length (distance) is the RFC base value plus the extra bits read as a little-endian number, with the RFC number of extra bits; reserved symbols are errors.", "quantifier": "every symbol and every bit stream", "why_tests_cant": "All symbols with all extra bits, including end of input inside the extra bits.", "anchors": ["lib/src/huffman.rs: decode_run_length, decode_distance"]}
{"id": "C15", "title": "Dynamic tree headers are read per RFC 1951 3.2.7", "statement": "If the bits are an RFC 1951 dynamic header (HLIT, HDIST, HCLEN, permuted code length code lengths, run-length coded code lengths) for given literal and distance code lengths, reading it yields the trees for exactly those lengths and consumes exactly those bits.", "quantifier": "every pair of code length lists and every valid run-length coding of them, every continuation", "why_tests_cant": "The space of headers is unbounded for testing; repeats may cross from literals to distances.", "anchors": ["lib/src/huffman.rs: read_codes"]}
{"id": "C16", "title": "Only valid dynamic headers are accepted", "statement": "Whenever reading dynamic trees succeeds, the consumed bits are an RFC 1951 dynamic header and the resulting trees are the trees of the code lengths it describes (with the documented single-distance-code extension).", "quantifier": "every bit stream", "why_tests_cant": "Soundness over every input.", "anchors": ["lib/src/huffman.rs: read_codes"]}
{"id": "C17", "title": "Parsing never panics and always terminates", "statement": "Iterating the blocks of any byte string never panics: each step yields a block, an error or the end, after reading a finite prefix.", "quantifier": "every byte string, any number of iterator steps including after an error", "why_tests_cant": "Fuzzing samples; the claim covers every byte string and the assertion on reference ranges.", "anchors": ["lib/src/parse.rs: parse_deflate, BlockIter::next, read_block, scan_huffman_data", "lib/src/lib.rs: Ref::new"]}
{"id": "C18", "title": "Parsed references are always well formed", "statement": "Every reference in every successfully parsed block has distance 1..=32768 and run 3..=258.", "quantifier": "every byte string", "why_tests_cant": "Every input; the code's own range check uses a mistyped bound (32786).", "anchors": ["lib/src/parse.rs: scan_huffman_data", "lib/src/huffman.rs: decode_distance, decode_run_length"]}
{"id": "C19", "title": "Parsing does not look past the final block", "statement": "If the blocks of a byte string parse successfully, parsing the same bytes followed by anything gives the same blocks and leaves exactly the extra bytes unread (so a gzip footer can be read afterwards).", "quantifier": "every successfully parsed byte string and every suffix", "why_tests_cant": "Quantifies over suffixes.", "anchors": ["lib/src/parse.rs: BlockIter::next", "lib/src/bit.rs: BitReader::align"]}
{"id": "C20", "title": "Truncation is always detected", "statement": "If a byte string parses successfully and is entirely consumed, then parsing any strict prefix of it ends in an error, never in a successful shorter parse.", "quantifier": "every fully consumed valid stream and every truncation point", "why_tests_cant": "Every crash/truncation point of every stream.", "anchors": ["lib/src/parse.rs: BlockIter::next", "lib/src/bit.rs: BitReader::read_bit"]}
{"id": "C21", "title": "Block iteration over a truncated stream ends", "statement": "Draining the block iterator (ignoring errors) reaches the end of iteration on every input.", "quantifier": "every byte string", "why_tests_cant": "It is false on truncated input, where the iterator yields errors forever; a test that stops at the first error cannot see it.", "anchors": ["lib/src/parse.rs: BlockIter::next"]}
{"id": "C22", "title": "The parser accepts exactly the RFC 1951 streams it documents", "statement": "The list of blocks produced from a byte string is exactly the one described by the RFC 1951 grammar (stored, fixed and dynamic blocks, final-block flag, zero padding), and every such stream with zero padding is accepted.", "quantifier": "every byte string and every list of blocks", "why_tests_cant": "Soundness and completeness over all inputs.", "anchors": ["lib/src/parse.rs: parse_deflate, read_block, scan_huffman_data"]}
{"id": "C23", "title": "Compressing blocks then parsing returns the same blocks", "statement": "For every list of blocks whose codes are expressible in their trees, writing them with final-block flags and parsing the result yields the same list of blocks.", "quantifier": "every non-empty list of encodable blocks, of any length", "why_tests_cant": "Needs every code list, every dynamic tree and every bit alignment.", "anchors": ["lib/src/serialise.rs: compressed_block", "lib/src/parse.rs: parse_deflate"]}
{"id": "C24", "title": "Parsing then recompressing reproduces the input bit for bit", "statement": "For every byte string that parses, re-serialising the parsed blocks (final flag on the last, aligned at the end) gives exactly the bytes consumed.", "quantifier": "every byte string that parses", "why_tests_cant": "This is rezip's reason to exist; the counterexamples (stored blocks, length 258 coded as symbol 284 + 31) are not in the test data.", "anchors": ["lib/src/serialise.rs: compressed_block", "lib/src/lib.rs: tests::round_trip", "lib/src/huffman.rs: encode_run_length"]}
{"id": "C25", "title": "A parsed block can always be re-serialised", "statement": "Re-serialising any parsed block succeeds: no error and no panic.", "quantifier": "every byte string that parses, every block in it", "why_tests_cant": "serialise.rs unwraps table lookups; safety depends on an invariant of every parse.", "anchors": ["lib/src/serialise.rs: compressed_block, compressed_codes, encode_run, encode_distance"]}
{"id": "C26", "title": "Recorded dynamic trees replay to the same trees", "statement": "The tree bits recorded in a parsed dynamic block, when read again, give the same decoding tables as used during the parse and are consumed entirely.", "quantifier": "every byte string containing a dynamic block", "why_tests_cant": "Over all headers.", "anchors": ["lib/src/bit.rs: BitCollector, StackIterator", "lib/src/parse.rs: read_block", "lib/src/serialise.rs: compressed_block"]}
{"id": "C27", "title": "Unencodable codes are reported, not written", "statement": "Compressing a block that uses a literal, run length or distance symbol its trees do not contain returns an error.", "quantifier": "every block", "why_tests_cant": "Only literals return an error; missing run and distance symbols hit an unwrap, which tests never reach.", "anchors": ["lib/src/serialise.rs: compressed_codes, encode_run, encode_distance"]}
{"id": "C28", "title": "Code length estimates match what is written", "statement": "The number of bits estimated for a code by the length table equals the number of bits written for it.", "quantifier": "every pair of trees and every code", "why_tests_cant": "The estimate omits the extra bits of the run length; unused in tests.", "anchors": ["lib/src/serialise.rs: Lengths::length, compressed_codes"]}
{"id": "C29", "title": "The circular buffer holds the most recent bytes", "statement": "After any sequence of pushes and extends, length is min(capacity, bytes pushed), the byte at distance d is the d-th most recent byte for every 1<=d<=length, and dumping the buffer (when its length is below 65535, see C30) gives the most recent bytes in order.", "quantifier": "every capacity 1..=65535 and every history", "why_tests_cant": "Every wrap-around position; every history length.", "anchors": ["lib/src/circles.rs: CircularBuffer::push, extend, get_at_dist, len, vec"]}
{"id": "C30", "title": "Dumping the circular buffer never panics", "statement": "Dumping the buffer returns its contents for every buffer obtainable through the API.", "quantifier": "every capacity and every history", "why_tests_cant": "Fails only at capacity 65535 once full, where 1 + length overflows.", "anchors": ["lib/src/circles.rs: CircularBuffer::vec"]}
{"id": "C31", "title": "Back-reference copy is LZ77 copy", "statement": "Copying (dist, len) succeeds exactly when 1<=dist<=available history, and then writes and appends the len bytes obtained by repeatedly repeating the byte dist back, including overlapping copies; on error nothing is written and the buffer is unchanged.", "quantifier": "every capacity, history, distance and length", "why_tests_cant": "Overlap and wrap-around interact for every index.", "anchors": ["lib/src/circles.rs: CircularBuffer::copy"]}
{"id": "C32", "title": "Decompression is LZ77 expansion with a sliding window", "statement": "Decompressing a code list with a buffer of capacity W containing a history gives the LZ77 expansion of the codes over that history with window W, and fails exactly when some reference reaches before the start of the available window.", "quantifier": "every window size, history and code list", "why_tests_cant": "All code lists; correctness must hold across wrap-around of the buffer.", "anchors": ["lib/src/serialise.rs: decompressed_codes, decompressed_block", "lib/src/circles.rs"]}
{"id": "C33", "title": "Decompression composes over blocks", "statement": "Decompressing blocks one after another with a shared dictionary gives the same output and dictionary as decompressing the concatenated code list at once.", "quantifier": "every split of every code list", "why_tests_cant": "Every split point.", "anchors": ["lib/src/serialise.rs: decompressed_block, decompressed_codes"]}
{"id": "C34", "title": "Decompressed size is the sum of emitted bytes", "statement": "Whenever decompression succeeds the number of bytes written equals the sum over codes of the bytes each code says it emits.", "quantifier": "every code list and dictionary", "why_tests_cant": "Every code list.", "anchors": ["lib/src/lib.rs: Code::emitted_bytes", "lib/src/serialise.rs: decompressed_codes"]}
{"id": "C35", "title": "A failing output never corrupts what was already written", "statement": "If the output fails after any number of bytes, or a bad reference is met, the bytes written so far are a prefix of what would have been written, and the failure is reported.", "quantifier": "every code list, every failure point of the output", "why_tests_cant": "Every crash point of the sink.", "anchors": ["lib/src/serialise.rs: decompressed_codes, decompressed_block", "lib/src/circles.rs: CircularBuffer::copy"]}
{"id": "C36", "title": "Trace serialisation round-trips", "statement": "Reading the serialisation of any list of trace entries (with well formed references) gives the same list; the self-check in the serialiser never panics.", "quantifier": "every trace list of any length", "why_tests_cant": "Runs longer than 32767 correct guesses split; every length matters.", "anchors": ["lib/src/serialise_trace.rs: write, read, verify"]}
{"id": "C37", "title": "Reading a trace never panics and only makes well formed references", "statement": "Reading any byte string as a trace returns a list or an error, never panics, and every reference in it has distance 1..=32768 and run 3..=258.", "quantifier": "every byte string", "why_tests_cant": "Every input.", "anchors": ["lib/src/serialise_trace.rs: read"]}
{"id": "C38", "title": "Truncating a serialised trace never invents entries", "statement": "Reading any prefix of a serialised trace either fails or returns a prefix of the original list.", "quantifier": "every trace list, every truncation point", "why_tests_cant": "Every truncation point.", "anchors": ["lib/src/serialise_trace.rs: read, write"]}
{"id": "C39", "title": "Truncating a serialised trace is detected", "statement": "Reading a strict prefix of a serialised trace returns an error.", "quantifier": "every trace list, every truncation point", "why_tests_cant": "False: end of file inside a two byte field is treated as a clean end.", "anchors": ["lib/src/serialise_trace.rs: read"]}
{"id": "C40", "title": "Serialised traces are small", "statement": "A serialised trace takes at most 3 bytes per entry, and n consecutive correct guesses take 2*ceil(n/32767) bytes.", "quantifier": "every trace list", "why_tests_cant": "Every length.", "anchors": ["lib/src/serialise_trace.rs: write"]}
{"id": "C41", "title": "Restoring a trace reproduces the codes", "statement": "For every configuration, data and code list that decompresses to that data (after a dictionary preroll), restoring the trace of the codes gives the same codes.", "quantifier": "every configuration, preroll, data and code list consistent with the data", "why_tests_cant": "The main contract of the trace format; it fails with a non-empty preroll when a literal is mispredicted, which the (ignored) tests hint at.", "anchors": ["lib/src/trace.rs: trace, restore, validate", "lib/src/technique.rs: Technique::byte_at"]}
{"id": "C42", "title": "Tracing a consistent code list never panics and has one entry per code", "statement": "Tracing a code list that emits exactly the data succeeds, with exactly one trace entry per code, whatever the preroll and configuration.", "quantifier": "every configuration, preroll, data and consistent code list", "why_tests_cant": "The panic 'the guesser guessed more than there actually are' must be unreachable for all data.", "anchors": ["lib/src/trace.rs: trace, shared_prefix", "lib/src/lookahead.rs", "lib/src/technique.rs: Scanner"]}
{"id": "C43", "title": "The gzip tracer never panics without a preroll", "statement": "Tracing codes at any gzip level 1..=9 with an empty preroll succeeds for every code list that emits exactly the data with correct literals, including its internal validation and serialisation check.", "quantifier": "every level, data and consistent code list", "why_tests_cant": "All data.", "anchors": ["lib/src/tracer.rs: try_gzip", "lib/src/trace.rs: validate", "lib/src/serialise_trace.rs: verify"]}
{"id": "C44", "title": "An all-correct trace restores to codes that decompress to the data", "statement": "Restoring a trace made only of correct guesses yields codes that decompress, after the preroll, to exactly the data, for every configuration.", "quantifier": "every configuration, preroll of at most 32768 bytes and data", "why_tests_cant": "Says every guess ever made is a valid encoding of the data at hand.", "anchors": ["lib/src/trace.rs: restore", "lib/src/lookahead.rs", "lib/src/all_refs.rs: AllRefs::at"]}
{"id": "C45", "title": "Guesses are never empty and never run past the data", "statement": "At every position before the end of the data a guesser returns at least one code, and the guessed codes together emit no more bytes than remain.", "quantifier": "every configuration, preroll, data, position and obscured set", "why_tests_cant": "Each lookahead searches ahead of the current position; boundary of every data set.", "anchors": ["lib/src/lookahead.rs: Lookahead::lookahead", "lib/src/technique.rs: Scanner::codes"]}
{"id": "C46", "title": "Every candidate reference is a real match", "statement": "Every reference proposed at a position has distance 1..=32768, run 3..=258, does not run past the data, and the bytes it copies equal the data there.", "quantifier": "every preroll, data, position, limit and obscured set", "why_tests_cant": "Hash collisions, overlap and window boundaries for all data.", "anchors": ["lib/src/all_refs.rs: AllRefs::at, possible_run_length_at"]}
{"id": "C47", "title": "Candidate runs are maximal", "statement": "The run of each proposed reference is the longest possible match at that distance, capped by 258 and the remaining data.", "quantifier": "every preroll, data, position, limit and obscured set", "why_tests_cant": "All data, including self-overlapping matches checked with a modulus.", "anchors": ["lib/src/all_refs.rs: possible_run_length_at"]}
{"id": "C48", "title": "Candidate search is complete and nearest first", "statement": "With no obscured positions and fewer hash-equal earlier positions than the limit, the proposed references are exactly those to every earlier position other than position zero with the same three bytes within 32768, nearest first.", "quantifier": "every preroll, data and position", "why_tests_cant": "The chain structure must be right for all data and hash collisions.", "anchors": ["lib/src/all_refs.rs: AllRefs::at", "lib/src/back_map.rs: BackMap::from_window, Chain::next"]}
{"id": "C49", "title": "Position lookup chains terminate and list exactly the equal-hash positions", "statement": "Looking up a three byte key that occurs at a position after the first lists, in strictly decreasing order and without repetition, exactly the non-zero positions whose three bytes hash alike.", "quantifier": "every preroll and data, every key occurring at a non-zero position", "why_tests_cant": "Linked through array indices with 0 as terminator; for all data.", "anchors": ["lib/src/back_map.rs: BackMap::from_window, BackMap::get, Chain::next"]}
{"id": "C50", "title": "The first byte is never referenced", "statement": "No guess at any position refers to the very first byte of the window (gzip's first-byte behaviour).", "quantifier": "every configuration, preroll, data and position", "why_tests_cant": "All data.", "anchors": ["lib/src/back_map.rs: Chain::next", "lib/src/all_refs.rs: AllRefs::at"]}
{"id": "C51", "title": "The picker returns the first candidate of maximal run, or the first reaching the cap", "statement": "Choosing among candidates returns the first one whose run is at least the cap if there is one, otherwise the first of maximal run; nothing only when there are no candidates.", "quantifier": "every candidate list and cap", "why_tests_cant": "All lists.", "anchors": ["lib/src/iters.rs: capped_max_by", "lib/src/picker.rs: longest"]}
{"id": "C52", "title": "Far length-three matches are dropped", "statement": "With the far-threes rule the chosen reference, if any, has run greater than 3 or distance at most 4096, and it is the same one the longest rule picks.", "quantifier": "every candidate list and cap", "why_tests_cant": "All lists.", "anchors": ["lib/src/picker.rs: drop_far_threes"]}
{"id": "C53", "title": "Lookahead gives up once a long enough run is already found", "statement": "When a run of at least the configured abort length has already been found, the lookahead search is skipped; when the run found is shorter, the search is performed.", "quantifier": "every configuration with lookahead, position and previous run", "why_tests_cant": "The comparison in the code is the other way round; no test drives this path.", "anchors": ["lib/src/technique.rs: Scanner::best_candidate_better_than", "lib/src/wams.rs: LookaheadConfig"]}
{"id": "C54", "title": "Lazy lookahead emits literals then one strictly better reference", "statement": "The lazy (gzip) lookahead terminates and returns k literals followed by one reference, or one literal; the literals are the data bytes at those positions and each skipped candidate was strictly shorter than the next.", "quantifier": "every looker (search function) and position", "why_tests_cant": "Loop termination and shape for every search function.", "anchors": ["lib/src/lookahead.rs: gzip"]}
{"id": "C55", "title": "Obscured positions are exactly those strictly inside long runs", "statement": "Filtering by obscured runs removes exactly the positions strictly inside some run, keeping the order of the rest; runs are recorded exactly for references longer than the configured limit.", "quantifier": "every position list, every run list, every feedback history", "why_tests_cant": "All histories.", "anchors": ["lib/src/obscure.rs: obscure, contains", "lib/src/technique.rs: Scanner::feedback"]}
{"id": "C56", "title": "Gzip header parsing returns exactly the bytes it consumed", "statement": "On success the returned bytes followed by the unread input are the original input, and the returned bytes are an RFC 1952 header (magic, method 8, no reserved flags, optional extra, name, comment and checksum fields in that order).", "quantifier": "every byte string", "why_tests_cant": "All flag combinations and field lengths.", "anchors": ["lib/src/gzip.rs: discard_header, read_null_terminated"]}
{"id": "C57", "title": "Every RFC 1952 header is accepted", "statement": "Parsing any RFC 1952 header followed by anything succeeds and returns exactly that header.", "quantifier": "every header and every continuation", "why_tests_cant": "All flag combinations and field lengths.", "anchors": ["lib/src/gzip.rs: discard_header"]}
{"id": "C58", "title": "Hash filters hash exactly the bytes that passed through", "statement": "After any history of reads (writes), the hash reported is that of the concatenation of the bytes the reads returned (the writes accepted), and the data passes through unchanged.", "quantifier": "every chunking, including short reads/writes and errors", "why_tests_cant": "All chunkings.", "anchors": ["lib/src/filter.rs: FilterRead, FilterWrite"]}
{"id": "C59", "title": "Rsync chunking loses and invents nothing", "statement": "Repeatedly taking chunks until an empty one yields non-empty chunks whose concatenation is the input; every chunk but the last has between 8192 and 65536 bytes.", "quantifier": "every byte string", "why_tests_cant": "All inputs, all boundaries.", "anchors": ["rezippers/src/zero.rs: take_rsync, run"]}
{"id": "C60", "title": "Rsync chunk boundaries are content defined", "statement": "A chunk ends at the first length of at least 8192 at which the sum of its last 8192 bytes is divisible by 4096 (or at 65536 bytes, or at end of input). If the source fails, a chunk that is complete before the failure is returned and the failure is left for later; otherwise the failure is returned.", "quantifier": "every byte string, with or without an error after it", "why_tests_cant": "Rolling sum with wrapping arithmetic for all inputs.", "anchors": ["rezippers/src/zero.rs: take_rsync"]}
{"id": "C61", "title": "The stored-only rewrite of a gzip file decompresses to the same data", "statement": "Reading the output of the zero tool with this crate's own header reader, parser and decompressor gives the same header and data.", "quantifier": "every non-empty decompressed content", "why_tests_cant": "False when a chunk has exactly 65536 bytes: its length is truncated to zero. No test exists.", "anchors": ["rezippers/src/zero.rs: run", "rezippers/src/cat.rs: run"]}
{"id": "C62", "title": "cat outputs the inflation of the file", "statement": "On every gzip file whose header and deflate stream are valid, cat prints exactly the LZ77 expansion of all blocks in order; on any error the printed bytes are a prefix of the decodable part.", "quantifier": "every byte string", "why_tests_cant": "All inputs.", "anchors": ["rezippers/src/cat.rs: run"]}
{"id": "C63", "title": "End to end: data plus serialised traces recreate the compressed stream", "statement": "For a parsed deflate stream with one compressed block, the decompressed data, the block framing and the serialised trace are enough to reproduce the original bytes exactly (when the length-258 encoding is the usual one).", "quantifier": "every such stream, every gzip level", "why_tests_cant": "Composition of all layers, for all inputs.", "anchors": ["lib/src/trace.rs", "lib/src/serialise_trace.rs", "lib/src/serialise.rs", "lib/src/parse.rs"]}
{"id": "C64", "title": "Three-step lookahead defers only for a strictly better match", "statement": "When the three-step lookahead emits k literals before a reference, that reference is at least k longer than the candidate at the first position; a first candidate longer than 3 is emitted at once. The literals are the bytes at their positions, and the function never fails unless the search does.", "quantifier": "every search function, every position", "why_tests_cant": "The chain of comparisons depends on matches at up to four positions.", "anchors": ["lib/src/lookahead.rs:55-101"]}
{"id": "C65", "title": "Mean literal length is a rounded mean", "statement": "For every literal code, with n used symbols whose code lengths add up to T, the mean literal length is the one number m with (n+1)(m-1) <= T < (n+1)m; it is between 1 and 15, so it never truncates when stored in a u8.", "quantifier": "every pair of code length lists that form trees of at most 288 symbols", "why_tests_cant": "The mean depends on all the lengths together; tests look at one or two codes.", "anchors": ["lib/src/serialise.rs: Lengths::new, Lengths::mean_literal_len"]}
{"id": "C66", "title": "The presets are gzip's", "statement": "For levels 1 to 9 the configuration has the numbers of gzip's configuration table; levels 1 to 3 limit insertion, levels 4 to 9 drop far matches of length three; any other level panics; the default is level 6.", "quantifier": "every level", "why_tests_cant": "Every level and every field at once; a single wrong number silently makes traces longer.", "anchors": ["lib/src/wams.rs", "lib/src/technique.rs: Config"]}
{"id": "C67", "title": "The index hash is gzip's, with known collisions", "statement": "The hash of three bytes equals gzip's UPDATE_HASH with 15 bits and shift 5; two triples collide exactly when they agree on three given groups of five bits.", "quantifier": "every two triples of bytes", "why_tests_cant": "2^48 pairs of triples.", "anchors": ["lib/src/all_refs.rs:145-157"]}
{"id": "C68", "title": "The candidate search, exactly", "statement": "The candidates offered at a position are, in order, with distance and length: the positions before it other than 0 whose three bytes have the same hash and that are not inside a hidden run, nearest first, at most `limit` of them, of which those at most 32768 back with the same three bytes; the length is that of the common prefix, at most 258. With fewer than three bytes left there are none.", "quantifier": "every preroll, data, limit, position and set of hidden runs", "why_tests_cant": "The index, the hiding and the cuts interact; tests look at short strings.", "anchors": ["lib/src/all_refs.rs"]}
{"id": "C69", "title": "The guess of a greedy configuration, exactly", "statement": "At every position inside the data a greedy configuration guesses exactly one code: the first of the compared candidates that is long enough to stop the search, or the first of the longest, unless it is dropped as a far three; and otherwise the byte at the position.", "quantifier": "every configuration that does not look ahead, every preroll, data and scanner state", "why_tests_cant": "Depends on the whole window and history.", "anchors": ["lib/src/technique.rs", "lib/src/picker.rs", "lib/src/lookahead.rs:21-29"]}
{"id": "C70", "title": "Tracing, exactly", "statement": "With a gzip preset, on codes that emit the data the trace has one entry per code: Correct exactly where the code is the guess given the codes before it, and the code itself elsewhere.", "quantifier": "every level, data and list of codes that emits the data", "why_tests_cant": "Quantifies over all code lists; each guess depends on all codes before it.", "anchors": ["lib/src/trace.rs", "lib/src/technique.rs"]}
{"id": "C71", "title": "Taking readers and writers apart never loses bits", "statement": "After writing any bits, the writer can be turned back into its inner writer only on a byte boundary, and then the bytes hold exactly those bits; otherwise it panics. After reading n bits, the reader can be turned back only on a byte boundary and gives exactly the bytes not read; otherwise it panics.", "quantifier": "every list of bits; every byte string and number of bits read", "why_tests_cant": "All lengths and positions.", "anchors": ["lib/src/bit.rs: BitWriter::into_inner, BitReader::into_inner"]}
{"id": "C72", "title": "Bit vectors are equal exactly when they hold the same bits", "statement": "Two bit vectors compare equal (derived PartialEq) exactly when they iterate to the same bits, whatever sequences of push and pop made them.", "quantifier": "every two histories of push and pop", "why_tests_cant": "Two arbitrary histories.", "anchors": ["lib/src/bit.rs: BitVec"]}
{"id": "C73", "title": "The trace encoding is the shortest that reads as the trace", "statement": "Whatever bytes a trace was read from, writing that trace again never takes more bytes.", "quantifier": "every byte string that reads as a trace", "why_tests_cant": "All encodings of a trace, including ones the writer never makes.", "anchors": ["lib/src/serialise_trace.rs: write, verify, read"]}
{"id": "C74", "title": "Restoring any trace, not only one just made", "statement": "Restoring from a preroll, data and any trace gives codes that cover the data, each starting inside it (only the last may run over its end, if the trace says so), and that agree with the trace entries used; entries left over are ignored. A literal that was not guessed is looked up in the data at an index counted from the start of the preroll. It panics exactly when the entries run out before the data does or, with a preroll, when a literal is looked up beyond the data. For the presets of gzip's levels the codes are those that an independent description of gzip's search gives, entry by entry.", "quantifier": "every configuration, preroll, data and trace", "why_tests_cant": "Quantifies over traces that the tracer never produces, such as damaged files.", "anchors": ["lib/src/trace.rs: restore", "lib/src/technique.rs"]}
{"id": "C75", "title": "The dump shows every block, and only the stored contents are hidden", "statement": "For a gzip file with valid header the dump prints, per block and in order, its number, its kind and header bits or stored length, and one line per code; files dumped alike have the same blocks up to the contents of stored blocks. A damaged stream prints the blocks before the damage and then fails; without a gzip header nothing is printed.", "quantifier": "every header, stream and trailing bytes", "why_tests_cant": "All files; injectivity of a printed form quantifies over pairs.", "anchors": ["rezippers/src/dump.rs"]}
{"id": "C76", "title": "Debug output is unambiguous", "statement": "Different codes, traces, lists of these and bit strings are printed differently by their Debug implementations; a bit vector shows its length and the bits it holds, whatever has been pushed and popped.", "quantifier": "every pair of codes, traces, lists and bit vectors, every history of pushes and pops", "why_tests_cant": "Quantifies over pairs; decimal numbers of any size.", "anchors": ["lib/src/lib.rs: Code, Trace, Ref Debug", "lib/src/bit.rs: BitVec Debug"]}
{"id": "C77", "title": "Bounded blow-up", "statement": "Decompressing never prints more than 1032 bytes per byte of input, whatever the input; and no smaller factor holds.", "quantifier": "every input, valid or not; for tightness every n", "why_tests_cant": "All inputs, and a family of streams of every size.", "anchors": ["rezippers/src/cat.rs", "lib/src/lib.rs: decompressed_block", "lib/src/parse.rs"]}
{"id": "C78", "title": "A cut file gives a beginning of the whole", "statement": "The blocks read from a cut stream are the first blocks of the whole stream; cat and dump of a cut file print a beginning of what they print for the whole file.", "quantifier": "every file and every cut", "why_tests_cant": "Every position to cut, including inside headers and codes.", "anchors": ["lib/src/parse.rs: BlockIter", "rezippers/src/cat.rs", "rezippers/src/dump.rs"]}
{"id": "C79", "title": "Compressing to an output that fails", "statement": "If the output accepts only r bytes, compressing blocks to it leaves exactly the first r bytes of what an output without limit would get; success is reported only when everything fitted, and otherwise the output's error is reported.", "quantifier": "every list of blocks, every r, every earlier output", "why_tests_cant": "Every failure point of every compressed stream, including streams that cannot be compressed.", "anchors": ["lib/src/serialise.rs: compressed_block", "lib/src/bit.rs: BitWriter"]}
{"id": "C80", "title": "The zero tool only replaces the compressed stream", "statement": "The zero tool keeps the header, writes one stored block per chunk and the checksum and length of the data. Its output depends only on the header and the data, not on how the data was compressed, and running it on its own output gives the same file again.", "quantifier": "every gzip file with data that has no chunk of 65536 bytes, every conforming decompressor", "why_tests_cant": "All files and all ways to compress the same data; a relation between two runs.", "anchors": ["rezippers/src/zero.rs: run"]}
{"id": "C81", "title": "A failed zero run never passes for a complete file", "statement": "If the input is damaged the zero tool reports it, and what it has written has no block marked as last, so that cat fails on it. If the output fails, it has exactly the beginning of what would have been written, and the error of a write that fails is reported (which writes reach the output at once, and what happens to the others, is C113).", "quantifier": "every input and every point of failure of input or output; for the last block mark being decisive to cat, data without a chunk of 65536 bytes (C61)", "why_tests_cant": "Every failure point of every file.", "anchors": ["rezippers/src/zero.rs: run, take_rsync"]}
{"id": "C82", "title": "The zero tool adds little", "statement": "The stored-only file is longer than header, data and trailer by five bytes per chunk, with at most one chunk per 8192 bytes, and one more.", "quantifier": "all data", "why_tests_cant": "A bound for all sizes and contents.", "anchors": ["rezippers/src/zero.rs: RSYNC_MIN, run"]}
{"id": "C83", "title": "cat reads gzip files as RFC 1952 says", "statement": "cat succeeds exactly on the files of RFC 1952 (one or more members, each with the right checksum and length) and prints the data of all members.", "quantifier": "every file", "why_tests_cant": "Both directions over all files.", "anchors": ["rezippers/src/cat.rs: run"]}
{"id": "C84", "title": "The zero tool writes valid gzip files", "statement": "On a gzip member the zero tool writes a gzip member (RFC 1952, with the right CRC-32 and length) that holds the same data, with the same header and trailer.", "quantifier": "every member with non-empty data", "why_tests_cant": "All data; the failing sizes are rare.", "anchors": ["rezippers/src/zero.rs: run"]}
{"id": "C85", "title": "The whole-file round trip, exactly", "statement": "Decompressing and recompressing a file block by block, and comparing with the file and an expected length, succeeds exactly for files made of a gzip header, a deflate stream written with the standard length symbols and without stored blocks whose two length bytes differ, with all references inside the window, and any bytes after it, when the expected length is that of the data. On every other input it panics; it never hangs.", "quantifier": "every byte string and expected length", "why_tests_cant": "The test runs on six files; the condition concerns all files.", "anchors": ["lib/src/lib.rs: round_trip"]}
{"id": "C86", "title": "Tracing with a preroll, exactly", "statement": "At gzip level 1 to 9, for any preroll, data and codes that emit as many bytes as the data and whose distances are within 1 to 32768, the tracer returns the trace of the reference guesser if every mispredicted literal equals the byte of the data at its index counted from the start of the preroll, and panics otherwise.", "quantifier": "all levels, prerolls, data and codes", "why_tests_cant": "Depends on every combination of preroll and misprediction.", "anchors": ["lib/src/tracer.rs: try_gzip", "lib/src/technique.rs: byte_at"]}
{"id": "C87", "title": "Tracing a whole file", "statement": "Tracing every block of a gzip file, with the last 32 KiB before it as preroll, returns exactly the traces of the reference guesser, one list per block, or panics. It succeeds on every file of one compressed block; with more blocks exactly if no literal is mispredicted at a place where the wrong lookup of C86 matters. The build profile does not matter.", "quantifier": "every byte string, every level", "why_tests_cant": "All files; the tests use files of one block.", "anchors": ["lib/tests/tracing_size.rs: run_gzip", "lib/src/circles.rs: vec"]}
{"id": "C88", "title": "Recognising a gzip level", "statement": "The check that a file was produced by a gzip level passes exactly for files whose every code in every block is the one the reference guesser predicts, and panics for all others.", "quantifier": "every byte string, every level", "why_tests_cant": "Both directions over all files.", "anchors": ["lib/tests/tracing_size.rs: try_gzip"]}
{"id": "C89", "title": "The guesser's own codes", "statement": "For every configuration, preroll, data and hash limit there is exactly one list of codes emitting as many bytes as the data whose trace is correct throughout. It is what a trace of correct entries restores to, however many more entries there are, and it decompresses to the data.", "quantifier": "all configurations, prerolls, data, limits and code lists", "why_tests_cant": "Existence and uniqueness over all code lists for all data.", "anchors": ["lib/src/tracer.rs: trace, restore", "lib/src/technique.rs: codes"]}
{"id": "C90", "title": "Recognised files exist and are unique", "statement": "For every data, every level 1 to 9 and every gzip header there is a file with that header and data that the level check accepts and that round trips. Two accepted files with the same data cut into blocks of the same sizes have the same codes in every block.", "quantifier": "all data, levels, headers and pairs of files", "why_tests_cant": "Existence for all data and uniqueness over all pairs of files.", "anchors": ["lib/tests/tracing_size.rs: try_gzip", "lib/tests/round_trip.rs: round_trip"]}
{"id": "C91", "title": "The trace example", "statement": "The example program trace prints, for a gzip file, one group of lines per block with the size of the serialised trace and one line per mispredicted code, for level 1 and the default level, exactly if the file decompresses, mispredicted literals agree as in C86 and in every compressed block the window before it is at most five bytes longer than the block's last code. Every file of one block that decompresses is shown. Every file that decompresses and has a non-empty compressed block after 264 bytes or more makes it panic.", "quantifier": "every byte string", "why_tests_cant": "There is no test of the example; the outcome depends on all files.", "anchors": ["lib/examples/trace.rs: main, print, try_trace"]}
{"id": "C92", "title": "How much preroll a trace needs", "statement": "A trace depends on no more than the 32769 bytes before the data: for every configuration, search limit and code list, adding bytes in front of a preroll of at least 32769 bytes leaves the result of tracing unchanged, panics included. With the 32768 bytes that the window buffer keeps, a gzip preset's trace of codes of the right size agrees with the one made with all of the history in every entry but perhaps the first, and in all entries if there were no more bytes; at every level there is a valid case in which the first entry differs.", "quantifier": "all configurations, prerolls, data, limits and code lists; all gzip levels", "why_tests_cant": "Independence of everything beyond the window, for histories of any length.", "anchors": ["lib/src/all_refs.rs: with_sixteen, at", "lib/src/trace.rs: trace", "lib/src/circles.rs: vec"]}
{"id": "C93", "title": "An edit changes a bounded number of chunks", "statement": "There is a number k such that inserting one byte anywhere into any data makes at most k new chunks, so that the rest of the rsync friendly file stays the same.", "quantifier": "all data, all places and all bytes inserted", "why_tests_cant": "A bound over all data; tests can only show examples that behave.", "anchors": ["rezippers/src/zero.rs: take_rsync"]}
{"id": "C94", "title": "Tracing any codes", "statement": "The tracer accepts a list of codes for given data, whatever the codes and whether or not they stand for the data, exactly if they reach the end of the data with their last code and not before, all references are at most 32768 back and no literal recorded as a miss after a hint differs from the data; then the result is the trace written down by the reference for the level. Codes that run over the end of the data are accepted. In every other case it panics: it never returns an error and never loops. In particular codes that stand for less than the data and codes that go on after the end of the data panic.", "quantifier": "all levels, configurations, prerolls, data and code lists, related or not", "why_tests_cant": "All pairs of data and codes, most of which no compressor makes.", "anchors": ["lib/src/tracer.rs: try_gzip, try", "lib/src/trace.rs: trace, restore, validate", "lib/src/serialise_trace.rs: verify"]}
{"id": "C95", "title": "What the fuzz targets check", "statement": "With any correct compressor in place of gzip and flate2, the fuzz target exec_gzip ends normally exactly if the data is empty, or the first block is a stored one, or its codes are the only ones level 1 would have made for all of the data; the target trace_gzip_1 also if the first block stands for all data and gzip writes different bytes. In all other cases they panic; in particular for every compressor that ends its first compressed block before the end of the data.", "quantifier": "all data, all compressors that write valid streams", "why_tests_cant": "It says what no run of the fuzzer can find out: for which behaviour of the other program it stays silent or raises an alarm.", "anchors": ["lib/fuzz/fuzz_targets/exec_gzip.rs: run", "lib/fuzz/fuzz_targets/trace_gzip_1.rs: run"]}
{"id": "C96", "title": "Input may arrive in any pieces", "statement": "Given a reader that delivers its bytes in pieces of any size, with interrupted calls in between, cat, dump, the header reader, the block iterator and the trace reader give the result for the whole byte string. If the reader fails after some bytes, the blocks and the output are those for these bytes, and the reader's error is reported exactly where these bytes alone would be reported as cut short. A trace is never returned when its reader failed with an error other than end of input.", "quantifier": "all sequences of pieces, interruptions and failures, all inputs and outputs", "why_tests_cant": "Tests read from memory; the ways in which a pipe or socket can cut the same input are exponentially many.", "anchors": ["lib/src/bit.rs: BitReader", "lib/src/parse.rs: BlockIter", "lib/src/gzip.rs: discard_header", "lib/src/serialise_trace.rs: read", "rezippers/src/cat.rs: run", "rezippers/src/dump.rs: run"]}
{"id": "C97", "title": "Nothing is read ahead", "statement": "Reading the header and then the blocks of a stream takes exactly the bytes of the header and of the stream from the reader, whatever the pieces in which it delivers them: the bytes after the stream can be read from it afterwards, and its end or failure is still to come. Read through the hash filter, the hash is that of exactly the header and the stream.", "quantifier": "all valid headers, all streams, all bytes after them, all ways of delivering them, all hashes", "why_tests_cant": "The piece boundaries relative to the end of the stream are unbounded in number, and reading from memory hides reading ahead.", "anchors": ["lib/src/bit.rs: BitReader", "lib/src/parse.rs: BlockIter", "lib/src/gzip.rs: discard_header", "lib/src/filter.rs: FilterRead"]}
{"id": "C98", "title": "Output taken in any pieces", "statement": "What cat, the compressor, the decompressor and zero leave in their output depends only on how many bytes it takes before it fails, not on the pieces in which it takes them nor on interruptions. Nothing is written twice, lost or reordered at a short write. If the output fails, it has exactly the bytes it took before, the first of those that would have been written, and its own error is reported; an error of the input or of the stream is reported unchanged.", "quantifier": "all files and blocks, all ways of delivering the file, all sequences of short writes, interruptions and failures of the output", "why_tests_cant": "Tests write to memory, which takes everything at once; the splits of the output into short writes and the point of a failure are unbounded in number.", "anchors": ["lib/src/bit.rs: BitWriter", "lib/src/circles.rs: CircularBuffer", "lib/src/serialise.rs: decompressed_block, compressed_block", "rezippers/src/cat.rs: run", "rezippers/src/zero.rs: run"]}
{"id": "C99", "title": "The text of a code tree is its code table", "statement": "The Debug text of a code tree has one line for each symbol that has a code, and no others. The line has the code and the symbol; the lines are in the order of the codes. For a tree built from code lengths the codes are the canonical codes of RFC 1951. Different trees have different texts.", "quantifier": "all trees; all lists of code lengths that CodeTree::new accepts", "why_tests_cant": "The number of trees and of code length lists is unbounded; no test formats a tree.", "anchors": ["lib/src/code_tree.rs: Debug for CodeTree, dump"]}
{"id": "C100", "title": "The text of the index lists the positions of every hash", "statement": "The Debug text of AllRefs has a line for exactly those of the 32768 hashes that occur at a position after 0 of the indexed data, in the order of the hashes. The line lists all these positions in ascending order. Position 0 is never shown, though it is indexed.", "quantifier": "all prerolls, data and limits", "why_tests_cant": "The data is unbounded; no test formats the index.", "anchors": ["lib/src/all_refs.rs: Debug for AllRefs, with_sixteen", "lib/src/back_map.rs: Debug for BackMap"]}
{"id": "C101", "title": "The text of a key tells its bytes", "statement": "The Debug text of a key is its three bytes in quotes if all are visible ASCII, otherwise three character literals. Two keys never have the same text, also if something follows the text.", "quantifier": "all keys", "why_tests_cant": "There are 2^24 keys and 2^48 pairs of keys.", "anchors": ["lib/src/all_refs.rs: Debug for Key, normal_char"]}
{"id": "C102", "title": "pretty_print prints every bit once, eight on a line", "statement": "pretty_print prints the bits that iter yields, in order, as 1 and 0. Every line but the last has eight, the last has one to eight; nothing is printed for an empty vector.", "quantifier": "all bit vectors that iter can walk", "why_tests_cant": "The length is unbounded, and the tests cannot see what is printed.", "anchors": ["lib/src/bit.rs: pretty_print, BitVec::iter"]}
{"id": "C103", "title": "The collision table is complete", "statement": "The collisions example prints one line for each of the 32768 hash values. The line has the number of visible ASCII triples with that hash, which is from 8 to 27, and these triples in ascending order. The two tests that leave out small sets never leave out anything: they leave out a single triple, and two that differ in the first byte only. None of this depends on the iteration order of the maps. An output that takes only part of the lines gets the first bytes, and the program panics.", "quantifier": "all hash values, all iteration orders", "why_tests_cant": "The order of a HashMap differs from run to run; the table has 857375 triples and nobody checks it.", "anchors": ["lib/examples/collisions.rs: main", "lib/src/all_refs.rs: sixteen_hash_16"]}
{"id": "C104", "title": "Recompression is a normal form", "statement": "If the blocks of a stream can be recompressed and it has no stored block whose two length bytes differ, then the result is a stream of the same blocks, whatever follows it; recompressing it again changes nothing; two streams give the same result exactly if they have the same blocks; the result is the stream itself exactly if it uses the standard length symbols; and cat gives the same output for a file with either of the two.", "quantifier": "all streams, headers and trailers", "why_tests_cant": "The tests recompress six files once; idempotence and uniqueness are about all streams and pairs of streams.", "anchors": ["lib/src/serialise.rs: compressed_block", "lib/src/parse.rs: parse_deflate", "lib/src/lib.rs: round_trip"]}
{"id": "C105", "title": "The documented fixed tree is the one in use", "statement": "Every line of huffman-fixed.txt can be read as a code and a symbol, and each of the 288 symbols has one line. The file describes the tree used for fixed blocks: the bits of a documented code are read as the documented symbol, and when a symbol is read, the bits are those documented for it. The lines are those of the Debug text of the tree in the same order, right-aligned, except for the spelling of three symbols.", "quantifier": "all lines of the file, all bit streams", "why_tests_cant": "No test reads the file; that nothing else is ever read is about all bit streams.", "anchors": ["huffman-fixed.txt", "gzip.md: The fixed tree", "lib/src/huffman.rs: FIXED_LENGTH_TREE", "lib/src/code_tree.rs: decode_symbol, Debug for CodeTree"]}
{"id": "C106", "title": "The hard example writes lines of visible characters for ever", "statement": "Whatever the random number generator gives, the hard example writes lines of seven visible ASCII characters and a line end, never ends by itself and never fails while its output is accepted. An output that stops accepting data has exactly the first part of this text, and then the example panics. Every text of this form can come up.", "quantifier": "all sequences of random numbers, all sizes of the output", "why_tests_cant": "The program does not end and its text is unbounded.", "anchors": ["lib/examples/hard.rs: main"]}
{"id": "C107", "title": "Dump into a full output gives the first part of the text and panics", "statement": "If the output takes the whole text of the dump, it gets it and the outcome is that of the input. Otherwise it gets the first part of the text in UTF-8, as many bytes as it takes, and the tool panics, also where a damaged input would have been reported later.", "quantifier": "all inputs, all sizes of the output", "why_tests_cant": "The tool has no tests; the claim is about every input and every point of failure.", "anchors": ["rezippers/src/dump.rs: run, print"]}
{"id": "C108", "title": "The commands read a file or standard input, and can be piped", "statement": "A command with a file name does what it does with the contents of the file on standard input; with a file that cannot be opened it gives an error and writes nothing. Unless the data is empty or has a chunk of 65536 bytes, zero FILE | cat writes what cat FILE writes, the data, and zero FILE | zero what zero FILE writes. dump FILE writes the text of the blocks, and zero FILE | dump that of one stored block for each chunk.", "quantifier": "all file systems, gzip files and commands, all decompressors that are correct", "why_tests_cant": "The program has no tests; the claim is about pairs of runs on every file.", "anchors": ["rezippers/src/main.rs: main, open_file", "rezippers/src/zero.rs: run", "rezippers/src/cat.rs: run", "rezippers/src/dump.rs: run"]}
{"id": "C109", "title": "A release build writes the same, and hangs on a distance out of range", "statement": "Without overflow checks, compressed_block does what it does with them, with the same bytes, errors and panics, as long as they find no overflow. For a reference further than 32768 after codes that can be written, where a debug build panics, a release build never stops. For a distance of zero it panics for want of the distance symbol 255, or gives the error for a block without distances.", "quantifier": "all blocks, all states of the writer, any number of iterations", "why_tests_cant": "A test runs in one build profile and on some blocks, and cannot observe that a run never ends.", "anchors": ["lib/src/huffman.rs: encode_distance", "lib/src/serialise.rs: compressed_block, encode_distance"]}
{"id": "C110", "title": "The text of the trace example is complete and tells its lines", "statement": "Whatever the file, the example `trace` writes the text of its lines in order, each with a line end, in the documented form of each kind of line, before it ends with the outcome of the file; no line fails to format. An output that takes only some bytes gets the first ones and the program panics. If two files have the same text, they have the same lines: numbers, trees, sizes, guesses, codes, configurations, hidden runs and positions, up to bytes that the quoting shows alike and bytes that make the same index. The text of any configuration, also of one that the example does not print, is its fields in order with their names and values.", "quantifier": "all files, both build profiles, all outputs, every way to quote bytes in which no text is the start of another one", "why_tests_cant": "The example has no tests; that the text of all lines can be read back is a statement about all pairs of files.", "anchors": ["lib/examples/trace.rs: main, try_trace", "lib/src/technique.rs: Config, Scanner", "lib/src/wams.rs: WamsOptimisations, LookaheadConfig", "lib/src/all_refs.rs: Debug for AllRefs"]}
{"id": "C111", "title": "The trace example shows the bytes around a place without ambiguity", "statement": "The string that the example `trace` shows for the bytes around a place has the characters of the bytes, where they are UTF-8, and U+FFFD for each maximal subpart that is not; text is shown as it is. The quoted form is a Rust string literal that reads back as that string whatever follows it, never holds a line end, and has only characters that may be shown or printable ASCII; characters that may be shown are themselves. So two files with the same output have the same lines, with the same strings around each place.", "quantifier": "all bytes, all strings, every table of which characters are shown as they are, all pairs of files, both build profiles", "why_tests_cant": "The example has no tests; that a reader of the output can tell all strings from each other, and where each ends, is a statement about all pairs of strings.", "anchors": ["lib/examples/trace.rs: try_trace"]}
{"id": "C112", "title": "A byte repeated is guessed as the documentation shows", "statement": "For a byte repeated n times, the codes that the check for gzip levels 4 to 9 predicts throughout are exactly two literals, as many references one back of 258 bytes as fit, and the rest as one reference one back, or as literals if it is less than three bytes. A file with these codes, cut into compressed blocks at any places, is recognised as made by these levels; the file of 8453631 bytes in the documentation is one of them, and `dump` prints for it what the documentation shows. At levels 1 to 3 the codes are the same except that the references after the first one of 258 bytes refer 258 back.", "quantifier": "all bytes, all n, all levels, all ways to cut the codes into compressed blocks, all headers and trailing bytes, both build profiles", "why_tests_cant": "The documentation shows one file of 8 MB; the tests use a few short strings. That no run length, cut into blocks or window position gives another result needs a proof over all of them.", "anchors": ["lib/src/lib.rs: first_byte_bug", "lib/src/tracer.rs: try_gzip", "lib/src/technique.rs: codes", "rezippers/src/dump.rs: run"]}
{"id": "C113", "title": "A command that reports success has written all of its output", "statement": "If cat, zero or dump ends with success, then standard output has everything it should have got. (False for cat and zero: standard output holds back what comes after the last newline, they do not flush it, and errors at the end of the process are ignored. What holds: standard output gets everything, or the beginning that it has room for; if cat or zero reports success, at most the last 1024 bytes are missing, and no newline is among them. If less than 1024 bytes follow the last newline, any number of these can be lost unnoticed, and nothing else can. For dump it is true: it panics exactly if the text does not fit.)", "quantifier": "all files, all ways in which the input arrives, all sizes of the output, all ways in which the formatting machinery cuts a line into pieces", "why_tests_cant": "The commands have no tests, and a test would have to fill the disk at each place of each output.", "anchors": ["rezippers/src/cat.rs: run", "rezippers/src/zero.rs: run", "rezippers/src/dump.rs: run, print"]}
{"id": "C114", "title": "A circular buffer used outside its range fails or gives bytes it holds", "statement": "In a release build, where the assertions are gone, asking a circular buffer for any distance is as if the buffer had been filled with zeros at first: a distance up to the capacity gives that byte, distance zero gives the oldest byte held, a distance beyond the capacity wraps around once if the write position allows it and panics otherwise. A capacity of zero is refused with a panic. A buffer made by Default has capacity zero: it is empty, every byte put into it panics, every copy and every reference is refused with an error and no output, and only blocks without contents can be decompressed with it.", "quantifier": "every capacity, every history, every distance, every output, every block", "why_tests_cant": "The tests of invalid distances run only with assertions on, at one capacity and one history.", "anchors": ["lib/src/circles.rs: Default, with_capacity, push, copy, get_at_dist, vec", "lib/src/serialise.rs: decompressed_block, decompressed_codes"]}
{"id": "C115", "title": "Guessing, tracing and restoring with any configuration, exactly", "statement": "The codes guessed at a position are those of an independent description of the search with lookahead: greedy, lazy (the byte and the longer match that follows, repeatedly) or three steps (a match of length three gives way to a longer one one or two bytes later). Tracing gives one entry per code, Correct as long as the code is the next one guessed and the code itself otherwise, after which new guesses are made; it panics exactly when the codes end before the data. Restoring follows the same description, with its two panics. Lazy evaluation takes place only for matches of at least the abort length, hence never with the preset of level 9.", "quantifier": "every configuration (lookahead, picker, limits), preroll, data, search limit, list of codes and trace", "why_tests_cant": "The tests compare a few traces for single configurations; lazy lookahead is not tested at all, and what is guessed depends on all bytes before a position.", "anchors": ["lib/src/lookahead.rs", "lib/src/technique.rs: codes, best_candidate_better_than", "lib/src/trace.rs: trace, restore"]}
{"id": "C116", "title": "The format of a serialised trace", "statement": "A serialised trace is a sequence of records, each starting with a little endian number of 16 bits: zero is a literal not guessed, a number up to 32768 is the distance of a reference and is followed by a byte with its length less three, and a larger one is that many correct guesses more than 32768. Reading accepts exactly such files, whatever the division into records, ignores a single byte at the end, and fails with an unexpected end of file exactly when the byte after a distance is missing. Writing gives the one such file in which consecutive correct guesses are written as few full records as possible. The self-check succeeds exactly for traces whose references are well formed and panics otherwise.", "quantifier": "all byte strings and all traces", "why_tests_cant": "The tests only check that reading undoes writing, which also holds if both are changed in the same way; files written before such a change could not be read any more.", "anchors": ["lib/src/serialise_trace.rs: write, read, verify"]}
{"id": "C117", "title": "Errors tell a cut input from an invalid one", "statement": "Every error other than the one for the end of the input is final: the items of the block iterator before it meets the end, the error for which a stream is refused, and what cat and dump say and write do not change when more bytes follow. A deflate stream or gzip file cut anywhere before the end of the stream gives the error for the end of the input and no other. Reading a gzip header gives that error exactly for less than ten bytes and for the beginnings of headers, and its three other errors exactly if the first two bytes, the third or the reserved bits of the fourth are not those of a header. On the other hand the error for the end of the input does not promise that anything can follow: a block whose code has no end of block symbol gives it whatever follows.", "quantifier": "all inputs, all continuations, all places to cut", "why_tests_cant": "Tests can try some truncations of some files; that no invalid file is reported as cut, or a cut one as invalid, is about all of them.", "anchors": ["lib/src/parse.rs: BlockIter::next, read_block, scan_huffman_data", "lib/src/bit.rs: BitReader", "lib/src/gzip.rs: discard_header", "rezippers/src/cat.rs", "rezippers/src/dump.rs"]}
{"id": "C118", "title": "Which error a deflate stream is refused for", "statement": "For every error other than the end of the input, the parser gives some blocks and then that error exactly if the input begins with these blocks and then the fault the error stands for: a reserved kind of block; a one among the padding bits before a stored block or after the last block; stored lengths that do not agree; code lengths that are less than two, whose codes do not pair up, or which make too many or no codes, in the code length code, the literal code or the distance code, in this order; a header that starts by copying a code length, or whose runs go past the last one; a length symbol or distance symbol without a meaning; a match where there are no distance codes. An input has at most one such fault, found after the same blocks. The end of the input is reported exactly if there is neither a complete stream nor such a fault, and no other error is ever given. Dump and cat report the same error after writing the blocks before it, cat unless a match in these blocks reaches too far back.", "quantifier": "all inputs, all errors", "why_tests_cant": "Each kind of error has infinitely many inputs that deserve it, and which error wins when several things are wrong is a matter of the order of the checks; tests can only sample both.", "anchors": ["lib/src/parse.rs: BlockIter::next, read_block, scan_huffman_data", "lib/src/huffman.rs: read_codes", "lib/src/code_tree.rs: CodeTree::new", "lib/src/bit.rs: align, read_length_prefixed", "rezippers/src/cat.rs", "rezippers/src/dump.rs"]}
{"id": "C119", "title": "What gzip writes is recognised", "statement": "For every data and every level, the codes that gzip chooses at that level (deflate_fast for levels 1 to 3, the lazy deflate for levels 4 to 9) are all predicted by try_gzip at the same level, so that the trace of a file made by gzip is correct throughout.", "quantifier": "all data, all levels 1 to 9", "why_tests_cant": "tests/tracing_size.rs has a dozen files and the fuzz target exec_gzip compares with the gzip of the day on the inputs it happens to try; that two different search algorithms (hash chains with early stops, against an index of all positions with hidden ranges) choose the same match at every position of every input needs an invariant that relates the two.", "anchors": ["lib/src/tracer.rs: try_gzip", "lib/src/wams.rs: CONFIGURATIONS", "lib/src/all_refs.rs", "lib/src/technique.rs", "lib/tests/tracing_size.rs: try_gzip", "lib/fuzz/fuzz_targets/exec_gzip.rs"]}
{"id": "C120", "title": "Cutting blocks in a recognised file", "statement": "At levels 4 to 9, if the check of tracing_size.rs recognises a gzip file as made by the level, it also recognises every file with the same codes in which the blocks are cut into any number of compressed blocks, with any header and anything after it, unless a reference is exactly 32768 back; in particular it does not matter where gzip cuts its codes into blocks. At levels 1 to 3 this holds if no reference is longer than 4, 5 or 6 (max_insert of the level), and otherwise fails, because positions inside longer matches are hidden only until the end of the block. Joining blocks may make a file unrecognised at every level.", "quantifier": "all files, all ways to cut, levels 4 to 9; short references at levels 1 to 3, with counterexamples otherwise", "why_tests_cant": "Where the blocks are cut is up to the compressor; the tests have a few files of one block each. That the same codes are guessed with the window cut off at either end has to hold for every position of every file.", "anchors": ["lib/tests/tracing_size.rs: try_gzip, run_gzip", "lib/src/tracer.rs: try_gzip", "lib/src/all_refs.rs: at", "lib/src/technique.rs: feedback"]}
{"id": "C121", "title": "The beginning of a traced file", "statement": "At every level, if the check of tracing_size.rs recognises a gzip file as made by the level, it also recognises every file that has only its first codes (whole blocks, and the first codes of one more). More generally, if both can be traced, the traces of the blocks before are the same, and the trace of the last block is the beginning of what it was, except that a code that starts in the last 257 bytes may be predicted although it was not; this happens, at every level, and 257 is the largest such distance. A beginning of a first block can always be traced; a beginning of a file of several blocks that can be traced may panic, at every level.", "quantifier": "all files, all places between codes, levels 1 to 9", "why_tests_cant": "The tests trace complete files. The guess at every position looks at all of the data after it, so independence of what follows has to be shown for every position of every file.", "anchors": ["lib/tests/tracing_size.rs: try_gzip, run_gzip", "lib/src/tracer.rs: try_gzip", "lib/src/all_refs.rs: at, possible_run_length_at", "lib/src/trace.rs: validate"]}

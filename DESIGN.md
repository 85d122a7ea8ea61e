# A Lean 4 model of FauxFaux/rezip-rs

Section 5 has the plan and status per property. MANIFEST.json has the exact
theorem names, AXIOMS.tsv the axioms each of them depends on, seeded/LOG.jsonl
the mutation tests.

## 1. Approach

* `lean/Verif/Model/*.lean`: one module per Rust source file (small files share
  one), function by function. Every definition cites the file and lines it models.
* `lean/Verif/Spec/*.lean`: small specifications written from the RFCs and from
  the English properties, independent of the model (bit lists, byte lists,
  LZ77 expansion, RFC 1951 code assignment and grammar, RFC 1952 header, ...).
* `lean/Verif/Lemmas/*.lean`: helper lemmas.
* `lean/Verif/Props/*.lean`: the property theorems, each with an `example`
  showing that a concrete non-trivial case meets its hypotheses.
* `tools/manifest.py` writes MANIFEST.json from the theorem names and
  `tools/notes.json`; `tools/axioms.py` writes AXIOMS.tsv.

### Modelling conventions

* `u8`/`u16` struct fields and bytes are `UInt8`/`UInt16`; local arithmetic is in
  `Nat`, with explicit `% 2^k` (for `as` casts) or an explicit panic where the
  Rust code could overflow. `usize` is `Nat` (data shorter than 2^63 bytes).
* Overflow checks and `debug_assert!` are modelled as ON (the `dev`/`test`
  profile). `CircularBuffer` takes a `Profile` argument and is modelled in both, and
  `compressed_block` is modelled again with wrapping arithmetic (C109).
* `Result::Err` and panics are both explicit values: `Fail.err _` and
  `Fail.panic _`. A panic never becomes a default value.
* A `&mut` argument becomes state: `EStateM Fail σ α`, which keeps the state on
  failure too (the caller can observe it after an `Err`).
* A function generic over `B: BitSource` can interact with its source only via
  `read_bit`, so it is modelled as a program tree `BitProg α` (return, fail, or
  read a bit and continue); each `BitSource` implementation is an interpreter.
* `R: Read` is a finite byte list (a `Cursor`); its only failure is end of
  input. `W: Write` is a sink with an optional remaining capacity, so every
  failure point of the output is a case.
* Loops are structural recursion, on fuel where the Rust loop has no syntactic
  bound; running out of fuel is the distinct failure `Fail.diverge`, and theorems
  show it is never produced.
* Iterators that the code consumes lazily are modelled as lists when evaluating
  an element has no effect; if evaluating an element could panic the strict list
  panics, and theorems show that it does not.

## 2. Trusted base

* Lean 4.33.0's kernel.
* The axioms `propext`, `Classical.choice` and `Quot.sound`. No theorem depends
  on any other (AXIOMS.tsv lists them per theorem). There is no `sorry`, no added
  axiom, no `native_decide` and no `bv_decide`.
* The reading of the Rust source recorded in the model's comments.
* The behaviour of the Rust standard library and of crates named in the comments:
  `read_exact`, `write_all`, iterator adaptors,
  `itertools::tuples`/`tuple_windows`/`peeking_take_while`, `byteorder`, integer
  `Display`.
* The statements of the theorems and the specifications in `lean/Verif/Spec`.

Where the model uses a parameter, the theorems hold for every value of it:

* `Filter` (C58): any hash (initial state, update, finish) and any inner reader or
  writer given as a state machine. SHA-512 itself is not modelled. The assumption
  that hashing two pieces in turn equals hashing the joined piece is stated in
  the theorem where it is used.
* `zero` (C59-C61, C80-C82): CRC-32 and flate2's decoder are parameters. C83 and C84
  use the CRC-32 defined in `Spec/GzipFile.lean`.
* The fuzz targets (C95): gzip and flate2's encoder.
* `dump` (C75): `char`'s `Debug` is a parameter, with its assumptions stated in the
  theorem. `C75_char` is the instance for the text defined in `Model/Debug.lean`,
  which satisfies them. That definition follows the standard library: of the
  characters below 256, the controls and the soft hyphen are escaped, and the tab,
  newline, carriage return, quote, backslash and NUL have short escapes.

### Validation of the model against the repository's tests

The tests of the repository cannot be run here. The executable model was run on
their data instead:

* `lib.rs` `round_trip`: recompression is the identity for `seq-20`, `lol`,
  `like-love`, `abcdef-bcdefg`, `libcgi`, `librole`, as the Rust tests assert.
* `tests/tracing_size.rs`: every test that passes in Rust gives an all-correct
  trace. The ignored tests `decaying_1_2` and `decaying_1_3` do not, as
  their comments say.
* The literal cases of the other unit tests appear as `example`s.
* `lean/Verif/Props/RepoTests.lean` repeats the tests with small files as `example`s
  that the kernel checks. The commented-out sizes 7 and 12 of `decaying_1_2` and
  `decaying_1_3` are among them, and the two outputs of `dump` in gzip.md.
* `cat` on the files of `tests/data` gives what Python's `gzip` module gives.
* `cat` was run on 20000 streams made by zlib with all its levels, strategies and
  flushes, of which four in five were then damaged or cut, and compared with zlib. The
  two accept the same streams and give the same data, except that this parser also
  refuses padding bits that are not zero (as C22 says). Where a stream has several
  faults the two may name different ones.
* `Spec.GzipDeflate.codes` (C119) was compared with the codes in files made by gzip 1.12:
  no difference in 540 files (60 random data of up to 40000 bytes, all levels), nor in
  135 files of 32507 to 65273 bytes. Of these data the ones without zero bytes and of at
  most 32507 bytes were all recognised at level 1, as C119 says.

## 3. Not modelled

* Unicode's tables of which characters `{:?}` of a string shows as they are (a
  parameter of C111, as in `examples/trace.rs`), clap argument parsing in `main.rs`, the random number generator of `examples/hard.rs`, `bestguess.rs` (all of
  it is under a `cfg` that is never set).
* Readers that fail or deliver their input in pieces appear in C96 to C98 only;
  elsewhere a reader is a byte string. Writers that take short writes appear in C98
  only; elsewhere a writer is a `Sink`.
* The line buffering of `io::stdout()` appears in C113 only; elsewhere the bytes are
  taken directly. That a closed standard output takes everything silently is left out.
* SHA-512, the `crc` crate and flate2's decoder: parameters of the model.
* Performance, memory exhaustion, stack depth.

## 4. Defects found

Each is a theorem (the negation of a property) unless marked otherwise.

1. `bit.rs:164` writes LEN and NLEN of stored blocks big endian; the reader (and
   RFC 1951) use little endian. C05, C23, C24.
2. `BitVec::pop` does not clear the popped bit. A later push of 0 reads back as 1
   (C04), and two vectors with the same bits can differ (C72).
3. Run 258 written as symbol 284 plus 31 is read, and written again as 285: bytes
   differ (C24), and a dynamic block without symbol 285 panics (C25).
4. `encode_run` and `encode_distance` unwrap a missing code: a panic instead of an
   error. C27.
5. `Lengths::length` omits the extra bits of the run length. C28.
6. `CircularBuffer::vec` of a full buffer with capacity 65535 panics (dev) or gives
   nothing (release). C30. A `Default` buffer has capacity 0 and its `push` panics.
7. `serialise_trace::read` takes end of input inside a u16 as a clean end. C39.
8. `Technique::byte_at` indexes `data` with a position that counts the preroll: a
   panic or a silently wrong byte. C41.
9. `BlockIter` returns the error of a truncated stream for ever. C21.
10. The lookahead's abort comparison is inverted. C53; its effect is C115_short. `Lookahead::Gzip` cannot be
    reached from any preset.
11. `zero` writes a chunk of exactly 65536 bytes with length 0, and the data is
    lost (C61_lost), and in the middle of the data it is taken for compressed data (C61_exact_partial); empty input panics (C61_empty).
12. The tracer passes `insert_only_below_length` as the limit of `AllRefs`, so levels
    1 to 3 look at only that many positions. Stated exactly in C70.
13. `restore` silently ignores surplus trace entries. Stated exactly in C74.
14. `CodeTree::new` panics if a symbol above 65535 has a code; no caller passes that
    many. Stated in C07_far_used and C07_far_unused.
15. `read_codes` refuses an all-zero distance code with HDIST above 0, which RFC 1951
    allows. Stated in the grammar used for C16 and C22.
16. `examples/trace.rs` slices `decompressed` with a position that counts the preroll,
    and so panics on every file with a compressed block after 264 bytes. C91_panics.
17. `parse.rs` compares a distance with 32786, a typing error for 32768 without
    effect (observed by reading; follows from C18).
18. `cat` reads only the first member of a gzip file and never looks at the trailer
    (checksum and length) or at the header checksum. C83.
19. `run_gzip` of `tests/tracing_size.rs` panics on files of more than one block when
    a literal after the first block is mispredicted (defect 8 seen from outside).
    C87_false.
20. `AllRefs` never uses position 0, and `CircularBuffer::vec` gives at most 32768
    bytes, so a match 32768 back at the very start of a block is never guessed.
    C92_one_short.
21. The chunking of `zero` does not always find back after an edit: one byte inserted
    at the front can change every chunk (C93_false). The reason is that a boundary is
    ignored within 8192 bytes of the last cut.
22. `try_gzip` and `try` panic on codes that do not fit the data (too few or too many)
    although they have no documented precondition, and accept a last code that runs
    over the end of the data (C94_try and its examples).
23. The fuzz targets compare the first block with all of the data, so they raise an
    alarm for every compressor that cuts its output into several compressed blocks,
    right or wrong (C95_split).
24. `huffman::encode_distance` of more than 32768 never stops in a release build, where
    a debug build panics; `Ref.dist` is public, so a caller can pass one. C109_far.
25. `cat` and `zero` do not flush standard output. What comes after the last newline,
    up to 1024 bytes, is written when the process ends, where errors are ignored: a
    full disk can cost the end of the output and the command still succeeds.
    C113_cat_false, C113_zero_false.
26. What gzip writes is not always recognised. At levels 2 and 3 the tracer searches 5
    and 6 positions (`insert_only_below_length` is used as the limit of the search) where
    gzip searches 8 and 32. At levels 4 to 9 the tracer does not look ahead. At every
    level gzip compares past the end of its data, where its window is zero, which the
    tracer does not; and gzip looks back 32506 bytes, the tracer 32768. C119_not_zero,
    C119_not_two, C119_not_three, C119_not_lazy, C119_not_far. The real gzip 1.12 shows
    all five.
27. At levels 1 to 3 the positions inside long matches, which gzip does not insert, are
    hidden only until the end of the block: the tracer of the next block looks at all of
    the window. So the codes of a gzip file can be mispredicted after a block boundary.
    C120_not_fast.

## 5. Plan and status per property

"False" means that the property as stated does not hold of the code: the negation
is proved with a concrete witness, and a theorem with the suffix `_partial` says
for which inputs it does hold. MANIFEST.json says what is missing.

| id | status | modelled | proof |
|----|--------|----------|-------|
| C01, C02 | proved | `BitWriter`, `BitReader` over byte lists | abstraction of both to `List Bool`; induction over the bits |
| C03 | proved | `BitVec` (bytes and length) | invariant by induction over pushes |
| C04 | false | `BitVec::pop` | witness; partial: histories in which popped bits are 0 or pushed again as 1; exact: what any history leaves (`sticky`), and the property holds of a history iff it has no smear |
| C05 | false | length-prefixed write | witness; partial: lengths with two equal bytes; C05_stored_swapped is exact |
| C06 | proved | length-prefixed read | exact iff |
| C07-C10 | proved | `CodeTree::new`, `invert`, `decode_symbol` | induction over the 16 levels; Kraft sum as level invariant; RFC algorithm as spec; other lists of lengths by congruence of the levels |
| C11 | proved | fixed tables | C07 and C08 specialised; table compared with the RFC ranges |
| C12-C14 | proved | run and distance coding | case analysis on ranges; loop invariant for `encode_distance` |
| C15, C16 | proved | `read_codes` as a `BitProg` | RFC header as an inductive relation; soundness and completeness |
| C17-C20, C22 | proved | `BlockIter`, `read_block`, `scan_huffman_data` | reduction to bit lists; RFC grammar relation; prefix monotonicity of `BitProg` |
| C21 | false | `BlockIter` | witness; partial: streams that parse; exact: every input either ends by call 8·len+7 or repeats the end-of-file error for ever; a block's flag alone decides whether anything follows it, readable or not |
| C23-C25 | false | `compressed_block` and the round-trip driver | witnesses; per-code round trip, induction over codes and blocks; C23_exact, C24 partial and C25_reserialise_iff are exact |
| C26 | proved | recorded trees | the recorded bits are those consumed; `BitProg` replay |
| C27, C28 | false | `compressed_codes`, `Lengths` | witnesses; exact outcome of writing any block for C27; exact difference for C28 |
| C29, C31 | proved | `CircularBuffer` | refinement to the list of all bytes pushed |
| C30 | false | `CircularBuffer::vec` | witness; partial: every other buffer |
| C32-C35 | proved | `decompressed_*` | refinement to LZ77 expansion; prefix relation between sinks |
| C36-C38, C40 | proved | `serialise_trace` | induction over runs |
| C39 | false | `serialise_trace::read` | witness; partial is exact |
| C41 | false | `trace`, `restore` | witnesses; simulation between the two loops; partials without preroll, without literal hints, and exact |
| C42-C45 | proved | `Scanner`, lookaheads, `try_gzip` | simulation, invariants of the scanner |
| C46-C50 | proved | `AllRefs`, `BackMap` | fold invariant of the chain arrays; match as pointwise equality |
| C51, C52, C54, C55 | proved | `picker`, `iters`, `obscure`, `lookahead` | list induction |
| C53 | false | `lookahead` | witness; partial says what the code does |
| C56, C57 | proved | `discard_header` | RFC 1952 grammar, both directions |
| C58 | proved | filters over an abstract hash | induction over the history |
| C59, C60 | proved | `zero.rs` chunking | fold invariant (rolling sum); for a failing source, either the bytes before the failure are enough or one more byte would be taken |
| C61 | false | `zero.rs` | witness; partial: no chunk of 65536 bytes; exactly what cat makes of the first such chunk |
| C62, C63 | proved | `cat`, full pipeline | composition |
| C64 | proved | three-step lookahead | case analysis against a decision table |
| C65 | proved | `Lengths::new` mean | arithmetic |
| C66, C67 | proved | `wams`, `Key` | the presets compared with gzip's table; hash as a function of 16 bits |
| C68-C70 | proved | `AllRefs::at`, `Technique`, `trace` | exact descriptions, by induction over the guesser's steps |
| C71 | proved | `into_inner` of reader and writer | abstraction to bit lists |
| C72 | false | `BitVec` equality | witness; partial: vectors built by pushing; exact: equality after any two histories |
| C73 | proved | `serialise_trace::write` | lower bound for every byte string that reads as the trace |
| C74 | proved | `trace::restore` | exact description as a relation; for gzip's presets equal to a reference restorer over the search of C68 |
| C75 | proved | `dump.rs` | text compared with a spec of lines; injectivity of decimal numbers |
| C76 | proved | `Debug` of codes, traces, bit vectors | unique readability; for popped vectors the invariant of C04 |
| C77, C78 | proved | `cat`, `dump`, `parse_deflate` | counting bits per code; prefix relation |
| C79 | proved | `BitWriter` and `serialise` over a limited sink | relation between two runs, closed under bind |
| C80, C81 | proved | `zero` and its output, which may fail | state machine relation; whole file composition with C62 |
| C82 | proved | `zero` chunks | counting |
| C83 | false | `cat` | witnesses; partial: exact description against RFC 1952 |
| C84 | false | `zero` on RFC 1952 members | witness; partial: no chunk of 65536 bytes |
| C85 | proved | `round_trip` of lib.rs | loop compared with parsing all blocks, decompressing and recompressing; exact iff |
| C86 | proved | `tracer::try_gzip` with a preroll | C70 and C41 combined; exact outcome |
| C87, C88 | proved | `run_gzip`, `try_gzip` of tests/tracing_size.rs | induction over the blocks with the window as state; exact iff |
| C89, C90 | proved | the guesser (`trace`, `restore`), `try_gzip`, `round_trip` | induction over the scanner; construction of a file from the guesser's codes in one fixed block |
| C91 | proved | examples/trace.rs, output as structured lines (text: C110) | as C87, with printing as a writer; exact iff, and a class of files that always panics |
| C92 | proved | `AllRefs`, `Technique`, `trace` | two runs side by side with all positions moved by the same amount; witness for the one byte too few |
| C93 | false | `take_rsync` | periodic data as witness; partial: same chunks before the edit, same after a common cut, and a condition on the content that forces a common cut |
| C94 | proved | `trace`, `restore`, `validate`, `verify`, `try`, `try_gzip` | induction over codes with the number of bytes left, truncated subtraction for the overrun; iff for every input |
| C95 | proved | both fuzz targets, other programs as parameters | C94, C89 and the parser's first block; exact iff; panics on every output that does not begin with a block |
| C96 | proved | everything that reads, on any `R: Read`; a reader given by a list of pieces, interruptions and failures | simulation of the byte string by the reader, closed under bind; errors of the code are never end of input |
| C97 | proved | as C96, also with `FilterRead` around the reader | C96's simulation with the bytes left and the hash so far in the relation |
| C98 | proved | `Model/Writer.lean`: bit.rs, circles.rs, serialise.rs, cat.rs and zero.rs on any `W: Write`, of which only `write_all` is used; `Pipe`: short writes, interruptions, a failure | simulation of the code on any such writer by the code on a `Sink` (error of the sink replaced by that of the writer), a pipe does what a sink of the same room does; with C96's simulation of the reader for `cat`, with C79 for the compressor |
| C99 | proved | `Debug` of code trees | lines in order of the codes by induction on the tree, canonical codes as for C07-C11; a tree is determined by its leaves, a text by its lines |
| C100 | proved | `Debug` of `AllRefs` and `BackMap` | the index holds all positions (invariant of C46-C50); the filter and the reversal give the ascending list |
| C101 | proved | `Debug` of `Key`, of a `char` below 256 | unique readability of a character literal by an inverse of the escapes, over the table of bytes |
| C102 | proved | `pretty_print`, as the list of printed lines | induction over the bits left in the iterator |
| C103 | proved | `examples/collisions.rs`; the iteration orders of the map and the sets are parameters | invariant of the map over the insertions; the hash in three groups of five bits (C67); counting by injections |
| C104 | proved | as C23, C24 | C23, C24 and C62 combined |
| C105 | proved | `huffman-fixed.txt` as a list of lines, and how a reader understands them | the whole file compared with the RFC's table in the kernel; C09's lemmas for reading; C99 for the text |
| C106 | proved | `examples/hard.rs`, the random numbers as a parameter | induction over the lines |
| C107 | proved | `dump.rs` with `println!` to a `Sink` | printing as one write of the whole text, closed under bind |
| C108 | proved | `main.rs` after the command line is read | C62 and C80 combined |
| C109 | proved | `serialise.rs` and `encode_distance` again, with arithmetic that wraps | agreement of runs without overflow, closed under bind; the loop's base runs through the powers of two to 0 |
| C110 | proved | the text of examples/trace.rs, its output | every line printed is of a printable kind, closed under bind; separators cut the text back into fields; any configuration by cases on its fields |
| C111 | proved | `from_utf8_lossy` and `{:?}` of a string, as examples/trace.rs uses them | the encodings by shape; existence and uniqueness of the replacement of maximal subparts; a reader of Rust's string literals is a left inverse of quoting |
| C112 | proved | no new code; the documented codes are written down in Spec/Runs | the guess in a window of one byte is the nearest position that is not inside an earlier long match; induction over the codes, the blocks and the runs; uniqueness by C89 |
| C113 | false for `cat` and `zero` | std's `LineWriter`, the end of the process; `dump.rs` on any `W: Write` | the commands are sequences of `write_all` whatever the writer; state of the buffer after any sequence; simulation of the sink for `dump`; witnesses; partial: what is lost |
| C114 | proved | `get_at_dist` without its assertions, `#[derive(Default)]` | the buffer after `h` has the data of the buffer after zeros and `h`; by cases for the empty buffer |
| C115 | proved | `lookahead.rs`, `technique.rs`, `trace.rs` for any `Config` | the search agrees with the reference of C68 for any limits; each lookahead by cases, lazily by induction on the length left; tracer and restorer by induction on the rounds |
| C116 | proved | `serialise_trace.rs` as modelled for C36 and C37 | the format is an inductive relation on traces and bytes; reading by induction on records and cases of the rest, writing by recursion on the runs of correct guesses |
| C117 | proved | `parse.rs`, `bit.rs`, `gzip.rs`, `cat.rs`, `dump.rs` as modelled before | every reading function is shown to give the same with more bytes behind it unless it meets the end, composed along the code, with more fuel where the fuel depends on the input; the header by its first ten bytes, and zeros complete any beginning of the rest; the endless block by running its header, the rest by induction on the bits |
| C118 | proved | `parse.rs`, `huffman.rs`, `code_tree.rs`, `bit.rs` as modelled before; `Spec/Faults.lean` says for every error which bits deserve it, without the parser | both directions along the code: the bits of a fault are refused with its error, and a function that fails has either met the end or read the bits of a fault; the code length loop by induction on what is left to read, the tree by the Kraft sum (an odd number of leaves at a level is a sum that is not whole) |
| C119 | partial | the tracer as modelled before; gzip's own `deflate_fast`, `deflate`, `longest_match` and `INSERT_STRING` are written down in `Spec/GzipDeflate.lean`, for data that never makes the window slide | invariant: the hash chains hold exactly the earlier positions that are not hidden; the search along a chain is a walk over a list, which finds what `choose` chooses; a comparison goes past the end of the data only if the last three bytes occur before a zero byte; with few positions of the same hash the limits make no difference, and what `deflate` has found at the byte before is what is guessed there, until the search at the next byte finds more; negations by witnesses, the one for long data by induction over any predicted codes |
| C120 | proved | nothing new: `RunGzip.tryGzip` and the window before each block | the guess at a position is the same if the bytes end after the code that was guessed (a shorter common prefix keeps the choice) and if the bytes more than 32768 back are left out (only the candidate exactly 32768 back is lost); induction over the blocks; counterexamples by evaluation, and for the exception (C120_not_reach) by reasoning about a block of 32773 bytes |
| C121 | proved | nothing new: `RunGzip.tryGzip` and `Tracer.tryGzip` | the candidates at a position if the bytes end earlier are the same with shorter runs, so a guess inside the shorter data is kept, and every guess 258 bytes before the end; induction over codes and blocks; the exception by evaluation |

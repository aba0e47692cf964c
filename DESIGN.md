# Formal model of rust-av in Lean 4

## Approach

The code under `/repo` is read as text and transcribed, function by function, into total
computable Lean functions (`Verif/*/Model.lean`). Every definition cites the file and lines it
models. Properties (`properties.jsonl`) are stated in `Verif/*/Props.lean` in terms of the
modelled API and of small independent specifications (`Verif/*/Spec.lean`); helper lemmas live in
`Verif/*/Lemmas.lean`. Beside each property theorem an `example` exhibits a concrete case meeting
its hypotheses. Where the code violates a property, the negation is proved from a concrete witness
(`…_fails`), and what does hold is proved under the suffix `_partial`.

### Embedding of Rust

* A call that can panic returns `Rust α := Except Panic α`; every reason for a panic is a
  constructor of `Panic` (index/slice out of range, arithmetic overflow, shift overflow, assertion,
  `unwrap`, explicit panic). `unsafe` code leaving its slices is the outcome `Panic.ub`.
  A theorem concluding `f x = .ok v` therefore says: no panic, no overflow, no UB, result `v`; since
  no overflow happens the debug and release profiles agree (C110 proves it for the size computations of
  `av-data`, C112 for the bit readers, C115 for codebooks and C117 for `AccReader`; C111, C113, C114, C116 and
  C118 show what happens otherwise).
* `&mut self` methods take the old value and return the new one. `io::Result` is `Except` data.
* `Arc<T>` is `T`, since each holder of an `Arc` sees a value of its own (C168).
* `usize` is `Nat` (64-bit target). Subtraction is checked (underflow = panic). Addition and
  multiplication are unbounded in the modules where only buffer positions are added (a position above
  2^64 needs a buffer that cannot exist, or skips of that length: C99 and C102 repeat the bit readers and `AccReader` with checked additions); they are checked against 2^64 in the size computations of
  `av-data`, where caller-supplied dimensions are multiplied.
* `u64` caches and integer types that are shifted and masked are `BitVec`; the `u32` table entries of the
  codebook are `Nat` with explicit truncation to 32 bits at every shift.
* `HashMap` is an association list; iteration order is an arbitrary permutation supplied by an
  oracle that may differ for every map and every iteration.
* `Read`/`Seek` objects supplied by the user are `Verif.Io.Source`: a byte string with a position and a
  *script* saying for the k-th call whether it fails (and how) and how many bytes it transfers at most.
  `Write` objects are `Verif.Io.Sink` in the same way, or arbitrary functions on a state (`Mux.SinkOps`).
  Theorems quantify over all scripts. In `Live` the reader is any type with any two functions that keep the
  contracts of `Read` and `Seek` over a stream that may grow at any time (`Live.Grows`). C137 takes any reader
  whose reads return no more than was asked for, also one whose bytes change or vanish (`Live.Bounded`). C141
  (`Live.Wild`) takes readers that get the slice, may write all of it, and return any number.
* Trait objects supplied by the user (demuxers, muxers, decoders, encoders, `Buffered` readers) are records
  of arbitrary functions on a state; they may panic, and the panic passes through.
* `Box<dyn FrameBuffer>` is the list of planes it shows; C159 has any implementation and justifies that.
* Demuxer and muxer contexts are generic over these records; the theorems about `AccReader` under a demuxer
  context instantiate them (`Demux.c34_acc`, `Demux.c36_*`).
* Loops without a structural bound take fuel; theorems quantify over all (sufficient) fuel, and
  non-termination is stated as "no amount of fuel suffices".

## Trusted base

* Lean 4.33.0's kernel. Axioms: at most `propext`, `Classical.choice`, `Quot.sound`; the table at the end
  lists them for each theorem (made by `tools/deps.txt`, which runs `collectAxioms`).
  No `sorry`, no own axioms, no `native_decide`/`bv_decide`. Finite tables are decided by the kernel
  (`decide`, `decide +kernel`).
* The reading of the Rust source into the models, including the behaviour of the std and crate functions
  used: slices and `chunks`, `HashMap`, `Vec`, `Read::read_exact`, `Write::write_all`, checked shifts,
  `from_le_bytes`, `BytesMut`/`Bytes`, integer formatting (`Display` of integers is `toString`, of `{:?}` enums the variant name).
* `byte_slice_cast` checks address and length of a slice as its documentation says; whether it lets an *empty* slice at a
  misaligned address pass differs between readings of it, so the theorems on views (C65, C85) hold for both.
* A 64-bit target: `usize` and `isize` have 64 bits. The files `Narrow.lean`, `Checked.lean` and `Large.lean` (C121, C123,
  C125-C127, C131, C142, C143) have a `usize` of any width.
* Floats are bit patterns (`from_bits`/`to_bits` are identities on bits).
* Allocation always succeeds, and capacities are not observable.

## What is modelled

| Source | Model | Modelled | Not modelled |
|---|---|---|---|
| bitstream/src/byteread.rs, bytewrite.rs | `Bytes/Model` | all functions | – |
| bitstream/src/bitread.rs | `BitRead/Model` | both readers (one record, byte order a parameter), all trait functions | overflow of `index` beyond 2^64 bits (unbounded) |
| bitstream/src/codebook.rs | `Codebook/Model`, `Codebook/Descs` | `reverse_bits`, `Codebook::new` for both modes (over lists of entries, and over the trait with the calls where the code makes them; `c92_reader` links the two), all description readers, `build_esc_lut`, `fill_lut_*`, `read_cb` for both readers | – (`TableCodebookDescReader` is modelled although nothing can construct one: private fields, no constructor) |
| format/src/buffer/accreader.rs | `Acc/Model`; `Live/Model` (for any reader; `Live/Link` relates the two); `Live/Wild` (for readers that keep no contract; `c141_quiet` relates it) | all of `AccReader` | – |
| format/src/buffer/mod.rs, demuxer.rs, error.rs, common.rs | `Demux/Model` | `Context`, `read_headers`, `read_event`, `probe`, `by_name`, errors | log output |
| format/src/muxer.rs | `Mux/Model` | `Writer`, `Context`, `by_name`, options | – |
| format/src/stream.rs | `Stream/Model` | `Stream`, `GlobalInfo` | `StreamGroup` (has no functions), contents of `user_private` |
| data/src/audiosample.rs | `Audio/Model` | everything | – |
| data/src/pixel.rs | `Pixel/Model` | enums and conversions, `Chromaton`, `Formaton`, predefined formats, Display | – |
| data/src/frame.rs | `Frame/Model` | infos, buffers, `copy_plane`, `copy_from_slice`, `copy_to_slice`, copies between frames, views | `Debug`; planes are lists of bytes, not memory |
| data/src/params.rs, timeinfo.rs, value.rs, packet.rs | `Stream/Model`, `Frame/Model`, `Value/Model`, `Packet/Model` | everything | – |
| codec/src/*.rs | `Codec/Model` | registry, decoder and encoder contexts, errors | – |
| src/io/byteread.rs | `ByteIo/Model` | all functions | – |
| src/lib.rs and the empty modules | – | – | re-exports only |
| benches, tests | `Conform/*` | loops of the benchmarks (C153), tests as examples | not part of the library |

Left out everywhere: `log` output, `Debug` derives, `Send`/`Sync` as the compiler checks them (C173 uses that contexts may
move to other threads and share nothing), memory exhaustion.

## Properties and how they are proved

| Property | Model | Proof |
|---|---|---|
| C01–C03 | Bytes | algebraic laws over `BitVec` and lists |
| C04–C10 | BitRead | representation invariant linking the cache to the buffer's bits; refinement of an abstract bit cursor; induction over operation lists |
| C11, C12 | BitRead | weaker invariant for all histories, also past the end; C12 false |
| C13–C19, C21, C66 | Codebook | table-as-trie invariant by induction on code length, for arbitrary hash map order; simulation of `read_cb` against the trie; C17, C21, C66 false in general |
| C20, C82–C84 | Codebook (overlapping codes) | a second invariant that does without prefix-freeness (every table entry is a used code or a pointer into the table, depth decreases); for descriptions without a short code before the long ones it starts, the table invariant of C13 generalised to contested entries gives the decoding rule; for all others in range the entries of the first table are followed through the groups written over it (`Codebook/Cells`), which gives a rule on bit strings (`readBook`) that names the order of these groups as the only choice of the hash maps; for codes out of range the outcome of construction is decided by walking through the entries with nothing but the number of cells and those in use (`Codebook/Beyond` in MSB mode, `Codebook/Plan` in LSB mode up to 20 bits); C20, C82, C84 false in general |
| C22 | reverse_bits | bitwise law |
| C23–C30, C67 | Acc over a scripted source | refinement to (bytes, position); induction over operation lists; C26, C67 false |
| C31–C37, C68 | Demux over an arbitrary demuxer and `Buffered`; also over `AccReader` | induction on fuel and histories; C35, C36, C68 false |
| C38–C40, C75, C76 | Mux, Value | induction over operation lists and over `write_all`'s rounds; C76 false |
| C41–C42 | Codec | refinement of the registry to the list of registered descriptors; the contexts pass everything through |
| C43–C50, C65, C69, C73 | Audio, Pixel, Frame | arithmetic with overflow checks, induction over rows and planes; C46, C48, C50, C69, C73 false in general, with exact outcomes |
| C51–C53, C62–C64, C70–C72 | Pixel, Audio | whole finite tables decided by the kernel, list and string laws; C52, C53, C63, C64, C71, C72 false in general |
| C54, C55, C81 | Audio | exhaustive cases, list induction; C55 false in general |
| C56–C57 | Stream | invariant over call lists; C57 false |
| C58 | Frame | logic |
| C59 | Packet over scripted sources and sinks | induction on the transferred length |
| C60–C61, C74 | ByteIo over scripted sources | induction; C61, C74 false in general |
| C77, C79 | Text | numerals are injective and have no leading zero; texts pairwise distinct |
| C78, C80 | Access | field-by-field laws; C80 false |
| C85 | Frame (views) | induction over lists of stores |
| C86, C87 | Acc | the refinement of C23–C30, also for a reader that does not stand at its start (`Acc/Offset`) |
| C88, C89 | Demux | list induction, invariant over histories; both false |
| C90 | Demux over `AccReader`, any format with prefix-stable parsers | the calls refine parsing the whole byte string; induction over records and over fuel |
| C91 | Mux, Demux, Acc, Io together | C39 for the bytes, C90 for the events |
| C92, C93 | Codebook over the trait `CodebookDescReader` | loops over indices equal loops over entries; C93 false |
| C94 | Bytes, ByteIo, Io together | the encodings concatenate; C60 for the reads |
| C95 | BitRead and Bytes together | the value of 8k aligned bits is the positional value of k bytes |
| C96 | Codebook, reverse_bits | C22 on bit strings, C15 for decoding |
| C97, C98 | BitRead | simulation of the readers by a cursor over the loaded bytes, for all buffers and histories; C98 false |
| C99 | BitRead with checked positions | agreement with the unbounded model; false for huge skips |
| C100 | BitRead | bits of truncated results; false |
| C101 | AccReader, any `consume` | false; true position and constant error of every history |
| C102 | AccReader with checked positions | cursor on the stream, no overflow |
| C103 | bit reads and codebook reads mixed, every state | `read_cb` on bit strings at a cursor (`Codebook/Exact.lean`, also the exact form of C17, C21, C66) |
| C104 | progress of `read_cb` | false; true unless the reader has run dry |
| C105 | Codebook (many entries) | false beyond 2^24 entries; the entry found is the right one modulo 2^24 |
| C106 | Codec, Mux, Demux, Acc, Io together | C42 for the contexts, C91 for the file |
| C107 | `Acc/Until` | induction over the calls of `fill_buf` and `read`, with what these do (C27, C23) |
| C108 | Demux, every demuxer and reader | induction over the rounds, case by case what is called |
| C109 | Demux over AccReader with bounded `grow` | false; C108 and the invariant of C34 leave only `grow`, for a `usize` of any width |
| C110 | av-data with any arithmetic, checked and wrapping | agreement is kept by binds and loops |
| C111 | the same, copies of default frames | false when sizes wrap; C49 otherwise; exact for every picture by C48's exact form |
| C112 | the bit readers with any arithmetic, checked and wrapping | agreement is kept by binds and histories |
| C113 | the same, wrapping; calls of any width | bounds on index and cache; false when the index wraps; which histories panic follows from index and bits in hand alone (`Mark`, BitRead/Around) |
| C114 | the same, `available` | the cursor of C12, modulo `2^64`; false past the end, for ever |
| C115 | codebooks with any arithmetic, checked and wrapping | agreement is kept by binds, folds and the loop of `read_cb` |
| C116 | the same, decoding | C13, C14 carried over by C115; false for 42 bits in MSB mode |
| C117 | `AccReader` with any arithmetic, checked and wrapping | agreement is kept by binds and the loop of `read_exact` |
| C118 | the same, `consume` with any argument | positions stay in order in a buffer of known length; false for `grow` and `consume` by `usize::MAX` |
| C119 | what is shown: subsampling, storage, bits of the element | the texts are read back, number by number |
| C120 | coordinates listed per model | by cases |
| C121 | `Writer` over `usize` of any width | equal to the unbounded model below the limit; beyond it the position modulo 2^b, or a panic at the write that tops it, for every sink; false for 32 bits |
| C122 | calls into the muxer or the sink that panic | cases of each call, induction over the history |
| C123 | the bit readers over `usize` of any width | operators exact below the limit, carried through by binds; beyond it the positions modulo 2^b (`Around`), with checks exactly the calls that overflow (`Checked`); false for 32 bits |
| C124 | `Writer` over a file | byte-wise spec of `overwrite`, induction on the history; patching by list algebra |
| C125 | sizes over `usize` of any width | operators of a wider target extend the narrower checked ones, carried through by binds |
| C126 | default frames over `usize` of any width | sizes exact below the limit; false for 32 bits; exact for every picture by C48's exact form |
| C127 | `AccReader` over `usize` of any width | exact below the limit by the invariant `Small`; over any reader a queue with a position of b bits (`Live.Narrow`); false for 32 bits (casts in `seek`) |
| C128 | panics of codec contexts | induction on histories: a run panics iff the codec does in a state the context reaches |
| C129 | size of the buffer while demuxing | potential: each grow is paid by a call or a byte read; false: the demuxer of one-byte records |
| C130 | texts of reserved code points | cases; false: code point 0 |
| C131 | codebooks on every target | a relation between model and target that holds while the table is small, and the exact condition for the panic; false: 512 MiB in front of the reader |
| C132 | size of codebook tables | one part per beginning of ten bits, by induction over the parts; the same count (`tableSize`) is what `Fits` bounds |
| C133 | `AccReader` over streams that grow | invariant: the window shows bytes that are there, the reader stands behind it; induction on histories |
| C134 | demuxing streams that grow | induction on the rounds: each reads bytes or ends the call; for the headers a rank that falls with every read before they are there |
| C135 | memory used by waiting | exact by induction on the calls; false: each call enlarges the buffer |
| C136 | demuxing what is being muxed | C134 and the round trip of C91 |
| C137 | `AccReader` is a queue in front of any reader | refinement of a queue machine; ghost record of the bytes returned |
| C138 | the public building blocks of the bit readers | the invariant of C04 and the cursor of C12, with refills as further calls; cases of each call for the panics |
| C139 | Codebook (Kraft) | induction on the length of the longest word, splitting the words by their first bit; C15 and C16 for the reader |
| C140 | `AccReader` in `AccReader` | the inner one, restricted to its invariant, is a reader as in C133; the outer one commutes with the restriction; an error that does not occur stands for the seeks left out; in general a queue in front of a queue, by the same correspondence twice |
| C141 | `AccReader` over readers without contract | each call of the model is one of the queue, as a relation; panics are outcomes of the queue |
| C142 | demuxing on every target | the context over the reader of the target simulates that over the one without bounds (`CPeer`): same bytes, position modulo 2^b; false for 32 bits; with checks it panics exactly where a reader with borders does (`bordered`, Live/Border.lean) |
| C143 | muxing on every target | muxers are programs over the writer; each run on a target is the run without bounds with positions modulo 2^b (`Target.cut`), or panics at the first write that tops; false for 32 bits |
| C144 | demuxing and muxing contexts together | the loop over the events of C90 is a list of calls of the muxing context (`untilError`); C39 for the bytes |
| C145 | `probe`, `AccReader` and the demuxing context together | induction over the calls of `fill_buf`; then C90 from the filled reader |
| C146 | texts of the enumerations of av-data | comparison with tables taken from the comments |
| C147 | std's `stream_len`, `rewind`, `seek_relative`, `take` over `AccReader` (`Acc/Rewind`) | the invariant of C23 and the outcome of each seek; induction over the reads |
| C148 | calls of the inner reader by `AccReader` (`Live/Calls`) | the queue of C137 over a counting reader; for many reads a potential: the room in the buffer, at most size - N |
| C149 | `fill_buf` with bytes buffered (`Live/Calls`) | exact from C137; false: it asks unless the buffer is full |
| C150 | calls of the inner reader by `read_event` (`Live/Economy`) | the counting reader of C148; a purse of reads, one for every (size + 1) bytes left, that every request pays from |
| C151 | counts too high, with and without overflow checks (`Live/Counts`) | the functions of C141 over a choice of arithmetic; invariant of the window; `fill_buf` exactly; false without checks |
| C152 | demuxing with jumps (`Demux/Jumps`) | rounds of `read_event` against a specification that follows the jumps in the file; invariant of the window; false for steps back by `Current` |
| C153 | the benchmarks' loops on any input (`Conform/Benches`) | cursor of the bit reader word by word; `Follows` for the reads; `splits_spec` for bytes; one loop does not end |
| C154 | files with a table of positions (`RoundTrip/Index`) | simulation of the muxer over short writes, of the application that patches the header, then C152 |
| C155 | demuxers as programs over the buffer (`Live/Programs`) | `stepCall_agree` lifted through programs and through the loops of the context |
| C156 | the same against a file (`Demux/Streams`) | `Acc.Inv` along the program, `seek_goal` |
| C157 | muxers as programs (`Mux/Streams`) | induction over the program; `putAll_steady`: lexicographic in length and patience of the sink |
| C158 | parsers over several readers (`Codebook/Programs`) | `Follows` for every reader of a list, along the program |
| C159 | frame buffers and iterators of any type (`Frame/Buffers`) | simulation of the loops by those over lists of planes; a buffer that notes its calls |
| C160 | codecs with delay, and the applications (`RoundTrip/Delayed`) | induction over the frames with the queue of results, C91 for the file |
| C161 | programs of calls on a frame (`Frame/Memory`) | refinement by arrays of bytes, call by call; induction over the program |
| C162 | a codec made of the library's parts (`RoundTrip/Coded`) | C15 behind the count, entries of the book by C01; composed by C106 |
| C163 | files of several streams (`RoundTrip/Streams`) | machines side by side; each sees its own inputs only; simulation of both applications |
| C164 | transcoding (`RoundTrip/Transcode`) | decoder's machine before encoder's; simulation of the loop, composed by C90 and C39 |
| C165 | players of any bytes and players that try again (`RoundTrip/Retry`) | panics of the parts by C108; simulation of the interrupted loop by the other, C90; calls of the reader counted |
| C166 | the record at which a reader fails (`Demux/Lost`) | rounds of `read_event` as in C90 without the assumption about the records; false in general, with exact outcomes |
| C167 | writing again (`Mux/Again`) | the bytes of every call by its result, on `bytesMuxer` of C39; false in general, with exact contents |
| C168 | frames and packets that are shared (`Frame/Shared`) | the memory of `Arc`s with their counts refines holders with values of their own |
| C169 | encoding from a pool of frames (`Frame/Pool`) | an invariant of application and encoder on the holders of C168 |
| C170 | predicted pictures and lost packets (`RoundTrip/Predict`) | C49 for the pictures; encoder and decoder as machines (C160); an invariant on the decoder's last picture |
| C171 | going to other places while demuxing (`Demux/Seeking`, `RoundTrip/Scrub`) | the file read from places on as a small machine, in step with the context (C152 for one event); for films, all places gone to begin a packet |
| C172 | frames copied with iterators passed by reference (`Frame/Runs`) | the loops of C159 with iterators known only for the items taken; what is asked of them after the last plane, exactly |
| C173 | demuxing and decoding in threads (`RoundTrip/Threads`) | what each thread has still to do by itself is an invariant of all orders of moves, and the number of moves left goes down by one with each; when one has to wait, another can move |
| C174 | encoding in threads, writing in one (`RoundTrip/Recording`, `RoundTrip/Schedules`) | what the writer has taken, what is in the channel and what the senders have still to send make up each sender's output, in every order of moves; any merge of the streams can be written and read back (C91), and plays by stream as in C163; for each merge the schedule that gives it |
| C175 | the codecs of the tests (`Conform/Codecs`) | the state of the encoder is what the newest call that speaks about a setting says; what a call gives is a function of the calls before it |
| C176 | demuxing, decoding and encoding, and writing in threads (`RoundTrip/Relay`, `RoundTrip/Routes`) | the invariant of C173 for the first thread and the workers, whatever the last thread does; what this has taken and what is in its channel make up what each worker has given out; if nothing can move the last channel is empty or its receiver gone, so C173's progress applies; the first thread fills the channels, then the workers move as a merge asks |
| C177 | demuxers that ask for any amounts (`Demux/Asking`) | five kinds of rounds of `read_event`: answer, jump, more bytes, nothing new, I/O error; induction over the fuel for soundness, over the jumps and then the bytes that are not buffered for the converse; for the demuxer of the library's tests the buffer after the headers computed in closed form |
| C178 | headers of any shape (`Demux/Heading`) | four kinds of rounds of `read_headers`; induction over the fuel for soundness; for the converse over the bytes that are not shown yet: each round shows one more unless the buffer is full and no byte is asked for |
| C179 | muxers that unwrap; the test formats (`Conform/Muxer`) | one step of the muxer that unwraps is one of the muxer that hands errors on, or a panic; induction over the calls; for the demuxer C178 gives the state behind the header, and C177 the one answer found there, which consumes nothing |
| C180 | plans for each stream: leave out, copy, transcode (`RoundTrip/Tracks`) | a track of each kind carries out a machine, the copying one that of no state; the loop is then the interleaving of C163 run over the routed packets, and its output merges the streams' outputs; the order of the copied ones by induction over the routed packets |
| C181 | the same program with parts that fail (`RoundTrip/Truth`) | each function of it makes a run of calls of the muxer of which only the last may fail; runs are put together along the loop, with the packets of copied streams compared event by event |
| C182 | what went through each codec of the same program (`RoundTrip/Wired`) | the calls of each decoder and encoder are collected as histories of the contexts (`DecContext.run`, `EncContext.run`), and put together along the loop, stream by stream |
| C183 | the same program on damaged files, and one that tries again (`RoundTrip/Damaged`, `RoundTrip/Fuel`) | as C165: no part panics by itself, and the two runs are compared event by event; an event that failed leaves demuxer, streams and position as they were |

## Where the code and a property disagree

Each of these is a theorem `…_fails` with a concrete witness; the model follows the code.

* C12 bitread.rs: `get_bits_32` on a tail of fewer than 8 bytes can make the last bytes unreachable while
  `available` reports them, so a loop on `available() > 0` does not end; skipping exactly to the end leaves a
  stale cache; `available` panics after skipping past the end. C98: when a skip cannot refill, `skip_rem` is applied
  twice to the old cache, so that a skip one bit too long moves by two bits. C99: skips of more than 2^64 bits in total
  overflow `consumed`, and later `skip_bits`. C100: `get_bits_32(n > 32)` can panic or corrupt the cache.
  C113, C114: without overflow checks a skip by almost `2^64` bytes in total makes `can_refill` wrap (slice panic), and
  after any skip past the end `available` returns a number near `2^64` for ever.
  C101: `consume` beyond the buffered bytes advances `index` but not the data, so positions are wrong and absolute seeks
  find the wrong byte. C118: without overflow checks `consume(usize::MAX)` moves back, and `grow(usize::MAX)` truncates.
* C17, C21, C66 codebook.rs: codewords over 10 bits are accepted past the end of the data; a rejected one
  moves the reader by 10 bits; `available() as u32` truncates, so in front of 2^32 bits everything is rejected.
  C104: at the end of a buffer whose length is no multiple of eight a codeword of zeros is decoded for ever.
* C20, C82, C84 codebook.rs: overlapping codes are accepted. If a code of up to 10 bits is listed before
  longer ones it starts, the book mis-decodes other codes, and what it decodes depends on the iteration
  order of a `HashMap`; otherwise it decodes to one of the codes that come next (`c20_rule_partial`). `c20_exact_partial`, `c84_exact_partial`: the
  longer codes lose their first 10 bits and are written over the first table, group by group in map order. A code with bits above its length panics,
  unless shifts within a `u32` drop them or parts added to the table for earlier codes happen to make room for it
  (in LSB mode that can depend on the map order: `c82_lsb_order_fails`); in MSB mode a length of 42 bits or more always panics (a `u32` code
  may be declared longer than 32 bits, which works up to 41 bits, and up to 255 in LSB mode). C116: without overflow
  checks it is accepted, and other bits are taken for its codeword.
* C26, C67 accreader.rs: a backward relative seek with buffered data ends at the wrong place; the reader
  assumes that the inner reader stands at 0.
* C35, C36, C68 demuxer.rs: `MoreDataNeeded(k)` is compared with the number of buffered bytes, so `read_event`
  can loop without reading (`c35_exact_partial`: the only loop there is); the demuxer of the library's own tests
  does so whenever one byte is buffered. `read_headers` loops on every truncated stream, its buffer growing
  (`c36_exact_partial`); the result of its seek is dropped.
  C109: `grow` with a request near `usize::MAX`, or beyond `isize::MAX` in total, panics.
* C166 demuxer.rs: `read_event_internal` asks the demuxer for the event and then moves the reader; if that fails, the event is dropped
  though the demuxer has gone on. A stream announced by it is never registered (`c166_fails`).
* C46, C69 pixel.rs: strides below 8 bits are too small, above 8 bits too large.
* C48, C50, C73 frame.rs: `copy_plane` reads and writes out of bounds for planes shorter than a row or than each
  other; subsampled components copy padding; only one byte per column is copied for deep samples.
  C111: without overflow checks the size of a default frame can wrap, and copies overrun its planes.
* C52, C53, C63, C71, C72 pixel.rs: setters change a temporary; wrong constants in predefined formats;
  `get_total_depth` overflows a `u8`; Display shifts by 32 or more; a model is called YCbCg.
* C55, C64 audiosample.rs: channel positions are truncated to 8 bits; Display swaps two flags.
* C57 stream.rs: default ids are taken before the index is assigned. C80 packet.rs: `default` and `new` differ.
* C61, C74 src/io/byteread.rs: `peek_*` reports the end when `fill_buf` shows too little; an interrupted read
  loses bytes.
* C88 demuxer.rs: a score of exactly `PROBE_SCORE_EXTENSION` is not enough for `probe`. C89: streams announced by
  events keep the index they come with (`Stream::from_params`: 0), so a packet can get another stream's timebase.
* C93 codebook.rs: `TableCodebookDescReader` casts the number of an entry to the symbol type, so with `u8` symbols
  entry 256 decodes to 0.
* C105 codebook.rs: the number of the symbol is kept in 24 bits without a check that it fits.
* C76 muxer.rs: positions count from the construction of the writer, not from the sink's position.
* C121 on 32-bit targets a `Writer` panics on the write that reaches 4 GiB, after the sink has taken the bytes
  (muxer.rs:44; without overflow checks its position starts again at 0), and a seek beyond 4 GiB leaves a wrong position
  (muxer.rs:61).
* C123 on 32-bit targets `available` of a bit reader over 512 MiB or more panics, or is too small without overflow
  checks (bitread.rs:207).
* C126 on 32-bit targets the size of a picture of more than 4 GiB wraps (without overflow checks), and copies of the
  frame leave its planes.
* C127 on 32-bit targets `AccReader::seek` truncates positions and distances: a seek to 4 GiB + 2 answers 2.
* C129 `read_event` grows the buffer by every request that exceeds what is buffered (demuxer.rs:149-153), even if the buffer
  has room for it, so that demuxing records of one byte takes a buffer of any size.
* C130 The texts of `ColorPrimaries::Reserved0` and `TransferCharacteristic::Reserved0` are "Identity" (pixel.rs:292, 403), the name
  of matrix 0; H.273 reserves both.
* C131 `read_cb` asks `available` for the number of bits left (codebook.rs), which overflows a `usize` of 32 bits in front of
  512 MiB; it then panics in builds with overflow checks. Without them the result is right, since only the lowest 32 bits are used. A book
  of 2^20 codewords of 30 bits with different first 20 bits cannot be built there at all: its table takes more than 2 GiB.
* C135 `read_event` grows the buffer before it finds that nothing has come (demuxer.rs:149-157), so that polling a stream takes
  memory without bound.
* C142 on 32-bit targets demuxing panics at the first record that ends behind 4 GiB (accreader.rs:184, overflow checks on), and a
  record of 4 GiB and a few bytes is skipped by the few bytes only (accreader.rs:183).
* C143 on 32-bit targets a muxer that asks the writer for its position behind 4 GiB is told it modulo 4 GiB (muxer.rs:29-31, 44,
  61), or the write panics (overflow checks on) after the sink has taken the bytes.
* C145 one call of `fill_buf` before `probe` is not enough. It shows what one `read` delivers, so that a file read from a pipe or a
  socket may be taken for another format than the same file on disk. `PROBE_DATA` is not used by the library.
* C146: transfer characteristic 1 is documented as BT.709 (a camera curve) and functionally equal to 6, 14 and 15, but variant and
  text call it BT.1886 (a display curve).
* C149 `BufRead` documents `fill_buf` as filling the buffer if it is empty. The one of `AccReader` (accreader.rs:142-157)
  asks the inner reader whenever the buffer is not full to the last byte, so over a connection it waits or fails although
  bytes are there to be used. `data` shows them in any case.
* C151 `self.end += read` (accreader.rs:148) trusts the count of the inner reader. Without overflow checks a count of
  2^64 - j, with at least j bytes buffered, is not noticed and takes the last j bytes away; `consume(total)` in a read larger
  than the buffer (accreader.rs:120-122) may step back, so that consumed bytes are shown again.
* C152: a demuxer that steps back with `SeekFrom::Current` finds other packets with another capacity of the buffer.
* C153: the loop of /repo/benches/bitstream.rs ends only for inputs of whole words; otherwise `available` stays at the
  bits behind the last one, since skipping beyond them does not change it.
* C140 accreader.rs: a seek that fails while refilling has moved the reader although it returns an error (194-203), so that
  an `AccReader` around it delivers bytes from elsewhere behind those it holds.
* C167: a `Muxer` has only `Write`. A call that fails after its first bytes and is repeated writes them twice.
* C171 demuxer.rs: going back over a record that announces a stream registers the stream again (118-120), so that later
  packets can get another timebase than before.
* C172 frame.rs: `copy_frame_to_buffer` zips the destinations before the planes (511-512), so that it takes one destination and one
  line size too many from iterators passed by reference; the next frame lands one slice further, or nowhere.
* C175 encoder.rs, in the tests: `get_params` of the dummy encoder gives the width as the height and the height as the width (251-252)
  and checks the width twice (245), so that it panics when only the height is missing.

## Conformance with the library's tests

`Verif/Conform` repeats the library's own `#[test]` functions (and the loop of its bit reader benchmark; for any input in `Conform/Benches`) on the model,
one `example` each: the same calls must return what the assertions ask for. This does not prove a property; it guards
against a wrong transcription. All of them hold. One of them shows more: `test_frame_copy_from_slice` (frame.rs:640),
marked `#[should_panic]`, reads 42 bytes from slices of one byte before it comes to the panic it is after, so the test
itself executes undefined behaviour (`copyTest_ub`; compare C48).

## Mutation testing

`tools/mutate.py` edits the model in a scratch copy (with the examples removed, so that only theorems can
object) and rebuilds; `tools/log_mutants.py` turns its results into `seeded/LOG.jsonl`. Edits are generated
(boundaries, arithmetic, conditions, constants, dropped fields, swapped arguments) or written by hand. Mutants that
survived and were not equivalent led to the theorems named under "tightened".

## Axioms

<!-- axioms -->
| Axioms | Theorems |
|---|---|
| none | `Pixel.c51_published`, `Pixel.c52_setters_partial`, `Pixel.c52_fails`, `Pixel.c53_colour`, `Audio.c54_names_distinct`, `Pixel.c63_fails`, `Stream.c57_fails`, `Mux.c38_position`, `Mux.c76_position_partial`, `Mux.c76_fails`, `Text.c77_small`, `Access.c78_video_setters`, `Access.c78_audio`, `Access.c78_soniton`, `Access.c78_chromaton`, `Access.c78_contexts`, `Text.c79_frame_types`, `Access.c80_default_partial`, `Access.c80_fails`, `Audio.c81_formats`, `Pixel.c146_tables` |
| propext | `Acc.c26_fails`, `Acc.c67_fails`, `Pixel.c46_fails`, `Conform.copyTest_ub`, `Frame.c48_fails`, `Frame.c48_overrun_fails`, `Frame.c50_fails`, `Audio.c54_classified`, `Audio.c55_channels`, `Audio.c64_fails`, `Pixel.c69_fails`, `Pixel.c70_names_distinct`, `Pixel.c71_fails`, `Pixel.c72_fails`, `Frame.c73_fails`, `Mux.c38_results`, `Demux.c68_fails`, `Value.c75_value`, `Value.c75_into`, `Text.c77_texts`, `Access.c78_stream`, `Text.c79_kinds`, `Codebook.c82_lsb_order_fails`, `Codebook.c82_fails`, `Frame.c85_blank`, `Demux.c88_fails`, `Codebook.c92_empty`, `Demux.c109_fails`, `Frame.c111_fails`, `Pixel.c120_components`, `Mux.c124_total`, `Frame.c126_fails`, `Codec.c128_decoder`, `Codec.c128_encoder`, `Mux.c143_fails`, `Pixel.c146_names`, `Live.c150_attained`, `Live.c151_fails`, `Live.c151_again_fails`, `Demux.c152_fails`, `RoundTrip.c154_in_order`, `Live.c155_calls`, `Frame.c159_default`, `Mux.c167_fails`, `Frame.c172_fails` |
| Quot.sound, propext | `Bytes.c01_put_get`, `Bytes.c02_put_frame`, `Bytes.c03_get_value`, `Bytes.c03_get_signed`, `BitRead.c07_peek`, `BitRead.c12_skip_to_end_fails`, `BitRead.c12_available_panics`, `Codebook.c19_unused`, `Codebook.c20_fails`, `Codebook.c21_fails`, `Codebook.c22_reverse`, `Codebook.c22_involution`, `Frame.c47_audio`, `Pixel.c46_data_size`, `Frame.c47_video`, `Pixel.c51_matrix`, `Pixel.c51_primaries`, `Pixel.c51_transfer`, `Pixel.c53_formats_partial`, `Pixel.c53_wrong_partial`, `Pixel.c53_fails`, `Audio.c55_find_partial`, `Audio.c55_default`, `Audio.c55_fails`, `Audio.c55_exact_partial`, `Frame.c58_decided`, `Frame.c58_equivalence`, `Frame.c58_insensitive`, `Pixel.c62_new`, `Pixel.c63_total_partial`, `Stream.c56_table`, `Stream.c56_indices`, `Stream.c57_ids_partial`, `Stream.c57_exact_partial`, `Packet.c59_get`, `ByteIo.c61_fails`, `Demux.c33_direct`, `Demux.c33_error`, `Demux.c35_fails`, `Demux.c37_probe`, `Mux.c39_calls`, `Mux.c40_byName`, `Demux.c68_event_partial`, `Access.c78_video`, `Access.c78_formaton`, `Demux.c89_fails`, `Codebook.c92_reader`, `Codebook.c93_missing_codes`, `ByteIo.c94_no_room`, `Codebook.c96_codeword`, `Codebook.c96_description`, `BitRead.c99_fails`, `BitRead.c100_fails`, `BitRead.c100_65_fails`, `BitRead.c100_release_fails`, `Acc.c102_contract`, `Codebook.c105_words_partial`, `Frame.c110_agrees`, `Frame.checked_model`, `BitRead.c112_agrees`, `BitRead.checkedOps_model`, `BitRead.c113_fails`, `Codebook.c115_agrees`, `Codebook.checkedBook_new`, `Codebook.c116_fails`, `Acc.c117_agrees`, `Acc.checkedAcc_run`, `Acc.c118_fails`, `Mux.c121_partial`, `Mux.c121_exact_partial`, `Mux.c121_fails`, `Mux.c122_panics`, `BitRead.c123_available_fails`, `BitRead.c123_fails`, `BitRead.narrowOps_64`, `Mux.c124_file`, `Mux.c124_patch`, `Frame.narrow_64`, `Acc.c127_consume_partial`, `Live.runN_link`, `Acc.c127_fails`, `Acc.narrowAcc_64`, `Live.sees_known`, `Live.run_link`, `BitRead.c138_merge`, `BitRead.c138_build`, `BitRead.c138_needed`, `Live.c142_fails`, `Mux.c143_below_partial`, `Mux.c143_exact_partial`, `Demux.c145_once_is_not_enough`, `Live.c151_agree`, `Mux.c157_appends`, `Mux.sink_appends`, `Mux.sink_steady`, `Frame.c159_calls`, `Demux.c166_fails`, `Demux.c171_fails`, `Frame.c172_limit`, `RoundTrip.c174_schedules`, `RoundTrip.c174_every`, `Conform.c175_decoder`, `Conform.c175_decoder_fails`, `RoundTrip.c176_every`, `Demux.c177_depends`, `RoundTrip.c182_decFine`, `RoundTrip.c182_encFine`, `RoundTrip.c183_bytes`, `RoundTrip.c183_rounds`, `RoundTrip.c183_one` |
| Classical.choice, Quot.sound, propext | `Bytes.c02_disjoint_writes`, `BitRead.c04_le_stream`, `BitRead.c05_be_stream`, `BitRead.c06_position`, `BitRead.c07_insert`, `BitRead.c08_align`, `BitRead.c08_alignUp_minimal`, `BitRead.c09_skip_eq_discard`, `BitRead.c10_compose`, `BitRead.c10_agree`, `BitRead.c11_no_panic`, `BitRead.c11_zero_bits`, `BitRead.c12_whole_words_partial`, `BitRead.c12_fails`, `BitRead.c12_exact_partial`, `Codebook.c13_msb_decode`, `Codebook.c14_lsb_decode`, `Codebook.c15_sequence`, `Codebook.c16_reject`, `Codebook.c17_truncated_partial`, `Codebook.c17_exact_partial`, `Codebook.c17_fails`, `Codebook.c18_order`, `Codebook.c19_invalid`, `Codebook.c20_last_wins_partial`, `Codebook.c20_rule_partial`, `Codebook.c20_exact_partial`, `Codebook.c21_unmoved_partial`, `Codebook.c66_following_partial`, `Codebook.c66_fails`, `Acc.c23_fidelity`, `Acc.c23_concat`, `Acc.c24_position`, `Acc.c25_absolute`, `Acc.c25_succeeds`, `Acc.c26_relative_partial`, `Acc.c27_window`, `Acc.c28_eof`, `Acc.c29_errors`, `Acc.c30_readExact`, `Acc.c30_terminates`, `Acc.c30_splits`, `Acc.c67_offset_partial`, `Acc.c101_exact_partial`, `Audio.c43_align`, `Audio.c44_audio_size`, `Pixel.c45_dimensions`, `Pixel.c46_linesize_partial`, `Pixel.c46_exact_partial`, `Frame.c47_no_panic`, `Frame.c48_copy_plane_partial`, `Frame.c48_exact_partial`, `Frame.c48_frame_partial`, `Frame.c48_slice_partial`, `Frame.c49_copies`, `Frame.c49_roundtrip`, `Frame.c49_default`, `Frame.c50_plane_partial`, `Frame.c50_exact_partial`, `Audio.c54_named`, `Audio.c64_display_partial`, `Frame.c65_views`, `Frame.c65_aligned`, `Pixel.c69_minimal_partial`, `Pixel.c69_exact_partial`, `Pixel.c71_display_partial`, `Pixel.c71_format_partial`, `Pixel.c72_models_partial`, `Frame.c73_exact_partial`, `Packet.c59_get_total`, `Packet.c59_put`, `Packet.c59_roundtrip`, `ByteIo.c60_get`, `ByteIo.c60_sequence`, `ByteIo.c61_peek_partial`, `ByteIo.c61_byte_partial`, `ByteIo.c61_exact_partial`, `ByteIo.c74_byte_partial`, `ByteIo.c74_fails`, `ByteIo.c74_exact_partial`, `Demux.c31_timebase`, `Demux.c32_streams`, `Demux.c33_hidden`, `Demux.c33_passed`, `Demux.c34_eof`, `Demux.c34_acc`, `Demux.c35_terminates_partial`, `Demux.c35_skips_partial`, `Demux.c35_exact_partial`, `Demux.c35_half_partial`, `Demux.c36_result`, `Demux.c36_grows`, `Demux.c36_succeeds_partial`, `Demux.c36_exact_partial`, `Demux.c36_fails`, `Mux.c39_bytes`, `Mux.c39_prefix`, `Mux.c39_succeeds`, `Mux.c39_file`, `Demux.c68_partial`, `Demux.c68_exact_partial`, `Mux.c76_exact_partial`, `Codec.c41_registry`, `Codec.c42_decoder`, `Codec.c42_encoder`, `Text.c77_format`, `Text.c77_codec`, `Text.c79_texts`, `Audio.c81_sizes`, `Codebook.c82_total_partial`, `Codebook.c82_shift_exact_partial`, `Codebook.c82_short_exact_partial`, `Codebook.c82_msb_exact_partial`, `Codebook.c82_lsb_exact_partial`, `Codebook.c83_read_total`, `Codebook.c84_short_partial`, `Codebook.c84_long_first_partial`, `Codebook.c84_one_group_partial`, `Codebook.c84_exact_partial`, `Codebook.c84_iff_partial`, `Codebook.c84_fails`, `Frame.c85_stores`, `Frame.c85_refused`, `Acc.c86_inner`, `Acc.c87_capacity`, `Acc.c87_default`, `Demux.c88_threshold_partial`, `Demux.c89_exact_partial`, `Demux.c89_numbered_partial`, `Demux.c90_events`, `Demux.c90_file`, `RoundTrip.c91_roundtrip`, `Codebook.c92_short`, `Codebook.c93_table_partial`, `Codebook.c93_fails`, `ByteIo.c94_round_trip`, `BitRead.c95_bytes`, `Codebook.c96_decode`, `BitRead.c97_seven_bytes`, `BitRead.c97_read_tight`, `BitRead.c97_skip_tight`, `BitRead.c98_partial`, `BitRead.c98_fails`, `BitRead.c99_partial`, `BitRead.c99_exact_partial`, `BitRead.c100_partial`, `BitRead.c100_wide_partial`, `BitRead.c100_panics_exact_partial`, `Acc.c101_excess_partial`, `Acc.c101_fails`, `Acc.c102_overflow`, `Codebook.c103_histories`, `Codebook.c104_progress_partial`, `Codebook.c104_fails`, `Codebook.c105_modulo_partial`, `Codebook.c105_fails`, `RoundTrip.c106_pipeline`, `Acc.c107_readUntil`, `Acc.c107_readToEnd`, `Demux.c108_readEvent`, `Demux.c108_readHeaders`, `Demux.c109_same`, `Demux.c109_readEvent`, `Demux.c109_readHeaders`, `Frame.c111_like_shaped_partial`, `Frame.c111_exact_partial`, `BitRead.c113_exact_partial`, `BitRead.c113_partial`, `BitRead.c114_exact_partial`, `BitRead.c114_fails`, `Codebook.c116_partial`, `Acc.c117_cursor`, `Acc.c118_partial`, `Acc.c118_grow_partial`, `Acc.c118_consume_partial`, `Pixel.c119_component`, `Pixel.c119_packed`, `Pixel.c119_format`, `BitRead.c123_bytes_partial`, `BitRead.c123_partial`, `BitRead.c123_unchecked_partial`, `BitRead.c123_checked_partial`, `Frame.c125_agrees`, `Frame.land_unot_narrow`, `Frame.c126_partial`, `Frame.c126_exact_partial`, `Acc.c127_partial`, `Live.c127_exact_partial`, `Live.c127_noseek_partial`, `Demux.c129_partial`, `Demux.c129_fails`, `Pixel.c130_partial`, `Pixel.c130_fails`, `Codebook.c131_new`, `Codebook.c131_new_checked`, `Codebook.c131_new_unchecked`, `Codebook.c131_partial`, `Codebook.c131_unchecked_partial`, `Codebook.c131_exact_partial`, `Codebook.c131_read_fails`, `Codebook.c131_new_fails`, `Codebook.c131_fails`, `Codebook.c132_size`, `Codebook.c132_bound`, `Codebook.c132_short`, `Live.c133_live`, `Live.c133_resumes`, `Live.c133_concat`, `Live.feed_grows`, `Live.source_grows`, `Live.c134_events`, `Live.c134_next`, `Live.c134_headers`, `Live.c135_exact_partial`, `Live.c135_fails`, `Live.c136_follow`, `Live.c137_queue`, `Live.c137_fifo`, `BitRead.c138_stream`, `BitRead.c138_exact`, `BitRead.c138_panics`, `Codebook.c139_kraft`, `Codebook.c139_complete`, `Codebook.c139_incomplete`, `Live.c140_partial`, `Live.c140_queues_partial`, `Live.c140_fails`, `Live.c141_wild`, `Live.c141_honest`, `Live.c141_quiet`, `Live.c142_unchecked_partial`, `Live.c142_checked_partial`, `Live.c142_cut_partial`, `Live.c142_cut_checked_partial`, `Live.c142_border_partial`, `RoundTrip.c144_copy`, `RoundTrip.c144_remux`, `RoundTrip.c144_same`, `Demux.c145_seen`, `Demux.c145_open`, `Demux.c145_new`, `Demux.c145_unreadable`, `Demux.c145_once`, `Pixel.c146_partial`, `Pixel.c146_range`, `Pixel.c146_fails`, `Acc.c147_len`, `Acc.c147_rewind`, `Acc.c147_relative`, `Acc.c147_take`, `Live.c148_calls`, `Live.c148_amortised`, `Live.c149_fails`, `Live.c149_exact_partial`, `Live.c150_buffered`, `Live.c150_amortised`, `Live.c151_checked_partial`, `Live.c151_noticed_partial`, `Live.c151_wrapping_partial`, `Live.c151_safe`, `Demux.c152_partial`, `Demux.c152_file_partial`, `Demux.c152_endless_partial`, `Conform.c153_fails`, `Conform.c153_partial`, `Conform.c153_reads`, `Conform.c153_bytes`, `RoundTrip.c154_roundtrip`, `Live.c155_queue`, `Demux.c156_file`, `Mux.c157_file`, `Codebook.c158_programs`, `Frame.c159_any_buffer`, `Frame.c159_joined`, `RoundTrip.c160_delayed`, `Frame.c161_memory`, `Frame.c161_default`, `Frame.c161_views`, `Frame.c161_blank`, `RoundTrip.c162_coded`, `RoundTrip.c163_streams`, `RoundTrip.c164_transcode`, `RoundTrip.c165_calm`, `RoundTrip.c165_retry`, `Demux.c166_partial`, `Demux.c166_exact_partial`, `Mux.c167_partial`, `Mux.c167_exact_partial`, `Shared.c168_values`, `Shared.c168_holders`, `Shared.c168_reuse`, `Shared.c168_memory`, `Shared.c169_pictures`, `Shared.c169_frames`, `RoundTrip.c170_losses`, `RoundTrip.c170_file`, `RoundTrip.c170_formats`, `Demux.c171_exact_partial`, `Demux.c171_partial`, `RoundTrip.c171_video`, `Frame.c172_in_partial`, `Frame.c172_in_all_partial`, `Frame.c172_out_exact_partial`, `Frame.c172_take_partial`, `RoundTrip.c173_schedules`, `RoundTrip.c173_player`, `RoundTrip.c173_failing`, `RoundTrip.c174_recording`, `RoundTrip.c174_files`, `Conform.c175_exact`, `Conform.c175_partial`, `Conform.c175_fails`, `RoundTrip.c176_schedules`, `RoundTrip.c176_transcoding`, `RoundTrip.c176_files`, `RoundTrip.c176_narrow`, `Demux.c177_sound`, `Demux.c177_exact`, `Demux.c177_tests`, `Demux.c177_hangs`, `Demux.c177_default`, `Demux.c178_sound`, `Demux.c178_exact`, `Demux.c178_returns`, `Conform.c179_returns`, `Conform.c179_panics`, `Conform.c179_unwraps`, `Conform.c179_file`, `Conform.c179_misread`, `Conform.c179_unread`, `Conform.c179_test`, `RoundTrip.c180_convert`, `RoundTrip.c180_copies`, `RoundTrip.c181_told`, `RoundTrip.c181_whole`, `RoundTrip.c182_wired`, `RoundTrip.c183_calm`, `RoundTrip.c183_calm_retry`, `RoundTrip.c183_retry` |

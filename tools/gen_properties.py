#!/usr/bin/env python3
"""Writes /verif/properties.jsonl (the list of properties, one JSON object per line)."""
import json, os
P = []
def p(title, statement, quantifier, why, anchors):
    P.append(dict(id="C%02d" % (len(P) + 1), title=title, statement=statement,
                  quantifier=quantifier, why_tests_cant=why, anchors=anchors))

BW, BR = "bitstream/src/bytewrite.rs", "bitstream/src/byteread.rs"
BIT, CB = "bitstream/src/bitread.rs", "bitstream/src/codebook.rs"
ACC, DEM, MUX = "format/src/buffer/accreader.rs", "format/src/demuxer.rs", "format/src/muxer.rs"
PIX, FRM, AUD = "data/src/pixel.rs", "data/src/frame.rs", "data/src/audiosample.rs"
PKT, IOB = "data/src/packet.rs", "src/io/byteread.rs"
COM, STR = "format/src/common.rs", "format/src/stream.rs"
CDEC, CENC, CCOM = "codec/src/decoder.rs", "codec/src/encoder.rs", "codec/src/common.rs"
def a(f, *s): return {"file": f, "symbols": list(s)}

# ---- bytes -------------------------------------------------------------
p("Typed writes read back",
  "For every numeric type T and both byte orders, put_T(buf, v) followed by get_T(buf) with the same byte order yields v.",
  "every buffer of at least size_of::<T>() bytes with any contents, every value of every type u8,i8,u16,i16,u32,i32,u64,i64,f32,f64 (floats as bit patterns), both byte orders",
  "tests write 1, 2 and 255 only; a swapped or dropped byte shows only for values whose bytes differ", [a(BW, "put_*"), a(BR, "get_*")])
p("Typed writes touch only their own bytes",
  "put_T keeps the buffer length, overwrites exactly the first size_of::<T>() bytes and leaves all later bytes unchanged; it panics exactly when the buffer is shorter than size_of::<T>().",
  "every buffer of every length and contents, every value and type", "the tail contents and all lengths cannot be enumerated", [a(BW, "put_*", "write_bytes_le", "write_bytes_be")])
p("Typed reads have the positional value of the byte order",
  "get_T of a buffer is the sum of byte i times 256^i (little-endian) or 256^(k-1-i) (big-endian) over the first k = size_of::<T>() bytes, interpreted in two's complement for signed types; bytes after the first k have no influence; it panics exactly when fewer than k bytes are present.",
  "every buffer of every length and contents, every integer type, both byte orders", "2^64 buffers for the widest types", [a(BR, "get_*")])
# ---- bit reader --------------------------------------------------------
p("Little-endian bit reader delivers the stream's bits in order",
  "After any sequence of get_bit / get_bits_32(n<=32) / get_bits_64(n<=64) / skip_bits / align_bits / peek operations that stays within the data (buffer minus its 8 bytes of padding), each read of n bits returns the next n bits of the buffer, counting bits from the least significant bit of each byte, the first bit read being the least significant bit of the result.",
  "every buffer, every finite sequence of operations, every cache/refill alignment reached", "the cache state depends on the whole history of operations; refill boundaries interact with every read size", [a(BIT, "BitReadLE", "get_bit", "get_bits_32", "get_bits_64", "refill32", "refill64")])
p("Big-endian bit reader delivers the stream's bits in order",
  "As C04 for the big-endian reader: bits are counted from the most significant bit of each byte and the first bit read is the most significant bit of the n-bit result.",
  "every buffer, every finite sequence of operations, every cache/refill alignment reached", "as C04", [a(BIT, "BitReadBE", "get_bit", "get_bits_32", "get_bits_64", "refill32", "refill64")])
p("Bit position accounting",
  "consumed() equals the total number of bits read and skipped so far, available() equals 8*len - consumed(), and neither panics.",
  "every buffer and every finite operation sequence staying within the data, both byte orders", "depends on whole histories", [a(BIT, "consumed", "available")])
p("Peeking is reading without moving",
  "peek_bit / peek_bits_32(n) / peek_bits_64(n) return exactly what the corresponding get would return next and leave the reader unchanged, so any number of peeks can be inserted anywhere in a history without changing any later result.",
  "every reader state and every n, in-bounds or not", "needs all states and all continuations", [a(BIT, "peek_bit", "peek_bits_32", "peek_bits_64")])
p("align_bits goes to the next byte boundary",
  "align_bits moves the position to the smallest multiple of 8 not below the current position (so at most 7 bits), and is idempotent.",
  "every reachable reader state, both byte orders", "depends on the cache fill reached by the history", [a(BIT, "align_bits")])
p("Skipping equals reading and discarding",
  "skip_bits(n) leaves the reader at position + n, so that every later read returns the same values as if the n bits had been read and discarded, whatever way n is split into several skips.",
  "every buffer, position and n with position + n inside the data", "skips cross refill boundaries in unboundedly many ways; the large-skip branch is only reached beyond 64 bits", [a(BIT, "skip_bits")])
p("Reads compose",
  "Reading a bits and then b bits gives the same information as reading a+b bits at once (little-endian: low part first; big-endian: high part first), and the 32-bit and the 64-bit read functions agree for n <= 32.",
  "every buffer, position, a and b with a+b <= 64, any mixture of the 32/64-bit APIs", "all split points over all cache alignments", [a(BIT, "get_bits_32", "get_bits_64", "merge_val", "build_cache")])
p("Reading past the end never panics and yields zero bits",
  "For any buffer (any length, padded or not) and any sequence of reads, peeks, skips and aligns, no operation with n within the width of its result panics; a read returns a value below 2^n; and bits beyond what can still be loaded read as 0.",
  "every buffer of every length, every finite operation sequence including overreads and overskips", "needs all lengths modulo the refill size and all histories", [a(BIT, "BitRead", "peek_val", "skip_rem")])
p("Every available bit can be read",
  "While available() reports k > 0, a read of n <= k bits returns the real next n bits of the buffer and lowers available() by n: no bit of the buffer is unreachable, and a loop `while available() > 0 { read }` terminates.",
  "every buffer and every finite operation sequence, both byte orders", "the failing states need particular mixes of 32-bit refills and buffer lengths", [a(BIT, "can_refill", "refill32", "available", "skip_bits")])
# ---- codebook ----------------------------------------------------------
p("Codebook decoding inverts encoding (MSB)",
  "For any prefix-free code description in MSB mode, Codebook::new succeeds, and read_cb on a big-endian reader whose next bits are codeword i (most significant bit first) returns symbol i and advances by exactly the codeword's length. (Tables of at most 2^24 entries; codewords lie in the data, i.e. end at least 8 bytes before the end of the buffer as the readers document; buffers below 2^32 bits, see C66.)",
  "every prefix-free set of codes with lengths 0..41 (0 = unused entry; longer lengths panic, see C82), every symbol, every following bits, every reader position", "multi-level escape tables are reached only by lengths above 10 and all code shapes matter", [a(CB, "Codebook::new", "read_cb", "build_esc_lut", "fill_lut_msb")])
p("Codebook decoding inverts encoding (LSB)",
  "As C13 for LSB mode and the little-endian reader (codeword's least significant bit first).",
  "every prefix-free set of codes with lengths 0..255, every symbol, every following bits, every reader position", "as C13", [a(CB, "Codebook::new", "read_cb", "build_esc_lut", "fill_lut_lsb")])
p("A sequence of codewords decodes to the sequence of symbols",
  "If the reader's next bits are the concatenation of codewords of any list of symbols, repeated read_cb returns exactly that list of symbols and ends exactly at the end of the concatenation. (Domain as in C13.)",
  "every prefix-free codebook, every finite list of symbols, every starting bit offset", "unbounded sequences, every refill alignment", [a(CB, "read_cb")])
p("Unknown codes are rejected",
  "If no codeword of the book is a prefix of the following bits, read_cb returns InvalidCode (never a symbol, never a panic); conversely when it returns a symbol, that symbol's codeword really was the next bits. (Domain as in C13, for every codeword of the book.)",
  "every prefix-free codebook, every buffer contents and position", "needs all bit patterns over all codebooks", [a(CB, "read_cb", "TABLE_FILL_VALUE")])
p("Truncated codewords are rejected",
  "read_cb never returns a symbol whose codeword would extend past the end of the buffer: in that case it returns InvalidCode.",
  "every prefix-free codebook, every buffer length and position", "depends on exact distance to end of buffer in every table level", [a(CB, "read_cb", "available")])
p("Codebook behaviour does not depend on hash map order",
  "The decoding function of a codebook is the same whatever order the escape-code hash maps happen to be iterated in.",
  "every prefix-free codebook, every iteration order of every hash map created during construction", "iteration order is randomised per process; tests see one order", [a(CB, "EscapeCodes", "build_esc_lut", "Codebook::new")])
p("Codebook::new: empty books rejected, unused entries ignored",
  "Codebook::new returns InvalidCodebook exactly when no entry has a non-zero length; entries with length 0 never influence decoding and symbol values are those of the used entries in description order.",
  "every code description", "all descriptions", [a(CB, "Codebook::new")])
p("Codebook::new rejects ambiguous codes",
  "A description in which one codeword is a prefix of another (or repeated) is rejected with InvalidCodebook instead of producing a book that silently mis-decodes.",
  "every non-prefix-free code description", "all descriptions", [a(CB, "Codebook::new")])
p("A rejected code leaves the reader where it was",
  "When read_cb returns an error the reader has not moved, so the caller can report or resynchronise at the offending code.",
  "every codebook, reader state and failing input", "only multi-level tables exhibit the failure", [a(CB, "read_cb")])
p("reverse_bits mirrors the word",
  "Bit i of reverse_bits(x) is bit 31-i of x; hence it is an involution.",
  "all 2^32 inputs", "2^32 inputs", [a(CB, "reverse_bits")])
# ---- AccReader ---------------------------------------------------------
p("AccReader delivers the stream unchanged and in order",
  "For every interleaving of read, fill_buf, consume, grow, reset_buffer_position, absolute seeks and forward relative seeks, and however the underlying reader splits its reads, the bytes delivered are those of the underlying stream at the logical position, with no loss, duplication or reordering.",
  "every stream, every capacity (including 0), every operation history, every short-read behaviour of the inner reader", "short reads, buffer wrap and bypass branch interleave in unboundedly many ways", [a(ACC, "read", "fill_buf", "consume", "seek", "grow", "reset_buffer_position")])
p("AccReader reports the true stream position",
  "stream_position() equals the start position plus all bytes read or consumed, or the last seek target plus bytes delivered since, without doing I/O.",
  "every operation history as in C23", "depends on the whole history", [a(ACC, "index", "seek", "consume")])
p("AccReader absolute seek",
  "seek(Start(n)) returns n and the next bytes delivered are those at offset n; seek(End(d)) positions at len+d; a target before the start is an error that leaves position and data unchanged.",
  "every state reached by any history, every target, whether or not it lies in the buffered window", "window-relative arithmetic depends on history", [a(ACC, "seek")])
p("AccReader relative seek",
  "seek(Current(d)) moves the logical position by exactly d, forward or backward, and reports the new position.",
  "every state reached by any history, every d of either sign", "depends on how much is buffered at that moment", [a(ACC, "seek")])
p("AccReader window",
  "data()/current_slice() is always a prefix of the undelivered stream; fill_buf only extends it at the end; grow changes neither data nor position; consume(k) drops exactly the first k bytes of it.",
  "every operation history", "depends on the whole history", [a(ACC, "data", "current_slice", "fill_buf", "grow", "consume")])
p("AccReader signals end of stream only at the end",
  "read into a non-empty buffer returns 0, and fill_buf with room in the buffer fails to extend the window, only when the logical position plus window has reached the end of the stream.",
  "every operation history, every capacity, every short-read behaviour of a reader that itself returns 0 only at its end", "depends on branch taken: buffered, bypass, refill", [a(ACC, "read", "fill_buf")])
p("I/O errors lose no data",
  "If the underlying reader fails during read, fill_buf or seek, the error is reported and the logical position and the bytes still to be delivered are unchanged (for a seek whose repositioning succeeded but whose refill failed, they are those of the target).",
  "every operation history with failures injected at any inner call", "failure points times histories", [a(ACC, "read", "fill_buf", "seek")])
p("read_exact over AccReader",
  "read_exact(n) succeeds exactly when n bytes remain, returning those n bytes and advancing by n, for any capacity and any splitting into successive read_exact calls.",
  "every stream, capacity, n and history, every short-read behaviour", "unbounded sizes and splits", [a(ACC, "read")])
# ---- demuxer -----------------------------------------------------------
p("Packets get their stream's timebase",
  "A packet returned by read_event has the timebase set by the demuxer if it set one, otherwise the timebase of the first known stream whose index equals the packet's stream_index, otherwise none; all other packet fields are exactly the demuxer's.",
  "every demuxer behaviour, every list of streams, every packet", "all stream tables and packets", [a(DEM, "read_event_internal")])
p("New streams are registered exactly once",
  "Over any history of read_event calls, the context's stream list is extended by exactly the streams of the returned NewStream events, in order, and is changed by nothing else (errors, packets, retries).",
  "every demuxer behaviour and every history of calls", "whole histories", [a(DEM, "read_event_internal", "read_event")])
p("read_event hides buffering",
  "read_event never returns a MoreDataNeeded event or a MoreDataNeeded error; every other demuxer result or error is passed through unchanged after applying its seek.",
  "every demuxer behaviour, every reader behaviour, every number of internal retries", "unbounded retries", [a(DEM, "read_event")])
p("Eof means the data ran out",
  "read_event turns a demuxer's request into Eof only when the demuxer asked for more bytes than are buffered and the reader, given room for them, delivered no further byte.",
  "every demuxer behaviour and stream", "depends on buffer state reached", [a(DEM, "read_event"), a(ACC, "fill_buf", "grow")])
p("read_event terminates when the demuxer makes progress",
  "If the demuxer, whenever it is shown more bytes than the amount it asked for was missing, eventually answers, read_event returns; in particular a demuxer asking for k more bytes than it has is given more data or Eof.",
  "every demuxer following the documented convention (`k more bytes needed`), every stream", "livelock cannot be observed by a finite test", [a(DEM, "read_event"), a("format/src/error.rs", "MoreDataNeeded")])
p("read_headers retries until the headers fit",
  "read_headers returns Ok exactly when the demuxer accepts, errors are passed through, and the demuxer is re-run on ever larger windows while it asks for more; on a truncated stream it returns instead of looping forever.",
  "every demuxer behaviour and stream", "livelock cannot be observed by a finite test", [a(DEM, "read_headers")])
p("Probe picks the best format",
  "probe returns a descriptor with the maximal score, the earliest one among equals, and returns none exactly when no score exceeds 50.",
  "every list of descriptors, every score assignment, every data", "all lists", [a(DEM, "Probe", "PROBE_SCORE_EXTENSION")])
# ---- muxer -------------------------------------------------------------
p("Writer position follows the sink",
  "For a sink that starts empty at 0, position() equals the sink's own position after any sequence of writes (also short ones), seeks and failures; failed operations do not change it.",
  "every operation history, every short-write/failing sink", "whole histories", [a(MUX, "Writer")])
p("Muxing context preserves order and stops on errors",
  "For a muxer that writes given bytes for header, packets and trailer, the sink receives header, packets in call order, trailer, nothing else; every muxer call happens exactly once per context call; write_trailer flushes after a successful trailer and never after a failed one; errors are passed through.",
  "every muxer behaviour and every call history", "whole histories", [a(MUX, "Context")])
p("Format lookup by name",
  "by_name returns the first descriptor with that name and none exactly when there is none.",
  "every descriptor list and name", "all lists", [a(MUX, "Lookup", "by_name")])
# ---- codec -------------------------------------------------------------
p("Codec registry",
  "After any sequence of append calls (or from_list), by_name(n) returns the first appended descriptor whose codec name is n, none exactly when there is none, and never panics.",
  "every sequence of descriptors and every name", "whole histories", [a(CDEC, "Codecs"), a(CENC, "Codecs"), a(CCOM, "from_list")])
p("Codec contexts are transparent",
  "A decoder/encoder Context created by name forwards every call once to a fresh codec object in order, returning its results unchanged; it is none exactly when the name is unknown.",
  "every codec implementation and every call history", "whole histories", [a(CDEC, "Context"), a(CENC, "Context")])
# ---- data --------------------------------------------------------------
p("Alignment rounds up to the least multiple",
  "Sizes aligned to a power of two a are the least multiple of a not below the unaligned size.",
  "every size and every power-of-two alignment without overflow", "unbounded sizes", [a(AUD, "align", "get_audio_size"), a(PIX, "align", "get_linesize")])
p("Audio buffers are large enough",
  "get_audio_size(n, align) holds n samples: n*bits bits when packed, n times whole bytes otherwise, and is less than one alignment unit larger; a frame's size is that times the number of channels.",
  "every format, sample count, power-of-two alignment", "unbounded sizes", [a(AUD, "get_audio_size"), a(FRM, "AudioInfo::size")])
p("Subsampled dimensions round up",
  "get_width/get_height are ceil(size / 2^subsampling): every luma column/row has a chroma sample and none is unused.",
  "every dimension and subsampling shift", "unbounded sizes", [a(PIX, "get_width", "get_height")])
p("A line fits in its stride",
  "get_linesize(width, align) is at least the ceil(component width * depth / 8) bytes a line occupies, and get_data_size is the stride times the component height.",
  "every component definition, width and alignment", "unbounded sizes and depths", [a(PIX, "get_linesize", "get_data_size")])
p("Default frames have the right planes",
  "new_default_frame never panics for valid formats and yields one zeroed plane per component with the component's stride and exactly stride*height bytes (video), or one plane per channel / one interleaved plane (audio); the planes together occupy exactly size(32) bytes.",
  "every format and dimension", "unbounded sizes", [a(FRM, "DefaultFrameBuffer::new", "VideoInfo::size", "AudioInfo::size")])
p("Frame copies stay in bounds",
  "copy_plane_to_buffer, copy_frame_to_buffer and copy_from_slice never read or write outside the given slices and the frame's planes: they copy or panic.",
  "every frame, destination size and line size", "out-of-bounds raw copies are silent", [a(FRM, "copy_plane", "copy_plane_to_buffer", "copy_frame_to_buffer", "copy_from_slice")])
p("Frame copies move the picture",
  "When strides and slices are large enough, copy_frame_to_buffer writes to row r of each destination plane the first component-width bytes of row r of the frame's plane and changes no other byte; copy_from_slice is the converse; copying in and then out with any strides restores every row.",
  "every 8-bit planar format, dimensions, strides and contents", "unbounded sizes", [a(FRM, "copy_plane", "copy_frame_to_buffer", "copy_from_slice")])
p("Single-plane copy respects subsampling",
  "copy_plane_to_buffer(i) copies component i's own width and height.",
  "every format, plane and dimension", "unbounded sizes", [a(FRM, "copy_plane_to_buffer")])
p("Colour code points convert both ways",
  "from_u32 of MatrixCoefficients, ColorPrimaries and TransferCharacteristic returns a value exactly for the listed code points, and to_u32/from_u32 are inverse.",
  "all 2^32 integers and all enum values", "2^32 inputs", [a(PIX, "MatrixCoefficients", "ColorPrimaries", "TransferCharacteristic")])
p("Format setters take effect",
  "set_primaries/set_xfer/set_matrix (and the _from_u32 variants on a valid code point) change what the corresponding getter returns.",
  "every format and value", "all formats", [a(PIX, "set_primaries", "set_xfer", "set_matrix", "set_primaries_from_u32")])
p("Predefined formats match their names",
  "Each predefined planar YUV format has the chroma subsampling its 4:x:y name denotes and the same bit depth (8 or 10) in all its components; packed RGB formats' components fit their element size without overlap.",
  "all predefined formats, components and dimensions", "the finite table must be checked against the naming convention for all dimensions", [a(PIX, "formats")])
p("Channel positions are classified uniquely",
  "Every channel type is exactly one of left, right, centre; channel names are distinct.",
  "all channel types", "finite but must be exhaustive", [a(AUD, "is_center", "is_left", "is_right", "ChannelType")])
p("Channel map lookup",
  "After any sequence of add_channel/add_channels, len/get_channel give the channels in order, and find_channel_id(t) is the position of the first t and none exactly when t is absent.",
  "every sequence of additions", "unbounded sequences", [a(AUD, "ChannelMap")])
p("Stream table indices",
  "Streams added with add_stream get index = their position, the returned value is that index, previously added streams are unchanged, explicit non-negative ids are kept.",
  "every sequence of add_stream calls", "whole histories", [a(COM, "add_stream"), a(STR, "from_params")])
p("Stream ids are unique",
  "Streams added with default (negative) ids get pairwise distinct ids, as the id documentation requires.",
  "every sequence of add_stream calls", "whole histories", [a(COM, "add_stream"), a(STR, "Stream")])
p("Stream-info equality is an equivalence",
  "Equality of frame VideoInfo (and AudioInfo) is reflexive, symmetric, transitive, insensitive to frame type, orientation, declared bits (sample count, block length), and decided by exactly width, height, format (sample rate, map, format).",
  "all values", "all triples of values", [a(FRM, "VideoInfo", "AudioInfo", "PartialEq")])
p("Packets survive the wire",
  "put_packet writes exactly the packet's data; get_packet(n) returns a packet with the next n bytes or fails with unexpected-EOF when fewer remain; writing packets and reading them back by length restores all of them.",
  "every list of packets, every short-read/short-write behaviour", "unbounded sequences", [a(PKT, "get_packet", "put_packet")])
p("Typed stream reads",
  "ByteRead::get_T on a stream returns the value of the next size_of::<T>() bytes and advances by exactly that many, for any splitting of the underlying reads; with fewer bytes left it fails with UnexpectedEof; a sequence of typed reads equals slicing the stream.",
  "every stream, type, sequence of typed reads, short-read behaviour", "unbounded sequences and splits", [a(IOB, "ByteRead", "get_buffer")])
p("Typed stream peeks",
  "BytePeek::peek_T returns what get_T would return next and consumes nothing; it fails only when fewer than size_of::<T>() bytes remain in the stream.",
  "every buffered stream state and type", "depends on buffering state", [a(IOB, "BytePeek")])
p("Format description construction",
  "Formaton::new stores the given components in order in the first slots, leaves the others empty, reports their number, and panics exactly for more than five components; get_chromaton(i) is component i or none.",
  "every list of components", "all lists", [a(PIX, "Formaton::new", "get_chromaton", "get_num_comp")])
p("Total depth",
  "get_total_depth is the sum of the component depths.",
  "every format", "all formats", [a(PIX, "get_total_depth"), a(FRM, "VideoInfo::new")])
p("Sample format description text",
  "The displayed text of an audio format shows the planar flag after `planar:` and the packed flag after `packed:`.",
  "every format", "all formats", [a(AUD, "Display for Soniton")])
p("Typed views of planes",
  "as_slice::<T> / as_mut_slice::<T> of a default frame's plane succeed for u8, i16 and f32 whenever the plane is suitably aligned, and cover the whole plane; an invalid plane index is InvalidIndex.",
  "every default frame, plane index and element type", "all formats and dimensions", [a(FRM, "FrameBufferConv", "as_slice", "linesize")])
p("Decoding does not depend on how much data follows",
  "What read_cb decodes depends on the following bits only up to the end of the codeword, not on how long the rest of the buffer is.",
  "every prefix-free codebook, every amount of following data", "needs buffers of half a gigabyte", [a(CB, "read_cb", "available")])
p("AccReader over a reader that is not at its start",
  "An AccReader created over a reader standing at byte k reports positions of the underlying stream, and seek(Start(n)) leads to byte n of it.",
  "every k, every history", "only readers handed over in the middle of a stream show it", [a(ACC, "with_capacity", "seek")])
p("A failed repositioning after the headers is reported",
  "If read_headers cannot move the reader to where the demuxer asked (the seek fails), it does not report success.",
  "every demuxer and every failing reader", "needs a reader whose seek fails at that moment", [a(DEM, "read_headers", "read_headers_internal")])
p("Line sizes are minimal",
  "get_linesize(width, align) is the least multiple of align that holds a line (documented as the minimal stride).",
  "every component definition, width and power-of-two alignment", "tests show a few formats and widths", [a(PIX, "get_linesize")])
p("Colour code point names are distinct",
  "The displayed texts of the values of MatrixCoefficients, ColorPrimaries, TransferCharacteristic, and of the colour models, are pairwise distinct within each enumeration.",
  "all pairs of values of each enumeration", "all pairs", [a(PIX, "Display")])
p("Formatting a format never panics",
  "Displaying a component or a pixel format never panics.",
  "every component and format that can be constructed", "only unusual depths show it", [a(PIX, "Display for Chromaton", "Display for Formaton")])
p("Colour model text is the model's name",
  "The displayed text of a colour model is the name of that model.",
  "all colour models", "a misspelling is not looked for", [a(PIX, "Display for YUVSystem", "Display for ColorModel", "Display for TrichromaticColorSystem")])
p("Frame copies move whole lines for every depth",
  "copy_frame_to_buffer copies every byte of every sample of each line, also when a sample is wider than 8 bits.",
  "every format, dimensions and contents", "all depths and dimensions", [a(FRM, "copy_frame_to_buffer", "copy_from_slice", "copy_plane")])
p("Interrupted typed reads lose nothing",
  "A get_T that fails because the reader was interrupted has consumed nothing, so repeating it returns the value it would have returned.",
  "every reader, every pattern of short reads and interruptions, every type", "needs an interruption in the middle of a value", [a(IOB, "get_buffer", "ByteRead")])
p("Option values arrive unchanged",
  "Converting a value of a supported type to an option value gives one that reads back as exactly this value under its own type and under no other.",
  "every value of every supported type", "all values", [a("data/src/value.rs", "Value", "From")])
p("Writer over a sink that is not at its start",
  "A Writer created over a sink standing at byte k reports the sink's position.",
  "every k, every history of operations", "only sinks handed over in the middle show it", [a(MUX, "Writer")])
p("Errors can be told apart by their text",
  "Different errors have different texts (any two I/O errors share one), an I/O error's cause is the wrapped error and no other error has a cause.",
  "all pairs of errors of av-format, av-codec, av-data and av-bitstream, with all payloads", "payloads are unbounded", [a("format/src/error.rs", "Error", "Display", "source"), a("codec/src/error.rs", "Error", "Display"), a(FRM, "FrameError"), a(CB, "CodebookError")])
p("Constructors and accessors agree",
  "Every accessor of a video, audio, pixel format, component, sample format, stream or packet description returns what the constructor was given (or its documented default), and setters change their own field only.",
  "all arguments", "all combinations of arguments", [a(FRM, "VideoInfo", "AudioInfo"), a(PIX, "Chromaton", "Formaton"), a(AUD, "Soniton"), a(STR, "from_params"), a(PKT, "with_capacity", "zeroed", "new")])
p("Media descriptions identify their kind",
  "The displayed text of a video description determines width and height, that of an audio description sample rate and channel count, and no video text is an audio text; a media kind is exactly one of video and audio and gives back the description it was made from; frame type names are distinct.",
  "all descriptions", "all numbers", [a(FRM, "Display", "MediaKind", "FrameType")])
p("The default packet is an empty packet",
  "Packet::default() equals Packet::new(): an empty packet not associated to a stream.",
  "the default value", "nothing compares the two", [a(PKT, "Default", "new")])
p("Predefined sample formats match their names",
  "Each predefined sample format has the width, signedness and number kind its name and documentation say, is interleaved, and n samples of it occupy n times its width.",
  "all predefined formats, every number of samples", "all lengths", [a(AUD, "formats", "get_audio_size")])
p("Codebook construction never panics",
  "Codebook::new never panics: for every description, also one with overlapping codes, it returns a book or InvalidCodebook.",
  "every description, every hash map order", "all descriptions", [a(CB, "Codebook::new", "build_esc_lut", "fill_lut")])
p("read_cb returns for every constructed book",
  "With a book constructed from any codes without bits above their length (of any length the construction takes: at most 41 bits in MSB mode, 255 in LSB mode), overlapping or not, whose look-up tables stay within the 24-bit offsets, read_cb returns, after at most one table look-up per ten bits of the longest code (four for codes of 32 bits), a symbol of the description or InvalidCode, in every reader state on which available() does not panic, and available() does not panic afterwards.",
  "every description with codes in range, every buffer, every reachable reader state", "needs all overlapping descriptions and all distances to the end of the data", [a(CB, "read_cb", "build_esc_lut")])
p("Codebook construction is deterministic",
  "The symbols decoded with a book depend on the description only, not on the iteration order of hash maps, for every description that is accepted.",
  "every accepted description, every pair of hash map orders", "iteration order is randomised per process", [a(CB, "EscapeCodes", "Codebook::new", "build_esc_lut")])
p("Stores through mutable plane views",
  "On a new frame whose memory is aligned, any sequence of stores through mutable views of u8, i16 or f32 elements inside their planes succeeds, and each byte of each plane is afterwards the one stored to it last, or zero; strides and the number of planes do not change. A missing plane gives InvalidIndex, a misaligned one that is not empty InvalidConversion, an element behind the end a panic.",
  "every media kind, every sequence of stores, every mixture of element types", "all interleavings of overlapping views", [a(FRM, "FrameBufferConv", "as_mut_slice", "DefaultFrameBuffer")])
p("into_inner loses exactly the buffered bytes",
  "After every history, the reader returned by AccReader::into_inner (and shown by get_ref) is the one handed over, standing exactly behind the bytes that data() shows: these followed by what it still delivers are the rest of the stream.",
  "every stream, capacity, reader behaviour and history, also after failures", "needs all histories of reads, seeks and failures", [a(ACC, "into_inner", "get_ref")])
p("AccReader buffers as much as its capacity says",
  "Over a reader that delivers all it is asked for, fill_buf shows after every history exactly the next bytes of the stream up to the initial capacity (4096 for new) plus everything grown since, or up to the end of the stream.",
  "every stream, capacity and history of reads, seeks, grows and resets", "needs all histories, including resets and seeks after growing", [a(ACC, "fill_buf", "grow", "new", "with_capacity")])
p("A score at the documented threshold is enough",
  "If some format's score for the data is at least PROBE_SCORE_EXTENSION, probe returns a format.",
  "every list of descriptors, every score, every data", "all scores, including exactly the threshold", [a(DEM, "PROBE_SCORE_EXTENSION", "probe")])
p("Streams announced by events are numbered",
  "After any history of read_event calls each stream known to the context has its position as its index, and a packet with the position of a stream and no timebase of its own gets the timebase of that stream.",
  "every demuxer, reader and history", "needs histories with several announcements", [a(DEM, "read_event_internal"), a(STR, "from_params")])
p("Demuxing depends on the bytes only",
  "For a demuxer that looks at the buffered bytes, recognises a record as soon as it is complete and asks for more otherwise, the headers and events returned through the context are those of the bytes of the stream, each record once and in order, then Eof, independent of the capacity of the AccReader and of how many bytes the reader delivers at a time; I/O failures come in between and change nothing.",
  "every such format, stream, capacity, reader behaviour and number of calls", "needs all ways of cutting a stream into pieces", [a(DEM, "read_headers", "read_event"), a(ACC, "fill_buf", "seek")])
p("What is muxed can be demuxed",
  "If the parsers of a format undo what a muxer writes, then muxing any packets through a context and Writer into a sink, and demuxing the bytes through AccReader and a context, gives back the streams and packets in order and then Eof, however short single writes and reads are.",
  "every such muxer and format, every list of packets, every sink and reader without failures, every capacity", "needs all cuts on both sides", [a(MUX, "Context", "Writer"), a(DEM, "Context"), a(ACC, "AccReader")])
p("Descriptions of a codebook are interchangeable",
  "Codebook::new makes the same book of every description that answers with the same lengths, codes and symbols; with a list of ShortCodebookDesc, read_cb returns the number (as u32) of the entry whose codeword is next and stops behind it; is_empty tells whether len is 0.",
  "every description, every prefix-free list of codes, every buffer and in-data history", "all descriptions and all positions of unused entries", [a(CB, "CodebookDescReader", "ShortCodebookDesc", "FullCodebookDesc", "Codebook::new")])
p("Two tables describe a codebook",
  "With a TableCodebookDescReader, read_cb returns the number of the entry whose codeword is next; fewer codes than lengths do not make a book.",
  "every pair of tables, every type of symbols, every buffer and in-data history", "needs more entries than the symbol type has values", [a(CB, "TableCodebookDescReader", "Codebook::new")])
p("Values written in sequence are read back from a stream",
  "Values of any of the integer and float types written one behind the other with put_* into a buffer with room for them change no other byte, and typed stream reads of the same types, from a reader delivering that buffer, return exactly these values in order, however the reads are split; without room the writing panics.",
  "every list of typed values, every buffer and offset, every reader without failures", "needs all mixtures of types and all ways of splitting reads", [a(BW, "put_u16l", "put_u32b"), a(IOB, "ByteRead", "get_buffer")])
p("Bit readers agree with the byte functions at byte boundaries",
  "After any history ending at a byte boundary o inside the data, reading 8, 16, 32 or 64 bits returns what get_u8, get_u16, get_u32, get_u64 of the reader's byte order read at buf[o..].",
  "every buffer, both readers, every in-data history ending at a byte boundary, every read function and type", "needs all histories that reach a boundary", [a(BIT, "get_bits_32", "get_bits_64"), a(BR, "get_u32b", "get_u32l")])
p("reverse_bits converts codebooks between modes",
  "reverse_bits(code) >> (32 - bits) turns each codeword into the one that is the same bit string in the other mode: the description stays prefix-free, and the book made from it for the other mode decodes, with the other reader, the same bit strings to the same symbols.",
  "every description of codes up to 32 bits, both directions, every buffer and in-data history", "all codewords and descriptions", [a(CB, "reverse_bits", "CodebookMode", "Codebook::new")])
p("Seven bytes of padding are enough for the bit readers",
  "On a buffer with 56 bits behind the last bit read (57 behind the end of a skip) every history of calls returns the bits of the stream; with 55 (56) it need not, however long the stream.",
  "every buffer, both readers, every history; tightness for streams of every length", "needs all alignments of the end of the buffer", [a(BIT, "can_refill", "refill32", "refill64", "skip_bits")])
p("A skip past the end leaves nothing to read",
  "After skip_bits(n) with n greater than the number of bits left, no bit remains: available is 0 and reads return zeros.",
  "every buffer, both readers, every history before, every n", "needs all states at the end of the buffer", [a(BIT, "skip_bits", "skip_rem")])
p("The positions of a bit reader do not overflow",
  "No history of calls makes index, left, consumed or available overflow a 64-bit usize.",
  "every buffer, both readers, every history, every n", "needs skips of astronomical length", [a(BIT, "skip_bits", "consumed", "available", "can_refill")])
p("A read wider than its result truncates",
  "get_bits_32(n) with n > 32 and get_bits_64(n) with n > 64 return the low bits of the n-bit number and move by n bits.",
  "every buffer, both readers, every in-data history, every n", "all widths and all numbers of cached bits", [a(BIT, "get_bits_32", "get_bits_64", "build_cache", "merge_val")])
p("Consuming more than is buffered",
  "AccReader::consume(k) with k larger than what data() shows consumes just what is shown (as std's BufReader does): the position reported afterwards is that of the next byte delivered, and seek(Start(n)) leads to byte n.",
  "every history, every amount, every inner reader", "tests consume within the buffered data; the desynchronised index shows only in later seeks", [a(ACC, "consume", "seek")])
p("AccReader positions do not overflow",
  "With 64-bit positions, over any inner reader (which reports u64 positions) of a stream of at most 2^63 bytes, no history of calls overflows in index + end - pos, pos + amt, index += amt, end += read or buf.len() + len.",
  "every history keeping the BufRead contract, every seek target up to u64::MAX, every capacity a Vec can have", "needs positions near 2^64", [a(ACC, "seek", "consume", "read", "fill_buf", "grow")])
p("Histories mixing bit reads and codebook reads",
  "Any history of bit reads, peeks, skips, alignments and read_cb calls with any number of codebooks returns, call by call, the bits and the codewords found at a cursor, and panics exactly when a codeword is looked up behind the end of the buffer.",
  "every buffer, both readers, codebooks of both modes, every history", "needs all states at the end of the buffer and all interleavings", [a(CB, "read_cb", "Codebook::new"), a(BIT, "peek_bits_32", "skip_bits", "available")])
p("Decoding makes progress",
  "A read_cb that returns a symbol has moved the reader, so decoding until an error ends.",
  "every prefix-free codebook, every buffer and history", "needs buffers of all lengths", [a(CB, "read_cb"), a(BIT, "skip_bits", "available", "can_refill")])
p("Books with very many entries",
  "Decoding a codebook of codes of up to 10 bits yields the symbol of the entry listed last among those whose codeword comes next, whatever the number of entries.",
  "every description list of fewer than 2^32 entries, both modes, every buffer and position", "needs more than 2^24 entries", [a(CB, "Codebook::new", "read_cb")])
p("From frames to frames",
  "If a decoder undoes an encoder packet by packet and a demuxer undoes a muxer, then frames sent one by one to the encoder context made by name, muxed, demuxed and sent to the decoder context made by name and set up with the extradata of the first stream, come back unchanged and in order.",
  "every such pair of codecs and of formats, every list of frames, every way the sink and the reader split the bytes, every capacity", "needs all codecs, formats and splittings at once", [a(CDEC, "Context::by_name", "send_packet", "receive_frame"), a(CENC, "Context::by_name", "send_frame", "receive_packet"), a(MUX, "write_header", "write_packet", "write_trailer"), a(DEM, "read_headers", "read_event")])
p("Reading lines and whole streams through AccReader",
  "read_until(d) over an AccReader that can buffer a byte appends exactly the bytes up to and including the first d, or to the end of the stream; read_to_end appends the rest of the stream. Both stand behind what they appended, retry interruptions, and on a failure of the inner reader keep what was read before and report it.",
  "every history, stream, capacity, delimiter, size of the single reads, and behaviour of the inner reader", "needs all splittings and all places of an interruption", [a(ACC, "fill_buf", "consume", "read")])
p("The demuxing context adds no panics",
  "read_event and read_headers panic only if the demuxer, or a function of the reader, does so when called in the loop, and then with the same panic.",
  "every demuxer, every reader, every state, any number of rounds", "needs all demuxers, readers and numbers of rounds", [a(DEM, "read_event", "read_headers", "read_event_internal", "read_headers_internal")])
p("Requests too large to buffer",
  "A demuxer asking for more bytes than can be buffered makes read_event and read_headers report the end of the stream or an error, not panic.",
  "every demuxer using the functions of AccReader, every history, every request", "needs requests near usize::MAX, such as a file with a wrong length field makes", [a(DEM, "read_event", "read_headers"), a(ACC, "grow")])
p("Builds without overflow checks agree where nothing overflows",
  "What the functions of av-data that compute widths, line sizes, sizes, depths, frames and copies return in a build with overflow checks, they return in a build without (where arithmetic wraps and shift amounts are masked).",
  "every format, component, size, alignment, frame and buffer", "tests run in one build, with sizes of one range", [a(PIX, "get_width", "get_height", "get_linesize", "get_data_size", "get_total_depth", "align"), a(AUD, "get_audio_size", "align", "round_to_byte"), a(FRM, "VideoInfo::size", "AudioInfo::size", "DefaultFrameBuffer::new", "copy_frame_to_buffer", "copy_from_slice")])
p("Default frames can be copied in every build",
  "A default video frame can be copied to and from buffers with the lengths and strides of its own planes without leaving a slice, in builds with and without overflow checks.",
  "every picture with components of at least 8 bits", "needs dimensions whose product exceeds 2^64, and a release build", [a(FRM, "DefaultFrameBuffer::new", "copy_plane", "copy_frame_to_buffer", "copy_from_slice"), a(PIX, "get_data_size")])
p("Bit readers without overflow checks agree where nothing overflows",
  "What a history of calls, consumed and available return in a build with overflow checks, they return in a build without.",
  "both readers, every buffer, every history of calls of any width", "tests run in one build", [a(BIT, "get_bit", "get_bits_32", "get_bits_64", "skip_bits", "peek_val", "merge_val", "build_cache", "refill32", "refill64", "consumed", "available")])
p("Bit readers without overflow checks never panic",
  "In a build without overflow checks no call panics, whatever its width.",
  "both readers, every buffer, every history", "needs all widths, and positions near 2^64", [a(BIT, "get_bits_32", "get_bits_64", "skip_bits", "can_refill", "fill64")])
p("available is bounded in every build",
  "Also in a build without overflow checks available() never exceeds the number of bits in the buffer, so that a loop reading while bits are available ends.",
  "both readers, every buffer, every history", "needs a release build, and a skip past the end", [a(BIT, "available", "skip_bits")])
p("Codebooks without overflow checks agree where nothing overflows",
  "What Codebook::new and read_cb return in a build with overflow checks, they return in a build without.",
  "every description, both modes, every hash map order, every reader below 2^59 bytes", "tests run in one build", [a(CB, "Codebook::new", "read_cb", "fill_lut_msb", "fill_lut_lsb", "extract_lut_part", "extract_esc_part", "build_esc_lut", "resize_table")])
p("Books made without overflow checks decode",
  "In a build without overflow checks a book made from a prefix-free description decodes every one of its codewords to its symbol.",
  "every prefix-free description, both modes, every in-data history", "needs a release build and codewords longer than the type of the codes", [a(CB, "Codebook::new", "read_cb", "extract_lut_part", "extract_esc_part")])
p("AccReader without overflow checks agrees where nothing overflows",
  "What a history of calls on an AccReader returns in a build with overflow checks, it returns in a build without, leaving the same state.",
  "every inner reader, every state, every history", "tests run in one build", [a(ACC, "read", "fill_buf", "consume", "seek", "grow", "reset_buffer_position")])
p("AccReader without overflow checks",
  "In a build without overflow checks no call on an AccReader panics, and none shows again what has been consumed.",
  "every inner reader, every stream, every history, every argument of grow and consume", "needs a release build, and arguments near usize::MAX such as a wrong length field makes", [a(ACC, "grow", "consume", "fill_buf", "data", "seek")])
p("The text of a format shows its layout",
  "Formats with the same text have the same colour model, flags and element size, and components with the same subsampling, storage, offset and step; packed components occupy the same bits of the element.",
  "all components and formats that can be formatted", "needs all pairs of formats", [a(PIX, "impl fmt::Display for Chromaton", "impl fmt::Display for Formaton")])
p("Colour models and predefined formats have the right number of components",
  "The default number of components of a colour model is the number of its coordinates; a predefined format has that many components, and one more if it has alpha.",
  "all colour models, all predefined formats", "a property of tables", [a(PIX, "get_default_components", "formats")])
p("The position of a Writer on every target",
  "On a target with any width of usize, the position of a Writer is that of its sink after every history of calls, and counting the position does not panic.",
  "every width of usize, builds with and without overflow checks, every sink, every history", "needs a 32-bit target and outputs of more than 4 GiB", [a(MUX, "Writer::write", "Writer::seek", "position")])
p("The muxing context adds no panics",
  "A history of calls on a muxing context panics exactly if the muxer, or the flush of the sink, does where it is called.",
  "every muxer, every sink, every history", "quantifies over all muxers and sinks", [a(MUX, "configure", "write_header", "write_packet", "write_trailer", "set_global_info", "set_option")])
p("Bit readers on every target",
  "On a target with any width of usize, for every buffer that fits its address space, nothing panics, and results, consumed and available are those of unbounded positions.",
  "every width of usize, builds with and without overflow checks, every buffer, every history of calls with accepted widths", "needs a 32-bit target and buffers of 512 MiB", [a(BIT, "skip_bits", "consumed", "available", "refill32", "refill64", "can_refill")])
p("A Writer is the file it writes",
  "What a history of write, flush and seek calls on a Writer leaves in the file is determined byte by byte: written bytes stand where the position was, everything else is kept, gaps are zeros. In particular writing a placeholder and a body, seeking back, writing the value, and seeking to the end gives the file with the value in place.",
  "every history, every file and position, every way the sink takes the bytes; every head, value, body and tail", "needs all histories and all sizes of what is patched", [a(MUX, "Writer::write", "Writer::seek", "Writer::flush")])
p("Sizes agree between targets",
  "What the functions of av-data that compute widths, line sizes, sizes, depths, frames and copies return on a target with overflow checks and a usize of b bits, they return on every target with a wider usize, with and without overflow checks.",
  "every two widths, every format, component, size, alignment, frame and buffer", "tests run on one target", [a(PIX, "get_width", "get_height", "get_linesize", "get_data_size", "get_total_depth", "align"), a(AUD, "get_audio_size", "align", "round_to_byte"), a(FRM, "VideoInfo::size", "AudioInfo::size", "DefaultFrameBuffer::new", "copy_frame_to_buffer", "copy_from_slice")])
p("Default frames can be copied on every target",
  "On a target with any width of usize a default video frame can be made and be copied to and from buffers with the lengths and strides of its own planes without leaving a slice.",
  "every width of usize, builds with and without overflow checks, every picture with components of at least 8 bits", "needs a 32-bit target and pictures of more than 4 GiB", [a(FRM, "DefaultFrameBuffer::new", "copy_plane", "copy_frame_to_buffer", "copy_from_slice"), a(PIX, "get_data_size")])
p("AccReader on every target",
  "On a target with any width of usize, what a history of calls on an AccReader returns is explained by a cursor on the stream, and nothing panics.",
  "every width of usize, builds with and without overflow checks, every stream and inner reader, every history", "needs a 32-bit target and streams of more than 4 GiB", [a(ACC, "seek", "seek_inner", "consume", "read", "fill_buf", "grow")])
p("The codec contexts add no panics",
  "A history of calls on a decoding or encoding context panics exactly if the codec does where the context calls it.",
  "every decoder and encoder, every history", "quantifies over all codecs", [a(CDEC, "Context", "send_packet", "receive_frame", "flush", "configure"), a(CENC, "Context", "set_option", "configure", "get_codec", "send_frame", "receive_packet", "flush")])
p("How large the buffer gets while demuxing",
  "If a demuxer never asks for more than K bytes beyond the start of what it sees and never skips beyond what it sees, the buffer of the AccReader stays within its first capacity plus K.",
  "every such demuxer, every stream and inner reader, any number of calls of read_event", "needs unbounded sequences of calls", [a(DEM, "read_event", "fill_buf"), a(ACC, "grow", "fill_buf")])
p("Texts of reserved code points",
  "The text of a code point of colour primaries, transfer characteristics or matrix coefficients says that it is reserved exactly if H.273 reserves it.",
  "all code points that have a value in the three enumerations", "a property of tables, and nobody looks at the texts of reserved values", [a(PIX, "impl fmt::Display for ColorPrimaries", "impl fmt::Display for TransferCharacteristic", "impl fmt::Display for MatrixCoefficients")])
p("Codebooks on every target",
  "On a target with any width of usize of at least 32, books that fit its address space are built as on the model, and reading a codeword returns what it returns there.",
  "every width of usize from 32, builds with and without overflow checks, every book, every buffer and reachable reader", "needs a 32-bit target and buffers of 512 MiB", [a(CB, "Codebook::new", "build_esc_lut", "resize_table", "fill_lut_msb", "fill_lut_lsb", "read_cb")])

p("How large the table of a codebook is",
  "A codebook that Codebook::new makes from codewords in range has one part of the table for every beginning of a codeword (shorter than the codeword, its length a multiple of ten) and each part has 2^min(10, length of the longest rest there) entries: the table is never larger than that, and exactly that large if no codeword is the beginning of another. Consequences: at most 1024 entries and 1024 more for every codeword and every ten bits of it behind the first; codewords of at most 20 bits never need more than the 2^24 entries that the offsets in the table can reach.",
  "every set of codewords with lengths 0..41 (MSB) and 0..255 (LSB), prefix-free or not, every iteration order of the maps", "the size depends on all common beginnings of all codewords; the table is private and its size is not observable", [a(CB, "Codebook::new", "build_esc_lut", "resize_table")])
p("AccReader over a stream that grows",
  "Over any reader of a stream that grows while it is read, no history of calls on an AccReader panics; bytes delivered or shown are those at the logical position, which moves by what was delivered and to where seeks lead; an empty read or buffer is returned only if no byte was there when the call began, and is final only if no byte comes any more: later calls deliver what has come. Without seeks all deliveries together are the beginning of the stream.",
  "every reader that keeps the contracts of Read and Seek, every growth before, between and during calls, every capacity, every history; backward relative seeks as in C26", "needs a second process that appends to the file between the calls, in every interleaving", [a(ACC, "read", "fill_buf", "consume", "seek", "grow", "reset_buffer_position")])
p("Demuxing a stream that grows",
  "If records are recognised as soon as they are complete, demuxing a stream that grows returns its headers once they have come and its records each once and in order; read_event returns Eof while the next record is not complete, which changes nothing, and returns the record when it is called after it has come.",
  "every such format, every reader of a growing stream, also one whose reads fail, every capacity, history and number of calls", "quantifies over all interleavings of growth and calls", [a(DEM, "read_headers", "read_event"), a(ACC, "fill_buf", "grow", "seek")])
p("Waiting for a stream costs no memory",
  "Calling read_event again after Eof while nothing has come leaves the buffer as large as it is.",
  "every format whose records are recognised as soon as they are complete, every reader, any number of calls", "needs unbounded sequences of calls", [a(DEM, "read_event"), a(ACC, "grow")])
p("Demuxing a file while it is muxed",
  "If a format undoes a muxer, then demuxing the file while the muxer still writes it returns the streams of the header and, besides Eof, exactly the muxed packets from the first on, each once and in order.",
  "every muxer, format that undoes it, packets, growth of the file, capacity, number of calls", "two processes in every interleaving", [a(DEM, "read_headers", "read_event"), a(MUX, "write_header", "write_packet", "write_trailer"), a(ACC, "fill_buf", "grow")])
p("AccReader is a queue in front of any reader",
  "An AccReader behaves as a queue of bytes in front of its inner reader: its calls return what those of the queue return, it makes the same calls of the inner reader, shows what is in the queue, and never panics. Without seeks what was delivered and what is buffered are together the bytes that the inner reader returned, in that order: nothing is lost, repeated or reordered.",
  "every inner reader whose reads return no more than was asked for (pipes, files rewritten while they are read, seeks that lie), every change made to it through get_mut between calls, every capacity, every history, also with consume beyond what is buffered", "quantifies over all readers and histories, including readers that no file system offers", [a(ACC, "read", "fill_buf", "consume", "seek", "seek_inner", "grow", "reset_buffer_position", "get_mut", "data")])
p("The building blocks of the bit readers",
  "A history that mixes peek_val, get_val, skip_rem, refill32, refill64, fill32, fill64, can_refill and left with the calls of BitRead, takes no more from the cache than left() and refills only what fits (refill64 an empty cache, refill32 one of at most 32 bits) reads the stream: all results are those at the position reached so far. merge_val joins two parts in the order they were read, build_cache puts 32 bits behind those held.",
  "all such histories, all buffers, both byte orders; for histories beyond the contract: exactly what they return, and exactly when any history panics", "the traits are public, the state space is the cache, the position and the history", [a(BIT, "peek_val", "skip_rem", "merge_val", "build_cache", "can_refill", "fill32", "fill64", "left", "refill32", "refill64", "get_val")])
p("Which books reject something",
  "The codeword lengths of a prefix-free description satisfy Kraft's inequality: the sum of 2^-bits is at most 1. If it is 1, read_cb never returns InvalidCode where the longest codeword still fits: every stream is a sequence of codewords and decodes to their symbols. If it is less, there is a stream of every sufficient length that is rejected.",
  "all prefix-free descriptions in range, both modes, all streams, positions and numbers of codewords, all hash map orders", "quantifies over all bit strings; completeness is a counting argument, not a matter of examples", [a(CB, "new", "read_cb")])
p("An AccReader inside an AccReader",
  "An AccReader whose inner reader is an AccReader keeps the promises of C133: no panics, every byte delivered or shown is the one at the position, seeks lead where they should, errors are those of the innermost reader.",
  "every innermost reader that keeps the contracts of Read and Seek, both capacities, every history", "quantifies over all readers, errors and histories; the misbehaviour needs an error in the middle of a seek", [a(ACC, "read", "fill_buf", "seek", "seek_inner")])
p("AccReader over readers that keep no contract",
  "Read::read gets a slice and returns a number that nothing bounds. Over a reader that looks at the slice, writes behind the bytes it counts, counts bytes it did not write or more bytes than the slice has, every history on an AccReader ends as that of a queue in front of it: counted bytes are what the slice then holds; a count beyond the slice is passed on by large reads and panics, at once, in fill_buf. If counts are at most the length of the slice nothing panics, and what is written behind the count makes no difference to any later result.",
  "every function of state and slice as reader, every seek, every capacity and history", "quantifies over readers that no library offers, but safe Rust admits", [a(ACC, "read", "fill_buf", "seek", "reset_buffer_position")])
p("Demuxing streams larger than the address space",
  "Headers and events of a stream are the same on every target, also if the stream is longer than a usize can count, as long as the buffer stays within half the address space.",
  "every format whose records are recognised as soon as they are complete, every reader, every width of usize, builds with and without overflow checks, any number of calls", "needs a 32-bit target and streams of more than 4 GiB", [a(DEM, "read_headers", "read_event"), a(ACC, "seek", "seek_inner", "consume", "fill_buf", "grow")])
p("Muxing files larger than the address space",
  "Muxing into a sink, also one that is already large, returns the same and leaves the same in the sink on every target, also if positions exceed what a usize can count.",
  "every muxer (as a program that writes, flushes and asks for the position), every sink, every use of the writer before the context is made, every width of usize, builds with and without overflow checks, all histories", "needs a 32-bit target and files of more than 4 GiB", [a(MUX, "write", "seek", "position", "write_header", "write_packet", "write_trailer")])
p("Copying a file from one format into another",
  "The loop that reads the headers, hands the global info to the muxer, writes its header, and then alternates read_event and write_packet until Eof makes exactly these calls of the muxing context, up to the first that fails: info, configure, header, every packet of the file once and in order with its stream's timebase, trailer. Copying into another format leaves in the sink what muxing the packets directly would; copying into the same format gives the same file bit by bit.",
  "every format whose records are recognised as soon as they are complete, every muxer and sink, every reader giving any few bytes at a time, every capacity", "two contexts with state of their own, interleaved", [a(DEM, "read_headers", "read_event"), a(MUX, "set_global_info", "configure", "write_header", "write_packet", "write_trailer")])
p("Opening a file by probing it",
  "An AccReader over a file is filled until fill_buf shows no more, probe is shown what is buffered, and the demuxing context is made of the demuxer it chooses and the same AccReader. The choice depends on the first bytes of the file only, as many as the capacity says, not on how many bytes a read delivers; and headers and events are then those of the file, as if nothing had been read for probing. If no format is recognised or the reader fails, the AccReader still stands at the beginning.",
  "every list of descriptors, every format whose records are recognised as soon as they are complete, every file, every capacity, every reader giving any few bytes at a time", "depends on how the first reads split the file; tests read from memory in one go", [a(DEM, "probe", "read_headers", "read_event"), a(ACC, "fill_buf", "data")])
p("Texts name what they stand for",
  "The text of every matrix, primaries and transfer code point mentions a designation documented for its number in H.273. Chroma locations, channels and frame types are shown under their names, and ranges say which they are.",
  "every code point and every variant", "a test would repeat the table; two swapped texts stay distinct", [a(PIX, "MatrixCoefficients", "ColorPrimaries", "TransferCharacteristic", "ChromaLocation", "YUVRange"), a(AUD, "ChannelType"), a(FRM, "FrameType")])
p("Length, rewinding and parts of a stream",
  "After every history of an AccReader, stream_len returns the length of the stream and leaves the reader where it stood; rewind leads to the beginning, from where everything is delivered again; seek_relative forwards moves by its argument; reading all of take(n) delivers the next n bytes or those left and stops right behind them. All succeed unless the inner reader fails; then its error is passed on and the reader stands where it stood or where it was going.",
  "every stream, capacity, history, inner reader, offset, limit and sizes of the single reads", "seeks inside and outside the window mix with read-ahead; tests use one layout of the window", [a(ACC, "seek", "read", "fill_buf")])
p("Reading through AccReader asks the inner reader about once per buffer",
  "A read of fewer bytes than are buffered, a seek into the buffered bytes, consume, grow and reset_buffer_position never call the inner reader; any other read and fill_buf call it at most once, any other seek at most twice. Over a reader that returns what it is asked for until its end, reads of at most N bytes through a buffer of more than N bytes call it at most twice, once for every read that returned nothing, and once for every (size - N) bytes delivered.",
  "every reader whose reads return no more than asked for, history, capacity, list of reads", "results are right even if the reader below is asked for every byte; tests compare results, not the number of calls", [a(ACC, "read", "fill_buf", "seek", "consume")])
p("fill_buf shows buffered bytes without asking the inner reader",
  "As BufRead documents it (the buffer is filled with more data if it is empty), fill_buf returns the buffered bytes without calling the inner reader whenever there are any.",
  "every reader, history and capacity", "over files and memory a further call is harmless; over a connection it waits or fails although bytes are there", [a(ACC, "fill_buf")])
p("Demuxing asks the reader about once per buffer",
  "If the buffered bytes hold the next record, read_event returns its event without calling the reader below. Over a reader that returns what it is asked for until its end, all calls of read_event after read_headers together call it at most once for every (size + 1) bytes left when the headers were read, where size is the buffer's then, once more, and once for every Eof returned.",
  "every format with framed records that fit into the bytes given, reader, capacity, number of calls", "the events are the same if the reader is asked for every record or byte; tests compare events, not calls of the reader", [a(DEM, "read_event", "read_headers"), a(ACC, "fill_buf", "grow")])
p("A count above the slice's length is noticed in every build",
  "If the inner reader returns a count above the length of the slice it was given, fill_buf panics, with and without overflow checks, and shows no bytes that were not read. Whatever the inner reader returns, 0 <= pos <= end <= buffer length after every call.",
  "every reader whatever it writes and counts, history, capacity", "such counts come from unsound readers; the sums overflow only for counts close to 2^64", [a(ACC, "fill_buf", "read", "consume", "seek")])
p("Formats that jump through the file are demuxed independently of buffering",
  "For a demuxer that may answer any SeekFrom (forwards, backwards, from the start or from the end), whose answers depend on its state and on enough bytes at its place, read_headers and any number of read_event calls return exactly the events found by following the jumps in the file itself, whatever the capacity of the AccReader and however few bytes its inner reader gives at a time; if the jumps go on without end so does read_event.",
  "every such format, file, capacity, schedule of short reads, number of calls", "the events depend on the interplay of jumps with the window of bytes that happens to be buffered", [a(DEM, "read_headers", "read_event"), a(ACC, "seek", "fill_buf", "grow")])
p("The benchmarks' loops end on every input",
  "The loops of the benchmarks end on inputs of any length and read what they are after: the bit reader loop reads until available() is 0, the loops of single, mixed and long reads get the bits in order, the loop of read_exact with one byte gets every byte.",
  "every input, both byte orders, every capacity and schedule of reads", "the benchmarks run on one input each", [a("benches/bitstream.rs", "bitread"), a("bitstream/benches/bitread.rs", "bitreader", "bitread"), a("benches/format.rs", "bench_accreader")])
p("Files with a table of positions survive muxing and demuxing",
  "A muxer that notes Writer::position before each packet, writes a table of these positions in its trailer, an application that notes Writer::as_ref before the trailer and, with the writer of into_writer, seeks back to put the place of the table into the header, and a demuxer that follows header and table with SeekFrom::Start, return the packets named by the table in its order, with the timebase of their stream, and then Eof; all calls of the muxer succeed.",
  "every packet format with decodable records, packets, table order or selection, sink taking few bytes at a time, reader giving few bytes at a time, capacity", "short writes and reads interact with positions noted, patched and jumped to", [a(MUX, "Writer::position", "Writer::as_ref", "into_writer", "Writer::seek", "Writer::write", "write_header", "write_packet", "write_trailer"), a(DEM, "read_headers", "read_event"), a(ACC, "seek"), a(BW, "put_u64b"), a(BR, "get_u64b")])
p("Demuxers that use the buffer themselves",
  "A demuxer is given the Buffered object and may read, consume, fill, seek, grow and look at it in any way, depending on all it has seen. Whatever it does, headers and any number of events through the context over an AccReader are those of the same demuxer over a plain queue of bytes, together with what stays buffered, the position, the size of the buffer and the state of the inner reader.",
  "every program of such calls, every inner reader that returns at most what was asked for, capacity, number of events", "the calls of a demuxer depend on the bytes and interleave with those of the context", [a(DEM, "read_headers", "read_event"), a(ACC, "read", "fill_buf", "consume", "grow", "seek", "data")])
p("Demuxers that read their buffer like a file",
  "A demuxer that uses only read_exact, grow and seek on its buffer, without relative steps back, gets through an AccReader what it would get from the file itself: same headers, events, errors and panics.",
  "every such program, file, capacity, schedule of short reads, number of events", "adaptive parsers jump and read across the edges of the buffer in ways no fixed test does", [a(DEM, "read_headers", "read_event"), a(ACC, "read", "seek", "grow")])
p("What a muxer writes",
  "Muxers work for every Write and so can only write, flush and ask for the position. Whatever a muxer does and whatever fails, the file after some calls of the context is the beginning of the file after further calls and the position goes on with it; and if it writes with write_all, results, position and file are those of its code alone for every sink that takes the bytes sooner or later, however few at a time and however often interrupted.",
  "every program of such calls, every sink that appends (first part) or takes at least a byte after finitely many interruptions (second part), every history of calls of the context", "the calls of a muxer depend on the position and on answers of the sink, and short writes interleave with them", [a(MUX, "Writer::write", "Writer::flush", "Writer::position", "write_header", "write_packet", "write_trailer", "configure", "set_option", "set_global_info")])
p("Parsers over several bit readers",
  "A parser that reads bits and codewords depending on what it has read, copies its readers to look ahead or come back, opens readers of either order over other buffers, and asks for consumed and available, computes what it computes on plain sequences of bits, each reader with its own cursor, and panics exactly where that does.",
  "every such program, all buffers, any number of readers, copies and codebooks of either mode", "the caches of several copies of a reader diverge and are refilled at different places", [a(BIT, "new", "get_bits_64", "get_bits_32", "peek_bits_32", "skip_bits", "align_bits", "consumed", "available"), a(CB, "read_cb")])
p("Frames with any frame buffer",
  "The copies of a frame whose buffer is any implementation of FrameBuffer that behaves like a list of planes, with any iterators for slices and line sizes, do what they do for that list of planes, and panic likewise; the buffer behaves like the planes copied afterwards. Whatever the buffer is, a copy asks it once for the number of planes and once for the line size and bytes of each plane, from the first on.",
  "every type of buffers whose methods keep that contract, also with changes behind &self, every iterators, all sizes; for the calls made: every buffer at all", "the trait is open: tests know only the buffers of default frames", [a(FRM, "FrameBuffer", "copy_plane_to_buffer", "copy_frame_to_buffer", "copy_from_slice", "DefaultFrameBuffer")])
p("From frames to frames through codecs that delay",
  "If codecs answer what they are sent with any number of packets or frames, later, or only when flushed, and the decoder's results for the encoder's packets are the frames, then frames encoded until MoreDataNeeded and flushed, muxed as they come, demuxed and decoded likewise until Eof come back unchanged, all and in order.",
  "every such encoder and decoder, muxer and format, all frames, every schedule of short writes and reads, every capacity", "codecs reorder and hold back frames; what is left at the end shows only after the flush", [a(CENC, "send_frame", "receive_packet", "flush", "get_extradata", "by_name"), a(CDEC, "send_packet", "receive_frame", "flush", "set_extradata", "configure", "by_name"), a(MUX, "write_header", "write_packet", "write_trailer"), a(DEM, "read_headers", "read_event")])
p("A frame is memory",
  "Any program of typed loads and stores through the views of a frame and, if it is a video frame, copies into it and out of it, each call depending on the results of those before, behaves as on an array of bytes for each plane: nothing panics, every result is the one the arrays give, and the frame's description, times and sizes of planes stay.",
  "every frame whose planes have room for their components, new frames of all formats with components of eight bits or more among them; all programs whose calls keep to their slices, all addresses", "tests make one copy or one store; that copies, stores of other widths and loads see each other's bytes needs all interleavings", [a(FRM, "as_slice", "as_mut_slice", "copy_from_slice", "copy_frame_to_buffer", "copy_plane_to_buffer", "new_default_frame")])
p("A codec of the library's parts",
  "An encoder that writes a codebook to its extradata and the codewords of each frame's samples to a packet, and a decoder that builds the book from the extradata with Codebook::new and reads the samples with read_cb: registered, muxed and demuxed through the library's contexts, the frames come back as they were sent.",
  "all books of distinct prefix-free codewords within the library's limits, both bit orders, every order in which the hash maps are iterated; all frames of samples in the book, all formats as in C91, all schedules of the reader and the writer", "the crates have separate tests; that extradata, codebook, bit reader, accessor, contexts and frames fit together needs all of them at once", [a(CB, "new", "read_cb"), a(CDEC, "set_extradata", "send_packet", "receive_frame"), a(CENC, "get_extradata", "send_frame", "receive_packet"), a(MUX, "write_packet"), a(DEM, "read_event")])
p("Files of several streams",
  "Frames of several streams, encoded in any interleaving each by its stream's encoder, muxed into one file, demuxed and sent each to the decoder opened by its stream's codec id and extradata: for every stream the player receives the frames of this stream, all of them, in order.",
  "any number of streams, all interleavings, codecs that delay, reorder, split and join as in C160, all formats that keep the stream index, all schedules of the reader and the writer", "tests have no file of two streams; that streams do not disturb each other needs all interleavings and delays", [a(DEM, "read_headers", "read_event"), a(MUX, "write_header", "write_packet", "write_trailer"), a(CDEC, "by_name", "set_extradata", "configure", "send_packet", "receive_frame", "flush"), a(CENC, "by_name", "send_frame", "receive_packet", "flush"), a(PKT, "Packet")])
p("Transcoding",
  "A file demuxed and decoded, each frame encoded and muxed into another file as soon as it is there: the new file is the one that muxing all packets of all frames of all packets of the first file at once would give.",
  "all files of all formats whose records are recognised as soon as they are complete, all codecs that delay, reorder, split and join, all schedules of the reader and the writer", "four state machines with queues between them; tests run none of them together", [a(DEM, "read_headers", "read_event"), a(CDEC, "send_packet", "receive_frame", "flush"), a(CENC, "send_frame", "receive_packet", "flush"), a(MUX, "write_header", "write_packet", "write_trailer")])
p("Playing damaged files, and trying again",
  "Whatever bytes a file holds, however its reader fails and whatever the demuxer makes of the bytes it sees, an application playing it with decoders that never panic does not panic. If the application calls read_headers and read_event again whenever they fail with an I/O error, it ends exactly as it would end with a reader that never fails, with the same frames or the same error, and it does end if the reader fails finitely often.",
  "all bytes, all schedules of the reader including failures, all capacities; not panicking: all demuxers that look at the buffered bytes only; trying again: all formats whose records are recognised as soon as they are complete and no longer than what they were recognised in, all decoders", "all bytes and all failures at all moments", [a(DEM, "read_headers", "read_event"), a(ACC, "fill_buf", "seek", "grow"), a(CDEC, "send_packet", "receive_frame", "flush")])
p("A failing read_event loses no record",
  "If read_event fails because the reader fails, nothing has happened: calling it again returns the record it would have returned.",
  "all formats whose records are recognised as soon as they are complete, all streams, capacities, histories and schedules of the reader", "a failure at each call of the reader, also between the demuxer's answer and the step over the record", [a(DEM, "read_event", "read_event_internal"), a(ACC, "seek", "fill_buf")])
p("A failing write can be repeated",
  "If a call of the muxing context fails because the sink fails, calling it again with the same packet makes the file that would have resulted.",
  "all muxers of bytes, all histories of calls, all sinks with short writes and failures", "a failure after each number of bytes of each call", [a(MUX, "write_header", "write_packet", "write_trailer", "write")])
p("A shared frame or packet does not change under its holders",
  "Codecs and muxers get frames and packets as Arcs and may keep them. Whatever the application and other holders do with theirs, what a holder reads stays what it was; a holder may write, or take the value out, exactly when it is the only one; values are freed when the last holder drops them, and not before.",
  "all histories of making, cloning, dropping, reading, get_mut, make_mut and try_unwrap by any number of holders, all values", "the counts depend on the whole history of all holders", [a(FRM, "ArcFrame"), a(PKT, "ArcPacket"), a(CENC, "send_frame"), a(CDEC, "receive_frame"), a(MUX, "write_packet")])
p("Encoding from a pool of frames",
  "An application that draws each picture into a frame of a pool that Arc::get_mut lets it write, and makes a new frame only if there is none, does not disturb an encoder that keeps the frames it was sent: the encoder reads the pictures as they were sent, in order. The pool has as many frames as the encoder ever kept when a picture was drawn, and one more.",
  "all sequences of pictures, all times at which the encoder takes them", "a frame drawn into too early shows only with some delays", [a(FRM, "ArcFrame"), a(CENC, "send_frame", "receive_packet")])
p("Predicted pictures and lost packets",
  "A codec that codes a picture by itself (FrameType::I, is_key), by its differences from the one before (P) or as the same again (SKIP), built on copy_frame_to_buffer, new_default_frame and copy_from_slice: all frames come back from a file with the pictures they had. If some packets arrive corrupted (is_corrupted) and the player flushes the decoder there, it shows a frame exactly if nothing was lost since the last one coded by itself, and never a wrong picture; likewise after it goes to another place and flushes.",
  "all pixel formats with components of eight bits or more, frames with any strides, all sequences of pictures, all losses", "which pictures depend on a lost one depends on the whole sequence", [a(FRM, "FrameType", "copy_from_slice", "copy_frame_to_buffer", "new_default_frame"), a(PKT, "is_key", "is_corrupted"), a(CDEC, "flush", "send_packet", "receive_frame"), a(CENC, "send_frame", "receive_packet")])
p("Going to other places while demuxing",
  "A demuxer told through Context::demuxer to go to a place the application has noted answers with SeekFrom::Start and Event::Continue. Whatever the application has done since, the events from there on are those it would have got when it noted the place, and the streams known stay the same; a player that goes back in a film and flushes its decoder shows all frames from the first one coded by itself on, with their pictures.",
  "all formats, files, readers that do not fail, capacities, sequences of reading, noting and going to places", "what the context registers depends on everything read so far, in whatever order", [a(DEM, "demuxer", "read_event", "SeekFrom", "Continue", "NewStream"), a(ACC, "seek"), a(CDEC, "flush")])
p("Frames copied one after the other with the same iterators",
  "An application that copies frames one after the other and passes the iterators of slices and line sizes by reference gets each frame copied from or to the slices that follow its predecessor's: a copy takes one slice and one line size for each plane and no more, also from iterators without an end.",
  "all frames, buffers that behave like planes, and iterators, endless ones included", "tests pass iterators that end where the frame does", [a(FRM, "copy_frame_to_buffer", "copy_from_slice", "FrameBufferCopy")])
p("Playing with threads",
  "A player that demuxes in one thread and decodes each stream in a thread of its own, with bounded channels of packets between them, shows for each stream the frames the player in one thread shows, in the same order, whatever the schedule and the sizes of the channels; the threads never block each other for ever, and a decoder that fails takes nothing from the other streams.",
  "all demuxers, decoders, files, channel sizes of at least one packet, and schedules", "tests see one schedule out of all", [a(DEM, "pub struct Context", "pub fn read_event"), a(CDEC, "pub struct Context", "pub fn send_packet", "pub fn receive_frame", "pub fn flush")])
p("Recording with threads",
  "A recorder that encodes each stream in a thread of its own and writes the packets of all of them in another, through a bounded channel, writes in every schedule a file that plays for each stream the frames of this stream, all of them and in order, although different schedules give different files, one for each way to merge the streams' packets; every execution ends, also when the writing thread fails.",
  "all encoders, decoders and formats that undo each other, numbers of streams, frames, channel sizes of at least one packet, and schedules", "tests see one schedule out of all", [a(MUX, "pub struct Context", "pub fn write_packet", "pub fn write_trailer"), a(CENC, "pub struct Context", "pub fn send_frame", "pub fn receive_packet", "pub fn flush")])
p("The codecs of the library's own tests do what their traits say",
  "The encoder of the tests, made by name and used through Context in any order of calls, gives back the video parameters that were set last, accepts configure exactly when width, height and format are known, answers get_params with ConfigurationIncomplete before that, counts the frames sent in its extradata and packets, and refuses other options; the decoder of the tests answers every call.",
  "all histories of calls with fewer than 2^64 frames", "they are test code themselves, and the test only looks them up", [a(CENC, "pub struct Enc", "impl Encoder for Enc"), a(CDEC, "pub struct Dec", "impl Decoder for Dec")])
p("Transcoding with threads",
  "A transcoder that demuxes in one thread, decodes and encodes each stream in a thread of its own, and writes in another, with bounded channels between them, leaves in every schedule a file that is what muxing all packets the encoders make of the streams' frames would leave, those of each stream in order, flushed once; all threads end, also when some of them fail.",
  "all formats, decoders and encoders that compute functions of what they are sent, numbers of streams, files, channel sizes of at least one packet, and schedules", "tests see one schedule out of all", [a(DEM, "pub struct Context", "pub fn read_event"), a(CDEC, "pub struct Context", "pub fn send_packet", "pub fn receive_frame"), a(CENC, "pub struct Context", "pub fn send_frame", "pub fn receive_packet", "pub fn flush"), a(MUX, "pub struct Context", "pub fn write_packet", "pub fn write_trailer")])
p("What read_event returns, whatever a demuxer asks for",
  "A demuxer whose answers do not change when it is shown more bytes, but which asks for any amounts: whenever read_event returns over an AccReader, it returns the next event or error of the file from where the reader stands, and leaves the reader where the demuxer goes on, or an I/O error if the reader fails. Over a reader that does not fail it does not return if and only if the demuxer steps through the file without end or comes to ask for no more bytes than are buffered. The demuxer of the library's own tests does so whenever one byte is buffered: with AccReader::new it reads 1362 packets of a longer file, and no more.",
  "all such demuxers, files, capacities, readers that fail and cut reads up in any way, and histories of the reader", "tests use files of a few bytes and buffers that hold them", [a(DEM, "pub fn read_event", "fn read_event_internal", "struct DummyDemuxer"), a(ACC, "pub fn new", "fn fill_buf")])
p("What read_headers returns, whatever a demuxer asks for",
  "A demuxer whose answer about the headers does not change when it is shown more bytes, but which asks for any amounts: whenever read_headers returns over an AccReader, it returns what the demuxer makes of the whole rest of the file, or an I/O error if the reader fails. Over a reader that does not fail it does not return if and only if the rest of the file is not enough for the demuxer, or the demuxer asks for no bytes while the buffer is full. If it asks for at least one byte it is called at most twice more than there are bytes.",
  "all such demuxers, files, capacities, readers that fail and cut reads up in any way, and histories of the reader", "tests use one demuxer with headers of nine bytes", [a(DEM, "pub fn read_headers", "fn read_headers_internal"), a(ACC, "fn fill_buf", "fn grow")])
p("Muxers that unwrap, and the formats of the library's own tests",
  "A muxer that unwraps its writes returns from any history of calls what the same muxer with errors handed on returns, if none of its writes is refused; and it panics if and only if one is, at the first. Of the test muxer: over any sink that does not fail it leaves header, packets and trailer in the sink, however the sink cuts the writes up, and it panics if and only if a write_all fails. Of the test demuxer: any file that the test muxer has written, with any packets, and the stream of the test of read_event are read with InvalidData for every event, as its header is three bytes shorter than the text.",
  "all muxers, sinks, histories of calls, packets, capacities and readers that do not fail", "the tests run each format once, over a sink that takes every write whole, and do not look at what read_event returns", [a(MUX, "struct DummyMuxer", "fn run_muxer", "pub fn write_trailer"), a(DEM, "struct DummyDemuxer", "pub fn read_event")])
p("Converting a file stream by stream",
  "A program is given for each of the first streams of a file whether to leave it out, to copy its packets, or to decode it and encode it with a named encoder. It reads the headers, opens the codecs, hands each packet to its stream's track, flushes all tracks at the end of the file and writes the trailer. The file it leaves is what muxing certain packets would leave, flushed once. Of each stream these are the packets its plan says, in order; those of all copied streams together are in the order of the old file; and if all are copied, whatever the codecs, they are the packets of the old file.",
  "all formats, files, plans, codecs that do what a machine says, delays of codecs, capacities, and readers and writers that do not fail however they cut the data up", "a test has one plan for one file, with codecs that answer at once", [a(DEM, "pub fn read_headers", "pub fn read_event"), a(MUX, "pub fn write_packet", "pub fn write_trailer"), a(CDEC, "pub fn by_name", "pub fn send_packet", "pub fn receive_frame", "pub fn flush"), a(CENC, "pub fn send_frame", "pub fn receive_packet", "pub fn flush")])
p("A converter does not hide what has gone wrong",
  "Of the program of C180, with codecs, demuxer, muxer, reader and writer that may do anything: if it returns no error, no call of the demuxer or muxer has failed; headers and all events were read up to the first Eof, and a header, packets and the trailer were written; every packet of a copied stream is among them, unchanged and in order, and all others are of streams to be transcoded. If it returns an error, at most one call of the demuxer or muxer has failed, the last, and its error is the one returned; nothing was written if the headers could not be read or a codec not be opened; the packets of copied streams are still all there up to the last one read.",
  "all codecs, demuxers, muxers, readers, writers, plans and states of them, also such that fail at any call", "faults at every call of every part cannot be enumerated, and tests compare files of runs that succeed", [a(DEM, "pub fn read_headers", "pub fn read_event"), a(MUX, "pub fn write_header", "pub fn write_packet", "pub fn write_trailer"), a(CDEC, "pub fn send_packet", "pub fn receive_frame", "pub fn flush"), a(CENC, "pub fn send_frame", "pub fn receive_packet", "pub fn flush")])
p("How a converter joins codecs, demuxer and muxer",
  "Of the program of C180, with codecs, demuxer, muxer, reader and writer that may do anything, if it returns no error: each stream with a plan has the track its plan says, with the decoder of the stream's codec, given the stream's extradata and configured, and the encoder of the plan. A copying track has written just the packets of its stream. Of a transcoding one the decoder was sent just these, in order; the encoder was sent just the frames the decoder gave; and the packets it gave, with the stream's number, are those of the stream that were written. Then both were flushed, once, and the same holds of what they gave after that. Nothing else was called, and no call of a codec failed, other than that a frame or packet was not there yet.",
  "all codecs, demuxers, muxers, readers, writers, registries, plans and states", "a lost or repeated frame shows only with codecs that delay, and a hidden error only with codecs that fail", [a(DEM, "pub fn read_headers", "pub fn read_event"), a(MUX, "pub fn write_header", "pub fn write_packet", "pub fn write_trailer"), a(CDEC, "pub fn by_name", "pub fn set_extradata", "pub fn configure", "pub fn send_packet", "pub fn receive_frame", "pub fn flush"), a(CENC, "pub fn by_name", "pub fn send_frame", "pub fn receive_packet", "pub fn flush")])
p("Converting damaged files, and trying again",
  "Whatever bytes a file holds, however its reader fails, whatever the demuxer makes of the bytes it sees, and whatever the plans are, the program of C180 does not panic if its codecs and its muxer do not; muxers that write bytes through a Writer and return the errors of the sink do not, however the sink fails. The same holds of a program that calls read_headers and read_event again whenever they fail with an I/O error. That one ends exactly as it would end with a reader that never fails, having written the same, and it does end if the reader fails finitely often.",
  "all bytes, all schedules of reader and sink including failures, all capacities, plans and registries; not panicking: all demuxers that look at the buffered bytes only; trying again: all formats whose records are recognised as soon as they are complete and no longer than what they were recognised in, all codecs, muxers and sinks", "all bytes and all failures at all moments", [a(DEM, "pub fn read_headers", "pub fn read_event"), a(MUX, "pub fn write_header", "pub fn write_packet", "pub fn write_trailer"), a(CDEC, "pub fn by_name", "pub fn set_extradata", "pub fn configure", "pub fn send_packet", "pub fn receive_frame", "pub fn flush"), a(CENC, "pub fn by_name", "pub fn send_frame", "pub fn receive_packet", "pub fn flush")])
out = os.path.join(os.path.dirname(os.path.abspath(__file__)), "..", "properties.jsonl")
with open(out, "w") as f:
    for x in P: f.write(json.dumps(x, ensure_ascii=False) + "\n")
print(len(P))
for x in P: print(x["id"], x["title"])

#!/usr/bin/env python3
"""Writes MANIFEST.json from the table below."""
import json, os
N = "Verif."
CLAIMS = [
 ("C01", "proved", ["Bytes.c01_put_get"], "All 18 typed pairs, all values, all buffers."),
 ("C02", "proved", ["Bytes.c02_put_frame", "Bytes.c02_disjoint_writes"], ""),
 ("C03", "proved", ["Bytes.c03_get_value", "Bytes.c03_get_signed"], "Floats: bit pattern."),
 ("C04", "proved", ["BitRead.c04_le_stream"], "Data = buffer minus 8 bytes of padding, as documented in the struct."),
 ("C05", "proved", ["BitRead.c05_be_stream"], ""),
 ("C06", "proved", ["BitRead.c06_position"], ""),
 ("C07", "proved", ["BitRead.c07_peek", "BitRead.c07_insert"], ""),
 ("C08", "proved", ["BitRead.c08_align", "BitRead.c08_alignUp_minimal"], ""),
 ("C09", "proved", ["BitRead.c09_skip_eq_discard"], ""),
 ("C10", "proved", ["BitRead.c10_compose", "BitRead.c10_agree"], ""),
 ("C11", "proved", ["BitRead.c11_no_panic", "BitRead.c11_zero_bits"], "Positions are unbounded naturals: overflow of index after skipping more than 2^64 bits in total is in C99 and C113."),
 ("C12", "partial", ["BitRead.c12_whole_words_partial", "BitRead.c12_fails", "BitRead.c12_skip_to_end_fails", "BitRead.c12_available_panics", "BitRead.c12_exact_partial"], "False in general (three witnesses): 32-bit refills can make the last bytes unreachable, skipping to the end leaves a stale cache, available() panics after skipping past the end. Proved for 64-bit functions on whole-word buffers; and for every history on every buffer, what happens instead."),
 ("C13", "proved", ["Codebook.c13_msb_decode"], "Any in-data history before; the reader stands exactly behind the codeword afterwards."),
 ("C14", "proved", ["Codebook.c14_lsb_decode"], ""),
 ("C15", "proved", ["Codebook.c15_sequence"], "Both modes."),
 ("C16", "proved", ["Codebook.c16_reject"], ""),
 ("C17", "partial", ["Codebook.c17_truncated_partial", "Codebook.c17_exact_partial", "Codebook.c17_fails"], "False: codewords over 10 bits are accepted past the end (witness). Proved in every reader state for codewords up to 10 bits, or all but one bit of which are cached; c17_exact_partial: what read_cb returns and where it stops, for every book and every state, also at and behind the end."),
 ("C18", "proved", ["Codebook.c18_order"], "For every reader state."),
 ("C19", "proved", ["Codebook.c19_unused", "Codebook.c19_invalid"], "For every description, also ambiguous or malformed ones."),
 ("C20", "partial", ["Codebook.c20_last_wins_partial", "Codebook.c20_rule_partial", "Codebook.c20_exact_partial", "Codebook.c20_fails"], "False: an ambiguous book is accepted and mis-decodes an unrelated codeword. Proved: which entry such a book decodes to, for codes up to 10 bits (the one listed last), for codes of all lengths as long as no short code is listed before the longer ones it starts, and (c20_exact_partial, by a longer rule) for every description whose codes are in range."),
 ("C21", "partial", ["Codebook.c21_unmoved_partial", "Codebook.c17_exact_partial", "Codebook.c21_fails"], "False for codewords over 10 bits (witness); proved for shorter books in every reader state; for the others c17_exact_partial says where the reader stops."),
 ("C22", "proved", ["Codebook.c22_reverse", "Codebook.c22_involution"], ""),
 ("C66", "partial", ["Codebook.c66_following_partial", "Codebook.c17_exact_partial", "Codebook.c66_fails"], "False: `available() as u32` truncates, so in front of exactly 2^32 bits every code is rejected. Proved below 2^32 bits; c17_exact_partial covers every buffer."),
 ("C23", "proved", ["Acc.c23_fidelity", "Acc.c23_concat"], "All operations, also failing and backward seeks; inner reader at its start when handed over (C67)."),
 ("C24", "proved", ["Acc.c24_position"], "Histories without a failing seek or read_exact (which do not report how far they got; C29 covers those)."),
 ("C25", "proved", ["Acc.c25_absolute", "Acc.c25_succeeds"], ""),
 ("C26", "partial", ["Acc.c26_relative_partial", "Acc.c26_fails"], "False for backward seeks with buffered data (witness); forward proved, backward characterised exactly."),
 ("C27", "proved", ["Acc.c27_window"], ""),
 ("C28", "proved", ["Acc.c28_eof"], ""),
 ("C29", "proved", ["Acc.c29_errors"], ""),
 ("C30", "proved", ["Acc.c30_readExact", "Acc.c30_terminates", "Acc.c30_splits"], ""),
 ("C67", "partial", ["Acc.c67_offset_partial", "Acc.c67_fails", "Acc.c101_exact_partial"], "False: the constructor assumes position 0. Proved: the bytes delivered before the first seek, and everything from the first seek on that leaves the buffered window; and (c101_exact_partial) the exact behaviour of every history with seeks, the reported positions being off by a constant until a seek leaves the buffer."),
 ("C43", "proved", ["Audio.c43_align"], "Both align helpers (audiosample.rs, pixel.rs)."),
 ("C44", "proved", ["Audio.c44_audio_size", "Frame.c47_audio"], "Frame size: conjunct s = z * channels of c47_audio."),
 ("C45", "proved", ["Pixel.c45_dimensions"], ""),
 ("C46", "partial", ["Pixel.c46_linesize_partial", "Pixel.c46_data_size", "Pixel.c46_fails", "Pixel.c46_exact_partial"], "False below 8 bits (witness: depth 1). Proved for depth >= 8 and the other cases in which it holds; data size proved in general. Exactly when it holds, for every depth and alignment."),
 ("C47", "proved", ["Frame.c47_video", "Frame.c47_no_panic", "Frame.c47_audio"], "Whenever size(32) fits a usize; no panic for dimensions up to 2^24."),
 ("C48", "partial", ["Conform.copyTest_ub", "Frame.c48_copy_plane_partial", "Frame.c48_fails", "Frame.c48_overrun_fails", "Frame.c48_exact_partial", "Frame.c48_frame_partial", "Frame.c48_slice_partial"], "False: out-of-bounds read and write witnesses. Exact characterisation of when copy_plane leaves its slices. The outcome of copy_plane, and exactly when copy_frame_to_buffer and copy_from_slice return and with what, for all arguments."),
 ("C49", "proved", ["Frame.c49_copies", "Frame.c49_roundtrip", "Frame.c49_default"], ""),
 ("C50", "partial", ["Frame.c50_plane_partial", "Frame.c50_fails", "Frame.c50_exact_partial"], "False for subsampled components (witness); proved for the others. The outcome for all frames and arguments."),
 ("C51", "proved", ["Pixel.c51_matrix", "Pixel.c51_primaries", "Pixel.c51_transfer", "Pixel.c51_published"], ""),
 ("C52", "partial", ["Pixel.c52_setters_partial", "Pixel.c52_fails"], "False: the setters assign to a temporary, so no getter ever changes (proved for every format); the returned value is right."),
 ("C53", "partial", ["Pixel.c53_formats_partial", "Pixel.c53_wrong_partial", "Pixel.c53_colour", "Pixel.c53_fails"], "False for some predefined formats (witnesses)."),
 ("C54", "proved", ["Audio.c54_classified", "Audio.c54_named", "Audio.c54_names_distinct"], ""),
 ("C55", "partial", ["Audio.c55_channels", "Audio.c55_find_partial", "Audio.c55_default", "Audio.c55_fails", "Audio.c55_exact_partial"], "False beyond 256 channels: the position is truncated to u8. The result for every map: the position modulo 256."),
 ("C58", "proved", ["Frame.c58_decided", "Frame.c58_equivalence", "Frame.c58_insensitive"], ""),
 ("C62", "proved", ["Pixel.c62_new"], ""),
 ("C63", "partial", ["Pixel.c63_total_partial", "Pixel.c63_fails"], "False when the sum exceeds a u8."),
 ("C64", "partial", ["Audio.c64_display_partial", "Audio.c64_fails"], "False: the two flags are swapped."),
 ("C65", "proved", ["Frame.c65_views", "Frame.c65_aligned"], ""),
 ("C69", "partial", ["Pixel.c69_minimal_partial", "Pixel.c69_fails", "Pixel.c69_exact_partial"], "False above 8 bits; proved for 8. Exactly when it holds; always up to 8 bits."),
 ("C70", "proved", ["Pixel.c70_names_distinct"], ""),
 ("C71", "partial", ["Pixel.c71_display_partial", "Pixel.c71_format_partial", "Pixel.c71_fails"], "False for packed components of 31 bits or more."),
 ("C72", "partial", ["Pixel.c72_models_partial", "Pixel.c72_fails"], "False for YCoCg."),
 ("C73", "partial", ["Frame.c49_copies", "Frame.c73_fails", "Frame.c73_exact_partial"], "False: only as many bytes as the component has columns are copied. Bytes from the number of columns on stay unchanged in every row."),
 ("C56", "proved", ["Stream.c56_table", "Stream.c56_indices"], ""),
 ("C57", "partial", ["Stream.c57_ids_partial", "Stream.c57_exact_partial", "Stream.c57_fails"], "False: the default id is taken from the index before the index is assigned, so all default ids are 0."),
 ("C59", "proved", ["Packet.c59_get", "Packet.c59_get_total", "Packet.c59_put", "Packet.c59_roundtrip"], ""),
 ("C60", "proved", ["ByteIo.c60_get", "ByteIo.c60_sequence"], ""),
 ("C61", "partial", ["ByteIo.c61_peek_partial", "ByteIo.c61_byte_partial", "ByteIo.c61_fails", "ByteIo.c61_exact_partial"], "False when fill_buf shows fewer bytes than the type needs (witness); proved when it shows enough, and for one-byte types. Over an AccReader: exactly when repeated peeks succeed."),
 ("C74", "partial", ["ByteIo.c74_byte_partial", "ByteIo.c74_fails", "ByteIo.c74_exact_partial"], "False for multi-byte types: bytes read before the interruption are lost (witness); proved for one-byte types. Exactly what an erroring read loses."),
 ("C31", "proved", ["Demux.c31_timebase"], ""),
 ("C32", "proved", ["Demux.c32_streams"], ""),
 ("C33", "proved", ["Demux.c33_hidden", "Demux.c33_passed", "Demux.c33_direct", "Demux.c33_error"], ""),
 ("C34", "proved", ["Demux.c34_eof", "Demux.c34_acc"], ""),
 ("C35", "partial", ["Demux.c35_terminates_partial", "Demux.c35_skips_partial", "Demux.c35_exact_partial", "Demux.c35_half_partial", "Demux.c35_fails"], "False: a request for k more bytes is compared with the number of buffered bytes, so with k bytes already buffered read_event loops without reading (witness). Proved for demuxers that ask for a total or skip forward; exact: for requests that do not seek, the only loop is a demuxer that keeps asking for no more than is buffered."),
 ("C36", "partial", ["Demux.c36_result", "Demux.c36_grows", "Demux.c36_succeeds_partial", "Demux.c36_exact_partial", "Demux.c36_fails"], "Results and growth proved; termination on a truncated stream is false (witness). Exact: it returns if and only if the stream still holds the bytes the headers need, else the buffer grows without bound."),
 ("C37", "proved", ["Demux.c37_probe"], ""),
 ("C38", "proved", ["Mux.c38_position", "Mux.c38_results"], ""),
 ("C39", "proved", ["Mux.c39_calls", "Mux.c39_bytes", "Mux.c39_prefix", "Mux.c39_succeeds", "Mux.c39_file"], ""),
 ("C40", "proved", ["Mux.c40_byName"], ""),
 ("C68", "partial", ["Demux.c68_fails", "Demux.c68_partial", "Demux.c68_exact_partial", "Demux.c68_event_partial"], "False: the result of the seek is dropped (witness); Ok exactly if the demuxer accepts, whatever the seek does; read_event does report it."),
 ("C75", "proved", ["Value.c75_value", "Value.c75_into"], ""),
 ("C76", "partial", ["Mux.c76_position_partial", "Mux.c76_exact_partial", "Mux.c76_fails"], "False: the count starts at 0 (witness); right exactly if a seek has succeeded or the sink stood at 0, otherwise short by where the sink stood."),
 ("C41", "proved", ["Codec.c41_registry"], ""),
 ("C42", "proved", ["Codec.c42_decoder", "Codec.c42_encoder"], ""),
 ("C77", "proved", ["Text.c77_format", "Text.c77_codec", "Text.c77_small", "Text.c77_texts"], ""),
 ("C78", "proved", ["Access.c78_video", "Access.c78_video_setters", "Access.c78_audio", "Access.c78_soniton", "Access.c78_chromaton", "Access.c78_formaton", "Access.c78_stream", "Access.c78_contexts"], "Colour setters of Formaton: C52."),
 ("C79", "proved", ["Text.c79_texts", "Text.c79_kinds", "Text.c79_frame_types"], ""),
 ("C80", "partial", ["Access.c80_default_partial", "Access.c80_fails"], "False: the derived default belongs to stream 0; equal apart from that."),
 ("C81", "proved", ["Audio.c81_formats", "Audio.c81_sizes"], ""),
 ("C82", "partial", ["Codebook.c82_total_partial", "Codebook.c82_shift_exact_partial", "Codebook.c82_short_exact_partial", "Codebook.c82_msb_exact_partial", "Codebook.c82_lsb_exact_partial", "Codebook.c82_lsb_order_fails", "Codebook.c82_fails"], "False for codes with bits above their length and for lengths over 41 bits in MSB mode; proved for all other descriptions, overlapping or not. c82_shift_exact_partial: which descriptions end with a shift overflow; c82_short_exact_partial: every outcome for codes of at most ten bits, out of range or not; c82_msb_exact_partial: every outcome in MSB mode for codes of at most 41 bits, out of range or not. c82_lsb_exact_partial: every outcome in LSB mode for codes of at most 20 bits; c82_lsb_order_fails: beyond that it can depend on the order of the hash maps. Not decided: codes out of range in LSB mode if one has more than 20 bits."),
 ("C83", "proved", ["Codebook.c83_read_total"], "The table fits 24-bit offsets (Fits)."),
 ("C84", "partial", ["Codebook.c84_short_partial", "Codebook.c84_long_first_partial", "Codebook.c84_one_group_partial", "Codebook.c84_exact_partial", "Codebook.c84_iff_partial", "Codebook.c18_order", "Codebook.c84_fails"], "False for a code of up to 10 bits listed before longer ones it starts (witness); proved for codes up to 10 bits, for prefix-free descriptions (c18_order), for all overlapping ones without such a pair and for those with a single group of such longer codes. For every description whose codes are in range: which books can come out (c20_exact_partial, c84_exact_partial), and the exact condition under which the order does not matter (c84_iff_partial)."),
 ("C85", "proved", ["Frame.c85_stores", "Frame.c85_blank", "Frame.c85_refused"], "Elements are given by their bytes."),
 ("C86", "proved", ["Acc.c86_inner"], "Reader handed over at its start."),
 ("C87", "proved", ["Acc.c87_capacity", "Acc.c87_default"], ""),
 ("C88", "partial", ["Demux.c88_threshold_partial", "Demux.c88_fails"], "False for a score of exactly 50 (witness): probe compares with >; proved for greater scores."),
 ("C89", "partial", ["Demux.c89_exact_partial", "Demux.c89_numbered_partial", "Demux.c89_fails"], "False (witness): announced streams are stored as they are, from_params numbers all of them 0; proved: when the numbers are right (exactly if the demuxer numbers them), and that packets then get their stream's timebase."),
 ("C90", "proved", ["Demux.c90_events", "Demux.c90_file"], "The format is any pair of prefix-stable parsers; skipping more than is buffered only with readers that do not fail."),
 ("C91", "proved", ["RoundTrip.c91_roundtrip"], "The library has no format of its own: any muxer computing its bytes and any format undoing it."),
 ("C92", "proved", ["Codebook.c92_reader", "Codebook.c92_short", "Codebook.c92_empty"], ""),
 ("C93", "partial", ["Codebook.c93_table_partial", "Codebook.c93_fails", "Codebook.c93_missing_codes"], "False for symbol types too narrow for the number of entries (witness: u8 and 257 entries); the symbol is the number cast to the type. The type has no public constructor."),
 ("C94", "proved", ["ByteIo.c94_round_trip", "ByteIo.c94_no_room"], ""),
 ("C95", "proved", ["BitRead.c95_bytes"], ""),
 ("C96", "proved", ["Codebook.c96_codeword", "Codebook.c96_description", "Codebook.c96_decode"], ""),
 ("C97", "proved", ["BitRead.c97_seven_bytes", "BitRead.c97_read_tight", "BitRead.c97_skip_tight"], ""),
 ("C98", "partial", ["BitRead.c98_partial", "BitRead.c98_fails"], "False: skip_rem is applied twice when the refill fails; a skip one bit past the end of an 8-byte buffer moves by two bits only (witness). Proved: exactly what is left, in every reachable state."),
 ("C99", "partial", ["BitRead.c99_partial", "BitRead.c99_exact_partial", "BitRead.c99_fails"], "False after skips of 2^64 bits or more in total (witness). Proved: exactly which calls overflow, for histories of any width; below 2^61 bytes of buffer and skips together the checked functions agree with the unbounded model."),
 ("C100", "partial", ["BitRead.c100_partial", "BitRead.c100_wide_partial", "BitRead.c100_panics_exact_partial", "BitRead.c100_fails", "BitRead.c100_65_fails", "BitRead.c100_release_fails"], "False: with n or fewer bits cached, get_bits_32(n > 32) panics (BE) or loses bits of the stream (LE); get_bits_64(65) panics on a full LE cache. Proved otherwise, with the exact condition of every panic for histories of any width. Without overflow checks nothing panics, but the bits are wrong (witness)."),
 ("C101", "partial", ["Acc.c101_exact_partial", "Acc.c101_excess_partial", "Acc.c101_fails"], "False: pos is clamped, index is not. Proved: every history over every inner reader, with any amounts consumed: the bytes are right, the positions are off by exactly the sum of the excesses until a seek leaves the buffer."),
 ("C102", "proved", ["Acc.c102_overflow", "Acc.c102_contract"], "Checked 64-bit versions of all functions, inner readers with u64 positions. c102_contract: consume(usize::MAX), outside the contract, does overflow."),
 ("C103", "proved", ["Codebook.c103_histories"], "Prefix-free books; for any fuel of at least 26 rounds (one per ten bits of a code), so the loop of read_cb always ends."),
 ("C104", "partial", ["Codebook.c104_progress_partial", "Codebook.c104_fails"], "False: when fewer than eight bytes remain unloaded the reader shows zeros but claims that bits are available, so a codeword of zeros is decoded for ever (for every such book and every buffer whose length is no multiple of eight). Proved: progress in all other states, none at all in these."),
 ("C105", "partial", ["Codebook.c105_modulo_partial", "Codebook.c105_words_partial", "Codebook.c105_fails"], "False from 2^24+1 entries on (witness): the table keeps the number of the entry in 24 bits. Proved: the symbol found is that of the entry whose number is the right one modulo 2^24."),
 ("C106", "proved", ["RoundTrip.c106_pipeline"], "The library has no codec and no format of its own: any that undo each other."),
 ("C107", "proved", ["Acc.c107_readUntil", "Acc.c107_readToEnd"], "The default methods of std are part of the model; an example shows why read_until needs a buffer with room."),
 ("C108", "proved", ["Demux.c108_readEvent", "Demux.c108_readHeaders"], "Both directions; for arbitrary demuxers and readers."),
 ("C109", "partial", ["Demux.c109_same", "Demux.c109_readEvent", "Demux.c109_readHeaders", "Demux.c109_fails"], "False: buf.len() + len overflows, and Vec::resize panics beyond isize::MAX (witnesses: two files of eight bytes). Proved: these are the only panics, when they happen, and that results are otherwise those of the unbounded reader, for a usize of any width in grow. Failing allocations below isize::MAX abort the process and are outside the model."),
 ("C110", "proved", ["Frame.c110_agrees", "Frame.checked_model"], "The functions are written once for any arithmetic; the checked one is proved to give the model."),
 ("C111", "partial", ["Frame.c111_like_shaped_partial", "Frame.c111_exact_partial", "Frame.c111_fails"], "False without overflow checks: the size of 96 x 192153584101141163 bytes wraps to 32, and a copy of one line overruns the plane (the copies are unsafe code). Proved for pictures whose size is a usize, in both builds; and for every picture without checks, when the frame can be made, its planes, and whether copies stay inside them."),
 ("C112", "proved", ["BitRead.c112_agrees", "BitRead.checkedOps_model"], "The functions are written once for any arithmetic; the checked one is proved to give the model."),
 ("C113", "partial", ["BitRead.c113_exact_partial", "BitRead.c113_partial", "BitRead.c113_fails"], "False after skipping almost 2^64 bytes (nine calls): index + 8 wraps and the slice panics. c113_exact_partial: which histories panic, for all widths and skips, and where all others leave the reader."),
 ("C114", "partial", ["BitRead.c114_exact_partial", "BitRead.c114_fails"], "False: once a skip has passed the end of any buffer, available() stays above the number of its bits for ever. Proved: what it returns, modulo 2^64, after every history."),
 ("C115", "proved", ["Codebook.c115_agrees", "Codebook.checkedBook_new"], "The functions are written once for any arithmetic; the checked one is proved to give the model."),
 ("C116", "partial", ["Codebook.c116_partial", "Codebook.c116_fails"], "False for codewords of 42 bits in MSB mode (witness): the shift amounts wrap, the book rejects its codeword and takes another for it. Proved for lengths up to 41 bits, and all lengths in LSB mode."),
 ("C117", "proved", ["Acc.c117_agrees", "Acc.c117_cursor", "Acc.checkedAcc_run"], "The functions are written once for any arithmetic; the checked one is proved to give that of C102."),
 ("C118", "partial", ["Acc.c118_partial", "Acc.c118_grow_partial", "Acc.c118_consume_partial", "Acc.c118_fails"], "False: after anything has been consumed consume(usize::MAX) moves back by one byte, and grow(usize::MAX) with a full buffer truncates it, so that the next fill_buf panics (witnesses). Proved: exactly when either happens; otherwise no history panics, over streams of any length and with any amounts consumed."),
 ("C119", "proved", ["Pixel.c119_component", "Pixel.c119_packed", "Pixel.c119_format"], "For components also the converse. The depth of a planar component is not shown."),
 ("C120", "proved", ["Pixel.c120_components"], ""),
 ("C121", "partial", ["Mux.c121_partial", "Mux.c121_exact_partial", "Mux.c121_fails"], "Proved while the sink stays at positions a usize can hold. False on 32-bit targets beyond 4 GiB: panic after the sink has taken the bytes, or a position that starts again at 0; a wrong position after a seek in every build. c121_exact_partial: for every sink and width exactly this happens, the position modulo 2^b or a panic at the write that exceeds it."),
 ("C122", "proved", ["Mux.c122_panics"], ""),
 ("C123", "partial", ["BitRead.c123_bytes_partial", "BitRead.c123_partial", "BitRead.c123_unchecked_partial", "BitRead.c123_checked_partial", "BitRead.c123_available_fails", "BitRead.c123_fails", "BitRead.narrowOps_64"], "Proved while buffer and skips amount to less than 2^b - 128 bits. Up to 2^b - 8 bytes all results but those of consumed and available, which are given exactly; without overflow checks exactly what happens for all buffers of up to 2^(b-1) bytes and skips by any usize; with checks, for every buffer and skips by any usize, which calls overflow, and that all others do what the unbounded model does. False on 32-bit targets for every buffer of at least 512 MiB: available panics, or is too small."),
 ("C124", "proved", ["Mux.c124_file", "Mux.c124_patch", "Mux.c124_total"], "The sink is a file: bytes beyond its end are filled with zeros."),
 ("C125", "proved", ["Frame.c125_agrees", "Frame.narrow_64", "Frame.land_unot_narrow"], "The functions are written once for any arithmetic."),
 ("C126", "partial", ["Frame.c126_partial", "Frame.c126_exact_partial", "Frame.c126_fails"], "False on 32-bit targets: the size of 49248 x 87211 bytes wraps to 32; without overflow checks the frame gets a plane of 32 bytes and its copies leave it. Proved for pictures whose sizes are a usize of the target, in both builds; and for every picture without checks, when the frame can be made, its planes, and whether copies stay inside them."),
 ("C127", "partial", ["Acc.c127_partial", "Acc.c127_consume_partial", "Live.c127_exact_partial", "Live.c127_noseek_partial", "Live.runN_link", "Acc.c127_fails", "Acc.narrowAcc_64"], "False on 32-bit targets: seeks by or to 4 GiB and more are truncated. Proved for streams of at most half the address space while the position is a usize; there the results are those of the unbounded model. c127_exact_partial: over every reader, for streams of any length, the code on such a target is a queue with a position of b bits (buffer and requests within half the address space); runN_link: over a scripted source this is the code of Acc."),
 ("C128", "proved", ["Codec.c128_decoder", "Codec.c128_encoder"], "Codecs are arbitrary records of functions that may panic."),
 ("C129", "partial", ["Demux.c129_partial", "Demux.c129_fails"], "False: read_event grows the buffer whenever a request exceeds what is buffered, also if there is room; records of one byte already make it exceed any number. Proved: the buffer stays within capacity + K * (calls + length of the stream)."),
 ("C130", "partial", ["Pixel.c130_partial", "Pixel.c130_fails"], "False: the reserved code point 0 of primaries and transfer characteristics is shown as Identity. Proved for all others."),
 ("C131", "partial", ["Codebook.c131_new", "Codebook.c131_new_checked", "Codebook.c131_new_unchecked", "Codebook.c131_partial", "Codebook.c131_unchecked_partial", "Codebook.c131_exact_partial", "Codebook.c131_read_fails", "Codebook.c131_new_fails", "Codebook.c131_fails"], "False on 32-bit targets with overflow checks: in front of 512 MiB or more read_cb panics in available. Proved: building, exactly, including that a table of half the address space or more makes it panic (c131_new_fails has a book of 2^20 codewords); reading without overflow checks; reading with them while the number of bits left is below 2^b, and exactly what happens otherwise."),
 ("C132", "proved", ["Codebook.c132_size", "Codebook.c132_bound", "Codebook.c132_short"], "The same size is the condition (Fits) of the theorems on decoding."),
 ("C133", "proved", ["Live.c133_live", "Live.c133_resumes", "Live.c133_concat", "Live.sees_known", "Live.run_link", "Live.feed_grows", "Live.source_grows"], "AccReader over any type of reader; run_link: over a scripted source it is the model of Acc. Readers whose backward relative seeks lead elsewhere (AccReader itself, C26) are included."),
 ("C134", "proved", ["Live.c134_events", "Live.c134_next", "Live.c134_headers"], "read_headers keeps reading until the headers are there; it returns if they come after finitely many reads."),
 ("C135", "partial", ["Live.c135_exact_partial", "Live.c135_fails"], "False: every call that waits enlarges the buffer by the whole request of the demuxer. Proved: by exactly that much, whatever the format."),
 ("C136", "proved", ["Live.c136_follow"], ""),
 ("C137", "proved", ["Live.c137_queue", "Live.c137_fifo"], "Only read_exact can fail to return, over a reader that is interrupted for ever."),
 ("C138", "proved", ["BitRead.c138_stream", "BitRead.c138_exact", "BitRead.c138_panics", "BitRead.c138_merge", "BitRead.c138_build", "BitRead.c138_needed"], "c138_needed: outside the contract bits are lost (little-endian) or refill32 panics (big-endian)."),
 ("C139", "proved", ["Codebook.c139_kraft", "Codebook.c139_complete", "Codebook.c139_incomplete"], "With the restrictions of C15 and C16: codes in range, tables that fit, 64 bits behind the codeword."),
 ("C140", "partial", ["Live.c140_partial", "Live.c140_queues_partial", "Live.c140_fails"], "False: a seek of AccReader that fails while refilling has moved the reader although it returned an error; the outer reader relies on the contract of Seek and delivers bytes from elsewhere behind those it holds. Proved: for histories without seeks whatever fails, and for all histories if reads do not fail; and what happens in general, for every reader: a queue in front of a queue."),
 ("C141", "proved", ["Live.c141_wild", "Live.c141_honest", "Live.c141_quiet"], "Sums of counts are unbounded here; counts close to 2^64, with and without overflow checks, are in C151."),
 ("C142", "partial", ["Live.c142_unchecked_partial", "Live.c142_checked_partial", "Live.c142_cut_partial", "Live.c142_cut_checked_partial", "Live.c142_border_partial", "Live.c142_fails"], "False on 32-bit targets: with overflow checks the first record that ends behind 4 GiB makes read_event panic; without, a record of 4 GiB and a few bytes is skipped by the few bytes only. Proved: without checks the same headers and events for streams of any length, if no single record is as long as the address space; with checks, for records within the buffer, the same up to the end of the address space and the panic behind it; and for records of any length: each is skipped by its length modulo 2^b if as much is buffered, else by the whole length, with checks up to the first panic; and that panic comes exactly when a header or record within the buffered bytes reaches over a multiple of 2^b (c142_border_partial)."),
 ("C143", "partial", ["Mux.c143_below_partial", "Mux.c143_exact_partial", "Mux.c143_fails"], "False on 32-bit targets: with overflow checks the write that reaches 4 GiB panics, after the sink has taken the bytes; without, a muxer that asks for the position behind 4 GiB is told it modulo 4 GiB. Proved: the same below the limit; and exactly what happens beyond, with and without checks (a muxer that never asks for the position does the same everywhere without checks)."),
 ("C144", "proved", ["RoundTrip.c144_copy", "RoundTrip.c144_remux", "RoundTrip.c144_same"], "For every muxer: the calls made. For muxers that compute their bytes: the file that results, also bit-identical copies."),
 ("C145", "proved", ["Demux.c145_seen", "Demux.c145_open", "Demux.c145_new", "Demux.c145_unreadable", "Demux.c145_once", "Demux.c145_once_is_not_enough"], "c145_once and c145_once_is_not_enough: with a single call of fill_buf the choice may depend on how many bytes the first read delivers."),
 ("C146", "partial", ["Pixel.c146_partial", "Pixel.c146_tables", "Pixel.c146_names", "Pixel.c146_range", "Pixel.c146_fails"], "False for transfer characteristic 1, documented as BT.709 but shown as BT.1886, and for the reserved numbers 0 (see C130); proved for all others."),
 ("C147", "proved", ["Acc.c147_len", "Acc.c147_rewind", "Acc.c147_relative", "Acc.c147_take"], "The methods are default methods and adapters of std over the seek and read of AccReader. Backward relative seeks are C26."),
 ("C148", "proved", ["Live.c148_calls", "Live.c148_amortised"], "The calls are counted by a counter added to any reader. The second theorem holds after any history, whatever is buffered then."),
 ("C149", "partial", ["Live.c149_fails", "Live.c149_exact_partial"], "False: after one of three buffered bytes is consumed, fill_buf asks the inner reader and returns its error instead of the two bytes. Proved exactly: it asks if and only if fewer bytes are buffered than the buffer holds; what is buffered survives an error."),
 ("C150", "proved", ["Live.c150_buffered", "Live.c150_amortised", "Live.c150_attained"], "The calls are counted as in C148. Every request enlarges the buffer by what is asked for and fills it, so every read but the last brings more bytes than the buffer held before."),
 ("C151", "partial", ["Live.c151_fails", "Live.c151_again_fails", "Live.c151_checked_partial", "Live.c151_noticed_partial", "Live.c151_wrapping_partial", "Live.c151_safe", "Live.c151_agree"], "False without overflow checks: a count of 2^64 - 1 makes fill_buf lose a buffered byte, and a large read with such a count shows consumed bytes again. Proved: noticed with overflow checks; exactly what happens without; the window stays in the buffer in both; with checks the functions are those of C141 or panic because of an overflow."),
 ("C152", "partial", ["Demux.c152_partial", "Demux.c152_file_partial", "Demux.c152_endless_partial", "Demux.c152_fails"], "False for steps back by SeekFrom::Current, which count from the end of the buffered bytes (C26): what is demuxed then depends on the capacity. Proved for all formats whose steps back are absolute or from the end: events, headers, and endless jumps. C155 says what relative steps back do."),
 ("C153", "partial", ["Conform.c153_fails", "Conform.c153_partial", "Conform.c153_reads", "Conform.c153_bytes"], "False: the loop of benches/bitstream.rs never ends if the length is no multiple of 8. Proved: it ends after the number of words otherwise; the loops of bitread.rs read the bits in order on every input long enough; the loop of format.rs gets every byte of every input."),
 ("C154", "proved", ["RoundTrip.c154_roundtrip", "RoundTrip.c154_in_order"], "Any record format, any order or selection in the table, any short writes and reads, any capacity; files below 2^64 bytes."),
 ("C155", "proved", ["Live.c155_queue", "Live.c155_calls"], "Any program of calls on the buffer; any inner reader that returns at most what was asked for; steps back by SeekFrom::Current included, as the queue has them."),
 ("C156", "proved", ["Demux.c156_file"], "Programs of read_exact, grow and seek (no relative steps back, see C26), inner readers that do not fail."),
 ("C157", "proved", ["Mux.c157_appends", "Mux.c157_file", "Mux.sink_appends", "Mux.sink_steady"], "Muxers as programs of write, flush and position (all that the generic trait method can do with the writer); write_all of std in the second part."),
 ("C158", "proved", ["Codebook.c158_programs"], "Widths within the types, codebooks as in C17 (sound, depth at most 26); copies of readers included."),
 ("C159", "proved", ["Frame.c159_any_buffer", "Frame.c159_default", "Frame.c159_joined", "Frame.c159_calls"], "c159_default and c159_joined: the buffer of default frames and one that keeps all planes in one vector meet the contract. When the copies leave a slice is C48."),
 ("C160", "proved", ["RoundTrip.c160_delayed"], "The loops of the applications are part of the model; the codecs are machines with a queue of results."),
 ("C161", "proved", ["Frame.c161_memory", "Frame.c161_default", "Frame.c161_views", "Frame.c161_blank"], "Copies are of video frames (C49); loads and stores of frames of any kind. Single planes are copied with the picture's dimensions (C50), so copies of single planes are included for planes with room for these."),
 ("C162", "proved", ["RoundTrip.c162_coded"], "The codec is an application's, made of the library's put_u32b, get_u32b, Codebook::new, BitRead and read_cb; its bits are laid out by the specification (bytesFor, codeBits), as the library has no bit writer."),
 ("C163", "proved", ["RoundTrip.c163_streams"], "Codecs as in C160; the application sets the stream index of the packets it receives."),
 ("C164", "proved", ["RoundTrip.c164_transcode"], "One stream; several in C180, and with threads in C176."),
 ("C165", "proved", ["RoundTrip.c165_calm", "RoundTrip.c165_retry"], "Not returning (a decoder that gives frames for ever, headers that never come) is Panic.fuel in the model; c165_calm excludes every other panic."),
 ("C166", "partial", ["Demux.c166_fails", "Demux.c166_partial", "Demux.c166_exact_partial"], "False: the demuxer has answered when the reader is moved, so a failure of that move drops the event, and with a NewStream the stream is never registered (c166_fails). True if no record is longer than the bytes it was recognised in (c166_partial); c166_exact_partial: what can happen otherwise."),
 ("C167", "partial", ["Mux.c167_fails", "Mux.c167_partial", "Mux.c167_exact_partial"], "False: the call that failed may have written the first bytes, and the muxer has only Write, so the second call writes them again behind them (c167_fails). c167_exact_partial: what is in the file after any history of succeeding and failing calls. c167_partial: for a muxer without state the file is that of the calls that succeeded exactly if the writer's position is."),
 ("C168", "proved", ["Shared.c168_values", "Shared.c168_holders", "Shared.c168_reuse", "Shared.c168_memory"], "On a model of std's Arc with memory and counts, without weak pointers; calls of several threads in the order in which they take effect. It is the reason why the other models take an Arc for its value."),
 ("C169", "proved", ["Shared.c169_pictures", "Shared.c169_frames"], "On the model of Arc of C168."),
 ("C170", "proved", ["RoundTrip.c170_losses", "RoundTrip.c170_file", "RoundTrip.c170_formats"], "For formats whose planes hold whole bytes per column (as in C49; for wider samples the copies move part of a line, C73)."),
 ("C171", "partial", ["Demux.c171_exact_partial", "Demux.c171_partial", "Demux.c171_fails", "RoundTrip.c171_video"], "Exactly: the records from the place on, each NewStream registered once more. Proved as stated for formats whose headers announce all streams and for films. Fails where streams are announced by events: going back over one registers it twice, and packets get another timebase than before."),
 ("C172", "partial", ["Frame.c172_in_partial", "Frame.c172_in_all_partial", "Frame.c172_out_exact_partial", "Frame.c172_take_partial", "Frame.c172_limit", "Frame.c172_fails"], "Proved as stated for copy_from_slice, and for copy_frame_to_buffer when the application limits the destinations with take. Otherwise copy_frame_to_buffer takes one destination and one line size too many (exactly so in c172_out_exact_partial): the next frame lands one slice further, or is not copied at all."),
 ("C173", "proved", ["RoundTrip.c173_schedules", "RoundTrip.c173_player", "RoundTrip.c173_failing"], "Threads are modelled by what they do next and executions as all orders of their moves; that contexts are Send (the compiler's check) and that channels behave as described is trusted. c173_player compares with the player of C163, c173_failing is for threads that fail or panic."),
 ("C174", "proved", ["RoundTrip.c174_schedules", "RoundTrip.c174_recording", "RoundTrip.c174_every", "RoundTrip.c174_files"], "Threads and channels as in C173. c174_schedules is for any threads that send to one, which may end before the others; the file is one of the merges of the streams' packets, and each merge is the file of some schedule (c174_every, c174_files)."),
 ("C175", "partial", ["Conform.c175_exact", "Conform.c175_partial", "Conform.c175_fails", "Conform.c175_decoder", "Conform.c175_decoder_fails"], "False: get_params (encoder.rs:242-261) exchanges width and height, and panics when only the height is missing, as it checks the width twice (c175_fails); receive_frame of the decoder is unimplemented (c175_decoder_fails). c175_exact says what every history gives; c175_partial is the statement when get_params is called for square videos only, or before width or format are known; c175_decoder is for all other calls of the decoder."),
 ("C176", "proved", ["RoundTrip.c176_schedules", "RoundTrip.c176_transcoding", "RoundTrip.c176_every", "RoundTrip.c176_files", "RoundTrip.c176_narrow"], "Threads and channels as in C173 and C174. c176_schedules is for any threads, also such that fail or panic; packets of streams the file does not have are skipped. c176_every: with channels that hold what is sent, each merge is the file of some schedule; c176_narrow: smaller channels exclude some."),
 ("C177", "proved", ["Demux.c177_sound", "Demux.c177_exact", "Demux.c177_tests", "Demux.c177_depends", "Demux.c177_hangs", "Demux.c177_default"], "Generalises C90 and C152, which are for demuxers that ask for more than they were shown. The demuxer goes back only with absolute positions."),
 ("C178", "proved", ["Demux.c178_sound", "Demux.c178_exact", "Demux.c178_returns"], "Generalises C36, which is for headers of a fixed size. The demuxer goes back only with absolute positions; a seek that fails is not reported (C68)."),
 ("C179", "proved", ["Conform.c179_returns", "Conform.c179_panics", "Conform.c179_unwraps", "Conform.c179_file", "Conform.c179_misread", "Conform.c179_unread", "Conform.c179_test"], "The last three are about calls of read_event that return; when they do is C177. c179_panics excludes muxers that themselves panic with unwrap, which c179_unwraps shows the test muxer does not."),
 ("C180", "proved", ["RoundTrip.c180_convert", "RoundTrip.c180_copies"], "The program is an application written over the library, as in C163 and C164. Streams keep their numbers: a copied packet is written as it is, and the packets of an encoder get the number of the stream they are made of. Packets of streams without a plan are skipped."),
 ("C181", "proved", ["RoundTrip.c181_told", "RoundTrip.c181_whole"], "About runs that return; that the contexts add no panics is C108, C122 and C128. Whether a format takes a file that is cut off for one that has ended is the demuxer's matter (example)."),
 ("C182", "proved", ["RoundTrip.c182_wired", "RoundTrip.c182_decFine", "RoundTrip.c182_encFine"], "About runs that return no error; those that do are in C181. That the codecs were asked until nothing was there is, for codecs that do what a machine says, part of C180."),
 ("C183", "proved", ["RoundTrip.c183_calm", "RoundTrip.c183_calm_retry", "RoundTrip.c183_bytes", "RoundTrip.c183_retry", "RoundTrip.c183_rounds", "RoundTrip.c183_one"], "c183_calm: Panic.fuel stands for a program that has not ended yet, as with headers that never come or a decoder that gives frames for ever. c183_retry: for a run of the other program that ends, of a file whose headers are complete. c183_rounds, c183_one: how many rounds the model allows its loops does not change a run that ends."),
]
out = {"claims": [
    {"property": p, "status": s, "theorems": [N + t for t in ts], "note": n}
    for p, s, ts, n in CLAIMS]}
here = os.path.dirname(os.path.dirname(os.path.abspath(__file__)))
with open(os.path.join(here, "MANIFEST.json"), "w") as f:
    json.dump(out, f, indent=1)
    f.write("\n")

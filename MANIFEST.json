{
 "claims": [
  {
   "property": "C01",
   "status": "proved",
   "theorems": [
    "Verif.Bytes.c01_put_get"
   ],
   "note": "All 18 typed pairs, all values, all buffers."
  },
  {
   "property": "C02",
   "status": "proved",
   "theorems": [
    "Verif.Bytes.c02_put_frame",
    "Verif.Bytes.c02_disjoint_writes"
   ],
   "note": ""
  },
  {
   "property": "C03",
   "status": "proved",
   "theorems": [
    "Verif.Bytes.c03_get_value",
    "Verif.Bytes.c03_get_signed"
   ],
   "note": "Floats: bit pattern."
  },
  {
   "property": "C04",
   "status": "proved",
   "theorems": [
    "Verif.BitRead.c04_le_stream"
   ],
   "note": "Data = buffer minus 8 bytes of padding, as documented in the struct."
  },
  {
   "property": "C05",
   "status": "proved",
   "theorems": [
    "Verif.BitRead.c05_be_stream"
   ],
   "note": ""
  },
  {
   "property": "C06",
   "status": "proved",
   "theorems": [
    "Verif.BitRead.c06_position"
   ],
   "note": ""
  },
  {
   "property": "C07",
   "status": "proved",
   "theorems": [
    "Verif.BitRead.c07_peek",
    "Verif.BitRead.c07_insert"
   ],
   "note": ""
  },
  {
   "property": "C08",
   "status": "proved",
   "theorems": [
    "Verif.BitRead.c08_align",
    "Verif.BitRead.c08_alignUp_minimal"
   ],
   "note": ""
  },
  {
   "property": "C09",
   "status": "proved",
   "theorems": [
    "Verif.BitRead.c09_skip_eq_discard"
   ],
   "note": ""
  },
  {
   "property": "C10",
   "status": "proved",
   "theorems": [
    "Verif.BitRead.c10_compose",
    "Verif.BitRead.c10_agree"
   ],
   "note": ""
  },
  {
   "property": "C11",
   "status": "proved",
   "theorems": [
    "Verif.BitRead.c11_no_panic",
    "Verif.BitRead.c11_zero_bits"
   ],
   "note": "Positions are unbounded naturals: overflow of index after skipping more than 2^64 bits in total is in C99 and C113."
  },
  {
   "property": "C12",
   "status": "partial",
   "theorems": [
    "Verif.BitRead.c12_whole_words_partial",
    "Verif.BitRead.c12_fails",
    "Verif.BitRead.c12_skip_to_end_fails",
    "Verif.BitRead.c12_available_panics",
    "Verif.BitRead.c12_exact_partial"
   ],
   "note": "False in general (three witnesses): 32-bit refills can make the last bytes unreachable, skipping to the end leaves a stale cache, available() panics after skipping past the end. Proved for 64-bit functions on whole-word buffers; and for every history on every buffer, what happens instead."
  },
  {
   "property": "C13",
   "status": "proved",
   "theorems": [
    "Verif.Codebook.c13_msb_decode"
   ],
   "note": "Any in-data history before; the reader stands exactly behind the codeword afterwards."
  },
  {
   "property": "C14",
   "status": "proved",
   "theorems": [
    "Verif.Codebook.c14_lsb_decode"
   ],
   "note": ""
  },
  {
   "property": "C15",
   "status": "proved",
   "theorems": [
    "Verif.Codebook.c15_sequence"
   ],
   "note": "Both modes."
  },
  {
   "property": "C16",
   "status": "proved",
   "theorems": [
    "Verif.Codebook.c16_reject"
   ],
   "note": ""
  },
  {
   "property": "C17",
   "status": "partial",
   "theorems": [
    "Verif.Codebook.c17_truncated_partial",
    "Verif.Codebook.c17_exact_partial",
    "Verif.Codebook.c17_fails"
   ],
   "note": "False: codewords over 10 bits are accepted past the end (witness). Proved in every reader state for codewords up to 10 bits, or all but one bit of which are cached; c17_exact_partial: what read_cb returns and where it stops, for every book and every state, also at and behind the end."
  },
  {
   "property": "C18",
   "status": "proved",
   "theorems": [
    "Verif.Codebook.c18_order"
   ],
   "note": "For every reader state."
  },
  {
   "property": "C19",
   "status": "proved",
   "theorems": [
    "Verif.Codebook.c19_unused",
    "Verif.Codebook.c19_invalid"
   ],
   "note": "For every description, also ambiguous or malformed ones."
  },
  {
   "property": "C20",
   "status": "partial",
   "theorems": [
    "Verif.Codebook.c20_last_wins_partial",
    "Verif.Codebook.c20_rule_partial",
    "Verif.Codebook.c20_exact_partial",
    "Verif.Codebook.c20_fails"
   ],
   "note": "False: an ambiguous book is accepted and mis-decodes an unrelated codeword. Proved: which entry such a book decodes to, for codes up to 10 bits (the one listed last), for codes of all lengths as long as no short code is listed before the longer ones it starts, and (c20_exact_partial, by a longer rule) for every description whose codes are in range."
  },
  {
   "property": "C21",
   "status": "partial",
   "theorems": [
    "Verif.Codebook.c21_unmoved_partial",
    "Verif.Codebook.c17_exact_partial",
    "Verif.Codebook.c21_fails"
   ],
   "note": "False for codewords over 10 bits (witness); proved for shorter books in every reader state; for the others c17_exact_partial says where the reader stops."
  },
  {
   "property": "C22",
   "status": "proved",
   "theorems": [
    "Verif.Codebook.c22_reverse",
    "Verif.Codebook.c22_involution"
   ],
   "note": ""
  },
  {
   "property": "C66",
   "status": "partial",
   "theorems": [
    "Verif.Codebook.c66_following_partial",
    "Verif.Codebook.c17_exact_partial",
    "Verif.Codebook.c66_fails"
   ],
   "note": "False: `available() as u32` truncates, so in front of exactly 2^32 bits every code is rejected. Proved below 2^32 bits; c17_exact_partial covers every buffer."
  },
  {
   "property": "C23",
   "status": "proved",
   "theorems": [
    "Verif.Acc.c23_fidelity",
    "Verif.Acc.c23_concat"
   ],
   "note": "All operations, also failing and backward seeks; inner reader at its start when handed over (C67)."
  },
  {
   "property": "C24",
   "status": "proved",
   "theorems": [
    "Verif.Acc.c24_position"
   ],
   "note": "Histories without a failing seek or read_exact (which do not report how far they got; C29 covers those)."
  },
  {
   "property": "C25",
   "status": "proved",
   "theorems": [
    "Verif.Acc.c25_absolute",
    "Verif.Acc.c25_succeeds"
   ],
   "note": ""
  },
  {
   "property": "C26",
   "status": "partial",
   "theorems": [
    "Verif.Acc.c26_relative_partial",
    "Verif.Acc.c26_fails"
   ],
   "note": "False for backward seeks with buffered data (witness); forward proved, backward characterised exactly."
  },
  {
   "property": "C27",
   "status": "proved",
   "theorems": [
    "Verif.Acc.c27_window"
   ],
   "note": ""
  },
  {
   "property": "C28",
   "status": "proved",
   "theorems": [
    "Verif.Acc.c28_eof"
   ],
   "note": ""
  },
  {
   "property": "C29",
   "status": "proved",
   "theorems": [
    "Verif.Acc.c29_errors"
   ],
   "note": ""
  },
  {
   "property": "C30",
   "status": "proved",
   "theorems": [
    "Verif.Acc.c30_readExact",
    "Verif.Acc.c30_terminates",
    "Verif.Acc.c30_splits"
   ],
   "note": ""
  },
  {
   "property": "C67",
   "status": "partial",
   "theorems": [
    "Verif.Acc.c67_offset_partial",
    "Verif.Acc.c67_fails",
    "Verif.Acc.c101_exact_partial"
   ],
   "note": "False: the constructor assumes position 0. Proved: the bytes delivered before the first seek, and everything from the first seek on that leaves the buffered window; and (c101_exact_partial) the exact behaviour of every history with seeks, the reported positions being off by a constant until a seek leaves the buffer."
  },
  {
   "property": "C43",
   "status": "proved",
   "theorems": [
    "Verif.Audio.c43_align"
   ],
   "note": "Both align helpers (audiosample.rs, pixel.rs)."
  },
  {
   "property": "C44",
   "status": "proved",
   "theorems": [
    "Verif.Audio.c44_audio_size",
    "Verif.Frame.c47_audio"
   ],
   "note": "Frame size: conjunct s = z * channels of c47_audio."
  },
  {
   "property": "C45",
   "status": "proved",
   "theorems": [
    "Verif.Pixel.c45_dimensions"
   ],
   "note": ""
  },
  {
   "property": "C46",
   "status": "partial",
   "theorems": [
    "Verif.Pixel.c46_linesize_partial",
    "Verif.Pixel.c46_data_size",
    "Verif.Pixel.c46_fails",
    "Verif.Pixel.c46_exact_partial"
   ],
   "note": "False below 8 bits (witness: depth 1). Proved for depth >= 8 and the other cases in which it holds; data size proved in general. Exactly when it holds, for every depth and alignment."
  },
  {
   "property": "C47",
   "status": "proved",
   "theorems": [
    "Verif.Frame.c47_video",
    "Verif.Frame.c47_no_panic",
    "Verif.Frame.c47_audio"
   ],
   "note": "Whenever size(32) fits a usize; no panic for dimensions up to 2^24."
  },
  {
   "property": "C48",
   "status": "partial",
   "theorems": [
    "Verif.Conform.copyTest_ub",
    "Verif.Frame.c48_copy_plane_partial",
    "Verif.Frame.c48_fails",
    "Verif.Frame.c48_overrun_fails",
    "Verif.Frame.c48_exact_partial",
    "Verif.Frame.c48_frame_partial",
    "Verif.Frame.c48_slice_partial"
   ],
   "note": "False: out-of-bounds read and write witnesses. Exact characterisation of when copy_plane leaves its slices. The outcome of copy_plane, and exactly when copy_frame_to_buffer and copy_from_slice return and with what, for all arguments."
  },
  {
   "property": "C49",
   "status": "proved",
   "theorems": [
    "Verif.Frame.c49_copies",
    "Verif.Frame.c49_roundtrip",
    "Verif.Frame.c49_default"
   ],
   "note": ""
  },
  {
   "property": "C50",
   "status": "partial",
   "theorems": [
    "Verif.Frame.c50_plane_partial",
    "Verif.Frame.c50_fails",
    "Verif.Frame.c50_exact_partial"
   ],
   "note": "False for subsampled components (witness); proved for the others. The outcome for all frames and arguments."
  },
  {
   "property": "C51",
   "status": "proved",
   "theorems": [
    "Verif.Pixel.c51_matrix",
    "Verif.Pixel.c51_primaries",
    "Verif.Pixel.c51_transfer",
    "Verif.Pixel.c51_published"
   ],
   "note": ""
  },
  {
   "property": "C52",
   "status": "partial",
   "theorems": [
    "Verif.Pixel.c52_setters_partial",
    "Verif.Pixel.c52_fails"
   ],
   "note": "False: the setters assign to a temporary, so no getter ever changes (proved for every format); the returned value is right."
  },
  {
   "property": "C53",
   "status": "partial",
   "theorems": [
    "Verif.Pixel.c53_formats_partial",
    "Verif.Pixel.c53_wrong_partial",
    "Verif.Pixel.c53_colour",
    "Verif.Pixel.c53_fails"
   ],
   "note": "False for some predefined formats (witnesses)."
  },
  {
   "property": "C54",
   "status": "proved",
   "theorems": [
    "Verif.Audio.c54_classified",
    "Verif.Audio.c54_named",
    "Verif.Audio.c54_names_distinct"
   ],
   "note": ""
  },
  {
   "property": "C55",
   "status": "partial",
   "theorems": [
    "Verif.Audio.c55_channels",
    "Verif.Audio.c55_find_partial",
    "Verif.Audio.c55_default",
    "Verif.Audio.c55_fails",
    "Verif.Audio.c55_exact_partial"
   ],
   "note": "False beyond 256 channels: the position is truncated to u8. The result for every map: the position modulo 256."
  },
  {
   "property": "C58",
   "status": "proved",
   "theorems": [
    "Verif.Frame.c58_decided",
    "Verif.Frame.c58_equivalence",
    "Verif.Frame.c58_insensitive"
   ],
   "note": ""
  },
  {
   "property": "C62",
   "status": "proved",
   "theorems": [
    "Verif.Pixel.c62_new"
   ],
   "note": ""
  },
  {
   "property": "C63",
   "status": "partial",
   "theorems": [
    "Verif.Pixel.c63_total_partial",
    "Verif.Pixel.c63_fails"
   ],
   "note": "False when the sum exceeds a u8."
  },
  {
   "property": "C64",
   "status": "partial",
   "theorems": [
    "Verif.Audio.c64_display_partial",
    "Verif.Audio.c64_fails"
   ],
   "note": "False: the two flags are swapped."
  },
  {
   "property": "C65",
   "status": "proved",
   "theorems": [
    "Verif.Frame.c65_views",
    "Verif.Frame.c65_aligned"
   ],
   "note": ""
  },
  {
   "property": "C69",
   "status": "partial",
   "theorems": [
    "Verif.Pixel.c69_minimal_partial",
    "Verif.Pixel.c69_fails",
    "Verif.Pixel.c69_exact_partial"
   ],
   "note": "False above 8 bits; proved for 8. Exactly when it holds; always up to 8 bits."
  },
  {
   "property": "C70",
   "status": "proved",
   "theorems": [
    "Verif.Pixel.c70_names_distinct"
   ],
   "note": ""
  },
  {
   "property": "C71",
   "status": "partial",
   "theorems": [
    "Verif.Pixel.c71_display_partial",
    "Verif.Pixel.c71_format_partial",
    "Verif.Pixel.c71_fails"
   ],
   "note": "False for packed components of 31 bits or more."
  },
  {
   "property": "C72",
   "status": "partial",
   "theorems": [
    "Verif.Pixel.c72_models_partial",
    "Verif.Pixel.c72_fails"
   ],
   "note": "False for YCoCg."
  },
  {
   "property": "C73",
   "status": "partial",
   "theorems": [
    "Verif.Frame.c49_copies",
    "Verif.Frame.c73_fails",
    "Verif.Frame.c73_exact_partial"
   ],
   "note": "False: only as many bytes as the component has columns are copied. Bytes from the number of columns on stay unchanged in every row."
  },
  {
   "property": "C56",
   "status": "proved",
   "theorems": [
    "Verif.Stream.c56_table",
    "Verif.Stream.c56_indices"
   ],
   "note": ""
  },
  {
   "property": "C57",
   "status": "partial",
   "theorems": [
    "Verif.Stream.c57_ids_partial",
    "Verif.Stream.c57_exact_partial",
    "Verif.Stream.c57_fails"
   ],
   "note": "False: the default id is taken from the index before the index is assigned, so all default ids are 0."
  },
  {
   "property": "C59",
   "status": "proved",
   "theorems": [
    "Verif.Packet.c59_get",
    "Verif.Packet.c59_get_total",
    "Verif.Packet.c59_put",
    "Verif.Packet.c59_roundtrip"
   ],
   "note": ""
  },
  {
   "property": "C60",
   "status": "proved",
   "theorems": [
    "Verif.ByteIo.c60_get",
    "Verif.ByteIo.c60_sequence"
   ],
   "note": ""
  },
  {
   "property": "C61",
   "status": "partial",
   "theorems": [
    "Verif.ByteIo.c61_peek_partial",
    "Verif.ByteIo.c61_byte_partial",
    "Verif.ByteIo.c61_fails",
    "Verif.ByteIo.c61_exact_partial"
   ],
   "note": "False when fill_buf shows fewer bytes than the type needs (witness); proved when it shows enough, and for one-byte types. Over an AccReader: exactly when repeated peeks succeed."
  },
  {
   "property": "C74",
   "status": "partial",
   "theorems": [
    "Verif.ByteIo.c74_byte_partial",
    "Verif.ByteIo.c74_fails",
    "Verif.ByteIo.c74_exact_partial"
   ],
   "note": "False for multi-byte types: bytes read before the interruption are lost (witness); proved for one-byte types. Exactly what an erroring read loses."
  },
  {
   "property": "C31",
   "status": "proved",
   "theorems": [
    "Verif.Demux.c31_timebase"
   ],
   "note": ""
  },
  {
   "property": "C32",
   "status": "proved",
   "theorems": [
    "Verif.Demux.c32_streams"
   ],
   "note": ""
  },
  {
   "property": "C33",
   "status": "proved",
   "theorems": [
    "Verif.Demux.c33_hidden",
    "Verif.Demux.c33_passed",
    "Verif.Demux.c33_direct",
    "Verif.Demux.c33_error"
   ],
   "note": ""
  },
  {
   "property": "C34",
   "status": "proved",
   "theorems": [
    "Verif.Demux.c34_eof",
    "Verif.Demux.c34_acc"
   ],
   "note": ""
  },
  {
   "property": "C35",
   "status": "partial",
   "theorems": [
    "Verif.Demux.c35_terminates_partial",
    "Verif.Demux.c35_skips_partial",
    "Verif.Demux.c35_exact_partial",
    "Verif.Demux.c35_half_partial",
    "Verif.Demux.c35_fails"
   ],
   "note": "False: a request for k more bytes is compared with the number of buffered bytes, so with k bytes already buffered read_event loops without reading (witness). Proved for demuxers that ask for a total or skip forward; exact: for requests that do not seek, the only loop is a demuxer that keeps asking for no more than is buffered."
  },
  {
   "property": "C36",
   "status": "partial",
   "theorems": [
    "Verif.Demux.c36_result",
    "Verif.Demux.c36_grows",
    "Verif.Demux.c36_succeeds_partial",
    "Verif.Demux.c36_exact_partial",
    "Verif.Demux.c36_fails"
   ],
   "note": "Results and growth proved; termination on a truncated stream is false (witness). Exact: it returns if and only if the stream still holds the bytes the headers need, else the buffer grows without bound."
  },
  {
   "property": "C37",
   "status": "proved",
   "theorems": [
    "Verif.Demux.c37_probe"
   ],
   "note": ""
  },
  {
   "property": "C38",
   "status": "proved",
   "theorems": [
    "Verif.Mux.c38_position",
    "Verif.Mux.c38_results"
   ],
   "note": ""
  },
  {
   "property": "C39",
   "status": "proved",
   "theorems": [
    "Verif.Mux.c39_calls",
    "Verif.Mux.c39_bytes",
    "Verif.Mux.c39_prefix",
    "Verif.Mux.c39_succeeds",
    "Verif.Mux.c39_file"
   ],
   "note": ""
  },
  {
   "property": "C40",
   "status": "proved",
   "theorems": [
    "Verif.Mux.c40_byName"
   ],
   "note": ""
  },
  {
   "property": "C68",
   "status": "partial",
   "theorems": [
    "Verif.Demux.c68_fails",
    "Verif.Demux.c68_partial",
    "Verif.Demux.c68_exact_partial",
    "Verif.Demux.c68_event_partial"
   ],
   "note": "False: the result of the seek is dropped (witness); Ok exactly if the demuxer accepts, whatever the seek does; read_event does report it."
  },
  {
   "property": "C75",
   "status": "proved",
   "theorems": [
    "Verif.Value.c75_value",
    "Verif.Value.c75_into"
   ],
   "note": ""
  },
  {
   "property": "C76",
   "status": "partial",
   "theorems": [
    "Verif.Mux.c76_position_partial",
    "Verif.Mux.c76_exact_partial",
    "Verif.Mux.c76_fails"
   ],
   "note": "False: the count starts at 0 (witness); right exactly if a seek has succeeded or the sink stood at 0, otherwise short by where the sink stood."
  },
  {
   "property": "C41",
   "status": "proved",
   "theorems": [
    "Verif.Codec.c41_registry"
   ],
   "note": ""
  },
  {
   "property": "C42",
   "status": "proved",
   "theorems": [
    "Verif.Codec.c42_decoder",
    "Verif.Codec.c42_encoder"
   ],
   "note": ""
  },
  {
   "property": "C77",
   "status": "proved",
   "theorems": [
    "Verif.Text.c77_format",
    "Verif.Text.c77_codec",
    "Verif.Text.c77_small",
    "Verif.Text.c77_texts"
   ],
   "note": ""
  },
  {
   "property": "C78",
   "status": "proved",
   "theorems": [
    "Verif.Access.c78_video",
    "Verif.Access.c78_video_setters",
    "Verif.Access.c78_audio",
    "Verif.Access.c78_soniton",
    "Verif.Access.c78_chromaton",
    "Verif.Access.c78_formaton",
    "Verif.Access.c78_stream",
    "Verif.Access.c78_contexts"
   ],
   "note": "Colour setters of Formaton: C52."
  },
  {
   "property": "C79",
   "status": "proved",
   "theorems": [
    "Verif.Text.c79_texts",
    "Verif.Text.c79_kinds",
    "Verif.Text.c79_frame_types"
   ],
   "note": ""
  },
  {
   "property": "C80",
   "status": "partial",
   "theorems": [
    "Verif.Access.c80_default_partial",
    "Verif.Access.c80_fails"
   ],
   "note": "False: the derived default belongs to stream 0; equal apart from that."
  },
  {
   "property": "C81",
   "status": "proved",
   "theorems": [
    "Verif.Audio.c81_formats",
    "Verif.Audio.c81_sizes"
   ],
   "note": ""
  },
  {
   "property": "C82",
   "status": "partial",
   "theorems": [
    "Verif.Codebook.c82_total_partial",
    "Verif.Codebook.c82_shift_exact_partial",
    "Verif.Codebook.c82_short_exact_partial",
    "Verif.Codebook.c82_msb_exact_partial",
    "Verif.Codebook.c82_lsb_exact_partial",
    "Verif.Codebook.c82_lsb_order_fails",
    "Verif.Codebook.c82_fails"
   ],
   "note": "False for codes with bits above their length and for lengths over 41 bits in MSB mode; proved for all other descriptions, overlapping or not. c82_shift_exact_partial: which descriptions end with a shift overflow; c82_short_exact_partial: every outcome for codes of at most ten bits, out of range or not; c82_msb_exact_partial: every outcome in MSB mode for codes of at most 41 bits, out of range or not. c82_lsb_exact_partial: every outcome in LSB mode for codes of at most 20 bits; c82_lsb_order_fails: beyond that it can depend on the order of the hash maps. Not decided: codes out of range in LSB mode if one has more than 20 bits."
  },
  {
   "property": "C83",
   "status": "proved",
   "theorems": [
    "Verif.Codebook.c83_read_total"
   ],
   "note": "The table fits 24-bit offsets (Fits)."
  },
  {
   "property": "C84",
   "status": "partial",
   "theorems": [
    "Verif.Codebook.c84_short_partial",
    "Verif.Codebook.c84_long_first_partial",
    "Verif.Codebook.c84_one_group_partial",
    "Verif.Codebook.c84_exact_partial",
    "Verif.Codebook.c84_iff_partial",
    "Verif.Codebook.c18_order",
    "Verif.Codebook.c84_fails"
   ],
   "note": "False for a code of up to 10 bits listed before longer ones it starts (witness); proved for codes up to 10 bits, for prefix-free descriptions (c18_order), for all overlapping ones without such a pair and for those with a single group of such longer codes. For every description whose codes are in range: which books can come out (c20_exact_partial, c84_exact_partial), and the exact condition under which the order does not matter (c84_iff_partial)."
  },
  {
   "property": "C85",
   "status": "proved",
   "theorems": [
    "Verif.Frame.c85_stores",
    "Verif.Frame.c85_blank",
    "Verif.Frame.c85_refused"
   ],
   "note": "Elements are given by their bytes."
  },
  {
   "property": "C86",
   "status": "proved",
   "theorems": [
    "Verif.Acc.c86_inner"
   ],
   "note": "Reader handed over at its start."
  },
  {
   "property": "C87",
   "status": "proved",
   "theorems": [
    "Verif.Acc.c87_capacity",
    "Verif.Acc.c87_default"
   ],
   "note": ""
  },
  {
   "property": "C88",
   "status": "partial",
   "theorems": [
    "Verif.Demux.c88_threshold_partial",
    "Verif.Demux.c88_fails"
   ],
   "note": "False for a score of exactly 50 (witness): probe compares with >; proved for greater scores."
  },
  {
   "property": "C89",
   "status": "partial",
   "theorems": [
    "Verif.Demux.c89_exact_partial",
    "Verif.Demux.c89_numbered_partial",
    "Verif.Demux.c89_fails"
   ],
   "note": "False (witness): announced streams are stored as they are, from_params numbers all of them 0; proved: when the numbers are right (exactly if the demuxer numbers them), and that packets then get their stream's timebase."
  },
  {
   "property": "C90",
   "status": "proved",
   "theorems": [
    "Verif.Demux.c90_events",
    "Verif.Demux.c90_file"
   ],
   "note": "The format is any pair of prefix-stable parsers; skipping more than is buffered only with readers that do not fail."
  },
  {
   "property": "C91",
   "status": "proved",
   "theorems": [
    "Verif.RoundTrip.c91_roundtrip"
   ],
   "note": "The library has no format of its own: any muxer computing its bytes and any format undoing it."
  },
  {
   "property": "C92",
   "status": "proved",
   "theorems": [
    "Verif.Codebook.c92_reader",
    "Verif.Codebook.c92_short",
    "Verif.Codebook.c92_empty"
   ],
   "note": ""
  },
  {
   "property": "C93",
   "status": "partial",
   "theorems": [
    "Verif.Codebook.c93_table_partial",
    "Verif.Codebook.c93_fails",
    "Verif.Codebook.c93_missing_codes"
   ],
   "note": "False for symbol types too narrow for the number of entries (witness: u8 and 257 entries); the symbol is the number cast to the type. The type has no public constructor."
  },
  {
   "property": "C94",
   "status": "proved",
   "theorems": [
    "Verif.ByteIo.c94_round_trip",
    "Verif.ByteIo.c94_no_room"
   ],
   "note": ""
  },
  {
   "property": "C95",
   "status": "proved",
   "theorems": [
    "Verif.BitRead.c95_bytes"
   ],
   "note": ""
  },
  {
   "property": "C96",
   "status": "proved",
   "theorems": [
    "Verif.Codebook.c96_codeword",
    "Verif.Codebook.c96_description",
    "Verif.Codebook.c96_decode"
   ],
   "note": ""
  },
  {
   "property": "C97",
   "status": "proved",
   "theorems": [
    "Verif.BitRead.c97_seven_bytes",
    "Verif.BitRead.c97_read_tight",
    "Verif.BitRead.c97_skip_tight"
   ],
   "note": ""
  },
  {
   "property": "C98",
   "status": "partial",
   "theorems": [
    "Verif.BitRead.c98_partial",
    "Verif.BitRead.c98_fails"
   ],
   "note": "False: skip_rem is applied twice when the refill fails; a skip one bit past the end of an 8-byte buffer moves by two bits only (witness). Proved: exactly what is left, in every reachable state."
  },
  {
   "property": "C99",
   "status": "partial",
   "theorems": [
    "Verif.BitRead.c99_partial",
    "Verif.BitRead.c99_exact_partial",
    "Verif.BitRead.c99_fails"
   ],
   "note": "False after skips of 2^64 bits or more in total (witness). Proved: exactly which calls overflow, for histories of any width; below 2^61 bytes of buffer and skips together the checked functions agree with the unbounded model."
  },
  {
   "property": "C100",
   "status": "partial",
   "theorems": [
    "Verif.BitRead.c100_partial",
    "Verif.BitRead.c100_wide_partial",
    "Verif.BitRead.c100_panics_exact_partial",
    "Verif.BitRead.c100_fails",
    "Verif.BitRead.c100_65_fails",
    "Verif.BitRead.c100_release_fails"
   ],
   "note": "False: with n or fewer bits cached, get_bits_32(n > 32) panics (BE) or loses bits of the stream (LE); get_bits_64(65) panics on a full LE cache. Proved otherwise, with the exact condition of every panic for histories of any width. Without overflow checks nothing panics, but the bits are wrong (witness)."
  },
  {
   "property": "C101",
   "status": "partial",
   "theorems": [
    "Verif.Acc.c101_exact_partial",
    "Verif.Acc.c101_excess_partial",
    "Verif.Acc.c101_fails"
   ],
   "note": "False: pos is clamped, index is not. Proved: every history over every inner reader, with any amounts consumed: the bytes are right, the positions are off by exactly the sum of the excesses until a seek leaves the buffer."
  },
  {
   "property": "C102",
   "status": "proved",
   "theorems": [
    "Verif.Acc.c102_overflow",
    "Verif.Acc.c102_contract"
   ],
   "note": "Checked 64-bit versions of all functions, inner readers with u64 positions. c102_contract: consume(usize::MAX), outside the contract, does overflow."
  },
  {
   "property": "C103",
   "status": "proved",
   "theorems": [
    "Verif.Codebook.c103_histories"
   ],
   "note": "Prefix-free books; for any fuel of at least 26 rounds (one per ten bits of a code), so the loop of read_cb always ends."
  },
  {
   "property": "C104",
   "status": "partial",
   "theorems": [
    "Verif.Codebook.c104_progress_partial",
    "Verif.Codebook.c104_fails"
   ],
   "note": "False: when fewer than eight bytes remain unloaded the reader shows zeros but claims that bits are available, so a codeword of zeros is decoded for ever (for every such book and every buffer whose length is no multiple of eight). Proved: progress in all other states, none at all in these."
  },
  {
   "property": "C105",
   "status": "partial",
   "theorems": [
    "Verif.Codebook.c105_modulo_partial",
    "Verif.Codebook.c105_words_partial",
    "Verif.Codebook.c105_fails"
   ],
   "note": "False from 2^24+1 entries on (witness): the table keeps the number of the entry in 24 bits. Proved: the symbol found is that of the entry whose number is the right one modulo 2^24."
  },
  {
   "property": "C106",
   "status": "proved",
   "theorems": [
    "Verif.RoundTrip.c106_pipeline"
   ],
   "note": "The library has no codec and no format of its own: any that undo each other."
  },
  {
   "property": "C107",
   "status": "proved",
   "theorems": [
    "Verif.Acc.c107_readUntil",
    "Verif.Acc.c107_readToEnd"
   ],
   "note": "The default methods of std are part of the model; an example shows why read_until needs a buffer with room."
  },
  {
   "property": "C108",
   "status": "proved",
   "theorems": [
    "Verif.Demux.c108_readEvent",
    "Verif.Demux.c108_readHeaders"
   ],
   "note": "Both directions; for arbitrary demuxers and readers."
  },
  {
   "property": "C109",
   "status": "partial",
   "theorems": [
    "Verif.Demux.c109_same",
    "Verif.Demux.c109_readEvent",
    "Verif.Demux.c109_readHeaders",
    "Verif.Demux.c109_fails"
   ],
   "note": "False: buf.len() + len overflows, and Vec::resize panics beyond isize::MAX (witnesses: two files of eight bytes). Proved: these are the only panics, when they happen, and that results are otherwise those of the unbounded reader, for a usize of any width in grow. Failing allocations below isize::MAX abort the process and are outside the model."
  },
  {
   "property": "C110",
   "status": "proved",
   "theorems": [
    "Verif.Frame.c110_agrees",
    "Verif.Frame.checked_model"
   ],
   "note": "The functions are written once for any arithmetic; the checked one is proved to give the model."
  },
  {
   "property": "C111",
   "status": "partial",
   "theorems": [
    "Verif.Frame.c111_like_shaped_partial",
    "Verif.Frame.c111_exact_partial",
    "Verif.Frame.c111_fails"
   ],
   "note": "False without overflow checks: the size of 96 x 192153584101141163 bytes wraps to 32, and a copy of one line overruns the plane (the copies are unsafe code). Proved for pictures whose size is a usize, in both builds; and for every picture without checks, when the frame can be made, its planes, and whether copies stay inside them."
  },
  {
   "property": "C112",
   "status": "proved",
   "theorems": [
    "Verif.BitRead.c112_agrees",
    "Verif.BitRead.checkedOps_model"
   ],
   "note": "The functions are written once for any arithmetic; the checked one is proved to give the model."
  },
  {
   "property": "C113",
   "status": "partial",
   "theorems": [
    "Verif.BitRead.c113_exact_partial",
    "Verif.BitRead.c113_partial",
    "Verif.BitRead.c113_fails"
   ],
   "note": "False after skipping almost 2^64 bytes (nine calls): index + 8 wraps and the slice panics. c113_exact_partial: which histories panic, for all widths and skips, and where all others leave the reader."
  },
  {
   "property": "C114",
   "status": "partial",
   "theorems": [
    "Verif.BitRead.c114_exact_partial",
    "Verif.BitRead.c114_fails"
   ],
   "note": "False: once a skip has passed the end of any buffer, available() stays above the number of its bits for ever. Proved: what it returns, modulo 2^64, after every history."
  },
  {
   "property": "C115",
   "status": "proved",
   "theorems": [
    "Verif.Codebook.c115_agrees",
    "Verif.Codebook.checkedBook_new"
   ],
   "note": "The functions are written once for any arithmetic; the checked one is proved to give the model."
  },
  {
   "property": "C116",
   "status": "partial",
   "theorems": [
    "Verif.Codebook.c116_partial",
    "Verif.Codebook.c116_fails"
   ],
   "note": "False for codewords of 42 bits in MSB mode (witness): the shift amounts wrap, the book rejects its codeword and takes another for it. Proved for lengths up to 41 bits, and all lengths in LSB mode."
  },
  {
   "property": "C117",
   "status": "proved",
   "theorems": [
    "Verif.Acc.c117_agrees",
    "Verif.Acc.c117_cursor",
    "Verif.Acc.checkedAcc_run"
   ],
   "note": "The functions are written once for any arithmetic; the checked one is proved to give that of C102."
  },
  {
   "property": "C118",
   "status": "partial",
   "theorems": [
    "Verif.Acc.c118_partial",
    "Verif.Acc.c118_grow_partial",
    "Verif.Acc.c118_consume_partial",
    "Verif.Acc.c118_fails"
   ],
   "note": "False: after anything has been consumed consume(usize::MAX) moves back by one byte, and grow(usize::MAX) with a full buffer truncates it, so that the next fill_buf panics (witnesses). Proved: exactly when either happens; otherwise no history panics, over streams of any length and with any amounts consumed."
  },
  {
   "property": "C119",
   "status": "proved",
   "theorems": [
    "Verif.Pixel.c119_component",
    "Verif.Pixel.c119_packed",
    "Verif.Pixel.c119_format"
   ],
   "note": "For components also the converse. The depth of a planar component is not shown."
  },
  {
   "property": "C120",
   "status": "proved",
   "theorems": [
    "Verif.Pixel.c120_components"
   ],
   "note": ""
  },
  {
   "property": "C121",
   "status": "partial",
   "theorems": [
    "Verif.Mux.c121_partial",
    "Verif.Mux.c121_exact_partial",
    "Verif.Mux.c121_fails"
   ],
   "note": "Proved while the sink stays at positions a usize can hold. False on 32-bit targets beyond 4 GiB: panic after the sink has taken the bytes, or a position that starts again at 0; a wrong position after a seek in every build. c121_exact_partial: for every sink and width exactly this happens, the position modulo 2^b or a panic at the write that exceeds it."
  },
  {
   "property": "C122",
   "status": "proved",
   "theorems": [
    "Verif.Mux.c122_panics"
   ],
   "note": ""
  },
  {
   "property": "C123",
   "status": "partial",
   "theorems": [
    "Verif.BitRead.c123_bytes_partial",
    "Verif.BitRead.c123_partial",
    "Verif.BitRead.c123_unchecked_partial",
    "Verif.BitRead.c123_checked_partial",
    "Verif.BitRead.c123_available_fails",
    "Verif.BitRead.c123_fails",
    "Verif.BitRead.narrowOps_64"
   ],
   "note": "Proved while buffer and skips amount to less than 2^b - 128 bits. Up to 2^b - 8 bytes all results but those of consumed and available, which are given exactly; without overflow checks exactly what happens for all buffers of up to 2^(b-1) bytes and skips by any usize; with checks, for every buffer and skips by any usize, which calls overflow, and that all others do what the unbounded model does. False on 32-bit targets for every buffer of at least 512 MiB: available panics, or is too small."
  },
  {
   "property": "C124",
   "status": "proved",
   "theorems": [
    "Verif.Mux.c124_file",
    "Verif.Mux.c124_patch",
    "Verif.Mux.c124_total"
   ],
   "note": "The sink is a file: bytes beyond its end are filled with zeros."
  },
  {
   "property": "C125",
   "status": "proved",
   "theorems": [
    "Verif.Frame.c125_agrees",
    "Verif.Frame.narrow_64",
    "Verif.Frame.land_unot_narrow"
   ],
   "note": "The functions are written once for any arithmetic."
  },
  {
   "property": "C126",
   "status": "partial",
   "theorems": [
    "Verif.Frame.c126_partial",
    "Verif.Frame.c126_exact_partial",
    "Verif.Frame.c126_fails"
   ],
   "note": "False on 32-bit targets: the size of 49248 x 87211 bytes wraps to 32; without overflow checks the frame gets a plane of 32 bytes and its copies leave it. Proved for pictures whose sizes are a usize of the target, in both builds; and for every picture without checks, when the frame can be made, its planes, and whether copies stay inside them."
  },
  {
   "property": "C127",
   "status": "partial",
   "theorems": [
    "Verif.Acc.c127_partial",
    "Verif.Acc.c127_consume_partial",
    "Verif.Live.c127_exact_partial",
    "Verif.Live.c127_noseek_partial",
    "Verif.Live.runN_link",
    "Verif.Acc.c127_fails",
    "Verif.Acc.narrowAcc_64"
   ],
   "note": "False on 32-bit targets: seeks by or to 4 GiB and more are truncated. Proved for streams of at most half the address space while the position is a usize; there the results are those of the unbounded model. c127_exact_partial: over every reader, for streams of any length, the code on such a target is a queue with a position of b bits (buffer and requests within half the address space); runN_link: over a scripted source this is the code of Acc."
  },
  {
   "property": "C128",
   "status": "proved",
   "theorems": [
    "Verif.Codec.c128_decoder",
    "Verif.Codec.c128_encoder"
   ],
   "note": "Codecs are arbitrary records of functions that may panic."
  },
  {
   "property": "C129",
   "status": "partial",
   "theorems": [
    "Verif.Demux.c129_partial",
    "Verif.Demux.c129_fails"
   ],
   "note": "False: read_event grows the buffer whenever a request exceeds what is buffered, also if there is room; records of one byte already make it exceed any number. Proved: the buffer stays within capacity + K * (calls + length of the stream)."
  },
  {
   "property": "C130",
   "status": "partial",
   "theorems": [
    "Verif.Pixel.c130_partial",
    "Verif.Pixel.c130_fails"
   ],
   "note": "False: the reserved code point 0 of primaries and transfer characteristics is shown as Identity. Proved for all others."
  },
  {
   "property": "C131",
   "status": "partial",
   "theorems": [
    "Verif.Codebook.c131_new",
    "Verif.Codebook.c131_new_checked",
    "Verif.Codebook.c131_new_unchecked",
    "Verif.Codebook.c131_partial",
    "Verif.Codebook.c131_unchecked_partial",
    "Verif.Codebook.c131_exact_partial",
    "Verif.Codebook.c131_read_fails",
    "Verif.Codebook.c131_new_fails",
    "Verif.Codebook.c131_fails"
   ],
   "note": "False on 32-bit targets with overflow checks: in front of 512 MiB or more read_cb panics in available. Proved: building, exactly, including that a table of half the address space or more makes it panic (c131_new_fails has a book of 2^20 codewords); reading without overflow checks; reading with them while the number of bits left is below 2^b, and exactly what happens otherwise."
  },
  {
   "property": "C132",
   "status": "proved",
   "theorems": [
    "Verif.Codebook.c132_size",
    "Verif.Codebook.c132_bound",
    "Verif.Codebook.c132_short"
   ],
   "note": "The same size is the condition (Fits) of the theorems on decoding."
  },
  {
   "property": "C133",
   "status": "proved",
   "theorems": [
    "Verif.Live.c133_live",
    "Verif.Live.c133_resumes",
    "Verif.Live.c133_concat",
    "Verif.Live.sees_known",
    "Verif.Live.run_link",
    "Verif.Live.feed_grows",
    "Verif.Live.source_grows"
   ],
   "note": "AccReader over any type of reader; run_link: over a scripted source it is the model of Acc. Readers whose backward relative seeks lead elsewhere (AccReader itself, C26) are included."
  },
  {
   "property": "C134",
   "status": "proved",
   "theorems": [
    "Verif.Live.c134_events",
    "Verif.Live.c134_next",
    "Verif.Live.c134_headers"
   ],
   "note": "read_headers keeps reading until the headers are there; it returns if they come after finitely many reads."
  },
  {
   "property": "C135",
   "status": "partial",
   "theorems": [
    "Verif.Live.c135_exact_partial",
    "Verif.Live.c135_fails"
   ],
   "note": "False: every call that waits enlarges the buffer by the whole request of the demuxer. Proved: by exactly that much, whatever the format."
  },
  {
   "property": "C136",
   "status": "proved",
   "theorems": [
    "Verif.Live.c136_follow"
   ],
   "note": ""
  },
  {
   "property": "C137",
   "status": "proved",
   "theorems": [
    "Verif.Live.c137_queue",
    "Verif.Live.c137_fifo"
   ],
   "note": "Only read_exact can fail to return, over a reader that is interrupted for ever."
  },
  {
   "property": "C138",
   "status": "proved",
   "theorems": [
    "Verif.BitRead.c138_stream",
    "Verif.BitRead.c138_exact",
    "Verif.BitRead.c138_panics",
    "Verif.BitRead.c138_merge",
    "Verif.BitRead.c138_build",
    "Verif.BitRead.c138_needed"
   ],
   "note": "c138_needed: outside the contract bits are lost (little-endian) or refill32 panics (big-endian)."
  },
  {
   "property": "C139",
   "status": "proved",
   "theorems": [
    "Verif.Codebook.c139_kraft",
    "Verif.Codebook.c139_complete",
    "Verif.Codebook.c139_incomplete"
   ],
   "note": "With the restrictions of C15 and C16: codes in range, tables that fit, 64 bits behind the codeword."
  },
  {
   "property": "C140",
   "status": "partial",
   "theorems": [
    "Verif.Live.c140_partial",
    "Verif.Live.c140_queues_partial",
    "Verif.Live.c140_fails"
   ],
   "note": "False: a seek of AccReader that fails while refilling has moved the reader although it returned an error; the outer reader relies on the contract of Seek and delivers bytes from elsewhere behind those it holds. Proved: for histories without seeks whatever fails, and for all histories if reads do not fail; and what happens in general, for every reader: a queue in front of a queue."
  },
  {
   "property": "C141",
   "status": "proved",
   "theorems": [
    "Verif.Live.c141_wild",
    "Verif.Live.c141_honest",
    "Verif.Live.c141_quiet"
   ],
   "note": "Sums of counts are unbounded here; counts close to 2^64, with and without overflow checks, are in C151."
  },
  {
   "property": "C142",
   "status": "partial",
   "theorems": [
    "Verif.Live.c142_unchecked_partial",
    "Verif.Live.c142_checked_partial",
    "Verif.Live.c142_cut_partial",
    "Verif.Live.c142_cut_checked_partial",
    "Verif.Live.c142_border_partial",
    "Verif.Live.c142_fails"
   ],
   "note": "False on 32-bit targets: with overflow checks the first record that ends behind 4 GiB makes read_event panic; without, a record of 4 GiB and a few bytes is skipped by the few bytes only. Proved: without checks the same headers and events for streams of any length, if no single record is as long as the address space; with checks, for records within the buffer, the same up to the end of the address space and the panic behind it; and for records of any length: each is skipped by its length modulo 2^b if as much is buffered, else by the whole length, with checks up to the first panic; and that panic comes exactly when a header or record within the buffered bytes reaches over a multiple of 2^b (c142_border_partial)."
  },
  {
   "property": "C143",
   "status": "partial",
   "theorems": [
    "Verif.Mux.c143_below_partial",
    "Verif.Mux.c143_exact_partial",
    "Verif.Mux.c143_fails"
   ],
   "note": "False on 32-bit targets: with overflow checks the write that reaches 4 GiB panics, after the sink has taken the bytes; without, a muxer that asks for the position behind 4 GiB is told it modulo 4 GiB. Proved: the same below the limit; and exactly what happens beyond, with and without checks (a muxer that never asks for the position does the same everywhere without checks)."
  },
  {
   "property": "C144",
   "status": "proved",
   "theorems": [
    "Verif.RoundTrip.c144_copy",
    "Verif.RoundTrip.c144_remux",
    "Verif.RoundTrip.c144_same"
   ],
   "note": "For every muxer: the calls made. For muxers that compute their bytes: the file that results, also bit-identical copies."
  },
  {
   "property": "C145",
   "status": "proved",
   "theorems": [
    "Verif.Demux.c145_seen",
    "Verif.Demux.c145_open",
    "Verif.Demux.c145_new",
    "Verif.Demux.c145_unreadable",
    "Verif.Demux.c145_once",
    "Verif.Demux.c145_once_is_not_enough"
   ],
   "note": "c145_once and c145_once_is_not_enough: with a single call of fill_buf the choice may depend on how many bytes the first read delivers."
  },
  {
   "property": "C146",
   "status": "partial",
   "theorems": [
    "Verif.Pixel.c146_partial",
    "Verif.Pixel.c146_tables",
    "Verif.Pixel.c146_names",
    "Verif.Pixel.c146_range",
    "Verif.Pixel.c146_fails"
   ],
   "note": "False for transfer characteristic 1, documented as BT.709 but shown as BT.1886, and for the reserved numbers 0 (see C130); proved for all others."
  },
  {
   "property": "C147",
   "status": "proved",
   "theorems": [
    "Verif.Acc.c147_len",
    "Verif.Acc.c147_rewind",
    "Verif.Acc.c147_relative",
    "Verif.Acc.c147_take"
   ],
   "note": "The methods are default methods and adapters of std over the seek and read of AccReader. Backward relative seeks are C26."
  },
  {
   "property": "C148",
   "status": "proved",
   "theorems": [
    "Verif.Live.c148_calls",
    "Verif.Live.c148_amortised"
   ],
   "note": "The calls are counted by a counter added to any reader. The second theorem holds after any history, whatever is buffered then."
  },
  {
   "property": "C149",
   "status": "partial",
   "theorems": [
    "Verif.Live.c149_fails",
    "Verif.Live.c149_exact_partial"
   ],
   "note": "False: after one of three buffered bytes is consumed, fill_buf asks the inner reader and returns its error instead of the two bytes. Proved exactly: it asks if and only if fewer bytes are buffered than the buffer holds; what is buffered survives an error."
  },
  {
   "property": "C150",
   "status": "proved",
   "theorems": [
    "Verif.Live.c150_buffered",
    "Verif.Live.c150_amortised",
    "Verif.Live.c150_attained"
   ],
   "note": "The calls are counted as in C148. Every request enlarges the buffer by what is asked for and fills it, so every read but the last brings more bytes than the buffer held before."
  },
  {
   "property": "C151",
   "status": "partial",
   "theorems": [
    "Verif.Live.c151_fails",
    "Verif.Live.c151_again_fails",
    "Verif.Live.c151_checked_partial",
    "Verif.Live.c151_noticed_partial",
    "Verif.Live.c151_wrapping_partial",
    "Verif.Live.c151_safe",
    "Verif.Live.c151_agree"
   ],
   "note": "False without overflow checks: a count of 2^64 - 1 makes fill_buf lose a buffered byte, and a large read with such a count shows consumed bytes again. Proved: noticed with overflow checks; exactly what happens without; the window stays in the buffer in both; with checks the functions are those of C141 or panic because of an overflow."
  },
  {
   "property": "C152",
   "status": "partial",
   "theorems": [
    "Verif.Demux.c152_partial",
    "Verif.Demux.c152_file_partial",
    "Verif.Demux.c152_endless_partial",
    "Verif.Demux.c152_fails"
   ],
   "note": "False for steps back by SeekFrom::Current, which count from the end of the buffered bytes (C26): what is demuxed then depends on the capacity. Proved for all formats whose steps back are absolute or from the end: events, headers, and endless jumps. C155 says what relative steps back do."
  },
  {
   "property": "C153",
   "status": "partial",
   "theorems": [
    "Verif.Conform.c153_fails",
    "Verif.Conform.c153_partial",
    "Verif.Conform.c153_reads",
    "Verif.Conform.c153_bytes"
   ],
   "note": "False: the loop of benches/bitstream.rs never ends if the length is no multiple of 8. Proved: it ends after the number of words otherwise; the loops of bitread.rs read the bits in order on every input long enough; the loop of format.rs gets every byte of every input."
  },
  {
   "property": "C154",
   "status": "proved",
   "theorems": [
    "Verif.RoundTrip.c154_roundtrip",
    "Verif.RoundTrip.c154_in_order"
   ],
   "note": "Any record format, any order or selection in the table, any short writes and reads, any capacity; files below 2^64 bytes."
  },
  {
   "property": "C155",
   "status": "proved",
   "theorems": [
    "Verif.Live.c155_queue",
    "Verif.Live.c155_calls"
   ],
   "note": "Any program of calls on the buffer; any inner reader that returns at most what was asked for; steps back by SeekFrom::Current included, as the queue has them."
  },
  {
   "property": "C156",
   "status": "proved",
   "theorems": [
    "Verif.Demux.c156_file"
   ],
   "note": "Programs of read_exact, grow and seek (no relative steps back, see C26), inner readers that do not fail."
  },
  {
   "property": "C157",
   "status": "proved",
   "theorems": [
    "Verif.Mux.c157_appends",
    "Verif.Mux.c157_file",
    "Verif.Mux.sink_appends",
    "Verif.Mux.sink_steady"
   ],
   "note": "Muxers as programs of write, flush and position (all that the generic trait method can do with the writer); write_all of std in the second part."
  },
  {
   "property": "C158",
   "status": "proved",
   "theorems": [
    "Verif.Codebook.c158_programs"
   ],
   "note": "Widths within the types, codebooks as in C17 (sound, depth at most 26); copies of readers included."
  },
  {
   "property": "C159",
   "status": "proved",
   "theorems": [
    "Verif.Frame.c159_any_buffer",
    "Verif.Frame.c159_default",
    "Verif.Frame.c159_joined",
    "Verif.Frame.c159_calls"
   ],
   "note": "c159_default and c159_joined: the buffer of default frames and one that keeps all planes in one vector meet the contract. When the copies leave a slice is C48."
  },
  {
   "property": "C160",
   "status": "proved",
   "theorems": [
    "Verif.RoundTrip.c160_delayed"
   ],
   "note": "The loops of the applications are part of the model; the codecs are machines with a queue of results."
  },
  {
   "property": "C161",
   "status": "proved",
   "theorems": [
    "Verif.Frame.c161_memory",
    "Verif.Frame.c161_default",
    "Verif.Frame.c161_views",
    "Verif.Frame.c161_blank"
   ],
   "note": "Copies are of video frames (C49); loads and stores of frames of any kind. Single planes are copied with the picture's dimensions (C50), so copies of single planes are included for planes with room for these."
  },
  {
   "property": "C162",
   "status": "proved",
   "theorems": [
    "Verif.RoundTrip.c162_coded"
   ],
   "note": "The codec is an application's, made of the library's put_u32b, get_u32b, Codebook::new, BitRead and read_cb; its bits are laid out by the specification (bytesFor, codeBits), as the library has no bit writer."
  },
  {
   "property": "C163",
   "status": "proved",
   "theorems": [
    "Verif.RoundTrip.c163_streams"
   ],
   "note": "Codecs as in C160; the application sets the stream index of the packets it receives."
  },
  {
   "property": "C164",
   "status": "proved",
   "theorems": [
    "Verif.RoundTrip.c164_transcode"
   ],
   "note": "One stream; several in C180, and with threads in C176."
  },
  {
   "property": "C165",
   "status": "proved",
   "theorems": [
    "Verif.RoundTrip.c165_calm",
    "Verif.RoundTrip.c165_retry"
   ],
   "note": "Not returning (a decoder that gives frames for ever, headers that never come) is Panic.fuel in the model; c165_calm excludes every other panic."
  },
  {
   "property": "C166",
   "status": "partial",
   "theorems": [
    "Verif.Demux.c166_fails",
    "Verif.Demux.c166_partial",
    "Verif.Demux.c166_exact_partial"
   ],
   "note": "False: the demuxer has answered when the reader is moved, so a failure of that move drops the event, and with a NewStream the stream is never registered (c166_fails). True if no record is longer than the bytes it was recognised in (c166_partial); c166_exact_partial: what can happen otherwise."
  },
  {
   "property": "C167",
   "status": "partial",
   "theorems": [
    "Verif.Mux.c167_fails",
    "Verif.Mux.c167_partial",
    "Verif.Mux.c167_exact_partial"
   ],
   "note": "False: the call that failed may have written the first bytes, and the muxer has only Write, so the second call writes them again behind them (c167_fails). c167_exact_partial: what is in the file after any history of succeeding and failing calls. c167_partial: for a muxer without state the file is that of the calls that succeeded exactly if the writer's position is."
  },
  {
   "property": "C168",
   "status": "proved",
   "theorems": [
    "Verif.Shared.c168_values",
    "Verif.Shared.c168_holders",
    "Verif.Shared.c168_reuse",
    "Verif.Shared.c168_memory"
   ],
   "note": "On a model of std's Arc with memory and counts, without weak pointers; calls of several threads in the order in which they take effect. It is the reason why the other models take an Arc for its value."
  },
  {
   "property": "C169",
   "status": "proved",
   "theorems": [
    "Verif.Shared.c169_pictures",
    "Verif.Shared.c169_frames"
   ],
   "note": "On the model of Arc of C168."
  },
  {
   "property": "C170",
   "status": "proved",
   "theorems": [
    "Verif.RoundTrip.c170_losses",
    "Verif.RoundTrip.c170_file",
    "Verif.RoundTrip.c170_formats"
   ],
   "note": "For formats whose planes hold whole bytes per column (as in C49; for wider samples the copies move part of a line, C73)."
  },
  {
   "property": "C171",
   "status": "partial",
   "theorems": [
    "Verif.Demux.c171_exact_partial",
    "Verif.Demux.c171_partial",
    "Verif.Demux.c171_fails",
    "Verif.RoundTrip.c171_video"
   ],
   "note": "Exactly: the records from the place on, each NewStream registered once more. Proved as stated for formats whose headers announce all streams and for films. Fails where streams are announced by events: going back over one registers it twice, and packets get another timebase than before."
  },
  {
   "property": "C172",
   "status": "partial",
   "theorems": [
    "Verif.Frame.c172_in_partial",
    "Verif.Frame.c172_in_all_partial",
    "Verif.Frame.c172_out_exact_partial",
    "Verif.Frame.c172_take_partial",
    "Verif.Frame.c172_limit",
    "Verif.Frame.c172_fails"
   ],
   "note": "Proved as stated for copy_from_slice, and for copy_frame_to_buffer when the application limits the destinations with take. Otherwise copy_frame_to_buffer takes one destination and one line size too many (exactly so in c172_out_exact_partial): the next frame lands one slice further, or is not copied at all."
  },
  {
   "property": "C173",
   "status": "proved",
   "theorems": [
    "Verif.RoundTrip.c173_schedules",
    "Verif.RoundTrip.c173_player",
    "Verif.RoundTrip.c173_failing"
   ],
   "note": "Threads are modelled by what they do next and executions as all orders of their moves; that contexts are Send (the compiler's check) and that channels behave as described is trusted. c173_player compares with the player of C163, c173_failing is for threads that fail or panic."
  },
  {
   "property": "C174",
   "status": "proved",
   "theorems": [
    "Verif.RoundTrip.c174_schedules",
    "Verif.RoundTrip.c174_recording",
    "Verif.RoundTrip.c174_every",
    "Verif.RoundTrip.c174_files"
   ],
   "note": "Threads and channels as in C173. c174_schedules is for any threads that send to one, which may end before the others; the file is one of the merges of the streams' packets, and each merge is the file of some schedule (c174_every, c174_files)."
  },
  {
   "property": "C175",
   "status": "partial",
   "theorems": [
    "Verif.Conform.c175_exact",
    "Verif.Conform.c175_partial",
    "Verif.Conform.c175_fails",
    "Verif.Conform.c175_decoder",
    "Verif.Conform.c175_decoder_fails"
   ],
   "note": "False: get_params (encoder.rs:242-261) exchanges width and height, and panics when only the height is missing, as it checks the width twice (c175_fails); receive_frame of the decoder is unimplemented (c175_decoder_fails). c175_exact says what every history gives; c175_partial is the statement when get_params is called for square videos only, or before width or format are known; c175_decoder is for all other calls of the decoder."
  },
  {
   "property": "C176",
   "status": "proved",
   "theorems": [
    "Verif.RoundTrip.c176_schedules",
    "Verif.RoundTrip.c176_transcoding",
    "Verif.RoundTrip.c176_every",
    "Verif.RoundTrip.c176_files",
    "Verif.RoundTrip.c176_narrow"
   ],
   "note": "Threads and channels as in C173 and C174. c176_schedules is for any threads, also such that fail or panic; packets of streams the file does not have are skipped. c176_every: with channels that hold what is sent, each merge is the file of some schedule; c176_narrow: smaller channels exclude some."
  },
  {
   "property": "C177",
   "status": "proved",
   "theorems": [
    "Verif.Demux.c177_sound",
    "Verif.Demux.c177_exact",
    "Verif.Demux.c177_tests",
    "Verif.Demux.c177_depends",
    "Verif.Demux.c177_hangs",
    "Verif.Demux.c177_default"
   ],
   "note": "Generalises C90 and C152, which are for demuxers that ask for more than they were shown. The demuxer goes back only with absolute positions."
  },
  {
   "property": "C178",
   "status": "proved",
   "theorems": [
    "Verif.Demux.c178_sound",
    "Verif.Demux.c178_exact",
    "Verif.Demux.c178_returns"
   ],
   "note": "Generalises C36, which is for headers of a fixed size. The demuxer goes back only with absolute positions; a seek that fails is not reported (C68)."
  },
  {
   "property": "C179",
   "status": "proved",
   "theorems": [
    "Verif.Conform.c179_returns",
    "Verif.Conform.c179_panics",
    "Verif.Conform.c179_unwraps",
    "Verif.Conform.c179_file",
    "Verif.Conform.c179_misread",
    "Verif.Conform.c179_unread",
    "Verif.Conform.c179_test"
   ],
   "note": "The last three are about calls of read_event that return; when they do is C177. c179_panics excludes muxers that themselves panic with unwrap, which c179_unwraps shows the test muxer does not."
  },
  {
   "property": "C180",
   "status": "proved",
   "theorems": [
    "Verif.RoundTrip.c180_convert",
    "Verif.RoundTrip.c180_copies"
   ],
   "note": "The program is an application written over the library, as in C163 and C164. Streams keep their numbers: a copied packet is written as it is, and the packets of an encoder get the number of the stream they are made of. Packets of streams without a plan are skipped."
  },
  {
   "property": "C181",
   "status": "proved",
   "theorems": [
    "Verif.RoundTrip.c181_told",
    "Verif.RoundTrip.c181_whole"
   ],
   "note": "About runs that return; that the contexts add no panics is C108, C122 and C128. Whether a format takes a file that is cut off for one that has ended is the demuxer's matter (example)."
  },
  {
   "property": "C182",
   "status": "proved",
   "theorems": [
    "Verif.RoundTrip.c182_wired",
    "Verif.RoundTrip.c182_decFine",
    "Verif.RoundTrip.c182_encFine"
   ],
   "note": "About runs that return no error; those that do are in C181. That the codecs were asked until nothing was there is, for codecs that do what a machine says, part of C180."
  },
  {
   "property": "C183",
   "status": "proved",
   "theorems": [
    "Verif.RoundTrip.c183_calm",
    "Verif.RoundTrip.c183_calm_retry",
    "Verif.RoundTrip.c183_bytes",
    "Verif.RoundTrip.c183_retry",
    "Verif.RoundTrip.c183_rounds",
    "Verif.RoundTrip.c183_one"
   ],
   "note": "c183_calm: Panic.fuel stands for a program that has not ended yet, as with headers that never come or a decoder that gives frames for ever. c183_retry: for a run of the other program that ends, of a file whose headers are complete. c183_rounds, c183_one: how many rounds the model allows its loops does not change a run that ends."
  }
 ]
}

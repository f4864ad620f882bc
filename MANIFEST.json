{
 "claims": [
  {
   "property": "C01",
   "status": "proved",
   "theorems": [
    "Riegeli.Props.C01_written_records_are_read",
    "Riegeli.Props.C01_C16_any_encoder",
    "Riegeli.Props.C01_writer_succeeds"
   ],
   "note": ""
  },
  {
   "property": "C02",
   "status": "proved",
   "theorems": [
    "Riegeli.Props.C02_truncated_file"
   ],
   "note": ""
  },
  {
   "property": "C03",
   "status": "proved",
   "theorems": [
    "Riegeli.Props.C03_growing_file"
   ],
   "note": ""
  },
  {
   "property": "C04",
   "status": "proved",
   "theorems": [
    "Riegeli.Props.C04_delivered_chunks_are_intact"
   ],
   "note": ""
  },
  {
   "property": "C05",
   "status": "proved",
   "theorems": [
    "Riegeli.Props.C05_damaged_data",
    "Riegeli.Props.C05_C06_damaged_file"
   ],
   "note": ""
  },
  {
   "property": "C06",
   "status": "proved",
   "theorems": [
    "Riegeli.Props.C06_damaged_header",
    "Riegeli.Props.C05_C06_damaged_file",
    "Riegeli.Props.damaged_file_has_outcome"
   ],
   "note": ""
  },
  {
   "property": "C07",
   "status": "partial",
   "theorems": [
    "Riegeli.Props.C07_recover_moves_forward_partial",
    "Riegeli.Props.C07_reading_with_recovery_terminates_partial",
    "Riegeli.Props.C07_negation_zero_next_chunk",
    "Riegeli.Props.C07_negation_seek_past_end"
   ],
   "note": "The full property is false of the code: a 24 byte file makes the reading loop with recovery run forever (C07_negation_zero_next_chunk), and Seek past the end followed by Recover goes backwards (C07_negation_seek_past_end). Proved for every file whose hash-valid block headers have next_chunk > 0 pointing below 2^63, and failures other than seeking past the end."
  },
  {
   "property": "C08",
   "status": "proved",
   "theorems": [
    "Riegeli.Props.C08_positions_increase",
    "Riegeli.Props.C08_written_positions_increase"
   ],
   "note": ""
  },
  {
   "property": "C09",
   "status": "proved",
   "theorems": [
    "Riegeli.Props.C09_seek_to_record",
    "Riegeli.Props.C09_seek_pos",
    "Riegeli.Props.C09_reader_is_cursor"
   ],
   "note": ""
  },
  {
   "property": "C10",
   "status": "proved",
   "theorems": [
    "Riegeli.Props.C10_seek_numeric",
    "Riegeli.Props.C09_reader_is_cursor"
   ],
   "note": ""
  },
  {
   "property": "C11",
   "status": "proved",
   "theorems": [
    "Riegeli.Props.C11_seekBack",
    "Riegeli.Props.C09_reader_is_cursor"
   ],
   "note": ""
  },
  {
   "property": "C12",
   "status": "proved",
   "theorems": [
    "Riegeli.Props.C12_seekToChunk",
    "Riegeli.Props.C12_target_unique"
   ],
   "note": ""
  },
  {
   "property": "C13",
   "status": "proved",
   "theorems": [
    "Riegeli.Props.C13_binary_search",
    "Riegeli.Props.C13_cancelling",
    "Riegeli.Props.C13_custom_traits"
   ],
   "note": ""
  },
  {
   "property": "C14",
   "status": "partial",
   "theorems": [
    "Riegeli.Props.C14_padding_partial",
    "Riegeli.Props.C14_padding_general_partial",
    "Riegeli.Props.C14_position_after_padding",
    "Riegeli.Props.C14_negation_small_padding"
   ],
   "note": "The full property is false of the code (C14_negation_small_padding: WritePadding(32) at position 65528 underflows). Proved for paddings <= 1, multiples of 65536 and divisors of 65536 that are at least 64; for other paddings proved whenever the gap leaves room for a chunk header besides block headers."
  },
  {
   "property": "C15",
   "status": "proved",
   "theorems": [
    "Riegeli.Props.C15_append",
    "Riegeli.Props.C15_concatenate",
    "Riegeli.Props.C15_start_of_appending"
   ],
   "note": ""
  },
  {
   "property": "C16",
   "status": "proved",
   "theorems": [
    "Riegeli.Props.C16_positions_agree",
    "Riegeli.Props.C01_C16_any_encoder"
   ],
   "note": ""
  },
  {
   "property": "C17",
   "status": "proved",
   "theorems": [
    "Riegeli.Props.C17_worker_every_schedule",
    "Riegeli.Props.C17_worker_finishes",
    "Riegeli.Props.C17_worker_failures",
    "Riegeli.Props.C17_worker_success_is_serial",
    "Riegeli.Props.C17_parallel_is_serial",
    "Riegeli.Props.C17_success_is_serial",
    "Riegeli.Props.C17_written_records_are_read",
    "Riegeli.Props.C17_session_is_serial"
   ],
   "note": "Labelled transition system with the client thread, the chunk writer thread and any number of encoder tasks; every interleaving of the steps between lock acquisitions and future waits. Sequential consistency under the mutex is assumed."
  },
  {
   "property": "C18",
   "status": "proved",
   "theorems": [
    "Riegeli.Props.C18_flush_is_durable"
   ],
   "note": ""
  },
  {
   "property": "C19",
   "status": "proved",
   "theorems": [
    "Riegeli.Props.C19_chunk_end_is_least",
    "Riegeli.Props.C19_distance_without_overhead",
    "Riegeli.Props.C19_add_with_overhead",
    "Riegeli.Props.C19_distance_of_add",
    "Riegeli.Props.C19_chunk_boundaries"
   ],
   "note": ""
  },
  {
   "property": "C20",
   "status": "proved",
   "theorems": [
    "Riegeli.Props.C20_varint_round_trip",
    "Riegeli.Props.C20_varint_accepts",
    "Riegeli.Props.C20_varint_copy",
    "Riegeli.Props.C20_zigzag"
   ],
   "note": ""
  },
  {
   "property": "C21",
   "status": "proved",
   "theorems": [
    "Riegeli.Props.C21_ordered_varint64_reads_exactly_what_is_written",
    "Riegeli.Props.C21_ordered_varint32_reads_exactly_what_is_written",
    "Riegeli.Props.C21_ordered_varint64_order",
    "Riegeli.Props.C21_ordered_varint32_order",
    "Riegeli.Props.C21_ordered_varint_length"
   ],
   "note": ""
  },
  {
   "property": "C22",
   "status": "partial",
   "theorems": [
    "Riegeli.Props.C22_string_roundtrip",
    "Riegeli.Props.C22_string_accepts_exactly",
    "Riegeli.Props.C22_bytes_accepts_exactly",
    "Riegeli.Props.C22_bytes_order",
    "Riegeli.Props.C22_bytes_roundtrip_iff",
    "Riegeli.Props.C22_bytes_roundtrip_partial",
    "Riegeli.Props.C22_bytes_roundtrip_fails"
   ],
   "note": "The text form, the order of the binary form, and rejection of malformed input hold for every position. The binary round trip is false in the code for the positions whose ToBytes() has 16 bytes (C22_bytes_roundtrip_fails; C22_bytes_roundtrip_iff says exactly when it holds): DESIGN.md section 4, finding 1."
  },
  {
   "property": "C23",
   "status": "proved",
   "theorems": [
    "Riegeli.Props.C23_round_trip",
    "Riegeli.Props.C23_decoded_is_consistent",
    "Riegeli.Props.C23_no_trailing_data",
    "Riegeli.Props.C23_add_records",
    "Riegeli.Props.C23_deferred_encoder"
   ],
   "note": ""
  },
  {
   "property": "C24",
   "status": "proved",
   "theorems": [
    "Riegeli.Props.C24_round_trip",
    "Riegeli.Props.C24_written_records_are_read",
    "Riegeli.Props.C24_flush_is_durable",
    "Riegeli.Props.C24_decoder_returns",
    "Riegeli.Props.C24_decoder_output_is_well_formed",
    "Riegeli.Props.C24_nodes_in_bounds"
   ],
   "note": "Chunks of total size below 2^29 (the format has 32-bit indices; beyond 4 GiB the round trip is false, DESIGN.md section 4, finding 14). The iteration order of hash maps is an arbitrary parameter of the encoder. Prefetching and buffer management are not modelled."
  },
  {
   "property": "C25",
   "status": "proved",
   "theorems": [
    "Riegeli.Props.C25_projection",
    "Riegeli.Props.C25_any_record",
    "Riegeli.Props.C25_files",
    "Riegeli.Props.C25_never_longer",
    "Riegeli.Props.C25_all_included"
   ],
   "note": "Chunks of total size below 2^29. Length-delimited fields which can be messages are considered messages, up to the nesting kMaxRecursionDepth, as the encoder does it. Changing the projection while reading (SetFieldProjection) is not modelled."
  },
  {
   "property": "C26",
   "status": "proved",
   "theorems": [
    "Riegeli.Props.C26_from_sorted",
    "Riegeli.Props.C26_from_weakly_sorted",
    "Riegeli.Props.C26_builder",
    "Riegeli.Props.C26_any_set",
    "Riegeli.Props.C26_decode_any",
    "Riegeli.Props.C26_decode_accepts",
    "Riegeli.Props.C26_round_trip",
    "Riegeli.Props.C26_compare",
    "Riegeli.Props.C26_equal",
    "Riegeli.Props.C26_equal_built",
    "Riegeli.Props.C26_equal_fails"
   ],
   "note": "Equality of decoded sets with the same elements can be false: C26_equal_fails (finding 15). Not modelled: copies of iterators, hashing, failures of the Writer or Reader."
  },
  {
   "property": "C27",
   "status": "proved",
   "theorems": [
    "Riegeli.Props.C27_build_sorted",
    "Riegeli.Props.C27_builder",
    "Riegeli.Props.C27_any_set",
    "Riegeli.Props.C27_of_linear",
    "Riegeli.Props.C27_decode_any",
    "Riegeli.Props.C27_decode_accepts",
    "Riegeli.Props.C27_round_trip",
    "Riegeli.Props.C27_compare",
    "Riegeli.Props.C27_equal",
    "Riegeli.Props.C27_equal_built",
    "Riegeli.Props.C27_equal_fails"
   ],
   "note": "Equality of sets built with different chunk sizes from the same elements is false: C27_equal_fails (finding 15). Chunk sizes are positive (finding 17)."
  },
  {
   "property": "C28",
   "status": "proved",
   "theorems": [
    "Riegeli.Props.C28_round_trip",
    "Riegeli.Props.C28_standalone_round_trip",
    "Riegeli.Props.C28_read_record",
    "Riegeli.Props.C28_end",
    "Riegeli.Props.C28_total",
    "Riegeli.Props.C28_fragmentation",
    "Riegeli.Props.C28_line_numbers",
    "Riegeli.Props.C28_has_next_record",
    "Riegeli.Props.C28_write_succeeds",
    "Riegeli.Props.C28_bom_quote_counterexample"
   ],
   "note": "The round trip is for records with at least one field (a record without fields is documented to be read as one empty field), and for options where the reader does not take data for a byte order mark: BomOk, which fails in the code only for quote character EF or no quote character (finding 10, 11). Recovery, CsvHeader and CsvRecord are not modelled."
  },
  {
   "property": "C29",
   "status": "proved",
   "theorems": [
    "Riegeli.Props.C29_read_line",
    "Riegeli.Props.C29_lines_spec",
    "Riegeli.Props.C29_lines_exist_unique",
    "Riegeli.Props.C29_read_all",
    "Riegeli.Props.C29_round_trip",
    "Riegeli.Props.C29_skip_bom"
   ],
   "note": ""
  },
  {
   "property": "C30",
   "status": "proved",
   "theorems": [
    "Riegeli.Props.C30_readable",
    "Riegeli.Props.C30_calls",
    "Riegeli.Props.C30_reference_counts",
    "Riegeli.Props.C30_no_leaks",
    "Riegeli.Props.C30_reset_when_not_empty",
    "Riegeli.Props.C30_reset_when_new",
    "Riegeli.Props.C30_reset_writes_past_array",
    "Riegeli.Props.C30_empty_blocks_fail"
   ],
   "note": "For Reset, the block pointer array must have space (Roomy, which holds for chains which are not empty or new); otherwise the property is false: C30_reset_writes_past_array (finding 21). Adding an empty block to a chain with an empty block, with size_hint equal to the size, fails an assertion: C30_empty_blocks_fail (finding 23). Adding a chain to itself is excluded (finding 22). Not modelled: conversions to and from Cord, concurrency of reference counts."
  },
  {
   "property": "C31",
   "status": "proved",
   "theorems": [
    "Riegeli.Props.C31_reads_the_data_up_to_the_limit",
    "Riegeli.Props.C31_never_past_the_limit",
    "Riegeli.Props.C31_fails_only_if",
    "Riegeli.Props.C31_create",
    "Riegeli.Props.C31_set_limit",
    "Riegeli.Props.C31_close",
    "Riegeli.Props.C31_scoped_enter",
    "Riegeli.Props.C31_scoped_leave",
    "Riegeli.Props.C31_fails_below_position",
    "Riegeli.Props.C31_scoped_limit_is_exact"
   ],
   "note": "For limits which are not set below the current position; otherwise the property is false: C31_fails_below_position (finding 18). The source is any class of readers meeting the contract of Reader (Lawful), shown to be met by a source with arbitrary fragmentation and failures (frag_lawful), by BufferedReader and FdReader (C37, C38). If a backward seek of the source fails, the source can be left past the limit, with everything failed."
  },
  {
   "property": "C32",
   "status": "proved",
   "theorems": [
    "Riegeli.Props.C32_other_chunks_have_no_records",
    "Riegeli.Props.C32_first_chunk_is_signature"
   ],
   "note": ""
  },
  {
   "property": "C33",
   "status": "proved",
   "theorems": [
    "Riegeli.Props.C33_search",
    "Riegeli.Props.C33_search_cancelling"
   ],
   "note": "test() is modelled as a function which may read the record at the current position through the reader (compareTest). A test() which reads beyond that record into the next chunk is outside of the theorem: DESIGN.md section 4, finding 8."
  },
  {
   "property": "C34",
   "status": "partial",
   "theorems": [
    "Riegeli.Props.C34_close_returns_partial",
    "Riegeli.Props.C34_negation_encoding_failure",
    "Riegeli.Props.C34_negation_doomed"
   ],
   "note": "Proved when no encoding fails (the destination may fail at any point). Missing part is false in the code: when encoding a chunk fails in an encoder thread, that thread waits for the chunk writer thread to annotate the status, while the chunk writer thread waits for that very chunk (C34_negation_encoding_failure: no schedule makes Close() return). DESIGN.md section 4, finding 9."
  },
  {
   "property": "C35",
   "status": "proved",
   "theorems": [
    "Riegeli.Props.C35_default_functions"
   ],
   "note": "Read, Copy (also backward), ReadSome, CopySome, Seek, Skip, Size, ReadHint with char*, string, Chain, Cord destinations (as byte strings). Not modelled: ReadAll, CopyAll, position overflow."
  },
  {
   "property": "C36",
   "status": "proved",
   "theorems": [
    "Riegeli.Props.C36_compare",
    "Riegeli.Props.C36_compare_string",
    "Riegeli.Props.C36_equal",
    "Riegeli.Props.C36_equal_string",
    "Riegeli.Props.C36_hash",
    "Riegeli.Props.C36_hash_value",
    "Riegeli.Props.C36_flatten",
    "Riegeli.Props.C36_char_index",
    "Riegeli.Props.C36_block_and_char_index"
   ],
   "note": "For every program (Reach) of C30. The positions need a size of at most Chain::kMaxSize, Flatten() a size for which a block can be allocated."
  },
  {
   "property": "C37",
   "status": "proved",
   "theorems": [
    "Riegeli.Props.C37_reads_the_data_of_the_source",
    "Riegeli.Props.C37_sync",
    "Riegeli.Props.C37_close",
    "Riegeli.Props.C37_failed_seek_moves_forward"
   ],
   "note": "The contract of derived classes is BSrc.Lawful, met by FdReader (Fd.src_lawful). The memory of the buffer is not modelled; whether more data fit in it is an arbitrary function. As in the code, a function may succeed and leave the reader failed because reading ahead failed."
  },
  {
   "property": "C38",
   "status": "proved",
   "theorems": [
    "Riegeli.Props.C38_initial_position",
    "Riegeli.Props.C38_reads_the_file",
    "Riegeli.Props.C38_close_leaves_the_descriptor_at_the_position",
    "Riegeli.Props.C38_sync_leaves_the_descriptor_at_the_position",
    "Riegeli.Props.C38_readers_in_sequence",
    "Riegeli.Props.C38_independent_pos",
    "Riegeli.Props.C38_not_seekable",
    "Riegeli.Props.C38_limited",
    "Riegeli.Props.C38_fails_with_unknown_size"
   ],
   "note": "The file does not change. If the system claims size 0 of a file with data and the initial position is not 0, then the property is false: C38_fails_with_unknown_size (finding 24). The initial position must not be beyond the end of the file."
  },
  {
   "property": "C39",
   "status": "proved",
   "theorems": [
    "Riegeli.Props.C39_history",
    "Riegeli.Props.C39_flush",
    "Riegeli.Props.C39_close",
    "Riegeli.Props.C39_size",
    "Riegeli.Props.C39_failed_stays_failed",
    "Riegeli.Props.C39_only_written",
    "Riegeli.Props.C39_appending",
    "Riegeli.Props.C39_seek_after_Fail"
   ],
   "note": "The contract of derived classes is BDst.Lawful, met by FdWriter (FdW.dst_lawful). Truncate() is called only when supported. Calls of Fail() by the user are excluded: with them the property is false, C39_seek_after_Fail (finding 26)."
  },
  {
   "property": "C40",
   "status": "proved",
   "theorems": [
    "Riegeli.Props.C40_initial_position",
    "Riegeli.Props.C40_history",
    "Riegeli.Props.C40_close",
    "Riegeli.Props.C40_flush",
    "Riegeli.Props.C40_size",
    "Riegeli.Props.C40_failed_stays_failed",
    "Riegeli.Props.C40_appending",
    "Riegeli.Props.C40_sending",
    "Riegeli.Props.C40_independent_pos",
    "Riegeli.Props.C40_C38_round_trip",
    "Riegeli.Props.C40_truncate_with_assumed_pos",
    "Riegeli.Props.C40_truncate_extends"
   ],
   "note": "Nobody else changes the file. Truncate() is called only when supported; otherwise the property is false: C40_truncate_with_assumed_pos (finding 27). The specification of Truncate() allows extending the file up to the position, which is what the code does: C40_truncate_extends (finding 29). The reader returned by ReadMode() is modelled by leaving the descriptor anywhere."
  },
  {
   "property": "C41",
   "status": "proved",
   "theorems": [
    "Riegeli.Props.C41_blocks",
    "Riegeli.Props.C41_fails_after_moving"
   ],
   "note": "For ByteFill::Blocks which are not moved; after moving the property is false: C41_fails_after_moving (finding 28)."
  },
  {
   "property": "C42",
   "status": "proved",
   "theorems": [
    "Riegeli.Props.C42_process_crash",
    "Riegeli.Props.C42_machine_crash",
    "Riegeli.Props.C42_close",
    "Riegeli.Props.C42_flushed_bytes"
   ],
   "note": "The file system is assumed to keep, after a crash of the machine, at least the contents at the last successful fsync(), and of the data appended later a first part (AfterMachineCrash)."
  },
  {
   "property": "C43",
   "status": "proved",
   "theorems": [
    "Riegeli.Props.C43_numerals",
    "Riegeli.Props.C43_dec_unsigned",
    "Riegeli.Props.C43_dec_signed",
    "Riegeli.Props.C43_dec_backward",
    "Riegeli.Props.C43_hex_unsigned",
    "Riegeli.Props.C43_hex_signed"
   ],
   "note": "The specification is numeral, padded, paddedInt (NumeralSpec.lean); C43_numerals says that these digits denote the number. Writing to memory is modelled as the list of characters written."
  },
  {
   "property": "C44",
   "status": "proved",
   "theorems": [
    "Riegeli.Props.C44_reader",
    "Riegeli.Props.C44_cord",
    "Riegeli.Props.C44_count",
    "Riegeli.Props.C44_bools"
   ],
   "note": "The specification is VarintAt (Props/VarintIo.lean). A Cord is a list of non-empty chunks. For a Cord the position after a failure is not determined, as in the code."
  },
  {
   "property": "C45",
   "status": "proved",
   "theorems": [
    "Riegeli.Props.C45_forward",
    "Riegeli.Props.C45_backward",
    "Riegeli.Props.C45_lengths",
    "Riegeli.Props.C45_packed_array",
    "Riegeli.Props.C45_to_file"
   ],
   "note": "The specification is wires (MessageSpec.lean). Submessages of SerializedMessageWriter are built in Cords, modelled as bytes which cannot fail. NewLengthDelimited() is not modelled (finding 31)."
  },
  {
   "property": "C46",
   "status": "proved",
   "theorems": [
    "Riegeli.Props.C46_string",
    "Riegeli.Props.C46_cord",
    "Riegeli.Props.C46_reader",
    "Riegeli.Props.C46_meanings",
    "Riegeli.Props.C46_unique",
    "Riegeli.Props.C46_round_trip",
    "Riegeli.Props.C46_packed_round_trip",
    "Riegeli.Props.C46_decode"
   ],
   "note": "The specification is MessageReadSpec.lean and Means (Props/MessageReader.lean). A LimitingReader is represented by what is visible through it (C31). The exact conditions for a failing Reader are in C46_reader (finding 32). OnPackedType, error messages and user actions which read a span partially are not modelled."
  },
  {
   "property": "C47",
   "status": "proved",
   "theorems": [
    "Riegeli.Props.C47_no_use_after_free",
    "Riegeli.Props.C47_value_semantics",
    "Riegeli.Props.C47_unique",
    "Riegeli.Props.C47_deleted_once",
    "Riegeli.Props.C47_no_leak",
    "Riegeli.Props.C47_progress"
   ],
   "note": "The specification is Held (Props/SharedPtr.lean): each variable holds its own value. Memory is sequentially consistent; memory orders are not modelled. The count is a natural number."
  },
  {
   "property": "C48",
   "status": "proved",
   "theorems": [
    "Riegeli.Props.C48_ring_history",
    "Riegeli.Props.C48_keyed_history",
    "Riegeli.Props.C48_no_crash",
    "Riegeli.Props.C48_ownership",
    "Riegeli.Props.C48_exclusive",
    "Riegeli.Props.C48_bounded"
   ],
   "note": "The specification of a pool is PoolSpec.lean. Sections under a mutex are single steps. Time does not go backwards; the factory, the refurbisher and destructors do not use the pool. Clear() reads cleaner_ atomically, which the code does not (finding 34)."
  },
  {
   "property": "C49",
   "status": "proved",
   "theorems": [
    "Riegeli.Props.C49_cleans_live_pool",
    "Riegeli.Props.C49_not_forgotten",
    "Riegeli.Props.C49_eventually_cleaned",
    "Riegeli.Props.C49_no_deadlock",
    "Riegeli.Props.C48_no_crash"
   ],
   "note": "As C48. There is one BackgroundCleaner, outliving the pools; its destructor is not modelled. Liveness is stated as: the background thread alone reaches the goal in finitely many steps."
  },
  {
   "property": "C50",
   "status": "proved",
   "theorems": [
    "Riegeli.Props.C50_exactly_once_in_order",
    "Riegeli.Props.C50_no_task_waits_for_another",
    "Riegeli.Props.C50_destruction_safe",
    "Riegeli.Props.C50_destructor_returns"
   ],
   "note": "Sections under the mutex are single steps; waits may time out at any moment; thread creation does not fail. Tasks are black boxes. Liveness is stated as: the threads of the pool alone reach the goal in boundedly many steps, in any order."
  },
  {
   "property": "C51",
   "status": "proved",
   "theorems": [
    "Riegeli.Props.C51_history",
    "Riegeli.Props.C51_memory",
    "Riegeli.Props.C51_first_failure_wins",
    "Riegeli.Props.C51_close"
   ],
   "note": "The specification is ObjectSpec.lean. AnnotateStatusImpl() is any function of the object and the status; Done() of a derived class is any list of calls of Fail()."
  },
  {
   "property": "C52",
   "status": "proved",
   "theorems": [
    "Riegeli.Props.C52_history",
    "Riegeli.Props.C52_flush",
    "Riegeli.Props.C52_close",
    "Riegeli.Props.C52_never_past_the_limit",
    "Riegeli.Props.C52_limit",
    "Riegeli.Props.C52_failed_stays_failed",
    "Riegeli.Props.C52_set_max_pos",
    "Riegeli.Props.C52_appending"
   ],
   "note": "The destination is any class meeting the contract of Writer (WriterOps.Lawful), with contents within the limit, and with SupportsRandomAccess() not failing (finding 37). FdWriter is such a class (C40)."
  },
  {
   "property": "C53",
   "status": "proved",
   "theorems": [
    "Riegeli.Props.C53_reads_the_text",
    "Riegeli.Props.C53_sync",
    "Riegeli.Props.C53_other_data_unchanged",
    "Riegeli.Props.C53_pieces"
   ],
   "note": "ReadNewline::kCrLfOrLf. The source is any class meeting the contract of Reader (ReaderOps.Lawful), not owned, which does not fail while reading (finding 38: a failure of the source is not noticed by TextReader)."
  },
  {
   "property": "C54",
   "status": "proved",
   "theorems": [
    "Riegeli.Props.C54_close",
    "Riegeli.Props.C54_flush",
    "Riegeli.Props.C54_appending",
    "Riegeli.Props.C54_round_trip"
   ],
   "note": "WriteNewline::kCrLf. The destination is any class meeting the contract of Writer (WriterOps.Lawful); FdWriter is such a class (C40)."
  },
  {
   "property": "C55",
   "status": "proved",
   "theorems": [
    "Riegeli.Props.C55_history",
    "Riegeli.Props.C55_digest",
    "Riegeli.Props.C55_flush",
    "Riegeli.Props.C55_close",
    "Riegeli.Props.C55_never_digests_anything_else",
    "Riegeli.Props.C55_unsupported",
    "Riegeli.Props.C55_appending"
   ],
   "note": "The destination is any class meeting the contract of Writer (WriterOps.Lawful). The digester is any one, which may fail at any point and then stays failed. SetWriteSizeHint() is not called on a failed writer (finding 39). Closing of the destination and of the digester is up to their classes."
  },
  {
   "property": "C56",
   "status": "proved",
   "theorems": [
    "Riegeli.Props.C56_digest",
    "Riegeli.Props.C56_never_digests_anything_else",
    "Riegeli.Props.C56_reads_the_data",
    "Riegeli.Props.C56_close",
    "Riegeli.Props.C56_verify_end",
    "Riegeli.Props.C56_is_a_reader",
    "Riegeli.Props.C56_digest_from_reader"
   ],
   "note": "The source is any class meeting the contract of Reader (ReaderOps.Lawful). The digester is any one, which may fail at any point and then stays failed. The source and the digester are not owned. The result of a call in which the digester fails is not specified (finding 40)."
  },
  {
   "property": "C57",
   "status": "proved",
   "theorems": [
    "Riegeli.Props.C57_history",
    "Riegeli.Props.C57_flush",
    "Riegeli.Props.C57_close",
    "Riegeli.Props.C57_size",
    "Riegeli.Props.C57_read_mode",
    "Riegeli.Props.C57_in_bounds",
    "Riegeli.Props.C57_fails_only_on_overflow",
    "Riegeli.Props.C57_is_a_writer"
   ],
   "note": "How the capacity of the string grows, how much space Chain::AppendBuffer() gives, and what is in memory which was not written, are arbitrary. The secondary Chain is a sequence of bytes (C30). Moving a StringWriter and failures of allocation are not modelled."
  },
  {
   "property": "C58",
   "status": "proved",
   "theorems": [
    "Riegeli.Props.C58_history",
    "Riegeli.Props.C58_flush",
    "Riegeli.Props.C58_close",
    "Riegeli.Props.C58_size",
    "Riegeli.Props.C58_read_mode",
    "Riegeli.Props.C58_in_bounds",
    "Riegeli.Props.C58_fails_only_on_overflow",
    "Riegeli.Props.C58_is_a_writer"
   ],
   "note": "How much space Chain::AppendBuffer() gives, and what is in memory which was not written, are arbitrary. A Chain is a sequence of bytes (C30). Moving a ChainWriter and failures of allocation are not modelled."
  },
  {
   "property": "C59",
   "status": "proved",
   "theorems": [
    "Riegeli.Props.C59_history",
    "Riegeli.Props.C59_flush",
    "Riegeli.Props.C59_close",
    "Riegeli.Props.C59_size",
    "Riegeli.Props.C59_read_mode",
    "Riegeli.Props.C59_in_bounds",
    "Riegeli.Props.C59_fails_only_on_overflow",
    "Riegeli.Props.C59_no_undefined_behavior",
    "Riegeli.Props.C59_clearing_the_hint_is_undefined",
    "Riegeli.Props.C59_same_hint_is_cleared",
    "Riegeli.Props.C59_is_a_writer"
   ],
   "note": "An absl::Cord is a sequence of bytes. Which buffer is used, capacities of buffers, and how many last bytes absl::Cord::GetAppendBuffer() takes are arbitrary. SetWriteSizeHint(nullopt) after a hint was set is undefined behavior (finding 41, proved). Moving a CordWriter and failures of allocation are not modelled."
  },
  {
   "property": "C60",
   "status": "proved",
   "theorems": [
    "Riegeli.Props.C60_is_a_reader",
    "Riegeli.Props.C60_sync",
    "Riegeli.Props.C60_chain_reader",
    "Riegeli.Props.C60_chain_reader_begins",
    "Riegeli.Props.C60_cord_reader",
    "Riegeli.Props.C60_cord_reader_begins"
   ],
   "note": "A Chain is any list of blocks, empty blocks included; an absl::Cord is any bytes with any division into chunks. Sizes of scratch buffers are arbitrary. Chain and absl::Cord destinations are byte strings. Moving the reader and changing the source while it is being read are not modelled."
  },
  {
   "property": "C61",
   "status": "proved",
   "theorems": [
    "Riegeli.Props.C61_reads_the_concatenation",
    "Riegeli.Props.C61_exact",
    "Riegeli.Props.C61_never_fails",
    "Riegeli.Props.C61_chains"
   ],
   "note": "Shards are readers of any class which meets the contract of Reader, with their own data; opening the next shard is modelled as taking it from a list, closing a shard as an arbitrary Boolean function of its state. Overflow of positions (total length of at least 2^64-1), SetReadAllHint(), moving the reader, and OpenShard()/CloseShard() called by a derived class are not modelled. C61_never_fails excludes seeking back out of the buffer and Size(), which are not supported and fail."
  },
  {
   "property": "C62",
   "status": "proved",
   "theorems": [
    "Riegeli.Props.C62_history",
    "Riegeli.Props.C62_in_bounds",
    "Riegeli.Props.C62_flush",
    "Riegeli.Props.C62_fails_only_when_full",
    "Riegeli.Props.C62_flush_iff",
    "Riegeli.Props.C62_failures_are_kept",
    "Riegeli.Props.C62_push",
    "Riegeli.Props.C62_size",
    "Riegeli.Props.C62_read_mode",
    "Riegeli.Props.C62_failed_writer_accepts_data"
   ],
   "note": "Assertions are not checked: calls go on like in a release build. The position of a failed writer, moving the writer and overflow of sizes are not modelled. C62_failed_writer_accepts_data is the negation of one clause of the contract of Push() (finding 45), and an example shows the violated precondition of finding 44."
  },
  {
   "property": "C63",
   "status": "proved",
   "theorems": [
    "Riegeli.Props.C63_close",
    "Riegeli.Props.C63_flush",
    "Riegeli.Props.C63_shards",
    "Riegeli.Props.C63_full",
    "Riegeli.Props.C63_push",
    "Riegeli.Props.C63_failures_are_kept",
    "Riegeli.Props.C63_fails_only_without_shards",
    "Riegeli.Props.C63_failed_flush_leaves_writer_ok",
    "Riegeli.Props.C63_hint_within_limit"
   ],
   "note": "Shards are any writers which meet the contract of Writer, new and empty, with positive size limits. Derived classes which call OpenShard() or CloseShard() themselves, moving, and overflow of positions are not modelled. C63_failed_flush_leaves_writer_ok is the negation of one clause (finding 47); an example shows finding 46."
  },
  {
   "property": "C64",
   "status": "proved",
   "theorems": [
    "Riegeli.Props.C64_history",
    "Riegeli.Props.C64_flush",
    "Riegeli.Props.C64_close",
    "Riegeli.Props.C64_size",
    "Riegeli.Props.C64_read_mode",
    "Riegeli.Props.C64_never_touches_the_prefix",
    "Riegeli.Props.C64_fails_only_with_the_destination",
    "Riegeli.Props.C64_is_a_writer",
    "Riegeli.Props.C64_quiet",
    "Riegeli.Props.C64_base_past_the_end"
   ],
   "note": "The destination is any class meeting the contract of Writer, whose SupportsRandomAccess() is quiet (as in C52), with the base position neither past its position nor past the end of its contents; C64_base_past_the_end shows what happens otherwise (finding 48). Moving, Fail() called from outside, overflow of positions, and the PrefixLimitingReader returned by ReadMode() are not modelled."
  },
  {
   "property": "C65",
   "status": "proved",
   "theorems": [
    "Riegeli.Props.C65_history",
    "Riegeli.Props.C65_flush",
    "Riegeli.Props.C65_close",
    "Riegeli.Props.C65_size",
    "Riegeli.Props.C65_read_mode",
    "Riegeli.Props.C65_fails_only_with_a_reason",
    "Riegeli.Props.C65_before_the_base",
    "Riegeli.Props.C65_is_a_writer",
    "Riegeli.Props.C65_over_a_prefix",
    "Riegeli.Props.C65_hint_after_failure"
   ],
   "note": "The destination is any class meeting the contract of Writer, whose SupportsRandomAccess() is quiet (as in C52); the maximal position is a parameter. Positions of the destination itself are unbounded. Moving, Fail() called from outside, and the PositionShiftingReader returned by ReadMode() are not modelled. C65_hint_after_failure is finding 49."
  },
  {
   "property": "C66",
   "status": "proved",
   "theorems": [
    "Riegeli.Props.C66_history",
    "Riegeli.Props.C66_size",
    "Riegeli.Props.C66_in_bounds",
    "Riegeli.Props.C66_fails_only_with_a_reason",
    "Riegeli.Props.C66_overflow_fails",
    "Riegeli.Props.C66_failure_stays"
   ],
   "note": "Sizes of buffers are arbitrary, at least what Push() asks for; the maximal position is a parameter. Moving and Fail() called from outside are not modelled."
  }
 ]
}
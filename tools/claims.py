c("C01", "proved", ["C01_written_records_are_read","C01_C16_any_encoder","C01_writer_succeeds"])
c("C02", "proved", ["C02_truncated_file"])
c("C03", "proved", ["C03_growing_file"])
c("C04", "proved", ["C04_delivered_chunks_are_intact"])
c("C07", "partial", ["C07_recover_moves_forward_partial","C07_reading_with_recovery_terminates_partial","C07_negation_zero_next_chunk","C07_negation_seek_past_end"], "The full property is false of the code: a 24 byte file makes the reading loop with recovery run forever (C07_negation_zero_next_chunk), and Seek past the end followed by Recover goes backwards (C07_negation_seek_past_end). Proved for every file whose hash-valid block headers have next_chunk > 0 pointing below 2^63, and failures other than seeking past the end.")
c("C08", "proved", ["C08_positions_increase","C08_written_positions_increase"])
c("C14", "partial", ["C14_padding_partial","C14_padding_general_partial","C14_position_after_padding","C14_negation_small_padding"], "The full property is false of the code (C14_negation_small_padding: WritePadding(32) at position 65528 underflows). Proved for paddings <= 1, multiples of 65536 and divisors of 65536 that are at least 64; for other paddings proved whenever the gap leaves room for a chunk header besides block headers.")
c("C15", "proved", ["C15_append","C15_concatenate","C15_start_of_appending"])
c("C16", "proved", ["C16_positions_agree","C01_C16_any_encoder"])
c("C18", "proved", ["C18_flush_is_durable"])
c("C19", "proved", ["C19_chunk_end_is_least","C19_distance_without_overhead","C19_add_with_overhead","C19_distance_of_add","C19_chunk_boundaries"])
c("C20", "proved", ["C20_varint_round_trip","C20_varint_accepts","C20_varint_copy","C20_zigzag"])
c("C21", "proved", ["C21_ordered_varint64_reads_exactly_what_is_written","C21_ordered_varint32_reads_exactly_what_is_written","C21_ordered_varint64_order","C21_ordered_varint32_order","C21_ordered_varint_length"])
c("C22", "partial", ["C22_string_roundtrip","C22_string_accepts_exactly","C22_bytes_accepts_exactly","C22_bytes_order","C22_bytes_roundtrip_iff","C22_bytes_roundtrip_partial","C22_bytes_roundtrip_fails"], "The text form, the order of the binary form, and rejection of malformed input hold for every position. The binary round trip is false in the code for the positions whose ToBytes() has 16 bytes (C22_bytes_roundtrip_fails; C22_bytes_roundtrip_iff says exactly when it holds): DESIGN.md section 4, finding 1.")
c("C23", "proved", ["C23_round_trip","C23_decoded_is_consistent","C23_no_trailing_data","C23_add_records","C23_deferred_encoder"])
c("C32", "proved", ["C32_other_chunks_have_no_records","C32_first_chunk_is_signature"])
c("C09", "proved", ["C09_seek_to_record","C09_seek_pos","C09_reader_is_cursor"])
c("C10", "proved", ["C10_seek_numeric","C09_reader_is_cursor"])
c("C11", "proved", ["C11_seekBack","C09_reader_is_cursor"])
c("C12", "proved", ["C12_seekToChunk","C12_target_unique"])
c("C05", "proved", ["C05_damaged_data","C05_C06_damaged_file"])
c("C06", "proved", ["C06_damaged_header","C05_C06_damaged_file","damaged_file_has_outcome"])
c("C13", "proved", ["C13_binary_search","C13_cancelling","C13_custom_traits"])
c("C33", "proved", ["C33_search","C33_search_cancelling"], "test() is modelled as a function which may read the record at the current position through the reader (compareTest). A test() which reads beyond that record into the next chunk is outside of the theorem: DESIGN.md section 4, finding 8.")
c("C17", "proved", ["C17_worker_every_schedule","C17_worker_finishes","C17_worker_failures","C17_worker_success_is_serial","C17_parallel_is_serial","C17_success_is_serial","C17_written_records_are_read","C17_session_is_serial"], "Labelled transition system with the client thread, the chunk writer thread and any number of encoder tasks; every interleaving of the steps between lock acquisitions and future waits. Sequential consistency under the mutex is assumed.")
c("C34", "partial", ["C34_close_returns_partial","C34_negation_encoding_failure","C34_negation_doomed"], "Proved when no encoding fails (the destination may fail at any point). Missing part is false in the code: when encoding a chunk fails in an encoder thread, that thread waits for the chunk writer thread to annotate the status, while the chunk writer thread waits for that very chunk (C34_negation_encoding_failure: no schedule makes Close() return). DESIGN.md section 4, finding 9.")
c("C29", "proved", ["C29_read_line","C29_lines_spec","C29_lines_exist_unique","C29_read_all","C29_round_trip","C29_skip_bom"])
c("C28", "proved", ["C28_round_trip","C28_standalone_round_trip","C28_read_record","C28_end","C28_total","C28_fragmentation","C28_line_numbers","C28_has_next_record","C28_write_succeeds","C28_bom_quote_counterexample"], "The round trip is for records with at least one field (a record without fields is documented to be read as one empty field), and for options where the reader does not take data for a byte order mark: BomOk, which fails in the code only for quote character EF or no quote character (finding 10, 11). Recovery, CsvHeader and CsvRecord are not modelled.")
c("C24", "proved", ["C24_round_trip","C24_written_records_are_read","C24_flush_is_durable","C24_decoder_returns","C24_decoder_output_is_well_formed","C24_nodes_in_bounds"], "Chunks of total size below 2^29 (the format has 32-bit indices; beyond 4 GiB the round trip is false, DESIGN.md section 4, finding 14). The iteration order of hash maps is an arbitrary parameter of the encoder. Prefetching and buffer management are not modelled.")
c("C25", "proved", ["C25_projection","C25_any_record","C25_files","C25_never_longer","C25_all_included"], "Chunks of total size below 2^29. Length-delimited fields which can be messages are considered messages, up to the nesting kMaxRecursionDepth, as the encoder does it. Changing the projection while reading (SetFieldProjection) is not modelled.")
c("C26", "proved", ["C26_from_sorted","C26_from_weakly_sorted","C26_builder","C26_any_set","C26_decode_any","C26_decode_accepts","C26_round_trip","C26_compare","C26_equal","C26_equal_built","C26_equal_fails"], "Equality of decoded sets with the same elements can be false: C26_equal_fails (finding 15). Not modelled: copies of iterators, hashing, failures of the Writer or Reader.")
c("C27", "proved", ["C27_build_sorted","C27_builder","C27_any_set","C27_of_linear","C27_decode_any","C27_decode_accepts","C27_round_trip","C27_compare","C27_equal","C27_equal_built","C27_equal_fails"], "Equality of sets built with different chunk sizes from the same elements is false: C27_equal_fails (finding 15). Chunk sizes are positive (finding 17).")
c("C31", "proved", ["C31_reads_the_data_up_to_the_limit","C31_never_past_the_limit","C31_fails_only_if","C31_create","C31_set_limit","C31_close","C31_scoped_enter","C31_scoped_leave","C31_fails_below_position","C31_scoped_limit_is_exact"], "For limits which are not set below the current position; otherwise the property is false: C31_fails_below_position (finding 18). The source is any class of readers meeting the contract of Reader (Lawful), shown to be met by a source with arbitrary fragmentation and failures (frag_lawful), by BufferedReader and FdReader (C37, C38). If a backward seek of the source fails, the source can be left past the limit, with everything failed.")
c("C35", "proved", ["C35_default_functions"], "Read, Copy (also backward), ReadSome, CopySome, Seek, Skip, Size, ReadHint with char*, string, Chain, Cord destinations (as byte strings). Not modelled: ReadAll, CopyAll, position overflow.")
c("C30", "proved", ["C30_readable","C30_calls","C30_reference_counts","C30_no_leaks","C30_reset_when_not_empty","C30_reset_when_new","C30_reset_writes_past_array","C30_empty_blocks_fail"], "For Reset, the block pointer array must have space (Roomy, which holds for chains which are not empty or new); otherwise the property is false: C30_reset_writes_past_array (finding 21). Adding an empty block to a chain with an empty block, with size_hint equal to the size, fails an assertion: C30_empty_blocks_fail (finding 23). Adding a chain to itself is excluded (finding 22). Not modelled: conversions to and from Cord, concurrency of reference counts.")
c("C36", "proved", ["C36_compare","C36_compare_string","C36_equal","C36_equal_string","C36_hash","C36_hash_value","C36_flatten","C36_char_index","C36_block_and_char_index"], "For every program (Reach) of C30. The positions need a size of at most Chain::kMaxSize, Flatten() a size for which a block can be allocated.")
c("C37", "proved", ["C37_reads_the_data_of_the_source","C37_sync","C37_close","C37_failed_seek_moves_forward"], "The contract of derived classes is BSrc.Lawful, met by FdReader (Fd.src_lawful). The memory of the buffer is not modelled; whether more data fit in it is an arbitrary function. As in the code, a function may succeed and leave the reader failed because reading ahead failed.")
c("C38", "proved", ["C38_initial_position","C38_reads_the_file","C38_close_leaves_the_descriptor_at_the_position","C38_sync_leaves_the_descriptor_at_the_position","C38_readers_in_sequence","C38_independent_pos","C38_not_seekable","C38_limited","C38_fails_with_unknown_size"], "The file does not change. If the system claims size 0 of a file with data and the initial position is not 0, then the property is false: C38_fails_with_unknown_size (finding 24). The initial position must not be beyond the end of the file.")
c("C39", "proved", ["C39_history","C39_flush","C39_close","C39_size","C39_failed_stays_failed","C39_only_written","C39_appending","C39_seek_after_Fail"], "The contract of derived classes is BDst.Lawful, met by FdWriter (FdW.dst_lawful). Truncate() is called only when supported. Calls of Fail() by the user are excluded: with them the property is false, C39_seek_after_Fail (finding 26).")
c("C40", "proved", ["C40_initial_position","C40_history","C40_close","C40_flush","C40_size","C40_failed_stays_failed","C40_appending","C40_sending","C40_independent_pos","C40_C38_round_trip","C40_truncate_with_assumed_pos","C40_truncate_extends"], "Nobody else changes the file. Truncate() is called only when supported; otherwise the property is false: C40_truncate_with_assumed_pos (finding 27). The specification of Truncate() allows extending the file up to the position, which is what the code does: C40_truncate_extends (finding 29). The reader returned by ReadMode() is modelled by leaving the descriptor anywhere.")
c("C41", "proved", ["C41_blocks","C41_fails_after_moving"], "For ByteFill::Blocks which are not moved; after moving the property is false: C41_fails_after_moving (finding 28).")
c("C42", "proved", ["C42_process_crash","C42_machine_crash","C42_close","C42_flushed_bytes"], "The file system is assumed to keep, after a crash of the machine, at least the contents at the last successful fsync(), and of the data appended later a first part (AfterMachineCrash).")
c("C43", "proved", ["C43_numerals","C43_dec_unsigned","C43_dec_signed","C43_dec_backward","C43_hex_unsigned","C43_hex_signed"], "The specification is numeral, padded, paddedInt (NumeralSpec.lean); C43_numerals says that these digits denote the number. Writing to memory is modelled as the list of characters written.")
c("C44", "proved", ["C44_reader","C44_cord","C44_count","C44_bools"], "The specification is VarintAt (Props/VarintIo.lean). A Cord is a list of non-empty chunks. For a Cord the position after a failure is not determined, as in the code.")
c("C45", "proved", ["C45_forward","C45_backward","C45_lengths","C45_packed_array","C45_to_file"], "The specification is wires (MessageSpec.lean). Submessages of SerializedMessageWriter are built in Cords, modelled as bytes which cannot fail. NewLengthDelimited() is not modelled (finding 31).")
c("C46", "proved", ["C46_string","C46_cord","C46_reader","C46_meanings","C46_unique","C46_round_trip","C46_packed_round_trip","C46_decode"], "The specification is MessageReadSpec.lean and Means (Props/MessageReader.lean). A LimitingReader is represented by what is visible through it (C31). The exact conditions for a failing Reader are in C46_reader (finding 32). OnPackedType, error messages and user actions which read a span partially are not modelled.")
c("C47", "proved", ["C47_no_use_after_free","C47_value_semantics","C47_unique","C47_deleted_once","C47_no_leak","C47_progress"], "The specification is Held (Props/SharedPtr.lean): each variable holds its own value. Memory is sequentially consistent; memory orders are not modelled. The count is a natural number.")
c("C48", "proved", ["C48_ring_history","C48_keyed_history","C48_no_crash","C48_ownership","C48_exclusive","C48_bounded"], "The specification of a pool is PoolSpec.lean. Sections under a mutex are single steps. Time does not go backwards; the factory, the refurbisher and destructors do not use the pool. Clear() reads cleaner_ atomically, which the code does not (finding 34).")
c("C49", "proved", ["C49_cleans_live_pool","C49_not_forgotten","C49_eventually_cleaned","C49_no_deadlock","C48_no_crash"], "As C48. There is one BackgroundCleaner, outliving the pools; its destructor is not modelled. Liveness is stated as: the background thread alone reaches the goal in finitely many steps.")
c("C50", "proved", ["C50_exactly_once_in_order","C50_no_task_waits_for_another","C50_destruction_safe","C50_destructor_returns"], "Sections under the mutex are single steps; waits may time out at any moment; thread creation does not fail. Tasks are black boxes. Liveness is stated as: the threads of the pool alone reach the goal in boundedly many steps, in any order.")
c("C51", "proved", ["C51_history","C51_memory","C51_first_failure_wins","C51_close"], "The specification is ObjectSpec.lean. AnnotateStatusImpl() is any function of the object and the status; Done() of a derived class is any list of calls of Fail().")
c("C52", "proved", ["C52_history","C52_flush","C52_close","C52_never_past_the_limit","C52_limit","C52_failed_stays_failed","C52_set_max_pos","C52_appending"], "The destination is any class meeting the contract of Writer (WriterOps.Lawful), with contents within the limit, and with SupportsRandomAccess() not failing (finding 37). FdWriter is such a class (C40).")
c("C53", "proved", ["C53_reads_the_text","C53_sync","C53_other_data_unchanged","C53_pieces"], "ReadNewline::kCrLfOrLf. The source is any class meeting the contract of Reader (ReaderOps.Lawful), not owned, which does not fail while reading (finding 38: a failure of the source is not noticed by TextReader).")
c("C54", "proved", ["C54_close","C54_flush","C54_appending","C54_round_trip"], "WriteNewline::kCrLf. The destination is any class meeting the contract of Writer (WriterOps.Lawful); FdWriter is such a class (C40).")
c("C55", "proved", ["C55_history","C55_digest","C55_flush","C55_close","C55_never_digests_anything_else","C55_unsupported","C55_appending"], "The destination is any class meeting the contract of Writer (WriterOps.Lawful). The digester is any one, which may fail at any point and then stays failed. SetWriteSizeHint() is not called on a failed writer (finding 39). Closing of the destination and of the digester is up to their classes.")
c("C56", "proved", ["C56_digest","C56_never_digests_anything_else","C56_reads_the_data","C56_close","C56_verify_end","C56_is_a_reader","C56_digest_from_reader"], "The source is any class meeting the contract of Reader (ReaderOps.Lawful). The digester is any one, which may fail at any point and then stays failed. The source and the digester are not owned. The result of a call in which the digester fails is not specified (finding 40).")
c("C57", "proved", ["C57_history","C57_flush","C57_close","C57_size","C57_read_mode","C57_in_bounds","C57_fails_only_on_overflow","C57_is_a_writer"], "How the capacity of the string grows, how much space Chain::AppendBuffer() gives, and what is in memory which was not written, are arbitrary. The secondary Chain is a sequence of bytes (C30). Moving a StringWriter and failures of allocation are not modelled.")
c("C58", "proved", ["C58_history", "C58_flush", "C58_close", "C58_size", "C58_read_mode", "C58_in_bounds", "C58_fails_only_on_overflow", "C58_is_a_writer"], "How much space Chain::AppendBuffer() gives, and what is in memory which was not written, are arbitrary. A Chain is a sequence of bytes (C30). Moving a ChainWriter and failures of allocation are not modelled.")
c("C59", "proved", ["C59_history", "C59_flush", "C59_close", "C59_size", "C59_read_mode", "C59_in_bounds", "C59_fails_only_on_overflow", "C59_no_undefined_behavior", "C59_clearing_the_hint_is_undefined", "C59_same_hint_is_cleared", "C59_is_a_writer"], "An absl::Cord is a sequence of bytes. Which buffer is used, capacities of buffers, and how many last bytes absl::Cord::GetAppendBuffer() takes are arbitrary. SetWriteSizeHint(nullopt) after a hint was set is undefined behavior (finding 41, proved). Moving a CordWriter and failures of allocation are not modelled.")
c("C60", "proved", ["C60_is_a_reader", "C60_sync", "C60_chain_reader", "C60_chain_reader_begins", "C60_cord_reader", "C60_cord_reader_begins"], "A Chain is any list of blocks, empty blocks included; an absl::Cord is any bytes with any division into chunks. Sizes of scratch buffers are arbitrary. Chain and absl::Cord destinations are byte strings. Moving the reader and changing the source while it is being read are not modelled.")
c("C61", "proved", ["C61_reads_the_concatenation", "C61_exact", "C61_never_fails", "C61_chains"], "Shards are readers of any class which meets the contract of Reader, with their own data; opening the next shard is modelled as taking it from a list, closing a shard as an arbitrary Boolean function of its state. Overflow of positions (total length of at least 2^64-1), SetReadAllHint(), moving the reader, and OpenShard()/CloseShard() called by a derived class are not modelled. C61_never_fails excludes seeking back out of the buffer and Size(), which are not supported and fail.")
c("C62", "proved", ["C62_history", "C62_in_bounds", "C62_flush", "C62_fails_only_when_full", "C62_flush_iff", "C62_failures_are_kept", "C62_push", "C62_size", "C62_read_mode", "C62_failed_writer_accepts_data"], "Assertions are not checked: calls go on like in a release build. The position of a failed writer, moving the writer and overflow of sizes are not modelled. C62_failed_writer_accepts_data is the negation of one clause of the contract of Push() (finding 45), and an example shows the violated precondition of finding 44.")
c("C63", "proved", ["C63_close", "C63_flush", "C63_shards", "C63_full", "C63_push", "C63_failures_are_kept", "C63_fails_only_without_shards", "C63_failed_flush_leaves_writer_ok", "C63_hint_within_limit"], "Shards are any writers which meet the contract of Writer, new and empty, with positive size limits. Derived classes which call OpenShard() or CloseShard() themselves, moving, and overflow of positions are not modelled. C63_failed_flush_leaves_writer_ok is the negation of one clause (finding 47); an example shows finding 46.")
c("C64", "proved", ["C64_history", "C64_flush", "C64_close", "C64_size", "C64_read_mode", "C64_never_touches_the_prefix", "C64_fails_only_with_the_destination", "C64_is_a_writer", "C64_quiet", "C64_base_past_the_end"], "The destination is any class meeting the contract of Writer, whose SupportsRandomAccess() is quiet (as in C52), with the base position neither past its position nor past the end of its contents; C64_base_past_the_end shows what happens otherwise (finding 48). Moving, Fail() called from outside, overflow of positions, and the PrefixLimitingReader returned by ReadMode() are not modelled.")
c("C65", "proved", ["C65_history", "C65_flush", "C65_close", "C65_size", "C65_read_mode", "C65_fails_only_with_a_reason", "C65_before_the_base", "C65_is_a_writer", "C65_over_a_prefix", "C65_hint_after_failure"], "The destination is any class meeting the contract of Writer, whose SupportsRandomAccess() is quiet (as in C52); the maximal position is a parameter. Positions of the destination itself are unbounded. Moving, Fail() called from outside, and the PositionShiftingReader returned by ReadMode() are not modelled. C65_hint_after_failure is finding 49.")
c("C66", "proved", ["C66_history", "C66_size", "C66_in_bounds", "C66_fails_only_with_a_reason", "C66_overflow_fails", "C66_failure_stays"], "Sizes of buffers are arbitrary, at least what Push() asks for; the maximal position is a parameter. Moving and Fail() called from outside are not modelled.")

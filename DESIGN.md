# Formal model of google/riegeli in Lean 4

## 1. Trusted base

* Lean 4.33.0's kernel; the standard axioms `propext`, `Classical.choice`, `Quot.sound` (each
  property theorem's exact axioms can be listed by `#print axioms`; no other axiom is used: no own
  axioms, no compiled-code evaluation).
* The hand translation from C++ to Lean. Every definition of a model cites the
  file and lines it models and names its simplifications.
* Things outside the model, which are *parameters* or *assumptions* of the model:
  * The hash function (HighwayHash in `chunk_encoding/hash.cc`) is an arbitrary function
    `H : List UInt8 → UInt64` (or `→ Nat` reduced mod 2^64). Nothing assumes it is collision-free; theorems about damage
    assume that the damaged bytes do not hash to the stored value, explicitly.
  * Compression (brotli, zstd, snappy) is an arbitrary pair compress/decompress with the
    contract `decompress (compress x) = some x`. `CompressionType::kNone` is modelled exactly.
  * The byte source/destination of the record layer: a file is a list of bytes. End of the source, growth of the source
    and truncation at any byte are modelled. Below the record layer, `FdReader` and `FdWriter` (C38, C40) are modelled over an operating system which divides reads and writes
    arbitrarily and may fail any call; `fsync()` is trusted to make the contents of the file durable.
  * Memory allocation, buffer sizing and performance hints, except where a row below says that buffers or blocks are modelled (C30, C35-C42).

Levels: *model* files transcribe code; *spec* files say what is meant, without using the
model's helpers; *proof* files contain lemmas; *property* files (`Verif/Props/*.lean`) contain the
theorems listed in MANIFEST.json, with non-vacuity examples next to them.

## 2. General modelling decisions

* Bytes are `List UInt8`, positions are `Nat`. `Position` is `uint64_t` in the code; where hostile
  input can make arithmetic wrap, the model wraps explicitly (`% 2^64`).
* A failing operation returns a distinct outcome. A loop that could diverge on hostile input
  takes fuel and running out of fuel is the distinct outcome `diverged`; theorems then say there is a fuel bound
  with which the outcome is not `diverged` (or that there is none).
* Concurrency is a labelled transition system over interleavings of atomic steps (the code's mutex
  critical sections).

## 3. Properties: what is modelled, how it is proved

| id | model | proof |
|----|-------|-------|
| C01 | RecordWriter (serial), ChunkWriter, ChunkReader, RecordReader, SimpleEncoder/Decoder | writer output satisfies the layout spec `ValidFile`; reader on `ValidFile` returns the records; composed |
| C02 | the same, reader run on a prefix of the file | the layout spec is positional, so prefixes of it are characterised; invariant of the read loop |
| C03 | ChunkReader as a resumable state machine over a sequence of growing prefixes | invariant: partial header/data buffers equal the file's bytes at their positions |
| C04 | ChunkReader on arbitrary bytes | invariant over ReadChunk |
| C05 | ChunkReader + RecordReader recovery on a file with damaged data | recover jumps to ChunkEnd |
| C06 | ChunkReader::Recover on a damaged header | find-chunk path goes to the next block header |
| C07 | ChunkReader::Recover on arbitrary bytes | negation with witness (see findings) + partial theorem |
| C08 | positions in the layout spec | arithmetic: `num_records ≤ ChunkEnd - ChunkBegin` |
| C09, C10, C11, C12 | RecordReader/ChunkReader seeks on a valid file | invariants over the block-header walk |
| C13 | BinarySearch template | induction over the loop with a well-founded measure |
| C14 | ChunkWriter::PosAfterPadding, WritePadding | lcm argument for termination |
| C15 | RecordWriter opened at a non-zero position | writer theorem is stated for any start |
| C16 | writer's LastPos vs reader's last_pos | both equal the positions in the layout spec |
| C17 | ParallelWorker as a transition system: client thread, chunk writer thread, encoder tasks, bounded request queue, promises (record_writer.cc:504-829); client programs as trees of calls (ParallelWriter) | invariant over reachable states, simulation by the serial worker in both directions, well-founded measure for termination |
| C18 | Flush in the writer model | with C02 |
| C19 | records/block.h | arithmetic (`omega`) |
| C20, C21 | varint/ordered varint codecs | induction on digits |
| C22 | RecordPosition | string and byte forms; binary form: negation with witness + partial |
| C23 | SimpleEncoder/SimpleDecoder | via C20 and the compressor contract |
| C24 | TransposeEncoder (message splitting, construction of the state machine, buckets, transitions, header) and TransposeDecoder (parsing, the decoding loop with its callbacks, implicit transitions) of `chunk_encoding/transpose_{encoder,decoder}.cc`; hash map iteration order is a parameter | an abstract machine (`TrColumn`) replays the tags backwards and rebuilds the records; the constructed state machine is shown to lead the decoder through exactly the encoded tags (`TrForest`..`TrDrive`); hostile input: ranking argument from `ContainsImplicitLoop` |
| C25 | the decoder with a field projection (the same model: `parseProjection`, `parseBuffersF`, `setCallbackType`, the skipping callbacks); ChunkDecoder and RecordReader with the projection fixed | specification `ProjSpec` (trees of fields, wire encoding, `project`) which does not mention the decoder; the trie of included fields represents `inclusion` (`TrTrie`); the abstract machine with a projection (`TrProj`) rebuilds the projected records and the decoder simulates it, nodes being resolved to paths lazily (`TrProjPath`), only the buckets needed being decompressed (`TrProjParse`) |
| C26, C27 | LinearSortedStringSet, its iterators and builder, encoding and decoding; ChunkedSortedStringSet over it, with BinarySearch of C13 (`containers/{linear,chunked}_sorted_string_set.{h,cc}`); assertions are modelled as failure | a representation relation between encoded bytes and elements (`Represents`, `CRep`); each iterator yields the elements; induction over elements |
| C28 | CsvWriter, CsvReader (no recovery, headers), fragmentation oracle | pure parser on the remaining bytes, code refines it; grammar; round trip |
| C29 | ReadLine (string and string_view), WriteLine, SkipUtf8Bom over a reader with an arbitrary fragmentation | the scan loops refine `splitLine`; induction over the remaining bytes |
| C30 | heap of reference counted blocks (internal with free space on both sides, external, part of another block), Chain with short data, block pointers in place or in an array with offsets; all operations but Cord conversions (`base/chain.cc`, `chain_base.h`, `chain_details.h`); a program with any number of Chains and Blocks (`COp`) | per-operation refinement lemmas to the flat bytes, invariant `Inv` of the world: each block's reference count is the number of references; memory accesses and assertions are explicit failures shown not to happen |
| C31 | LimitingReader over any Reader meeting the contract `ReaderOps.Lawful`; ScopedLimiter; Close (`bytes/limiting_reader.{h,cc}`, `bytes/reader.{h,cc}`) | the contract of the source implies the contract of the LimitingReader for the data cut at the limit; induction over histories |
| C32 | ChunkDecoder::Parse, RecordReader's first chunk check | case analysis |
| C33 | RecordReader::Search over BinarySearch, with chunk and record search traits (record_reader.cc:533-687) | the searcher interface of C13 instantiated with an invariant over reader states; ghost list of the records tested |
| C34 | the same transition system, with a destination which may fail | progress lemma + measure; the negation for encoding failures: the blocked set of threads is an invariant |
| C35 | `Reader` with default virtual functions over any PullSlow meeting its contract (`bytes/reader.cc`) | induction over the loops |
| C36 | `Compare`, `==`, `HashValue`, `BlockAndCharIndex`, `CharIndexInChain`, `Flatten` over the model of C30; the hash function is a parameter | induction over the fragments; block offsets relative to the first one are the sums of sizes although they wrap around |
| C37 | `BufferedReader` over any derived class (`BSrc`), `ReadBufferSizer` (`bytes/buffered_reader.{h,cc}`, `bytes/buffer_options.{h,cc}`) | the contract of the derived class implies the contract of `Reader`: the buffer is the data before the physical position; induction over the loops |
| C38 | `FdReader` (without Windows) over an operating system which decides how much each call reads and which calls fail (`bytes/fd_reader.{h,cc}`) | `FdReader` meets the contract of C37, with an invariant relating the position of the descriptor to `limit_pos()` |
| C39 | `Writer` and `BufferedWriter` with the memory of the buffer, over any derived class meeting a contract (`bytes/writer.{h,cc}`, `bytes/buffered_writer.{h,cc}`, `bytes/buffer_options.cc`) | `BufferedWriter` meets the contract of `Writer` (`WriterOps.Lawful`), with `view` = the destination overlaid by the buffer; the contract implies that every history is a replay of the specification (contents and a position), by induction on the calls |
| C40 | `FdWriter` (without Windows) over an operating system which decides how much each `write()` writes and which calls fail (`bytes/fd_writer.{h,cc}`) | `FdWriter` meets the contract of classes derived from `BufferedWriter`; what was sent and what was in the file at `fsync()` are ghost fields |
| C41 | `ByteFill::Blocks` (`base/byte_fill.{h,cc}`) | Arithmetic of the constructor, induction on the number of blocks |
| C42 | Composition of C01, C02, C18 (records) and C39, C40 (`FdWriter`): the bytes of `RW.out` are divided arbitrarily into calls of `FdWriter`; `durable` (contents at the last `fsync()`) | Only `Flush(kFromMachine)` changes `durable` (`BDst.Keeps`), the contents only grow when appending; then C18 for the surviving first part |
| C43 | `WriteInt.lean`: every function of `write_int_internal.cc` and `write_int.{h,cc}`, with and without SSSE3 | Each branch writes a fixed number of digits (`fixed`), lemmas `padded_eq`, `padded_wide`, `padded_split` say when this is the numeral; bit tricks by splitting into nibbles; the size tables are checked entry by entry against powers of 10 |
| C44 | `VarintIo.lean`: reading, copying and skipping varints from a `Reader` (`Rd`, arbitrary fragments) and from a `Cord` (list of chunks), `CountVarints()` and `VerifyBools()` with blocks of 8 bytes (`varint/varint_reading.{h,cc}`) | All loops compute one function `scan` of the bytes, whatever is buffered; `scan` is related to `readVarint` (C19) and by it to the specification; 8-byte blocks by splitting into bytes |
| C45 | `MessageWriter.lean`: all `Write...()`, `Open...()`, `Close...()` and `LengthOf...()` functions of `messages/serialized_message_{,backward_}writer.{h,cc}` over any `WriterOps`/`BackOps`; the specification is `MessageSpec.lean` | Mutual induction on the tree of fields; each call grows the innermost message by its part of `wires` or fails for an allowed reason; space asked by `Push()` is at least the length by C19 lemmas |
| C46 | `MessageReader.lean`: `ReadMessageFrom{Reader,Cord,String}()` and `ReadMessage()` of `messages/serialized_message_reader.h`, packed, string and submessage handlers of `messages/field_handlers.h` over `Rd` (any buffers, any failure) and chunk lists; `MessageHandlers.lean`: field handlers as a user composes them; the specification is `MessageReadSpec.lean` | The specification is shown equal to a function by induction on the length of the data (`message`); each implementation refines it, with a contract for handlers of length-delimited fields, which nested messages meet by induction on handlers |
| C47 | `SharedPtr.lean`: `RefCount` and the operations of `SharedPtr`, one access to shared memory per step, any number of threads as a list of operations in progress; any schedule. Specification: variables holding values, `Held` (`Props/SharedPtr.lean`) | An invariant counting for each object the variables and operations which refer to it, through the three stages of its life; preserved by each step |
| C48 | `RecyclingPool.lean`: the ring buffer and the keyed pool with its cached entry, the sections under the mutex; `BackgroundCleaner.lean`: what operations do between these sections, any number of pools and threads. Specification: a list of idle objects (`PoolSpec.lean`) | Each section refines the list (`PoolProofs.lean`, `KeyedPoolProofs.lean`); an invariant of the whole system counting each object in each place (`PoolSystemProofs.lean`) |
| C49 | `BackgroundCleaner.lean`: the list of registered cleanees with `next_`, and the background thread, one section under the mutex per step | The list is split into entries without and with pending cleaning, the latter sorted (`CleanerProofs.lean`); each oldest object is covered by a pending cleaning, an operation about to request it or to clear the pool, or the background thread; a measure which each step of the background thread decreases |
| C50 | `ThreadPool.lean`: `ThreadPool` with one critical section per step, worker threads, thread creation outside of the mutex, timeouts at any moment, the destructor | Invariant: as long as the pool is not exiting, there are at least as many threads being created, at the head of the loop or waiting as queued tasks; a measure decreased by each step of the pool itself |
| C51 | `ObjectState.lean`: `Object` and `ObjectState` with the heap of `FailedStatus`; `ObjectSpec.lean`: open or closed, failed or not | Refinement: each word represents a state, each live `FailedStatus` is owned by one object (`ObjectProofs.lean`) |
| C52 | `LimitingWriter.lean`: `LimitingWriter` over any class of writers; the shared buffer is the bytes written since the last synchronization | The class meets the contract of `Writer` (`LimitingWriterProofs.lean: lawful`) with an invariant bounding the contents; `OverPost` for exceeding the limit |
| C53 | `TextReader.lean`: `TextReader` over any class of readers; specification `toLf` | `ReadInternal()` meets the contract of a class derived from `BufferedReader` (`TextReaderProofs.lean: TR.lawful`), with `pending_cr_` standing for a byte which was taken from the source and is still to be converted; then C37 |
| C54 | `TextWriter.lean`: `TextWriter` over any class of writers; specification `toCrlf` | `WriteInternal()` meets the contract of a class derived from `BufferedWriter`, whose contents are a log of what was written; the destination received `toCrlf` of the log (`TW.TInv`); then C39; `toLf (toCrlf x) = x` |
| C55 | `DigestingWriter.lean`: `DigestingWriter` over any class of writers, with any digester; what was digested is a log of bytes | `DigestingWriter` is a class meeting the contract of `Writer` (`DW.lawful`), and each function adds to the log and the undigested part of the buffer exactly the bytes written (`DW.DigPost`); induction over histories |
| C56 | `DigestingReader.lean`: `DigestingReader` over any class of readers, with any digester; what was digested is a log of bytes | Invariant: the log is the data of the source from the initial position to the cursor of the source (`DR.WI`); with a digester which does not fail `DigestingReader` is a class meeting the contract of `Reader` (`DR.lawful`); induction over histories |
| C57 | `StringWriter.lean`: `StringWriter` with the memory of the string (with its unused space and capacity) and of the secondary buffer; allocation decisions and unused memory are arbitrary | Invariant `SW.Inv` about the buffer pointers; `SW.view` are the contents presented; `StringWriter` is a class meeting the contract of `Writer` (`SW.lawful`); induction over histories |
| C58 | `ChainWriter.lean`: `ChainWriter` with the memory of the chain (with the buffer at its end) and the tail; block sizes and unused memory are arbitrary | Invariant `CW.Inv`; `CW.view` are the contents presented; `CW.Idle` are states without a buffer; `ChainWriter` is a class meeting the contract of `Writer` (`CW.lawful`), and of writers overriding writing by reference (`WriterRef.lean`); induction over histories |
| C59 | `CordWriter.lean`: `CordWriter` with the cord, the buffer and the tail; capacities and unused memory are arbitrary | Invariant `CdW.Inv`; `CordWriter` is a class meeting the contract of `Writer` (`CdW.lawful`); undefined behavior is a flag of the state; induction over histories |
| C60 | `PullableReader.lean`: scratch over any class of readers; `ChainReader.lean`: the functions of `ChainReader` and `CordReader` behind scratch | Each class meets the contract of `Reader` (`PS.lawful`, `ChR.behind_lawful`, `CdR.behind_lawful`) and keeps `ok()` (`Unfailing`); induction over histories; `Exact` states the results in terms of the bytes and the position |
| C61 | `JoiningReader.lean`: the loop over shards with each function of the shard, behind scratch | Induction over the shards to be opened, with what was read so far as a relation closed under composition (`run_spec`); the class meets the contract of `Reader` behind scratch (`JR.behind_lawful`), hence with scratch (C60); `JoiningReaderSteady.lean`: no other failures |
| C62 | `ArrayWriter.lean`: `ArrayWriter` with the functions of `PushableWriter` which handle scratch | What writing must do is a relation closed under composition (`AW.Post`), which includes why it may fail; `SyncScratch()` keeps the contents presented (`sync_spec`); induction over calls (`callAll_spec`) |
| C63 | `SplittingWriter.lean`: `SplittingWriter` over any class of writers, with the functions of `PushableWriter` which handle scratch | An invariant about the data in closed shards, the open shard, the buffer and scratch (`Sp.Live`), and a predicate of states which are going to fail (`Sp.Bad`); induction over shards and over calls |
| C64 | `PrefixLimitingWriter.lean`: `PrefixLimitingWriter` over any class of writers | An invariant (`PLW.PInv`) with the hidden prefix; the contract of `Writer` is proved for the class, and histories follow by induction over calls |
| C65 | `PositionShiftingWriter.lean`: `PositionShiftingWriter` over any class of writers | An invariant (`PSW.SInv`) with the clipped buffer; the contract of `Writer` is proved for the class, and histories follow by induction over calls |
| C66 | `NullWriter.lean`: `NullWriter` with arbitrary buffer sizes | A simulation relation between its position and size and a sequence of bytes; induction over calls |

## 4. Where the code and the property disagree

1. **C22**: `RecordPosition::FromBytes(ToBytes(p))` is not `p` when `ToBytes(p)` happens to have
   exactly 16 bytes (encoded lengths 8+8, 7+9 or 9+7; e.g. `chunk_begin` and `record_index` both in [2^49, 2^56)): a 16-byte input
   is taken as the old big-endian format.
2. **C07**: a crafted block header with a valid hash, `next_chunk = 0` and a mismatching
   `previous_chunk` makes `ChunkReader::Recover` succeed without moving, so a recovery loop does not
   terminate. Partial theorem: progress if the block headers met satisfy the documented constraints.
   A `Seek` past the end of the file followed by `Recover` reports a region [seek position, file size), which
   ends before it begins (`C07_negation_seek_past_end`). Also, when `Recover` in the `kHaveChunk` case finds that the
   position is not a possible chunk boundary it does `goto again` after `MarkNotFailed()`: the assertion
   `!ok()` there fails in a debug build, and in a release build the message of the region is lost.
3. **C12**: a crafted chunk header whose `data_size` makes `ChunkEnd` wrap around mod 2^64 to
   `chunk_begin` makes `SeekToChunkContaining/After` loop forever. Valid files are not affected.
4. `RecordReader::SeekBack` re-reads the chunk preceding the current one a second time when it has no
   records (it uses the stale `chunk_begin_`); harmless on valid files.
5. Termination of `PosAfterPadding` rests on the multiples of `padding` reaching a common multiple of
   `padding` and 65536 before 2^64 (`C14_padding_general_partial` has this as its bound).
6. **C14**: `PosAfterPadding` only ensures that the padded length is at least the size of a chunk
   header, ignoring a block header in between. At position 65528 `WritePadding(32)` gets the end
   65568, of which only 16 bytes are outside the block header: the subtraction of the chunk header
   size wraps around and the process dies. Proved impossible for paddings which are multiples of
   64 KiB or divisors of 64 KiB of at least 64.
7. `RecordReader::Search` on a truncated file can return `greater` although no record is greater: when the chunk
   at the middle cannot be read because the file ends, the chunk is treated as `greater` (record_reader.cc:597-603).
   Not formalized; C33 is about valid files.
8. `RecordReader::Search`: after `test()` the chunk searcher takes the position where to continue from `src.pos()`
   (record_reader.cc:636-648), so a `test()` which reads records beyond the current one into the next chunk makes the search skip
   that chunk. C33 assumes that `test()` leaves the reader in the chunk of the record it tests.
9. **C34**: `ParallelWorker` deadlocks when encoding a chunk fails in an encoder thread: `EncodeChunk` calls
   `Fail(chunk_encoder.status())`, which calls `AnnotateStatus`, which enqueues an `AnnotateStatusRequest` and waits for the
   chunk writer thread (record_writer.cc:259-261, 672-683); the chunk writer thread is waiting in `request.chunk.get()` for the
   chunk which that encoder thread has not yet set (record_writer.cc:585-595, 742-750). `C34_negation_encoding_failure`
   gives a client for which no schedule makes `Close()` return; `C34_negation_doomed` says that this is so from any
   state in which the request for a failing chunk has been made. In practice encoding fails e.g. when Snappy is given more than 4 GiB.
10. **C28**: with the quote character 0xEF, a first field beginning with BB BF which needs quoting makes the file begin with EF BB BF, which
   `CsvReader` skips as a byte order mark: the table is not read back (`C28_bom_quote_counterexample`). `WriteFirstField` quotes a field
   which looks like a byte order mark, but does not consider the quote character itself.
11. **C28**: without a quote character, a first field beginning with EF BB BF is lost by a reader without `preserve_utf8_bom`; the writer could
   not do otherwise, except for failing. `BomOk` excludes it.
12. `CsvReader` recovery after `max_field_length` exceeded in a quoted field which spans lines: `SkipLine` begins from a cursor which was not advanced past
   what was scanned, so lines are counted twice, and how much is skipped depends on buffer boundaries. Not formalized (recovery is not modelled).
13. `CsvReader`: an escaped LF is not counted in `line_number()` (`C28_line_numbers` needs `escape = none`). `HasNextRecord()` at a CR which is not
   followed by LF returns `false` and skips the CR, although `ReadRecord()` would have failed (`C28_has_next_record` mentions this case).
14. **C24**: the transpose encoder accepts a non-proto record of 4 GiB or more, or a string whose length is within 5 bytes of 2^32, but the decoder reads lengths as
   32-bit varints / adds the length of the varint with an overflow check, so that such a chunk cannot be decoded. `C24_round_trip` is for chunks below 2^29.
   `TransposeDecoder::Parse` returns `false` without `Fail` when the field projection contains `kExistenceOnly` inside of a path (it is a programming error of the caller).
15. **C26, C27**: `SplitElement::Equal(a, b)` (linear_sorted_string_set.cc:579-610) uses `!=` instead of `==` in two comparisons when the prefix of `a` is shorter than that of
   `b`. Hence `==` of sets with the same elements can return `false` (and is not symmetric), although `Compare` returns `equal`: for a set decoded from an encoding
   which does not share prefixes (`C26_equal_fails`), or for chunked sets built with different chunk sizes, e.g. 1 and 2, from "apple", "apply"
   (`C27_equal_fails`). `true` is always right (`C26_equal`, `C27_equal`), and sets built in the same way compare right (`C26_equal_built`, `C27_equal_built`).
16. `LinearSortedStringSet::SplitElementIterator` has a default copy constructor, and `operator++(int)` copies, but `prefix_` may point into `prefix_if_stored_` of the
   original (linear_sorted_string_set.h:547-563): in the copy it dangles after the original is advanced or destroyed. Not formalized (no copies in the model).
17. `ChunkedSortedStringSet::Builder` with `chunk_size` 0: `current_builder_.last()` fails its assertion at the first insertion, and a size hint divides by zero.
   The precondition is not documented; the theorems assume a positive chunk size.
18. **C31**: `LimitingReaderBase::set_max_pos()` with a limit below the current position makes `limit_pos()` (hence `pos()`) equal to the limit although the cursor stays.
   The header does not forbid such a limit. After the limit is raised again, e.g. by the destructor of a `ScopedLimiter`, `pos()` stays wrong
   until the next operation on the source, and that operation computes the length allowed from the wrong position, so it reads past the limit: `C31_fails_below_position`.
19. **C31**: the constructor of `ScopedLimiter` calls `reader->set_exact(true)` even if `options.exact()` is `false` (limiting_reader.h:718-743), so reading a source shorter than a
   non-exact scoped limit to its end fails: `C31_scoped_limit_is_exact`.
20. `LimitingReaderBase::Done()` with `fail_if_longer()` ignores a failure of the source in `Pull()` (for a source which is not owned): `Close()` returns `true`
   (see the disjunct in `C31_close`).
21. **C30**: `Chain::Initialize(Block)`, used by `Reset(Block)` and `Reset(BytesRef)` for more than 16 bytes, stores the block pointer at `end_` without `ReserveBack()`, and does not
   set the block offset (chain_details.h:1025-1028). If the array of block pointers was filled by 16 external blocks which were then removed by `RemovePrefix()`, then `end_` is the end of
   the array, and the pointer is written past it (over the first block offset): `C30_reset_writes_past_array`. The offset of the only block does not matter.
22. **C30**: `chain.Append(chain)` and `chain.Prepend(chain)` iterate over `src.begin_`...`src.end_` after `PushBack`/`ReserveBack` on the same object may have freed or shifted that array
   (chain.cc:1311-1429, 844-878). The header does not forbid it. The theorems are for different objects; not formalized.
23. **C30**: `AppendRawBlock()` and `PrependRawBlock()` merging two empty blocks which cannot be appended in place ask for a block of capacity `size_hint - size`, which can be 0, and
   `NewInternal(0)` fails an assertion: `C30_empty_blocks_fail`. `AppendChain()` handles this case, `AppendRawBlock()` does not.
24. **C38**: `FdReaderBase::InitializePos()` recognizes a file which claims the size 0 but has data only if the initial position is 0 (fd_reader.cc:289-326). With another position
   `exact_size()` becomes 0, nothing is read, and the reader claims a clean end of data: `C38_fails_with_unknown_size`. Similarly with an initial position beyond the end of the file.
25. **C37**: a failed `Seek()` backward of a `BufferedReader` can move `pos()` forward, because `SeekSlow()` discards the buffer, which moves `pos()` to the physical position of the source, and
   then `SeekBehindBuffer()` fails: `C37_failed_seek_moves_forward`. `reader.h` does not say what the position is after a failure. Also, because of reading ahead, a function
   may return `true` and leave the reader failed; the contract of `Reader` here allows this.
26. **C39**: if `Fail()` is called by the user of a `BufferedWriter` which was moved back within its buffer, then `written_` remains positive although the buffer is empty (writer.cc:69,
   buffered_writer.cc:178-184), and `Seek()` of the failed writer returns `true` and sets `cursor()` past `limit()`, so `available()` underflows: `C39_seek_after_Fail`.
27. **C40**: `FdWriterBase::TruncateBehindBuffer()` does not check `SupportsTruncate()` (fd_writer.cc:669-690), unlike `SeekBehindBuffer()` and `SizeBehindBuffer()`; with `set_assumed_pos()` the file is
   truncated at a position unrelated to that of the writer: `C40_truncate_with_assumed_pos`.
28. **C41**: the move constructor of `ByteFill::Blocks` does not copy `non_last_block_size_` (byte_fill.h:547-555), so all blocks but the last one become empty: `C41_fails_after_moving`.
29. **C40**: if an `FdWriter` is positioned past the end of the file, `Truncate()` to a size between the end and the position extends the file and returns `true`, although `writer.h` says that it fails:
   `C40_truncate_extends`. The specification `WOp.Possible` allows this.
30. **C39**: if finding out whether random access is supported makes the writer fail (`FdWriterBase::SizeStatus()`), `BufferedWriter::SeekSlow()` continues with an empty buffer, and can call
   `SeekBehindBuffer()` with the position unchanged, which violates its assertion (fd_writer.cc:601-603). The contract here requires the position to be changed only for writers which did not fail.

31. **C45** (not modelled): `SerializedMessageWriter::NewLengthDelimited()` called while a submessage is open
    keeps a pointer to the current element of the vector `submessages_` of the parent. Its documentation allows several objects being
    active, but `OpenLengthDelimited()` of the parent may reallocate the vector, leaving the pointer dangling.
32. **C46**: `ReadMessage()` from a `Reader` which is not owned returns OK when the source fails at a boundary between fields, if there are no handlers for length-delimited
    fields or the source is a `LimitingReader` (`serialized_message_reader.h:781-784` checks only `src.available() > 0`, and only owned sources and the temporary
    `LimitingReader` are closed). The status of the source must be checked separately, which the documentation does not mention. The exact condition is in `C46_reader`.
33. **C46** (not modelled): `HandleLengthDelimitedFromCord()` of packed repeated fields (`field_handlers.h:985-988`, `1102-1105`) calls `Cord::ChunkRemaining()` without checking
    that the field is not empty, so for an empty field at the end of the `Cord` it dereferences an end iterator, which fails an assertion of hardened builds. The model takes
    `ChunkRemaining()` as empty there.
34. **C48** (not modelled): `RecyclingPool::Clear()` and `KeyedRecyclingPool::Clear()` read `cleaner_` and `cleaner_token_` without the mutex (recycling_pool.h:485, 689), while the first `RawPut()` in
    another thread assigns them under the mutex, `cleaner_` before `cleaner_token_` (lines 551-554). Both functions are documented as thread safe; `Clear()` may call `CancelCleaning()` with a
    default-constructed token. The model reads them atomically. Also, putting `nullptr` into a `KeyedRecyclingPool` violates an assertion later, which is not documented.
35. **C50**: the comment of `ThreadPool` says that worker threads exit after being idle for one minute; in the code it is one second (parallelism.h:29, parallelism.cc:60). Tasks which did not start when the
    destructor of a pool is called are never run (`C50_destructor_returns`); the only pool in the library is `ThreadPool::global()`, which is never destroyed.
36. **C52** (limiting_writer.h:386-397): `SetWriteSizeHintImpl()` does not check `ok()`. After the limit was exceeded, `SetWriteSizeHint()` of a `LimitingWriter` which owns its destination, without `set_exact(true)`,
    calls `SyncBuffer()` with a null cursor, which sets the cursor of the destination to null (an assertion in debug mode): `C52_hint_after_exceeding`. `AnnotateStatusImpl()` (limiting_writer.cc:105-120) has the same
    pattern without the check for `start() != nullptr` which `Mover` has.
37. **C52**: `SupportsRandomAccess()` and `SupportsTruncate()` are delegated without synchronizing the buffer (limiting_writer.cc:249-252, 282-285). If this makes the destination fail, e.g. `lseek()` back fails in `FdWriter`, then the
    `LimitingWriter` goes on writing to memory which is no longer the buffer of the destination. The theorems assume that this does not happen. Also: with contents longer than the limit, `Seek()` past the limit returns `false` at the limit rather
    than at the end; and `Truncate()` past the limit makes the position exceed the limit.
38. **C53**: `TextReader::ReadInternal()` (text_reader.cc:114-124) returns `false` without checking `src.ok()` when `src.Pull()` fails. A failure of a source which is not owned looks like the end of data: `ok()` remains true, and `Close()`
    succeeds. If the failure happened between CR and LF, CR is read as data. `C53_failure_of_the_source_is_not_noticed`. Also the error message in `SeekBehindBuffer()` speaks of "Zstd-compressed stream got truncated".
39. **C55**: (a) `DigestingWriter::SetWriteSizeHintImpl()` (digesting_writer.h:417-431) does not check `ok()`: `MakeBuffer()` gives a failed `DigestingWriter` the buffer of its destination again, after which `Write()` returns `true`:
    `C55_hint_after_failure`. (b) If the digester fails in `WriteSlow()` after the buffered data were digested, then `Fail()` calls `AnnotateStatusImpl()`, which calls `SyncBuffer()` again while the cursor of the destination is already past `start()`: an
    assertion failure in debug mode; otherwise the buffered data are passed to the failed digester again: `C55_assertion_when_digester_fails`.
40. **C56**: if the digester fails in `DigestingReaderBase::ReadSlow()` or `ReadSomeSlow()` (digesting_reader.cc:86-177), then (a) `FailFromDigester()` calls `AnnotateStatusImpl()`, which calls `SyncBuffer()` while the cursor of the source is already past
    `start()`: an assertion failure in debug mode; otherwise the old buffer, which the source may have freed, is passed to the failed digester; (b) `Read()` to a `Chain` or an `absl::Cord` does not append what was read from the source, while `pos()` moves past it, contrary to
    the contract of `Read()`, by which the length read is the difference of `pos()`: `C56_data_lost_when_digester_fails`.
41. **C59**: `CordWriterBase::SetWriteSizeHintImpl` (cord_writer.cc:148-155) compares the new hint with `size_hint_` instead of with `std::nullopt`: `SetWriteSizeHint(std::nullopt)` after a hint was set dereferences an empty optional (undefined behavior), and giving the hint a second time at position 0 clears it. Proved: `C59_clearing_the_hint_is_undefined`, `C59_same_hint_is_cleared`.
42. **C60**: the documented invariant of `CordReaderBase` (cord_reader.h:97-98) says that scratch is not used if `iter_ == std::nullopt`. It does not hold: `Pull(n)` with more than the size of a short flat Cord puts its data in scratch (an example beside `C60_cord_reader` shows it). All functions behave correctly also then. Moreover `continue` in the loop of `PullableReader::PullSlow` (pullable_reader.cc:154-157) would call `PullBehindScratch()` with data available; it is not reachable because scratch was taken away before the loop.
43. **C61**: `JoiningReaderBase::Done()` (joining_reader.cc:38-44) closes the open shard by `CloseShardInternal()` without `SyncBuffer()`, unlike `CloseShard()` (joining_reader.cc:111-120) and unlike wrapping readers such as `LimitingReader`. If the source of the shard is not owned by it and is to be left at the position of the reader (e.g. an `FdReader` of an unowned fd), closing a `JoiningReader` in the middle of a shard leaves it at the position where the buffer was obtained, rather than at `pos()`. `Sync()` does not propagate the position to the shard either. An example beside `C61_chains` shows it. Reading is not affected.
44. **C62**: `ArrayWriter::PushBehindScratch()` calls `ForcePushUsingScratch()`, and `ArrayWriter` does not override `WriteBehindScratch(ByteFill)`, whose default (pushable_writer.cc:243-265) calls `PushBehindScratch()` in a loop. Writing a `ByteFill` which exceeds the space left in the array by more than the size of scratch calls `ForcePushUsingScratch()` while scratch is used, contrary to its precondition: debug builds stop at an assertion; release builds save pointers to scratch memory which is about to be freed instead of pointers to the array. `Flush()` and `Close()` fail then anyway, because the data do not fit (`C62_flush_iff`, which covers this case); moving such a writer would set its cursor outside of the array. An example beside `C62_failed_writer_accepts_data` shows a history which gets there. `pushable_writer.h:102-108` warns only about `WriteSlow(absl::string_view)`.
45. **C62**: `ArrayWriter::PushBehindScratch()` (array_writer.cc:39-47) does not check `ok()`, and neither does `PushableWriter::PushSlow()`. So `Push()` and `Write(char)` of a failed or closed `ArrayWriter` return true, and give scratch memory, contrary to `writer.h:132-134` (`C62_failed_writer_accepts_data`). `Flush()` and `Close()` keep failing (`C62_failures_are_kept`). `ArrayBackwardWriter` has the same code.
46. **C63**: `SplittingWriter::PushBehindScratch()` (splitting_writer.cc:186-190), when no shard is open and `AllowEmptyShards()`, opens a shard without checking whether its size limit is 0, unlike the loop in the other branch (splitting_writer.cc:192-197) which closes such shards. If `OpenShardImpl()` returns a size limit 0 then `Push()` returns true although `available()` is 0 (an example beside C63 shows it), so `Write(char)` writes outside of the buffer. `splitting_writer.h` does not ask for positive size limits; C63 assumes them.
47. **C63**: `SplittingWriter::FlushBehindScratch()` (splitting_writer.cc:353-358) returns false if flushing the shard fails, without `MakeBuffer()` nor `Fail()`. The writer stays OK after a failed `Flush()` (`C63_failed_flush_leaves_writer_ok`), with null buffer pointers, although the shard is still open; the next call sets the cursor of the shard to null in `SyncBuffer()`. Later calls writing data fail anyway (`C63_failures_are_kept`).
48. **C64**: if the base position of a `PrefixLimitingWriter` is past the end of its destination (e.g. an `FdWriter` whose position was set past the end of the file, with the default base position), then `Seek()` or `Truncate()` past the end fails and leaves the destination at its end, before the base position. `MakeBuffer()` (prefix_limiting_writer.h:257-265) then fails its assertion; with assertions disabled, `pos()` underflows (`C64_base_past_the_end`). C64 assumes that the base position is within the contents.
49. **C65**: `PositionShiftingWriter::SetWriteSizeHintImpl()` (position_shifting_writer.h:326-337) does not check `ok()`, so that after a failure (e.g. seeking before the base position) it gives the failed writer the buffer of the destination again, and `Write()` returns `true` (`C65_hint_after_failure`). Both `PrefixLimitingWriter` and `PositionShiftingWriter` also add the base position to the hint, although the hint is relative to the current position (writer.h:103-105); this affects only performance.

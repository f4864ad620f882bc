#!/usr/bin/env python3
"""Source of /verif/properties.jsonl (one JSON object per line). Run to regenerate."""
import json, os
P = []
def p(id, title, statement, quantifier, why, anchors):
    P.append(dict(id=id, title=title, statement=statement, quantifier=quantifier,
                  why_tests_cant=why, anchors=anchors))

p("C01", "Records written are the records read",
  "If a sequence of byte records is written with RecordWriter::WriteRecord (any sizes, any chunk size, any padding options, any interleaved Flush calls) and the writer is closed, then RecordReader::ReadRecord on the resulting bytes returns exactly those records in that order, then reports end of source with ok(), and Close() succeeds.",
  "every finite sequence of records, every interleaving of Flush, every chunk-size and padding option, every starting position",
  "Chunk boundaries, 64 KiB block headers and padding interact with every possible length; tests sample a few lengths.",
  ["riegeli/records/record_writer.cc:RecordWriterBase::WriteRecordImpl", "riegeli/records/record_reader.cc:RecordReaderBase::ReadRecordImpl", "riegeli/records/chunk_writer.cc", "riegeli/records/chunk_reader.cc"])
p("C02", "Truncation at any byte loses only the incomplete tail",
  "If a valid file is cut at an arbitrary byte (crash while writing), reading it returns exactly the records of the chunks which are completely present, never an error before Close(); Close() fails with a truncation error exactly when the cut is in the middle of a chunk.",
  "every valid file and every truncation length",
  "Needs every cut point, including cuts inside block headers, chunk headers and padding.",
  ["riegeli/records/chunk_reader.cc:DefaultChunkReaderBase::ReadChunk", "riegeli/records/chunk_reader.cc:DefaultChunkReaderBase::Done", "riegeli/records/chunk_reader.cc:FailReading"])
p("C03", "Reading a growing file resumes exactly where it stopped",
  "If a reader reaches the end of a file that is still being appended to, repeated reads after the file grows deliver every chunk exactly once, in order, as soon as it is complete, whatever the growth steps are; partial reads of headers or data are never lost or duplicated.",
  "every schedule of file growth interleaved with every sequence of read calls",
  "The number of growth schedules is unbounded; partial-read state can stop at any byte of a block header or chunk header.",
  ["riegeli/records/chunk_reader.cc:PullChunkHeader", "riegeli/records/chunk_reader.cc:ReadChunkHeader", "riegeli/records/chunk_reader.cc:ReadBlockHeader", "riegeli/records/chunk_reader.cc:ReadChunk"])
p("C04", "No chunk is delivered whose hashes do not match",
  "For arbitrary file contents, whenever ReadChunk succeeds, the delivered header's stored hash equals the hash of the rest of the header, the stored data hash equals the hash of the delivered data, the data has the stored size, and the position advanced to the end of that chunk, which is after its beginning.",
  "every byte string used as a file and every reachable reader state",
  "Must hold for all corrupted inputs.",
  ["riegeli/records/chunk_reader.cc:ReadChunk", "riegeli/records/chunk_reader.cc:ReadChunkHeader"])
p("C05", "Damaged chunk data costs exactly that chunk",
  "If the data bytes of one chunk of a valid file are changed so that their hash no longer matches, reading with recovery delivers all the other chunks unchanged and reports exactly one skipped region which is exactly that chunk.",
  "every valid file, every chunk of it, every replacement of its data bytes that the hash detects",
  "All damage patterns and chunk positions cannot be enumerated.",
  ["riegeli/records/chunk_reader.cc:ReadChunk", "riegeli/records/chunk_reader.cc:Recover"])
p("C06", "A damaged chunk header costs at most the chunks up to the next usable block header",
  "If the header of one chunk of a valid file is changed so that its hash no longer matches, Recover() skips to the first chunk boundary given by the next block header after the damage, and everything from there on is read unchanged.",
  "every valid file, every chunk, every header damage the hash detects",
  "Position relative to block boundaries is unbounded; the recovery path depends on it.",
  ["riegeli/records/chunk_reader.cc:Recover", "doc/riegeli_records_file_format.md:Properties of the file format"])
p("C07", "Recovery always makes progress",
  "After a failure caused by invalid file contents, Recover() moves the reader strictly forward, so that reading an arbitrary file while skipping invalid regions terminates, and skipped regions are ordered and do not overlap.",
  "every file and every reader state from which Recover() is applicable",
  "Termination on all inputs cannot be tested. (The unchanged code violates it for crafted block headers.)",
  ["riegeli/records/chunk_reader.cc:Recover", "riegeli/records/record_reader.cc:ReadRecordImpl"])
p("C08", "Record positions are strictly increasing and distinct, also as integers",
  "In any file written by RecordWriter the positions of successive records are strictly increasing, both as RecordPosition and as the integer numeric(), and numeric positions of records never exceed the end of their chunk; two different records never share a numeric position.",
  "every written file and every pair of records in it",
  "Depends on padding of chunks with more records than bytes, for all sizes.",
  ["riegeli/records/record_position.h:RecordPosition::numeric", "riegeli/records/block.h:ChunkEnd"])
p("C09", "Seeking to the position of a record reads that record",
  "Seek(pos) with the RecordPosition (or its numeric value) of a record, from any reader state, succeeds and the next ReadRecord returns that record.",
  "every valid file, every record, every previous history of the reader",
  "Combines all reader histories with all files.",
  ["riegeli/records/record_reader.cc:RecordReaderBase::Seek", "riegeli/records/chunk_reader.cc:SeekToChunk"])
p("C10", "Seeking to an arbitrary integer position selects the next record",
  "Seek(Position) with any integer between 0 and the file size succeeds on a valid file, and the next ReadRecord returns the first record whose numeric position is at or after it (end of source if there is none).",
  "every valid file and every integer position within it",
  "All byte positions of all files.",
  ["riegeli/records/record_reader.cc:RecordReaderBase::Seek(Position)", "riegeli/records/chunk_reader.cc:SeekToChunkContaining"])
p("C11", "SeekBack steps back by exactly one record",
  "On a valid file, SeekBack() from a position before record i>0 positions before record i-1; at the first record it returns false with ok().",
  "every valid file, every record index, including runs of chunks without records",
  "Chunks without records can appear anywhere and in any number.",
  ["riegeli/records/record_reader.cc:RecordReaderBase::SeekBack"])
p("C12", "Chunk-level seeks land on the documented chunk boundary",
  "On a valid file, SeekToChunkBefore/After/Containing(pos) terminate, succeed and leave the reader at the nearest chunk boundary at-or-before / at-or-after / containing pos as documented, from any previous position.",
  "every valid file, every target position up to file size, every starting chunk boundary",
  "All files and positions; termination.",
  ["riegeli/records/chunk_reader.cc:SeekToChunk", "riegeli/records/chunk_reader.h:SeekToChunkContaining"])
p("C13", "BinarySearch satisfies its result contract",
  "For any test function that is monotone (less before equivalent before greater, unordered anywhere), BinarySearch terminates and returns the documented ordering and position; test is never called twice with the same argument, never below a less position, never above a greater position.",
  "every range and every monotone test function, with any set of unordered positions",
  "Space of test functions is exponential in the range.",
  ["riegeli/base/binary_search.h:BinarySearch"])
p("C14", "Padding reaches the requested alignment",
  "WritePadding(padding) on a file at a valid chunk boundary ends at a multiple of padding which is a possible chunk boundary, at or after the current position, writes nothing if already aligned, and always terminates; the padding chunk exactly fills the gap and readers ignore it.",
  "every position and every padding value",
  "Loop termination and exact fill for all (position, padding) pairs.",
  ["riegeli/records/chunk_writer.cc:PosAfterPadding", "riegeli/records/chunk_writer.cc:DefaultChunkWriterBase::WritePadding"])
p("C15", "Appending to an existing file preserves its records",
  "Opening a RecordWriter at the end of a valid file and writing more records yields a valid file whose records are the old ones followed by the new ones; files whose size is a multiple of 64 KiB can be concatenated physically.",
  "every valid file and every appended sequence of records",
  "All combinations of sizes modulo the block size.",
  ["riegeli/records/record_writer.cc:Worker::Initialize", "riegeli/records/chunk_writer.cc:DefaultChunkWriterBase::Initialize", "doc/riegeli_records_file_format.md"])
p("C16", "Positions reported by the writer are the positions seen by the reader",
  "RecordWriter::LastPos() after writing a record equals RecordReader::last_pos() after reading that record, for every write history including auto-flushed chunks and explicit flushes.",
  "every sequence of writes and flushes and every record",
  "History dependent.",
  ["riegeli/records/record_writer.cc:RecordWriterBase::LastPos", "riegeli/records/record_reader.h:last_pos"])
p("C17", "Parallel writing produces the same file as serial writing",
  "With parallelism > 0, for every schedule of the encoder threads and the writer thread, the bytes written equal those written with parallelism = 0, requests are executed in order, and each FutureRecordPosition resolves to the actual position.",
  "every number of threads and every interleaving",
  "Interleavings cannot be enumerated by tests.",
  ["riegeli/records/record_writer.cc:ParallelWorker", "riegeli/records/record_position.cc:FutureChunkBegin::Unresolved::Resolve"])
p("C18", "A successful Flush makes all earlier records durable against later crashes",
  "After Flush() returns true, every record written before it is contained in complete chunks of the destination, so that any later truncation at or after that point still yields those records.",
  "every history before and after the flush, every crash point after it",
  "Crash points and histories are unbounded.",
  ["riegeli/records/record_writer.cc:RecordWriterBase::Flush", "riegeli/records/record_writer.cc:SerialWorker::CloseChunk"])
p("C19", "Block and chunk position arithmetic is exact",
  "The end of a chunk computed from its header is the least possible chunk boundary that holds header, data, intervening block headers and num_records bytes; AddWithOverhead and DistanceWithoutOverhead are inverse; with 64-bit arithmetic the results are the mathematical ones whenever the true end is below 2^64.",
  "every position, every size, every number of records",
  "Modular arithmetic over 2^64 positions.",
  ["riegeli/records/block.h"])
p("C20", "Varint encoding is a canonical, self-delimiting bijection",
  "ReadVarint(WriteVarint(x) ++ rest) = x leaving rest for every 32/64-bit x; the length equals LengthVarint; the canonical reader accepts exactly the encodings produced by the writer; over-long or overflowing representations are rejected; zigzag encoding is a bijection.",
  "every 32-bit and 64-bit value and every byte string",
  "2^64 values and all byte strings.",
  ["riegeli/varint/varint_writing.h", "riegeli/varint/varint_reading.h", "riegeli/varint/varint_reading.cc"])
p("C21", "Ordered varints preserve order",
  "WriteOrderedVarint64 is strictly monotone with respect to lexicographic order of the bytes, its result is read back exactly, only canonical representations are accepted, and the length equals LengthOrderedVarint64.",
  "every pair of 64-bit values and every byte string",
  "2^128 pairs.",
  ["riegeli/ordered_varint/ordered_varint_writing.cc", "riegeli/ordered_varint/ordered_varint_reading.cc"])
p("C22", "RecordPosition serializations round-trip and preserve order",
  "FromString(ToString(p)) = p, FromBytes(ToBytes(p)) = p and ToBytes preserves the order of positions, for every position; malformed inputs are rejected without changing the target.",
  "every record position and every byte string",
  "2^128 positions. (The unchanged code violates the binary round trip for some huge positions: 16-byte results are taken for the old format.)",
  ["riegeli/records/record_position.cc:RecordPosition::ToBytes", "riegeli/records/record_position.cc:RecordPosition::FromBytes"])
p("C23", "Simple chunks decode to the encoded records",
  "For every list of records, decoding the chunk made by SimpleEncoder with the stored num_records and decoded_data_size returns the records; for arbitrary chunk data, a successful decode yields limits that are sorted, as many as num_records, ending at decoded_data_size, and consumes all the data.",
  "every list of records, every compressor satisfying its round-trip contract, every byte string as chunk data",
  "All record lists and all malformed inputs.",
  ["riegeli/chunk_encoding/simple_encoder.cc", "riegeli/chunk_encoding/simple_decoder.cc", "riegeli/chunk_encoding/chunk_decoder.cc"])
p("C24", "Transposed chunks decode to the encoded records",
  "For every list of records (valid serialized protos or arbitrary bytes) whose number and total size sum up to less than 2^29, TransposeDecoder applied to the output of TransposeEncoder with all fields included returns exactly the original bytes of each record; a file written with the transpose option is read back. On any bytes at all the decoder returns, and if it succeeds then the limits it returns are nondecreasing, as many as the records, and within the data; its state machine never leaves the array of states.",
  "every list of byte records, every bucket size, every compressor satisfying its round-trip contract, every iteration order of the hash maps; every byte string and field projection given to the decoder",
  "The encoder splits arbitrary nested messages into columns through a state machine; input space is unbounded.",
  ["riegeli/chunk_encoding/transpose_encoder.cc", "riegeli/chunk_encoding/transpose_decoder.cc"])
p("C25", "Field projection returns a subset of each record's fields",
  "Reading a transposed chunk with a field projection returns, for each record, the record with exactly the fields not covered by the projection removed (or with their values cleared if existence only).",
  "every list of proto records and every field projection",
  "All projections times all messages.",
  ["riegeli/chunk_encoding/transpose_decoder.cc", "riegeli/chunk_encoding/field_projection.h"])
p("C26", "LinearSortedStringSet behaves as a sorted set",
  "A LinearSortedStringSet built from strictly increasing strings iterates over exactly those strings, contains() is membership (and its index the number of smaller elements), size() their number, first() and last() the extreme ones; the encoded form decodes back to the same set; the decoder accepts exactly well-formed input (sorted, if it validates), and no operation on whatever it accepts fails an assertion; ordering is that of the sequences of elements; equal sets have equal elements, and sets built from equal elements are equal.",
  "every sequence of byte strings below 2^63 bytes, every encoded byte string, every decoding option",
  "Prefix compression and varint lengths depend on all strings.",
  ["riegeli/containers/linear_sorted_string_set.cc", "riegeli/containers/linear_sorted_string_set.h"])
p("C27", "ChunkedSortedStringSet refines LinearSortedStringSet",
  "For every chunk size, a ChunkedSortedStringSet behaves as the LinearSortedStringSet built from the same elements: iteration, contains() with its index, size(), first(), last(), results of TryInsertNext(), ordering; its encoding decodes back to the same set, and operations on whatever the decoder accepts fail no assertion; equal sets have equal elements, and sets built with the same chunk size from equal elements are equal.",
  "every strictly increasing sequence, every chunk size",
  "Unbounded combinations of chunk size and contents.",
  ["riegeli/containers/chunked_sorted_string_set.cc"])
p("C28", "CSV written is CSV read",
  "Any table of records with arbitrary byte fields written by CsvWriter is read back by CsvReader, with matching options, as the same table.",
  "every table of byte-string fields, every choice of separator and quote characters",
  "Quoting interacts with newlines, separators and quotes in all combinations.",
  ["riegeli/csv/csv_writer.cc", "riegeli/csv/csv_reader.cc"])
p("C29", "Line reading splits the input exactly at newlines",
  "ReadLine in each newline mode returns exactly the lines of the input: concatenating lines and terminators gives the input back, no line contains a recognized newline.",
  "every byte string, every newline mode, every buffer fragmentation",
  "A CR LF pair may be split at any buffer boundary.",
  ["riegeli/lines/line_reading.cc"])
p("C30", "Chains are independent byte strings although they share memory",
  "Any sequence of constructing, copying, moving, assigning, clearing, Append/Prepend (of bytes, chains, blocks), AppendBuffer/PrependBuffer, RemovePrefix/RemoveSuffix, Flatten and Reset calls on any number of Chain and Chain::Block objects has the same observable contents as the same operations on independent flat byte strings; size() is the number of bytes; no call accesses a deleted block or memory outside of a buffer or fails an internal assertion; the reference count of each block is the number of references to it, and all blocks are deleted when the last objects are destroyed. Exceptions in the code: Reset of an emptied chain whose array of block pointers has no space at its end, adding an empty block to a chain with an empty block with size_hint equal to the size, and adding a chain to itself.",
  "every sequence of operations and arguments on any number of objects, every memory allocator",
  "Unbounded operation histories, block layouts and sharing.",
  ["riegeli/base/chain.cc", "riegeli/base/chain_base.h", "riegeli/base/chain_details.h"])
p("C31", "LimitingReader never reads past its limit",
  "Reading through a LimitingReader returns exactly the bytes of the underlying reader up to the limit, in any sequence of reads and seeks, and never moves the underlying reader past the limit.",
  "every sequence of reads/seeks/limit changes and every source",
  "Histories are unbounded.",
  ["riegeli/bytes/limiting_reader.cc", "riegeli/bytes/limiting_reader.h"])
p("C32", "Decoding cannot be confused by file signature, metadata or padding chunks",
  "Chunks with no records (file signature, metadata, padding, unknown type with zero records) never produce records, unknown chunk types with records are reported as errors, and the first chunk of a file must be a file signature or reading fails.",
  "every chunk header and chunk data",
  "All header values.",
  ["riegeli/chunk_encoding/chunk_decoder.cc:ChunkDecoder::Parse", "riegeli/records/chunk_reader.cc:ReadChunkHeader"])

p("C33", "RecordReader::Search finds the documented record",
  "On a valid file whose records are ordered with respect to test(), Search() from any reader state ends, calls test() only on records of the file, returns equivalent/greater/less/unordered exactly as documented, and leaves the reader at the record the documentation promises (first equivalent seen, earliest greater, end after the last less, ...). A test() that cancels makes Search() return nullopt.",
  "every valid file, every reader history before the search, every three-way comparison consistent with the record order, including partial orders (unordered records)",
  "The search interleaves a binary search over chunks with a search within one chunk; the result must hold for every chunk layout and every comparison.",
  ["riegeli/records/record_reader.cc:RecordReaderBase::Search", "riegeli/records/record_reader.h:Search", "riegeli/base/binary_search.h"])
p("C34", "Close() of a parallel RecordWriter always returns",
  "With parallelism > 0, for every sequence of calls and every schedule of the threads, no set of threads blocks one another and no schedule is infinite, so Close() returns, whether or not encoding or writing failed.",
  "every client program, every interleaving, every point of failure of the destination or of an encoder",
  "A deadlock shows only under particular failures and interleavings.",
  ["riegeli/records/record_writer.cc:ParallelWorker", "riegeli/records/record_writer.cc:ParallelWorker::AnnotateStatus"])
p("C35", "Default Reader functions are correct for every PullSlow",
  "A class derived from Reader which implements only PullSlow() (correctly, with any buffer sizes, failing at any point) gets Read, Copy, ReadSome, CopySome, Seek forward, Skip: each reads exactly the data at the current position, as many bytes as requested unless the source ends or fails, and reports success accordingly.",
  "every implementation of PullSlow(), every division into buffers, every point of failure, every operation and argument",
  "The results must not depend on how the data happen to be buffered; the number of ways to buffer them is exponential.",
  ["riegeli/bytes/reader.cc:Reader::ReadSlow", "riegeli/bytes/reader.cc:Reader::CopySlow", "riegeli/bytes/reader.cc:Reader::SeekSlow", "riegeli/bytes/reader.h:Reader"])
p("C36", "Comparing, hashing and indexing a Chain depends only on its bytes",
  "Compare() and == of two Chains, or of a Chain and a string, give the lexicographic comparison of their bytes as unsigned numbers; chains with equal bytes have equal hashes for any hash function, however they are divided into blocks; Flatten() returns the bytes; BlockAndCharIndex(n) finds the block and the position of byte n, and CharIndexInChain() of a block iterator is the number of bytes before it.",
  "every program with Chains sharing blocks (every history), every division into blocks, every index, every hash function",
  "The loops depend on how the bytes of both operands are divided into blocks.",
  ["riegeli/base/chain.cc:Chain::Compare", "riegeli/base/chain_details.h:Chain::HashValue", "riegeli/base/chain.cc:Chain::BlockAndCharIndex", "riegeli/base/chain.cc:Chain::BlockIterator::CharIndexInChain"])
p("C37", "BufferedReader reads exactly the data of its source",
  "A class derived from BufferedReader whose ReadInternal() (and other virtual functions it overrides) meets its contract gets Pull, Read, Copy, ReadSome, CopySome, Seek, Skip, Size, ReadHint which read exactly the data of the source at the current position, as many bytes as requested unless the source ends or fails, whatever the buffer sizes, the exact size and the hint to read all data. Sync() and Close() leave a source with random access at the position of the reader.",
  "every derived class meeting its contract, every buffer size and option, every sequence of calls, every division of the data by ReadInternal(), every point of failure",
  "The paths through buffering, direct reading and buffer sharing depend on the history of positions; the number of combinations is unbounded.",
  ["riegeli/bytes/buffered_reader.cc:BufferedReader", "riegeli/bytes/buffer_options.cc:ReadBufferSizer::BufferLength"])
p("C38", "FdReader reads the file and leaves the descriptor where it stopped",
  "FdReader starts at the position of the descriptor (or the assumed or independent position), reads exactly the bytes of the file, claims the end of data only at the end of the file, and after a successful Close() or Sync() of a regular file the descriptor is at the position of the reader, so a following reader continues there; with an independent position the descriptor is never moved; without lseek() nothing is taken from the descriptor but the bytes read or buffered.",
  "every file, every initial position, every way the system divides reads, every call failing, every sequence of calls",
  "Short reads and failures are chosen by the operating system.",
  ["riegeli/bytes/fd_reader.cc:FdReaderBase::InitializePos", "riegeli/bytes/fd_reader.cc:FdReaderBase::ReadInternal", "riegeli/bytes/fd_reader.cc:FdReaderBase::SeekBehindBuffer", "riegeli/bytes/fd_reader.cc:FdReaderBase::CopyInternal"])
p("C39", "BufferedWriter writes exactly the data which were written to it",
  "A class derived from BufferedWriter whose virtual functions meet their contract behaves as a sequence of bytes with a position: in every sequence of Push, Write (char, string, Chain, Cord, ByteFill, external data), Flush, Seek, Size, Truncate, ReadMode, SetWriteSizeHint calls, results, positions and sizes are those of this sequence, and after a successful Flush() or Close() the destination has exactly these bytes, whatever the buffer sizes. A failed writer stays failed and does not change the destination. Whenever a crash or failure happens, each byte of the destination was there in the beginning or was written at this position, and for a writer which only appends, the destination has the initial contents followed by a part of the data from their beginning.",
  "every derived class meeting its contract, every sequence of calls, every buffer size and option, every point of failure or crash",
  "Which calls go through the buffer, around it, or flush it depends on the whole history of positions.",
  ["riegeli/bytes/buffered_writer.cc:BufferedWriter", "riegeli/bytes/writer.cc:Writer", "riegeli/bytes/buffer_options.cc:WriteBufferSizer::BufferLength"])
p("C40", "FdWriter writes the file, and Flush(kFromMachine) makes it durable",
  "FdWriter starts at the position of the descriptor (at the end of the file with O_APPEND, or at the assumed or independent position); in every sequence of calls it behaves as the contents of the file with a position; after a successful Close() the file has exactly these contents, and the descriptor is at the position of the writer; after a successful Flush(kFromMachine) these contents were in the file when fsync() succeeded; when appending, or writing to a pipe, a failure at any point leaves a part of the data from their beginning, and success means that each byte was written once; with an independent position the descriptor is never moved; FdReader reads what FdWriter wrote.",
  "every file, every initial position and option, every way the system divides writes, every call failing, every sequence of calls",
  "Short writes and failures are chosen by the operating system.",
  ["riegeli/bytes/fd_writer.cc:FdWriterBase::InitializePos", "riegeli/bytes/fd_writer.cc:FdWriterBase::WriteInternal", "riegeli/bytes/fd_writer.cc:FdWriterBase::WriteSlow", "riegeli/bytes/fd_writer.cc:FdWriterBase::SeekBehindBuffer", "riegeli/bytes/fd_writer.cc:FdWriterBase::TruncateBehindBuffer", "riegeli/bytes/fd_writer.cc:FdWriterBase::FlushImpl"])
p("C41", "The blocks of a ByteFill have exactly its bytes",
  "Iterating over ByteFill::blocks() gives non-empty blocks which together have size() bytes, all equal to the byte, and each block is within the memory shared by the blocks.",
  "every size and every byte",
  "The sizes of blocks are computed with bit operations and 32-bit truncation.",
  ["riegeli/base/byte_fill.cc:ByteFill::Blocks::Blocks", "riegeli/base/byte_fill.h:ByteFill::Blocks"])

p("C42", "Records written through FdWriter survive crashes",
  "If a process which writes records to an empty file through a RecordWriter over an FdWriter crashes, or writing fails, at any point, then the file can be read by a RecordReader without a failure, and it has the first ones of the records written. If Flush(FlushType::kFromMachine) succeeded, then even after a crash of the machine, at any later point, it has at least all the records written before the Flush. If Close() succeeded, it has exactly the records written.",
  "every history of a RecordWriter, every way of dividing its bytes into calls of Writer functions, every behaviour of the operating system (short writes, failures at any call), every crash point",
  "The crash point is between any two system calls, which depend on buffering in two layers; tests do not crash machines.",
  ["riegeli/records/record_writer.cc:RecordWriterBase::FlushImpl", "riegeli/bytes/fd_writer.cc:FdWriterBase::FlushImpl", "riegeli/bytes/fd_writer.cc:FdWriterBase::WriteInternal", "riegeli/bytes/buffered_writer.cc:BufferedWriter::FlushImpl"])

p("C43", "Dec() and Hex() write the numeral of the integer",
  "For every integer of 8, 16, 32, 64 or 128 bits, signed or unsigned, and every width, writing Dec(n, width), Hex(n, width), HexUpperCase(n, width) to a Writer, formatting it, and writing n to a BackwardWriter give the numeral of n in base 10 or 16: an optional minus sign, zeros up to the width, and the digits without leading zeros, with the same result with and without SSSE3. StringifiedSize() is the length of it, and the space which is asked from the Writer before writing is enough.",
  "every type of integers, every value of it, every width",
  "There are 2^128 values; branches depend on thresholds at powers of 10 and 16, and a wrong space overflows a buffer.",
  ["riegeli/bytes/write_int_internal.cc:WriteDecImpl", "riegeli/bytes/write_int_internal.cc:WriteDecBackward", "riegeli/bytes/write_int_internal.cc:StringifiedSize", "riegeli/text/write_int.cc:WriteHexImpl", "riegeli/text/write_int.h:DecType", "riegeli/text/write_int.h:HexType"])

p("C44", "Varints are read exactly, however the source is divided",
  "ReadVarint32/64(), CopyVarint32/64() and SkipVarint32/64() from a Reader or from a part of a Cord: if the source begins with a valid varint (at most 5 or 10 bytes, a value which fits, and the shortest one if canonical), then it is obtained and exactly its bytes are consumed; otherwise the result is a failure, and a Reader does not move. CountVarints() is the number of varints; VerifyBools() tells whether all bytes are 0 or 1.",
  "every contents of the source, every division of it into buffers or chunks, every amount already buffered, every point of failure of the source",
  "There are a fast path over the buffer and a slow path which pulls one more byte at a time; the results must agree for each division and each truncation.",
  ["riegeli/varint/varint_reading.h:ReadVarint32", "riegeli/varint/varint_reading.h:ReadVarint64", "riegeli/varint/varint_reading.h:SkipVarint64", "riegeli/varint/varint_reading.cc:CopyVarintFromReaderBuffer", "riegeli/varint/varint_reading.h:CountVarints", "riegeli/varint/varint_reading.cc:VerifyBools"])

p("C45", "Message writers write the wire format",
  "If all calls of SerializedMessageWriter (scalars of all types, strings, submessages and packed fields opened and closed or with a pledged length, groups, packed elements) succeed, then exactly the protobuf serialization of these fields is written to the Writer, and no length-delimited field has 2 GiB or more; if a call fails, then some length-delimited field is too long or the Writer failed. SerializedMessageBackwardWriter prepends the same serialization when calls are made in the opposite order. LengthOf...() are the lengths of what is written. Writing to an FdWriter and closing it leaves this serialization in the file.",
  "every message: every tree of fields, every value, every nesting; every Writer and BackwardWriter meeting its contract, every division of Cords, every behaviour of the operating system",
  "Messages are arbitrarily nested trees, and the space asked from the Writer depends on what the compiler knows to be constant.",
  ["riegeli/messages/serialized_message_writer.h:SerializedMessageWriter::WriteUInt64", "riegeli/messages/serialized_message_writer.h:SerializedMessageWriter::WriteLengthUnchecked", "riegeli/messages/serialized_message_writer.cc:SerializedMessageWriter::CloseLengthDelimited", "riegeli/messages/serialized_message_writer.h:SerializedMessageWriter::LengthOfLengthDelimited", "riegeli/messages/serialized_message_backward_writer.h:SerializedMessageBackwardWriter::WriteUInt32", "riegeli/messages/serialized_message_backward_writer.cc:SerializedMessageBackwardWriter::CloseLengthDelimited"])

p("C46", "SerializedMessageReader handles each field of the message in sequence",
  "SerializedMessageReader::ReadMessage() from a string, Cord, CordIteratorSpan or Reader: for any bytes, the fields before the first malformed one are passed in sequence to the first field handler which accepts them (decoded values of scalar fields, elements of packed repeated fields, strings, nested messages, group boundaries), until an action fails; other fields are skipped. The result is OK if and only if no action failed and the whole message was well formed; a Reader must also not fail. Reading terminates, does not read outside the data, and consumes exactly the message. For a message written by SerializedMessageWriter, the handlers get exactly the values which were written.",
  "every sequence of bytes, every division of it into chunks or buffers, every point of failure of the source, every list of field handlers with nested messages",
  "Malformed input is unlimited: truncation at each byte, overlong varints, wrong wire types, lengths beyond the enclosing message; each of three implementations must agree on it, however data are divided.",
  ["riegeli/messages/serialized_message_reader.h:SerializedMessageReaderType::ReadMessage", "riegeli/messages/serialized_message_reader.h:SerializedMessageReaderType::ReadMessageFromReader", "riegeli/messages/serialized_message_reader.h:SerializedMessageReaderType::ReadMessageFromCord", "riegeli/messages/serialized_message_reader.h:SerializedMessageReaderType::ReadMessageFromString", "riegeli/messages/field_handlers.h:OnRepeatedVarintType", "riegeli/messages/field_handlers.h:OnRepeatedFixedType", "riegeli/messages/field_handlers.h:OnLengthDelimitedType", "riegeli/messages/field_handlers.h:DecodeVarint"])

p("C47", "SharedPtr behaves like a value under any interleaving",
  "However the operations of any number of threads on SharedPtr variables interleave (construction, copy, move, Reset(), Reset(value) which reuses the object when IsUnique()), a variable which is not being assigned points to the value last put into it: modifications in place through another variable are never visible; no operation touches a deleted object; an object is deleted exactly once, exactly when the last variable drops it; IsUnique() returns true only if no other variable and no operation in progress refers to the object.",
  "every number of threads, variables and objects, every sequence of operations, every interleaving of their atomic accesses",
  "The last Unref() skips the decrement when a load has seen 1, and a race between two releases is decided by fetch_sub(); the interleavings are unlimited.",
  ["riegeli/base/ref_count.h:RefCount::Ref", "riegeli/base/ref_count.h:RefCount::Unref", "riegeli/base/ref_count.h:RefCount::HasUniqueOwner", "riegeli/base/shared_ptr.h:SharedPtr::ResetImpl", "riegeli/base/shared_ptr.h:SharedPtr::IsUnique"])

p("C48", "A recycling pool never loses, duplicates or leaks an object",
  "A RecyclingPool or KeyedRecyclingPool behaves as the list of its idle objects ordered by age: Get() returns the one put last (with the given key) or creates a new one, putting evicts the oldest one when the limit is exceeded, Clear() destroys all, background cleaning destroys exactly those which are too old. However threads using any number of pools interleave with each other and with the background thread, each object ever created is in exactly one place (held by one user, idle in one pool, being destroyed, or destroyed once), no pool exceeds its limit, and no assertion fails.",
  "every limit, age and key type, every sequence of operations, every number of threads and pools, every interleaving of the sections under mutexes",
  "The ring buffer wraps around, the keyed pool keeps a half-erased cached entry across calls, and objects travel outside of the mutexes between sections of several threads.",
  ["riegeli/base/recycling_pool.h:RecyclingPool", "riegeli/base/recycling_pool.h:KeyedRecyclingPool", "riegeli/base/background_cleaning.cc:BackgroundCleaner"])
p("C49", "Background cleaning is never forgotten and never touches a destroyed pool",
  "Whatever order pools are registered, scheduled, cancelled, cleaned and destroyed in: Clean() is called only on a live pool; if no operation is in progress and some pool holds an object which is too old, the background thread exists and can make a step, and after finitely many of its steps no pool holds an object which is too old; Clear() and the destructor wait only while the pool is being cleaned, and never forever.",
  "every number of pools, every schedule of operations, cancellations and steps of the background thread, every passage of time",
  "A lost wakeup appears only when a deadline is reduced, or the thread exits, exactly between two particular sections of other threads.",
  ["riegeli/base/background_cleaning.cc:BackgroundCleaner::ScheduleCleaningSlow", "riegeli/base/background_cleaning.cc:BackgroundCleaner::BackgroundThread", "riegeli/base/background_cleaning.cc:BackgroundCleaner::CancelCleaning", "riegeli/base/background_cleaning.cc:BackgroundCleaner::Unregister", "riegeli/base/recycling_pool.h:RecyclingPool::Clean"])
p("C50", "The thread pool starts every task once, in order, without waiting for other tasks",
  "Tasks passed to ThreadPool::Schedule() start in the order of the calls, each at most once, and none is lost. A scheduled task never has to wait until another task returns: if only the threads of the pool go on, then after finitely many steps every scheduled task is running. The destructor of a pool starts no more tasks, returns once the running ones did, and afterwards no thread touches the pool.",
  "every schedule of calls, critical sections of worker threads, thread creations, timeouts and returns of tasks",
  "A task is stranded only if another one is scheduled between particular sections of worker threads which are going idle, timing out or being created; tests do not control that.",
  ["riegeli/base/parallelism.cc:ThreadPool::Schedule", "riegeli/base/parallelism.cc:ThreadPool::~ThreadPool", "riegeli/base/parallelism.h:ThreadPool"])
p("C51", "The first failure of a reader or writer wins and stays; moved-from objects are closed",
  "ok(), is_open(), not_failed(), status() and the result of Close() of any object depend only on the history of calls: after the first Fail() the status stays (annotated at that time) through further failures and Close(), until the state is reset or moved; a move takes the state along and leaves the source closed; Close() returns true exactly if there was no failure before or while closing, and repeating it changes nothing. The memory for the status is freed exactly once, when nothing refers to it.",
  "every history of creating, moving, resetting, failing, closing, observing and destroying any number of objects",
  "The state is one word with three representations; every sequence of transitions, including moves of an object onto itself, must keep it owned exactly once.",
  ["riegeli/base/object.h:Object", "riegeli/base/object.h:ObjectState", "riegeli/base/object.cc:Object::Fail", "riegeli/base/object.cc:Object::Close", "riegeli/base/object.cc:ObjectState::MarkNotFailed"])

p("C52", "A LimitingWriter writes exactly the data up to the limit, and never anything past it",
  "As long as a LimitingWriter has not failed, all its results and its position are those of a writer of a byte sequence; a successful Flush() or Close() leaves the destination with exactly these contents, within the limit, and exactly at the limit if set_exact(true) was used. Whatever happens, the destination never stores anything past the limit. If the writer failed although the destination did not, then some call exceeded the limit, and the destination has exactly everything up to the limit; then nothing changes it any more. set_max_pos() may change the limit in the middle.",
  "every sequence of calls of writing functions, Flush(), Seek(), Size(), Truncate(), ReadMode(), SupportsRandomAccess(), SetWriteSizeHint() and Close(), every limit, every destination meeting the contract of Writer, including destinations which fail at any point",
  "The buffer is shared with the destination and may extend past the limit, so exceeding it is discovered only later, at any of ten synchronization points; tests exercise a few of them with one kind of destination.",
  ["riegeli/bytes/limiting_writer.h:LimitingWriterBase", "riegeli/bytes/limiting_writer.h:LimitingWriterBase::SyncBuffer", "riegeli/bytes/limiting_writer.cc:LimitingWriterBase::WriteInternal", "riegeli/bytes/limiting_writer.cc:LimitingWriterBase::SeekSlow", "riegeli/bytes/limiting_writer.cc:LimitingWriterBase::TruncateImpl"])

p("C53", "TextReader reads the text of its source with each CR LF replaced with LF",
  "At any point of any history of a TextReader, every reading function, Seek() forwards and backwards, Sync() etc. does what it should for a reader of the data of the source with each CR LF replaced with LF and nothing else changed, no matter where the buffers of the source end, in particular between CR and LF; a CR at the end of the data remains.",
  "every content of the source, every division of it into buffers, every sequence of calls, all buffer sizes, every source meeting the contract of Reader",
  "CR LF may be split at any buffer boundary of the source, any boundary of the destination, by end of data, and across seeking; tests use a few texts and buffer sizes.",
  ["riegeli/lines/text_reader.cc:TextReaderBase::ReadInternal", "riegeli/lines/text_reader.cc:TextReaderBase::SeekBehindBuffer", "riegeli/lines/text_reader.h:TextReader"])

p("C54", "TextWriter writes each LF as CR LF, and reading with TextReader gives the text back",
  "A successful Close() or Flush() of a TextWriter means that the destination received exactly what was written with each LF replaced with CR LF; whatever fails, the destination has the old contents and a prefix of that. Reading the result with TextReader gives exactly what was written, whatever bytes these were.",
  "every sequence of calls of writing functions and Flush() with any data, all buffer sizes, every destination meeting the contract of Writer, including destinations which fail at any point",
  "The conversion is done buffer by buffer, with direct writes bypassing the buffer; lone CRs and existing CR LFs must survive the round trip for all texts.",
  ["riegeli/lines/text_writer.cc:TextWriterBase::WriteInternal", "riegeli/lines/text_writer.cc:TextWriterBase::FlushBehindBuffer", "riegeli/lines/text_reader.cc:TextReaderBase::ReadInternal"])

p("C55", "DigestingWriter digests exactly what is written",
  "At any point Digest() of a DigestingWriter which did not fail gives the digest of exactly the bytes written so far, in order, however they were split into calls and whether they went through the buffer. A successful Flush() or Close() means that the destination received exactly these bytes and that exactly these bytes were digested. Whatever fails, what was digested is a prefix of what was written: nothing is digested twice, or skipped.",
  "every sequence of calls of Writer functions and Digest() with any data, every destination meeting the contract of Writer, every digester, including destinations and digesters which fail at any point",
  "The digester sees the buffer of the destination in pieces, at moments determined by the buffer sizes of the destination and by the calls; a byte digested twice or skipped shows up only for particular interleavings of buffered and direct writes.",
  ["riegeli/digests/digesting_writer.h:DigestingWriter", "riegeli/digests/digesting_writer.h:DigestingWriterBase::SyncBuffer", "riegeli/digests/digesting_writer.cc:DigestingWriterBase::WriteSlow", "riegeli/digests/digesting_writer.cc:DigestingWriterBase::WriteInternal"])

p("C56", "DigestingReader digests exactly what is read",
  "At any point Digest() of a DigestingReader gives the digest of exactly the data of its source from the initial position to pos(), unless the digester failed; this includes data skipped by Seek() or Skip(). It reads the same data as its source. A successful Close() means that exactly the data up to pos() were digested and that the source is left at pos(); a successful VerifyEndAndClose() or DigestFromReader() means that the source ended and all its data were digested. Whatever fails, what was digested is a prefix of the data from the initial position.",
  "every sequence of calls of Reader functions, Digest(), VerifyEnd() and Fail(), every source meeting the contract of Reader, every digester, including sources and digesters which fail at any point",
  "The digester sees the buffer of the source in pieces, at moments determined by how the source fills its buffer and by the calls; a byte digested twice or skipped shows up only for particular interleavings of buffered and direct reads, seeking, and failures.",
  ["riegeli/digests/digesting_reader.h:DigestingReader", "riegeli/digests/digesting_reader.h:DigestFromReader", "riegeli/digests/digesting_reader.h:DigestingReaderBase::SyncBuffer", "riegeli/digests/digesting_reader.cc:DigestingReaderBase::ReadSlow", "riegeli/digests/digesting_reader.cc:DigestingReaderBase::PullSlow"])

p("C57", "StringWriter leaves exactly the data written in the string",
  "After any sequence of calls of a StringWriter, a successful Flush() or Close() leaves in the string exactly the contents which the calls describe: initial contents if appending, each Write() overwriting at the current position, Seek() and Truncate() included; no unused space is left in the string, and nothing is lost when writing switches between the string and the secondary buffer. pos(), Size() and the reader of ReadMode() agree with these contents. The buffer given to the caller always lies in memory owned by the writer, and the writer fails only when a position does not fit in 64 bits.",
  "every sequence of calls of Writer functions with any data, every initial string, with or without appending, every way in which the capacity of strings and blocks of a Chain are chosen, every contents of unused memory",
  "Which data are in the string and which in the secondary buffer depends on capacities chosen by the standard library, on block sizes and on the history of seeking back, truncating and size hints; the combinations which matter are too many for tests, and unused memory often has the expected zeros.",
  ["riegeli/bytes/string_writer.h:StringWriter", "riegeli/bytes/string_writer.cc:StringWriterBase::PushSlow", "riegeli/bytes/string_writer.cc:StringWriterBase::WriteSlow", "riegeli/bytes/string_writer.cc:StringWriterBase::SeekSlow", "riegeli/bytes/string_writer.cc:StringWriterBase::TruncateImpl", "riegeli/bytes/string_writer.cc:StringWriterBase::SyncSecondaryBuffer"])

p("C58", "ChainWriter leaves exactly the data written in the chain",
  "After any sequence of calls of a ChainWriter, a successful Flush() or Close() leaves in the Chain exactly the contents which the calls describe: initial contents if appending, each Write() overwriting at the current position, Seek() and Truncate() included; unused space is not left in the Chain, and data after the current position are neither lost nor duplicated, whether they were separated in the tail, being overwritten in the buffer, or appended back. pos(), Size() and the reader of ReadMode() agree with these contents. The buffer given to the caller always lies at the end of the Chain, and the writer fails only when a position does not fit in 64 bits.",
  "every sequence of calls of Writer functions with any data, every initial Chain, with or without appending, every way in which blocks of a Chain are chosen, every contents of unused memory",
  "Where the data after the current position are depends on the whole history of seeking, flushing, truncating and writing, and on how much of the tail is covered by the buffer, which depends on block sizes; tests cover few of these combinations.",
  ["riegeli/bytes/chain_writer.h:ChainWriter", "riegeli/bytes/chain_writer.cc:ChainWriterBase::SyncBuffer", "riegeli/bytes/chain_writer.cc:ChainWriterBase::PushSlow", "riegeli/bytes/chain_writer.cc:ChainWriterBase::WriteSlow", "riegeli/bytes/chain_writer.cc:ChainWriterBase::SeekSlow", "riegeli/bytes/chain_writer.cc:ChainWriterBase::TruncateImpl"])

p("C59", "CordWriter leaves exactly the data written in the cord",
  "After any sequence of calls of a CordWriter, a successful Flush() or Close() leaves in the Cord exactly the contents which the calls describe: initial contents if appending, each Write() overwriting at the current position, Seek() and Truncate() included, whether the data are in the inline buffer, in a CordBuffer taken from the end of the Cord, in the Cord, or in the tail after the current position. pos(), Size() and the reader of ReadMode() agree with these contents. The writer fails only when a position would not fit, and reaches undefined behavior only in SetWriteSizeHint(nullopt), where it does so whenever a hint is set.",
  "every sequence of calls of Writer functions with any data, every initial Cord of a representable size, with or without appending, every choice of buffers and capacities, every contents of unused memory",
  "Where the data are depends on the whole history of seeking, flushing, truncating and writing, and on sizes of buffers chosen by the Cord implementation; tests cover few of these combinations.",
  ["riegeli/bytes/cord_writer.h:CordWriter", "riegeli/bytes/cord_writer.cc:CordWriterBase::SyncBuffer", "riegeli/bytes/cord_writer.cc:CordWriterBase::PushSlow", "riegeli/bytes/cord_writer.cc:CordWriterBase::WriteSlow", "riegeli/bytes/cord_writer.cc:CordWriterBase::SeekSlow", "riegeli/bytes/cord_writer.cc:CordWriterBase::SetWriteSizeHintImpl", "riegeli/bytes/cord_writer.cc:CordWriterBase::TruncateImpl"])

p("C60", "ChainReader and CordReader return exactly the contents, whatever the fragmentation",
  "After any sequence of calls of a ChainReader or CordReader, each function returns exactly what the contents of the Chain or Cord and pos() determine: Pull(n) succeeds exactly when n more bytes exist and shows them contiguously, however they are divided to blocks, Read() and both kinds of Copy() deliver the next n bytes and succeed exactly when they exist, Seek() and Skip() succeed exactly up to the size, Size() is the length. The reader never fails. Temporary copies of data made by Pull() across blocks are not visible: reading, seeking back, hinting, and Sync() or Close() continue from pos(). The last also holds for any other class derived from PullableReader.",
  "every sequence of calls of Reader functions with any arguments, every list of blocks or division into chunks, every size of scratch buffers, every class behind scratch which meets the contract",
  "Data can be partly in scratch and partly in the buffer of the source, depending on the history of pulling, reading and seeking relatively to block boundaries; tests cover few fragmentations and few sequences of calls.",
  ["riegeli/bytes/pullable_reader.h:PullableReader", "riegeli/bytes/pullable_reader.cc:PullableReader::PullSlow", "riegeli/bytes/pullable_reader.cc:PullableReader::ScratchEnds", "riegeli/bytes/pullable_reader.cc:PullableReader::ReadSlow", "riegeli/bytes/pullable_reader.cc:PullableReader::SeekSlow", "riegeli/bytes/chain_reader.cc:ChainReaderBase::PullBehindScratch", "riegeli/bytes/chain_reader.cc:ChainReaderBase::CopyBehindScratch", "riegeli/bytes/chain_reader.cc:ChainReaderBase::SeekBehindScratch", "riegeli/bytes/cord_reader.cc:CordReaderBase::PullBehindScratch", "riegeli/bytes/cord_reader.cc:CordReaderBase::ReadBehindScratch", "riegeli/bytes/cord_reader.cc:CordReaderBase::SeekBehindScratch"])

p("C61", "A JoiningReader reads exactly the concatenation of its shards",
  "After any sequence of calls of a JoiningReader, each function does what a reader of the concatenation of the data of the shards should do: bytes are never lost, repeated or reordered at boundaries of shards, whether the shards are empty, buffered, or read in parts, whether data pass through Pull() across shards, Read(), ReadSome(), Copy(), CopySome() or Skip(), and also when the destination fails in the middle of a shard. It ends cleanly exactly when the last shard ended, was closed, and there is no next shard. If no shard fails, reading and seeking forwards never fail, and results are exactly those determined by the concatenation and pos().",
  "every list of shards of any class meeting the contract, every result of closing a shard or of opening past the last one, every sequence of Reader calls with any arguments, every destination capacity",
  "What happens at a boundary depends on where the buffer, scratch, the request, and the destination end relatively to it; tests join a few shards of fixed sizes.",
  ["riegeli/bytes/joining_reader.h:JoiningReaderBase::SyncBuffer", "riegeli/bytes/joining_reader.h:JoiningReaderBase::MakeBuffer", "riegeli/bytes/joining_reader.cc:JoiningReaderBase::PullBehindScratch", "riegeli/bytes/joining_reader.cc:JoiningReaderBase::ReadBehindScratch", "riegeli/bytes/joining_reader.cc:JoiningReaderBase::CopyBehindScratch", "riegeli/bytes/joining_reader.cc:JoiningReaderBase::ReadSomeBehindScratch", "riegeli/bytes/joining_reader.cc:JoiningReaderBase::CopySomeBehindScratch", "riegeli/bytes/joining_reader.cc:JoiningReaderBase::ReadHintBehindScratch", "riegeli/bytes/joining_reader.cc:JoiningReaderBase::Done"])

p("C62", "An ArrayWriter writes exactly the specified data within its array, or fails",
  "After any sequence of calls of an ArrayWriter, whether data went to the array or to scratch memory, results and pos() are those of a writer of a sequence of bytes; nothing is written outside of the array; if Flush() or Close() succeeds then written() has exactly the contents, and it succeeds whenever the writer did not fail and the contents fit; failures happen only when the contents with the data being written are longer than the array, and are never forgotten.",
  "every array size, every sequence of Writer calls with any arguments, every size of scratch memory",
  "Which memory is used depends on how requests relate to the space left, and failures are delayed until scratch is copied; tests use a few sizes.",
  ["riegeli/bytes/array_writer.cc:ArrayWriterBase::PushBehindScratch", "riegeli/bytes/array_writer.cc:ArrayWriterBase::FlushBehindScratch", "riegeli/bytes/array_writer.cc:ArrayWriterBase::SeekBehindScratch", "riegeli/bytes/array_writer.cc:ArrayWriterBase::SizeBehindScratch", "riegeli/bytes/array_writer.cc:ArrayWriterBase::TruncateBehindScratch", "riegeli/bytes/array_writer.cc:ArrayWriterBase::ReadModeBehindScratch", "riegeli/bytes/pushable_writer.cc:PushableWriter::PushSlow", "riegeli/bytes/pushable_writer.cc:PushableWriter::SyncScratch", "riegeli/bytes/pushable_writer.cc:PushableWriter::ForcePushUsingScratch", "riegeli/bytes/pushable_writer.cc:PushableWriter::WriteBehindScratch", "riegeli/bytes/pushable_writer.cc:PushableWriter::WriteSlow"])

p("C63", "A SplittingWriter splits exactly the data written into shards within their size limits",
  "After any sequence of calls of a SplittingWriter, if Close() (or Flush()) succeeds then the contents of the closed shards, concatenated in order, are exactly the data written, all calls succeeded and pos() is right; no shard exceeds its size limit; no shard is empty unless AllowEmptyShards(); size limits are used in the order of opening shards without skipping; without Flush() all shards except the last one are full. Push(n) which returns true makes n bytes available. Failures are never forgotten; if shards do not fail then supported functions fail only when there are no more shards to open.",
  "every class of shards meeting the contract of Writer, every list of size limits, every sequence of Writer calls with any arguments, every size of scratch memory, every point where a shard fails to be written, flushed or closed",
  "How data are split depends on how requests relate to the space left in the shard, its buffer and scratch; tests use a few sizes and shards which do not fail.",
  ["riegeli/bytes/splitting_writer.cc:SplittingWriterBase::PushBehindScratch", "riegeli/bytes/splitting_writer.cc:SplittingWriterBase::WriteInternal", "riegeli/bytes/splitting_writer.cc:SplittingWriterBase::WriteBehindScratch", "riegeli/bytes/splitting_writer.cc:SplittingWriterBase::FlushBehindScratch", "riegeli/bytes/splitting_writer.cc:SplittingWriterBase::OpenShardInternal", "riegeli/bytes/splitting_writer.cc:SplittingWriterBase::CloseShardInternal", "riegeli/bytes/splitting_writer.cc:SplittingWriterBase::SetWriteSizeHintImpl", "riegeli/bytes/splitting_writer.h:SplittingWriterBase::SyncBuffer", "riegeli/bytes/splitting_writer.h:SplittingWriterBase::MakeBuffer", "riegeli/bytes/pushable_writer.cc:PushableWriter::PushSlow", "riegeli/bytes/pushable_writer.cc:PushableWriter::SyncScratch"])

p("C64", "A PrefixLimitingWriter hides data before the base position, never changes them, and shifts positions",
  "Any sequence of calls of a PrefixLimitingWriter which did not fail has the same results as with a writer of the contents of the destination from the base position on, with positions relative to the base position; Size() does not count the data before the base position. After Flush() or Close() the destination has its old data before the base position followed by these contents, and its position is shifted back. Whatever is called and whatever fails, stored data before the base position do not change. The PrefixLimitingWriter fails only if its destination fails.",
  "every class of destinations meeting the contract of Writer, every base position within the contents, every sequence of Writer calls with any arguments, every point where the destination fails",
  "The buffer is shared with the destination and synchronized at calls; tests use a few base positions and destinations which do not fail.",
  ["riegeli/bytes/prefix_limiting_writer.cc:PrefixLimitingWriterBase::PushSlow", "riegeli/bytes/prefix_limiting_writer.cc:PrefixLimitingWriterBase::WriteInternal", "riegeli/bytes/prefix_limiting_writer.cc:PrefixLimitingWriterBase::SeekSlow", "riegeli/bytes/prefix_limiting_writer.cc:PrefixLimitingWriterBase::SizeImpl", "riegeli/bytes/prefix_limiting_writer.cc:PrefixLimitingWriterBase::TruncateImpl", "riegeli/bytes/prefix_limiting_writer.cc:PrefixLimitingWriterBase::ReadModeImpl", "riegeli/bytes/prefix_limiting_writer.cc:PrefixLimitingWriterBase::Done", "riegeli/bytes/prefix_limiting_writer.h:PrefixLimitingWriterBase::SyncBuffer", "riegeli/bytes/prefix_limiting_writer.h:PrefixLimitingWriterBase::MakeBuffer", "riegeli/bytes/prefix_limiting_writer.h:PrefixLimitingWriter::FlushImpl", "riegeli/bytes/prefix_limiting_writer.h:PrefixLimitingWriter::SetWriteSizeHintImpl"])

p("C65", "A PositionShiftingWriter shifts positions by the base position, and fails instead of overflowing or going before it",
  "Any sequence of calls of a PositionShiftingWriter which did not fail has the same results as with a writer where the contents of the destination begin at the base position; Size() is the size of the destination plus the base position, and pos() with the buffer never exceeds the maximal position. After Flush() or Close() the destination has exactly what was written, and its position is shifted back. Seeking or truncating before the base position fails, and data written before that are left to the destination. The PositionShiftingWriter fails only if its destination fails, or for these reasons, or if the position or the size would overflow.",
  "every class of destinations meeting the contract of Writer, every base position and maximal position, every sequence of Writer calls with any arguments, every point where the destination fails",
  "The buffer is shared with the destination and clipped at the maximal position; overflow of 64-bit positions and seeking before the base position are not reached by ordinary tests.",
  ["riegeli/bytes/position_shifting_writer.cc:PositionShiftingWriterBase::PushSlow", "riegeli/bytes/position_shifting_writer.cc:PositionShiftingWriterBase::WriteInternal", "riegeli/bytes/position_shifting_writer.cc:PositionShiftingWriterBase::SeekSlow", "riegeli/bytes/position_shifting_writer.cc:PositionShiftingWriterBase::SizeImpl", "riegeli/bytes/position_shifting_writer.cc:PositionShiftingWriterBase::TruncateImpl", "riegeli/bytes/position_shifting_writer.cc:PositionShiftingWriterBase::ReadModeImpl", "riegeli/bytes/position_shifting_writer.cc:PositionShiftingWriterBase::Done", "riegeli/bytes/position_shifting_writer.cc:PositionShiftingWriterBase::AnnotateStatusImpl", "riegeli/bytes/position_shifting_writer.h:PositionShiftingWriterBase::SyncBuffer", "riegeli/bytes/position_shifting_writer.h:PositionShiftingWriterBase::MakeBuffer", "riegeli/bytes/position_shifting_writer.h:PositionShiftingWriter::FlushImpl", "riegeli/bytes/position_shifting_writer.h:PositionShiftingWriter::SetWriteSizeHintImpl"])

p("C66", "A NullWriter has the same results as a writer which stores data",
  "Any sequence of calls of a NullWriter which did not fail has the same results, the same pos() and the same Size() as with a writer which stores data, although the data are discarded: writing, Push(), Seek() back and forth, also past the end, and Truncate(). Positions never exceed the maximal position: a call which would exceed it fails. The NullWriter fails only then, and in ReadMode(), which is not supported; a failed NullWriter stays failed and its calls return false.",
  "every sequence of Writer calls with any arguments, every sequence of buffer sizes, every maximal position",
  "Whether the size survives seeking back depends on where the buffer begins when seeking; tests try a few combinations, and cannot write 2^64 bytes.",
  ["riegeli/bytes/null_writer.cc:NullWriter::SyncBuffer", "riegeli/bytes/null_writer.cc:NullWriter::MakeBuffer", "riegeli/bytes/null_writer.cc:NullWriter::PushSlow", "riegeli/bytes/null_writer.cc:NullWriter::WriteSlow", "riegeli/bytes/null_writer.cc:NullWriter::SeekSlow", "riegeli/bytes/null_writer.cc:NullWriter::SizeImpl", "riegeli/bytes/null_writer.cc:NullWriter::TruncateImpl", "riegeli/bytes/null_writer.h:NullWriter::written_size_"])

here = os.path.dirname(os.path.abspath(__file__))
with open(os.path.join(here, "..", "properties.jsonl"), "w") as f:
    for x in P: f.write(json.dumps(x, ensure_ascii=False) + "\n")
print(len(P), "properties")

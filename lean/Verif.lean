import Verif.Basic
import Verif.Block
import Verif.Chunk
import Verif.FileSpec
import Verif.ChunkWriter
import Verif.ChunkReader
import Verif.ChunkReaderProofs
import Verif.FileProofs
import Verif.RecordReader
import Verif.RecordSpec
import Verif.RecordReaderProofs
import Verif.Varint
import Verif.OrderedVarint
import Verif.Padding
import Verif.Codec
import Verif.ChunkDecoder
import Verif.RecordWriter
import Verif.WriterTotal
import Verif.Concat
import Verif.Examples
import Verif.Arb
import Verif.ArbOps
import Verif.ArbSeek
import Verif.SeekProofs
import Verif.RecordSeek
import Verif.RecordPosition
import Verif.Props.Reading
import Verif.Props.Arbitrary
import Verif.Props.Varint
import Verif.Props.OrderedVarint
import Verif.Props.Block
import Verif.Props.Writing
import Verif.Props.Chunks
import Verif.Props.Padding
import Verif.Props.Positions
import Verif.Props.Seeking
import Verif.Props.RecordPositions
import Verif.DamageSpec
import Verif.Damage
import Verif.Props.Damage
import Verif.BinarySearch
import Verif.Props.BinarySearch
import Verif.RecordSearch
import Verif.RecordSearchProofs
import Verif.Props.Search
import Verif.Parallel
import Verif.ParallelProofs
import Verif.ParallelSim
import Verif.ParallelLive
import Verif.ParallelConv
import Verif.ParallelWriter
import Verif.ParallelWriterConv
import Verif.ParallelDoom
import Verif.Props.Parallel
import Verif.ByteReader
import Verif.Lines
import Verif.LinesProofs
import Verif.Props.Lines
import Verif.Csv
import Verif.CsvParse
import Verif.CsvSpec
import Verif.CsvGrammar
import Verif.CsvWrite
import Verif.CsvNext
import Verif.Props.Csv
import Verif.Props.Transpose
import Verif.TrEnc
import Verif.TrDec
import Verif.TrColumn
import Verif.TrPath
import Verif.TrImplicit
import Verif.TrBuild
import Verif.TrList
import Verif.TrForest
import Verif.TrBase
import Verif.TrIncoming
import Verif.TrPrivate
import Verif.TrPrivLoop
import Verif.TrMachine
import Verif.TrRun
import Verif.TrSize
import Verif.TrBufs
import Verif.TrStates
import Verif.TrDrive
import Verif.TrRound
import Verif.TrSafe
import Verif.TrWriter
import Verif.StrSet
import Verif.StrSetSpec
import Verif.StrSetProofs
import Verif.StrSetOps
import Verif.StrSetBuild
import Verif.ChunkSet
import Verif.ChunkSetProofs
import Verif.ChunkSetOps
import Verif.ChunkSetBuild
import Verif.Props.StringSets
import Verif.Reader
import Verif.ReaderProofs
import Verif.ReaderDefaults
import Verif.FragReader
import Verif.LimitingReader
import Verif.LimitingReaderProofs
import Verif.Props.Limiting
import Verif.ProjSpec
import Verif.TrTree
import Verif.TrTrie
import Verif.TrProj
import Verif.TrProjEnc
import Verif.TrProjPath
import Verif.TrProjParse
import Verif.TrProjRound
import Verif.Props.Projection
import Verif.ChainHeap
import Verif.ChainHeapProofs
import Verif.ChainModel
import Verif.ChainBlockProofs
import Verif.ChainAbs
import Verif.ChainOps
import Verif.ChainPrepend
import Verif.ChainMore
import Verif.ChainAppend
import Verif.ChainPrependChain
import Verif.ChainRemove
import Verif.ChainRest
import Verif.ChainWorld
import Verif.ChainWorldProofs
import Verif.Props.Chain
import Verif.ChainRead
import Verif.Props.ChainRead
import Verif.BufferedReader
import Verif.BufferedReaderProofs
import Verif.FdReader
import Verif.FdReaderProofs
import Verif.Props.Buffered
import Verif.Writer
import Verif.WriterProofs
import Verif.ByteFill
import Verif.BufferedWriter
import Verif.BufferedWriterProofs
import Verif.FdWriter
import Verif.FdWriterProofs
import Verif.Props.Writers
import Verif.Props.EndToEnd
import Verif.NumeralSpec
import Verif.WriteInt
import Verif.WriteIntProofs
import Verif.Props.WriteInt
import Verif.VarintIo
import Verif.VarintIoProofs
import Verif.Props.VarintIo
import Verif.MessageSpec
import Verif.MessageWriter
import Verif.MessageWriterProofs
import Verif.Props.MessageWriter
import Verif.MessageReadSpec
import Verif.MessageReader
import Verif.MessageReaderProofs
import Verif.MessageCordProofs
import Verif.MessageRoundTrip
import Verif.MessageHandlers
import Verif.Props.MessageReader
import Verif.SharedPtr
import Verif.SharedPtrProofs
import Verif.Props.SharedPtr
import Verif.PoolSpec
import Verif.RecyclingPool
import Verif.PoolProofs
import Verif.KeyedPoolProofs
import Verif.BackgroundCleaner
import Verif.CleanerProofs
import Verif.PoolSystemProofs
import Verif.Props.Pools
import Verif.ThreadPool
import Verif.ThreadPoolProofs
import Verif.Props.ThreadPool
import Verif.ObjectState
import Verif.ObjectSpec
import Verif.ObjectProofs
import Verif.Props.ObjectState
import Verif.LimitingWriter
import Verif.LimitingWriterProofs
import Verif.Props.LimitingWriter
import Verif.TextReader
import Verif.TextReaderProofs
import Verif.TextWriter
import Verif.TextWriterProofs
import Verif.Props.Text
import Verif.DigestingWriter
import Verif.DigestingWriterProofs
import Verif.Props.DigestingWriter
import Verif.DigestingReader
import Verif.DigestingReaderProofs
import Verif.Props.DigestingReader
import Verif.StringWriter
import Verif.StringWriterProofs
import Verif.Props.StringWriter
import Verif.WriterRef
import Verif.ChainWriter
import Verif.ChainWriterProofs
import Verif.Props.ChainWriter
import Verif.CordWriter
import Verif.CordWriterProofs
import Verif.Props.CordWriter
import Verif.PullableReader
import Verif.PullableReaderProofs
import Verif.ChainReader
import Verif.ChainReaderProofs
import Verif.SteadyReader
import Verif.Props.PullableReaders
import Verif.JoiningReader
import Verif.JoiningReaderProofs
import Verif.JoiningReaderSteady
import Verif.Props.JoiningReader
import Verif.ArrayWriter
import Verif.ArrayWriterProofs
import Verif.Props.ArrayWriter
import Verif.SplittingWriter
import Verif.SplittingWriterProofs
import Verif.Props.SplittingWriter
import Verif.PrefixLimitingWriter
import Verif.PrefixLimitingWriterProofs
import Verif.Props.PrefixLimitingWriter
import Verif.PositionShiftingWriter
import Verif.PositionShiftingWriterProofs
import Verif.Props.PositionShiftingWriter
import Verif.NullWriter
import Verif.Props.NullWriter

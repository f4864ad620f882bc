import Verif.ChunkReader
/-!
# Model of `riegeli/records/record_reader.{h,cc}` and of the record access of
`riegeli/chunk_encoding/chunk_decoder.{h,cc}`

`decode : Chunk → Option (List Nat × Bytes)` stands for `ChunkDecoder::Parse`
(`chunk_decoder.cc:75-195`): it yields the sorted record end positions (`limits_`) and the concatenated
record values; its model is in `Verif/ChunkDecoder.lean`.

`recovery : Option (Region → Bool)` is the recovery function of the options; the regions it is called with
are logged in `RR.skipped`. A recovery function which itself operates on the reader is not modelled.

Only the byte-string overloads of `ReadRecord` are modelled (`record_reader.cc:322-341`), which cannot fail
to parse a record. Operations which may loop forever on hostile files return `Option`, `none` meaning
divergence.
-/
namespace Riegeli

/-- Data of `ChunkDecoder` (`chunk_decoder.h:204-218`): `limits_`, contents and position of
`values_reader_`, `index_`, `ok()`. -/
structure Dec where
  limits : List Nat
  values : Bytes
  vpos : Nat
  index : Nat
  ok : Bool
deriving DecidableEq, Repr

namespace Dec
/-- `ChunkDecoder::Clear` (`chunk_decoder.h:253-259`). -/
def clear : Dec := ⟨[], [], 0, 0, true⟩

/-- `ChunkDecoder::num_records` (`chunk_decoder.h:196`). -/
def numRecords (d : Dec) : Nat := d.limits.length

/-- `ChunkDecoder::ReadRecord` for byte strings (`chunk_decoder.h:261-319`). -/
def readRecord (d : Dec) : Option Bytes × Dec :=
  if d.ok = false ∨ d.index = d.numRecords then (none, d)
  else
    let limit := d.limits.getD d.index 0
    (some (slice d.values d.vpos (limit - d.vpos)),
      { d with vpos := limit, index := d.index + 1 })

/-- `ChunkDecoder::SetIndex` (`chunk_decoder.h:321-329`). -/
def setIndex (d : Dec) (index : Nat) : Dec :=
  let i := min index d.numRecords
  { d with index := i, vpos := if i = 0 then 0 else d.limits.getD (i - 1) 0 }

/-- `ChunkDecoder::Decode` (`chunk_decoder.cc:48-73`). -/
def decode (parse : Chunk → Option (List Nat × Bytes)) (c : Chunk) : Bool × Dec :=
  match parse c with
  | some (limits, values) => (true, ⟨limits, values, 0, 0, true⟩)
  | none => (false, ⟨[], [], 0, 0, false⟩)
end Dec

/-- `RecordReaderBase::Recoverable` (`record_reader.h`); metadata parsing is not modelled. -/
inductive RRcv
  | no | chunkReader | chunkDecoder
deriving DecidableEq, Repr

/-- Failure of a `RecordReader`: of the chunk reader, or of decoding a chunk. -/
inductive RErr
  | reader (e : Option Err) | decoder
deriving DecidableEq, Repr

/-- `RecordReaderBase` (`record_reader.h:479-510`) with its `ChunkReader`. -/
structure RR where
  cr : CR
  chunkBegin : Nat
  dec : Dec
  err : Option RErr
  rcv : RRcv
  lastValid : Bool
  /-- ghost: regions passed to the recovery function, most recent first -/
  skipped : List CR.Region
deriving DecidableEq, Repr

/-- `RecordPosition` (`records/record_position.h`). -/
structure RecordPosition where
  chunkBegin : Nat
  recordIndex : Nat
deriving DecidableEq, Repr

/-- `RecordPosition::numeric` (`record_position.h`). -/
def RecordPosition.numeric (p : RecordPosition) : Nat := w64 (p.chunkBegin + p.recordIndex)

namespace RR
open CR

/-- `RecordReaderBase::Initialize` (`record_reader.cc:152-166`). -/
def init (cr : CR) : RR :=
  if cr.err ≠ none then ⟨cr, 0, Dec.clear, some (.reader cr.err), .no, false, []⟩
  else ⟨cr, cr.pos, Dec.clear, none, .no, false, []⟩

/-- `RecordReader::pos` (`record_reader.h:685-692`). -/
def pos (s : RR) : RecordPosition :=
  if s.dec.index < s.dec.numRecords ∨ s.rcv = .chunkDecoder then ⟨s.chunkBegin, s.dec.index⟩
  else ⟨s.cr.pos, 0⟩

/-- `RecordReader::last_pos` (`record_reader.h:676-683`). -/
def lastPos (s : RR) : RecordPosition := ⟨s.chunkBegin, s.dec.index - 1⟩

variable (H : Bytes → UInt64) (parse : Chunk → Option (List Nat × Bytes))
  (recovery : Option (Region → Bool))

/-- `RecordReaderBase::ReadChunk` (`record_reader.cc:689-708`). -/
def readChunk (f : Bytes) (s : RR) : Bool × RR :=
  let s := { s with chunkBegin := s.cr.pos }
  match s.cr.readChunk H f with
  | (none, cr) =>
    let s := { s with cr := cr, dec := Dec.clear }
    if cr.err ≠ none then (false, { s with rcv := .chunkReader, err := some (.reader cr.err) })
    else (false, s)
  | (some c, cr) =>
    match Dec.decode parse c with
    | (true, d) => (true, { s with cr := cr, dec := d })
    | (false, d) => (false, { s with cr := cr, dec := d, rcv := .chunkDecoder, err := some .decoder })

/-- `RecordReaderBase::Recover` (`record_reader.cc:382-423`). A chunk decoder which failed to decode a chunk
is not recoverable itself (`chunk_decoder.cc:198-217`) and gets cleared. -/
def recover (f : Bytes) (s : RR) : Option (Option Region × RR) :=
  match s.rcv with
  | .no => some (none, s)
  | .chunkReader =>
    match s.cr.recover H f with
    | none => none
    | some (none, cr) => some (none, { s with cr := cr, rcv := .no, err := some (.reader cr.err) })
    | some (some r, cr) => some (some r, { s with cr := cr, rcv := .no, err := none })
  | .chunkDecoder =>
    let s1 := { s with rcv := .no, err := none, dec := Dec.clear }
    some (some ⟨w64 (s.chunkBegin + s.dec.index), s1.pos.numeric⟩, s1)

/-- `RecordReaderBase::TryRecovery` (`record_reader.h:670-674`). -/
def tryRecovery (f : Bytes) (s : RR) : Option (Bool × RR) :=
  match recovery with
  | none => some (false, s)
  | some g =>
    match s.recover H f with
    | none => none
    | some (none, s1) => some (false, s1)
    | some (some r, s1) => some (g r, { s1 with skipped := r :: s1.skipped })

/-- The loop of `RecordReaderBase::ReadRecordImpl` (`record_reader.cc:342-368`). -/
def readRecordLoop (f : Bytes) (s : RR) : Option (Option Bytes × RR) :=
  match s.dec.readRecord with
  | (some r, d) => some (some r, { s with dec := d, lastValid := true })
  | (none, _) =>
    if s.err ≠ none then
      match s.tryRecovery H recovery f with
      | none => none
      | some (false, s1) => some (none, s1)
      | some (true, s1) => readRecordLoop f s1
    else if s.dec.ok = false then
      match ({ s with rcv := .chunkDecoder, err := some .decoder } : RR).tryRecovery H recovery f with
      | none => none
      | some (false, s1) => some (none, s1)
      | some (true, s1) => readRecordLoop f s1
    else
      match s.readChunk H parse f with
      | (true, s1) => readRecordLoop f s1
      | (false, s1) =>
        match s1.tryRecovery H recovery f with
        | none => none
        | some (false, s2) => some (none, s2)
        | some (true, s2) => readRecordLoop f s2
partial_fixpoint

/-- `RecordReaderBase::ReadRecord` (`record_reader.cc:343-366`). -/
def readRecord (f : Bytes) (s : RR) : Option (Option Bytes × RR) :=
  ({ s with lastValid := false } : RR).readRecordLoop H parse recovery f

/-- `RecordReaderBase::FailSeeking` (`record_reader.cc:182-188`). -/
def failSeeking (f : Bytes) (s : RR) : Option (Bool × RR) :=
  ({ s with chunkBegin := s.cr.pos, dec := Dec.clear, rcv := .chunkReader,
            err := some (.reader s.cr.err) } : RR).tryRecovery H recovery f

/-- `RecordReaderBase::Seek(RecordPosition)` (`record_reader.cc:430-458`). -/
def seek (f : Bytes) (p : RecordPosition) (s : RR) : Option (Bool × RR) :=
  let s := { s with lastValid := false }
  if s.err ≠ none then s.tryRecovery H recovery f
  else
    let readThenSet (s : RR) : Option (Bool × RR) :=
      match s.readChunk H parse f with
      | (false, s1) => s1.tryRecovery H recovery f
      | (true, s1) => some (true, { s1 with dec := s1.dec.setIndex p.recordIndex })
    if p.chunkBegin = s.chunkBegin then
      if p.recordIndex = 0 ∨ s.cr.pos > s.chunkBegin then
        some (true, { s with dec := s.dec.setIndex p.recordIndex })
      else readThenSet s
    else
      match s.cr.seek f p.chunkBegin with
      | (false, cr) => ({ s with cr := cr } : RR).failSeeking H recovery f
      | (true, cr) =>
        let s := { s with cr := cr }
        if p.recordIndex = 0 then
          some (true, { s with chunkBegin := cr.pos, dec := Dec.clear })
        else readThenSet s

/-- `RecordReaderBase::Seek(Position)` (`record_reader.cc:460-487`). -/
def seekNumeric (f : Bytes) (p : Nat) (s : RR) : Option (Bool × RR) :=
  let s := { s with lastValid := false }
  if s.err ≠ none then s.tryRecovery H recovery f
  else if s.chunkBegin ≤ p ∧ p ≤ s.cr.pos then
    some (true, { s with dec := s.dec.setIndex (p - s.chunkBegin) })
  else
    match s.cr.seekToChunk H f .containing p with
    | none => none
    | some (false, cr) => ({ s with cr := cr } : RR).failSeeking H recovery f
    | some (true, cr) =>
      let s := { s with cr := cr }
      if p ≤ cr.pos then some (true, { s with chunkBegin := cr.pos, dec := Dec.clear })
      else
        match s.readChunk H parse f with
        | (false, s1) => s1.tryRecovery H recovery f
        | (true, s1) => some (true, { s1 with dec := s1.dec.setIndex (p - s1.chunkBegin) })

/-- The loop of `RecordReaderBase::SeekBack` (`record_reader.cc:489-519`). -/
def seekBackLoop (f : Bytes) (chunkPos : Nat) (s : RR) : Option (Bool × RR) :=
  if chunkPos = 0 then some (false, s)
  else
    match s.cr.seekToChunk H f .before (chunkPos - 1) with
    | none => none
    | some (false, cr) =>
      match ({ s with cr := cr } : RR).failSeeking H recovery f with
      | none => none
      | some (false, s1) => some (false, s1)
      | some (true, s1) => seekBackLoop f cr.pos s1
    | some (true, cr) =>
      let s := { s with cr := cr }
      match s.readChunk H parse f with
      | (false, s1) =>
        match s1.tryRecovery H recovery f with
        | none => none
        | some (false, s2) => some (false, s2)
        | some (true, s2) => seekBackLoop f s.chunkBegin s2
      | (true, s1) =>
        if s1.dec.numRecords > 0 then
          some (true, { s1 with dec := s1.dec.setIndex (s1.dec.numRecords - 1) })
        else seekBackLoop f s.chunkBegin s1
partial_fixpoint

/-- `RecordReaderBase::SeekBack` (`record_reader.cc:489-521`). -/
def seekBack (f : Bytes) (s : RR) : Option (Bool × RR) :=
  if s.err ≠ none then some (false, s)
  else
    let s := { s with lastValid := false }
    if s.dec.index > 0 then some (true, { s with dec := s.dec.setIndex (s.dec.index - 1) })
    else s.seekBackLoop H parse recovery f s.chunkBegin

/-- `RecordReader::Close` (`record_reader.cc:168-174`, `record_reader.h:749-758`) of a reader owning its
source, without recovery function: the resulting status of the chunk reader. -/
def closeErr (s : RR) : Option RErr :=
  if s.err ≠ none then s.err
  else if s.cr.close.err ≠ none then some (.reader s.cr.close.err) else none

end RR
end Riegeli

import Verif.FileSpec
/-!
# Model of `riegeli/records/chunk_reader.cc` (`DefaultChunkReaderBase`)

The source reader is a file `f : Bytes` and a position `srcPos`. Each operation takes the current
contents of the file, so a growing file is modelled by giving successive operations longer files.
Failures of the source itself (`!src.ok()`) are not modelled: in the code each of them
makes the `ChunkReader` fail without being recoverable.

`status()` is `err` (without the message text); closing is `CR.close`.
-/
namespace Riegeli

/-- The failures `ChunkReader` can report, one per `Fail(...)` call site kind. -/
inductive Err
  | invalidBoundary    -- `chunk_reader.cc:49-54, 443-448`
  | prevMismatch       -- `chunk_reader.cc:122-142, 231-252`
  | nextMismatch       -- `chunk_reader.cc:143-151, 278-293`
  | dataHash           -- `chunk_reader.cc:165-177`
  | headerHash         -- `chunk_reader.cc:264-277`
  | blockHash          -- `chunk_reader.cc:325-339`
  | missingSignature   -- `chunk_reader.cc:294-307`
  | grown              -- `chunk_reader.cc:199-205`
  | exceedsSize        -- `chunk_reader.cc:90-93`
  | negativePrev       -- `chunk_reader.cc:518-525`
  | impliedBoundary    -- `chunk_reader.cc:528-535`
  | truncatedFile      -- `chunk_reader.cc:60-77`
  | diverged           -- not in the code: a loop of the model ran out of fuel
deriving DecidableEq, Repr

/-- `DefaultChunkReaderBase::Recoverable` (`chunk_reader.h`). -/
inductive Recoverable
  | no | haveChunk | findChunk
deriving DecidableEq, Repr

/-- `DefaultChunkReaderBase` state (`chunk_reader.h`), plus the position of the source. `hdr` and `bh`
are the 40 and 24 byte buffers `chunk_.header` and `block_header_`, `data` is `chunk_.data`. -/
structure CR where
  srcPos : Nat
  pos : Nat
  hdr : Bytes
  data : Bytes
  bh : Bytes
  err : Option Err
  truncated : Bool
  rcv : Recoverable
  recPos : Nat
deriving DecidableEq, Repr

/-- Subtraction of `uint64_t`. -/
def sub64 (a b : Nat) : Nat := w64 (a + (2 ^ 64 - w64 b))

/-- `Reader::Read(length, dest)` (`bytes/reader.h`): reads `n` bytes, or as many as there are and
returns false. -/
def srcRead (f : Bytes) (p n : Nat) : Bool × Bytes × Nat :=
  if p + n ≤ f.length then (true, slice f p n, p + n)
  else (false, slice f p (f.length - p), max p f.length)

/-- `Reader::Seek(new_pos)` (`bytes/reader.h`): seeking past the end goes to the end and returns
false. -/
def srcSeek (f : Bytes) (p : Nat) : Bool × Nat :=
  if p ≤ f.length then (true, p) else (false, f.length)

/-- Storing bytes in a fixed buffer at an offset. -/
def putAt (buf : Bytes) (i : Nat) (bs : Bytes) : Bytes :=
  buf.take i ++ bs ++ buf.drop (i + bs.length)

namespace CR

/-- `DefaultChunkReaderBase::Initialize` (`chunk_reader.cc:41-55`) at source position `p`. The buffers
have unspecified initial contents, `hdr0` and `bh0`. -/
def init (p : Nat) (hdr0 bh0 : Bytes) : CR :=
  if isPossibleChunkBoundary p then
    ⟨p, p, hdr0, [], bh0, none, false, .no, 0⟩
  else ⟨p, p, hdr0, [], bh0, some .invalidBoundary, false, .findChunk, p⟩

/-- `Fail` together with setting `recoverable_` and `recoverable_pos_`. -/
def fail (s : CR) (e : Err) (r : Recoverable) (p : Nat) : CR :=
  { s with err := some e, rcv := r, recPos := p }

/-- `FailReading` (`chunk_reader.cc:81-85`), source OK. -/
def failReading (s : CR) : CR :=
  if s.srcPos > s.pos then { s with truncated := true } else s

/-- `FailSeeking` (`chunk_reader.cc:87-94`), source OK. -/
def failSeeking (s : CR) : CR := s.fail .exceedsSize .findChunk s.srcPos

/-- `Done` (`chunk_reader.cc:57-79`): whether `Close()` reports truncation. -/
def close (s : CR) : CR :=
  if s.truncated then { s.fail .truncatedFile .haveChunk s.srcPos with data := [] }
  else { s with rcv := .no, recPos := 0, data := [] }

variable (H : Bytes → UInt64)

/-- `ReadBlockHeader` (`chunk_reader.cc:311-341`). -/
def readBlockHeader (f : Bytes) (s : CR) : Bool × CR :=
  let n := remainingInBlockHeader s.srcPos
  let r := srcRead f s.srcPos n
  let s1 := { s with bh := putAt s.bh (24 - n) r.2.1, srcPos := r.2.2 }
  if r.1 = false then (false, s1.failReading)
  else if BH.computedHash H s1.bh ≠ BH.storedHash s1.bh then
    (false, s1.fail .blockHash .findChunk s1.srcPos)
  else (true, s1)

/-- Reading a block header in the middle of a chunk and checking its `previous_chunk`
(`chunk_reader.cc:118-142` in `ReadChunk`, `227-252` in `ReadChunkHeader`). -/
def passBlockHeader (f : Bytes) (s : CR) : Bool × CR :=
  if remainingInBlockHeader s.srcPos > 0 then
    let blockBegin := roundDownToBlockBoundary s.srcPos
    match s.readBlockHeader H f with
    | (false, s1) => (false, s1)
    | (true, s1) =>
      if BH.previousChunk s1.bh ≠ sub64 blockBegin s1.pos then
        if BH.nextChunk s1.bh ≤ 65536 then
          (false, s1.fail .prevMismatch .haveChunk (w64 (blockBegin + BH.nextChunk s1.bh)))
        else (false, s1.fail .prevMismatch .findChunk s1.srcPos)
      else (true, s1)
  else (true, s)

/-- The `do ... while` loop of `ReadChunkHeader` (`chunk_reader.cc:226-262`). -/
def readChunkHeaderLoop (f : Bytes) : Nat → CR → Bool × CR
  | 0, s => (false, s.fail .diverged .no 0)
  | fuel + 1, s =>
    match s.passBlockHeader H f with
    | (false, s1) => (false, s1)
    | (true, s1) =>
      let headerRead := distanceWithoutOverhead s1.pos s1.srcPos
      let remaining := 40 - headerRead
      let n := min remaining (remainingInBlock s1.srcPos)
      let r := srcRead f s1.srcPos n
      let s2 := { s1 with hdr := putAt s1.hdr headerRead r.2.1, srcPos := r.2.2 }
      if r.1 = false then (false, s2.failReading)
      else if n < remaining then readChunkHeaderLoop f fuel s2
      else (true, s2)

/-- The checks of `ReadChunkHeader` after the header bytes are there
(`chunk_reader.cc:264-308`). -/
def checkChunkHeader (s : CR) : Bool × CR :=
  if Hdr.computedHash H s.hdr ≠ Hdr.storedHash s.hdr then
    (false, s.fail .headerHash .findChunk s.srcPos)
  else if remainingInBlock s.pos < 40 ∧
      BH.nextChunk s.bh ≠ sub64 (chunkEnd (Hdr.dataSize s.hdr) (Hdr.numRecords s.hdr) s.pos)
        (w64 (s.pos + remainingInBlock s.pos)) then
    (false, s.fail .nextMismatch .findChunk s.srcPos)
  else if s.pos = 0 ∧ (Hdr.dataSize s.hdr ≠ 0 ∨ Hdr.chunkType s.hdr ≠ kFileSignature.toNat ∨
      Hdr.numRecords s.hdr ≠ 0 ∨ Hdr.decodedDataSize s.hdr ≠ 0) then
    (false, s.fail .missingSignature .findChunk s.srcPos)
  else (true, s)

/-- `ReadChunkHeader` (`chunk_reader.cc:217-309`). A 40 byte header meets at most one block boundary
so the loop runs at most twice: 3 is more fuel than needed. -/
def readChunkHeader (f : Bytes) (s : CR) : Bool × CR :=
  match s.readChunkHeaderLoop H f 3 with
  | (false, s1) => (false, s1)
  | (true, s1) => s1.checkChunkHeader H

/-- `PullChunkHeader` (`chunk_reader.cc:185-215`). -/
def pullChunkHeader (f : Bytes) (s : CR) : Bool × CR :=
  if s.err ≠ none then (false, s)
  else
    let s := { s with truncated := false }
    if s.srcPos < s.pos then
      if f.length ≤ s.srcPos then (false, s)
      else
        (false, { (s.fail .grown .haveChunk s.pos) with pos := s.srcPos })
    else if distanceWithoutOverhead s.pos s.srcPos < 40 then s.readChunkHeader H f
    else (true, s)

/-- The data loop of `ReadChunk` (`chunk_reader.cc:117-160`). -/
def readDataLoop (f : Bytes) (ce : Nat) : Nat → CR → Bool × CR
  | 0, s => (false, s.fail .diverged .no 0)
  | fuel + 1, s =>
    if s.data.length < Hdr.dataSize s.hdr then
      let blockBegin := roundDownToBlockBoundary s.srcPos
      match s.passBlockHeader H f with
      | (false, s1) => (false, s1)
      | (true, s1) =>
        if remainingInBlockHeader s.srcPos > 0 ∧ BH.nextChunk s1.bh ≠ sub64 ce blockBegin then
          (false, s1.fail .nextMismatch .findChunk s1.srcPos)
        else
          let n := min (Hdr.dataSize s1.hdr - s1.data.length) (remainingInBlock s1.srcPos)
          let r := srcRead f s1.srcPos n
          let s2 := { s1 with data := s1.data ++ r.2.1, srcPos := r.2.2 }
          if r.1 = false then (false, s2.failReading)
          else readDataLoop f ce fuel s2
    else (true, s)

/-- `ReadChunk` (`chunk_reader.cc:108-183`). The data loop advances the source position in each
iteration, so `f.length + 1` is enough fuel. -/
def readChunk (f : Bytes) (s : CR) : Option Chunk × CR :=
  match s.pullChunkHeader H f with
  | (false, s1) => (none, s1)
  | (true, s1) =>
    let ce := chunkEnd (Hdr.dataSize s1.hdr) (Hdr.numRecords s1.hdr) s1.pos
    match s1.readDataLoop H f ce (f.length + 1) with
    | (false, s2) => (none, s2)
    | (true, s2) =>
      let k := srcSeek f ce
      let s3 := { s2 with srcPos := k.2 }
      if k.1 = false then (none, s3.failReading)
      else if (H s3.data).toNat ≠ Hdr.dataHash s3.hdr then
        (none, s3.fail .dataHash .haveChunk ce)
      else (some ⟨s3.hdr, s3.data⟩, { s3 with pos := ce, data := [] })

/-- A skipped region (`records/skipped_region.h`), without the message. -/
structure Region where
  «begin» : Nat
  «end» : Nat
deriving DecidableEq, Repr

/-- `Recover` from label `find_chunk` (`chunk_reader.cc:388-427`), including the jump back
to `again` after a corrupted block header. `none` means that it does not terminate. -/
def findChunk (f : Bytes) (regionBegin : Nat) (s : CR) : Option (Region × CR) :=
  let s := { s with pos := w64 (s.pos + remainingInBlock s.pos) }
  let k := srcSeek f s.pos
  let s := { s with srcPos := k.2 }
  if k.1 = false then some (⟨regionBegin, s.srcPos⟩, s)
  else
    match s.readBlockHeader H f with
    | (false, s1) =>
      if s1.rcv ≠ .no then
        -- goto again, with `recoverable_ == kFindChunk`
        findChunk f regionBegin
          { s1 with rcv := .no, recPos := 0, err := none, data := [], pos := s1.recPos }
      else some (⟨regionBegin, s1.pos⟩, s1)
    | (true, s1) =>
      if BH.previousChunk s1.bh = 0 then some (⟨regionBegin, s1.pos⟩, s1)
      else
        let s2 := { s1 with pos := w64 (s1.pos + BH.nextChunk s1.bh) }
        if isPossibleChunkBoundary s2.pos = false then findChunk f regionBegin s2
        else
          let k := srcSeek f s2.pos
          let s3 := { s2 with srcPos := k.2 }
          if k.1 = false then some (⟨regionBegin, s3.srcPos⟩, s3)
          else some (⟨regionBegin, s3.pos⟩, s3)
partial_fixpoint

/-- `Recover` (`chunk_reader.cc:343-428`) of an open reader. `none`: does not terminate;
`some none`: returns false (recovery not applicable); otherwise the skipped region. -/
def recover (f : Bytes) (s : CR) : Option (Option Region × CR) :=
  if s.rcv = .no then some (none, s)
  else
    let regionBegin := s.pos
    let s0 := { s with rcv := .no, recPos := 0, err := none, data := [], pos := s.recPos }
    if s.rcv = .haveChunk then
      let k := srcSeek f s0.pos
      let s1 := { s0 with srcPos := k.2 }
      if k.1 = false then some (some ⟨regionBegin, s1.srcPos⟩, s1)
      else if isPossibleChunkBoundary s1.pos = false then
        (findChunk H f regionBegin s1).map (fun r => (some r.1, r.2))
      else some (some ⟨regionBegin, s1.pos⟩, s1)
    else (findChunk H f regionBegin s0).map (fun r => (some r.1, r.2))

/-- `Seek` (`chunk_reader.cc:435-450`). -/
def seek (f : Bytes) (newPos : Nat) (s : CR) : Bool × CR :=
  if s.err ≠ none then (false, s)
  else if s.pos = newPos then (true, s)
  else
    let k := srcSeek f newPos
    let s := { s with truncated := false, pos := newPos, data := [], srcPos := k.2 }
    if k.1 = false then (false, s.failSeeking)
    else if isPossibleChunkBoundary s.pos = false then
      (false, s.fail .invalidBoundary .findChunk s.pos)
    else (true, s)

/-- `DefaultChunkReaderBase::WhichChunk` (`chunk_reader.h`). -/
inductive Which
  | containing | before | after
deriving DecidableEq, Repr

/-- The loop of `SeekToChunk` from label `check_current_chunk` (`chunk_reader.cc:538-555`). `none` means
that it does not terminate. -/
def checkCurrentChunk (f : Bytes) (which : Which) (newPos : Nat) (s : CR) : Option (Bool × CR) :=
  if newPos ≤ s.pos then some (true, s)
  else
    match s.readChunkHeader H f with
    | (false, s1) =>
      if s1.err ≠ none then some (false, s1)
      else some (false, ({ s1 with truncated := false }).failSeeking)
    | (true, s1) =>
      if which = .containing ∧ newPos < w64 (s1.pos + Hdr.numRecords s1.hdr) then some (true, s1)
      else
        let ce := chunkEnd (Hdr.dataSize s1.hdr) (Hdr.numRecords s1.hdr) s1.pos
        if which = .before ∧ newPos < ce then some (true, s1)
        else
          let k := srcSeek f ce
          let s2 := { s1 with pos := ce, srcPos := k.2 }
          if k.1 = false then some (false, s2.failSeeking)
          else checkCurrentChunk f which newPos s2
partial_fixpoint

/-- The beginning of the loop of `SeekToChunk` (`chunk_reader.cc:538-540`). -/
def seekToChunkFrom (f : Bytes) (which : Which) (newPos : Nat) (s : CR) (chunkBegin : Nat) :
    Option (Bool × CR) :=
  let k := srcSeek f chunkBegin
  let s := { s with pos := chunkBegin, srcPos := k.2 }
  if k.1 = false then some (false, s.failSeeking)
  else s.checkCurrentChunk H f which newPos

/-- `SeekToChunk` from label `read_block_header` (`chunk_reader.cc:494-536`). -/
def seekToChunkFromBlock (f : Bytes) (which : Which) (newPos : Nat) (s : CR) :
    Option (Bool × CR) :=
  let blockBegin := roundDownToBlockBoundary newPos
  let k := srcSeek f blockBegin
  let s := { s with pos := blockBegin, data := [], srcPos := k.2 }
  if k.1 = false then some (false, s.failSeeking)
  else
    match s.readBlockHeader H f with
    | (false, s1) =>
      if s1.err ≠ none then some (false, s1)
      else if s1.truncated = false ∧ newPos ≤ s1.pos then some (true, s1)
      else some (false, ({ s1 with truncated := false }).failSeeking)
    | (true, s1) =>
      if BH.previousChunk s1.bh = 0 then s1.checkCurrentChunk H f which newPos
      else
        let cb1 := w64 (blockBegin + BH.nextChunk s1.bh)
        if which ≠ .after ∧ newPos < cb1 then
          if blockBegin < BH.previousChunk s1.bh then
            some (false, s1.fail .negativePrev .findChunk s1.srcPos)
          else
            let cb2 := blockBegin - BH.previousChunk s1.bh
            if isPossibleChunkBoundary cb2 = false then
              some (false, s1.fail .impliedBoundary .findChunk s1.srcPos)
            else s1.seekToChunkFrom H f which newPos cb2
        else if isPossibleChunkBoundary cb1 = false then
          some (false, s1.fail .impliedBoundary .findChunk s1.srcPos)
        else s1.seekToChunkFrom H f which newPos cb1

/-- `SeekToChunk<which>` (`chunk_reader.cc:464-556`). -/
def seekToChunk (f : Bytes) (which : Which) (newPos : Nat) (s : CR) : Option (Bool × CR) :=
  if s.err ≠ none then some (false, s)
  else if s.pos = newPos then some (true, s)
  else
    let s := { s with truncated := false }
    if s.pos < newPos then
      match s.pullChunkHeader H f with
      | (false, s1) =>
        if s1.err ≠ none then some (false, s1)
        else some (false, ({ s1 with truncated := false }).failSeeking)
      | (true, s1) =>
        if which = .containing ∧ newPos < w64 (s1.pos + Hdr.numRecords s1.hdr) then
          some (true, s1)
        else
          let ce := chunkEnd (Hdr.dataSize s1.hdr) (Hdr.numRecords s1.hdr) s1.pos
          if which = .before ∧ newPos < ce then some (true, s1)
          else if ce < roundDownToBlockBoundary newPos then
            s1.seekToChunkFromBlock H f which newPos
          else ({ s1 with data := [] }).seekToChunkFrom H f which newPos ce
    else s.seekToChunkFromBlock H f which newPos

end CR
end Riegeli

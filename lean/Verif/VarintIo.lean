import Verif.Varint
import Verif.ByteReader
/-!
# Reading, copying and skipping varints from a `Reader`, from a `Cord` and from an array

Model of `riegeli/varint/varint_reading.{h,cc}`. `Varint.lean` models what the functions do with the bytes; here is how they obtain
the bytes: with the fast paths for one and two bytes, with the choice between scanning the buffer and pulling byte by byte, and with
the distribution of the bytes to buffers of a `Reader` and to chunks of a `Cord` unknown.

The templates `ReadVarint...`, `CopyVarint...` and `SkipVarint...` have the same control flow and differ in what they do with the bytes;
here they are instances of the same definitions, with `upd index byte acc` being what is done with a byte (`readUpd`, `copyUpd`, `skipUpd`).
Reading outside the bounds of a buffer gives `oob`; it is proved that this does not happen.
-/
namespace Riegeli.Vio

/-- The result: `oob` is an access outside the bounds of an array. -/
inductive Res (α : Type) where
  | oob
  | fail
  | ok (a : α)

/-- `acc += (byte - 1) << (7 * index)`, starting from `byte0` (`varint_reading.cc:45-53`, `varint_reading.h:407-417`). -/
def readUpd (w : Nat) (index byte acc : Nat) : Nat :=
  if index = 0 then byte else (acc + (byte + 2 ^ w - 1) * 2 ^ (7 * index)) % 2 ^ w

/-- `dest[index] = byte` (`varint_reading.cc:181-186`, `varint_reading.h:885-893`). -/
def copyUpd (_index byte : Nat) (acc : Bytes) : Bytes := acc ++ [UInt8.ofNat byte]

/-- Skipping ignores the bytes. -/
def skipUpd (_index _byte : Nat) (acc : Unit) : Unit := acc

section
variable {α : Type} (w : Nat) (canonical : Bool) (upd : Nat → Nat → α → α)

/-- `ReadVarintValue<initial_index, length>` and `CopyVarintValue<initial_index, length>` (`varint_reading.cc:45-53`, `181-186`): uses `n` bytes
from `index`. -/
def value (buf : Bytes) : Nat → Nat → α → Res α
  | _, 0, acc => .ok acc
  | index, n + 1, acc =>
    match buf[index]? with
    | none => .oob
    | some b => value buf (index + 1) n (upd index b.toNat acc)

/-- `ReadVarintFromReaderBufferLoop`, `ReadVarintFromCordBufferLoop`, and their variants which copy and skip (`varint_reading.cc:55-77`,
`106-128`, `188-210`, `237-258`, `308-327`, `352-372`). The result is the length of the varint. -/
def bufferLoop (buf : Bytes) (index : Nat) : Res Nat :=
  match buf[index]? with
  | none => .oob
  | some b =>
    let byte := b.toNat
    if kMaxLengthVarint w ≤ index + 1 then
      if 2 ^ (w - index * 7) ≤ byte then .fail
      else if canonical ∧ byte = 0 then .fail
      else .ok (index + 1)
    else if 128 ≤ byte then bufferLoop buf (index + 1)
    else if canonical ∧ byte = 0 then .fail
    else .ok (index + 1)
termination_by kMaxLengthVarint w - index

/-! ## `Reader` -/

/-- `ReadVarintFromReaderLoop`, `CopyVarintFromReaderLoop`, `SkipVarintFromReaderLoop` (`varint_reading.cc:79-104`, `212-235`, `329-350`), called by
`ReadVarintFromReader`, `CopyVarintFromReader`, `SkipVarintFromReader` (`464-470`, `595-601`, `697-702`). -/
def readerLoop (index : Nat) (acc : α) (s : Rd) : Res α × Rd :=
  let r := s.pull (index + 1)
  if r.1 = false then (.fail, r.2)
  else
    match r.2.buffer[index]? with
    | none => (.oob, r.2)
    | some b =>
      let byte := b.toNat
      let acc := upd index byte acc
      if kMaxLengthVarint w ≤ index + 1 then
        if 2 ^ (w - index * 7) ≤ byte then (.fail, r.2)
        else if canonical ∧ byte = 0 then (.fail, r.2)
        else (.ok acc, r.2.advance (index + 1))
      else if 128 ≤ byte then readerLoop (index + 1) acc r.2
      else if canonical ∧ byte = 0 then (.fail, r.2)
      else (.ok acc, r.2.advance (index + 1))
termination_by kMaxLengthVarint w - index

/-- `ReadVarintFromReaderBuffer`, `CopyVarintFromReaderBuffer`, `SkipVarintFromReaderBuffer` (`varint_reading.cc:430-445`, `562-575`, `671-684`) with
`initial_index` 2. -/
def readerBuffer (acc : α) (s : Rd) : Res α × Rd :=
  if kMaxLengthVarint w ≤ s.avail ∨ (∃ b ∈ s.buffer.getLast?, b.toNat < 128) then
    match bufferLoop w canonical s.buffer 2 with
    | .oob => (.oob, s)
    | .fail => (.fail, s)
    | .ok n => (value upd s.buffer 2 (n - 2) acc, s.advance n)
  else readerLoop w canonical upd 2 acc s

/-- `ReadVarint{32,64}(Reader&)`, `ReadCanonicalVarint{32,64}(Reader&)` (`varint_reading.h:405-453`, `469-519`), `CopyVarint{32,64}(Reader&)`,
`CopyCanonicalVarint{32,64}(Reader&)` (`882-980`), `SkipVarint{32,64}(Reader&)`, `SkipCanonicalVarint{32,64}(Reader&)` (`1244-1330`). -/
def fromReader (init : α) (s : Rd) : Res α × Rd :=
  let r := s.pull 1
  if r.1 = false then (.fail, r.2)
  else
    match r.2.buffer[0]? with
    | none => (.oob, r.2)
    | some b0 =>
      let acc := upd 0 b0.toNat init
      if b0.toNat < 128 then (.ok acc, r.2.advance 1)
      else if 2 ≤ r.2.avail then
        match r.2.buffer[1]? with
        | none => (.oob, r.2)
        | some b1 =>
          let acc := upd 1 b1.toNat acc
          if b1.toNat < 128 then
            if canonical ∧ b1.toNat = 0 then (.fail, r.2) else (.ok acc, r.2.advance 2)
          else readerBuffer w canonical upd acc r.2
      else readerLoop w canonical upd 1 acc r.2

/-! ## `Cord` -/

/-- A `Cord::CharIterator`: chunks from the current position, the first one possibly already partially read; `Cord` has no empty chunks.
`Cord::Advance()`. -/
def cordAdvance : Nat → List Bytes → List Bytes
  | 0, src => src
  | _ + 1, [] => []
  | n + 1, c :: cs => if n + 1 < c.length then c.drop (n + 1) :: cs else cordAdvance (n + 1 - c.length) cs

/-- `ReadVarintFromCordLoop`, `CopyVarintFromCordLoop`, `SkipVarintFromCordLoop` (`varint_reading.cc:130-156`, `260-282`, `374-397`); `src` is already
moved by `index`. -/
def cordLoop (available index : Nat) (acc : α) (src : List Bytes) : Res α × List Bytes :=
  match src.head?.bind List.head? with
  | none => (.oob, src)
  | some b =>
    let byte := b.toNat
    let acc := upd index byte acc
    if kMaxLengthVarint w ≤ index + 1 then
      if 2 ^ (w - index * 7) ≤ byte then (.fail, src)
      else if canonical ∧ byte = 0 then (.fail, src)
      else (.ok acc, cordAdvance 1 src)
    else if 128 ≤ byte then
      if available = index + 1 then (.fail, src)
      else cordLoop available (index + 1) acc (cordAdvance 1 src)
    else if canonical ∧ byte = 0 then (.fail, src)
    else (.ok acc, cordAdvance 1 src)
termination_by kMaxLengthVarint w - index

/-- `ReadVarintFromCordBuffer`, `CopyVarintFromCordBuffer`, `SkipVarintFromCordBuffer` (`varint_reading.cc:485-504`, `616-633`, `710-722`) with `initial_index` 2,
and `ReadVarintFromCord`, `CopyVarintFromCord`, `SkipVarintFromCord` (`518-526`, `644-652`, `733-739`). `chunk`
is `Cord::ChunkRemaining(src)`. -/
def cordBuffer (available : Nat) (acc : α) (chunk : Bytes) (src : List Bytes) : Res α × List Bytes :=
  let inBuffer := min available chunk.length
  if kMaxLengthVarint w ≤ inBuffer ∨ (∃ b ∈ chunk[inBuffer - 1]?, b.toNat < 128) then
    match bufferLoop w canonical chunk 2 with
    | .oob => (.oob, src)
    | .fail => (.fail, src)
    | .ok n => (value upd chunk 2 (n - 2) acc, cordAdvance n src)
  else if available = 2 then (.fail, src)
  else cordLoop w canonical upd available 2 acc (cordAdvance 2 src)

/-- `ReadVarint{32,64}(Cord::CharIterator&)`, `ReadCanonicalVarint{32,64}(Cord::CharIterator&)` (`varint_reading.h:559-622`, `639-710`),
`CopyVarint{32,64}(Cord::CharIterator&)`, `CopyCanonicalVarint{32,64}(Cord::CharIterator&)` (`1006-1125`), `SkipVarint{32,64}(Cord::CharIterator&)`,
`SkipCanonicalVarint{32,64}(Cord::CharIterator&)` (`1358-1465`). -/
def fromCord (available : Nat) (init : α) (src : List Bytes) : Res α × List Bytes :=
  if available = 0 then (.fail, src)
  else
    match src.head?.bind List.head? with
    | none => (.oob, src)
    | some b0 =>
      let acc := upd 0 b0.toNat init
      if b0.toNat < 128 then (.ok acc, cordAdvance 1 src)
      else if available = 1 then (.fail, src)
      else
        let chunk := src.headD []
        if 2 ≤ chunk.length then
          match chunk[1]? with
          | none => (.oob, src)
          | some b1 =>
            let acc := upd 1 b1.toNat acc
            if b1.toNat < 128 then
              if canonical ∧ b1.toNat = 0 then (.fail, src) else (.ok acc, cordAdvance 2 src)
            else cordBuffer w canonical upd available acc chunk src
        else cordLoop w canonical upd available 1 acc (cordAdvance 1 src)

end

/-! ## `CountVarints()`, `VerifyBools()` -/

/-- `absl::popcount()`. -/
def popcount (n : Nat) : Nat := if n = 0 then 0 else n % 2 + popcount (n / 2)
termination_by n
decreasing_by omega

/-- The constant `0x8080808080808080` (`varint_reading.cc:783`, `793`). -/
def highBits : Nat := 0x8080808080808080

/-- The loop over whole blocks except for the last one (`varint_reading.cc:777-787`): the iteration stops when at most 8 bytes are left.
The result is the number of bytes counted so far, and the number of bytes processed. -/
def countBlocks (bs : Bytes) (cursor : Nat) (num : Nat) : Nat × Nat :=
  if bs.length - 8 ≤ cursor then (num, cursor)
  else countBlocks bs (cursor + 8) (num - popcount (leNat (slice bs cursor 8) &&& highBits))
termination_by bs.length - cursor
decreasing_by omega

/-- `CountVarints()` (`varint_reading.cc:764-803`), on a little-endian machine. -/
def countVarints (bs : Bytes) : Nat :=
  if bs.length < 8 then bs.foldl (fun n b => n - (b.toNat >>> 7)) bs.length
  else
    let r := countBlocks bs 0 bs.length
    let limit := bs.length - 8
    let mask := (highBits <<< ((r.2 - limit) * 8)) % 2 ^ 64
    r.1 - popcount (leNat (slice bs limit 8) &&& mask)

/-- The loop of `VerifyBools()` over whole blocks (`varint_reading.cc:816-822`). -/
def orBlocks (bs : Bytes) (cursor : Nat) (acc : Nat) : Nat :=
  if bs.length - 8 ≤ cursor then acc else orBlocks bs (cursor + 8) (acc ||| leNat (slice bs cursor 8))
termination_by bs.length - cursor
decreasing_by omega

/-- `VerifyBools()` (`varint_reading.cc:805-827`); `~uint64_t{0x0101010101010101}` is `0xfefefefefefefefe`. -/
def verifyBools (bs : Bytes) : Bool :=
  if bs.length < 8 then decide (bs.foldl (fun acc b => acc ||| b.toNat) 0 ≤ 1)
  else decide ((orBlocks bs 0 0 ||| leNat (slice bs (bs.length - 8) 8)) &&& 0xfefefefefefefefe = 0)

end Riegeli.Vio

import Verif.Block
/-!
# Chunk and block headers: model of `chunk_encoding/chunk.{h,cc}`, `records/block.h:32-81`

The hash function (`chunk_encoding/hash.cc`, HighwayHash with a fixed key) is an arbitrary
function `H : Bytes → UInt64`.
-/
set_option linter.unusedSimpArgs false
namespace Riegeli

/-- `Chunk` (`chunk_encoding/chunk.h:99-108`): 40 raw header bytes and the data (a `Chain`, here flat
bytes). -/
structure Chunk where
  header : Bytes
  data : Bytes
deriving DecidableEq, Repr

namespace Hdr
/-- `ChunkHeader::stored_header_hash` (`chunk.h:47-49`). -/
def storedHash (h : Bytes) : Nat := leNat (slice h 0 8)
/-- `ChunkHeader::data_size` (`chunk.h:50-52`). -/
def dataSize (h : Bytes) : Nat := leNat (slice h 8 8)
/-- `ChunkHeader::data_hash` (`chunk.h:53-55`). -/
def dataHash (h : Bytes) : Nat := leNat (slice h 16 8)
/-- `ChunkHeader::chunk_type` (`chunk.h:56-59`): low 8 bits. -/
def chunkType (h : Bytes) : Nat := leNat (slice h 24 8) % 256
/-- `ChunkHeader::num_records` (`chunk.h:60-62`): high 56 bits. -/
def numRecords (h : Bytes) : Nat := leNat (slice h 24 8) / 256
/-- `ChunkHeader::decoded_data_size` (`chunk.h:63-65`). -/
def decodedDataSize (h : Bytes) : Nat := leNat (slice h 32 8)
/-- `ChunkHeader::computed_header_hash` (`chunk.cc:42-45`): hash of the last 32 bytes. -/
def computedHash (H : Bytes → UInt64) (h : Bytes) : Nat := (H (slice h 8 32)).toNat
end Hdr

/-- `ChunkHeader::ChunkHeader(data, chunk_type, num_records, decoded_data_size)`
(`chunk.cc:30-40`). `chunk_type | (num_records << 8)` has disjoint bits, hence written as a sum. -/
def mkChunkHeader (H : Bytes → UInt64) (data : Bytes) (typ : UInt8) (num dec : Nat) : Bytes :=
  let rest := leBytes 8 data.length ++ leBytes 8 (H data).toNat
    ++ leBytes 8 (typ.toNat + num * 256) ++ leBytes 8 dec
  leBytes 8 (H rest).toNat ++ rest

/-- A chunk made by the `ChunkHeader` constructor. -/
def mkChunk (H : Bytes → UInt64) (data : Bytes) (typ : UInt8) (num dec : Nat) : Chunk :=
  ⟨mkChunkHeader H data typ num dec, data⟩

/-- `ChunkType::kFileSignature` (`constants.h:26`). -/
def kFileSignature : UInt8 := 115
/-- `ChunkType::kFileMetadata` (`constants.h:27`). -/
def kFileMetadata : UInt8 := 109
/-- `ChunkType::kPadding` (`constants.h:28`). -/
def kPadding : UInt8 := 112
/-- `ChunkType::kSimple` (`constants.h:29`). -/
def kSimple : UInt8 := 114
/-- `ChunkType::kTransposed` (`constants.h:30`). -/
def kTransposed : UInt8 := 116
/-- `kMaxNumRecords` (`constants.h:41-42`). -/
def kMaxNumRecords : Nat := 2 ^ 56 - 1

namespace BH
/-- `BlockHeader::stored_header_hash` (`records/block.h:53-55`). -/
def storedHash (h : Bytes) : Nat := leNat (slice h 0 8)
/-- `BlockHeader::previous_chunk` (`records/block.h:56-58`). -/
def previousChunk (h : Bytes) : Nat := leNat (slice h 8 8)
/-- `BlockHeader::next_chunk` (`records/block.h:59-61`). -/
def nextChunk (h : Bytes) : Nat := leNat (slice h 16 8)
/-- `BlockHeader::computed_header_hash` (`records/block.h:49-52`). -/
def computedHash (H : Bytes → UInt64) (h : Bytes) : Nat := (H (slice h 8 16)).toNat
end BH

/-- `BlockHeader::BlockHeader(previous_chunk, next_chunk)` (`records/block.h:38-42`). -/
def mkBlockHeader (H : Bytes → UInt64) (prev next : Nat) : Bytes :=
  let rest := leBytes 8 prev ++ leBytes 8 next
  leBytes 8 (H rest).toNat ++ rest

@[simp] theorem mkBlockHeader_length (H : Bytes → UInt64) (p n : Nat) :
    (mkBlockHeader H p n).length = 24 := by simp [mkBlockHeader]

@[simp] theorem mkChunkHeader_length (H : Bytes → UInt64) (d : Bytes) (t : UInt8) (n k : Nat) :
    (mkChunkHeader H d t n k).length = 40 := by simp [mkChunkHeader]

theorem slice_app3 {a b c : Bytes} {p n : Nat} (h1 : p = a.length) (h2 : n = b.length) :
    slice (a ++ (b ++ c)) p n = b := by
  subst h1 h2; simp [slice]

theorem mkBlockHeader_stored (H : Bytes → UInt64) (p n : Nat) :
    BH.storedHash (mkBlockHeader H p n) = BH.computedHash H (mkBlockHeader H p n) := by
  have h1 : slice (mkBlockHeader H p n) 0 8 = leBytes 8 (H (leBytes 8 p ++ leBytes 8 n)).toNat := by
    simp [mkBlockHeader, slice]
  have h2 : slice (mkBlockHeader H p n) 8 16 = leBytes 8 p ++ leBytes 8 n := by
    simp [mkBlockHeader, slice, List.drop_append, List.take_append, List.drop_of_length_le, List.take_of_length_le]
  rw [BH.storedHash, BH.computedHash, h1, h2, leNat_leBytes]
  exact Nat.mod_eq_of_lt (UInt64.toNat_lt _)

theorem mkBlockHeader_prev (H : Bytes → UInt64) {p n : Nat} (hp : p < 2 ^ 64) :
    BH.previousChunk (mkBlockHeader H p n) = p := by
  have h1 : slice (mkBlockHeader H p n) 8 8 = leBytes 8 p := by
    unfold mkBlockHeader; exact slice_app3 (by simp) (by simp)
  rw [BH.previousChunk, h1, leNat_leBytes]
  exact Nat.mod_eq_of_lt hp

theorem mkBlockHeader_next (H : Bytes → UInt64) {p n : Nat} (hn : n < 2 ^ 64) :
    BH.nextChunk (mkBlockHeader H p n) = n := by
  have h1 : slice (mkBlockHeader H p n) 16 8 = leBytes 8 n := by
    simp [mkBlockHeader, slice, List.drop_append, List.drop_of_length_le, List.take_of_length_le]
  rw [BH.nextChunk, h1, leNat_leBytes]
  exact Nat.mod_eq_of_lt hn

/-- Specification: a chunk whose header is consistent with itself and with the data. This is what
the file format document requires of a chunk. -/
structure WFChunk (H : Bytes → UInt64) (c : Chunk) : Prop where
  headerLen : c.header.length = 40
  headerHash : Hdr.storedHash c.header = (H (c.header.drop 8)).toNat
  dataSize : Hdr.dataSize c.header = c.data.length
  dataHash : Hdr.dataHash c.header = (H c.data).toNat

theorem computedHash_eq (H : Bytes → UInt64) {h : Bytes} (hl : h.length = 40) :
    Hdr.computedHash H h = (H (h.drop 8)).toNat := by
  unfold Hdr.computedHash slice
  rw [List.take_of_length_le]
  simp [hl]

section
variable (H : Bytes → UInt64) (data : Bytes) (typ : UInt8) (num dec : Nat)

theorem mkChunkHeader_dataSize (hd : data.length < 2 ^ 64) :
    Hdr.dataSize (mkChunkHeader H data typ num dec) = data.length := by
  have h1 : slice (mkChunkHeader H data typ num dec) 8 8 = leBytes 8 data.length := by
    simp [mkChunkHeader, slice, List.drop_append, List.take_append, List.drop_of_length_le, List.take_of_length_le]
  rw [Hdr.dataSize, h1, leNat_leBytes]; exact Nat.mod_eq_of_lt hd

theorem mkChunkHeader_dataHash :
    Hdr.dataHash (mkChunkHeader H data typ num dec) = (H data).toNat := by
  have h1 : slice (mkChunkHeader H data typ num dec) 16 8 = leBytes 8 (H data).toNat := by
    simp [mkChunkHeader, slice, List.drop_append, List.take_append, List.drop_of_length_le, List.take_of_length_le]
  rw [Hdr.dataHash, h1, leNat_leBytes]; exact Nat.mod_eq_of_lt (UInt64.toNat_lt _)

theorem mkChunkHeader_typeNum (hn : num < 2 ^ 56) :
    leNat (slice (mkChunkHeader H data typ num dec) 24 8) = typ.toNat + num * 256 := by
  have h1 : slice (mkChunkHeader H data typ num dec) 24 8 = leBytes 8 (typ.toNat + num * 256) := by
    simp [mkChunkHeader, slice, List.drop_append, List.take_append, List.drop_of_length_le, List.take_of_length_le]
  rw [h1, leNat_leBytes]
  have := typ.toNat_lt
  apply Nat.mod_eq_of_lt; omega

theorem mkChunkHeader_chunkType (hn : num < 2 ^ 56) :
    Hdr.chunkType (mkChunkHeader H data typ num dec) = typ.toNat := by
  rw [Hdr.chunkType, mkChunkHeader_typeNum _ _ _ _ _ hn]
  have := typ.toNat_lt; omega

theorem mkChunkHeader_numRecords (hn : num < 2 ^ 56) :
    Hdr.numRecords (mkChunkHeader H data typ num dec) = num := by
  rw [Hdr.numRecords, mkChunkHeader_typeNum _ _ _ _ _ hn]
  have := typ.toNat_lt; omega

theorem mkChunkHeader_decodedDataSize (hd : dec < 2 ^ 64) :
    Hdr.decodedDataSize (mkChunkHeader H data typ num dec) = dec := by
  have h1 : slice (mkChunkHeader H data typ num dec) 32 8 = leBytes 8 dec := by
    simp [mkChunkHeader, slice, List.drop_append, List.drop_of_length_le, List.take_of_length_le]
  rw [Hdr.decodedDataSize, h1, leNat_leBytes]; exact Nat.mod_eq_of_lt hd

/-- The `ChunkHeader` constructor makes well-formed chunks. -/
theorem mkChunk_wf (hd : data.length < 2 ^ 64) : WFChunk H (mkChunk H data typ num dec) where
  headerLen := by simp [mkChunk]
  headerHash := by
    have h1 : slice (mkChunkHeader H data typ num dec) 0 8 =
        leBytes 8 (H (List.drop 8 (mkChunkHeader H data typ num dec))).toNat := by
      simp [mkChunkHeader, slice]
    simp only [mkChunk, Hdr.storedHash]
    rw [h1, leNat_leBytes]; exact Nat.mod_eq_of_lt (UInt64.toNat_lt _)
  dataSize := mkChunkHeader_dataSize _ _ _ _ _ hd
  dataHash := mkChunkHeader_dataHash _ _ _ _ _
end

end Riegeli

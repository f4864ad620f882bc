import Verif.Chunk
/-!
# Specification of the file layout (`doc/riegeli_records_file_format.md`)

Positional and independent of how the writer or reader go about it: it says which byte is at which
position. A file is a sequence of chunks, each beginning where the previous one ends; the payload
of a chunk (header, data, zero padding) occupies the positions which are not in block headers; the
24 bytes at each multiple of 65536 are a block header giving the distances from/to the boundaries of
the enclosing chunk.
-/
namespace Riegeli
variable (H : Bytes → UInt64)

/-- Byte at position `p` of a chunk occupying `[cb, ce)`. -/
def chunkByte (cb ce : Nat) (payload : Bytes) (p : Nat) : UInt8 :=
  if p % 65536 < 24 then
    -- inside the block header at `p - p % 65536`
    (mkBlockHeader H (p - p % 65536 - cb) (ce - (p - p % 65536))).getD (p % 65536) 0
  else
    -- payload byte, or 0 after the payload
    payload.getD (usable cb p) 0

/-- The bytes at positions `[a, b)` of a chunk occupying `[cb, ce)`. -/
def chunkSeg (cb ce : Nat) (payload : Bytes) (a b : Nat) : Bytes :=
  (List.range' a (b - a)).map (chunkByte H cb ce payload)

/-- Where a chunk beginning at `cb` ends. -/
def Chunk.endAt (c : Chunk) (cb : Nat) : Nat :=
  chunkEnd (Hdr.dataSize c.header) (Hdr.numRecords c.header) cb

/-- All bytes of chunk `c` beginning at `cb`. -/
def chunkBytes (cb : Nat) (c : Chunk) : Bytes :=
  chunkSeg H cb (c.endAt cb) (c.header ++ c.data) cb (c.endAt cb)

/-- The bytes of consecutive chunks beginning at `pos`. -/
def fileBytes : Nat → List Chunk → Bytes
  | _, [] => []
  | pos, c :: cs => chunkBytes H pos c ++ fileBytes (c.endAt pos) cs

/-- The position after consecutive chunks beginning at `pos`. -/
def fileEnd : Nat → List Chunk → Nat
  | pos, [] => pos
  | pos, c :: cs => fileEnd (c.endAt pos) cs

/-- The chunks fit: each chunk is well-formed and really has room (no 64-bit overflow) in
`[pos, end)`. -/
def ChunksOk : Nat → List Chunk → Prop
  | _, [] => True
  | pos, c :: cs => WFChunk H c ∧
      (∃ e, e < 2 ^ 64 ∧ HoldsChunk (Hdr.dataSize c.header) (Hdr.numRecords c.header) pos e) ∧
      ChunksOk (c.endAt pos) cs

/-- A file signature chunk: no data, no records (`doc/riegeli_records_file_format.md`, "File
signature"). -/
def IsSignature (c : Chunk) : Prop :=
  Hdr.dataSize c.header = 0 ∧ Hdr.chunkType c.header = kFileSignature.toNat ∧
  Hdr.numRecords c.header = 0 ∧ Hdr.decodedDataSize c.header = 0

/-- A valid file: chunks laid out from position 0, the first one being a file signature. -/
structure ValidFile (cs : List Chunk) (f : Bytes) : Prop where
  ok : ChunksOk H 0 cs
  sig : ∀ c ∈ cs.head?, IsSignature c
  bytes : f = fileBytes H 0 cs

variable {H}

theorem chunkSeg_length (cb ce : Nat) (pl : Bytes) (a b : Nat) :
    (chunkSeg H cb ce pl a b).length = b - a := by simp [chunkSeg]

theorem chunkSeg_getElem? (cb ce : Nat) (pl : Bytes) (a b i : Nat) :
    (chunkSeg H cb ce pl a b)[i]? =
      if i < b - a then some (chunkByte H cb ce pl (a + i)) else none := by
  simp only [chunkSeg, List.getElem?_map]
  split
  · rename_i h
    rw [List.getElem?_eq_getElem (by simpa using h)]
    simp
  · rw [List.getElem?_eq_none (by simp; omega)]
    rfl

theorem chunkSeg_append {cb ce : Nat} {pl : Bytes} {a b c : Nat} (h1 : a ≤ b) (h2 : b ≤ c) :
    chunkSeg H cb ce pl a b ++ chunkSeg H cb ce pl b c = chunkSeg H cb ce pl a c := by
  simp only [chunkSeg, ← List.map_append]
  have h := List.range'_append (s := a) (m := b - a) (n := c - b) (step := 1)
  rw [show a + 1 * (b - a) = b by omega, show b - a + (c - b) = c - a by omega] at h
  rw [h]

theorem chunkSeg_self (cb ce : Nat) (pl : Bytes) (a : Nat) : chunkSeg H cb ce pl a a = [] := by
  simp [chunkSeg]

theorem slice_chunkSeg {cb ce : Nat} {pl : Bytes} {a b p n : Nat} (h : a + p + n ≤ b) :
    slice (chunkSeg H cb ce pl a b) p n = chunkSeg H cb ce pl (a + p) (a + p + n) := by
  apply List.ext_getElem?
  intro i
  simp only [slice_getElem?, chunkSeg_getElem?]
  have e1 : a + p + n - (a + p) = n := by omega
  rw [e1]
  split
  · rw [if_pos (by omega)]; simp [Nat.add_assoc]
  · rfl

/-- The bytes of a block header inside a chunk. -/
theorem chunkSeg_blockHeader {cb ce : Nat} {pl : Bytes} {b : Nat} (hb : b % 65536 = 0) :
    chunkSeg H cb ce pl b (b + 24) = mkBlockHeader H (b - cb) (ce - b) := by
  apply List.ext_getElem?
  intro i
  rw [chunkSeg_getElem?]
  split
  · rename_i h
    have h1 : (b + i) % 65536 = i := by omega
    have h2 : b + i - i = b := by omega
    have hlen : i < (mkBlockHeader H (b - cb) (ce - b)).length := by simp; omega
    rw [chunkByte, h1, if_pos (by omega), h2, List.getD_eq_getElem?_getD, List.getElem?_eq_getElem hlen]
    rfl
  · rw [List.getElem?_eq_none]; simp; omega

theorem usable_shift {cb p i : Nat} (h0 : cb ≤ p) (h : p % 65536 + i ≤ 65536) (h24 : 24 ≤ p % 65536) :
    usable cb (p + i) = usable cb p + i := by
  have a1 := usable_add_usableTo h0
  have a2 := usable_add_usableTo (show cb ≤ p + i by omega)
  have : usableTo (p + i) = usableTo p + i := by unfold usableTo; omega
  omega

/-- A run of payload bytes inside one block: for `p` outside a block header. -/
theorem chunkSeg_payload {cb ce : Nat} {pl : Bytes} {p n : Nat} (h0 : cb ≤ p)
    (h24 : 24 ≤ p % 65536) (hn : p % 65536 + n ≤ 65536) (hl : usable cb p + n ≤ pl.length) :
    chunkSeg H cb ce pl p (p + n) = slice pl (usable cb p) n := by
  apply List.ext_getElem?
  intro i
  rw [chunkSeg_getElem?, slice_getElem?, show p + n - p = n by omega]
  split
  · rename_i hi
    have h1 : ¬ (p + i) % 65536 < 24 := by omega
    rw [chunkByte, if_neg h1, usable_shift h0 (by omega) h24, List.getD_eq_getElem?_getD,
      List.getElem?_eq_getElem (by omega)]
    rfl
  · rfl

/-- A run of padding bytes inside one block. -/
theorem chunkSeg_zeros {cb ce : Nat} {pl : Bytes} {p n : Nat} (h0 : cb ≤ p)
    (h24 : 24 ≤ p % 65536) (hn : p % 65536 + n ≤ 65536) (hl : pl.length ≤ usable cb p) :
    chunkSeg H cb ce pl p (p + n) = List.replicate n 0 := by
  apply List.ext_getElem?
  intro i
  rw [chunkSeg_getElem?, List.getElem?_replicate, show p + n - p = n by omega]
  split
  · rename_i hi
    have h1 : ¬ (p + i) % 65536 < 24 := by omega
    rw [chunkByte, if_neg h1, usable_shift h0 (by omega) h24, List.getD_eq_getElem?_getD,
      List.getElem?_eq_none (by omega)]
    rfl
  · rfl

end Riegeli

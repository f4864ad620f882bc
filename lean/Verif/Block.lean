import Verif.Basic
/-!
# Block and chunk position arithmetic: model of `riegeli/records/block.h`

Every function is on `Nat` with the 64-bit wrap-around of the code written explicitly.
-/
namespace Riegeli

/-- `kBlockSize` (`records/block.h:81`). -/
def kBlockSize : Nat := 65536
/-- `BlockHeader::size()` (`records/block.h:49,78`): three `uint64_t`. -/
def kBlockHeaderSize : Nat := 24
/-- `kUsableBlockSize` (`records/block.h:83`). -/
def kUsableBlockSize : Nat := 65512
/-- `ChunkHeader::size()` (`chunk_encoding/chunk.h`): five `uint64_t`. -/
def kChunkHeaderSize : Nat := 40

/-- `IsBlockBoundary` (`records/block.h:86`). -/
def isBlockBoundary (pos : Nat) : Bool := pos % 65536 == 0

/-- `RoundDownToBlockBoundary` (`records/block.h:89-91`). -/
def roundDownToBlockBoundary (pos : Nat) : Nat := pos - pos % 65536

/-- `RemainingInBlock` (`records/block.h:94`): `(-pos) % kBlockSize` in unsigned 64-bit arithmetic. -/
def remainingInBlock (pos : Nat) : Nat := (w64 (2 ^ 64 - w64 pos)) % 65536

/-- `SaturatingSub` (`base/arithmetic.h`). -/
def satSub (a b : Nat) : Nat := if a < b then 0 else a - b

/-- `IsPossibleChunkBoundary` (`records/block.h:98-100`). -/
def isPossibleChunkBoundary (pos : Nat) : Bool := remainingInBlock pos < 65512

/-- `RoundUpToPossibleChunkBoundary` (`records/block.h:104-106`). -/
def roundUpToPossibleChunkBoundary (pos : Nat) : Nat :=
  w64 (pos + satSub (remainingInBlock pos) (65512 - 1))

/-- `RemainingInBlockHeader` (`records/block.h:110-112`). -/
def remainingInBlockHeader (pos : Nat) : Nat := satSub 24 (pos % 65536)

/-- `AddWithOverhead` (`records/block.h:116-123`). -/
def addWithOverhead (chunkBegin length : Nat) : Nat :=
  let numOverheadBlocks := w64 (length + w64 (chunkBegin + 65512 - 1) % 65536) / 65512
  w64 (chunkBegin + length + numOverheadBlocks * 24)

/-- `DistanceWithoutOverhead` (`records/block.h:127-137`), for `chunkBegin ≤ pos` (its assertion);
then no intermediate result of the code is negative, see `distanceWithoutOverhead_eq`. -/
def distanceWithoutOverhead (chunkBegin pos : Nat) : Nat :=
  (pos - min (pos % 65536) 24) - (chunkBegin - min (chunkBegin % 65536) 24)
    - (pos / 65536 - chunkBegin / 65536) * 24

/-- `ChunkEnd` (`records/block.h:140-144`), as a function of the two header fields it uses. -/
def chunkEnd (dataSize numRecords chunkBegin : Nat) : Nat :=
  max (addWithOverhead chunkBegin (w64 (40 + dataSize)))
    (roundUpToPossibleChunkBoundary (w64 (chunkBegin + numRecords)))

/-! ## Specification vocabulary, independent of the formulas above -/

/-- Specification: number of byte positions in `[a, b)` which are not inside a block header, i.e.
which carry chunk payload. Blocks are 65536 bytes, the first 24 of each are the block header
(`doc/riegeli_records_file_format.md`). -/
def usable (a b : Nat) : Nat :=
  ((List.range' a (b - a)).filter (fun p => 24 ≤ p % 65536)).length

/-- Specification: `pos` may be a chunk boundary: at the beginning of a block, or strictly after
the block header plus one byte. -/
def BoundaryOk (pos : Nat) : Prop := pos % 65536 = 0 ∨ 24 < pos % 65536

/-- Specification of the end of a chunk: `e` is an admissible boundary with room for the 40 byte
chunk header, the data, and one byte position per record. -/
def HoldsChunk (dataSize numRecords cb e : Nat) : Prop :=
  BoundaryOk e ∧ cb ≤ e ∧ 40 + dataSize ≤ usable cb e ∧ cb + numRecords ≤ e

/-- Closed form of the cumulative number of usable bytes before `x`. -/
def usableTo (x : Nat) : Nat := 65512 * (x / 65536) + (x % 65536 - 24)

theorem usable_succ {a b : Nat} (h : a ≤ b) :
    usable a (b + 1) = usable a b + (if 24 ≤ b % 65536 then 1 else 0) := by
  unfold usable
  rw [show b + 1 - a = (b - a) + 1 by omega, List.range'_concat]
  simp only [Nat.one_mul, List.filter_append, List.length_append]
  rw [show a + (b - a) = b by omega]
  split <;> simp_all

theorem usable_add_usableTo {a b : Nat} (h : a ≤ b) : usableTo a + usable a b = usableTo b := by
  induction h with
  | refl => simp [usable]
  | @step b hb ih =>
    have hb : a ≤ b := hb
    rw [usable_succ hb, ← Nat.add_assoc, ih]
    unfold usableTo
    split <;> omega

theorem usable_eq {a b : Nat} (h : a ≤ b) : usable a b = usableTo b - usableTo a := by
  have := usable_add_usableTo h; omega

theorem usable_add {a b c : Nat} (h : a ≤ b) (h' : b ≤ c) :
    usable a c = usable a b + usable b c := by
  have := usable_add_usableTo h
  have := usable_add_usableTo h'
  have := usable_add_usableTo (Nat.le_trans h h')
  omega

theorem usableTo_mono {a b : Nat} (h : a ≤ b) : usableTo a ≤ usableTo b := by
  have := usable_add_usableTo h; omega

/-! ## The model functions agree with the mathematics when nothing overflows -/

theorem remainingInBlock_eq (pos : Nat) : remainingInBlock pos = (65536 - pos % 65536) % 65536 := by
  unfold remainingInBlock w64; omega

theorem isPossibleChunkBoundary_iff (pos : Nat) :
    isPossibleChunkBoundary pos = true ↔ BoundaryOk pos := by
  unfold isPossibleChunkBoundary BoundaryOk
  rw [remainingInBlock_eq, decide_eq_true_iff]; omega

theorem roundUp_eq {pos : Nat} (h : pos < 2 ^ 64) :
    roundUpToPossibleChunkBoundary pos
      = if pos % 65536 = 0 ∨ 24 < pos % 65536 then pos else pos + (25 - pos % 65536) := by
  unfold roundUpToPossibleChunkBoundary satSub w64
  rw [remainingInBlock_eq]
  split <;> split <;> omega

theorem distanceWithoutOverhead_eq {a b : Nat} (h : a ≤ b) :
    distanceWithoutOverhead a b = usable a b := by
  rw [usable_eq h]
  unfold distanceWithoutOverhead usableTo
  omega

theorem addWithOverhead_le {cb len : Nat} :
    addWithOverhead cb len < 2 ^ 64 := by
  unfold addWithOverhead w64; exact Nat.mod_lt _ (by omega)

/-- Without overflow `addWithOverhead` is the exact formula. -/
theorem addWithOverhead_eq {cb len : Nat}
    (h : cb + len + (len + (cb + 65511) % 65536) / 65512 * 24 < 2 ^ 64) :
    addWithOverhead cb len = cb + len + (len + (cb + 65511) % 65536) / 65512 * 24 := by
  unfold addWithOverhead w64
  have h1 : (cb + 65512 - 1) % 2 ^ 64 % 65536 = (cb + 65511) % 65536 := by omega
  simp only [h1]
  have h2 : (len + (cb + 65511) % 65536) % 2 ^ 64 = len + (cb + 65511) % 65536 := by
    apply Nat.mod_eq_of_lt; omega
  rw [h2]; exact Nat.mod_eq_of_lt h

/-- The exact formula characterises the least position with `len` usable bytes after `cb`. -/
theorem overheadFormula_spec {cb len e : Nat} (hcb : BoundaryOk cb) (hlen : 0 < len)
    (he : e = cb + len + (len + (cb + 65511) % 65536) / 65512 * 24) :
    cb < e ∧ BoundaryOk e ∧ usableTo e = usableTo cb + len ∧ 24 ≤ (e - 1) % 65536 := by
  unfold BoundaryOk at *
  unfold usableTo
  omega

theorem roundUp_spec {pos : Nat} (h : pos < 2 ^ 64) :
    BoundaryOk (roundUpToPossibleChunkBoundary pos) ∧ pos ≤ roundUpToPossibleChunkBoundary pos ∧
    (∀ e, BoundaryOk e → pos ≤ e → roundUpToPossibleChunkBoundary pos ≤ e) ∧
    roundUpToPossibleChunkBoundary pos < 2 ^ 64 := by
  rw [roundUp_eq h]
  unfold BoundaryOk
  split
  · refine ⟨by omega, by omega, by intros; omega, h⟩
  · refine ⟨by omega, by omega, by intros; omega, by omega⟩

/-- If some position below 2^64 holds the chunk, `chunkEnd` is the least such. -/
theorem chunkEnd_spec {d n cb e : Nat} (hcb : BoundaryOk cb) (he : e < 2 ^ 64)
    (h : HoldsChunk d n cb e) :
    HoldsChunk d n cb (chunkEnd d n cb) ∧ chunkEnd d n cb ≤ e := by
  obtain ⟨hb, hle, hu, hn⟩ := h
  generalize hA : cb + (40 + d) + ((40 + d) + (cb + 65511) % 65536) / 65512 * 24 = A
  obtain ⟨a1, a2, a3, a4⟩ := overheadFormula_spec (cb := cb) (len := 40 + d) hcb (by omega) hA.symm
  have hUe := usable_add_usableTo hle
  have hAe : A ≤ e := by
    apply Nat.le_of_not_lt; intro hc
    have : usableTo e ≤ usableTo (A - 1) := usableTo_mono (by omega)
    have : usableTo (A - 1) + 1 = usableTo A := by
      unfold usableTo; omega
    omega
  have h40 : w64 (40 + d) = 40 + d := by unfold w64; apply Nat.mod_eq_of_lt; omega
  have hR := roundUp_spec (pos := cb + n) (by omega)
  have hn' : w64 (cb + n) = cb + n := by unfold w64; apply Nat.mod_eq_of_lt; omega
  have hadd : addWithOverhead cb (40 + d) = A := by
    rw [← hA]; apply addWithOverhead_eq; omega
  unfold chunkEnd
  rw [h40, hn', hadd]
  obtain ⟨r1, r2, r3, r4⟩ := hR
  have hRe := r3 e hb hn
  generalize roundUpToPossibleChunkBoundary (cb + n) = R at *
  refine ⟨⟨?_, by omega, ?_, by omega⟩, by omega⟩
  · rcases Nat.le_total A R with h | h
    · rw [Nat.max_eq_right h]; exact r1
    · rw [Nat.max_eq_left h]; exact a2
  · have := usable_add_usableTo (a := cb) (b := max A R) (by omega)
    have : usableTo A ≤ usableTo (max A R) := usableTo_mono (by omega)
    omega

end Riegeli

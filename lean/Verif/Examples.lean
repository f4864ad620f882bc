import Verif.FileProofs
import Verif.RecordSpec
/-!
# A concrete file, used to show that the hypotheses of the theorems are met

For every hash function: a file signature, a chunk of 100000 data bytes (which spans two blocks) with 3
records, and a small chunk.
-/
namespace Riegeli.Example
open Riegeli

variable (H : Bytes → UInt64)

/-- The file signature. -/
def sig : Chunk := mkChunk H [] kFileSignature 0 0
/-- Three records. -/
def recs1 : List Bytes := [List.replicate 50000 1, List.replicate 49990 2, List.replicate 10 3]
/-- A chunk with 100000 bytes of data. -/
def big : Chunk := mkChunk H (List.replicate 100000 7) kSimple 3 100000
/-- A chunk with 2 bytes of data. -/
def small : Chunk := mkChunk H [1, 2] kSimple 1 5
/-- The chunks of the file. -/
def chunks : List Chunk := [sig H, big H, small H]
/-- The file. -/
def file : Bytes := fileBytes H 0 (chunks H)

theorem sig_fields : Hdr.dataSize (sig H).header = 0 ∧ Hdr.numRecords (sig H).header = 0 :=
  ⟨mkChunkHeader_dataSize H [] _ 0 0 (by simp), mkChunkHeader_numRecords H [] _ 0 0 (by decide)⟩
theorem big_fields : Hdr.dataSize (big H).header = 100000 ∧ Hdr.numRecords (big H).header = 3 :=
  ⟨(mkChunkHeader_dataSize H _ _ 3 100000 (by rw [List.length_replicate]; decide)).trans List.length_replicate,
    mkChunkHeader_numRecords H _ _ 3 100000 (by decide)⟩
theorem small_fields : Hdr.dataSize (small H).header = 2 ∧ Hdr.numRecords (small H).header = 1 :=
  ⟨mkChunkHeader_dataSize H _ _ 1 5 (by simp), mkChunkHeader_numRecords H _ _ 1 5 (by decide)⟩

theorem sig_end : (sig H).endAt 0 = 64 := by
  unfold Chunk.endAt; rw [(sig_fields H).1, (sig_fields H).2]; decide
theorem big_end : (big H).endAt 64 = 100128 := by
  unfold Chunk.endAt; rw [(big_fields H).1, (big_fields H).2]; decide
theorem small_end : (small H).endAt 100128 = 100170 := by
  unfold Chunk.endAt; rw [(small_fields H).1, (small_fields H).2]; decide

theorem isSig : IsSignature (sig H) :=
  ⟨(sig_fields H).1, mkChunkHeader_chunkType H [] _ 0 0 (by decide), (sig_fields H).2,
    mkChunkHeader_decodedDataSize H [] _ 0 0 (by decide)⟩

theorem holds {d n a b : Nat} (h1 : BoundaryOk b) (h2 : a ≤ b) (h3 : 40 + d ≤ usableTo b - usableTo a)
    (h4 : a + n ≤ b) : HoldsChunk d n a b := ⟨h1, h2, by rw [usable_eq h2]; exact h3, h4⟩

theorem ok : ChunksOk H 0 (chunks H) := by
  refine ⟨mkChunk_wf H _ _ _ _ (by simp), ⟨64, by decide, ?_⟩, ?_⟩
  · show HoldsChunk (Hdr.dataSize (sig H).header) (Hdr.numRecords (sig H).header) 0 64
    rw [(sig_fields H).1, (sig_fields H).2]
    exact holds (by unfold BoundaryOk; omega) (by omega) (by unfold usableTo; omega) (by omega)
  · rw [sig_end]
    refine ⟨mkChunk_wf H _ _ _ _ (by rw [List.length_replicate]; decide), ⟨100128, by decide, ?_⟩, ?_⟩
    · rw [(big_fields H).1, (big_fields H).2]
      exact holds (by unfold BoundaryOk; omega) (by omega) (by unfold usableTo; omega) (by omega)
    · rw [big_end]
      refine ⟨mkChunk_wf H _ _ _ _ (by simp), ⟨100170, by decide, ?_⟩, trivial⟩
      rw [(small_fields H).1, (small_fields H).2]
      exact holds (by unfold BoundaryOk; omega) (by omega) (by unfold usableTo; omega) (by omega)

/-- The file is valid. -/
theorem valid : ValidFile H (chunks H) (file H) :=
  ⟨ok H, by intro c hc; simp [chunks] at hc; subst hc; exact isSig H, rfl⟩

theorem length : (file H).length = 100170 := by
  have h1 := (ok H).laid.length boundaryOk_zero
  have h2 : fileEnd 0 (chunks H) = 100170 := by
    simp only [chunks, fileEnd, sig_end, big_end, small_end]
  have h3 := (ok H).laid.boundary boundaryOk_zero
  unfold file
  rw [h1, h2]

/-- The records of each chunk of the file. -/
def recs (c : Chunk) : List Bytes :=
  if Hdr.numRecords c.header = 3 then recs1 else if Hdr.numRecords c.header = 1 then [[1, 2, 3, 4, 5]] else []

/-- A decoder which decodes them. -/
def parse (c : Chunk) : Option (List Nat × Bytes) := some (limitsFrom 0 (recs c), (recs c).flatten)

theorem decodes : ∀ c ∈ chunks H, DecodesTo parse c (recs c) := by
  intro c hc
  refine ⟨rfl, ?_⟩
  simp only [chunks, List.mem_cons, List.not_mem_nil, or_false] at hc
  rcases hc with rfl | rfl | rfl
  · simp [recs, (sig_fields H).2]
  · simp only [recs, (big_fields H).2, ↓reduceIte]; rfl
  · simp [recs, (small_fields H).2]

end Riegeli.Example

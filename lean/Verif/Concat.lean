import Verif.FileProofs
/-!
# Files can be concatenated at block boundaries
-/
namespace Riegeli
variable {H : Bytes → UInt64}

theorem usable_shift_block {K a b : Nat} (hK : 65536 ∣ K) (h : a ≤ b) : usable (a + K) (b + K) = usable a b := by
  have h1 := usable_add_usableTo h
  have h2 := usable_add_usableTo (show a + K ≤ b + K by omega)
  obtain ⟨k, rfl⟩ := hK
  unfold usableTo at *
  omega

theorem boundaryOk_shift {K a : Nat} (hK : 65536 ∣ K) : BoundaryOk (a + K) ↔ BoundaryOk a := by
  obtain ⟨k, rfl⟩ := hK
  unfold BoundaryOk
  rw [Nat.add_mul_mod_self_left]

theorem holdsChunk_shift {K d n cb e : Nat} (hK : 65536 ∣ K) :
    HoldsChunk d n (cb + K) (e + K) ↔ HoldsChunk d n cb e := by
  unfold HoldsChunk
  rw [boundaryOk_shift hK]
  constructor
  · rintro ⟨h1, h2, h3, h4⟩
    rw [usable_shift_block hK (by omega)] at h3
    exact ⟨h1, by omega, h3, by omega⟩
  · rintro ⟨h1, h2, h3, h4⟩
    rw [usable_shift_block hK (by omega)]
    exact ⟨h1, by omega, h3, by omega⟩

theorem endAt_shift {K pos : Nat} {c : Chunk} (hK : 65536 ∣ K) (hb : BoundaryOk pos)
    (he : ∃ e, e < 2 ^ 64 ∧ HoldsChunk (Hdr.dataSize c.header) (Hdr.numRecords c.header) pos e)
    (hlt : c.endAt pos + K < 2 ^ 64) : c.endAt (pos + K) = c.endAt pos + K := by
  have hs := endAt_spec hb he
  have hh := (holdsChunk_shift hK).2 hs.1
  have hb2 := (boundaryOk_shift hK).2 hb
  obtain ⟨a1, a2⟩ := chunkEnd_spec hb2 hlt hh
  have hx : chunkEnd (Hdr.dataSize c.header) (Hdr.numRecords c.header) (pos + K) = c.endAt (pos + K) := rfl
  rw [hx] at a1 a2
  have hge := a1.2.1
  obtain ⟨x, hx⟩ : ∃ x, c.endAt (pos + K) = x + K := ⟨c.endAt (pos + K) - K, by omega⟩
  rw [hx] at a1 a2 ⊢
  have h1 := (holdsChunk_shift hK).1 a1
  have := (chunkEnd_spec hb (show x < 2 ^ 64 by omega) h1).2
  have : c.endAt pos ≤ x := this
  omega

theorem chunkBytes_shift {K pos : Nat} {c : Chunk} (hK : 65536 ∣ K)
    (h : c.endAt (pos + K) = c.endAt pos + K) : chunkBytes H (pos + K) c = chunkBytes H pos c := by
  unfold chunkBytes
  rw [h]
  apply List.ext_getElem?
  intro i
  rw [chunkSeg_getElem?, chunkSeg_getElem?, show c.endAt pos + K - (pos + K) = c.endAt pos - pos by omega]
  split
  · congr 1
    unfold chunkByte
    have hm : (pos + K + i) % 65536 = (pos + i) % 65536 := by
      obtain ⟨k, rfl⟩ := hK; omega
    rw [hm, show pos + K + i = pos + i + K by omega, usable_shift_block hK (by omega)]
    split
    · congr 2 <;> omega
    · rfl
  · rfl

theorem fileShift {K : Nat} (hK : 65536 ∣ K) : ∀ (cs : List Chunk) (pos : Nat), BoundaryOk pos → ChunksOk H pos cs →
    fileEnd pos cs + K < 2 ^ 64 →
    ChunksOk H (pos + K) cs ∧ fileBytes H (pos + K) cs = fileBytes H pos cs ∧ fileEnd (pos + K) cs = fileEnd pos cs + K
  | [], pos, _, _, _ => ⟨trivial, rfl, rfl⟩
  | c :: cs, pos, hb, h, hlt => by
    obtain ⟨h1, h2, h3⟩ := h
    have hs := endAt_spec hb h2
    have hb' := (h3.laid.boundary hs.1.1).2
    simp only [fileEnd] at hlt
    have he := endAt_shift hK hb h2 (by omega)
    obtain ⟨i1, i2, i3⟩ := fileShift hK cs (c.endAt pos) hs.1.1 h3 hlt
    rw [← he] at i1 i2 i3
    refine ⟨⟨h1, ⟨c.endAt pos + K, by omega, (holdsChunk_shift hK).2 hs.1⟩, i1⟩, ?_, ?_⟩
    · simp only [fileBytes]; rw [chunkBytes_shift hK he, i2]
    · simp only [fileEnd]; rw [i3]

theorem ValidFile.concat {cs1 cs2 : List Chunk} {F1 F2 : Bytes} (h1 : ValidFile H cs1 F1)
    (h2 : ValidFile H cs2 F2) (hd : 65536 ∣ F1.length) (hlt : F1.length + F2.length < 2 ^ 64) :
    ValidFile H (cs1 ++ cs2) (F1 ++ F2) := by
  have l1 : F1.length = fileEnd 0 cs1 := by rw [h1.bytes, h1.ok.laid.length boundaryOk_zero]; omega
  have l2 : F2.length = fileEnd 0 cs2 := by rw [h2.bytes, h2.ok.laid.length boundaryOk_zero]; omega
  obtain ⟨a1, a2, a3⟩ := fileShift hd cs2 0 boundaryOk_zero h2.ok (by omega)
  rw [Nat.zero_add, l1] at a1 a2
  refine ⟨?_, ?_, ?_⟩
  · rw [chunksOk_append]; exact ⟨h1.ok, a1⟩
  · cases cs1 with
    | nil => exact h2.sig
    | cons c cs1 => exact h1.sig
  · rw [fileBytes_append, a2, ← h1.bytes, ← h2.bytes]

end Riegeli

import Verif.FileSpec
/-!
# Model of `riegeli/records/chunk_writer.cc`

The destination is modelled by the bytes appended to it; failures of the destination writer are
not modelled. Each function returns the bytes written and the new position.
-/
namespace Riegeli
variable (H : Bytes → UInt64)

/-- The block header part of `WriteSection`/`WritePadding` (`chunk_writer.cc:120-129, 145-154`):
bytes of the block header, written if `pos` is a block boundary, and the position after it. -/
def writeBlockHeader (cb ce pos : Nat) : Bytes × Nat :=
  if isBlockBoundary pos then (mkBlockHeader H (pos - cb) (ce - pos), pos + 24) else ([], pos)

theorem remaining_pos (cb ce pos : Nat) :
    0 < remainingInBlock (writeBlockHeader H cb ce pos).2 := by
  unfold writeBlockHeader isBlockBoundary
  rw [remainingInBlock_eq]
  by_cases h : pos % 65536 = 0 <;> simp [h] <;> omega

/-- `DefaultChunkWriterBase::WriteSection` (`chunk_writer.cc:112-139`). -/
def writeSection (cb ce pos : Nat) (src : Bytes) : Bytes × Nat :=
  if _h : src = [] then ([], pos)
  else
    let bh := writeBlockHeader H cb ce pos
    let len := min src.length (remainingInBlock bh.2)
    let rest := writeSection cb ce (bh.2 + len) (src.drop len)
    (bh.1 ++ src.take len ++ rest.1, rest.2)
termination_by src.length
decreasing_by
  have := remaining_pos H cb ce pos
  have : 0 < src.length := List.length_pos_iff.mpr _h
  simp only [List.length_drop]; omega

/-- `DefaultChunkWriterBase::WritePadding(chunk_begin, chunk_end, dest)`
(`chunk_writer.cc:141-163`). -/
def writePaddingTo (cb ce pos : Nat) : Bytes × Nat :=
  if h : pos < ce then
    let bh := writeBlockHeader H cb ce pos
    let len := min (ce - bh.2) (remainingInBlock bh.2)
    if h2 : bh.2 + len ≤ pos then ([], pos)  -- unreachable: `len > 0` or `bh.2 > pos`
    else
      let rest := writePaddingTo cb ce (bh.2 + len)
      (bh.1 ++ List.replicate len 0 ++ rest.1, rest.2)
  else ([], pos)
termination_by ce - pos
decreasing_by
  have h3 : ¬ (writeBlockHeader H cb ce pos).2 + min (ce - (writeBlockHeader H cb ce pos).2)
      (remainingInBlock (writeBlockHeader H cb ce pos).2) ≤ pos := h2
  omega

/-- `DefaultChunkWriterBase::WriteChunk` (`chunk_writer.cc:85-110`). -/
def writeChunk (pos : Nat) (c : Chunk) : Bytes × Nat :=
  let ce := c.endAt pos
  let s1 := writeSection H pos ce pos c.header
  let s2 := writeSection H pos ce s1.2 c.data
  let s3 := writePaddingTo H pos ce s2.2
  (s1.1 ++ s2.1 ++ s3.1, s3.2)

/-! ## The writer implements the layout specification -/
variable {H}

/-- One section lays out its bytes at the right places. -/
theorem writeSection_spec {cb ce : Nat} {pl : Bytes} {pos : Nat} {src : Bytes} {l : Nat}
    (h0 : cb ≤ pos) (hb : BoundaryOk pos) (hl : usable cb pos = l)
    (hs : slice pl l src.length = src) :
    let r := writeSection H cb ce pos src
    r.1 = chunkSeg H cb ce pl pos r.2 ∧ pos ≤ r.2 ∧ BoundaryOk r.2 ∧
      usable cb r.2 = l + src.length := by
  induction hn : src.length using Nat.strongRecOn generalizing pos src l with
  | _ n ih =>
  subst hn
  rw [writeSection]
  by_cases h : src = []
  · subst h; simp [chunkSeg_self, hb, hl]
  · have hlen : 0 < src.length := List.length_pos_iff.mpr h
    have hll : l + src.length ≤ pl.length := by
      have := congrArg List.length hs
      rw [slice_length] at this; omega
    simp only [h, dif_neg, not_false_eq_true]
    -- position after the block header
    have hbh : ∃ p1, writeBlockHeader H cb ce pos = (chunkSeg H cb ce pl pos p1, p1) ∧ pos ≤ p1 ∧
        24 ≤ p1 % 65536 ∧ usable cb p1 = l := by
      unfold writeBlockHeader isBlockBoundary
      by_cases hz : pos % 65536 = 0
      · refine ⟨pos + 24, ?_, by omega, by omega, ?_⟩
        · simp [hz, chunkSeg_blockHeader hz]
        · have a1 := usable_add_usableTo h0
          have a2 := usable_add_usableTo (show cb ≤ pos + 24 by omega)
          have : usableTo (pos + 24) = usableTo pos := by unfold usableTo; omega
          omega
      · refine ⟨pos, ?_, Nat.le_refl _, ?_, hl⟩
        · simp [hz, chunkSeg_self]
        · unfold BoundaryOk at hb; omega
    obtain ⟨p1, hw, hp1, h24, hu⟩ := hbh
    rw [hw]
    simp only
    have hrem : remainingInBlock p1 = 65536 - p1 % 65536 := by
      rw [remainingInBlock_eq]; omega
    generalize hk : min src.length (remainingInBlock p1) = k
    have hk1 : 0 < k := by omega
    have hu2 : usable cb (p1 + k) = l + k := by
      rw [usable_shift (by omega) (by omega) h24, hu]
    have hdrop : slice pl (l + k) (src.drop k).length = src.drop k := by
      conv => rhs; rw [← hs]
      rw [List.length_drop]
      simp [slice, List.drop_take]
    have hih := ih (src.drop k).length (by rw [List.length_drop]; omega) (pos := p1 + k)
      (src := src.drop k) (l := l + k) (by omega) (by unfold BoundaryOk; omega) hu2 hdrop rfl
    simp only [List.length_drop] at hih
    obtain ⟨e1, e2, e3, e4⟩ := hih
    refine ⟨?_, by omega, e3, by omega⟩
    rw [e1]
    have htake : src.take k = chunkSeg H cb ce pl p1 (p1 + k) := by
      rw [chunkSeg_payload (by omega) h24 (by omega) (by omega), hu]
      conv => lhs; rw [← hs]
      simp [slice, List.take_take]; omega
    rw [htake, chunkSeg_append (by omega) (by omega), chunkSeg_append (by omega) (by omega)]

/-- Padding is laid out at the right places and ends exactly at the chunk end. -/
theorem writePaddingTo_spec {cb ce : Nat} {pl : Bytes} {pos : Nat}
    (h0 : cb ≤ pos) (hb : BoundaryOk pos) (hl : pl.length ≤ usable cb pos)
    (hce : pos ≤ ce) (hbe : BoundaryOk ce) :
    writePaddingTo H cb ce pos = (chunkSeg H cb ce pl pos ce, ce) := by
  induction hn : ce - pos using Nat.strongRecOn generalizing pos with
  | _ n ih =>
  subst hn
  rw [writePaddingTo]
  by_cases h : pos < ce
  · simp only [h, dif_pos]
    have hbh : ∃ p1, writeBlockHeader H cb ce pos = (chunkSeg H cb ce pl pos p1, p1) ∧ pos ≤ p1 ∧
        24 ≤ p1 % 65536 ∧ usable cb p1 = usable cb pos ∧ p1 < ce := by
      unfold writeBlockHeader isBlockBoundary
      by_cases hz : pos % 65536 = 0
      · refine ⟨pos + 24, ?_, by omega, by omega, ?_, ?_⟩
        · simp [hz, chunkSeg_blockHeader hz]
        · have a1 := usable_add_usableTo h0
          have a2 := usable_add_usableTo (show cb ≤ pos + 24 by omega)
          have : usableTo (pos + 24) = usableTo pos := by unfold usableTo; omega
          omega
        · unfold BoundaryOk at hbe; omega
      · refine ⟨pos, ?_, Nat.le_refl _, ?_, rfl, h⟩
        · simp [hz, chunkSeg_self]
        · unfold BoundaryOk at hb; omega
    obtain ⟨p1, hw, hp1, h24, hu, hlt⟩ := hbh
    rw [hw]
    simp only
    have hrem : remainingInBlock p1 = 65536 - p1 % 65536 := by
      rw [remainingInBlock_eq]; omega
    generalize hk : min (ce - p1) (remainingInBlock p1) = k
    have hk1 : 0 < k := by omega
    rw [dif_neg (by omega)]
    have hu2 : usable cb (p1 + k) = usable cb p1 + k := usable_shift (by omega) (by omega) h24
    rw [ih (ce - (p1 + k)) (by omega) (pos := p1 + k) (by omega)
      (by unfold BoundaryOk; omega) (by omega) (by omega) rfl]
    rw [← chunkSeg_zeros (H := H) (cb := cb) (ce := ce) (pl := pl) (by omega) h24 (n := k) (by omega) (by omega)]
    simp only [Prod.mk.injEq, and_true]
    rw [chunkSeg_append (by omega) (by omega), chunkSeg_append (by omega) (by omega)]
  · have : pos = ce := by omega
    subst this
    simp [chunkSeg_self]

theorem usable_self (a : Nat) : usable a a = 0 := by simp [usable]

/-- `WriteChunk` writes exactly the bytes the layout specification says, and moves to the chunk
end. -/
theorem writeChunk_eq {pos : Nat} {c : Chunk} (hwf : WFChunk H c) (hb : BoundaryOk pos)
    (he : HoldsChunk (Hdr.dataSize c.header) (Hdr.numRecords c.header) pos (c.endAt pos)) :
    writeChunk H pos c = (chunkBytes H pos c, c.endAt pos) := by
  obtain ⟨hbe, hle, hu, -⟩ := he
  unfold writeChunk chunkBytes
  have hs1 := writeSection_spec (H := H) (cb := pos) (ce := c.endAt pos) (pl := c.header ++ c.data)
    (pos := pos) (src := c.header) (l := 0) (Nat.le_refl _) hb (usable_self _)
    (by simp [slice])
  simp only at hs1
  obtain ⟨a1, a2, a3, a4⟩ := hs1
  simp only
  generalize writeSection H pos (c.endAt pos) pos c.header = s1 at *
  have hs2 := writeSection_spec (H := H) (cb := pos) (ce := c.endAt pos) (pl := c.header ++ c.data)
    (pos := s1.2) (src := c.data) (l := c.header.length) a2 a3 (by omega)
    (by simp [slice])
  simp only at hs2
  obtain ⟨b1, b2, b3, b4⟩ := hs2
  generalize writeSection H pos (c.endAt pos) s1.2 c.data = s2 at *
  have hlen := hwf.headerLen
  have hds := hwf.dataSize
  have hle2 : s2.2 ≤ c.endAt pos := by
    apply Nat.le_of_not_lt; intro hlt
    -- the last byte before `s2.2` is usable
    have u1 := usable_add_usableTo (show pos ≤ s2.2 by omega)
    have u2 := usable_add_usableTo (show pos ≤ c.endAt pos by omega)
    have u3 : usableTo (c.endAt pos) ≤ usableTo (s2.2 - 1) := usableTo_mono (by omega)
    have u4 : usableTo (s2.2 - 1) + 1 = usableTo s2.2 := by
      unfold BoundaryOk at b3; unfold usableTo; omega
    omega
  rw [writePaddingTo_spec (pl := c.header ++ c.data) (by omega) b3
    (by simp only [List.length_append]; omega) hle2 hbe]
  simp only [Prod.mk.injEq, and_true]
  rw [a1, b1, chunkSeg_append a2 b2, chunkSeg_append (by omega) hle2]

end Riegeli

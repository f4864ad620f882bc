import Verif.ChunkReaderProofs
/-!
# Files as sequences of chunks: boundaries, containment of each chunk, sequential reading
-/
namespace Riegeli
open CR
variable {H : Bytes → UInt64}

/-- Like `ChunksOk` but without the requirement that the data match the data hash. -/
def ChunksLaid (H : Bytes → UInt64) : Nat → List Chunk → Prop
  | _, [] => True
  | pos, c :: cs => c.header.length = 40 ∧ Hdr.storedHash c.header = (H (c.header.drop 8)).toNat ∧
      Hdr.dataSize c.header = c.data.length ∧
      (∃ e, e < 2 ^ 64 ∧ HoldsChunk (Hdr.dataSize c.header) (Hdr.numRecords c.header) pos e) ∧
      ChunksLaid H (c.endAt pos) cs

theorem ChunksOk.laid : ∀ {pos : Nat} {cs : List Chunk}, ChunksOk H pos cs → ChunksLaid H pos cs
  | _, [], _ => trivial
  | _, _ :: _, ⟨hw, he, h⟩ => ⟨hw.headerLen, hw.headerHash, hw.dataSize, he, h.laid⟩

theorem endAt_spec {pos : Nat} {c : Chunk} (hb : BoundaryOk pos)
    (h : ∃ e, e < 2 ^ 64 ∧ HoldsChunk (Hdr.dataSize c.header) (Hdr.numRecords c.header) pos e) :
    HoldsChunk (Hdr.dataSize c.header) (Hdr.numRecords c.header) pos (c.endAt pos) ∧
      c.endAt pos < 2 ^ 64 := by
  obtain ⟨e, he, hh⟩ := h
  have := chunkEnd_spec hb he hh
  exact ⟨this.1, Nat.lt_of_le_of_lt this.2 he⟩

theorem HoldsChunk.gt {d n cb e : Nat} (h : HoldsChunk d n cb e) : cb + 40 ≤ e := by
  obtain ⟨h1, h2, h3, h4⟩ := h
  have h5 : usable cb e ≤ e - cb := by
    unfold usable
    refine Nat.le_trans (List.length_filter_le _ _) ?_
    simp
  omega

theorem ChunksLaid.boundary : ∀ {cs : List Chunk} {pos : Nat}, BoundaryOk pos → ChunksLaid H pos cs →
    BoundaryOk (fileEnd pos cs) ∧ pos ≤ fileEnd pos cs
  | [], pos, hb, _ => ⟨hb, Nat.le_refl _⟩
  | c :: cs, pos, hb, ⟨_, _, _, he, h⟩ => by
    have hs := endAt_spec hb he
    have := ChunksLaid.boundary hs.1.1 h
    exact ⟨this.1, Nat.le_trans hs.1.2.1 this.2⟩

theorem ChunksLaid.fileEnd_lt : ∀ {cs : List Chunk} {pos : Nat}, pos < 2 ^ 64 → BoundaryOk pos →
    ChunksLaid H pos cs → fileEnd pos cs < 2 ^ 64
  | [], pos, h, _, _ => h
  | c :: cs, pos, _, hb, ⟨_, _, _, he, h⟩ => by
    have hs := endAt_spec hb he
    show fileEnd (c.endAt pos) cs < 2 ^ 64
    exact ChunksLaid.fileEnd_lt hs.2 hs.1.1 h

theorem fileEnd_append (pos : Nat) (a b : List Chunk) :
    fileEnd pos (a ++ b) = fileEnd (fileEnd pos a) b := by
  induction a generalizing pos with
  | nil => rfl
  | cons c a ih => simp [fileEnd, ih]

theorem fileBytes_append (pos : Nat) (a b : List Chunk) :
    fileBytes H pos (a ++ b) = fileBytes H pos a ++ fileBytes H (fileEnd pos a) b := by
  induction a generalizing pos with
  | nil => rfl
  | cons c a ih => simp [fileBytes, fileEnd, ih]

theorem chunksLaid_append (pos : Nat) (a b : List Chunk) :
    ChunksLaid H pos (a ++ b) ↔ ChunksLaid H pos a ∧ ChunksLaid H (fileEnd pos a) b := by
  induction a generalizing pos with
  | nil => simp [ChunksLaid, fileEnd]
  | cons c a ih => simp [ChunksLaid, fileEnd, ih, and_assoc]

theorem chunksOk_append (pos : Nat) (a b : List Chunk) :
    ChunksOk H pos (a ++ b) ↔ ChunksOk H pos a ∧ ChunksOk H (fileEnd pos a) b := by
  induction a generalizing pos with
  | nil => simp [ChunksOk, fileEnd]
  | cons c a ih => simp [ChunksOk, fileEnd, ih, and_assoc]

theorem chunkBytes_length (pos : Nat) (c : Chunk) :
    (chunkBytes H pos c).length = c.endAt pos - pos := chunkSeg_length _ _ _ _ _

theorem ChunksLaid.length : ∀ {cs : List Chunk} {pos : Nat}, BoundaryOk pos → ChunksLaid H pos cs →
    (fileBytes H pos cs).length = fileEnd pos cs - pos
  | [], pos, _, _ => by simp [fileBytes, fileEnd]
  | c :: cs, pos, hb, ⟨_, _, _, he, h⟩ => by
    have hs := endAt_spec hb he
    have h1 := ChunksLaid.boundary hs.1.1 h
    have h2 := hs.1.2.1
    simp only [fileBytes, fileEnd, List.length_append, chunkBytes_length,
      ChunksLaid.length hs.1.1 h]
    omega

theorem boundaryOk_zero : BoundaryOk 0 := Or.inl rfl

/-- Each chunk is contained in the file at its position. -/
theorem chunkAt_of_laid {pre post : List Chunk} {c : Chunk}
    (h : ChunksLaid H 0 (pre ++ c :: post))
    (hsig : pre = [] → IsSignature c) :
    ChunkAt H (fileBytes H 0 (pre ++ c :: post)) (fileEnd 0 pre) c := by
  rw [chunksLaid_append] at h
  obtain ⟨h1, h2⟩ := h
  have hb := (h1.boundary boundaryOk_zero).1
  have hlen := h1.length boundaryOk_zero
  obtain ⟨a1, a2, a3, a4, a5⟩ := h2
  have hs := endAt_spec hb a4
  have hle := hs.1.2.1
  have hpos := (h1.boundary boundaryOk_zero).2
  refine ⟨a1, a2, a3, hb, hs.1, hs.2, ?_, ?_, ?_⟩
  · rw [fileBytes_append]
    simp only [fileBytes, List.length_append, hlen, chunkBytes_length]
    omega
  · intro p n hp hn
    rw [fileBytes_append, slice_append_left_ge (by rw [hlen]; omega), hlen]
    simp only [fileBytes]
    rw [slice_append_left_le (by rw [chunkBytes_length]; omega), chunkBytes,
      slice_chunkSeg (by omega)]
    congr 1 <;> omega
  · intro h0
    apply hsig
    cases pre with
    | nil => rfl
    | cons d pre =>
      exfalso
      obtain ⟨_, _, _, he, hr⟩ := h1
      have hs' := endAt_spec boundaryOk_zero he
      have := hs'.1.gt
      have := (hr.boundary hs'.1.1).2
      simp only [fileEnd] at h0
      omega

/-- The reader is at the chunk boundary `cb` with nothing read from the chunk, except possibly
(part of) the block header at `cb`. -/
structure AtBoundary (f : Bytes) (cb : Nat) (s : CR) : Prop where
  pos : s.pos = cb
  err : s.err = none
  rcv : s.rcv = .no
  data : s.data = []
  hl : s.hdr.length = 40
  bl : s.bh.length = 24
  hf : s.srcPos ≤ f.length
  src : s.srcPos = cb ∨ (cb % 65536 = 0 ∧ cb < s.srcPos ∧ s.srcPos ≤ cb + 24 ∧
    s.bh.take (s.srcPos - cb) = slice f cb (s.srcPos - cb))

theorem AtBoundary.mid {F f : Bytes} {cb : Nat} {c : Chunk} {s : CR} (ha : AtBoundary f cb s)
    (hc : ChunkAt H F cb c) (hp : f <+: F) : Mid H f cb c s := by
  have hgt := hc.holds.gt
  have hbe := hc.holds.1
  have hpos : s.srcPos = cb ∨ (cb % 65536 = 0 ∧ cb < s.srcPos ∧ s.srcPos ≤ cb + 24) := by
    rcases ha.src with h | ⟨h1, h2, h3, _⟩
    · exact Or.inl h
    · exact Or.inr ⟨h1, h2, h3⟩
  have hu : usable cb s.srcPos = 0 := by
    rcases hpos with h | ⟨h1, h2, h3⟩
    · rw [h]; simp [usable]
    · have := usable_add_usableTo (show cb ≤ s.srcPos by omega)
      unfold usableTo at this; omega
  have hle : s.srcPos ≤ c.endAt cb := by omega
  constructor
  · exact ha.pos
  · exact ha.err
  · exact ha.rcv
  · omega
  · omega
  · exact ha.hf
  · exact ha.hl
  · exact ha.bl
  · rw [hu]; simp
  · rw [hu, ha.data]; simp
  · intro _ h2
    rcases ha.src with h | ⟨g1, g2, g3, g4⟩
    · have : s.srcPos % 65536 = 0 := by omega
      rw [this]; simp
    · have e1 : s.srcPos % 65536 = s.srcPos - cb := by omega
      have e2 : s.srcPos - s.srcPos % 65536 = cb := by omega
      have hf := ha.hf
      rw [e2, e1, g4, slice_prefix hp (by omega), hc.seg cb _ (Nat.le_refl _) (by omega)]
      rw [← chunkSeg_blockHeader (H := H) (pl := c.header ++ c.data) g1]
      have := slice_chunkSeg (H := H) (cb := cb) (ce := c.endAt cb) (pl := c.header ++ c.data)
        (a := cb) (b := cb + 24) (p := 0) (n := s.srcPos - cb) (by omega)
      simp only [slice, List.drop_zero, Nat.add_zero] at this
      exact this.symm

/-- The state of a reader which has been reading a file `f` sequentially, when the next chunk boundary
is `cb`. If there is a chunk there in the (eventual) file, part of it may have been read. -/
def Reading (H : Bytes → UInt64) (f : Bytes) (cb : Nat) (cs : List Chunk) (s : CR) : Prop :=
  match cs with
  | [] => AtBoundary f cb s
  | c :: _ => Mid H f cb c s

theorem AtBoundary.mono {f g : Bytes} {cb : Nat} {s : CR} (h : AtBoundary f cb s) (hp : f <+: g) :
    AtBoundary g cb s := by
  refine ⟨h.pos, h.err, h.rcv, h.data, h.hl, h.bl, Nat.le_trans h.hf hp.length_le, ?_⟩
  have hf := h.hf
  rcases h.src with h | ⟨h1, h2, h3, h4⟩
  · exact Or.inl h
  · refine Or.inr ⟨h1, h2, h3, ?_⟩
    rw [h4, slice_prefix hp (by omega)]

theorem Mid.mono {f g : Bytes} {cb : Nat} {c : Chunk} {s : CR} (h : Mid H f cb c s) (hp : f <+: g) :
    Mid H g cb c s :=
  ⟨h.pos, h.err, h.rcv, h.lo, h.hi, Nat.le_trans h.hf hp.length_le, h.hl, h.bl, h.hdr, h.data, h.bh⟩

theorem Reading.mono {f g : Bytes} {cb : Nat} {cs : List Chunk} {s : CR}
    (h : Reading H f cb cs s) (hp : f <+: g) : Reading H g cb cs s := by
  unfold Reading at *
  cases cs with
  | nil => exact AtBoundary.mono h hp
  | cons c cs => exact Mid.mono h hp

/-- At the end of the file, `ReadChunk` returns false, without failing, whether or not
anything was there. -/
theorem readChunk_at_end {f : Bytes} {s : CR} (ha : AtBoundary f f.length s) (hb : BoundaryOk f.length) :
    s.readChunk H f = (none, { s with truncated := false }) := by
  have hsrc : s.srcPos = f.length := by
    have := ha.hf
    rcases ha.src with h | ⟨_, h, _⟩
    · exact h
    · omega
  unfold readChunk pullChunkHeader
  have hpos := ha.pos
  rw [if_neg (by simp [ha.err])]
  simp only [hpos, hsrc]
  rw [if_neg (by omega), distanceWithoutOverhead_eq (Nat.le_refl _)]
  rw [if_pos (by simp [usable])]
  have hloop : ∀ t : CR, t.pos = f.length → t.srcPos = f.length → t.bh.length = 24 →
      t.hdr.length = 40 → t.readChunkHeader H f = (false, t) := by
    intro t h1 h2 h3 h3'
    unfold readChunkHeader
    rw [show (3 : Nat) = 2 + 1 from rfl, readChunkHeaderLoop]
    unfold passBlockHeader
    rw [h2, remainingInBlockHeader_eq]
    by_cases hz : f.length % 65536 = 0
    · rw [if_pos (by omega)]
      have hr : srcRead f f.length 24 = (false, [], f.length) := by
        unfold srcRead
        rw [if_neg (by omega)]; simp
      simp only [readBlockHeader, remainingInBlockHeader_eq, h2, hz, Nat.sub_zero, hr, ↓reduceIte,
        Nat.sub_self]
      simp only [failReading, h1]
      rw [if_neg (by omega)]
      have : putAt t.bh 0 [] = t.bh := by simp [putAt]
      rw [this]
      congr 1
      cases t; simp_all
    · have h24 : 24 ≤ f.length % 65536 := by unfold BoundaryOk at hb; omega
      rw [if_neg (by omega)]
      simp only [h1, h2, distanceWithoutOverhead_eq (Nat.le_refl f.length)]
      have hu : usable f.length f.length = 0 := by simp [usable]
      rw [hu]
      have hrem : 0 < remainingInBlock f.length := by rw [remainingInBlock_eq]; omega
      have hr : srcRead f f.length (min (40 - 0) (remainingInBlock f.length)) =
          (false, [], f.length) := by
        unfold srcRead
        rw [if_neg (by omega)]; simp
      rw [hr]
      simp only [↓reduceIte, failReading]
      rw [if_neg (by omega)]
      have : putAt t.hdr 0 [] = t.hdr := by simp [putAt]
      rw [this]
      congr 1
      cases t; simp_all
  have := hloop { s with truncated := false, pos := f.length, srcPos := f.length } rfl rfl ha.bl ha.hl
  rw [this]

end Riegeli

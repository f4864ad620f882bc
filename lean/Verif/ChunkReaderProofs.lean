import Verif.ChunkReader
/-!
# The chunk reader on (a prefix of) a file which contains a chunk

Lemmas; the property theorems are in `Verif/Props`.
-/
namespace Riegeli
open CR

/-- `F` contains the chunk `c` at `cb`, laid out as specified. Its data need not match the
data hash of its header (to cover damaged data). -/
structure ChunkAt (H : Bytes → UInt64) (F : Bytes) (cb : Nat) (c : Chunk) : Prop where
  hlen : c.header.length = 40
  hhash : Hdr.storedHash c.header = (H (c.header.drop 8)).toNat
  dsize : Hdr.dataSize c.header = c.data.length
  hb : BoundaryOk cb
  holds : HoldsChunk (Hdr.dataSize c.header) (Hdr.numRecords c.header) cb (c.endAt cb)
  lt : c.endAt cb < 2 ^ 64
  len : c.endAt cb ≤ F.length
  seg : ∀ p n, cb ≤ p → p + n ≤ c.endAt cb →
    slice F p n = chunkSeg H cb (c.endAt cb) (c.header ++ c.data) p (p + n)
  sig : cb = 0 → IsSignature c

/-- The reader is in the middle of reading chunk `c` at `cb` (possibly at its beginning): what it has
buffered is what the file has. -/
structure Mid (H : Bytes → UInt64) (f : Bytes) (cb : Nat) (c : Chunk) (s : CR) : Prop where
  pos : s.pos = cb
  err : s.err = none
  rcv : s.rcv = .no
  lo : cb ≤ s.srcPos
  hi : s.srcPos ≤ c.endAt cb
  hf : s.srcPos ≤ f.length
  hl : s.hdr.length = 40
  bl : s.bh.length = 24
  hdr : s.hdr.take (usable cb s.srcPos) = c.header.take (usable cb s.srcPos)
  data : s.data = c.data.take (usable cb s.srcPos - 40)
  bh : usable cb s.srcPos < 40 + c.data.length →
    cb ≤ s.srcPos - s.srcPos % 65536 →
    s.bh.take (s.srcPos % 65536) =
      (mkBlockHeader H (s.srcPos - s.srcPos % 65536 - cb)
        (c.endAt cb - (s.srcPos - s.srcPos % 65536))).take (s.srcPos % 65536)

/-- The reader has read everything there is and needs more: it stopped at the end of the file, in the
middle of the chunk. -/
structure Stuck (H : Bytes → UInt64) (f : Bytes) (cb : Nat) (c : Chunk) (s : CR) : Prop where
  mid : Mid H f cb c s
  eof : s.srcPos = f.length
  short : f.length < c.endAt cb
  trunc : s.truncated = decide (cb < f.length)

variable {H : Bytes → UInt64}

theorem sub64_eq {a b : Nat} (h : b ≤ a) (ha : a < 2 ^ 64) : sub64 a b = a - b := by
  unfold sub64 w64
  rw [Nat.mod_eq_of_lt (show b < 2 ^ 64 by omega)]
  omega

theorem remainingInBlockHeader_eq (p : Nat) : remainingInBlockHeader p = 24 - p % 65536 := by
  unfold remainingInBlockHeader satSub; split <;> omega

theorem putAt_length {buf bs : Bytes} {i : Nat} (h : i + bs.length ≤ buf.length) :
    (putAt buf i bs).length = buf.length := by
  simp [putAt]; omega

theorem putAt_take {buf bs : Bytes} {i : Nat} (hi : i ≤ buf.length) :
    (putAt buf i bs).take (i + bs.length) = buf.take i ++ bs := by
  unfold putAt
  rw [List.append_assoc, List.take_append]
  simp [Nat.min_eq_left hi, List.take_take]

theorem take_prefix_of_slice {x : Bytes} {i n : Nat} :
    x.take i ++ slice x i n = x.take (i + n) := by
  rw [slice, List.take_add]

theorem usable_le {a b c : Nat} (h : a ≤ b) (h' : b ≤ c) : usable a b ≤ usable a c := by
  rw [usable_add h h']; omega

section
variable {F f : Bytes} {cb : Nat} {c : Chunk} {s : CR}

theorem ChunkAt.lt_of_usable (hc : ChunkAt H F cb c) {p : Nat} (_h0 : cb ≤ p)
    (h : usable cb p < 40 + c.data.length) : p < c.endAt cb := by
  apply Nat.lt_of_not_le; intro hle
  have h1 := hc.holds.2.2.1
  have h2 := hc.dsize
  have := usable_le (a := cb) (hc.holds.2.1) hle
  omega

theorem stuck_of_failReading (hm : Mid H f cb c s) (heof : s.srcPos = f.length)
    (hsh : f.length < c.endAt cb) (ht : s.truncated = false) : Stuck H f cb c s.failReading := by
  unfold failReading
  have hp := hm.pos
  by_cases hgt : s.srcPos > s.pos
  · rw [if_pos hgt]
    exact ⟨⟨hm.pos, hm.err, hm.rcv, hm.lo, hm.hi, hm.hf, hm.hl, hm.bl, hm.hdr,
      hm.data, hm.bh⟩, heof, hsh, by simp; omega⟩
  · rw [if_neg hgt]
    exact ⟨hm, heof, hsh, by simp [ht]; omega⟩

/-- Passing a block header (if there is one here) in the middle of a chunk. -/
theorem passBlockHeader_spec (hc : ChunkAt H F cb c) (hp : f <+: F) (hm : Mid H f cb c s)
    (ht : s.truncated = false) (hu : usable cb s.srcPos < 40 + c.data.length) :
    (∃ s', s.passBlockHeader H f = (true, s') ∧ Mid H f cb c s' ∧ s'.truncated = false ∧
      24 ≤ s'.srcPos % 65536 ∧ usable cb s'.srcPos = usable cb s.srcPos ∧ s'.hdr = s.hdr ∧
      s.srcPos ≤ s'.srcPos ∧
      (s.srcPos % 65536 < 24 → s'.srcPos % 65536 = 24 ∧
        BH.nextChunk s'.bh = c.endAt cb - roundDownToBlockBoundary s.srcPos)) ∨
    (∃ s', s.passBlockHeader H f = (false, s') ∧ Stuck H f cb c s') := by
  unfold passBlockHeader
  rw [remainingInBlockHeader_eq]
  by_cases h24 : 24 ≤ s.srcPos % 65536
  · left
    refine ⟨s, ?_, hm, ht, h24, rfl, rfl, Nat.le_refl _, fun h => absurd h (by omega)⟩
    rw [if_neg (by omega)]
  · rw [if_pos (by omega)]
    have hlt := hc.lt_of_usable hm.lo hu
    have hbe := hc.holds.1
    have hbc := hc.hb
    have hlo := hm.lo
    generalize hbdef : s.srcPos - s.srcPos % 65536 = b
    have hbm : b % 65536 = 0 := by omega
    have hcb : cb ≤ b := by unfold BoundaryOk at hbc; omega
    have hb24 : b + 24 < c.endAt cb := by unfold BoundaryOk at hbe; omega
    have hbh := hm.bh hu (by omega)
    rw [hbdef] at hbh
    have hlt64 := hc.lt
    -- bytes of the block header in the file
    have hfile : ∀ q n, q + n ≤ 24 → b + q + n ≤ f.length →
        slice f (b + q) n = slice (mkBlockHeader H (b - cb) (c.endAt cb - b)) q n := by
      intro q n hqn hf'
      rw [slice_prefix hp hf', hc.seg (b + q) n (by omega) (by omega),
        ← slice_chunkSeg (a := b) (b := b + 24) (p := q) (by omega), chunkSeg_blockHeader hbm]
    have husb : ∀ q, q ≤ 24 → usable cb (b + q) = usable cb s.srcPos := by
      intro q hq
      have a1 := usable_add_usableTo hlo
      have a2 := usable_add_usableTo (show cb ≤ b + q by omega)
      have : usableTo (b + q) = usableTo s.srcPos := by unfold usableTo; omega
      omega
    generalize hq : s.srcPos % 65536 = q at *
    have hsp : s.srcPos = b + q := by omega
    by_cases hfit : s.srcPos + (24 - q) ≤ f.length
    · left
      have hrd : srcRead f s.srcPos (24 - q) =
          (true, slice (mkBlockHeader H (b - cb) (c.endAt cb - b)) q (24 - q), b + 24) := by
        unfold srcRead
        rw [if_pos hfit, hsp, hfile q (24 - q) (by omega) (by omega)]
        congr 2; omega
      have hput : putAt s.bh (24 - (24 - q)) (slice (mkBlockHeader H (b - cb) (c.endAt cb - b)) q (24 - q))
          = mkBlockHeader H (b - cb) (c.endAt cb - b) := by
        rw [show 24 - (24 - q) = q by omega]
        have hl : (slice (mkBlockHeader H (b - cb) (c.endAt cb - b)) q (24 - q)).length = 24 - q := by
          rw [slice_length]; simp
        have h1 := putAt_take (buf := s.bh)
          (bs := slice (mkBlockHeader H (b - cb) (c.endAt cb - b)) q (24 - q)) (i := q)
          (by rw [hm.bl]; omega)
        rw [hl, hbh, take_prefix_of_slice, show q + (24 - q) = 24 by omega] at h1
        have h2 := putAt_length (buf := s.bh)
          (bs := slice (mkBlockHeader H (b - cb) (c.endAt cb - b)) q (24 - q)) (i := q)
          (by rw [hm.bl, hl]; omega)
        rw [hm.bl] at h2
        rw [List.take_of_length_le (by omega), List.take_of_length_le (by simp)] at h1
        exact h1
      refine ⟨{ s with bh := mkBlockHeader H (b - cb) (c.endAt cb - b), srcPos := b + 24 },
        ?_, ?_, ht, ?_, ?_, rfl, ?_, ?_⟩
      · simp only [readBlockHeader, remainingInBlockHeader_eq, hq, hrd, hput]
        simp only [Bool.true_eq_false, ↓reduceIte, mkBlockHeader_stored, ne_eq, not_true_eq_false]
        rw [mkBlockHeader_prev H (by omega), hm.pos]
        have : roundDownToBlockBoundary s.srcPos = b := by
          unfold roundDownToBlockBoundary; omega
        rw [this, sub64_eq hcb (by omega)]
        simp
      · constructor
        · exact hm.pos
        · exact hm.err
        · exact hm.rcv
        · simp; omega
        · simp; omega
        · simp; omega
        · exact hm.hl
        · simp
        · simp only [husb 24 (by omega)]; exact hm.hdr
        · simp only [husb 24 (by omega)]; exact hm.data
        · simp only
          intro _ _
          rw [show (b + 24) % 65536 = 24 by omega, show b + 24 - 24 = b by omega]
      · simp; omega
      · simp only [husb 24 (by omega)]
      · simp; omega
      · intro _
        refine ⟨by simp; omega, ?_⟩
        rw [mkBlockHeader_next H (by omega)]
        unfold roundDownToBlockBoundary; omega
    · right
      have hfl : b + q ≤ f.length := by have := hm.hf; omega
      have hrd : srcRead f s.srcPos (24 - q) =
          (false, slice (mkBlockHeader H (b - cb) (c.endAt cb - b)) q (f.length - (b + q)), f.length) := by
        unfold srcRead
        rw [if_neg hfit, hsp, hfile q (f.length - (b + q)) (by omega) (by omega)]
        congr 2; omega
      have hl : (slice (mkBlockHeader H (b - cb) (c.endAt cb - b)) q (f.length - (b + q))).length
          = f.length - (b + q) := by
        rw [slice_length]; simp; omega
      have hput : (putAt s.bh q (slice (mkBlockHeader H (b - cb) (c.endAt cb - b)) q
          (f.length - (b + q)))).take (f.length - b)
          = (mkBlockHeader H (b - cb) (c.endAt cb - b)).take (f.length - b) := by
        have h1 := putAt_take (buf := s.bh)
          (bs := slice (mkBlockHeader H (b - cb) (c.endAt cb - b)) q (f.length - (b + q))) (i := q)
          (by rw [hm.bl]; omega)
        rw [hl, hbh, take_prefix_of_slice, show q + (f.length - (b + q)) = f.length - b by omega] at h1
        exact h1
      have hpl := putAt_length (buf := s.bh)
          (bs := slice (mkBlockHeader H (b - cb) (c.endAt cb - b)) q (f.length - (b + q))) (i := q)
          (by rw [hm.bl, hl]; omega)
      have husf := husb (f.length - b) (by omega)
      rw [show b + (f.length - b) = f.length by omega] at husf
      refine ⟨({ s with
          bh := putAt s.bh q (slice (mkBlockHeader H (b - cb) (c.endAt cb - b)) q (f.length - (b + q))),
          srcPos := f.length } : CR).failReading, ?_, ?_⟩
      · simp only [readBlockHeader, remainingInBlockHeader_eq, hq, hrd, ↓reduceIte,
          show 24 - (24 - q) = q by omega]
      · have hmid : Mid H f cb c ({ s with
          bh := putAt s.bh q (slice (mkBlockHeader H (b - cb) (c.endAt cb - b)) q (f.length - (b + q))),
          srcPos := f.length } : CR) := by
          constructor
          · exact hm.pos
          · exact hm.err
          · exact hm.rcv
          · simp; omega
          · simp; omega
          · simp
          · exact hm.hl
          · simp only; rw [hpl, hm.bl]
          · simp only [husf]; exact hm.hdr
          · simp only [husf]; exact hm.data
          · simp only
            intro _ _
            rw [show f.length % 65536 = f.length - b by omega,
              show f.length - (f.length - b) = b by omega]
            exact hput
        exact stuck_of_failReading hmid rfl (by omega) ht

/-- A run of payload bytes in (a prefix of) the file. -/
theorem ChunkAt.payload (hc : ChunkAt H F cb c) (hp : f <+: F) {p n : Nat} (h0 : cb ≤ p)
    (h24 : 24 ≤ p % 65536) (hn : p % 65536 + n ≤ 65536)
    (hl : usable cb p + n ≤ 40 + c.data.length) (hf : p + n ≤ f.length) :
    slice f p n = slice (c.header ++ c.data) (usable cb p) n := by
  by_cases hz : n = 0
  · subst hz; simp
  have hu : usable cb (p + (n - 1)) < 40 + c.data.length := by
    rw [usable_shift h0 (by omega) h24]; omega
  have := hc.lt_of_usable (by omega) hu
  rw [slice_prefix hp hf, hc.seg p n h0 (by omega),
    chunkSeg_payload h0 h24 hn (by simp [hc.hlen]; omega)]

/-- The chunk header has been read completely. -/
structure HeaderDone (H : Bytes → UInt64) (f : Bytes) (cb : Nat) (c : Chunk) (s : CR) : Prop where
  mid : Mid H f cb c s
  hdr : s.hdr = c.header
  trunc : s.truncated = false
  next : remainingInBlock cb < 40 → BH.nextChunk s.bh = c.endAt cb - (cb + remainingInBlock cb)

theorem readChunkHeaderLoop_step (hc : ChunkAt H F cb c) (hp : f <+: F) (hm : Mid H f cb c s)
    (ht : s.truncated = false) (hu : usable cb s.srcPos < 40) (fuel : Nat) :
    (∃ s', s.readChunkHeaderLoop H f (fuel + 1) = (true, s') ∧ HeaderDone H f cb c s' ∧
      usable cb s'.srcPos = 40) ∨
    (∃ s', s.readChunkHeaderLoop H f (fuel + 1) = (false, s') ∧ Stuck H f cb c s') ∨
    (∃ s', s.readChunkHeaderLoop H f (fuel + 1) = s'.readChunkHeaderLoop H f fuel ∧
      Mid H f cb c s' ∧ s'.truncated = false ∧ usable cb s'.srcPos < 40 ∧
      s'.srcPos % 65536 = 0 ∧ 24 < s.srcPos % 65536) := by
  rw [readChunkHeaderLoop]
  rcases passBlockHeader_spec hc hp hm ht (by omega) with
    ⟨s1, e1, hm1, ht1, h24, hu1, -, hge, hblk⟩ | ⟨s1, e1, hst⟩
  · rw [e1]
    simp only
    have hdist : distanceWithoutOverhead s1.pos s1.srcPos = usable cb s1.srcPos := by
      rw [hm1.pos, distanceWithoutOverhead_eq hm1.lo]
    rw [hdist]
    have hrem : remainingInBlock s1.srcPos = 65536 - s1.srcPos % 65536 := by
      rw [remainingInBlock_eq]; omega
    generalize hU : usable cb s1.srcPos = U at *
    have hU40 : U < 40 := by omega
    generalize hn : min (40 - U) (remainingInBlock s1.srcPos) = n
    have hnpos : 0 < n := by omega
    have hbl1 : s1.bh.length = 24 := hm1.bl
    -- the block header buffer, if this block begins inside the chunk
    have hnext : ∀ q, s1.srcPos ≤ q → q ≤ s1.srcPos + n → usable cb q = 40 →
        remainingInBlock cb < 40 →
        BH.nextChunk s1.bh = c.endAt cb - (cb + remainingInBlock cb) := by
      intro q hq1 hq2 hq40 hr
      have hlo1 := hm1.lo
      have a1 := usable_add_usableTo hlo1
      have a2 := usable_add_usableTo (show cb ≤ q by omega)
      have hbc := hc.hb
      rw [remainingInBlock_eq] at hr ⊢
      have hcb : cb ≤ s1.srcPos - s1.srcPos % 65536 ∧
          s1.srcPos - s1.srcPos % 65536 = cb + (65536 - cb % 65536) % 65536 := by
        unfold BoundaryOk at hbc
        unfold usableTo at a1 a2
        omega
      have hbh := hm1.bh (by omega) hcb.1
      rw [List.take_of_length_le (by omega), List.take_of_length_le (by simp; omega)] at hbh
      rw [hbh, mkBlockHeader_next H (by have := hc.lt; omega), hcb.2]
    by_cases hfit : s1.srcPos + n ≤ f.length
    · have hsl := hc.payload hp (p := s1.srcPos) (n := n) hm1.lo h24 (by omega) (by omega) hfit
      rw [hU] at hsl
      have hslice : slice (c.header ++ c.data) U n = slice c.header U n :=
        slice_append_left_le (by rw [hc.hlen]; omega)
      have hrd : srcRead f s1.srcPos n = (true, slice c.header U n, s1.srcPos + n) := by
        unfold srcRead; rw [if_pos hfit, hsl, hslice]
      rw [hrd]
      simp only [Bool.true_eq_false, ↓reduceIte]
      have hln : (slice c.header U n).length = n := slice_length_of_le (by rw [hc.hlen]; omega)
      have hput : (putAt s1.hdr U (slice c.header U n)).take (U + n) = c.header.take (U + n) := by
        have h1 := putAt_take (buf := s1.hdr) (bs := slice c.header U n) (i := U)
          (by rw [hm1.hl]; omega)
        have h2 := hm1.hdr
        rw [hU] at h2
        rw [hln, h2, take_prefix_of_slice] at h1
        exact h1
      have hpl : (putAt s1.hdr U (slice c.header U n)).length = 40 := by
        rw [putAt_length (by rw [hm1.hl, hln]; omega), hm1.hl]
      have hUn : usable cb (s1.srcPos + n) = U + n := by
        rw [usable_shift hm1.lo (by omega) h24, hU]
      have hlt : s1.srcPos + (n - 1) < c.endAt cb := by
        apply hc.lt_of_usable (by have := hm1.lo; omega)
        rw [usable_shift hm1.lo (by omega) h24]; omega
      have hmid2 : Mid H f cb c { s1 with hdr := putAt s1.hdr U (slice c.header U n),
                                          srcPos := s1.srcPos + n } := by
        constructor
        · exact hm1.pos
        · exact hm1.err
        · exact hm1.rcv
        · simp; have := hm1.lo; omega
        · simp; omega
        · simp; omega
        · exact hpl
        · exact hm1.bl
        · simp only [hUn]; exact hput
        · simp only [hUn]
          rw [hm1.data, hU]
          rw [show U - 40 = 0 by omega, show U + n - 40 = 0 by omega]
        · simp only
          intro h1 h2
          by_cases hend : (s1.srcPos + n) % 65536 = 0
          · rw [hend]; simp
          · have e1 : s1.srcPos + n - (s1.srcPos + n) % 65536 = s1.srcPos - s1.srcPos % 65536 := by
              omega
            rw [e1] at h2 ⊢
            have h3 := hm1.bh (by omega) h2
            rw [List.take_of_length_le (by omega), List.take_of_length_le (by simp; omega)] at h3
            rw [h3]
      by_cases hlast : n < 40 - U
      · right; right
        rw [if_pos hlast]
        refine ⟨_, rfl, hmid2, ht1, by simp only [hUn]; omega, by simp only; omega, ?_⟩
        have hns : ¬ s.srcPos % 65536 < 24 := by
          intro hc'
          have := (hblk hc').1
          omega
        have hbc := hc.hb
        apply Nat.lt_of_le_of_ne (by omega)
        intro h24'
        -- at offset 24 of a block all 40 bytes fit
        have a1 := usable_add_usableTo hm.lo
        have a2 := usable_add_usableTo hm1.lo
        have : s1.srcPos % 65536 = 24 := by
          have := hm.lo; unfold usableTo at a1 a2; unfold BoundaryOk at hbc; omega
        omega
      · left
        rw [if_neg hlast]
        refine ⟨_, rfl, ⟨hmid2, ?_, ht1, ?_⟩, by simp only [hUn]; omega⟩
        · have h := hput
          rw [show U + n = 40 by omega, List.take_of_length_le (by omega),
            List.take_of_length_le (by rw [hc.hlen]; omega)] at h
          exact h
        · exact hnext (s1.srcPos + n) (by omega) (by omega) (by omega)
    · right; left
      have hfl := hm1.hf
      generalize hk : f.length - s1.srcPos = k
      have hsl := hc.payload hp (p := s1.srcPos) (n := k) hm1.lo h24 (by omega) (by omega) (by omega)
      rw [hU] at hsl
      have hslice : slice (c.header ++ c.data) U k = slice c.header U k :=
        slice_append_left_le (by rw [hc.hlen]; omega)
      have hrd : srcRead f s1.srcPos n = (false, slice c.header U k, f.length) := by
        unfold srcRead; rw [if_neg hfit, hk, hsl, hslice]; congr 2; omega
      rw [hrd]
      simp only [↓reduceIte]
      have hln : (slice c.header U k).length = k := slice_length_of_le (by rw [hc.hlen]; omega)
      have hput : (putAt s1.hdr U (slice c.header U k)).take (U + k) = c.header.take (U + k) := by
        have h1 := putAt_take (buf := s1.hdr) (bs := slice c.header U k) (i := U)
          (by rw [hm1.hl]; omega)
        have h2 := hm1.hdr
        rw [hU] at h2
        rw [hln, h2, take_prefix_of_slice] at h1
        exact h1
      have hpl : (putAt s1.hdr U (slice c.header U k)).length = 40 := by
        rw [putAt_length (by rw [hm1.hl, hln]; omega), hm1.hl]
      have hUk : usable cb f.length = U + k := by
        have := usable_shift (i := k) hm1.lo (by omega) h24
        rw [show s1.srcPos + k = f.length by omega, hU] at this
        exact this
      have hlt : f.length < c.endAt cb :=
        hc.lt_of_usable (by have := hm1.lo; omega) (by omega)
      have hmid2 : Mid H f cb c { s1 with hdr := putAt s1.hdr U (slice c.header U k),
                                          srcPos := f.length } := by
        constructor
        · exact hm1.pos
        · exact hm1.err
        · exact hm1.rcv
        · simp; have := hm1.lo; omega
        · simp; omega
        · simp
        · exact hpl
        · exact hm1.bl
        · simp only [hUk]; exact hput
        · simp only [hUk]
          rw [hm1.data, hU]
          rw [show U - 40 = 0 by omega, show U + k - 40 = 0 by omega]
        · simp only
          intro h1 h2
          by_cases hend : f.length % 65536 = 0
          · rw [hend]; simp
          · have e1 : f.length - f.length % 65536 = s1.srcPos - s1.srcPos % 65536 := by
              omega
            rw [e1] at h2 ⊢
            have h3 := hm1.bh (by omega) h2
            rw [List.take_of_length_le (by omega), List.take_of_length_le (by simp; omega)] at h3
            rw [h3]
      exact ⟨_, rfl, stuck_of_failReading hmid2 rfl hlt ht1⟩
  · right; left
    rw [e1]
    exact ⟨s1, rfl, hst⟩

theorem readChunkHeaderLoop_spec (hc : ChunkAt H F cb c) (hp : f <+: F) (hm : Mid H f cb c s)
    (ht : s.truncated = false) (hu : usable cb s.srcPos < 40) :
    (∃ s', s.readChunkHeaderLoop H f 3 = (true, s') ∧ HeaderDone H f cb c s' ∧
      usable cb s'.srcPos = 40) ∨
    (∃ s', s.readChunkHeaderLoop H f 3 = (false, s') ∧ Stuck H f cb c s') := by
  rcases readChunkHeaderLoop_step hc hp hm ht hu 2 with h | h | ⟨s1, e1, hm1, ht1, hu1, hz, -⟩
  · exact Or.inl h
  · exact Or.inr h
  · rw [e1]
    rcases readChunkHeaderLoop_step hc hp hm1 ht1 hu1 1 with h | h | ⟨s2, -, -, -, -, -, hbad⟩
    · exact Or.inl h
    · exact Or.inr h
    · omega

theorem checkChunkHeader_ok (hc : ChunkAt H F cb c) (hd : HeaderDone H f cb c s) :
    s.checkChunkHeader H = (true, s) := by
  unfold checkChunkHeader
  have hpos := hd.mid.pos
  rw [hd.hdr, hpos, computedHash_eq H hc.hlen, hc.hhash]
  have hend : chunkEnd (Hdr.dataSize c.header) (Hdr.numRecords c.header) cb = c.endAt cb := rfl
  rw [hend]
  simp only [ne_eq, not_true_eq_false, ↓reduceIte]
  have hle : remainingInBlock cb < 40 → cb + remainingInBlock cb ≤ c.endAt cb := by
    intro h
    obtain ⟨h1, h2, h3, h4⟩ := hc.holds
    have a1 := usable_add_usableTo h2
    rw [remainingInBlock_eq] at h ⊢
    unfold usableTo at a1
    omega
  rw [if_neg, if_neg]
  · rintro ⟨h0, h⟩
    obtain ⟨g1, g2, g3, g4⟩ := hc.sig h0
    omega
  · rintro ⟨hr, hne⟩
    apply hne
    have h1 := hle hr
    have h2 := hc.lt
    rw [hd.next hr, w64, Nat.mod_eq_of_lt (by omega), sub64_eq h1 h2]

theorem readChunkHeader_spec (hc : ChunkAt H F cb c) (hp : f <+: F) (hm : Mid H f cb c s)
    (ht : s.truncated = false) (hu : usable cb s.srcPos < 40) :
    (∃ s', s.readChunkHeader H f = (true, s') ∧ HeaderDone H f cb c s' ∧
      usable cb s'.srcPos = 40) ∨
    (∃ s', s.readChunkHeader H f = (false, s') ∧ Stuck H f cb c s') := by
  unfold readChunkHeader
  rcases readChunkHeaderLoop_spec hc hp hm ht hu with ⟨s1, e1, hd, hu1⟩ | ⟨s1, e1, hst⟩
  · left
    rw [e1]
    exact ⟨s1, checkChunkHeader_ok hc hd, hd, hu1⟩
  · right
    rw [e1]
    exact ⟨s1, rfl, hst⟩

theorem Mid.clearTrunc (hm : Mid H f cb c s) : Mid H f cb c { s with truncated := false } :=
  ⟨hm.pos, hm.err, hm.rcv, hm.lo, hm.hi, hm.hf, hm.hl, hm.bl, hm.hdr, hm.data, hm.bh⟩

/-- `PullChunkHeader` in the middle of a chunk: the header is available, or the file ends before the
header is complete. -/
theorem pullChunkHeader_spec (hc : ChunkAt H F cb c) (hp : f <+: F) (hm : Mid H f cb c s) :
    (∃ s', s.pullChunkHeader H f = (true, s') ∧ Mid H f cb c s' ∧ s'.hdr = c.header ∧
      s'.truncated = false ∧ 40 ≤ usable cb s'.srcPos) ∨
    (∃ s', s.pullChunkHeader H f = (false, s') ∧ Stuck H f cb c s') := by
  unfold pullChunkHeader
  have hlo := hm.lo
  rw [if_neg (by simp [hm.err])]
  simp only [hm.pos]
  rw [if_neg (by omega), distanceWithoutOverhead_eq hlo]
  split
  · rename_i hu
    rcases readChunkHeader_spec hc hp hm.clearTrunc rfl hu with ⟨s', e, hd, hu'⟩ | ⟨s', e, hst⟩
    · left
      refine ⟨s', ?_, hd.mid, hd.hdr, hd.trunc, by omega⟩
      simpa [hm.pos] using e
    · right
      refine ⟨s', ?_, hst⟩
      simpa [hm.pos] using e
  · rename_i hu
    left
    refine ⟨_, rfl, ?_, ?_, rfl, ?_⟩
    · have := hm.clearTrunc; simpa [hm.pos] using this
    · have h := hm.hdr
      rw [List.take_of_length_le (by rw [hm.hl]; omega),
        List.take_of_length_le (by rw [hc.hlen]; omega)] at h
      exact h
    · simp only; omega

theorem readDataLoop_spec (hc : ChunkAt H F cb c) (hp : f <+: F) :
    ∀ (fuel : Nat) (s : CR), Mid H f cb c s → s.truncated = false → 40 ≤ usable cb s.srcPos →
    s.hdr = c.header → f.length - s.srcPos < fuel →
    (∃ s', s.readDataLoop H f (c.endAt cb) fuel = (true, s') ∧ Mid H f cb c s' ∧
      s'.truncated = false ∧ s'.data = c.data ∧ s'.hdr = c.header ∧
      40 + c.data.length ≤ usable cb s'.srcPos) ∨
    (∃ s', s.readDataLoop H f (c.endAt cb) fuel = (false, s') ∧ Stuck H f cb c s') := by
  intro fuel
  induction fuel with
  | zero => intro s _ _ _ _ h; omega
  | succ fuel ih =>
    intro s hm ht hu hh hfuel
    rw [readDataLoop, hh, hc.dsize]
    have hdl : s.data.length = min (usable cb s.srcPos - 40) c.data.length := by
      rw [hm.data, List.length_take]
    by_cases hmore : s.data.length < c.data.length
    · rw [if_pos hmore]
      have hu2 : usable cb s.srcPos < 40 + c.data.length := by omega
      rcases passBlockHeader_spec hc hp hm ht hu2 with
        ⟨s1, e1, hm1, ht1, h24, hu1, hh1, hge, hblk⟩ | ⟨s1, e1, hst⟩
      · simp only [e1]
        have hnext : ¬ (remainingInBlockHeader s.srcPos > 0 ∧
            BH.nextChunk s1.bh ≠ sub64 (c.endAt cb) (roundDownToBlockBoundary s.srcPos)) := by
          rintro ⟨hr, hne⟩
          rw [remainingInBlockHeader_eq] at hr
          apply hne
          have hhi := hm.hi
          have h1 : roundDownToBlockBoundary s.srcPos ≤ c.endAt cb := by
            unfold roundDownToBlockBoundary; omega
          rw [(hblk (by omega)).2, sub64_eq h1 hc.lt]
        rw [if_neg hnext]
        have hhdr1 : s1.hdr = c.header := by rw [hh1, hh]
        have hds1 : Hdr.dataSize s1.hdr = c.data.length := by rw [hhdr1, hc.dsize]
        rw [hds1]
        have hdl1 : s1.data.length = min (usable cb s1.srcPos - 40) c.data.length := by
          rw [hm1.data, List.length_take]
        have hrem : remainingInBlock s1.srcPos = 65536 - s1.srcPos % 65536 := by
          rw [remainingInBlock_eq]; omega
        have hdat := hm1.data
        generalize hU : usable cb s1.srcPos = U at *
        have hd1 : s1.data.length = U - 40 := by omega
        rw [hd1]
        generalize hn : min (c.data.length - (U - 40)) (remainingInBlock s1.srcPos) = n
        have hnpos : 0 < n := by omega
        have hbl1 : s1.bh.length = 24 := hm1.bl
        -- the state after appending `k ≤ n` bytes
        have key : ∀ k, k ≤ n → s1.srcPos + k ≤ f.length →
            slice f s1.srcPos k = slice c.data (U - 40) k ∧ usable cb (s1.srcPos + k) = U + k ∧
            s1.srcPos + k ≤ c.endAt cb ∧
            Mid H f cb c { s1 with data := s1.data ++ slice c.data (U - 40) k,
                                   srcPos := s1.srcPos + k } := by
          intro k hk hkf
          have hsl := hc.payload hp (p := s1.srcPos) (n := k) hm1.lo h24 (by omega) (by omega) hkf
          rw [hU, slice_append_left_ge (by rw [hc.hlen]; omega), hc.hlen] at hsl
          have hUk : usable cb (s1.srcPos + k) = U + k := by
            rw [usable_shift hm1.lo (by omega) h24, hU]
          have hle : s1.srcPos + k ≤ c.endAt cb := by
            by_cases hk0 : k = 0
            · subst hk0; exact hm1.hi
            · have := hc.lt_of_usable (p := s1.srcPos + (k - 1)) (by have := hm1.lo; omega)
                (by rw [usable_shift hm1.lo (by omega) h24]; omega)
              omega
          refine ⟨hsl, hUk, hle, ?_⟩
          constructor
          · exact hm1.pos
          · exact hm1.err
          · exact hm1.rcv
          · simp; have := hm1.lo; omega
          · exact hle
          · exact hkf
          · exact hm1.hl
          · exact hm1.bl
          · simp only [hUk, hhdr1]
          · simp only [hUk]
            rw [hdat, take_prefix_of_slice]
            congr 1; omega
          · simp only
            intro h1 h2
            by_cases hend : (s1.srcPos + k) % 65536 = 0
            · rw [hend]; simp
            · have e1 : s1.srcPos + k - (s1.srcPos + k) % 65536 = s1.srcPos - s1.srcPos % 65536 := by
                omega
              rw [e1] at h2 ⊢
              have h3 := hm1.bh (by omega) h2
              rw [List.take_of_length_le (by omega), List.take_of_length_le (by simp; omega)] at h3
              rw [h3]
        by_cases hfit : s1.srcPos + n ≤ f.length
        · obtain ⟨k1, k2, k3, k4⟩ := key n (Nat.le_refl _) hfit
          have hrd : srcRead f s1.srcPos n = (true, slice c.data (U - 40) n, s1.srcPos + n) := by
            unfold srcRead; rw [if_pos hfit, k1]
          rw [hrd]
          simp only [Bool.true_eq_false, ↓reduceIte]
          exact ih _ k4 ht1 (by simp only [k2]; omega) hhdr1 (by simp only; omega)
        · right
          have hfl := hm1.hf
          obtain ⟨k1, k2, k3, k4⟩ := key (f.length - s1.srcPos) (by omega) (by omega)
          have hrd : srcRead f s1.srcPos n =
              (false, slice c.data (U - 40) (f.length - s1.srcPos), f.length) := by
            unfold srcRead; rw [if_neg hfit, k1]; congr 2; omega
          rw [hrd]
          simp only [↓reduceIte]
          simp only [show s1.srcPos + (f.length - s1.srcPos) = f.length by omega] at k2 k4
          refine ⟨_, rfl, stuck_of_failReading k4 rfl ?_ ht1⟩
          exact hc.lt_of_usable (by have := hm1.lo; omega) (by omega)
      · right
        simp only [e1]
        exact ⟨s1, rfl, hst⟩
    · left
      rw [if_neg hmore]
      refine ⟨s, rfl, hm, ht, ?_, hh, by omega⟩
      rw [hm.data]
      apply List.take_of_length_le; omega

/-- Outcome of `ReadChunk` in the middle of a chunk, the file so far being `f`. -/
theorem readChunk_spec (hc : ChunkAt H F cb c) (hp : f <+: F) (hm : Mid H f cb c s) :
    (c.endAt cb ≤ f.length ∧ Hdr.dataHash c.header = (H c.data).toNat ∧
      ∃ s', s.readChunk H f = (some c, s') ∧ s'.pos = c.endAt cb ∧ s'.srcPos = c.endAt cb ∧
        s'.err = none ∧ s'.rcv = .no ∧ s'.data = [] ∧ s'.hdr.length = 40 ∧ s'.bh.length = 24 ∧
        s'.truncated = false) ∨
    (c.endAt cb ≤ f.length ∧ Hdr.dataHash c.header ≠ (H c.data).toNat ∧
      ∃ s', s.readChunk H f = (none, s') ∧ s'.pos = cb ∧ s'.err = some .dataHash ∧
        s'.rcv = .haveChunk ∧ s'.recPos = c.endAt cb ∧ s'.hdr.length = 40 ∧ s'.bh.length = 24 ∧
        s'.truncated = false) ∨
    (f.length < c.endAt cb ∧ ∃ s', s.readChunk H f = (none, s') ∧ Stuck H f cb c s') := by
  unfold readChunk
  rcases pullChunkHeader_spec hc hp hm with ⟨s1, e1, hm1, hh1, ht1, hu1⟩ | ⟨s1, e1, hst⟩
  · simp only [e1]
    have hend : chunkEnd (Hdr.dataSize s1.hdr) (Hdr.numRecords s1.hdr) s1.pos = c.endAt cb := by
      rw [hh1, hm1.pos]; rfl
    rw [hend]
    rcases readDataLoop_spec hc hp (f.length + 1) s1 hm1 ht1 hu1 hh1 (by omega) with
      ⟨s2, e2, hm2, ht2, hd2, hh2, hu2⟩ | ⟨s2, e2, hst⟩
    · simp only [e2]
      by_cases hfit : c.endAt cb ≤ f.length
      · have hk : srcSeek f (c.endAt cb) = (true, c.endAt cb) := by
          unfold srcSeek; rw [if_pos hfit]
        simp only [hk, Bool.true_eq_false, ↓reduceIte, hd2, hh2]
        by_cases hash : Hdr.dataHash c.header = (H c.data).toNat
        · left
          rw [if_neg (by simp [hash])]
          refine ⟨hfit, hash, _, rfl, rfl, rfl, hm2.err, hm2.rcv, rfl, ?_,
            hm2.bl, ht2⟩
          simp [hc.hlen]
        · right; left
          rw [if_pos (fun h => hash h.symm)]
          refine ⟨hfit, hash, _, rfl, hm2.pos, rfl, rfl, rfl, ?_,
            hm2.bl, ht2⟩
          simp [fail, hc.hlen]
      · right; right
        have hk : srcSeek f (c.endAt cb) = (false, f.length) := by
          unfold srcSeek; rw [if_neg hfit]
        simp only [hk, ↓reduceIte]
        refine ⟨by omega, _, rfl, ?_⟩
        have hlo := hm2.lo
        have hf2 := hm2.hf
        have huf : 40 + c.data.length ≤ usable cb f.length :=
          Nat.le_trans hu2 (usable_le hlo hf2)
        refine stuck_of_failReading ?_ rfl (by omega) ht2
        constructor
        · exact hm2.pos
        · exact hm2.err
        · exact hm2.rcv
        · simp; omega
        · simp; omega
        · simp
        · exact hm2.hl
        · exact hm2.bl
        · simp only [hh2]
        · simp only [hd2]
          rw [List.take_of_length_le (by omega)]
        · intro h; simp only at h; omega
    · right; right
      simp only [e2]
      exact ⟨hst.short, s2, rfl, hst⟩
  · right; right
    simp only [e1]
    exact ⟨hst.short, s1, rfl, hst⟩

end
end Riegeli

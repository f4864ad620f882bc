import Verif.ChunkReaderProofs
/-!
# The chunk reader on arbitrary file contents

Nothing is assumed about the bytes of the file. Lemmas; the property theorems are in `Verif/Props`.
-/
namespace Riegeli
open CR

/-- Specification: the bytes of `F` at positions `[a, b)`, without those in block headers (the 24 bytes
at each multiple of 65536). -/
def payload (F : Bytes) (a b : Nat) : Bytes :=
  ((List.range' a (b - a)).filter (fun p => 24 ≤ p % 65536)).map (fun p => F.getD p 0)

theorem payload_length (F : Bytes) (a b : Nat) : (payload F a b).length = usable a b := by
  simp [payload, usable]

theorem payload_add {F : Bytes} {a b c : Nat} (h1 : a ≤ b) (h2 : b ≤ c) :
    payload F a c = payload F a b ++ payload F b c := by
  have h := List.range'_append (s := a) (m := b - a) (n := c - b) (step := 1)
  rw [show a + 1 * (b - a) = b by omega, show b - a + (c - b) = c - a by omega] at h
  rw [payload, payload, payload, ← h, List.filter_append, List.map_append]

theorem payload_self (F : Bytes) (a : Nat) : payload F a a = [] := by simp [payload]

theorem payload_blockHeader {F : Bytes} {p q : Nat} (h : p % 65536 + (q - p) ≤ 24) :
    payload F p q = [] := by
  simp only [payload, List.map_eq_nil_iff, List.filter_eq_nil_iff, List.mem_range'_1]
  intro x hx
  simp; omega

theorem payload_run {F : Bytes} {p n : Nat} (h24 : 24 ≤ p % 65536) (hn : p % 65536 + n ≤ 65536)
    (hf : p + n ≤ F.length) : payload F p (p + n) = slice F p n := by
  rw [payload, show p + n - p = n by omega, List.filter_eq_self.2]
  · apply List.ext_getElem?
    intro i
    rw [slice_getElem?, List.getElem?_map]
    split
    · rename_i h
      rw [List.getElem?_eq_getElem (by simpa using h)]
      simp only [List.getElem_range', Option.map_some, Nat.one_mul]
      rw [List.getD_eq_getElem?_getD, List.getElem?_eq_getElem (by omega)]
      rfl
    · rw [List.getElem?_eq_none (by simp; omega)]; rfl
  · intro x hx
    simp only [List.mem_range'_1] at hx
    simp; omega

/-- Specification: the 24 bytes at `b` are a block header with a matching hash. -/
def HashValidBlock (H : Bytes → UInt64) (F : Bytes) (b : Nat) : Prop :=
  b % 65536 = 0 ∧ b + 24 ≤ F.length ∧
    BH.computedHash H (slice F b 24) = BH.storedHash (slice F b 24)

/-- Specification: every block header of `F` with a matching hash satisfies the constraint of the
file format that `next_chunk` is positive, and does not point beyond 2^63. -/
def HonestBlocks (H : Bytes → UInt64) (F : Bytes) : Prop :=
  ∀ b, HashValidBlock H F b →
    0 < BH.nextChunk (slice F b 24) ∧ b + BH.nextChunk (slice F b 24) < 2 ^ 63

/-- Specification: the 24 bytes at `b` are a block header with a matching hash which says that the chunk
around it begins at `pos`. -/
def BlockOfChunk (H : Bytes → UInt64) (F : Bytes) (pos b : Nat) : Prop :=
  HashValidBlock H F b ∧ BH.previousChunk (slice F b 24) = sub64 b pos

namespace Arb

/-- Beginning of the block of `p`. -/
def blk (p : Nat) : Nat := p - p % 65536

/-- The reader is fine and at or after the beginning of the chunk it is reading. `B` tells whether the
positions are known to be possible chunk boundaries. (The chunk level seeks may go to a different
position if a crafted chunk header makes `ChunkEnd` wrap around.) -/
structure Rd (B : Prop) (f : Bytes) (s : CR) : Prop where
  err : s.err = none
  rcv : s.rcv = .no
  lo : s.pos ≤ s.srcPos
  hf : s.srcPos ≤ f.length
  bnd : B → BoundaryOk s.pos
  hl : s.hdr.length = 40
  bl : s.bh.length = 24

/-- The block header buffer agrees with the file. -/
def BhOk (F : Bytes) (s : CR) : Prop :=
  s.pos ≤ blk s.srcPos → s.bh.take (s.srcPos % 65536) =
    (slice F (blk s.srcPos) 24).take (s.srcPos % 65536)

/-- A failed reader: recovery is possible, and goes forward. -/
structure Bad (B : Prop) (H : Bytes → UInt64) (F f : Bytes) (s : CR) : Prop where
  err : s.err ≠ none
  ndiv : s.err ≠ some .diverged
  rcv : s.rcv ≠ .no
  hl : s.hdr.length = 40
  bl : s.bh.length = 24
  seek : s.err = some .exceedsSize → s.rcv = .findChunk ∧ s.recPos ≤ f.length
  le : s.err ≠ some .exceedsSize → s.pos ≤ f.length
  lt : s.rcv = .haveChunk → s.recPos < 2 ^ 64
  have_ : B → HonestBlocks H F → s.rcv = .haveChunk → s.pos < s.recPos
  find : s.err ≠ some .exceedsSize → s.rcv = .findChunk →
    s.recPos ≤ f.length ∧ s.pos < s.recPos + remainingInBlock s.recPos

/-- The state differs at most in the block header buffer, source position and the truncation flag. -/
structure SameChunk (s s' : CR) : Prop where
  pos : s'.pos = s.pos
  hdr : s'.hdr = s.hdr
  data : s'.data = s.data

variable {B : Prop} {H : Bytes → UInt64} {F f : Bytes} {s : CR}

theorem failReading_same (s : CR) : SameChunk s s.failReading := by
  unfold failReading; split <;> exact ⟨rfl, rfl, rfl⟩

theorem failReading_srcPos (s : CR) : s.failReading.srcPos = s.srcPos := by
  unfold failReading; split <;> rfl
theorem failReading_bh (s : CR) : s.failReading.bh = s.bh := by
  unfold failReading; split <;> rfl
theorem failReading_err (s : CR) : s.failReading.err = s.err := by
  unfold failReading; split <;> rfl
theorem failReading_rcv (s : CR) : s.failReading.rcv = s.rcv := by
  unfold failReading; split <;> rfl

theorem Rd.failReading (h : Rd B f s) : Rd B f s.failReading := by
  have e := failReading_same s
  refine ⟨?_, ?_, ?_, ?_, ?_, ?_, ?_⟩
  · rw [failReading_err]; exact h.err
  · rw [failReading_rcv]; exact h.rcv
  · rw [e.pos, failReading_srcPos]; exact h.lo
  · rw [failReading_srcPos]; exact h.hf
  · rw [e.pos]; exact h.bnd
  · rw [e.hdr]; exact h.hl
  · rw [failReading_bh]; exact h.bl

theorem BhOk.failReading (h : BhOk F s) : BhOk F s.failReading := by
  unfold BhOk
  rw [(failReading_same s).pos, failReading_srcPos, failReading_bh]
  exact h

/-- Reading the rest of a block header, on arbitrary contents. -/
theorem readBlockHeader_arb (hp : f <+: F) (hr : Rd B f s) (hb : BhOk F s)
    (h24 : s.srcPos % 65536 < 24) :
    (∃ s', s.readBlockHeader H f = (true, s') ∧ Rd B f s' ∧ SameChunk s s' ∧ s'.truncated = s.truncated ∧
      s'.srcPos = blk s.srcPos + 24 ∧
      (s.pos ≤ blk s.srcPos → s'.bh = slice F (blk s.srcPos) 24 ∧ HashValidBlock H F (blk s.srcPos))) ∨
    (∃ s', s.readBlockHeader H f = (false, s') ∧ Rd B f s' ∧ BhOk F s' ∧ SameChunk s s' ∧
      s'.srcPos = f.length ∧ f.length < blk s.srcPos + 24) ∨
    (∃ s', s.readBlockHeader H f = (false, s') ∧ SameChunk s s' ∧ s'.err = some .blockHash ∧
      s'.rcv = .findChunk ∧ s'.recPos = blk s.srcPos + 24 ∧ s'.srcPos = blk s.srcPos + 24 ∧
      blk s.srcPos + 24 ≤ f.length ∧
      s'.hdr.length = 40 ∧ s'.bh.length = 24 ∧ (s.pos ≤ blk s.srcPos → ¬ HashValidBlock H F (blk s.srcPos))) := by
  have hbh := hb
  unfold BhOk at hbh
  unfold blk at *
  generalize hbd : s.srcPos - s.srcPos % 65536 = b at *
  generalize hq : s.srcPos % 65536 = q at *
  have hsp : s.srcPos = b + q := by omega
  have hbm : b % 65536 = 0 := by omega
  unfold readBlockHeader
  rw [remainingInBlockHeader_eq, hq]
  by_cases hfit : s.srcPos + (24 - q) ≤ f.length
  · have hrd : srcRead f s.srcPos (24 - q) = (true, slice F (b + q) (24 - q), b + 24) := by
      unfold srcRead
      rw [if_pos hfit, hsp, slice_prefix hp (by omega)]; congr 2; omega
    have hFl : f.length ≤ F.length := hp.length_le
    have hsl : (slice F (b + q) (24 - q)).length = 24 - q := slice_length_of_le (by omega)
    have hput : s.pos ≤ b → putAt s.bh (24 - (24 - q)) (slice F (b + q) (24 - q)) = slice F b 24 := by
      intro hpb
      have hbh := hbh hpb
      rw [show 24 - (24 - q) = q by omega]
      have h1 := putAt_take (buf := s.bh) (bs := slice F (b + q) (24 - q)) (i := q)
        (by rw [hr.bl]; omega)
      rw [hsl, hbh] at h1
      have e1 : slice F (b + q) (24 - q) = slice (slice F b 24) q (24 - q) := by
        rw [slice_slice (by omega)]
      rw [e1, take_prefix_of_slice, show q + (24 - q) = 24 by omega] at h1
      have h2 := putAt_length (buf := s.bh) (bs := slice F (b + q) (24 - q)) (i := q)
        (by rw [hr.bl, hsl]; omega)
      rw [hr.bl] at h2
      rw [e1] at h2
      rw [List.take_of_length_le (by omega), List.take_of_length_le (by rw [slice_length]; omega)] at h1
      rw [e1]; exact h1
    have hl24 : (putAt s.bh (24 - (24 - q)) (slice F (b + q) (24 - q))).length = 24 := by
      rw [putAt_length (by rw [hr.bl, hsl]; omega), hr.bl]
    simp only [hrd, Bool.true_eq_false, ↓reduceIte]
    split
    · right; right
      rename_i hne
      refine ⟨_, rfl, ⟨rfl, rfl, rfl⟩, rfl, rfl, rfl, rfl, by omega, hr.hl, hl24, ?_⟩
      intro hpb hv
      apply hne
      simp only [hput hpb]
      exact hv.2.2
    · rename_i hne
      left
      have hlo := hr.lo
      refine ⟨_, rfl, ⟨hr.err, hr.rcv, ?_, ?_, hr.bnd, hr.hl, hl24⟩, ⟨rfl, rfl, rfl⟩, rfl, rfl, ?_⟩
      · simp only; omega
      · simp only; omega
      · intro hpb
        have hne := Classical.not_not.1 hne
        simp only [hput hpb] at hne ⊢
        exact ⟨trivial, hbm, by omega, hne⟩
  · right; left
    have hfl := hr.hf
    have hFl : f.length ≤ F.length := hp.length_le
    have hrd : srcRead f s.srcPos (24 - q) = (false, slice F (b + q) (f.length - (b + q)), f.length) := by
      unfold srcRead
      rw [if_neg hfit, hsp, slice_prefix hp (by omega)]; congr 2; omega
    have hsl : (slice F (b + q) (f.length - (b + q))).length = f.length - (b + q) :=
      slice_length_of_le (by omega)
    have hput : s.pos ≤ b → (putAt s.bh q (slice F (b + q) (f.length - (b + q)))).take (f.length - b)
        = (slice F b 24).take (f.length - b) := by
      intro hpb
      have hbh := hbh hpb
      have h1 := putAt_take (buf := s.bh) (bs := slice F (b + q) (f.length - (b + q))) (i := q)
        (by rw [hr.bl]; omega)
      rw [hsl, hbh] at h1
      have e1 : slice F (b + q) (f.length - (b + q)) = slice (slice F b 24) q (f.length - (b + q)) := by
        rw [slice_slice (by omega)]
      rw [e1, take_prefix_of_slice, show q + (f.length - (b + q)) = f.length - b by omega] at h1
      rw [e1]; exact h1
    have hpl := putAt_length (buf := s.bh) (bs := slice F (b + q) (f.length - (b + q))) (i := q)
        (by rw [hr.bl, hsl]; omega)
    simp only [hrd, ↓reduceIte, show 24 - (24 - q) = q by omega]
    have hlo := hr.lo
    refine ⟨_, rfl, ?_, ?_, ?_, ?_, by omega⟩
    · apply Rd.failReading
      refine ⟨hr.err, hr.rcv, ?_, ?_, hr.bnd, hr.hl, ?_⟩
      · simp only; omega
      · simp only; omega
      · simp only; rw [hpl, hr.bl]
    · apply BhOk.failReading
      unfold BhOk blk
      simp only
      rw [show f.length % 65536 = f.length - b by omega, show f.length - (f.length - b) = b by omega]
      exact hput
    · have e := failReading_same { s with
        bh := putAt s.bh q (slice F (b + q) (f.length - (b + q))), srcPos := f.length }
      exact ⟨e.pos, e.hdr, e.data⟩
    · rw [failReading_srcPos]

/-- Passing a block header in the middle of a chunk, on arbitrary contents. -/
theorem passBlockHeader_arb (hp : f <+: F) (hr : Rd B f s) (hb : BhOk F s) :
    (∃ s', s.passBlockHeader H f = (true, s') ∧ Rd B f s' ∧ BhOk F s' ∧ SameChunk s s' ∧
      s'.truncated = s.truncated ∧ 24 ≤ s'.srcPos % 65536 ∧ s.srcPos ≤ s'.srcPos ∧
      payload F s.pos s'.srcPos = payload F s.pos s.srcPos ∧
      (s.srcPos % 65536 < 24 → s'.srcPos = blk s.srcPos + 24)) ∨
    (∃ s', s.passBlockHeader H f = (false, s') ∧ Rd B f s' ∧ BhOk F s' ∧ SameChunk s s' ∧
      s'.srcPos = f.length ∧ payload F s.pos s'.srcPos = payload F s.pos s.srcPos) ∨
    (∃ s', s.passBlockHeader H f = (false, s') ∧ Bad B H F f s' ∧ s'.err ≠ some .exceedsSize ∧
      s'.pos = s.pos ∧ s.srcPos % 65536 < 24 ∧
      (s.pos ≤ blk s.srcPos → ¬ BlockOfChunk H F s.pos (blk s.srcPos))) := by
  have hlen := hp.length_le
  unfold passBlockHeader
  rw [remainingInBlockHeader_eq]
  by_cases h24 : 24 ≤ s.srcPos % 65536
  · left
    rw [if_neg (by omega)]
    exact ⟨s, rfl, hr, hb, ⟨rfl, rfl, rfl⟩, rfl, h24, Nat.le_refl _, rfl, fun h => absurd h (by omega)⟩
  · rw [if_pos (by omega)]
    have hlo := hr.lo
    have hbnd := hr.bnd
    have hpos : B → s.pos ≤ blk s.srcPos := by
      intro hB
      have := hbnd hB
      unfold blk; unfold BoundaryOk at this; omega
    have hpl : ∀ q, s.srcPos ≤ q → q ≤ blk s.srcPos + 24 →
        payload F s.pos q = payload F s.pos s.srcPos := by
      intro q h1 h2
      rw [payload_add hlo h1, payload_blockHeader (p := s.srcPos) (q := q) (by unfold blk at h2; omega),
        List.append_nil]
    rcases readBlockHeader_arb (H := H) hp hr hb (by omega) with
      ⟨s1, e1, r1, sc, ht, hs1, hbhv⟩ | ⟨s1, e1, r1, b1, sc, hs1, hlt⟩ |
      ⟨s1, e1, sc, her, hrc, hrp, hs1, hfl, hl, hbl, hnv⟩
    · rw [e1]
      simp only
      split
      · rename_i hprev
        have hnb : s.pos ≤ blk s.srcPos → ¬ BlockOfChunk H F s.pos (blk s.srcPos) := by
          intro hpb hv
          apply hprev
          rw [(hbhv hpb).1, sc.pos]
          exact hv.2
        have hf1 := r1.hf
        have hlo1 := r1.lo
        rw [sc.pos] at hlo1
        split
        · right; right
          refine ⟨_, rfl, ⟨by simp [fail], by simp [fail], by simp [fail], r1.hl, r1.bl, by simp [fail], ?_, ?_, ?_, ?_⟩, by simp [fail], sc.pos, by omega, hnb⟩
          · intro _; simp only [fail]; rw [sc.pos]; omega
          · intro _; simp only [fail]; exact Nat.mod_lt _ (by omega)
          · intro hB hh _
            simp only [fail]
            have hposB := hpos hB
            obtain ⟨hbh, hv⟩ := hbhv hposB
            obtain ⟨g1, g2⟩ := hh _ hv
            rw [hbh, sc.pos]
            have : roundDownToBlockBoundary s.srcPos = blk s.srcPos := rfl
            rw [this, w64, Nat.mod_eq_of_lt (by omega)]
            omega
          · intro _ h; simp [fail] at h
        · right; right
          refine ⟨_, rfl, ⟨by simp [fail], by simp [fail], by simp [fail], r1.hl, r1.bl, by simp [fail], ?_, ?_, ?_, ?_⟩, by simp [fail], sc.pos, by omega, hnb⟩
          · intro _; simp only [fail]; rw [sc.pos]; omega
          · intro h; simp [fail] at h
          · intro _ _ h; simp [fail] at h
          · intro _ _
            simp only [fail]
            rw [sc.pos, remainingInBlock_eq]
            unfold blk at *; omega
      · left
        refine ⟨s1, rfl, r1, ?_, sc, ht, ?_, ?_, hpl _ ?_ ?_, fun _ => hs1⟩
        · unfold BhOk
          rw [hs1, sc.pos]
          have : blk (blk s.srcPos + 24) = blk s.srcPos := by unfold blk; omega
          rw [this]
          intro hpb
          rw [(hbhv hpb).1]
        · rw [hs1]; unfold blk; omega
        · rw [hs1]; unfold blk; omega
        · rw [hs1]; unfold blk; omega
        · rw [hs1]; exact Nat.le_refl _
    · right; left
      rw [e1]
      have := r1.lo
      have h2 := hr.hf
      exact ⟨s1, rfl, r1, b1, sc, hs1, hpl _ (by rw [hs1]; omega) (by rw [hs1]; omega)⟩
    · right; right
      rw [e1]
      refine ⟨s1, rfl, ⟨by simp [her], by simp [her], by simp [hrc], hl, hbl, by simp [her], ?_, ?_, ?_, ?_⟩,
        by simp [her], sc.pos, by omega, fun h hv => hnv h hv.1⟩
      · intro _; rw [sc.pos]; unfold blk at *; omega
      · intro h; simp [hrc] at h
      · intro _ _ h; simp [hrc] at h
      · intro _ _
        rw [hrp, sc.pos, remainingInBlock_eq]
        unfold blk at *; omega

/-- The chunk header is partially read. -/
structure HdrPart (F : Bytes) (s : CR) : Prop where
  lt : usable s.pos s.srcPos < 40
  data : s.data = []
  hdr : s.hdr.take (usable s.pos s.srcPos) = payload F s.pos s.srcPos

theorem readChunkHeaderLoop_arb (hp : f <+: F) :
    ∀ (fuel : Nat) (s : CR), (if s.srcPos % 65536 < 24 then 1 ≤ fuel else 2 ≤ fuel) → Rd B f s → BhOk F s →
    HdrPart F s →
    (∃ s', s.readChunkHeaderLoop H f fuel = (true, s') ∧ Rd B f s' ∧ BhOk F s' ∧ s'.pos = s.pos ∧
      s'.data = [] ∧ s'.hdr = payload F s.pos s'.srcPos ∧ s'.truncated = s.truncated ∧ BoundaryOk s'.srcPos) ∨
    (∃ s', s.readChunkHeaderLoop H f fuel = (false, s') ∧ Rd B f s' ∧ BhOk F s' ∧ s'.pos = s.pos ∧
      HdrPart F s' ∧ s'.srcPos = f.length) ∨
    (∃ s', s.readChunkHeaderLoop H f fuel = (false, s') ∧ Bad B H F f s' ∧ s'.err ≠ some .exceedsSize ∧
      s'.pos = s.pos ∧ ∃ p, s.srcPos ≤ p ∧ p % 65536 < 24 ∧ usable s.pos p < 40 ∧
        (s.pos ≤ blk p → ¬ BlockOfChunk H F s.pos (blk p))) := by
  intro fuel
  induction fuel with
  | zero => intro s h; split at h <;> omega
  | succ fuel ih =>
  intro s hfuel hr hb hh
  have hlen := hp.length_le
  rw [readChunkHeaderLoop]
  rcases passBlockHeader_arb (H := H) hp hr hb with
    ⟨s1, e1, r1, b1, sc, ht, h24, hge, hpl, hblk⟩ | ⟨s1, e1, r1, b1, sc, hs1, hpl⟩ | ⟨s1, e1, hbad, hne, hps, hmod, hnb⟩
  · rw [e1]
    simp only
    have hU : usable s.pos s1.srcPos = usable s.pos s.srcPos := by
      rw [← payload_length F, hpl, payload_length]
    have hdist : distanceWithoutOverhead s1.pos s1.srcPos = usable s.pos s.srcPos := by
      rw [distanceWithoutOverhead_eq r1.lo, sc.pos, hU]
    rw [hdist]
    have hrem : remainingInBlock s1.srcPos = 65536 - s1.srcPos % 65536 := by
      rw [remainingInBlock_eq]; omega
    have hUlt := hh.lt
    have hhdr := hh.hdr
    have hlo1 := r1.lo
    have hf1 := r1.hf
    rw [sc.pos] at hlo1
    rw [← hpl] at hhdr
    generalize hUd : usable s.pos s.srcPos = U at *
    generalize hn : min (40 - U) (remainingInBlock s1.srcPos) = n
    have hnpos : 0 < n := by omega
    -- what reading `k ≤ n` bytes does
    have hread : ∀ k, k ≤ n → s1.srcPos + k ≤ f.length →
        usable s.pos (s1.srcPos + k) = U + k ∧
        (putAt s1.hdr U (slice F s1.srcPos k)).length = 40 ∧
        (putAt s1.hdr U (slice F s1.srcPos k)).take (U + k) = payload F s.pos (s1.srcPos + k) := by
      intro k hk hkf
      have hsl : (slice F s1.srcPos k).length = k := slice_length_of_le (by omega)
      refine ⟨?_, ?_, ?_⟩
      · rw [usable_shift hlo1 (by omega) h24, hU]
      · rw [putAt_length (by rw [r1.hl, hsl]; omega), r1.hl]
      · have h1 := putAt_take (buf := s1.hdr) (bs := slice F s1.srcPos k) (i := U) (by rw [r1.hl]; omega)
        rw [hsl, sc.hdr, hhdr] at h1
        rw [sc.hdr, h1, payload_add hlo1 (show s1.srcPos ≤ s1.srcPos + k by omega),
          payload_run h24 (by omega) (by omega)]
    have hbh : ∀ k, 0 < k → k ≤ n → s1.srcPos + k ≤ f.length → ∀ (hd : Bytes),
        BhOk F { s1 with hdr := hd, srcPos := s1.srcPos + k } := by
      intro k hk0 hk hkf hd
      unfold BhOk
      simp only
      intro h
      by_cases hend : (s1.srcPos + k) % 65536 = 0
      · rw [hend]; simp
      · have e1 : blk (s1.srcPos + k) = blk s1.srcPos := by unfold blk; omega
        rw [e1] at h ⊢
        have h3 := b1 h
        have hl24 : (slice F (blk s1.srcPos) 24).length = 24 :=
          slice_length_of_le (by unfold blk; omega)
        rw [List.take_of_length_le (by rw [r1.bl]; omega), List.take_of_length_le (by omega)] at h3
        rw [h3]
    by_cases hfit : s1.srcPos + n ≤ f.length
    · have hrd : srcRead f s1.srcPos n = (true, slice F s1.srcPos n, s1.srcPos + n) := by
        unfold srcRead; rw [if_pos hfit, slice_prefix hp hfit]
      rw [hrd]
      simp only [Bool.true_eq_false, ↓reduceIte]
      obtain ⟨a1, a2, a3⟩ := hread n (Nat.le_refl _) hfit
      have r2 : Rd B f { s1 with hdr := putAt s1.hdr U (slice F s1.srcPos n), srcPos := s1.srcPos + n } :=
        ⟨r1.err, r1.rcv, by simp only; have := r1.lo; omega, hfit, r1.bnd, a2, r1.bl⟩
      have b2 := hbh n hnpos (Nat.le_refl _) hfit (putAt s1.hdr U (slice F s1.srcPos n))
      by_cases hlast : n < 40 - U
      · rw [if_pos hlast]
        have hsp : ¬ s.srcPos % 65536 < 24 := by
          intro hc
          have := hblk hc
          unfold blk at this
          omega
        rw [if_neg hsp] at hfuel
        have hmod : (s1.srcPos + n) % 65536 = 0 := by omega
        rcases ih { s1 with hdr := putAt s1.hdr U (slice F s1.srcPos n), srcPos := s1.srcPos + n }
            (by simp only; rw [if_pos (by omega)]; omega) r2 b2
            ⟨by simp only; rw [sc.pos, a1]; omega, by simp only; rw [sc.data]; exact hh.data,
              by simp only; rw [sc.pos, a1]; exact a3⟩ with h | h | h
        · left
          obtain ⟨s', q1, q2, q3, q4, q5, q6, q7⟩ := h
          simp only [sc.pos] at q4 q6
          exact ⟨s', q1, q2, q3, q4, q5, q6, by rw [q7.1]; exact ht, q7.2⟩
        · right; left
          obtain ⟨s', q1, q2, q3, q4, q5, q6⟩ := h
          simp only [sc.pos] at q4
          exact ⟨s', q1, q2, q3, q4, q5, q6⟩
        · right; right
          obtain ⟨s', q1, q2, q3, q4, p, q5, q6, q7, q8⟩ := h
          simp only [sc.pos] at q4 q5 q7 q8
          exact ⟨s', q1, q2, q3, q4, p, by omega, q6, q7, q8⟩
      · rw [if_neg hlast]
        left
        refine ⟨_, rfl, r2, b2, sc.pos, by simp only; rw [sc.data]; exact hh.data, ?_, ht, ?_⟩
        rotate_left
        · show BoundaryOk (s1.srcPos + n)
          unfold BoundaryOk; omega
        simp only
        rw [show U + n = 40 by omega, List.take_of_length_le (by omega)] at a3
        exact a3
    · have hrd : srcRead f s1.srcPos n = (false, slice F s1.srcPos (f.length - s1.srcPos), f.length) := by
        unfold srcRead
        rw [if_neg hfit, slice_prefix hp (by omega)]
        congr 2; omega
      rw [hrd]
      simp only [↓reduceIte]
      have hk : s1.srcPos + (f.length - s1.srcPos) = f.length := by omega
      obtain ⟨a1, a2, a3⟩ := hread (f.length - s1.srcPos) (by omega) (by omega)
      rw [hk] at a1 a3
      right; left
      refine ⟨_, rfl, Rd.failReading ⟨r1.err, r1.rcv, ?_, ?_, r1.bnd, a2, r1.bl⟩, BhOk.failReading ?_, ?_, ?_, ?_⟩
      · simp only; have := r1.lo; omega
      · simp
      · by_cases hz : f.length - s1.srcPos = 0
        · have e : f.length = s1.srcPos := by omega
          unfold BhOk
          simp only
          rw [e]
          exact b1
        · have := hbh (f.length - s1.srcPos) (by omega) (by omega) (by omega)
            (putAt s1.hdr U (slice F s1.srcPos (f.length - s1.srcPos)))
          rw [hk] at this
          exact this
      · rw [(failReading_same _).pos]; exact sc.pos
      · have e := failReading_same { s1 with
          hdr := putAt s1.hdr U (slice F s1.srcPos (f.length - s1.srcPos)), srcPos := f.length }
        constructor
        · rw [e.pos, failReading_srcPos]; simp only; rw [sc.pos, a1]; omega
        · rw [e.data]; simp only; rw [sc.data]; exact hh.data
        · rw [e.pos, e.hdr, failReading_srcPos]; simp only; rw [sc.pos, a1]; exact a3
      · rw [failReading_srcPos]
  · right; left
    rw [e1]
    refine ⟨s1, rfl, r1, b1, sc.pos, ⟨?_, ?_, ?_⟩, hs1⟩
    · rw [sc.pos, ← payload_length F, hpl, payload_length]; exact hh.lt
    · rw [sc.data]; exact hh.data
    · have : usable s.pos s1.srcPos = usable s.pos s.srcPos := by
        rw [← payload_length F, hpl, payload_length]
      rw [sc.pos, sc.hdr, hpl, this]; exact hh.hdr
  · right; right
    rw [e1]
    exact ⟨s1, rfl, hbad, hne, hps, s.srcPos, Nat.le_refl _, hmod, hh.lt, hnb⟩

/-- The chunk header is completely read and was accepted. -/
structure HdrDone (H : Bytes → UInt64) (s : CR) : Prop where
  hash : Hdr.storedHash s.hdr = (H (s.hdr.drop 8)).toNat
  sig : s.pos = 0 → IsSignature ⟨s.hdr, s.data⟩

theorem checkChunkHeader_arb (hr : Rd B f s) (h40 : usable s.pos s.srcPos = 40) :
    (s.checkChunkHeader H = (true, s) ∧ HdrDone H s) ∨
    (∃ s', s.checkChunkHeader H = (false, s') ∧ Bad B H F f s' ∧ s'.err ≠ some .exceedsSize ∧
      s'.pos = s.pos) := by
  have hlt : s.pos < s.srcPos := by
    apply Nat.lt_of_le_of_ne hr.lo
    intro h
    rw [h] at h40
    simp [usable] at h40
  have hf := hr.hf
  have hbad : ∀ e, e ≠ .exceedsSize → e ≠ .diverged → Bad B H F f (s.fail e .findChunk s.srcPos) := by
    intro e h1 h2
    refine ⟨by simp [fail], by simp [fail, h2], by simp [fail], hr.hl, hr.bl, by simp [fail, h1], ?_, ?_, ?_, ?_⟩
    · intro _; simp only [fail]; omega
    · intro h; simp [fail] at h
    · intro _ _ h; simp [fail] at h
    · intro _ _; simp only [fail]; omega
  unfold checkChunkHeader
  split
  · right; exact ⟨_, rfl, hbad _ (by simp) (by simp), by simp [fail], rfl⟩
  · rename_i hh
    split
    · right; exact ⟨_, rfl, hbad _ (by simp) (by simp), by simp [fail], rfl⟩
    · split
      · right; exact ⟨_, rfl, hbad _ (by simp) (by simp), by simp [fail], rfl⟩
      · rename_i hs
        left
        refine ⟨rfl, ?_, ?_⟩
        · rw [← computedHash_eq H hr.hl]; exact (Classical.not_not.1 hh).symm
        · intro h0
          have : ¬ (Hdr.dataSize s.hdr ≠ 0 ∨ Hdr.chunkType s.hdr ≠ kFileSignature.toNat ∨
            Hdr.numRecords s.hdr ≠ 0 ∨ Hdr.decodedDataSize s.hdr ≠ 0) := fun h => hs ⟨h0, h⟩
          simp only [not_or, Classical.not_not] at this
          exact ⟨this.1, this.2.1, this.2.2.1, this.2.2.2⟩

/-- The chunk header is there, and the data read so far is what follows it in the file. -/
structure DataPart (H : Bytes → UInt64) (F : Bytes) (s : CR) : Prop where
  done : HdrDone H s
  ge : 40 ≤ usable s.pos s.srcPos
  le : s.data.length ≤ Hdr.dataSize s.hdr
  pre : s.hdr ++ s.data <+: payload F s.pos s.srcPos
  part : s.data.length < Hdr.dataSize s.hdr → s.hdr ++ s.data = payload F s.pos s.srcPos ∧ BhOk F s

/-- The invariant of a reader which has not failed. -/
structure Good (B : Prop) (H : Bytes → UInt64) (F f : Bytes) (s : CR) : Prop where
  rd : Rd B f s
  st : (HdrPart F s ∧ BhOk F s) ∨ DataPart H F s

theorem readChunkHeader_arb (hp : f <+: F) (hr : Rd B f s) (hb : BhOk F s)
    (hh : HdrPart F s) :
    (∃ s', s.readChunkHeader H f = (true, s') ∧ Rd B f s' ∧ DataPart H F s' ∧ s'.pos = s.pos ∧ s'.data = [] ∧
      s'.truncated = s.truncated) ∨
    (∃ s', s.readChunkHeader H f = (false, s') ∧ Rd B f s' ∧ BhOk F s' ∧ s'.pos = s.pos ∧
      HdrPart F s' ∧ s'.srcPos = f.length) ∨
    (∃ s', s.readChunkHeader H f = (false, s') ∧ Bad B H F f s' ∧ s'.err ≠ some .exceedsSize ∧
      s'.pos = s.pos) := by
  unfold readChunkHeader
  rcases readChunkHeaderLoop_arb (H := H) hp 3 s (by split <;> omega) hr hb hh with
    ⟨s1, e1, r1, b1, hps, hd, hhd, ht, _⟩ | ⟨s1, e1, h⟩ | ⟨s1, e1, h⟩
  · rw [e1]
    simp only
    have h40 : usable s1.pos s1.srcPos = 40 := by
      rw [← payload_length F, hps, ← hhd, r1.hl]
    rcases checkChunkHeader_arb (H := H) (F := F) r1 h40 with ⟨e2, hdone⟩ | ⟨s2, e2, hbad, hne, hps2⟩
    · left
      rw [e2]
      refine ⟨s1, rfl, r1, ⟨hdone, by omega, by simp [hd], ?_, ?_⟩, hps, hd, ht⟩
      · rw [hd, List.append_nil, hps, ← hhd]; exact List.prefix_refl _
      · intro _
        exact ⟨by rw [hd, List.append_nil, hps, ← hhd], b1⟩
    · right; right
      rw [e2]
      exact ⟨s2, rfl, hbad, hne, hps2.trans hps⟩
  · right; left
    rw [e1]
    exact ⟨s1, rfl, h⟩
  · right; right
    rw [e1]
    exact ⟨s1, rfl, h.1, h.2.1, h.2.2.1⟩

end Arb
end Riegeli

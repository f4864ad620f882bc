import Verif.Arb
/-!
# The operations of the chunk reader on arbitrary file contents

An invariant of every reachable state, whatever the file contains. Lemmas; the property theorems are
in `Verif/Props`.
-/
namespace Riegeli
open CR
namespace Arb

variable {B : Prop} {H : Bytes → UInt64} {F f : Bytes} {s : CR}

/-- A reader which was asked to go past the end of the file (by recovery). -/
structure Past (f : Bytes) (s : CR) : Prop where
  err : s.err = none
  rcv : s.rcv = .no
  lt : s.srcPos < s.pos
  hf : s.srcPos ≤ f.length
  data : s.data = []
  p64 : s.pos < 2 ^ 64
  hl : s.hdr.length = 40
  bl : s.bh.length = 24

/-- The invariant of every reachable state of the reader. -/
def Inv (B : Prop) (H : Bytes → UInt64) (F f : Bytes) (s : CR) : Prop :=
  Good B H F f s ∨ Past f s ∨ Bad B H F f s

theorem Good.fresh (h1 : s.err = none) (h2 : s.rcv = .no) (h3 : s.srcPos = s.pos) (h4 : s.pos ≤ f.length)
    (h5 : B → BoundaryOk s.pos) (h6 : s.data = []) (h7 : s.hdr.length = 40) (h8 : s.bh.length = 24) :
    Good B H F f s := by
  refine ⟨⟨h1, h2, by omega, by omega, h5, h7, h8⟩, Or.inl ⟨⟨?_, h6, ?_⟩, ?_⟩⟩
  · rw [h3]; simp [usable]
  · rw [h3, payload_self]; simp [usable]
  · intro h
    rw [h3] at h ⊢
    have : s.pos % 65536 = 0 := by unfold blk at h; omega
    rw [this]; simp

theorem DataPart.failReading (h : DataPart H F s) : DataPart H F s.failReading := by
  have e := failReading_same s
  refine ⟨⟨?_, ?_⟩, ?_, ?_, ?_, ?_⟩
  · rw [e.hdr]; exact h.done.hash
  · rw [e.pos, e.hdr, e.data]; exact h.done.sig
  · rw [e.pos, failReading_srcPos]; exact h.ge
  · rw [e.hdr, e.data]; exact h.le
  · rw [e.hdr, e.data, e.pos, failReading_srcPos]; exact h.pre
  · rw [e.hdr, e.data, e.pos, failReading_srcPos]
    intro h1
    exact ⟨(h.part h1).1, (h.part h1).2.failReading⟩

theorem pullChunkHeader_arb (hp : f <+: F) (hi : Good B H F f s ∨ Past f s) :
    (∃ s', s.pullChunkHeader H f = (true, s') ∧ Rd B f s' ∧ DataPart H F s' ∧ s'.pos = s.pos ∧
      Good B H F f s) ∨
    (∃ s', s.pullChunkHeader H f = (false, s') ∧ Good B H F f s' ∧ s'.pos = s.pos ∧
      s'.srcPos = f.length ∧ usable s'.pos s'.srcPos < 40) ∨
    (∃ s', s.pullChunkHeader H f = (false, s') ∧ Past f s' ∧ s'.pos = s.pos ∧ s'.srcPos = f.length) ∨
    (∃ s', s.pullChunkHeader H f = (false, s') ∧ Bad B H F f s' ∧ s'.err ≠ some .exceedsSize ∧
      (s'.pos = s.pos ∨ (Past f s ∧ s.srcPos < f.length))) := by
  unfold pullChunkHeader
  rcases hi with hg | hpast
  · have hr := hg.rd
    rw [if_neg (by simp [hr.err])]
    simp only
    rw [if_neg (by have := hr.lo; omega), distanceWithoutOverhead_eq hr.lo]
    rcases hg.st with ⟨hh, hb⟩ | hd
    · rw [if_pos hh.lt]
      have hr' : Rd B f { s with truncated := false } :=
        ⟨hr.err, hr.rcv, hr.lo, hr.hf, hr.bnd, hr.hl, hr.bl⟩
      rcases readChunkHeader_arb (H := H) hp hr' hb ⟨hh.lt, hh.data, hh.hdr⟩ with
        ⟨s1, e1, r1, d1, h1, h2, h3⟩ | ⟨s1, e1, r1, b1, h1, h2, h3⟩ | ⟨s1, e1, b1, h1, h2⟩
      · left; exact ⟨s1, e1, r1, d1, h1, hg⟩
      · right; left; exact ⟨s1, e1, ⟨r1, Or.inl ⟨h2, b1⟩⟩, h1, h3, h2.lt⟩
      · right; right; right
        exact ⟨s1, e1, b1, h1, Or.inl h2⟩
    · left
      rw [if_neg (by have := hd.ge; omega)]
      exact ⟨_, rfl, ⟨hr.err, hr.rcv, hr.lo, hr.hf, hr.bnd, hr.hl, hr.bl⟩,
        ⟨⟨hd.done.hash, hd.done.sig⟩, hd.ge, hd.le, hd.pre, hd.part⟩, rfl, hg⟩
  · rw [if_neg (by simp [hpast.err])]
    simp only
    rw [if_pos hpast.lt]
    have := hpast.hf
    split
    · right; right; left
      exact ⟨_, rfl, ⟨hpast.err, hpast.rcv, hpast.lt, hpast.hf, hpast.data, hpast.p64, hpast.hl, hpast.bl⟩,
        rfl, by simp only; omega⟩
    · right; right; right
      have h1 := hpast.lt
      have h2 := hpast.p64
      refine ⟨_, rfl, ⟨by simp [fail], by simp [fail], by simp [fail], hpast.hl, hpast.bl, by simp [fail], ?_, ?_, ?_, ?_⟩, by simp [fail], Or.inr ⟨hpast, by omega⟩⟩
      · intro _; exact this
      · intro _; exact h2
      · intro _ _ _; exact h1
      · intro _ h; simp [fail] at h

/-- A chunk which is completely in the file ends after it begins, and holds its contents. -/
theorem chunkEnd_arb {d n p q : Nat} (hpq : p ≤ q) (hq : q < 2 ^ 63) (hn : n < 2 ^ 56)
    (hu : 40 + d ≤ usable p q) :
    p < chunkEnd d n p ∧ chunkEnd d n p < 2 ^ 64 ∧ 40 + d ≤ usable p (chunkEnd d n p) ∧
      (BoundaryOk p → BoundaryOk (chunkEnd d n p)) := by
  have h1 := usable_add_usableTo hpq
  have hu2 : 40 + d ≤ usableTo q - usableTo p := by omega
  have hle : usableTo q ≤ q := by unfold usableTo; omega
  have hA := addWithOverhead_eq (cb := p) (len := 40 + d) (by unfold usableTo at hu2 hle; omega)
  have hB := roundUp_spec (pos := p + n) (by omega)
  have hw1 : w64 (40 + d) = 40 + d := Nat.mod_eq_of_lt (by omega)
  have hw2 : w64 (p + n) = p + n := Nat.mod_eq_of_lt (by omega)
  have hlt := addWithOverhead_le (cb := p) (len := 40 + d)
  unfold chunkEnd
  rw [hw1, hw2]
  have hpA : p < addWithOverhead p (40 + d) := by rw [hA]; omega
  refine ⟨by omega, by omega, ?_, ?_⟩
  · have h3 := usable_add_usableTo (show p ≤ addWithOverhead p (40 + d) by omega)
    have h4 : usableTo p + (40 + d) ≤ usableTo (addWithOverhead p (40 + d)) := by
      rw [hA]; unfold usableTo; omega
    have := usable_le (a := p) (b := addWithOverhead p (40 + d))
      (c := max (addWithOverhead p (40 + d)) (roundUpToPossibleChunkBoundary (p + n))) (by omega) (by omega)
    omega
  · intro hb
    have h5 := (overheadFormula_spec hb (len := 40 + d) (by omega) hA).2.1
    rcases Nat.le_total (addWithOverhead p (40 + d)) (roundUpToPossibleChunkBoundary (p + n)) with h | h
    · rw [Nat.max_eq_right h]; exact hB.1
    · rw [Nat.max_eq_left h]; exact h5

theorem numRecords_lt (h : Bytes) : Hdr.numRecords h < 2 ^ 56 := by
  unfold Hdr.numRecords
  have h1 := leNat_lt (slice h 24 8)
  have h2 : (slice h 24 8).length ≤ 8 := by rw [slice_length]; omega
  have h3 : 256 ^ (slice h 24 8).length ≤ 256 ^ 8 := Nat.pow_le_pow_right (by omega) h2
  omega

/-- The data loop on arbitrary contents. -/
theorem readDataLoop_arb (hp : f <+: F) (ce : Nat) :
    ∀ (fuel : Nat) (s : CR), f.length - s.srcPos < fuel → Rd B f s → DataPart H F s →
    (∃ s', s.readDataLoop H f ce fuel = (true, s') ∧ Rd B f s' ∧ DataPart H F s' ∧ s'.pos = s.pos ∧
      s'.hdr = s.hdr ∧ s'.data.length = Hdr.dataSize s'.hdr) ∨
    (∃ s', s.readDataLoop H f ce fuel = (false, s') ∧ Good B H F f s' ∧ s'.pos = s.pos ∧
      s'.srcPos = f.length) ∨
    (∃ s', s.readDataLoop H f ce fuel = (false, s') ∧ Bad B H F f s' ∧ s'.err ≠ some .exceedsSize ∧
      s'.pos = s.pos) := by
  intro fuel
  induction fuel with
  | zero => intro s h; omega
  | succ fuel ih =>
  intro s hfuel hr hd
  have hlen := hp.length_le
  rw [readDataLoop]
  split
  case isFalse hnl =>
    left
    exact ⟨s, rfl, hr, hd, rfl, rfl, by have := hd.le; omega⟩
  case isTrue hlt =>
  obtain ⟨hpay, hb⟩ := hd.part hlt
  rcases passBlockHeader_arb (H := H) hp hr hb with
    ⟨s1, e1, r1, b1, sc, ht, h24, hge, hpl, hblk⟩ | ⟨s1, e1, r1, b1, sc, hs1, hpl⟩ | ⟨s1, e1, hbad, hne, hps⟩
  · rw [e1]
    simp only
    have hU : usable s.pos s1.srcPos = usable s.pos s.srcPos := by
      rw [← payload_length F, hpl, payload_length]
    have hlo1 := r1.lo
    have hf1 := r1.hf
    rw [sc.pos] at hlo1
    have hd1 : DataPart H F s1 := by
      refine ⟨⟨?_, ?_⟩, ?_, ?_, ?_, ?_⟩
      · rw [sc.hdr]; exact hd.done.hash
      · rw [sc.pos, sc.hdr, sc.data]; exact hd.done.sig
      · rw [sc.pos, hU]; exact hd.ge
      · rw [sc.data, sc.hdr]; exact hd.le
      · rw [sc.hdr, sc.data, sc.pos, hpl]; exact hd.pre
      · intro _; rw [sc.hdr, sc.data, sc.pos, hpl]; exact ⟨hpay, b1⟩
    split
    · right; right
      have hlo := r1.lo
      have hge1 := hd1.ge
      have hltp : s1.pos < s1.srcPos := by
        apply Nat.lt_of_le_of_ne hlo
        intro h
        rw [h] at hge1
        simp [usable] at hge1
      refine ⟨_, rfl, ⟨by simp [fail], by simp [fail], by simp [fail], r1.hl, r1.bl, by simp [fail], ?_, ?_, ?_, ?_⟩, by simp [fail], sc.pos⟩
      · intro _; simp only [fail]; omega
      · intro h; simp [fail] at h
      · intro _ _ h; simp [fail] at h
      · intro _ _; simp only [fail]; omega
    · have hrem : remainingInBlock s1.srcPos = 65536 - s1.srcPos % 65536 := by
        rw [remainingInBlock_eq]; omega
      have hlt1 : s1.data.length < Hdr.dataSize s1.hdr := by rw [sc.data, sc.hdr]; exact hlt
      generalize hn : min (Hdr.dataSize s1.hdr - s1.data.length) (remainingInBlock s1.srcPos) = n
      have hnpos : 0 < n := by omega
      have hst : ∀ k, k ≤ n → s1.srcPos + k ≤ f.length →
          DataPart H F { s1 with data := s1.data ++ slice F s1.srcPos k, srcPos := s1.srcPos + k } := by
        intro k hk hkf
        have hsl : (slice F s1.srcPos k).length = k := slice_length_of_le (by omega)
        have hpay1 : s1.hdr ++ (s1.data ++ slice F s1.srcPos k) = payload F s1.pos (s1.srcPos + k) := by
          rw [← List.append_assoc, (hd1.part hlt1).1, payload_add r1.lo (show s1.srcPos ≤ s1.srcPos + k by omega),
            payload_run h24 (by omega) (by omega)]
        refine ⟨⟨hd1.done.hash, hd1.done.sig⟩, ?_, ?_, ?_, ?_⟩
        · simp only
          have := usable_le r1.lo (show s1.srcPos ≤ s1.srcPos + k by omega)
          have := hd1.ge
          omega
        · simp only [List.length_append, hsl]; omega
        · simp only [hpay1]; exact List.prefix_refl _
        · intro _
          refine ⟨hpay1, ?_⟩
          unfold BhOk
          simp only
          intro h
          by_cases hk0 : k = 0
          · subst hk0; exact b1 h
          by_cases hend : (s1.srcPos + k) % 65536 = 0
          · rw [hend]; simp
          · have e1 : blk (s1.srcPos + k) = blk s1.srcPos := by unfold blk; omega
            rw [e1] at h ⊢
            have h3 := b1 h
            have hl24 : (slice F (blk s1.srcPos) 24).length = 24 :=
              slice_length_of_le (by unfold blk; omega)
            rw [List.take_of_length_le (by rw [r1.bl]; omega), List.take_of_length_le (by omega)] at h3
            rw [h3]
      by_cases hfit : s1.srcPos + n ≤ f.length
      · have hrd : srcRead f s1.srcPos n = (true, slice F s1.srcPos n, s1.srcPos + n) := by
          unfold srcRead; rw [if_pos hfit, slice_prefix hp hfit]
        rw [hrd]
        simp only [Bool.true_eq_false, ↓reduceIte]
        have r2 : Rd B f { s1 with data := s1.data ++ slice F s1.srcPos n, srcPos := s1.srcPos + n } :=
          ⟨r1.err, r1.rcv, by simp only; have := r1.lo; omega, hfit, r1.bnd, r1.hl, r1.bl⟩
        rcases ih { s1 with data := s1.data ++ slice F s1.srcPos n, srcPos := s1.srcPos + n }
            (by simp only; omega) r2 (hst n (Nat.le_refl _) hfit) with h | h | h
        · left
          obtain ⟨s', q1, q2, q3, q4, q5, q6⟩ := h
          exact ⟨s', q1, q2, q3, q4.trans sc.pos, q5.trans sc.hdr, q6⟩
        · right; left
          obtain ⟨s', q1, q2, q3, q4⟩ := h
          exact ⟨s', q1, q2, q3.trans sc.pos, q4⟩
        · right; right
          obtain ⟨s', q1, q2, q3, q4⟩ := h
          exact ⟨s', q1, q2, q3, q4.trans sc.pos⟩
      · have hrd : srcRead f s1.srcPos n = (false, slice F s1.srcPos (f.length - s1.srcPos), f.length) := by
          unfold srcRead
          rw [if_neg hfit, slice_prefix hp (by omega)]
          congr 2; omega
        rw [hrd]
        simp only [↓reduceIte]
        have hk : s1.srcPos + (f.length - s1.srcPos) = f.length := by omega
        have h2 := hst (f.length - s1.srcPos) (by omega) (by omega)
        rw [hk] at h2
        right; left
        refine ⟨_, rfl, ⟨Rd.failReading ⟨r1.err, r1.rcv, ?_, ?_, r1.bnd, r1.hl, r1.bl⟩, Or.inr (DataPart.failReading h2)⟩, ?_, ?_⟩
        · simp only; have := r1.lo; omega
        · simp
        · rw [(failReading_same _).pos]; exact sc.pos
        · rw [failReading_srcPos]
  · right; left
    rw [e1]
    have hU : usable s.pos s1.srcPos = usable s.pos s.srcPos := by
      rw [← payload_length F, hpl, payload_length]
    refine ⟨s1, rfl, ⟨r1, Or.inr ⟨⟨?_, ?_⟩, ?_, ?_, ?_, ?_⟩⟩, sc.pos, hs1⟩
    · rw [sc.hdr]; exact hd.done.hash
    · rw [sc.pos, sc.hdr, sc.data]; exact hd.done.sig
    · rw [sc.pos, hU]; exact hd.ge
    · rw [sc.data, sc.hdr]; exact hd.le
    · rw [sc.hdr, sc.data, sc.pos, hpl]; exact hd.pre
    · intro _; rw [sc.hdr, sc.data, sc.pos, hpl]; exact ⟨hpay, b1⟩
  · right; right
    rw [e1]
    exact ⟨s1, rfl, hbad, hne, hps.1⟩

/-- Specification of a delivered chunk: the chunk `c` beginning at `p` is really in `F`, with
matching hashes, and its end `q` is in `f`. -/
structure Delivered (H : Bytes → UInt64) (F f : Bytes) (c : Chunk) (p q : Nat) : Prop where
  wf : WFChunk H c
  lt : p < q
  endAt : q = c.endAt p
  inFile : q ≤ f.length
  contents : c.header ++ c.data <+: payload F p q
  sig : p = 0 → IsSignature c

/-- `ReadChunk` on arbitrary contents. -/
theorem readChunk_arb (hp : f <+: F) (h63 : F.length < 2 ^ 63) (hi : Good B H F f s ∨ Past f s) :
    (∃ c s', s.readChunk H f = (some c, s') ∧ Good B H F f s' ∧ Delivered H F f c s.pos s'.pos) ∨
    (∃ s', s.readChunk H f = (none, s') ∧ Good B H F f s' ∧ s'.pos = s.pos ∧ s'.srcPos = f.length) ∨
    (∃ s', s.readChunk H f = (none, s') ∧ Past f s' ∧ s'.pos = s.pos ∧ s'.srcPos = f.length) ∨
    (∃ s', s.readChunk H f = (none, s') ∧ Bad B H F f s' ∧ s'.err ≠ some .exceedsSize ∧
      (s'.pos = s.pos ∨ (Past f s ∧ s.srcPos < f.length))) := by
  have hlen := hp.length_le
  unfold readChunk
  rcases pullChunkHeader_arb (H := H) hp hi with
    ⟨s1, e1, r1, d1, h1, hg⟩ | ⟨s1, e1, g1, h1, h2, h3⟩ | ⟨s1, e1, p1, h1, h2⟩ | ⟨s1, e1, b1, h1, h2⟩
  · rw [e1]
    simp only
    generalize hce : chunkEnd (Hdr.dataSize s1.hdr) (Hdr.numRecords s1.hdr) s1.pos = ce
    rcases readDataLoop_arb hp ce (f.length + 1) s1 (by omega) r1 d1 with
      ⟨s2, e2, r2, d2, q1, q2, q3⟩ | ⟨s2, e2, g2, q1, q2⟩ | ⟨s2, e2, b2, q1, q2⟩
    · rw [e2]
      simp only
      have hf2 := r2.hf
      have hplen : 40 + Hdr.dataSize s2.hdr ≤ usable s2.pos s2.srcPos := by
        have := d2.pre.length_le
        rw [payload_length, List.length_append, r2.hl, q3] at this
        exact this
      rw [← q2, ← q1] at hce
      obtain ⟨c1, c2, c3, c4⟩ := chunkEnd_arb (n := Hdr.numRecords s2.hdr) r2.lo (by omega)
        (numRecords_lt _) hplen
      rw [hce] at c1 c2 c3 c4
      unfold srcSeek
      by_cases hle : ce ≤ f.length
      · rw [if_pos hle]
        simp only [Bool.true_eq_false, ↓reduceIte]
        split
        · right; right; right
          refine ⟨_, rfl, ⟨by simp [fail], by simp [fail], by simp [fail], r2.hl, r2.bl, by simp [fail], ?_, ?_, ?_, ?_⟩, by simp [fail], Or.inl (q1.trans h1)⟩
          · intro _; simp only [fail]; omega
          · intro _; exact c2
          · intro _ _ _; exact c1
          · intro _ h; simp [fail] at h
        · rename_i hdh
          left
          refine ⟨_, _, rfl, Good.fresh r2.err r2.rcv rfl hle (fun hB => c4 (r2.bnd hB)) rfl r2.hl r2.bl, ?_⟩
          simp only
          have hps : s2.pos = s.pos := q1.trans h1
          refine ⟨⟨r2.hl, d2.done.hash, q3.symm, (Classical.not_not.1 hdh).symm⟩, by omega, ?_, hle, ?_, ?_⟩
          · rw [← hps]; exact hce.symm
          · rw [← hps]
            rcases Nat.le_total s2.srcPos ce with h | h
            · rw [payload_add r2.lo h]
              exact d2.pre.trans (List.prefix_append _ _)
            · apply List.prefix_of_prefix_length_le (l₃ := payload F s2.pos s2.srcPos) d2.pre
              · rw [payload_add (Nat.le_of_lt c1) h]; exact List.prefix_append _ _
              · rw [payload_length, List.length_append, r2.hl, q3]; exact c3
          · rw [← hps]; exact d2.done.sig
      · rw [if_neg hle]
        simp only [↓reduceIte]
        right; left
        refine ⟨_, rfl, ⟨Rd.failReading ⟨r2.err, r2.rcv, ?_, ?_, r2.bnd, r2.hl, r2.bl⟩, Or.inr (DataPart.failReading ?_)⟩, ?_, ?_⟩
        · simp only; have := r2.lo; omega
        · simp
        · refine ⟨⟨d2.done.hash, d2.done.sig⟩, ?_, ?_, ?_, ?_⟩
          · simp only
            have := usable_le r2.lo hf2
            have := d2.ge
            omega
          · exact d2.le
          · simp only
            rw [payload_add r2.lo hf2]
            exact d2.pre.trans (List.prefix_append _ _)
          · simp only; intro h; omega
        · rw [(failReading_same _).pos]; exact q1.trans h1
        · rw [failReading_srcPos]
    · right; left
      rw [e2]
      exact ⟨s2, rfl, g2, q1.trans h1, q2⟩
    · right; right; right
      rw [e2]
      exact ⟨s2, rfl, b2, q1, Or.inl (q2.trans h1)⟩
  · right; left
    rw [e1]
    exact ⟨s1, rfl, g1, h1, h2⟩
  · right; right; left
    rw [e1]
    exact ⟨s1, rfl, p1, h1, h2⟩
  · right; right; right
    rw [e1]
    exact ⟨s1, rfl, b1, h1, h2⟩

end Arb
end Riegeli

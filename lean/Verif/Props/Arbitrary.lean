import Verif.ArbSeek
import Verif.Examples
/-!
# C04, C07, C32: reading arbitrary file contents

The statements use `payload`, `HonestBlocks` (`Verif/Arb.lean`) and `WFChunk`, `IsSignature`
(`Verif/Chunk.lean`, `Verif/FileSpec.lean`) as their specification vocabulary.
-/
namespace Riegeli.Props
open Riegeli CR Arb

variable {H : Bytes → UInt64}

/-- A call of an operation of a chunk reader. -/
inductive Op
  | readChunk | pullChunkHeader | recover
  | seek (pos : Nat)
  | seekToChunk (which : Which) (pos : Nat)

/-- One step of the history of a chunk reader: an operation called while the file contains `f`, with
the chunk it returned, if any. -/
inductive Step (H : Bytes → UInt64) (f : Bytes) : CR → Op → Option Chunk → CR → Prop
  | readChunk (s : CR) : Step H f s .readChunk (s.readChunk H f).1 (s.readChunk H f).2
  | pullChunkHeader (s : CR) : Step H f s .pullChunkHeader none (s.pullChunkHeader H f).2
  | recover (s s' : CR) (o : Option Region) : s.recover H f = some (o, s') → Step H f s .recover none s'
  | seek (s : CR) (pos : Nat) : Step H f s (.seek pos) none (s.seek f pos).2
  | seekToChunk (s s' : CR) (w : Which) (pos : Nat) (b : Bool) : s.seekToChunk H f w pos = some (b, s') →
      Step H f s (.seekToChunk w pos) none s'

/-- States reachable by any history of operations while the file grows from `f0` to `f`, which are
prefixes of `F`. The reader was created at any position of the file. -/
inductive Reach (H : Bytes → UInt64) (F : Bytes) : Bytes → CR → Prop
  | init (f : Bytes) (p : Nat) (hdr0 bh0 : Bytes) : f <+: F → hdr0.length = 40 → bh0.length = 24 →
      p ≤ f.length → Reach H F f (CR.init p hdr0 bh0)
  | grow (f f' : Bytes) (s : CR) : Reach H F f s → f <+: f' → f' <+: F → Reach H F f' s
  | step (f : Bytes) (s s' : CR) (op : Op) (o : Option Chunk) : Reach H F f s → Step H f s op o s' →
      Reach H F f s'

theorem Reach.inv {F f : Bytes} {s : CR} (h63 : F.length < 2 ^ 63) (h : Reach H F f s) :
    f <+: F ∧ Inv False H F f s := by
  induction h with
  | init f p hdr0 bh0 hf h1 h2 hp => exact ⟨hf, init_arb h1 h2 hp⟩
  | grow f f' s _ hg hf ih => exact ⟨hf, ih.2.grow hg⟩
  | step f s s' op o _ hs ih =>
    refine ⟨ih.1, ?_⟩
    cases hs with
    | readChunk => exact (readChunk_inv ih.1 h63 ih.2).1
    | pullChunkHeader => exact pull_inv ih.1 ih.2
    | recover _ o h => exact recover_inv ih.1 h63 ih.2 h
    | seek pos => exact seek_arb ih.2 pos
    | seekToChunk _ w pos b h => exact seekToChunk_arb ih.1 ih.2 w pos _ h

/-- **C04.** Whatever the file contains and whatever happened before (reads, recoveries, seeks, growth of
the file): a chunk delivered by `ReadChunk` has a header whose stored hash is the hash of the rest of
the header, data of the size and hash stored in the header; these bytes are those of the file at the
position where the reader was (block headers taken out); and the position moved forward to the end of the
chunk, which is in the file. -/
theorem C04_delivered_chunks_are_intact {F f : Bytes} (h63 : F.length < 2 ^ 63) {s : CR}
    (h : Reach H F f s) {c : Chunk} (hc : (s.readChunk H f).1 = some c) :
    c.header.length = 40 ∧
    Hdr.storedHash c.header = (H (c.header.drop 8)).toNat ∧
    Hdr.dataSize c.header = c.data.length ∧
    Hdr.dataHash c.header = (H c.data).toNat ∧
    c.header ++ c.data <+: payload F s.pos (s.readChunk H f).2.pos ∧
    s.pos < (s.readChunk H f).2.pos ∧
    (s.readChunk H f).2.pos = c.endAt s.pos ∧
    (s.readChunk H f).2.pos ≤ f.length := by
  obtain ⟨hf, hi⟩ := h.inv h63
  have hd := (readChunk_inv hf h63 hi).2 c hc
  exact ⟨hd.wf.headerLen, hd.wf.headerHash, hd.wf.dataSize, hd.wf.dataHash, hd.contents, hd.lt, hd.endAt, hd.inFile⟩

/-- **C32** (file signature). Whatever the file contains, a chunk delivered from position 0 is a file
signature. -/
theorem C32_first_chunk_is_signature {F f : Bytes} (h63 : F.length < 2 ^ 63) {s : CR}
    (h : Reach H F f s) (h0 : s.pos = 0) {c : Chunk} (hc : (s.readChunk H f).1 = some c) : IsSignature c := by
  obtain ⟨hf, hi⟩ := h.inv h63
  exact ((readChunk_inv hf h63 hi).2 c hc).sig h0

/-- The loops of the model never run out of fuel, whatever the file contains. -/
theorem no_divergence {F f : Bytes} (h63 : F.length < 2 ^ 63) {s : CR} (h : Reach H F f s) :
    s.err ≠ some .diverged := by
  obtain ⟨hf, hi⟩ := h.inv h63
  rcases hi with h | h | h
  · rw [h.rd.err]; simp
  · rw [h.err]; simp
  · exact h.ndiv

/-! ## C07 -/

/-- What happens while a file is read sequentially, skipping invalid regions. -/
inductive Event
  | chunk (b e : Nat) (c : Chunk)
  | skipped (b e : Nat)
deriving DecidableEq, Repr

/-- Beginning of the part of the file of an event. -/
def Event.from : Event → Nat
  | .chunk b _ _ => b
  | .skipped b _ => b

/-- End of the part of the file of an event. -/
def Event.to : Event → Nat
  | .chunk _ e _ => e
  | .skipped _ e => e

/-- The reading loop of a caller which skips invalid regions: `ReadChunk` until it fails, then `Recover` if
the reader is not OK (`records/chunk_reader.h`, comments on `Recover`; `RecordReaderBase::ReadRecordImpl`
does the same with a recovery function which returns true). `none`: more than `fuel` iterations, or
`Recover` does not return or refuses. -/
def readAll (H : Bytes → UInt64) (f : Bytes) : Nat → CR → Option (List Event × CR)
  | 0, _ => none
  | fuel + 1, s =>
    match s.readChunk H f with
    | (some c, s1) => (readAll H f fuel s1).map (fun r => (.chunk s.pos s1.pos c :: r.1, r.2))
    | (none, s1) =>
      if s1.err = none then some ([], s1)
      else
        match s1.recover H f with
        | some (some r, s2) => (readAll H f fuel s2).map (fun r' => (.skipped r.begin r.end :: r'.1, r'.2))
        | _ => none

/-- Specification: the events cover the part `[p, q)` of the file one after the other, without gaps. -/
def Tiles : Nat → List Event → Nat → Prop
  | p, [], q => p = q
  | p, e :: es, q => e.from = p ∧ p ≤ e.to ∧ Tiles e.to es q

theorem readAll_arb {F : Bytes} (h63 : F.length < 2 ^ 63) (hh : HonestBlocks H F) :
    ∀ (n : Nat) (s : CR), F.length + 2 - min s.pos (F.length + 1) ≤ n → (Good True H F F s ∨ (Past F s ∧ s.srcPos = F.length)) →
    ∃ es s', readAll H F n s = some (es, s') ∧ s'.err = none ∧ Tiles (min s.pos F.length) es (min s'.pos F.length) ∧
      s.pos ≤ s'.pos ∧ s'.srcPos = F.length := by
  intro n
  induction n with
  | zero => intro s h; omega
  | succ n ih =>
  intro s hn hi
  have hg : Good True H F F s ∨ Past F s := hi.imp id And.left
  rw [readAll]
  rcases readChunk_arb (List.prefix_refl F) h63 hg with ⟨c, s1, e, g1, d1⟩ | ⟨s1, e, g1, hps, hsrc⟩ | ⟨s1, e, g1, hps, hsrc⟩ | ⟨s1, e, b1, hne, hps⟩
  · rw [e]
    simp only
    have := d1.lt
    have := d1.inFile
    obtain ⟨es, s', e', h1, h2, h3, h4⟩ := ih s1 (by omega) (Or.inl g1)
    rw [e']
    refine ⟨_, _, rfl, h1, ⟨?_, ?_, ?_⟩, by simp only; omega, h4⟩
    · simp only [Event.from]; omega
    · simp only [Event.to]; omega
    · simp only [Event.to]
      rw [Nat.min_eq_left d1.inFile] at h2
      exact h2
  · rw [e]
    simp only
    rw [if_pos g1.rd.err]
    exact ⟨[], s1, rfl, g1.rd.err, by simp only [Tiles]; rw [hps], by omega, hsrc⟩
  · rw [e]
    simp only
    rw [if_pos g1.err]
    exact ⟨[], s1, rfl, g1.err, by simp only [Tiles]; rw [hps], by omega, hsrc⟩
  · rw [e]
    simp only
    rw [if_neg b1.err]
    have hps' : s1.pos = s.pos := by
      rcases hps with h | ⟨h1, h2⟩
      · exact h
      · rcases hi with h | h
        · have := h.rd.lo; have := h1.lt; omega
        · omega
    obtain ⟨r, s2, e2, hlt⟩ := recover_total (List.prefix_refl F) h63 trivial hh b1 hne
    obtain ⟨a1, a2, a3⟩ := recover_arb (List.prefix_refl F) h63 b1 e2
    injection a2 with a2
    rw [e2]
    simp only
    have hle := b1.le hne
    obtain ⟨es, s', e', h1, h2, h3, h4⟩ := ih s2 (by omega) (a1.elim Or.inl (fun h => Or.inr ⟨h, a3 h⟩))
    rw [e', a2]
    refine ⟨_, _, rfl, h1, ⟨?_, ?_, ?_⟩, by simp only; omega, h4⟩
    · simp only [Event.from]; omega
    · simp only [Event.to]; omega
    · simp only [Event.to]; exact h2

/-- **C07** (partial). Reading an arbitrary file from any possible position while skipping invalid regions
terminates, without the reader being failed; the delivered chunks and the skipped regions follow one
another without gaps or overlaps; at the end everything in the file has been read.

Missing from the full property: block headers are required to be honest (`HonestBlocks`: a block header with a
matching hash has a positive `next_chunk`, pointing below 2^63). Without this the property is false, see
`C07_negation_zero_next_chunk`. -/
theorem C07_reading_with_recovery_terminates_partial {F : Bytes} (h63 : F.length < 2 ^ 63) (hh : HonestBlocks H F)
    {p : Nat} (hp : p ≤ F.length) (hb : isPossibleChunkBoundary p = true) {hdr0 bh0 : Bytes} (h1 : hdr0.length = 40) (h2 : bh0.length = 24) :
    ∃ es s', readAll H F (F.length + 2) (CR.init p hdr0 bh0) = some (es, s') ∧ s'.err = none ∧
      Tiles p es (min s'.pos F.length) ∧ s'.srcPos = F.length := by
  have hg : Good True H F F (CR.init p hdr0 bh0) := by
    unfold CR.init
    rw [if_pos hb]
    exact Good.fresh rfl rfl rfl hp (fun _ => (isPossibleChunkBoundary_iff p).1 hb) rfl h1 h2
  have hpos : (CR.init p hdr0 bh0).pos = p := by unfold CR.init; rw [if_pos hb]
  obtain ⟨es, s', e, a, b, c, d⟩ := readAll_arb h63 hh (F.length + 2) _ (by omega) (Or.inl hg)
  rw [hpos, Nat.min_eq_left hp] at b
  exact ⟨es, s', e, a, b, d⟩

/-- Histories of sequential reading with recovery and `Seek`, while the file grows. -/
inductive ReachSeq (H : Bytes → UInt64) (F : Bytes) : Bytes → CR → Prop
  | init (f : Bytes) (p : Nat) (hdr0 bh0 : Bytes) : f <+: F → hdr0.length = 40 → bh0.length = 24 →
      p ≤ f.length → ReachSeq H F f (CR.init p hdr0 bh0)
  | grow (f f' : Bytes) (s : CR) : ReachSeq H F f s → f <+: f' → f' <+: F → ReachSeq H F f' s
  | readChunk (f : Bytes) (s : CR) : ReachSeq H F f s → ReachSeq H F f (s.readChunk H f).2
  | pullChunkHeader (f : Bytes) (s : CR) : ReachSeq H F f s → ReachSeq H F f (s.pullChunkHeader H f).2
  | recover (f : Bytes) (s s' : CR) (o : Option Region) : ReachSeq H F f s → s.recover H f = some (o, s') →
      ReachSeq H F f s'
  | seek (f : Bytes) (s : CR) (pos : Nat) : ReachSeq H F f s → ReachSeq H F f (s.seek f pos).2

theorem ReachSeq.inv {F f : Bytes} {s : CR} (h63 : F.length < 2 ^ 63) (h : ReachSeq H F f s) :
    f <+: F ∧ Inv True H F f s := by
  induction h with
  | init f p hdr0 bh0 hf h1 h2 hp => exact ⟨hf, init_arb h1 h2 hp⟩
  | grow f f' s _ hg hf ih => exact ⟨hf, ih.2.grow hg⟩
  | readChunk f s _ ih => exact ⟨ih.1, (readChunk_inv ih.1 h63 ih.2).1⟩
  | pullChunkHeader f s _ ih => exact ⟨ih.1, pull_inv ih.1 ih.2⟩
  | recover f s s' o _ h ih => exact ⟨ih.1, recover_inv ih.1 h63 ih.2 h⟩
  | seek f s pos _ ih => exact ⟨ih.1, seek_arb ih.2 pos⟩

/-- **C07** (partial). After any history of reading, recovery, `Seek` and growth of an arbitrary file: if the
reader has failed, other than by a `Seek` past the end of the file, then `Recover` returns true, the reader is not
failed any more and is strictly after the position at which it was, and the skipped region is exactly what lies
between the two positions (in the file).

Missing from the full property: `HonestBlocks`, see `C07_negation_zero_next_chunk`; and the histories do not include
the chunk level seeks (`SeekToChunk...`). -/
theorem C07_recover_moves_forward_partial {F f : Bytes} (h63 : F.length < 2 ^ 63) (hh : HonestBlocks H F) {s : CR}
    (h : ReachSeq H F f s) (hfail : s.err ≠ none) (hns : s.err ≠ some .exceedsSize) :
    ∃ r s', s.recover H f = some (some r, s') ∧ s'.err = none ∧ s.pos < s'.pos ∧
      r.begin = s.pos ∧ r.end = min s'.pos f.length ∧ r.begin ≤ r.end := by
  obtain ⟨hf, hi⟩ := h.inv h63
  have hb : Bad True H F f s := by
    rcases hi with h | h | h
    · exact absurd h.rd.err hfail
    · exact absurd h.err hfail
    · exact h
  obtain ⟨r, s', e, hlt⟩ := recover_total hf h63 trivial hh hb hns
  obtain ⟨a1, a2, a3⟩ := recover_arb hf h63 hb e
  injection a2 with a2
  have hle := hb.le hns
  refine ⟨r, s', e, ?_, hlt, by rw [a2], by rw [a2], by rw [a2]; simp only; omega⟩
  rcases a1 with h | h
  · exact h.rd.err
  · exact h.err

/-- **C07 is not true of the code for every file**: for the file consisting of the 24 bytes of a block header with
a matching hash, `previous_chunk = 5` and `next_chunk = 0`, reading fails, `Recover` succeeds without moving the
reader (and reports an empty region), and reading again fails again: the reading loop does not terminate. -/
theorem C07_negation_zero_next_chunk (H : Bytes → UInt64) {hdr0 bh0 : Bytes} (_ : hdr0.length = 40) (h2 : bh0.length = 24) :
    let f := mkBlockHeader H 5 0
    ∀ fuel, readAll H f fuel (CR.init 0 hdr0 bh0) = none := by
  intro f
  have hfl : f.length = 24 := mkBlockHeader_length _ _ _
  have key : ∀ bh : Bytes, bh.length = 24 → ∃ s1 s2, (⟨0, 0, hdr0, [], bh, none, false, .no, 0⟩ : CR).readChunk H f = (none, s1) ∧
      s1.err ≠ none ∧ s1.recover H f = some (some ⟨0, 0⟩, s2) ∧ s2 = ⟨0, 0, hdr0, [], f, none, false, .no, 0⟩ := by
    intro bh hbl
    have hrd : srcRead f 0 24 = (true, f, 24) := by
      unfold srcRead
      rw [if_pos (by omega)]
      have : slice f 0 24 = f := by rw [← hfl]; exact slice_all f
      rw [this]
    have hput : putAt bh (24 - 24) f = f := by
      simp [putAt, hfl, List.drop_of_length_le (Nat.le_of_eq hbl)]
    refine ⟨⟨24, 0, hdr0, [], f, some .prevMismatch, false, .haveChunk, 0⟩, _, ?_, by simp, ?_, rfl⟩
    · unfold readChunk pullChunkHeader
      simp only [ne_eq, not_true_eq_false, ↓reduceIte, Nat.lt_irrefl]
      rw [if_pos (by decide)]
      unfold readChunkHeader readChunkHeaderLoop passBlockHeader
      simp only
      rw [if_pos (by decide)]
      unfold readBlockHeader
      simp only [show remainingInBlockHeader 0 = 24 from rfl, hrd, hput]
      have hst := mkBlockHeader_stored H 5 0
      have hpv := mkBlockHeader_prev H (p := 5) (n := 0) (by decide)
      have hnx := mkBlockHeader_next H (p := 5) (n := 0) (by decide)
      simp only [Bool.true_eq_false, ↓reduceIte]
      rw [if_neg (by rw [ne_eq, Classical.not_not]; exact hst.symm)]
      simp only
      rw [hpv, hnx]
      rfl
    · unfold recover
      simp only [reduceCtorEq, ↓reduceIte]
      rfl
  have loop : ∀ fuel (bh : Bytes), bh.length = 24 → readAll H f fuel ⟨0, 0, hdr0, [], bh, none, false, .no, 0⟩ = none := by
    intro fuel
    induction fuel with
    | zero => intro bh _; rfl
    | succ n ih =>
      intro bh hbl
      obtain ⟨s1, s2, e1, e2, e3, e4⟩ := key bh hbl
      rw [readAll, e1]
      simp only
      rw [if_neg e2, e3]
      simp only
      rw [e4, ih f hfl]
      rfl
  intro fuel
  have : CR.init 0 hdr0 bh0 = ⟨0, 0, hdr0, [], bh0, none, false, .no, 0⟩ := by
    unfold CR.init
    rw [if_pos (by decide)]
  rw [this]
  exact loop fuel bh0 h2

/-- **A second failure of C07**: after `Seek` past the end of the file, `Recover` goes back to the end of the file and
reports a region which ends before it begins. -/
theorem C07_negation_seek_past_end (H : Bytes → UInt64) {hdr0 bh0 : Bytes} {f : Bytes} (hf : f.length = 100) :
    ∃ s', ((CR.init 0 hdr0 bh0).seek f 200).2.recover H f = some (some ⟨200, 100⟩, s') := by
  have h1 : srcSeek f 200 = (false, 100) := by unfold srcSeek; rw [if_neg (by omega), hf]
  have h2 : srcSeek f 65536 = (false, 100) := by unfold srcSeek; rw [if_neg (by omega), hf]
  have e : ((CR.init 0 hdr0 bh0).seek f 200).2 = ⟨100, 200, hdr0, [], bh0, some .exceedsSize, false, .findChunk, 100⟩ := by
    unfold CR.init
    rw [if_pos (by decide)]
    unfold seek
    simp only [ne_eq, not_true_eq_false, ↓reduceIte, h1]
    rfl
  rw [e]
  unfold recover
  simp only [reduceCtorEq, ↓reduceIte]
  rw [findChunk]
  simp only [show w64 (100 + remainingInBlock 100) = 65536 from rfl, h2, ↓reduceIte]
  exact ⟨_, rfl⟩

/-! ## The hypotheses are met -/

/-- The hypotheses of C04 and C32 are met: a reader of the example file delivers its first chunk. -/
example (H : Bytes → UInt64) : ∃ (s : CR), (Example.file H).length < 2 ^ 63 ∧
    Reach H (Example.file H) (Example.file H) s ∧ s.pos = 0 ∧
    (s.readChunk H (Example.file H)).1 = some (Example.sig H) := by
  refine ⟨CR.init 0 (List.replicate 40 0) (List.replicate 24 0), by rw [Example.length]; decide,
    Reach.init _ _ _ _ (List.prefix_refl _) rfl rfl (Nat.zero_le _), rfl, ?_⟩
  have hc := chunkAt_of_laid (pre := []) (Example.ok H).laid (fun _ => Example.isSig H)
  have ha : AtBoundary (Example.file H) 0 (CR.init 0 (List.replicate 40 0) (List.replicate 24 0)) :=
    ⟨rfl, rfl, rfl, rfl, rfl, rfl, Nat.zero_le _, Or.inl rfl⟩
  have hm := ha.mid hc (List.prefix_refl _)
  have hend : (Example.sig H).endAt (fileEnd 0 []) = 64 := Example.sig_end H
  rcases readChunk_spec hc (List.prefix_refl _) hm with ⟨_, _, s', e, _⟩ | ⟨_, h, _⟩ | ⟨h, _⟩
  · have e' : (CR.init 0 (List.replicate 40 0) (List.replicate 24 0)).readChunk H (Example.file H) = (some (Example.sig H), s') := e
    rw [e']
  · exact absurd (mkChunk_wf H [] kFileSignature 0 0 (by simp)).dataHash h
  · exfalso
    have h' : (Example.file H).length < (Example.sig H).endAt (fileEnd 0 []) := h
    rw [hend, Example.length] at h'
    omega

/-- Block headers of a file of 1000000 zeros are honest if the hash of 16 zeros is not 0 (none of them has a matching
hash): the hypotheses of the theorems for C07 are met, and reading such a file fails. -/
example (H : Bytes → UInt64) (hH : ∀ b, H b ≠ 0) : HonestBlocks H (List.replicate 1000000 0) := by
  intro b ⟨_, _, h⟩
  exfalso
  have hz : ∀ n m, leNat (slice (slice (List.replicate 1000000 (0 : UInt8)) b n) 0 m) = 0 := by
    intro n m
    have : ∀ l : Bytes, (∀ x ∈ l, x = 0) → leNat l = 0 := by
      intro l
      induction l with
      | nil => intro _; rfl
      | cons a l ih =>
        intro h
        have h1 := h a (by simp)
        have h2 := ih (fun x hx => h x (by simp [hx]))
        simp only [leNat, h1, h2]
        rfl
    apply this
    intro x hx
    have hx' := List.mem_of_mem_take hx
    have hx'' := List.mem_of_mem_drop (List.mem_of_mem_take (List.mem_of_mem_drop hx'))
    exact (List.mem_replicate.1 hx'').2
  unfold BH.storedHash BH.computedHash at h
  rw [hz] at h
  apply hH (slice (slice (List.replicate 1000000 0) b 24) 8 16)
  apply UInt64.toNat.inj
  rw [h]; rfl

end Riegeli.Props

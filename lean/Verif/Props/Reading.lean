import Verif.RecordReaderProofs
import Verif.Examples
/-!
# C02, C03, C08: sequential reading of complete, truncated and growing files

`H` is the hash function (arbitrary), `parse` the chunk decoder (arbitrary: all that is used is that
the chunks of the file decode to the records `recs c`), `recovery` the recovery function, if any.
The initial contents `hdr0`, `bh0` of the uninitialized buffers of the reader are arbitrary.
-/
namespace Riegeli.Props
open Riegeli Riegeli.CR

variable {H : Bytes → UInt64} {parse : Chunk → Option (List Nat × Bytes)}
  {recovery : Option (CR.Region → Bool)} {recs : Chunk → List Bytes}

/-- A new reader of a source at position 0. -/
def newReader (hdr0 bh0 : Bytes) : RR := RR.init (CR.init 0 hdr0 bh0)

/-- **C03.** Any number of read calls, interleaved in any way with growth of the file (`fs[i]` is what the
i-th call sees): each call returns the next record, with its position, as soon as the chunk of that
record is completely in the file, and otherwise reports end of source. Nothing is lost, duplicated or
reported as skipped, and the reader does not fail. -/
theorem C03_growing_file {cs : List Chunk} {F : Bytes} (hv : ValidFile H cs F)
    (hdec : ∀ c ∈ cs, DecodesTo parse c (recs c)) {hdr0 bh0 : Bytes} (h40 : hdr0.length = 40)
    (h24 : bh0.length = 24) {fs : List Bytes} (hg : Growing F fs) :
    ∃ s, readSchedule H parse recovery fs (newReader hdr0 bh0) =
        some (expectedReads recs cs 0 fs, s) ∧ s.err = none ∧ s.skipped = [] := by
  have hg' : Growing (fileBytes H 0 cs) ([] :: fs) := by
    rw [← hv.bytes]
    exact ⟨List.pairwise_cons.2 ⟨fun x _ => List.nil_prefix, hg.1⟩, fun x hx => by
      rcases List.mem_cons.1 hx with h | h
      · subst h; exact List.nil_prefix
      · exact hg.2 x h⟩
  obtain ⟨s', g, k', e, _, hst⟩ := readSchedule_seq (recovery := recovery) hv.ok hv.sig hdec fs [] 0 _
    hg' (SeqSt.init hv.ok hv.sig h40 h24 List.nil_prefix)
  obtain ⟨_, _, _, _, _, hr, _⟩ := hst
  exact ⟨s', e, hr.err, hr.skip⟩

theorem expectedReads_replicate (cs : List Chunk) (f : Bytes) : ∀ (n k : Nat),
    k + n = (((completeChunks 0 cs f.length).flatMap recs).zip (recordPositions recs 0 cs)).length →
    expectedReads recs cs k (List.replicate n f) =
      ((((completeChunks 0 cs f.length).flatMap recs).zip (recordPositions recs 0 cs)).drop k).map some
  | 0, k, h => by
    rw [List.drop_of_length_le (by omega)]; rfl
  | n + 1, k, h => by
    have hk : k < (((completeChunks 0 cs f.length).flatMap recs).zip
        (recordPositions recs 0 cs)).length := by omega
    simp only [List.replicate_succ, expectedReads]
    rw [List.getElem?_eq_getElem hk, expectedReads_replicate cs f n (k + 1) (by omega)]
    rw [List.drop_eq_getElem_cons hk]
    rfl

/-- **C02.** A valid file cut at any length `n`: successive reads return exactly the records of the chunks
which are complete in the first `n` bytes, with their positions; then, any number of times, end of source
without failing. `Close()` then fails (with a truncation error) if and only if the cut is not at a chunk
boundary. With `n = F.length` this is reading of the complete file. -/
theorem C02_truncated_file {cs : List Chunk} {F : Bytes} (hv : ValidFile H cs F)
    (hdec : ∀ c ∈ cs, DecodesTo parse c (recs c)) {hdr0 bh0 : Bytes} (h40 : hdr0.length = 40)
    (h24 : bh0.length = 24) {n : Nat} (hn : n ≤ F.length) (m : Nat) :
    ∃ s, readSchedule H parse recovery
        (List.replicate (((completeChunks 0 cs n).flatMap recs).length + (m + 1)) (F.take n))
        (newReader hdr0 bh0) =
      some ((((completeChunks 0 cs n).flatMap recs).zip (recordPositions recs 0 cs)).map some ++
        List.replicate (m + 1) none, s) ∧ s.err = none ∧ s.skipped = [] ∧
      s.pos = ⟨fileEnd 0 (completeChunks 0 cs n), 0⟩ ∧
      (s.closeErr = none ↔ fileEnd 0 (completeChunks 0 cs n) = n) ∧
      (s.closeErr ≠ none → s.closeErr = some (.reader (some .truncatedFile))) := by
  have hp : F.take n <+: fileBytes H 0 cs := by rw [← hv.bytes]; exact List.take_prefix _ _
  have hlen : (F.take n).length = n := by simp; omega
  -- reading the records
  have hgr : ∀ j, Growing (fileBytes H 0 cs) (List.replicate j (F.take n)) := by
    intro j
    refine ⟨?_, fun x hx => by rw [List.eq_of_mem_replicate hx]; exact hp⟩
    rw [List.pairwise_replicate]
    exact Or.inr (List.prefix_refl _)
  have hzl : (((completeChunks 0 cs n).flatMap recs).zip (recordPositions recs 0 cs)).length =
      ((completeChunks 0 cs n).flatMap recs).length := by
    have h1 := recordPositions_length (recs := recs) cs 0
    have h2 := numReads_le recs cs 0 n
    rw [List.length_zip]; omega
  -- the first part of the schedule
  have key : ∀ (j : Nat) (K : Nat), K = ((completeChunks 0 cs n).flatMap recs).length →
      ∀ s : RR, SeqSt H recs cs K (F.take n) s →
      ∃ s', readSchedule H parse recovery (List.replicate (j + 1) (F.take n)) s =
        some (List.replicate (j + 1) none, s') ∧ SeqSt H recs cs K (F.take n) s' ∧
        s'.pos = ⟨fileEnd 0 (completeChunks 0 cs n), 0⟩ ∧
        s'.cr.truncated = decide (fileEnd 0 (completeChunks 0 cs n) < n) := by
    intro j K hK
    induction j with
    | zero =>
      intro s hs
      rcases readRecord_seq (recovery := recovery) hv.ok hv.sig hp hdec hs with
        ⟨r, s1, q, e, h1, _⟩ | ⟨s1, e, h1, h4, _, h5, h6⟩
      · rw [hlen] at h1
        have := (List.getElem?_eq_some_iff.1 h1).1; omega
      · rw [hlen] at h5 h6
        refine ⟨s1, ?_, h4, h5, h6⟩
        simp [readSchedule, List.replicate, e]
    | succ j ih =>
      intro s hs
      rcases readRecord_seq (recovery := recovery) hv.ok hv.sig hp hdec hs with
        ⟨r, s1, q, e, h1, _⟩ | ⟨s1, e, h1, h4, _, h5, h6⟩
      · rw [hlen] at h1
        have := (List.getElem?_eq_some_iff.1 h1).1; omega
      · obtain ⟨s', e2, h7⟩ := ih s1 h4
        refine ⟨s', ?_, h7⟩
        rw [List.replicate_succ]
        simp only [readSchedule, e, e2]
        rfl
  have part1 : ∀ (j k : Nat), k + j = ((completeChunks 0 cs n).flatMap recs).length →
      ∀ s : RR, SeqSt H recs cs k (F.take n) s →
      ∃ s', readSchedule H parse recovery (List.replicate j (F.take n)) s =
        some (expectedReads recs cs k (List.replicate j (F.take n)), s') ∧
        SeqSt H recs cs (k + j) (F.take n) s' := by
    intro j
    induction j with
    | zero => intro k _ s hs; exact ⟨s, rfl, hs⟩
    | succ j ih =>
      intro k hk s hs
      rcases readRecord_seq (recovery := recovery) hv.ok hv.sig hp hdec hs with
        ⟨r, s1, q, e, h1, h2, h3, _, h4⟩ | ⟨s1, e, h1, _⟩
      · obtain ⟨s', e2, h5⟩ := ih (k + 1) (by omega) s1 h4
        refine ⟨s', ?_, by rw [show k + (j + 1) = k + 1 + j by omega]; exact h5⟩
        have hz : (((completeChunks 0 cs (F.take n).length).flatMap recs).zip
            (recordPositions recs 0 cs))[k]? = some (r, q) := by
          rw [List.getElem?_zip_eq_some]; exact ⟨h1, h2⟩
        simp only [List.replicate_succ, readSchedule, expectedReads, e, e2, hz, Option.map_some, h3]
      · rw [hlen] at h1
        rw [List.getElem?_eq_none_iff] at h1; omega
  obtain ⟨s1, e1, hs1⟩ := part1 _ 0 (Nat.zero_add _) _
    (SeqSt.init (hdr0 := hdr0) (bh0 := bh0) hv.ok hv.sig h40 h24 hp)
  obtain ⟨s2, e2, hs2, hpos, htr⟩ := key m _ (by simp) s1 hs1
  refine ⟨s2, ?_, ?_⟩
  · rw [← List.replicate_append_replicate, readSchedule_append]
    unfold newReader
    rw [e1]
    simp only [Option.bind_some, e2, Option.map_some]
    rw [expectedReads_replicate cs (F.take n) _ 0 (by rw [hlen, hzl, Nat.zero_add]), hlen]
    rfl
  · obtain ⟨done, rest, rs, i, hcs, hr, _⟩ := hs2
    have hle : fileEnd 0 (completeChunks 0 cs n) ≤ n := by
      have h1 := hr.cr.pos
      have h2 := hr.cr.le
      rw [hlen] at h2
      have hcb : s2.pos.chunkBegin = fileEnd 0 (completeChunks 0 cs n) := by rw [hpos]
      -- position reported at end of source
      have hcases : s2.pos = ⟨s2.cr.pos, 0⟩ ∨ s2.pos = ⟨s2.chunkBegin, s2.dec.index⟩ := by
        unfold RR.pos; split
        · exact Or.inr rfl
        · exact Or.inl rfl
      rcases hcases with h | h
      · rw [h] at hcb; simp only at hcb; omega
      · rw [h] at hcb; simp only at hcb
        rcases hr.cur with ⟨hc, _⟩ | ⟨pre, c, hd, hc, _⟩
        · omega
        · subst hd
          have hl := ((chunksLaid_append 0 _ _).1 (hcs ▸ hv.ok.laid)).1
          have hl' := (chunksLaid_append 0 _ _).1 hl
          have := (hl'.2.boundary (hl'.1.boundary boundaryOk_zero).1).2
          rw [fileEnd_append] at h2
          omega
    refine ⟨hr.err, hr.skip, hpos, ?_, ?_⟩
    · unfold RR.closeErr CR.close
      rw [if_neg (by simp [hr.err]), htr]
      have hce := hr.cr.cerr
      by_cases hlt : fileEnd 0 (completeChunks 0 cs n) < n
      · simp [hlt, CR.fail]; omega
      · simp [hlt, hce]; omega
    · unfold RR.closeErr CR.close
      rw [if_neg (by simp [hr.err]), htr]
      have hce := hr.cr.cerr
      by_cases hlt : fileEnd 0 (completeChunks 0 cs n) < n
      · simp [hlt, CR.fail]
      · simp [hlt, hce]

/-- The hypotheses of C03 are met: the example file growing from nothing, to a cut in the middle of its second chunk,
to the complete file. -/
example (H : Bytes → UInt64) : ValidFile H (Example.chunks H) (Example.file H) ∧
    (∀ c ∈ Example.chunks H, DecodesTo Example.parse c (Example.recs c)) ∧
    Growing (Example.file H) [[], (Example.file H).take 70000, Example.file H] :=
  ⟨Example.valid H, Example.decodes H, by
    refine ⟨?_, ?_⟩
    · simp [List.take_prefix]
    · intro f hf
      simp only [List.mem_cons, List.not_mem_nil, or_false] at hf
      rcases hf with rfl | rfl | rfl
      · exact List.nil_prefix
      · exact List.take_prefix _ _
      · exact List.prefix_refl _⟩

/-- The hypotheses of C02 are met by the example file cut in the middle of its second chunk. -/
example (H : Bytes → UInt64) : ValidFile H (Example.chunks H) (Example.file H) ∧
    (∀ c ∈ Example.chunks H, DecodesTo Example.parse c (Example.recs c)) ∧ 70000 ≤ (Example.file H).length :=
  ⟨Example.valid H, Example.decodes H, by rw [Example.length]; decide⟩

end Riegeli.Props

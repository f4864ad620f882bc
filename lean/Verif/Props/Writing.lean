import Verif.RecordWriter
import Verif.WriterTotal
import Verif.Concat
import Verif.Props.Reading
/-!
# C01, C15, C16, C18: what is written is what is read

The theorems are for any `Encoder` which is `Correct` (its output decodes to the records added), hence for
`simpleEncoder` and `deferredSimpleEncoder` with any lawful compression library (`Codec`), and for any chunk
decoder for transposed chunks. `RW.init` constructs the writer, `RW.run` performs `WriteRecord` and `Flush`
calls and logs `LastPos()` after each of them, `RW.close` closes it; `none` means that the writer failed.
-/
namespace Riegeli.Props
open Riegeli Riegeli.CR

section
variable {C : Codec} {tdec : Bytes → Nat → Nat → Option (List Nat × Bytes)} {H : Bytes → UInt64}

theorem signature_decodes : DecodesTo (parseChunk C tdec) (RW.signatureChunk H) [] := by
  refine ⟨?_, ?_⟩
  · unfold parseChunk RW.signatureChunk
    simp only [mkChunk, mkChunkHeader_chunkType H _ kFileSignature 0 _ (by omega),
      mkChunkHeader_numRecords H _ kFileSignature 0 _ (by omega),
      mkChunkHeader_dataSize H [] kFileSignature 0 0 (by simp),
      mkChunkHeader_decodedDataSize H _ kFileSignature 0 0 (by omega)]
    simp [limitsFrom]
  · simp only [RW.signatureChunk, mkChunk]; rw [mkChunkHeader_numRecords H _ kFileSignature 0 _ (by omega)]; rfl

theorem metadata_decodes (data : Bytes) (dec : Nat) :
    DecodesTo (parseChunk C tdec) (mkChunk H data kFileMetadata 0 dec) [] := by
  refine ⟨?_, ?_⟩
  · unfold parseChunk
    simp only [mkChunk, mkChunkHeader_chunkType H _ kFileMetadata 0 _ (by omega),
      mkChunkHeader_numRecords H _ kFileMetadata 0 _ (by omega)]
    rw [if_neg (by decide), if_pos trivial]
    simp [limitsFrom]
  · simp only [mkChunk]; rw [mkChunkHeader_numRecords H _ kFileMetadata 0 _ (by omega)]; rfl
end

variable {σ : Type} {E : Encoder σ} {H : Bytes → UInt64} {o : WOpts} {C : Codec}
  {tdec : Bytes → Nat → Nat → Option (List Nat × Bytes)} {recovery : Option (CR.Region → Bool)}

theorem completeChunks_all : ∀ {cs : List Chunk} {pos n : Nat}, BoundaryOk pos → ChunksLaid H pos cs →
    fileEnd pos cs ≤ n → completeChunks pos cs n = cs
  | [], _, _, _, _, _ => rfl
  | c :: cs, pos, n, hb, h, hn => by
    obtain ⟨_, _, _, he, h3⟩ := h
    have hs := endAt_spec hb he
    have := (h3.boundary hs.1.1).2
    simp only [fileEnd] at hn
    simp only [completeChunks]
    rw [if_pos (by omega), completeChunks_all hs.1.1 h3 hn]

theorem _root_.Riegeli.OutIs.valid {parse : Chunk → Option (List Nat × Bytes)} {cs : List Chunk} {w : RW σ}
    (h : OutIs H parse cs w) : ValidFile H cs w.out := ⟨h.ok, h.sig, h.out⟩

theorem _root_.Riegeli.OutIs.length {parse : Chunk → Option (List Nat × Bytes)} {cs : List Chunk} {w : RW σ}
    (h : OutIs H parse cs w) : w.out.length = fileEnd 0 cs := by
  rw [h.out, h.ok.laid.length boundaryOk_zero]; omega

/-- Reading a complete destination. -/
theorem read_out {parse : Chunk → Option (List Nat × Bytes)} {cs : List Chunk} {w : RW σ}
    (h : OutIs H parse cs w) {hdr0 bh0 : Bytes} (h40 : hdr0.length = 40) (h24 : bh0.length = 24) (m : Nat) :
    ∃ s, readSchedule H parse recovery
        (List.replicate ((cs.flatMap (recordsOf parse)).length + (m + 1)) w.out) (newReader hdr0 bh0) =
      some (((cs.flatMap (recordsOf parse)).zip (allPos parse cs [])).map some ++ List.replicate (m + 1) none, s) ∧
      s.err = none ∧ s.skipped = [] ∧ s.closeErr = none := by
  obtain ⟨s, h1, h2, h3, _, h4, _⟩ := C02_truncated_file (recovery := recovery) (h.valid) h.dec h40 h24
    (Nat.le_refl w.out.length) m
  rw [completeChunks_all boundaryOk_zero h.ok.laid (by rw [h.length]; omega), List.take_length] at h1
  rw [completeChunks_all boundaryOk_zero h.ok.laid (by rw [h.length]; omega)] at h4
  refine ⟨s, ?_, h2, h3, h4.2 h.length.symm⟩
  rw [h1]
  simp [allPos]

/-- **C01, C16** for any correct encoder. -/
theorem C01_C16_any_encoder (hE : E.Correct H (parseChunk C tdec)) {ops : List WOp} {w0 w1 w2 : RW σ}
    {log : List (Option RecordPosition)} (hi : RW.init E H o [] = some w0)
    (hr : RW.run E H o ops w0 = some (log, w1)) (hc : w1.close E H o = some w2)
    {hdr0 bh0 : Bytes} (h40 : hdr0.length = 40) (h24 : bh0.length = 24) (m : Nat) :
    ∃ ps s, ps.length = (WOp.records ops).length ∧
      readSchedule H (parseChunk C tdec) recovery
        (List.replicate ((WOp.records ops).length + (m + 1)) w2.out) (newReader hdr0 bh0) =
      some (((WOp.records ops).zip ps).map some ++ List.replicate (m + 1) none, s) ∧
      s.err = none ∧ s.skipped = [] ∧ s.closeErr = none ∧ log = expectedLastPos ps 0 ops := by
  obtain ⟨cs0, a1, a2⟩ := init_empty_spec metadata_decodes signature_decodes hi
  obtain ⟨cs1, op1, b1, b2, b3, b4, b5, b6, b7⟩ := run_spec hE paddingChunk_decodes ops a1 hr
  obtain ⟨cs2, c1, c2, c3, c4, _⟩ := finishChunk_spec hE paddingChunk_decodes b1.inv hc
  rw [a2, List.nil_append, List.nil_append] at b3
  rw [b3] at c3
  obtain ⟨s, d1, d2, d3, d4⟩ := read_out (recovery := recovery) c1.out h40 h24 m
  rw [c3] at d1
  refine ⟨allPos (parseChunk C tdec) cs2 [], s, ?_, d1, d2, d3, d4, ?_⟩
  · rw [allPos_length, c3, List.append_nil]
  · rw [b5, c4]; rfl

/-- **C01.** Whatever is written, with any flushes in between, any chunk size, padding and metadata options and
any lawful compression: if the writer does not fail then reading the resulting bytes returns exactly the
records written, in the order written; then, any number of times, end of source; the reader never fails,
nothing is skipped, and closing it succeeds. -/
theorem C01_written_records_are_read (hC : C.Lawful) {t : UInt8} (ht : knownCompression t = true)
    {ops : List WOp} {w0 w1 w2 : RW SEnc} {log : List (Option RecordPosition)}
    (hi : RW.init (simpleEncoder C t) H o [] = some w0)
    (hr : RW.run (simpleEncoder C t) H o ops w0 = some (log, w1))
    (hc : w1.close (simpleEncoder C t) H o = some w2)
    {hdr0 bh0 : Bytes} (h40 : hdr0.length = 40) (h24 : bh0.length = 24) (m : Nat) :
    ∃ results s, readSchedule H (parseChunk C tdec) recovery
        (List.replicate ((WOp.records ops).length + (m + 1)) w2.out) (newReader hdr0 bh0) = some (results, s) ∧
      results.map (Option.map Prod.fst) = (WOp.records ops).map some ++ List.replicate (m + 1) none ∧
      s.err = none ∧ s.skipped = [] ∧ s.closeErr = none := by
  obtain ⟨ps, s, h1, h2, h3, h4, h5, _⟩ := C01_C16_any_encoder (recovery := recovery)
    (simpleEncoder_correct hC ht tdec H) hi hr hc h40 h24 m
  refine ⟨_, s, h2, ?_, h3, h4, h5⟩
  rw [List.map_append, List.map_map, List.map_replicate]
  congr 1
  have : (Option.map Prod.fst ∘ some : Bytes × RecordPosition → Option Bytes) = some ∘ Prod.fst := rfl
  rw [this, ← List.map_map, List.map_fst_zip (by omega)]

/-- **C16.** The positions `ps` seen by the reader (`last_pos()` after each successful read) are the positions
reported by the writer: after each operation `LastPos()` is the position of the record most recently
written, if any was. -/
theorem C16_positions_agree (hC : C.Lawful) {t : UInt8} (ht : knownCompression t = true)
    {ops : List WOp} {w0 w1 w2 : RW SEnc} {log : List (Option RecordPosition)}
    (hi : RW.init (simpleEncoder C t) H o [] = some w0)
    (hr : RW.run (simpleEncoder C t) H o ops w0 = some (log, w1))
    (hc : w1.close (simpleEncoder C t) H o = some w2)
    {hdr0 bh0 : Bytes} (h40 : hdr0.length = 40) (h24 : bh0.length = 24) :
    ∃ ps s, ps.length = (WOp.records ops).length ∧
      readSchedule H (parseChunk C tdec) recovery
        (List.replicate ((WOp.records ops).length + 1) w2.out) (newReader hdr0 bh0) =
      some (((WOp.records ops).zip ps).map some ++ [none], s) ∧ log = expectedLastPos ps 0 ops := by
  obtain ⟨ps, s, h1, h2, _, _, _, h6⟩ := C01_C16_any_encoder (recovery := recovery)
    (simpleEncoder_correct hC ht tdec H) hi hr hc h40 h24 0
  exact ⟨ps, s, h1, h2, h6⟩

/-- **C15** (appending). A writer opened at the end of any non-empty valid file `F` (with chunks `cs`, which decode):
after writing and closing, the file begins with `F` and reading it returns the old records followed by the
new ones. -/
theorem C15_append (hE : E.Correct H (parseChunk C tdec)) {cs : List Chunk} {F : Bytes} (hne : F ≠ [])
    (hv : ValidFile H cs F)
    {recs : Chunk → List Bytes} (hdec : ∀ c ∈ cs, DecodesTo (parseChunk C tdec) c (recs c))
    {ops : List WOp} {w0 w1 w2 : RW σ}
    {log : List (Option RecordPosition)} (hi : RW.init E H o F = some w0)
    (hr : RW.run E H o ops w0 = some (log, w1)) (hc : w1.close E H o = some w2)
    {hdr0 bh0 : Bytes} (h40 : hdr0.length = 40) (h24 : bh0.length = 24) (m : Nat) :
    F <+: w2.out ∧
    ∃ results s, readSchedule H (parseChunk C tdec) recovery
        (List.replicate ((cs.flatMap recs ++ WOp.records ops).length + (m + 1)) w2.out) (newReader hdr0 bh0) =
          some (results, s) ∧
      results.map (Option.map Prod.fst) =
        (cs.flatMap recs ++ WOp.records ops).map some ++ List.replicate (m + 1) none ∧
      s.err = none ∧ s.skipped = [] ∧ s.closeErr = none := by
  have hrec : ∀ c ∈ cs, recordsOf (parseChunk C tdec) c = recs c := fun c hc => recordsOf_eq (hdec c hc)
  have hfm : cs.flatMap (recordsOf (parseChunk C tdec)) = cs.flatMap recs := by
    clear hdec hv
    induction cs with
    | nil => rfl
    | cons c cs ih =>
      simp only [List.flatMap_cons]
      rw [hrec c (List.mem_cons_self ..), ih (fun c hc => hrec c (List.mem_cons_of_mem _ hc))]
  have hcs : cs ≠ [] := by
    rintro rfl
    exact hne (by rw [hv.bytes]; rfl)
  obtain ⟨cs0, a1, a2, a3, a4⟩ := init_append_spec paddingChunk_decodes hcs hv
    (fun c hc => by rw [hrec c hc]; exact hdec c hc) hi
  obtain ⟨cs1, op1, b1, b2, b3, b4, b5, b6, b7⟩ := run_spec hE paddingChunk_decodes ops a1 hr
  obtain ⟨cs2, c1, c2, c3, c4, _, _, c7⟩ := finishChunk_spec hE paddingChunk_decodes b1.inv hc
  rw [a4, List.append_nil, hfm] at b3
  rw [b3] at c3
  obtain ⟨s, d1, d2, d3, d4⟩ := read_out (recovery := recovery) c1.out h40 h24 m
  rw [c3] at d1
  refine ⟨List.IsPrefix.trans a3 (List.IsPrefix.trans b7 c7), _, s, d1, ?_, d2, d3, d4⟩
  rw [List.map_append, List.map_map, List.map_replicate]
  congr 1
  have : (Option.map Prod.fst ∘ some : Bytes × RecordPosition → Option Bytes) = some ∘ Prod.fst := rfl
  rw [this, ← List.map_map, List.map_fst_zip]
  rw [allPos_length, c3, List.append_nil]; exact Nat.le_refl _

/-- The records of complete chunks of a prefix which contains all of `cs1`. -/
theorem completeChunks_prefix {cs1 cs2 : List Chunk} (h : cs1 <+: cs2) (hok : ChunksOk H 0 cs2) {n : Nat}
    (hn : fileEnd 0 cs1 ≤ n) : cs1 <+: completeChunks 0 cs2 n := by
  obtain ⟨t, rfl⟩ := h
  rw [completeChunks_append boundaryOk_zero ((chunksLaid_append 0 _ _).1 hok.laid).1 hn]
  exact List.prefix_append _ _

/-- The complete chunks of a prefix of a file are some first chunks of it. -/
theorem completeChunks_isPrefix : ∀ (cs : List Chunk) (pos n : Nat), completeChunks pos cs n <+: cs
  | [], _, _ => List.prefix_refl _
  | c :: cs, pos, n => by
    simp only [completeChunks]
    split
    · exact (List.prefix_cons_inj c).2 (completeChunks_isPrefix cs _ n)
    · exact List.nil_prefix

/-- `C18_flush_is_durable`, with records which do not depend on the reader. -/
theorem flush_is_durable (hE : E.Correct H (parseChunk C tdec)) {pre post : List WOp} {w0 w1 w2 : RW σ}
    {log1 log2 : List (Option RecordPosition)} (hi : RW.init E H o [] = some w0)
    (hr1 : RW.run E H o (pre ++ [.flush]) w0 = some (log1, w1))
    (hr2 : RW.run E H o post w1 = some (log2, w2)) {n : Nat} (hn1 : w1.out.length ≤ n) (hn2 : n ≤ w2.out.length) :
    ∃ got, WOp.records pre <+: got ∧ got <+: WOp.records (pre ++ post) ∧
      ∀ {hdr0 bh0 : Bytes} (_ : hdr0.length = 40) (_ : bh0.length = 24) (m : Nat), ∃ results s, readSchedule H (parseChunk C tdec) recovery
        (List.replicate (got.length + (m + 1)) (w2.out.take n)) (newReader hdr0 bh0) = some (results, s) ∧
      results.map (Option.map Prod.fst) = got.map some ++ List.replicate (m + 1) none ∧ s.err = none := by
  have hrecs : ∀ a b : List WOp, WOp.records (a ++ b) = WOp.records a ++ WOp.records b := by
    intro a b
    induction a with
    | nil => rfl
    | cons x a ih => cases x <;> simp [WOp.records, ih]
  have hsplit : ∀ (a b : List WOp) (w : RW σ) (w' : RW σ) (l : List (Option RecordPosition)),
      RW.run E H o (a ++ b) w = some (l, w') →
      ∃ la wa lb, RW.run E H o a w = some (la, wa) ∧ RW.run E H o b wa = some (lb, w') := by
    intro a b
    induction a with
    | nil => intro w w' l h; exact ⟨[], w, l, rfl, h⟩
    | cons x a ih =>
      intro w w' l h
      simp only [List.cons_append, RW.run] at h ⊢
      split at h
      · simp at h
      rename_i w3 hw3
      split at h
      · simp at h
      rename_i l4 w4 hw4
      simp only [Option.some.injEq, Prod.mk.injEq] at h
      obtain ⟨rfl, rfl⟩ := h
      obtain ⟨la, wa, lb, e1, e2⟩ := ih _ _ _ hw4
      exact ⟨_, wa, lb, by simp only [e1]; rfl, e2⟩
  obtain ⟨cs0, a1, a2⟩ := init_empty_spec metadata_decodes signature_decodes hi
  obtain ⟨la, wa, lb, e1, e2⟩ := hsplit _ _ _ _ _ hr1
  obtain ⟨csa, opa, f1, f2, f3, f4, f5, f6, f7⟩ := run_spec hE paddingChunk_decodes pre a1 e1
  -- the flush
  have hfl : ∃ cs1, WInv E H (parseChunk C tdec) cs1 [] w1 ∧
      cs1.flatMap (recordsOf (parseChunk C tdec)) = WOp.records pre ∧
      ∃ k, WRun E H (parseChunk C tdec) 0 k cs1 [] w1 := by
    simp only [RW.run] at e2
    split at e2
    · simp at e2
    rename_i w3 hw3
    simp only [Option.some.injEq, Prod.mk.injEq] at e2
    obtain ⟨_, rfl⟩ := e2
    unfold RW.flush at hw3
    split at hw3
    · simp at hw3
    rename_i w4 hw4
    simp only [Option.some.injEq] at hw3
    subst hw3
    obtain ⟨cs1, c1, c2, c3, c4, c5, c6, c7⟩ := finishChunk_spec hE paddingChunk_decodes f1.inv hw4
    obtain ⟨g1, g2⟩ := c5 f1.valid
    have hinv : WInv E H (parseChunk C tdec) cs1 [] { w4 with flushed := w4.out.length } :=
      ⟨⟨c1.out.ok, c1.out.sig, c1.out.out, c1.out.pos, c1.out.dec⟩, c1.ne, c1.enc, c1.soFar⟩
    refine ⟨cs1, hinv, ?_, _, ⟨hinv, fun e => absurd e g2, by rw [c4]; exact f1.len, ?_, Nat.le_refl _⟩⟩
    · rw [c3, f3, a2]; rfl
    · have : RW.lastPos E { w4 with flushed := w4.out.length } = w4.lastPos E := rfl
      rw [this, g1, c4]; exact f1.last
  obtain ⟨cs1, g1, g2, k, g3⟩ := hfl
  obtain ⟨cs2, op2, i1, i2, i3, _, _, _, i7⟩ := run_spec hE paddingChunk_decodes post g3 hr2
  have hw2 := i1.inv.out
  have hle : fileEnd 0 cs1 ≤ n := by rw [← g1.out.length]; exact hn1
  have hpre := completeChunks_prefix i2 hw2.ok hle
  have hpost := completeChunks_isPrefix cs2 0 n
  refine ⟨(completeChunks 0 cs2 n).flatMap (recordsOf (parseChunk C tdec)), ?_, ?_, fun h40 h24 m => ?_⟩
  · rw [← g2]
    obtain ⟨t, ht⟩ := hpre
    rw [← ht, List.flatMap_append]; exact List.prefix_append _ _
  · rw [hrecs, ← g2]
    rw [List.append_nil] at i3
    rw [← i3]
    obtain ⟨t, ht⟩ := hpost
    refine ⟨t.flatMap (recordsOf (parseChunk C tdec)) ++ op2, ?_⟩
    rw [← List.append_assoc, ← List.flatMap_append, ht]
  · obtain ⟨s, h1, h2, _⟩ := C02_truncated_file (recovery := recovery) hw2.valid hw2.dec h40 h24 hn2 m
    refine ⟨_, s, h1, ?_, h2⟩
    rw [List.map_append, List.map_map, List.map_replicate]
    congr 1
    have : (Option.map Prod.fst ∘ some : Bytes × RecordPosition → Option Bytes) = some ∘ Prod.fst := rfl
    rw [this, ← List.map_map, List.map_fst_zip]
    rw [recordPositions_length]
    exact numReads_le (recordsOf (parseChunk C tdec)) cs2 0 n

/-- **C18.** After a successful `Flush()`, whatever is done afterwards (`post`) and wherever the destination is then
cut (`n` bytes survive, at least those present when `Flush()` returned), reading returns at least all the
records written before the `Flush()`, and of the later ones some first ones; the reader does not fail. -/
theorem C18_flush_is_durable (hE : E.Correct H (parseChunk C tdec)) {pre post : List WOp} {w0 w1 w2 : RW σ}
    {log1 log2 : List (Option RecordPosition)} (hi : RW.init E H o [] = some w0)
    (hr1 : RW.run E H o (pre ++ [.flush]) w0 = some (log1, w1))
    (hr2 : RW.run E H o post w1 = some (log2, w2)) {n : Nat} (hn1 : w1.out.length ≤ n) (hn2 : n ≤ w2.out.length)
    {hdr0 bh0 : Bytes} (h40 : hdr0.length = 40) (h24 : bh0.length = 24) (m : Nat) :
    ∃ got results s, WOp.records pre <+: got ∧ got <+: WOp.records (pre ++ post) ∧
      readSchedule H (parseChunk C tdec) recovery
        (List.replicate (got.length + (m + 1)) (w2.out.take n)) (newReader hdr0 bh0) = some (results, s) ∧
      results.map (Option.map Prod.fst) = got.map some ++ List.replicate (m + 1) none ∧ s.err = none := by
  obtain ⟨got, h1, h2, h3⟩ := flush_is_durable (recovery := recovery) hE hi hr1 hr2 hn1 hn2
  obtain ⟨results, s, h4, h5, h6⟩ := h3 h40 h24 m
  exact ⟨got, results, s, h1, h2, h4, h5, h6⟩

/-- **C01** (the writer does not fail). With any compression library which does not blow up data and with the
padding options of `SafePadding`, every history of total size below about `2^58` bytes succeeds, so that the
hypotheses of the theorems above are met by all such histories. -/
theorem C01_writer_succeeds (hC : C.Lawful) (hB : C.Bounded) {t : UInt8} (ht : knownCompression t = true)
    (hs : SafePadding o.finalPadding) {ops : List WOp} (hlt : sessionCost o 0 ops < 2 ^ 58) :
    ∃ w0 log w1 w2, RW.init (simpleEncoder C t) H o [] = some w0 ∧
      RW.run (simpleEncoder C t) H o ops w0 = some (log, w1) ∧ w1.close (simpleEncoder C t) H o = some w2 :=
  session_succeeds (simpleEncoder_correct hC ht (fun _ _ _ => none) H) (simpleEncoder_total hB t) paddingChunk_decodes
    metadata_decodes signature_decodes hs hlt

/-- The compression library which stores data unchanged. -/
def storeCodec : Codec := ⟨fun _ d => d, fun _ d => (d, true)⟩

/-- A concrete history which meets the hypotheses of C01, C16 and (its first part) C18: three records, one of
them empty, with a flush after the first one; metadata; final padding to 64 KiB. -/
example : ∃ w0 log w1 w2, RW.init (simpleEncoder storeCodec kZstd) (fun _ => 7) ⟨100, 1, 65536, some ([1, 2], 3)⟩ [] = some w0 ∧
    RW.run (simpleEncoder storeCodec kZstd) (fun _ => 7) ⟨100, 1, 65536, some ([1, 2], 3)⟩
      [.write [1, 2, 3], .flush, .write [], .write [4]] w0 = some (log, w1) ∧
    w1.close (simpleEncoder storeCodec kZstd) (fun _ => 7) ⟨100, 1, 65536, some ([1, 2], 3)⟩ = some w2 :=
  C01_writer_succeeds (C := storeCodec) (fun _ _ _ => rfl)
    (fun _ d => by simp only [storeCodec]; omega) (by decide) (Or.inr (Or.inl ⟨1, rfl⟩)) (by decide)

/-- **C15** (concatenation). If the size of a valid file is a multiple of 64 KiB then appending the bytes of another
valid file makes a valid file, and reading it returns the records of the first followed by the records of
the second. -/
theorem C15_concatenate {parse : Chunk → Option (List Nat × Bytes)} {cs1 cs2 : List Chunk} {F1 F2 : Bytes}
    (h1 : ValidFile H cs1 F1) (h2 : ValidFile H cs2 F2) (hd : 65536 ∣ F1.length)
    (hlt : F1.length + F2.length < 2 ^ 64) {recs : Chunk → List Bytes}
    (hdec1 : ∀ c ∈ cs1, DecodesTo parse c (recs c)) (hdec2 : ∀ c ∈ cs2, DecodesTo parse c (recs c))
    {hdr0 bh0 : Bytes} (h40 : hdr0.length = 40) (h24 : bh0.length = 24) (m : Nat) :
    ValidFile H (cs1 ++ cs2) (F1 ++ F2) ∧
    ∃ results s, readSchedule H parse recovery
        (List.replicate ((cs1.flatMap recs ++ cs2.flatMap recs).length + (m + 1)) (F1 ++ F2)) (newReader hdr0 bh0) =
          some (results, s) ∧
      results.map (Option.map Prod.fst) =
        (cs1.flatMap recs ++ cs2.flatMap recs).map some ++ List.replicate (m + 1) none ∧
      s.err = none ∧ s.skipped = [] ∧ s.closeErr = none := by
  have hv := h1.concat h2 hd hlt
  refine ⟨hv, ?_⟩
  have hl : (F1 ++ F2).length = fileEnd 0 (cs1 ++ cs2) := by
    rw [hv.bytes, hv.ok.laid.length boundaryOk_zero]; omega
  obtain ⟨s, e1, e2, e3, _, e4, _⟩ := C02_truncated_file (recovery := recovery) hv
    (fun c hc => by
      rcases List.mem_append.1 hc with h | h
      · exact hdec1 c h
      · exact hdec2 c h) h40 h24 (Nat.le_refl _) m
  rw [completeChunks_all boundaryOk_zero hv.ok.laid (by rw [hl]; omega), List.take_length, List.flatMap_append] at e1
  rw [completeChunks_all boundaryOk_zero hv.ok.laid (by rw [hl]; omega)] at e4
  refine ⟨_, s, e1, ?_, e2, e3, e4.2 hl.symm⟩
  rw [List.map_append, List.map_map, List.map_replicate]
  congr 1
  have : (Option.map Prod.fst ∘ some : Bytes × RecordPosition → Option Bytes) = some ∘ Prod.fst := rfl
  rw [this, ← List.map_map, List.map_fst_zip]
  rw [recordPositions_length, List.flatMap_append]; exact Nat.le_refl _

end Riegeli.Props

import Verif.Props.Writing
/-!
# C23, C32: chunk contents
-/
namespace Riegeli.Props
open Riegeli

/-- **C23** (round trip). For every list of records within the limits of the format, adding them to a
`SimpleEncoder` (or to a `DeferredEncoder` over it) succeeds, and what it then encodes is decoded, given the
number of records and decoded data size it reports, to the same records: record `i` ends at the sum of the
sizes of the first `i+1` records, and the values are the records one after another. -/
theorem C23_round_trip {C : Codec} (hC : C.Lawful) (hB : C.Bounded) {t : UInt8} (ht : knownCompression t = true)
    {rs : List Bytes} (hn : rs.length ≤ 2 ^ 56 - 1) (hsz : rs.flatten.length < 2 ^ 62) :
    ∃ s, (simpleEncoder C t).addAll (simpleEncoder C t).empty rs = some s ∧
      simpleDecode C (s.encode C t) s.numRecords s.decodedDataSize = some (limitsFrom 0 rs, rs.flatten) ∧
      splitLimits 0 (limitsFrom 0 rs) rs.flatten = rs := by
  have h1 := SEnc.addAll_eq rs SEnc.empty (by simp only [SEnc.empty, kMaxNumRecords]; omega)
    (by simp only [SEnc.empty]; omega)
  rw [← SEnc.addAll_encoder C t] at h1
  refine ⟨_, h1, ?_, splitLimits_limitsFrom rs 0⟩
  have hs := sizes_length_le rs (by omega)
  have he : (encodeCompressed C t (rs.flatMap (fun r => writeVarint r.length))).length < 2 ^ 64 := by
    unfold encodeCompressed
    split
    · rw [List.length_append]
      have h10 : (writeVarint (rs.flatMap (fun r => writeVarint r.length)).length).length ≤ 10 :=
        maxLen_of_lt (w := 64) (by omega) (by omega)
      have := hB t (rs.flatMap (fun r => writeVarint r.length))
      omega
    · omega
  have := simpleDecode_encode hC ht (rs := rs) (by omega) (by omega) he
  simpa [SEnc.empty, -List.length_flatten, -List.length_flatMap] using this

/-- The hypotheses of `C23_round_trip` are met: two records, one empty, stored "compressed". -/
example : ∃ s, (simpleEncoder storeCodec kBrotli).addAll (simpleEncoder storeCodec kBrotli).empty [[1, 2], []] = some s ∧
    simpleDecode storeCodec (s.encode storeCodec kBrotli) s.numRecords s.decodedDataSize = some ([2, 2], [1, 2]) := by
  obtain ⟨s, h1, h2, _⟩ := C23_round_trip (C := storeCodec) (t := kBrotli) (rs := [[1, 2], []]) (fun _ _ _ => rfl)
    (fun _ d => by simp only [storeCodec]; omega) (by decide) (by decide) (by decide)
  exact ⟨s, h1, h2⟩

/-- **C23** (arbitrary data). Whatever the chunk data, if it decodes then there are as many record limits as the
header says, they are sorted, the last one is the decoded data size of the header, and so is the number
of bytes of values. -/
theorem C23_decoded_is_consistent {C : Codec} {src : Bytes} {numRecords decodedDataSize : Nat} {limits : List Nat}
    {values : Bytes} (h : simpleDecode C src numRecords decodedDataSize = some (limits, values)) :
    limits.length = numRecords ∧ limits.Pairwise (· ≤ ·) ∧ (∀ l ∈ limits, l ≤ decodedDataSize) ∧
      limits.getLastD 0 = decodedDataSize ∧ values.length = decodedDataSize := by
  obtain ⟨h1, h2, h3, h4⟩ := simpleDecode_some h
  refine ⟨h1, (List.pairwise_cons.1 h2).2, ?_, h3, h4⟩
  intro l hl
  rw [← h3]
  have hp := (List.pairwise_cons.1 h2).2
  clear h h1 h2 h3
  induction limits generalizing l with
  | nil => simp at hl
  | cons a ls ih =>
    rw [List.pairwise_cons] at hp
    cases ls with
    | nil => simp at hl; subst hl; simp
    | cons b ls =>
      have e : (a :: b :: ls).getLastD 0 = (b :: ls).getLastD 0 := by simp [List.getLastD]
      rw [e]
      rcases List.mem_cons.1 hl with h | h
      · subst h
        exact Nat.le_trans (hp.1 b (List.mem_cons_self ..)) (ih b (List.mem_cons_self ..) hp.2)
      · exact ih l h hp.2

/-- **C23** (exactness). Decoding accepts only data which is completely used: changing the length of uncompressed
chunk data by appending anything makes decoding fail. -/
theorem C23_no_trailing_data {C : Codec} {src extra : Bytes} {n D : Nat} {r : List Nat × Bytes}
    (h : simpleDecode C (kNone :: src) n D = some r) (hx : extra ≠ []) :
    simpleDecode C (kNone :: (src ++ extra)) n D = none := by
  obtain ⟨limits, values⟩ := r
  simp only [simpleDecode] at h
  split at h
  · simp at h
  rename_i sz rest hrv
  split at h
  · simp at h
  rename_i hlen
  simp only [decompressor, if_true] at h
  split at h
  · simp at h
  rename_i lims sr hrs
  split at h
  · simp at h
  rename_i hsr
  split at h
  · simp at h
  rename_i hlast
  split at h
  · simp at h
  rename_i hvl
  split at h
  · simp at h
  rename_i hvd
  have hrv2 : readVarint 64 false (src ++ extra) = some (sz, rest ++ extra) := readVarint_append (by omega) hrv extra
  simp only [simpleDecode, hrv2, decompressor, if_true]
  rw [if_neg (by simp only [List.length_append]; omega)]
  rw [List.take_append_of_le_length (by omega), hrs]
  simp only
  rw [if_neg hsr, if_neg hlast]
  split
  · rfl
  · rw [if_pos]
    left
    have hvd' : List.drop D (List.drop sz rest) = [] := by
      by_cases h : List.drop D (List.drop sz rest) = []
      · exact h
      · exact absurd (Or.inl h) hvd
    have hl2 : (List.drop sz rest).length = D := by
      have := congrArg List.length hvd'
      simp only [List.length_drop, List.length_nil] at this hvl ⊢
      omega
    rw [List.drop_append_of_le_length (by omega), List.drop_append]
    rw [hvd']
    simp [hl2, hx]

/-- **C32** (chunks without records). A chunk of a type which does not carry records - file signature, metadata,
padding or unknown - never yields records: if it is accepted at all then there are none. An unknown
type with records is an error. -/
theorem C32_other_chunks_have_no_records {C : Codec} {tdec : Bytes → Nat → Nat → Option (List Nat × Bytes)} {c : Chunk}
    (h1 : Hdr.chunkType c.header ≠ kSimple.toNat) (h2 : Hdr.chunkType c.header ≠ kTransposed.toNat) :
    (∀ r, parseChunk C tdec c = some r → r = ([], []) ∧ Hdr.numRecords c.header = 0) ∧
    (Hdr.numRecords c.header ≠ 0 → parseChunk C tdec c = none) ∧
    (Hdr.chunkType c.header ≠ kFileSignature.toNat → Hdr.chunkType c.header ≠ kFileMetadata.toNat →
      Hdr.chunkType c.header ≠ kPadding.toNat → Hdr.numRecords c.header = 0 → parseChunk C tdec c = some ([], [])) := by
  refine ⟨?_, ?_, ?_⟩
  · intro r hr
    unfold parseChunk at hr
    simp only [h1, h2, if_false] at hr
    by_cases hn : Hdr.numRecords c.header = 0
    · refine ⟨?_, hn⟩
      simp only [hn, ne_eq, not_true_eq_false, if_false, if_true] at hr
      repeat' split at hr
      all_goals first | (simp at hr; done) | exact (Option.some.inj hr).symm
    · simp only [hn, ne_eq, not_false_eq_true, if_true, if_false] at hr
      repeat' split at hr
      all_goals simp at hr
  · intro hn
    unfold parseChunk
    simp only [h1, h2, hn, if_false, ne_eq, not_false_eq_true, if_true]
    repeat' split
    all_goals rfl
  · intro a b c' hn
    unfold parseChunk
    simp only [h1, h2, a, b, c', hn, if_false, if_true]

/-- **C23** (adding records in bulk). `AddRecords()` with the records concatenated and their end positions has the same
effect as adding them one by one, from any state of the encoder, including the conditions on which adding
fails. -/
theorem C23_add_records (s : SEnc) (hn : s.numRecords ≤ kMaxNumRecords) (hd : s.decodedDataSize < 2 ^ 64)
    (rs : List Bytes) : s.addRecords rs.flatten (limitsFrom 0 rs) = s.addAll rs := by
  unfold SEnc.addRecords
  rw [limitsFrom_length, sizesOfLimits_eq]
  by_cases h1 : rs.length > kMaxNumRecords - s.numRecords
  · rw [if_pos h1]
    cases h : s.addAll rs with
    | none => rfl
    | some s' => have := SEnc.addAll_bounds rs s s' hn hd h; omega
  · rw [if_neg h1]
    by_cases h2 : rs.flatten.length > 2 ^ 64 - 1 - s.decodedDataSize
    · rw [if_pos h2]
      cases h : s.addAll rs with
      | none => rfl
      | some s' => have := SEnc.addAll_bounds rs s s' hn hd h; omega
    · rw [if_neg h2, SEnc.addAll_eq rs s (by omega) (by omega)]

/-- The hypotheses of `C23_add_records` are met by an encoder which already has records. -/
example : ∃ s, SEnc.empty.addAll [[7]] = some s ∧ s.numRecords ≤ kMaxNumRecords ∧ s.decodedDataSize < 2 ^ 64 ∧
    ∃ s2, s.addRecords [1, 2, 3] [1, 3] = some s2 ∧ s2.values = [7, 1, 2, 3] :=
  ⟨_, rfl, by decide, by decide, _, rfl, rfl⟩

theorem deferred_accepts {C : Codec} {t : UInt8} (rs : List Bytes) : ∀ (d : DEnc) (s : SEnc),
    d.numRecords = s.numRecords → d.decodedDataSize = s.decodedDataSize →
    ((deferredSimpleEncoder C t).addAll d rs).isSome = ((simpleEncoder C t).addAll s rs).isSome := by
  induction rs with
  | nil => intro d s _ _; rfl
  | cons r rs ih =>
    intro d s h1 h2
    simp only [Encoder.addAll, deferredSimpleEncoder, simpleEncoder, DEnc.addRecord, SEnc.addRecord, h1, h2]
    split
    · rfl
    split
    · rfl
    · exact ih _ _ (by simp) (by simp)

/-- **C23** (deferred encoding). A `DeferredEncoder` accepts the same lists of records as the encoder it defers to, and
encodes them to the same chunk. -/
theorem C23_deferred_encoder (C : Codec) (t : UInt8) (rs : List Bytes) :
    (((deferredSimpleEncoder C t).addAll (deferredSimpleEncoder C t).empty rs).map
      (fun s => ((deferredSimpleEncoder C t).num s, (deferredSimpleEncoder C t).finish s))) =
    (((simpleEncoder C t).addAll (simpleEncoder C t).empty rs).map
      (fun s => ((simpleEncoder C t).num s, (simpleEncoder C t).finish s))) := by
  have hs := deferred_accepts (C := C) (t := t) rs (deferredSimpleEncoder C t).empty (simpleEncoder C t).empty rfl rfl
  cases h : (deferredSimpleEncoder C t).addAll (deferredSimpleEncoder C t).empty rs with
  | none =>
    rw [h] at hs
    have hn : (simpleEncoder C t).addAll (simpleEncoder C t).empty rs = none :=
      Option.not_isSome_iff_eq_none.1 (by rw [← hs]; simp)
    rw [hn]; rfl
  | some s =>
    obtain ⟨s', h1, h2, h3⟩ := deferredEncoder_eq h
    rw [h1]; simp [h2, h3]

end Riegeli.Props

import Verif.Codec
import Verif.Padding
/-!
# Chunk decoding and encoding: model of `chunk_encoding/chunk_decoder.cc:75-195`,
`chunk_encoding/chunk_encoder.h`, `chunk_encoding/deferred_encoder.cc`

Decoding of transposed chunks is a parameter here (`tdec`).
-/
namespace Riegeli

/-- `ChunkDecoder::Parse` (`chunk_decoder.cc:75-190`) with the field projection including all fields:
record end positions and record values, `none` on failure. `limits_` is empty before (`Clear()`).
`limits_.max_size()` (`chunk_decoder.cc:50`) is at least `2^56`, so the check against it is omitted. -/
def parseChunk (C : Codec) (tdec : Bytes → Nat → Nat → Option (List Nat × Bytes)) (c : Chunk) :
    Option (List Nat × Bytes) :=
  let t := Hdr.chunkType c.header
  let n := Hdr.numRecords c.header
  let d := Hdr.decodedDataSize c.header
  if t = kFileSignature.toNat then
    if Hdr.dataSize c.header ≠ 0 then none
    else if n ≠ 0 then none
    else if d ≠ 0 then none
    else some ([], [])
  else if t = kFileMetadata.toNat then
    if n ≠ 0 then none else some ([], [])
  else if t = kPadding.toNat then
    if n ≠ 0 then none
    else if d ≠ 0 then none
    else some ([], [])
  else if t = kSimple.toNat then simpleDecode C c.data n d
  else if t = kTransposed.toNat then tdec c.data n d
  else if n = 0 then some ([], [])
  else none

/-- The interface of `ChunkEncoder` (`chunk_encoder.h:38-125`) used by `RecordWriter`, for byte-string
records. `add` is `AddRecord`, `none` meaning failure; `finish` is `EncodeAndClose`: chunk data, chunk
type and decoded data size; `num` is `num_records()`, also passed to the chunk header. -/
structure Encoder (σ : Type) where
  empty : σ
  add : σ → Bytes → Option σ
  num : σ → Nat
  finish : σ → Option (Bytes × UInt8 × Nat)

/-- Adding records one after another to an empty encoder. -/
def Encoder.addAll {σ : Type} (E : Encoder σ) : σ → List Bytes → Option σ
  | s, [] => some s
  | s, r :: rs => (E.add s r).bind (fun s => E.addAll s rs)

/-- Specification of an encoder with respect to a decoder: it counts the records, and if encoding succeeds
with fewer than `2^64` bytes, then the resulting chunk decodes to the added records. -/
structure Encoder.Correct {σ : Type} (E : Encoder σ) (H : Bytes → UInt64) (parse : Chunk → Option (List Nat × Bytes)) :
    Prop where
  num : ∀ rs s, E.addAll E.empty rs = some s → E.num s = rs.length ∧ rs.length ≤ kMaxNumRecords
  finish : ∀ rs s data typ dec, E.addAll E.empty rs = some s → E.finish s = some (data, typ, dec) →
    data.length < 2 ^ 64 → DecodesTo parse (mkChunk H data typ rs.length dec) rs

/-- `SimpleEncoder` as a `ChunkEncoder`. -/
def simpleEncoder (C : Codec) (t : UInt8) : Encoder SEnc where
  empty := SEnc.empty
  add := SEnc.addRecord
  num := SEnc.numRecords
  finish s := some (s.encode C t, kSimple, s.decodedDataSize)

/-- State of `DeferredEncoder` (`deferred_encoder.h:68-77`): number and total size of the records, the
records concatenated, their end positions. -/
structure DEnc where
  numRecords : Nat
  decodedDataSize : Nat
  records : Bytes
  limits : List Nat
deriving DecidableEq, Repr

/-- `DeferredEncoder::AddRecordImpl` (`deferred_encoder.cc:97-116`). `limits_.max_size()` is at least
`kMaxNumRecords`. -/
def DEnc.addRecord (s : DEnc) (r : Bytes) : Option DEnc :=
  if s.numRecords = kMaxNumRecords then none
  else if r.length > (2 ^ 64 - 1) - s.decodedDataSize then none
  else some ⟨s.numRecords + 1, s.decodedDataSize + r.length, s.records ++ r,
    s.limits ++ [(s.records ++ r).length]⟩

/-- `DeferredEncoder` over `SimpleEncoder`, as used by the parallel writer (`record_writer.cc:303-307`,
`deferred_encoder.cc:143-157`: `EncodeAndClose` passes all records to `AddRecords` of the base encoder and
encodes that). -/
def deferredSimpleEncoder (C : Codec) (t : UInt8) : Encoder DEnc where
  empty := ⟨0, 0, [], []⟩
  add := DEnc.addRecord
  num := DEnc.numRecords
  finish s :=
    match SEnc.empty.addRecords s.records s.limits with
    | none => none
    | some b => some (b.encode C t, kSimple, b.decodedDataSize)

/-! ## Proofs -/

theorem SEnc.addAll_encoder (C : Codec) (t : UInt8) (rs : List Bytes) : ∀ s : SEnc,
    (simpleEncoder C t).addAll s rs = s.addAll rs := by
  induction rs with
  | nil => intro s; rfl
  | cons r rs ih =>
    intro s
    simp only [Encoder.addAll, SEnc.addAll]
    congr 1
    funext s'
    exact ih s'

/-- The state of the simple encoder after adding records. -/
theorem simpleEncoder_addAll {C : Codec} {t : UInt8} {rs : List Bytes} {s : SEnc}
    (h : (simpleEncoder C t).addAll (simpleEncoder C t).empty rs = some s) :
    rs.length ≤ kMaxNumRecords ∧ rs.flatten.length < 2 ^ 64 ∧
    s = ⟨rs.length, rs.flatten.length, rs.flatMap (fun r => writeVarint r.length), rs.flatten⟩ := by
  have h' : SEnc.empty.addAll rs = some s := by rw [← SEnc.addAll_encoder C t]; exact h
  have hb := SEnc.addAll_bounds rs SEnc.empty s (by simp [SEnc.empty, kMaxNumRecords])
    (by simp [SEnc.empty]) h'
  simp only [SEnc.empty, Nat.zero_add] at hb
  have he := SEnc.addAll_eq rs SEnc.empty (by simp only [SEnc.empty]; omega) (by simp only [SEnc.empty]; omega)
  rw [h'] at he
  simp only [SEnc.empty, Nat.zero_add, List.nil_append, Option.some.injEq] at he
  exact ⟨hb.1, hb.2, he⟩

theorem sizes_length_le (rs : List Bytes) (h : rs.flatten.length < 2 ^ 64) :
    (rs.flatMap (fun r => writeVarint r.length)).length ≤ 10 * rs.length := by
  induction rs with
  | nil => simp
  | cons r rs ih =>
    rw [List.flatten_cons, List.length_append] at h
    rw [List.flatMap_cons, List.length_append, List.length_cons]
    have := ih (by omega)
    have h10 : (writeVarint r.length).length ≤ 10 := maxLen_of_lt (w := 64) (by omega) (by omega)
    omega

/-- What the simple encoder makes of records, decodes to them. -/
theorem simple_decodesTo {C : Codec} (hC : C.Lawful) {t : UInt8} (ht : knownCompression t = true)
    {tdec : Bytes → Nat → Nat → Option (List Nat × Bytes)} (H : Bytes → UInt64) {rs : List Bytes}
    (hn : rs.length ≤ kMaxNumRecords) (hsz : rs.flatten.length < 2 ^ 64) {s : SEnc}
    (hs : s = ⟨rs.length, rs.flatten.length, rs.flatMap (fun r => writeVarint r.length), rs.flatten⟩)
    (hd : (s.encode C t).length < 2 ^ 64) :
    DecodesTo (parseChunk C tdec) (mkChunk H (s.encode C t) kSimple rs.length rs.flatten.length) rs := by
  have hs1 : (rs.flatMap (fun r => writeVarint r.length)).length < 2 ^ 64 := by
    have := sizes_length_le rs hsz
    unfold kMaxNumRecords at hn; omega
  have hs2 : (encodeCompressed C t (rs.flatMap (fun r => writeVarint r.length))).length < 2 ^ 64 := by
    rw [hs] at hd
    unfold SEnc.encode at hd
    rw [encodeLengthPrefixed_eq hs1] at hd
    simp only [List.length_append] at hd
    omega
  have hn56 : rs.length < 2 ^ 56 := by unfold kMaxNumRecords at hn; omega
  refine ⟨?_, ?_⟩
  · unfold parseChunk
    simp only [mkChunk, mkChunkHeader_chunkType H _ kSimple _ _ hn56,
      mkChunkHeader_numRecords H _ kSimple _ _ hn56, mkChunkHeader_decodedDataSize H _ kSimple _ _ hsz]
    rw [if_neg (by decide), if_neg (by decide), if_neg (by decide), if_pos trivial, hs]
    exact simpleDecode_encode hC ht hsz hs1 hs2
  · simp only [mkChunk]; rw [mkChunkHeader_numRecords H _ kSimple _ _ hn56]

theorem simpleEncoder_correct {C : Codec} (hC : C.Lawful) {t : UInt8} (ht : knownCompression t = true)
    (tdec : Bytes → Nat → Nat → Option (List Nat × Bytes)) (H : Bytes → UInt64) :
    (simpleEncoder C t).Correct H (parseChunk C tdec) where
  num rs s h := by
    obtain ⟨h1, _, h3⟩ := simpleEncoder_addAll h
    subst h3; exact ⟨rfl, h1⟩
  finish rs s data typ dec h hf hd := by
    obtain ⟨h1, h2, h3⟩ := simpleEncoder_addAll h
    simp only [simpleEncoder, Option.some.injEq, Prod.mk.injEq] at hf
    obtain ⟨rfl, rfl, rfl⟩ := hf
    have hdec : s.decodedDataSize = rs.flatten.length := by rw [h3]
    rw [hdec]
    exact simple_decodesTo hC ht H h1 h2 h3 hd

theorem limitsFrom_append (rs : List Bytes) (r : Bytes) : ∀ acc,
    limitsFrom acc (rs ++ [r]) = limitsFrom acc rs ++ [acc + rs.flatten.length + r.length] := by
  induction rs with
  | nil => intro acc; simp [limitsFrom]
  | cons x rs ih =>
    intro acc
    simp only [List.cons_append, limitsFrom, ih, List.flatten_cons, List.length_append]
    congr 3; omega

theorem deferredEncoder_addAll {C : Codec} {t : UInt8} (rs : List Bytes) : ∀ (pre : List Bytes) (s' : DEnc),
    pre.length ≤ kMaxNumRecords → pre.flatten.length < 2 ^ 64 →
    (deferredSimpleEncoder C t).addAll
      (⟨pre.length, pre.flatten.length, pre.flatten, limitsFrom 0 pre⟩ : DEnc) rs = some s' →
    (pre ++ rs).length ≤ kMaxNumRecords ∧ (pre ++ rs).flatten.length < 2 ^ 64 ∧
    s' = ⟨(pre ++ rs).length, (pre ++ rs).flatten.length, (pre ++ rs).flatten, limitsFrom 0 (pre ++ rs)⟩ := by
  induction rs with
  | nil =>
    intro pre s' h1 h2 h
    simp only [Encoder.addAll, Option.some.injEq] at h
    simp only [List.append_nil]
    exact ⟨h1, h2, h.symm⟩
  | cons r rs ih =>
    intro pre s' h1 h2 h
    simp only [Encoder.addAll] at h
    simp only [deferredSimpleEncoder, DEnc.addRecord] at h
    split at h
    · simp at h
    split at h
    · simp at h
    rename_i hn hd
    rw [Option.bind_some] at h
    have e : (⟨pre.length + 1, pre.flatten.length + r.length, pre.flatten ++ r,
        limitsFrom 0 pre ++ [(pre.flatten ++ r).length]⟩ : DEnc) =
        ⟨(pre ++ [r]).length, (pre ++ [r]).flatten.length, (pre ++ [r]).flatten, limitsFrom 0 (pre ++ [r])⟩ := by
      rw [limitsFrom_append]
      simp [-List.length_flatten]
    rw [e] at h
    have := ih (pre ++ [r]) s' (by simp only [List.length_append, List.length_singleton]; omega)
      (by simp only [List.flatten_append, List.length_append, List.flatten_singleton]; omega) h
    rwa [List.append_assoc, List.singleton_append] at this

/-- The deferred encoder behaves exactly like the simple encoder. -/
theorem deferredEncoder_eq {C : Codec} {t : UInt8} {rs : List Bytes} {s : DEnc}
    (h : (deferredSimpleEncoder C t).addAll (deferredSimpleEncoder C t).empty rs = some s) :
    ∃ s', (simpleEncoder C t).addAll (simpleEncoder C t).empty rs = some s' ∧
      (deferredSimpleEncoder C t).num s = (simpleEncoder C t).num s' ∧
      (deferredSimpleEncoder C t).finish s = (simpleEncoder C t).finish s' := by
  obtain ⟨h1, h2, rfl⟩ := deferredEncoder_addAll (C := C) (t := t) rs [] s (by simp) (by simp) h
  simp only [List.nil_append] at *
  have hadd := SEnc.addAll_eq rs SEnc.empty (by simp only [SEnc.empty]; omega)
    (by simp only [SEnc.empty]; omega)
  rw [← SEnc.addAll_encoder C t] at hadd
  refine ⟨_, hadd, ?_, ?_⟩
  · simp [deferredSimpleEncoder, simpleEncoder, SEnc.empty]
  · simp only [deferredSimpleEncoder, simpleEncoder, SEnc.addRecords, SEnc.empty, limitsFrom_length]
    rw [if_neg (by omega), if_neg (by omega), sizesOfLimits_eq]

theorem deferredSimpleEncoder_correct {C : Codec} (hC : C.Lawful) {t : UInt8}
    (ht : knownCompression t = true) (tdec : Bytes → Nat → Nat → Option (List Nat × Bytes))
    (H : Bytes → UInt64) : (deferredSimpleEncoder C t).Correct H (parseChunk C tdec) where
  num rs s h := by
    obtain ⟨s', h1, h2, _⟩ := deferredEncoder_eq h
    rw [h2]; exact (simpleEncoder_correct hC ht tdec H).num rs s' h1
  finish rs s data typ dec h hf hd := by
    obtain ⟨s', h1, _, h3⟩ := deferredEncoder_eq h
    rw [h3] at hf; exact (simpleEncoder_correct hC ht tdec H).finish rs s' data typ dec h1 hf hd

/-- Padding chunks decode to no records. -/
theorem paddingChunk_decodes {C : Codec} {tdec : Bytes → Nat → Nat → Option (List Nat × Bytes)}
    {H : Bytes → UInt64} (n : Nat) : DecodesTo (parseChunk C tdec) (paddingChunk H n) [] := by
  refine ⟨?_, ?_⟩
  · unfold parseChunk
    simp only [paddingChunk, mkChunk, mkChunkHeader_chunkType H _ kPadding 0 _ (by omega),
      mkChunkHeader_numRecords H _ kPadding 0 _ (by omega),
      mkChunkHeader_decodedDataSize H _ kPadding 0 0 (by omega)]
    rw [if_neg (by decide), if_neg (by decide), if_pos trivial]
    simp [limitsFrom]
  · rw [paddingChunk_numRecords]; rfl

end Riegeli

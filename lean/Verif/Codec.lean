import Verif.Varint
import Verif.RecordSpec
/-!
# Compression wrapper and simple chunks: model of `chunk_encoding/compressor.cc`,
`chunk_encoding/decompressor.{h,cc}`, `chunk_encoding/simple_encoder.cc`,
`chunk_encoding/simple_decoder.cc`, `chunk_encoding/deferred_encoder.cc`

Compression algorithms (Brotli, Zstd, Snappy) are parameters. A decompressing `Reader` over a source is
described by the bytes it delivers and by whether, after them, both the compressed stream and its
source end cleanly (`VerifyEnd()` succeeds).
-/
namespace Riegeli

/-- A family of compression algorithms, by `CompressionType` byte. -/
structure Codec where
  /-- what the compressing `Writer` produces -/
  compress : UInt8 → Bytes → Bytes
  /-- bytes delivered by the decompressing `Reader`, and whether it ends cleanly -/
  decompress : UInt8 → Bytes → Bytes × Bool

/-- `CompressionType::kNone` (`constants.h:35`). -/
def kNone : UInt8 := 0
/-- `CompressionType::kBrotli` (`constants.h:36`). -/
def kBrotli : UInt8 := 98
/-- `CompressionType::kZstd` (`constants.h:37`). -/
def kZstd : UInt8 := 122
/-- `CompressionType::kSnappy` (`constants.h:38`). -/
def kSnappy : UInt8 := 115

/-- The compression types which the decompressor knows (`decompressor.h:180-209`). -/
def knownCompression (t : UInt8) : Bool := t == kNone || t == kBrotli || t == kZstd || t == kSnappy

/-- The assumption made about the compression libraries. -/
def Codec.Lawful (C : Codec) : Prop :=
  ∀ t, t = kBrotli ∨ t = kZstd ∨ t = kSnappy → ∀ d, C.decompress t (C.compress t d) = (d, true)

/-- `Compressor::EncodeAndClose` (`compressor.cc:96-110`). -/
def encodeCompressed (C : Codec) (t : UInt8) (d : Bytes) : Bytes :=
  if t ≠ kNone then writeVarint d.length ++ C.compress t d else d

/-- `Compressor::LengthPrefixedEncodeAndClose` (`compressor.cc:112-135`). -/
def encodeLengthPrefixed (C : Codec) (t : UInt8) (d : Bytes) : Bytes :=
  let compressed := if t ≠ kNone then C.compress t d else d
  let compressedSize := compressed.length + (if t ≠ kNone then lengthVarint d.length else 0)
  writeVarint compressedSize ++ (if t ≠ kNone then writeVarint d.length else []) ++ compressed

/-- `Decompressor::Initialize` (`decompressor.h:170-210`): `none` if it fails, otherwise the reader of the
uncompressed data. -/
def decompressor (C : Codec) (t : UInt8) (src : Bytes) : Option (Bytes × Bool) :=
  if t = kNone then some (src, true)
  else
    match readVarint 64 false src with
    | none => none
    | some (_, rest) => if knownCompression t then some (C.decompress t rest) else none

/-- `SimpleEncoder` (`simple_encoder.h:132-134`, `chunk_encoder.h:106-107`): number of records, their total size,
and the uncompressed contents of the two compressors. -/
structure SEnc where
  numRecords : Nat
  decodedDataSize : Nat
  sizes : Bytes
  values : Bytes
deriving DecidableEq, Repr

/-- `SimpleEncoder::Clear` (`simple_encoder.cc:57-61`). -/
def SEnc.empty : SEnc := ⟨0, 0, [], []⟩

/-- `SimpleEncoder::AddRecordImpl` (`simple_encoder.cc:112-134`); `none` means failure. -/
def SEnc.addRecord (s : SEnc) (r : Bytes) : Option SEnc :=
  if s.numRecords = kMaxNumRecords then none
  else if r.length > (2 ^ 64 - 1) - s.decodedDataSize then none
  else some ⟨s.numRecords + 1, s.decodedDataSize + r.length, s.sizes ++ writeVarint r.length, s.values ++ r⟩

/-- The sizes written by the loop of `SimpleEncoder::AddRecords` (`simple_encoder.cc:151-165`). -/
def sizesOfLimits : Nat → List Nat → Bytes
  | _, [] => []
  | start, limit :: limits => writeVarint (limit - start) ++ sizesOfLimits limit limits

/-- `SimpleEncoder::AddRecords` (`simple_encoder.cc:135-168`). -/
def SEnc.addRecords (s : SEnc) (records : Bytes) (limits : List Nat) : Option SEnc :=
  if limits.length > kMaxNumRecords - s.numRecords then none
  else if records.length > (2 ^ 64 - 1) - s.decodedDataSize then none
  else some ⟨s.numRecords + limits.length, s.decodedDataSize + records.length,
    s.sizes ++ sizesOfLimits 0 limits, s.values ++ records⟩

/-- The data written by `SimpleEncoder::EncodeAndClose` (`simple_encoder.cc:170-192`); the chunk type is
`kSimple`, the number of records and decoded data size are the fields of `s`. -/
def SEnc.encode (C : Codec) (t : UInt8) (s : SEnc) : Bytes :=
  [t] ++ encodeLengthPrefixed C t s.sizes ++ encodeCompressed C t s.values

/-- The loop of `SimpleDecoder::Decode` reading record sizes (`simple_decoder.cc:75-89`): limits and the rest
of the sizes. -/
def readSizes (decodedDataSize : Nat) : Nat → Nat → Bytes → Option (List Nat × Bytes)
  | 0, _, src => some ([], src)
  | n + 1, limit, src =>
    match readVarint 64 false src with
    | none => none
    | some (size, src) =>
      if size > decodedDataSize - limit then none
      else
        match readSizes decodedDataSize n (limit + size) src with
        | none => none
        | some (ls, src) => some ((limit + size) :: ls, src)

/-- `SimpleDecoder::Decode` followed by reading the values and `VerifyEndAndClose()` of the decoder and of the
source, as done by `ChunkDecoder::Parse` (`simple_decoder.cc:42-108`, `chunk_decoder.cc:116-148`): record end
positions and record values. The sizes are read through a `LimitingReader` of exactly `sizes_size` bytes. -/
def simpleDecode (C : Codec) (src : Bytes) (numRecords decodedDataSize : Nat) :
    Option (List Nat × Bytes) :=
  match src with
  | [] => none
  | t :: src =>
    match readVarint 64 false src with
    | none => none
    | some (sizesSize, src) =>
      if src.length < sizesSize then none
      else
        match decompressor C t (src.take sizesSize) with
        | none => none
        | some (sizes, sizesClean) =>
          match readSizes decodedDataSize numRecords 0 sizes with
          | none => none
          | some (limits, sizesRest) =>
            if sizesRest ≠ [] ∨ sizesClean = false then none
            else if limits.getLastD 0 ≠ decodedDataSize then none
            else
              match decompressor C t (src.drop sizesSize) with
              | none => none
              | some (values, valuesClean) =>
                if values.length < decodedDataSize then none
                else if values.drop decodedDataSize ≠ [] ∨ valuesClean = false then none
                else some (limits, values.take decodedDataSize)

/-! ## Proofs -/

/-- Adding records one by one. -/
def SEnc.addAll (s : SEnc) : List Bytes → Option SEnc
  | [] => some s
  | r :: rs => (s.addRecord r).bind (fun s => s.addAll rs)

theorem SEnc.addAll_eq (rs : List Bytes) : ∀ (s : SEnc),
    s.numRecords + rs.length ≤ kMaxNumRecords → s.decodedDataSize + rs.flatten.length < 2 ^ 64 →
    s.addAll rs = some ⟨s.numRecords + rs.length, s.decodedDataSize + rs.flatten.length,
      s.sizes ++ rs.flatMap (fun r => writeVarint r.length), s.values ++ rs.flatten⟩ := by
  induction rs with
  | nil => intro s _ _; simp [SEnc.addAll]
  | cons r rs ih =>
    intro s h1 h2
    simp only [List.length_cons] at h1
    rw [List.flatten_cons, List.length_append] at h2
    have hadd : s.addRecord r = some ⟨s.numRecords + 1, s.decodedDataSize + r.length,
        s.sizes ++ writeVarint r.length, s.values ++ r⟩ := by
      unfold SEnc.addRecord
      rw [if_neg (by omega), if_neg (by omega)]
    simp only [SEnc.addAll, hadd, Option.bind_some]
    rw [ih _ (by simp only; omega) (by simp only; omega)]
    simp only [List.length_cons, List.flatMap_cons, List.flatten_cons, List.length_append,
      List.append_assoc]
    congr 2 <;> omega

theorem SEnc.addAll_bounds (rs : List Bytes) : ∀ (s s' : SEnc), s.numRecords ≤ kMaxNumRecords →
    s.decodedDataSize < 2 ^ 64 → s.addAll rs = some s' →
    s.numRecords + rs.length ≤ kMaxNumRecords ∧ s.decodedDataSize + rs.flatten.length < 2 ^ 64 := by
  induction rs with
  | nil => intro s s' h1 h2 _; exact ⟨h1, by simpa using h2⟩
  | cons r rs ih =>
    intro s s' h1 h2 h
    simp only [SEnc.addAll] at h
    cases hadd : s.addRecord r with
    | none => simp [hadd] at h
    | some s1 =>
      rw [hadd, Option.bind_some] at h
      unfold SEnc.addRecord at hadd
      split at hadd
      · simp at hadd
      split at hadd
      · simp at hadd
      injection hadd with hadd
      subst hadd
      have := ih _ s' (by simp only; omega) (by simp only; omega) h
      simp only at this
      simp only [List.length_cons, List.flatten_cons, List.length_append]
      omega

theorem sizesOfLimits_eq (rs : List Bytes) : ∀ acc,
    sizesOfLimits acc (limitsFrom acc rs) = rs.flatMap (fun r => writeVarint r.length) := by
  induction rs with
  | nil => intro acc; rfl
  | cons r rs ih =>
    intro acc
    simp only [limitsFrom, sizesOfLimits, ih, List.flatMap_cons]
    rw [show acc + r.length - acc = r.length by omega]

theorem limitsFrom_getLastD (rs : List Bytes) : ∀ acc,
    (limitsFrom acc rs).getLastD acc = acc + rs.flatten.length := by
  induction rs with
  | nil => intro acc; rfl
  | cons r rs ih =>
    intro acc
    simp only [limitsFrom, List.getLastD_cons, ih, List.flatten_cons, List.length_append]
    omega

theorem readSizes_write {D : Nat} (hD : D < 2 ^ 64) (rs : List Bytes) : ∀ (acc : Nat) (rest : Bytes),
    acc + rs.flatten.length ≤ D →
    readSizes D rs.length acc (rs.flatMap (fun r => writeVarint r.length) ++ rest) =
      some (limitsFrom acc rs, rest) := by
  induction rs with
  | nil => intro acc rest _; rfl
  | cons r rs ih =>
    intro acc rest h
    rw [List.flatten_cons, List.length_append] at h
    simp only [List.length_cons, readSizes, List.flatMap_cons, List.append_assoc]
    rw [readVarint_write (by omega) (show r.length < 2 ^ 64 by omega)]
    simp only
    rw [if_neg (by omega), ih (acc + r.length) rest (by omega)]
    rfl

theorem decompressor_encode {C : Codec} (hC : C.Lawful) {t : UInt8} (ht : knownCompression t = true)
    {d : Bytes} (hd : d.length < 2 ^ 64) : decompressor C t (encodeCompressed C t d) = some (d, true) := by
  unfold decompressor encodeCompressed
  by_cases h : t = kNone
  · simp [h]
  · simp only [h, ne_eq, not_false_eq_true, if_true, if_false]
    rw [readVarint_write (by omega) hd]
    simp only [ht, if_true]
    congr 1
    apply hC
    unfold knownCompression at ht
    simp only [Bool.or_eq_true, beq_iff_eq] at ht
    rcases ht with ((ht | ht) | ht) | ht
    · exact absurd ht h
    · exact Or.inl ht
    · exact Or.inr (Or.inl ht)
    · exact Or.inr (Or.inr ht)

theorem encodeLengthPrefixed_eq {C : Codec} {t : UInt8} {d : Bytes} (hd : d.length < 2 ^ 64) :
    encodeLengthPrefixed C t d =
      writeVarint (encodeCompressed C t d).length ++ encodeCompressed C t d := by
  unfold encodeLengthPrefixed encodeCompressed
  by_cases h : t = kNone
  · simp [h]
  · simp only [h, ne_eq, not_false_eq_true, if_true, List.length_append, lengthVarint_eq hd]
    rw [Nat.add_comm, List.append_assoc]

/-- Decoding what was encoded. -/
theorem simpleDecode_encode {C : Codec} (hC : C.Lawful) {t : UInt8} (ht : knownCompression t = true)
    {rs : List Bytes} (hsz : rs.flatten.length < 2 ^ 64)
    (hs1 : (rs.flatMap (fun r => writeVarint r.length)).length < 2 ^ 64)
    (hs2 : (encodeCompressed C t (rs.flatMap (fun r => writeVarint r.length))).length < 2 ^ 64) :
    simpleDecode C
      (SEnc.encode C t ⟨rs.length, rs.flatten.length, rs.flatMap (fun r => writeVarint r.length), rs.flatten⟩)
      rs.length rs.flatten.length = some (limitsFrom 0 rs, rs.flatten) := by
  unfold SEnc.encode
  simp only [List.cons_append, List.nil_append, simpleDecode]
  rw [encodeLengthPrefixed_eq hs1, List.append_assoc, readVarint_write (by omega) hs2]
  simp only
  rw [if_neg (by simp only [List.length_append]; omega), List.take_left' rfl, List.drop_left' rfl,
    decompressor_encode hC ht hs1]
  simp only
  have hr := readSizes_write hsz rs 0 [] (by omega)
  rw [List.append_nil] at hr
  have hl := limitsFrom_getLastD rs 0
  rw [Nat.zero_add] at hl
  rw [hr]
  simp only [ne_eq, not_true_eq_false, false_or, Bool.true_eq_false, if_false]
  rw [if_neg (by rw [hl]; simp), decompressor_encode hC ht hsz]
  simp [-List.length_flatten]

theorem readSizes_some {D : Nat} : ∀ (n limit : Nat) (src rest : Bytes) (ls : List Nat), limit ≤ D →
    readSizes D n limit src = some (ls, rest) →
    ls.length = n ∧ (limit :: ls).Pairwise (· ≤ ·) ∧ (∀ l ∈ ls, l ≤ D) := by
  intro n
  induction n with
  | zero =>
    intro limit src rest ls _ h
    simp only [readSizes, Option.some.injEq, Prod.mk.injEq] at h
    obtain ⟨rfl, rfl⟩ := h
    simp
  | succ n ih =>
    intro limit src rest ls hl h
    simp only [readSizes] at h
    split at h
    · simp at h
    split at h
    · simp at h
    split at h
    · simp at h
    rename_i size src' _ hsz ls' src'' he
    simp only [Option.some.injEq, Prod.mk.injEq] at h
    obtain ⟨rfl, rfl⟩ := h
    obtain ⟨h1, h2, h3⟩ := ih _ _ _ _ (by omega) he
    refine ⟨by simp [h1], ?_, ?_⟩
    · rw [List.pairwise_cons]
      refine ⟨?_, h2⟩
      intro x hx
      rcases List.mem_cons.1 hx with h | h
      · omega
      · have := (List.pairwise_cons.1 h2).1 x h; omega
    · intro x hx
      rcases List.mem_cons.1 hx with h | h
      · omega
      · exact h3 x h

/-- Whatever the data, a successful decode is consistent with the header. -/
theorem simpleDecode_some {C : Codec} {src : Bytes} {n D : Nat} {limits : List Nat} {values : Bytes}
    (h : simpleDecode C src n D = some (limits, values)) :
    limits.length = n ∧ (0 :: limits).Pairwise (· ≤ ·) ∧ limits.getLastD 0 = D ∧ values.length = D := by
  unfold simpleDecode at h
  split at h
  · simp at h
  split at h
  · simp at h
  split at h
  · simp at h
  split at h
  · simp at h
  split at h
  · simp at h
  rename_i hrs
  split at h
  · simp at h
  split at h
  · simp at h
  rename_i hlast
  split at h
  · simp at h
  split at h
  · simp at h
  rename_i hv
  split at h
  · simp at h
  simp only [Option.some.injEq, Prod.mk.injEq] at h
  obtain ⟨rfl, rfl⟩ := h
  obtain ⟨h1, h2, h3⟩ := readSizes_some _ _ _ _ _ (Nat.zero_le _) hrs
  exact ⟨h1, h2, by simpa using hlast, by rw [List.length_take]; omega⟩

end Riegeli

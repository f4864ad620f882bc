import Verif.ChunkWriter
/-!
# Padding: model of `PosAfterPadding`, `DefaultChunkWriterBase::WritePadding` and
`DefaultChunkWriterBase::Initialize` (`riegeli/records/chunk_writer.cc`)

`none` means that the call does not return normally (it loops forever or the process dies).
-/
namespace Riegeli

/-- First loop of `PosAfterPadding` (`chunk_writer.cc:49-52`). -/
def padLengthLoop (padding length : Nat) : Option Nat :=
  if length < 40 then padLengthLoop padding (w64 (length + padding)) else some length
partial_fixpoint

/-- Second loop of `PosAfterPadding` (`chunk_writer.cc:54-57`). -/
def padEndLoop (padding endPos : Nat) : Option Nat :=
  if isPossibleChunkBoundary endPos then some endPos else padEndLoop padding (w64 (endPos + padding))
partial_fixpoint

/-- `PosAfterPadding` (`chunk_writer.cc:44-59`). -/
def posAfterPadding (pos padding : Nat) : Option Nat :=
  if padding ≤ 1 then some pos
  else
    let remainder := pos % padding
    if remainder = 0 then some pos
    else
      match padLengthLoop padding (padding - remainder) with
      | none => none
      | some length => padEndLoop padding (w64 (pos + length))

/-- `ByteFill(n)` of zeros (`base/byte_fill.h`). -/
def byteFill (n : Nat) : Bytes := List.replicate n 0

/-- A padding chunk with the given amount of data (`chunk_writer.cc:175-177`). -/
def paddingChunk (H : Bytes → UInt64) (dataLength : Nat) : Chunk :=
  mkChunk H (byteFill dataLength) kPadding 0 0

/-- What a call of `DefaultChunkWriterBase::WritePadding(padding)` (`chunk_writer.cc:165-179`) does: -/
inductive PadResult
  /-- writes nothing -/
  | nothing
  /-- writes this chunk -/
  | chunk (c : Chunk)
  /-- never returns (the loops of `PosAfterPadding` do not end) -/
  | diverges
  /-- `DistanceWithoutOverhead() - ChunkHeader::size()` wraps around below 0; the process then dies
  trying to build a `Chain` of almost `2^64` bytes -/
  | underflow
deriving DecidableEq, Repr

/-- The decision made by `DefaultChunkWriterBase::WritePadding(padding)` (`chunk_writer.cc:165-179`)
at position `pos`. -/
def paddingToWrite (H : Bytes → UInt64) (pos padding : Nat) : PadResult :=
  match posAfterPadding pos padding with
  | none => .diverges
  | some posAfterPad =>
    if posAfterPad = pos then .nothing
    else
      let distance := distanceWithoutOverhead pos posAfterPad
      if distance < 40 then .underflow
      else .chunk (paddingChunk H (distance - 40))

/-- `DefaultChunkWriterBase::Initialize` (`chunk_writer.cc:65-75`): zeros written if the destination
is at a position which cannot be a chunk boundary, and the resulting position. -/
def initPos (pos : Nat) : Bytes × Nat :=
  if isPossibleChunkBoundary pos then ([], pos)
  else (byteFill (remainingInBlock pos), pos + remainingInBlock pos)

/-! ## Specification -/

/-- `e` is an admissible end of a padding chunk beginning at `pos`: a multiple of `padding`, a
possible chunk boundary, far enough for a chunk header. -/
def PadTarget (pos padding e : Nat) : Prop := padding ∣ e ∧ BoundaryOk e ∧ pos + 40 ≤ e

/-! ## Proofs -/

theorem padEndLoop_spec {padding e : Nat} (hp : 0 < padding) (he : e < 2 ^ 64) (hbe : BoundaryOk e)
    (hde : padding ∣ e) (x : Nat) (hx : x ≤ e) (hdx : padding ∣ x) :
    ∃ y, padEndLoop padding x = some y ∧ padding ∣ y ∧ BoundaryOk y ∧ x ≤ y ∧ y ≤ e ∧
      ∀ z, padding ∣ z → BoundaryOk z → x ≤ z → y ≤ z := by
  induction hn : e - x using Nat.strongRecOn generalizing x with
  | _ n ih =>
  subst hn
  rw [padEndLoop]
  by_cases hb : isPossibleChunkBoundary x = true
  · rw [if_pos hb]
    exact ⟨x, rfl, hdx, (isPossibleChunkBoundary_iff x).1 hb, Nat.le_refl _, hx, fun z _ _ h => h⟩
  · rw [if_neg hb]
    have hnb : ¬ BoundaryOk x := fun h => hb ((isPossibleChunkBoundary_iff x).2 h)
    -- the next multiple
    have step : ∀ z, padding ∣ z → BoundaryOk z → x ≤ z → x + padding ≤ z := by
      intro z hz hbz hxz
      have hne : x ≠ z := fun h => hnb (h ▸ hbz)
      obtain ⟨a, rfl⟩ := hdx
      obtain ⟨b, rfl⟩ := hz
      have : a < b := by
        apply Nat.lt_of_not_le; intro hba
        have := Nat.mul_le_mul_left padding hba
        omega
      have := Nat.mul_le_mul_left padding (show a + 1 ≤ b from this)
      rw [Nat.mul_add] at this; omega
    have h1 := step e hde hbe hx
    have hw : w64 (x + padding) = x + padding := Nat.mod_eq_of_lt (by omega)
    rw [hw]
    obtain ⟨y, e1, e2, e3, e4, e5, e6⟩ := ih (e - (x + padding)) (by omega) (x + padding) h1
      (Nat.dvd_add hdx (Nat.dvd_refl _)) rfl
    exact ⟨y, e1, e2, e3, by omega, e5, fun z hz hbz hxz => e6 z hz hbz (step z hz hbz hxz)⟩

theorem padLengthLoop_spec {padding : Nat} (hp : 0 < padding) (l M : Nat) (hl : l ≤ M) (hM : M < 2 ^ 64)
    (hM40 : 40 ≤ M) (hd : ∃ k, M = l + k * padding) :
    ∃ l', padLengthLoop padding l = some l' ∧ 40 ≤ l' ∧ l' ≤ M ∧ (∃ k, l' = l + k * padding) ∧
      ∀ k, 40 ≤ l + k * padding → l' ≤ l + k * padding := by
  induction hn : M - l using Nat.strongRecOn generalizing l with
  | _ n ih =>
  subst hn
  rw [padLengthLoop]
  by_cases h : l < 40
  · rw [if_pos h]
    obtain ⟨k, hk⟩ := hd
    have hk0 : 0 < k := by
      apply Nat.pos_of_ne_zero; rintro rfl; simp at hk; omega
    obtain ⟨j, rfl⟩ : ∃ j, k = j + 1 := ⟨k - 1, by omega⟩
    rw [Nat.add_mul] at hk
    have hw : w64 (l + padding) = l + padding := Nat.mod_eq_of_lt (by omega)
    rw [hw]
    obtain ⟨l', e1, e2, e3, ⟨i, e4⟩, e5⟩ := ih (M - (l + padding)) (by omega) (l + padding) (by omega)
      ⟨j, by omega⟩ rfl
    refine ⟨l', e1, e2, e3, ⟨i + 1, by rw [Nat.add_mul]; omega⟩, ?_⟩
    intro k2 hk2
    cases k2 with
    | zero => simp at hk2; omega
    | succ k2 =>
      rw [Nat.add_mul] at hk2 ⊢
      have := e5 k2 (by omega); omega
  · rw [if_neg h]
    refine ⟨l, rfl, by omega, by omega, ⟨0, by omega⟩, ?_⟩
    intro k2 _; exact Nat.le_add_right _ _

theorem posAfterPadding_spec {pos padding e : Nat} (hp : 1 < padding) (hnd : ¬ padding ∣ pos)
    (he : e < 2 ^ 64) (ht : PadTarget pos padding e) :
    ∃ y, posAfterPadding pos padding = some y ∧ PadTarget pos padding y ∧ y ≤ e ∧
      ∀ z, PadTarget pos padding z → y ≤ z := by
  obtain ⟨hde, hbe, hle⟩ := ht
  have hr0 : pos % padding ≠ 0 := fun h => hnd (Nat.dvd_of_mod_eq_zero h)
  have hrlt : pos % padding < padding := Nat.mod_lt _ (by omega)
  unfold posAfterPadding
  rw [if_neg (by omega)]
  simp only [hr0, if_false]
  -- multiples of padding after pos
  have hm : ∀ z, padding ∣ z → pos ≤ z → ∃ k, z - pos = (padding - pos % padding) + k * padding := by
    intro z hz hpz
    obtain ⟨b, rfl⟩ := hz
    have hd := Nat.div_add_mod pos padding
    have hb : pos / padding < b := by
      apply Nat.lt_of_not_le; intro h
      have := Nat.mul_le_mul_left padding h
      omega
    refine ⟨b - (pos / padding + 1), ?_⟩
    obtain ⟨c, rfl⟩ : ∃ c, b = pos / padding + 1 + c := ⟨b - (pos / padding + 1), by omega⟩
    rw [show pos / padding + 1 + c - (pos / padding + 1) = c by omega, Nat.mul_add, Nat.mul_add,
      Nat.mul_comm c padding]
    omega
  obtain ⟨k, hk⟩ := hm e hde (by omega)
  obtain ⟨l', e1, e2, e3, ⟨i, e4⟩, e5⟩ := padLengthLoop_spec (show 0 < padding by omega)
    (padding - pos % padding) (e - pos) (by rw [hk]; exact Nat.le_add_right _ _) (by omega) (by omega) ⟨k, hk⟩
  rw [e1]
  simp only
  have hw : w64 (pos + l') = pos + l' := Nat.mod_eq_of_lt (by omega)
  rw [hw]
  have hdl : padding ∣ pos + l' := by
    rw [e4]
    have hd := Nat.div_add_mod pos padding
    refine ⟨pos / padding + 1 + i, ?_⟩
    rw [Nat.mul_add, Nat.mul_add, Nat.mul_comm i padding]; omega
  obtain ⟨y, f1, f2, f3, f4, f5, f6⟩ := padEndLoop_spec (show 0 < padding by omega) he hbe hde (pos + l')
    (by omega) hdl
  refine ⟨y, f1, ⟨f2, f3, by omega⟩, f5, ?_⟩
  rintro z ⟨hz1, hz2, hz3⟩
  apply f6 z hz1 hz2
  obtain ⟨k2, hk2⟩ := hm z hz1 (by omega)
  have := e5 k2 (by omega); omega

theorem posAfterPadding_noop {pos padding : Nat} (h : padding ≤ 1 ∨ padding ∣ pos) :
    posAfterPadding pos padding = some pos := by
  unfold posAfterPadding
  by_cases h1 : padding ≤ 1
  · rw [if_pos h1]
  · rw [if_neg h1]
    have : pos % padding = 0 := by
      rcases h with h | h
      · omega
      · exact Nat.mod_eq_zero_of_dvd h
    simp [this]

theorem paddingChunk_wf {H : Bytes → UInt64} {n : Nat} (h : n < 2 ^ 64) : WFChunk H (paddingChunk H n) := by
  apply mkChunk_wf <;> simp [byteFill, h]

theorem paddingChunk_numRecords (H : Bytes → UInt64) (n : Nat) :
    Hdr.numRecords (paddingChunk H n).header = 0 := by
  simp only [paddingChunk, mkChunk]; exact mkChunkHeader_numRecords _ _ _ _ _ (by omega)

theorem paddingChunk_dataSize (H : Bytes → UInt64) {n : Nat} (h : n < 2 ^ 64) :
    Hdr.dataSize (paddingChunk H n).header = n := by
  simp only [paddingChunk, mkChunk]
  rw [mkChunkHeader_dataSize _ _ _ _ _ (by simp [byteFill, h])]; simp [byteFill]

/-- A padding chunk of the right size ends exactly where requested. -/
theorem paddingChunk_end {H : Bytes → UInt64} {pos e : Nat} (hb : BoundaryOk pos) (he : e < 2 ^ 64)
    (hbe : BoundaryOk e) (hle : pos ≤ e) (hu : 40 ≤ usable pos e) :
    HoldsChunk (usable pos e - 40) 0 pos e ∧
    (paddingChunk H (usable pos e - 40)).endAt pos = e := by
  have hle2 : usable pos e ≤ e - pos := by
    unfold usable
    refine Nat.le_trans (List.length_filter_le _ _) ?_
    simp
  have hh : HoldsChunk (usable pos e - 40) 0 pos e := ⟨hbe, hle, by omega, by omega⟩
  refine ⟨hh, ?_⟩
  unfold Chunk.endAt
  rw [paddingChunk_numRecords, paddingChunk_dataSize _ (by omega)]
  obtain ⟨⟨h1, h2, h3, h4⟩, h5⟩ := chunkEnd_spec hb he hh
  generalize chunkEnd (usable pos e - 40) 0 pos = x at *
  have u1 := usable_add_usableTo h2
  have u2 := usable_add_usableTo hle
  have u3 := usableTo_mono h5
  have : usableTo x = usableTo e := by omega
  unfold usableTo at this
  unfold BoundaryOk at h1 hbe
  omega

end Riegeli

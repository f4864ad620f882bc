import Verif.WriterTotal
/-!
# C14: padding

`paddingToWrite H pos padding` is what `WritePadding(padding)` does at position `pos`; `PadTarget pos padding e` says
that `e` is a multiple of `padding` and a possible chunk boundary at least 40 bytes (a chunk header) after
`pos`.

The property is not true of the code for all values: see `C14_negation_small_padding`.
-/
namespace Riegeli.Props
open Riegeli

/-- What C14 claims of `WritePadding(padding)` at `pos`: nothing is written if `pos` is already aligned; otherwise
a chunk without records is written, which occupies exactly `[pos, e)`, where `e` is the least suitable multiple
of `padding`. -/
def PaddingWorks (H : Bytes → UInt64) (pos padding : Nat) : Prop :=
  if padding ≤ 1 ∨ padding ∣ pos then paddingToWrite H pos padding = .nothing
  else ∃ e c, paddingToWrite H pos padding = .chunk c ∧ WFChunk H c ∧ Hdr.numRecords c.header = 0 ∧
    PadTarget pos padding e ∧ (∀ e', PadTarget pos padding e' → e ≤ e') ∧
    HoldsChunk (Hdr.dataSize c.header) 0 pos e ∧ c.endAt pos = e ∧ (writeChunk H pos c).2 = e

/-- The loops of `PosAfterPadding` end at the least suitable multiple, unless positions overflow. -/
theorem C14_position_after_padding {pos padding : Nat} (hp : 1 < padding) (hnd : ¬ padding ∣ pos)
    (hlt : pos + 40 + 65536 * padding < 2 ^ 64) :
    ∃ e, posAfterPadding pos padding = some e ∧ PadTarget pos padding e ∧
      ∀ e', PadTarget pos padding e' → e ≤ e' := by
  have ht : PadTarget pos padding (65536 * padding * ((pos + 39) / (65536 * padding) + 1)) := by
    refine ⟨⟨65536 * ((pos + 39) / (65536 * padding) + 1), by ac_rfl⟩, Or.inl ?_, ?_⟩
    · rw [Nat.mul_assoc]; exact Nat.mul_mod_right _ _
    · have := Nat.div_add_mod (pos + 39) (65536 * padding)
      have := Nat.mod_lt (pos + 39) (show 65536 * padding > 0 by omega)
      rw [Nat.mul_add]; omega
  have hle : 65536 * padding * ((pos + 39) / (65536 * padding) + 1) ≤ pos + 39 + 65536 * padding := by
    have := Nat.div_add_mod (pos + 39) (65536 * padding)
    rw [Nat.mul_add]; omega
  obtain ⟨y, y1, y2, _, y4⟩ := posAfterPadding_spec hp hnd (by omega) ht
  exact ⟨y, y1, y2, y4⟩

theorem paddingWorks_of_usable {H : Bytes → UInt64} {pos padding e : Nat} (hb : BoundaryOk pos)
    (hno : ¬ (padding ≤ 1 ∨ padding ∣ pos)) (he : posAfterPadding pos padding = some e) (hlt : e < 2 ^ 64)
    (ht : PadTarget pos padding e) (hl : ∀ e', PadTarget pos padding e' → e ≤ e') (hu : 40 ≤ usable pos e) :
    PaddingWorks H pos padding := by
  obtain ⟨t1, t2, t3⟩ := ht
  unfold PaddingWorks
  rw [if_neg hno]
  have hle : usable pos e ≤ e - pos := by
    unfold usable
    refine Nat.le_trans (List.length_filter_le _ _) ?_
    simp
  have hw : WFChunk H (paddingChunk H (usable pos e - 40)) := paddingChunk_wf (by omega)
  obtain ⟨p1, p2⟩ := paddingChunk_end (H := H) hb hlt t2 (by omega) hu
  have p1' : HoldsChunk (Hdr.dataSize (paddingChunk H (usable pos e - 40)).header) 0 pos e := by
    rw [paddingChunk_dataSize _ (by omega)]; exact p1
  refine ⟨e, paddingChunk H (usable pos e - 40), ?_, hw, paddingChunk_numRecords _ _, ⟨t1, t2, t3⟩, hl, p1', p2, ?_⟩
  · unfold paddingToWrite
    rw [he]
    simp only
    rw [if_neg (by omega), distanceWithoutOverhead_eq (by omega), if_neg (by omega)]
  · have hs := endAt_spec (c := paddingChunk H (usable pos e - 40)) hb
      ⟨e, hlt, by rw [paddingChunk_numRecords]; exact p1'⟩
    rw [writeChunk_eq hw hb hs.1]
    exact p2

/-- **C14** (partial). Padding works at every possible chunk boundary if `padding` is a multiple of the block size
(which `set_pad_to_block_boundary` uses) or a divisor of the block size which is at least 64, unless
positions overflow. Missing: other values of `padding`, for which it may fail. -/
theorem C14_padding_partial {H : Bytes → UInt64} {pos padding : Nat} (hb : BoundaryOk pos)
    (hs : SafePadding padding) (hlt : pos + 2 * padding < 2 ^ 64) : PaddingWorks H pos padding := by
  by_cases hno : padding ≤ 1 ∨ padding ∣ pos
  · unfold PaddingWorks
    rw [if_pos hno]
    unfold paddingToWrite
    rw [posAfterPadding_noop hno]; simp
  · have h1 : 1 < padding := by omega
    have h2 : ¬ padding ∣ pos := fun h => hno (Or.inr h)
    have h3 : 65536 ∣ padding ∨ (padding ∣ 65536 ∧ 64 ≤ padding) := by
      rcases hs with h | h
      · omega
      · exact h
    obtain ⟨e, ht, hle⟩ := padTarget_exists (pos := pos) h3 h1
    obtain ⟨y, y1, y2, y3, y4⟩ := posAfterPadding_spec h1 h2 (by omega) ht
    have hm := safePadding_boundary h3 y2.1
    have h0 : pos % 65536 ≠ 0 ∨ y % 65536 = 0 := by
      rcases h3 with h | h
      · exact Or.inr (Nat.mod_eq_zero_of_dvd (Nat.dvd_trans h y2.1))
      · exact Or.inl (fun h0 => h2 (Nat.dvd_trans h.1 (Nat.dvd_of_mod_eq_zero h0)))
    exact paddingWorks_of_usable hb hno y1 (by omega) y2 y4 (usable_block_end hb h0 hm y2.2.2)

/-- **C14** (partial, any padding): padding works if no block boundary is in the way, i.e. exactly when the least
suitable multiple of `padding` leaves room for a chunk header outside block headers; and if it does not, the
size of the padding underflows. -/
theorem C14_padding_general_partial {H : Bytes → UInt64} {pos padding : Nat} (hb : BoundaryOk pos)
    (hlt : pos + 40 + 65536 * padding < 2 ^ 64) (hno : ¬ (padding ≤ 1 ∨ padding ∣ pos)) :
    ∃ e, PadTarget pos padding e ∧ (∀ e', PadTarget pos padding e' → e ≤ e') ∧
      (40 ≤ usable pos e → PaddingWorks H pos padding) ∧
      (¬ 40 ≤ usable pos e → paddingToWrite H pos padding = .underflow) := by
  obtain ⟨e, h1, h2, h3⟩ := C14_position_after_padding (pos := pos) (padding := padding) (by omega)
    (fun h => hno (Or.inr h)) hlt
  have ht : PadTarget pos padding (65536 * padding * ((pos + 39) / (65536 * padding) + 1)) := by
    refine ⟨⟨65536 * ((pos + 39) / (65536 * padding) + 1), by ac_rfl⟩, Or.inl ?_, ?_⟩
    · rw [Nat.mul_assoc]; exact Nat.mul_mod_right _ _
    · have := Nat.div_add_mod (pos + 39) (65536 * padding)
      have := Nat.mod_lt (pos + 39) (show 65536 * padding > 0 by omega)
      rw [Nat.mul_add]; omega
  have hle : 65536 * padding * ((pos + 39) / (65536 * padding) + 1) ≤ pos + 39 + 65536 * padding := by
    have := Nat.div_add_mod (pos + 39) (65536 * padding)
    rw [Nat.mul_add]; omega
  have hle2 := h3 _ ht
  refine ⟨e, h2, h3, fun hu => paddingWorks_of_usable hb hno h1 (by omega) h2 h3 hu, ?_⟩
  intro hu
  unfold paddingToWrite
  rw [h1]
  simp only
  obtain ⟨t1, t2, t3⟩ := h2
  rw [if_neg (by omega), distanceWithoutOverhead_eq (by omega), if_pos (by omega)]

/-- **C14 is not true of the code for every padding.** At position 65528, which is a possible chunk boundary,
`WritePadding(32)` computes the size of the padding chunk as `16 - 40` in unsigned arithmetic. -/
theorem C14_negation_small_padding (H : Bytes → UInt64) :
    BoundaryOk 65528 ∧ paddingToWrite H 65528 32 = .underflow ∧ ¬ PaddingWorks H 65528 32 := by
  have hu : paddingToWrite H 65528 32 = .underflow := by
    have hp : posAfterPadding 65528 32 = some 65568 := by
      have h1 : padLengthLoop 32 8 = some 40 := by
        rw [padLengthLoop, if_pos (by decide), show w64 (8 + 32) = 40 from rfl, padLengthLoop,
          if_neg (by decide)]
      have h2 : padEndLoop 32 65568 = some 65568 := by
        rw [padEndLoop, if_pos (by decide)]
      show (match padLengthLoop 32 8 with
        | none => none
        | some length => padEndLoop 32 (w64 (65528 + length))) = some 65568
      rw [h1]
      exact h2
    unfold paddingToWrite
    rw [hp]
    rfl
  refine ⟨Or.inr (by decide), hu, ?_⟩
  unfold PaddingWorks
  rw [if_neg (by decide), hu]
  rintro ⟨e, c, h, _⟩
  exact absurd h (by simp)

/-- The hypotheses of `C14_padding_partial` are met, with a non-trivial result. -/
example (H : Bytes → UInt64) : PaddingWorks H 100 65536 ∧ paddingToWrite H 100 65536 ≠ .nothing := by
  have h := C14_padding_partial (H := H) (pos := 100) (padding := 65536) (Or.inr (by decide))
    (Or.inr (Or.inl ⟨1, rfl⟩)) (by decide)
  refine ⟨h, ?_⟩
  unfold PaddingWorks at h
  rw [if_neg (by decide)] at h
  obtain ⟨e, c, h1, _⟩ := h
  rw [h1]; simp

/-- **C15** (where appending starts). Whatever the size `n` of the destination is, for example because it was cut by a
crash inside a block header: a writer opened at its end appends zeros `z`, and the first chunk then begins at
a possible chunk boundary. Nothing is added if `n` already is one; otherwise the zeros extend exactly to the end
of the block. -/
theorem C15_start_of_appending (n : Nat) :
    ∃ z p, initPos n = (z, p) ∧ (∀ b ∈ z, b = 0) ∧ p = n + z.length ∧ BoundaryOk p ∧
      (BoundaryOk n → z = []) ∧ (¬ BoundaryOk n → 65536 ∣ p ∧ n < p ∧ p < n + 65536) := by
  unfold initPos
  by_cases h : isPossibleChunkBoundary n = true
  · rw [if_pos h]
    exact ⟨[], n, rfl, by simp, rfl, (isPossibleChunkBoundary_iff n).1 h, fun _ => rfl,
      fun h2 => absurd ((isPossibleChunkBoundary_iff n).1 h) h2⟩
  · rw [if_neg h]
    have hb : ¬ BoundaryOk n := fun h2 => h ((isPossibleChunkBoundary_iff n).2 h2)
    unfold BoundaryOk at hb
    have hr : remainingInBlock n = 65536 - n % 65536 := by
      rw [remainingInBlock_eq]; omega
    refine ⟨_, _, rfl, ?_, ?_, ?_, ?_, ?_⟩
    · intro b hb2; exact (List.mem_replicate.1 hb2).2
    · unfold byteFill; rw [List.length_replicate]
    · rw [hr]; left; omega
    · intro h2; exact absurd h2 (fun h2 => h ((isPossibleChunkBoundary_iff n).2 h2))
    · intro _; rw [hr]; omega

end Riegeli.Props

import Verif.Block
/-! # C19: block and chunk position arithmetic

The specification vocabulary is `usable a b` (number of positions in `[a, b)` outside block headers),
`BoundaryOk` and `HoldsChunk` of `Verif/Block.lean`. -/
namespace Riegeli.Props

/-- C19 (chunk end): whenever *some* position below `2^64` can be the end of the chunk, `ChunkEnd`
computed with 64-bit wrap-around arithmetic is the least such position. -/
theorem C19_chunk_end_is_least (dataSize numRecords chunkBegin : Nat) (hcb : BoundaryOk chunkBegin)
    (e : Nat) (he : e < 2 ^ 64) (h : HoldsChunk dataSize numRecords chunkBegin e) :
    HoldsChunk dataSize numRecords chunkBegin (chunkEnd dataSize numRecords chunkBegin) ∧
    ∀ e', e' < 2 ^ 64 → HoldsChunk dataSize numRecords chunkBegin e' →
      chunkEnd dataSize numRecords chunkBegin ≤ e' :=
  ⟨(chunkEnd_spec hcb he h).1, fun _ he' h' => (chunkEnd_spec hcb he' h').2⟩

/-- C19 (`DistanceWithoutOverhead`): the number of positions outside block headers. -/
theorem C19_distance_without_overhead (a b : Nat) (h : a ≤ b) :
    distanceWithoutOverhead a b = usable a b := distanceWithoutOverhead_eq h

/-- C19 (`AddWithOverhead`): from a possible chunk boundary, the result `e` is the unique position
such that exactly `len` positions in `[cb, e)` are outside block headers, and the last one before
`e` is outside; provided that position is below `2^64`. -/
theorem C19_add_with_overhead (cb len e : Nat) (hcb : BoundaryOk cb) (hlen : 0 < len)
    (he : e < 2 ^ 64) :
    (cb < e ∧ usable cb e = len ∧ 24 ≤ (e - 1) % 65536) →
      addWithOverhead cb len = e ∧ BoundaryOk e := by
  rintro ⟨h1, h2, h3⟩
  obtain ⟨a1, a2, a3, a4⟩ := overheadFormula_spec (cb := cb) (len := len) hcb hlen rfl
  have hu := usable_add_usableTo (show cb ≤ e by omega)
  generalize hA : cb + len + (len + (cb + 65511) % 65536) / 65512 * 24 = A at a1 a2 a3 a4
  have hAe : A = e := by
    have e1 : usableTo A = usableTo e := by omega
    unfold usableTo at e1
    omega
  subst hAe
  exact ⟨by rw [← hA]; exact addWithOverhead_eq (by omega), a2⟩

/-- C19 (inverse): `DistanceWithoutOverhead` inverts `AddWithOverhead`. -/
theorem C19_distance_of_add (cb len : Nat) (hcb : BoundaryOk cb) (hlen : 0 < len)
    (hno : ∃ e, e < 2 ^ 64 ∧ cb ≤ e ∧ len ≤ usable cb e) :
    distanceWithoutOverhead cb (addWithOverhead cb len) = len := by
  obtain ⟨a1, a2, a3, a4⟩ := overheadFormula_spec (cb := cb) (len := len) hcb hlen rfl
  obtain ⟨e, he, hce, hl⟩ := hno
  have hu := usable_add_usableTo hce
  generalize hA : cb + len + (len + (cb + 65511) % 65536) / 65512 * 24 = A at a1 a2 a3 a4
  have hAe : A ≤ e := by
    apply Nat.le_of_not_lt; intro hc
    have : usableTo e ≤ usableTo (A - 1) := usableTo_mono (by omega)
    have : usableTo (A - 1) + 1 = usableTo A := by unfold usableTo; omega
    omega
  have hadd : addWithOverhead cb len = A := by
    rw [← hA]; exact addWithOverhead_eq (by omega)
  rw [hadd, distanceWithoutOverhead_eq (by omega)]
  have := usable_add_usableTo (show cb ≤ A by omega)
  omega

/-- C19 (boundaries): `IsPossibleChunkBoundary` and `RoundUpToPossibleChunkBoundary`. -/
theorem C19_chunk_boundaries (pos : Nat) (h : pos < 2 ^ 64) :
    (isPossibleChunkBoundary pos = true ↔ BoundaryOk pos) ∧
    BoundaryOk (roundUpToPossibleChunkBoundary pos) ∧ pos ≤ roundUpToPossibleChunkBoundary pos ∧
    (∀ e, BoundaryOk e → pos ≤ e → roundUpToPossibleChunkBoundary pos ≤ e) :=
  ⟨isPossibleChunkBoundary_iff pos, (roundUp_spec h).1, (roundUp_spec h).2.1, (roundUp_spec h).2.2.1⟩

/-! Concrete, non-trivial cases: a chunk with 70000 data bytes and 3 records beginning at 100 spans
one block header. -/

example : BoundaryOk 100 ∧ HoldsChunk 70000 3 100 70164 := by
  refine ⟨by unfold BoundaryOk; omega, by unfold BoundaryOk; omega, by omega, ?_, by omega⟩
  rw [usable_eq (by omega)]; unfold usableTo; omega
example : chunkEnd 70000 3 100 = 70164 := by decide
/-- The number of records may dominate. -/
example : chunkEnd 0 65540 0 = 65561 := by decide

end Riegeli.Props

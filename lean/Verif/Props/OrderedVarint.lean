import Verif.OrderedVarint
/-! # C21: ordered varints -/
namespace Riegeli.Props

/-- C21 (round trip and canonicity, 64 bit): reading succeeds with value `v` and remaining input
`rest` exactly if the input is the written form of the 64-bit number `v` followed by `rest`. -/
theorem C21_ordered_varint64_reads_exactly_what_is_written (src rest : Bytes) (v : Nat) :
    readOrderedVarint64 src = some (v, rest) ↔
      v < 2 ^ 64 ∧ src = writeOrderedVarint64 v ++ rest :=
  ⟨read64_some, fun ⟨h, e⟩ => e ▸ read64_write h rest⟩

/-- C21 (round trip and canonicity, 32 bit). -/
theorem C21_ordered_varint32_reads_exactly_what_is_written (src rest : Bytes) (v : Nat) :
    readOrderedVarint32 src = some (v, rest) ↔
      v < 2 ^ 32 ∧ src = writeOrderedVarint32 v ++ rest := by
  rw [read32_iff]
  constructor
  · rintro ⟨h, e⟩
    exact ⟨h, by rw [write32_eq h]; exact (read64_some e).2⟩
  · rintro ⟨h, e⟩
    refine ⟨h, ?_⟩
    rw [e, write32_eq h]; exact read64_write (by omega) rest

/-- C21 (order): byte strings compare lexicographically (`List` `<` on `UInt8`) exactly as the
numbers they represent. -/
theorem C21_ordered_varint64_order (x y : Nat) (hx : x < 2 ^ 64) (hy : y < 2 ^ 64) :
    writeOrderedVarint64 x < writeOrderedVarint64 y ↔ x < y := (write64_lt hx hy).symm

theorem C21_ordered_varint32_order (x y : Nat) (hx : x < 2 ^ 32) (hy : y < 2 ^ 32) :
    writeOrderedVarint32 x < writeOrderedVarint32 y ↔ x < y := by
  rw [write32_eq hx, write32_eq hy]; exact (write64_lt (by omega) (by omega)).symm

/-- C21 (length): between 1 and 9 bytes, `LengthOrderedVarint` many. -/
theorem C21_ordered_varint_length (x : Nat) :
    (x < 2 ^ 64 → (writeOrderedVarint64 x).length = lengthOrderedVarint x) ∧
    (x < 2 ^ 32 → (writeOrderedVarint32 x).length = lengthOrderedVarint x) := by
  refine ⟨write64_length, fun h => ?_⟩
  rw [write32_eq h]; exact write64_length (by omega)

/-! Concrete, non-trivial cases. -/

example : writeOrderedVarint64 300 = [0x81, 0x2c] := by decide
example : readOrderedVarint64 [0x81, 0x2c, 7] = some (300, [7]) :=
  (C21_ordered_varint64_reads_exactly_what_is_written _ _ _).2 ⟨by decide, by decide⟩
/-- An over-long representation of 5 is rejected. -/
example : readOrderedVarint64 [0x80, 0x05] = none := by decide
example : readOrderedVarint32 [0xf1, 0, 0, 0, 0] = none := by decide
example : writeOrderedVarint64 127 < writeOrderedVarint64 128 :=
  (C21_ordered_varint64_order _ _ (by decide) (by decide)).2 (by decide)

end Riegeli.Props

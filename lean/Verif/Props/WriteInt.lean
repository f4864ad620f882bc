import Verif.WriteIntProofs
/-!
# C43: writing integers

`Dec()` and `Hex()` write the numeral of any integer, with any width, and report its size.
-/
namespace Riegeli.Props
open Riegeli.Num

/-- **C43.** The digits written for `n`, read in the base, are `n`, for any width; there are at least `width` of them, and more only when needed. -/
theorem C43_numerals (w n : Nat) : valueOf digitValue 10 (padded decDigit 10 w n) = n ∧
    (∀ upper, valueOf digitValue 16 (padded (hexDigit upper) 16 w n) = n) ∧ w ≤ (padded decDigit 10 w n).length ∧
    (∀ k, 1 ≤ k → ((padded decDigit 10 w n).length ≤ k ↔ w ≤ k ∧ n < 10 ^ k)) ∧
    ∀ upper k, 1 ≤ k → ((padded (hexDigit upper) 16 w n).length ≤ k ↔ w ≤ k ∧ n < 16 ^ k) := by
  refine ⟨value_padded (by omega) (by decide) w n, fun upper => value_padded (by omega) (by cases upper <;> decide) w n, ?_, fun k hk => ?_, fun upper k hk => ?_⟩
  · rw [padded_length (by omega)]; omega
  · rw [padded_length (by omega), ← numeral_length_le (digit := decDigit) (by omega) hk]; omega
  · rw [padded_length (by omega), ← numeral_length_le (digit := hexDigit upper) (by omega) hk]; omega

/-- **C43.** `Dec()` of an unsigned integer: writing to a `Writer`, formatting and the size. The space asked for is enough. -/
theorem C43_dec_unsigned {bits n : Nat} (hb : IntBits bits) (h : n < 2 ^ bits) (w : Nat) :
    decUnsigned bits n w = padded decDigit 10 w n ∧ decStringify bits n w = padded decDigit 10 w n ∧
    decSize bits n w = (padded decDigit 10 w n).length ∧ (padded decDigit 10 w n).length ≤ decSpace bits w :=
  ⟨decUnsigned_eq hb h w, decStringify_eq bits n w, decSize_eq hb h w, decSpace_ok hb h w⟩

/-- **C43.** `Dec()` of a signed integer, including the least one. -/
theorem C43_dec_signed {bits : Nat} {n : Int} (hb : IntBits bits) (h : Signed bits n) (w : Nat) :
    decSigned bits n w = paddedInt decDigit 10 w n ∧ decStringifySigned bits n w = paddedInt decDigit 10 w n ∧
    decSizeSigned bits n w = (paddedInt decDigit 10 w n).length ∧ (paddedInt decDigit 10 w n).length ≤ decSpaceSigned bits w :=
  ⟨decSigned_eq hb h w, decStringifySigned_eq hb h w, decSizeSigned_eq hb h w, decSpaceSigned_ok hb h w⟩

/-- **C43.** Writing an integer to a `BackwardWriter`: the numeral is put before what was written. -/
theorem C43_dec_backward {bits : Nat} (hb : IntBits bits) (after : Bytes) :
    (∀ n, decBack bits n after = padded decDigit 10 0 n ++ after) ∧
    ∀ n, Signed bits n → decBackSigned bits n after = paddedInt decDigit 10 0 n ++ after :=
  ⟨fun n => by rw [decBack_eq]; simp [padded], fun _ h => decBackSigned_eq hb h after⟩

/-- **C43.** `Hex()` and `HexUpperCase()` of an unsigned integer, with and without SSSE3. -/
theorem C43_hex_unsigned (sse upper : Bool) {bits n : Nat} (hb : IntBits bits) (h : n < 2 ^ bits) (w : Nat) :
    hexUnsigned sse upper bits n w = padded (hexDigit upper) 16 w n ∧ hexStringify sse upper bits n w = padded (hexDigit upper) 16 w n ∧
    hexTypeSize bits n w = (padded (hexDigit upper) 16 w n).length ∧ (padded (hexDigit upper) 16 w n).length ≤ hexSpace bits w :=
  ⟨hexUnsigned_eq sse upper hb h w, hexStringify_eq sse upper hb h w, hexTypeSize_eq upper hb h w, hexSpace_ok upper hb h w⟩

/-- **C43.** `Hex()` and `HexUpperCase()` of a signed integer. -/
theorem C43_hex_signed (sse upper : Bool) {bits : Nat} {n : Int} (hb : IntBits bits) (h : Signed bits n) (w : Nat) :
    hexSigned sse upper bits n w = paddedInt (hexDigit upper) 16 w n ∧ hexStringifySigned sse upper bits n w = paddedInt (hexDigit upper) 16 w n ∧
    hexTypeSizeSigned bits n w = (paddedInt (hexDigit upper) 16 w n).length ∧
    (paddedInt (hexDigit upper) 16 w n).length ≤ hexSpaceSigned bits w :=
  ⟨hexSigned_eq sse upper hb h w, hexStringifySigned_eq sse upper hb h w, hexTypeSizeSigned_eq upper hb h w, hexSpaceSigned_ok upper hb h w⟩

/-- The least 8-bit integer with width 6 is `-00128`, or `-00080` in hexadecimal; 3735928559 with width 9 is `0deadbeef`. -/
example : Signed 8 (-128) ∧ paddedInt decDigit 10 6 (-128) = [45, 48, 48, 49, 50, 56] ∧
    paddedInt (hexDigit false) 16 6 (-128) = [45, 48, 48, 48, 56, 48] ∧
    padded (hexDigit false) 16 9 3735928559 = [48, 100, 101, 97, 100, 98, 101, 101, 102] :=
  ⟨by unfold Signed; decide, by decide +kernel, by decide +kernel, by decide +kernel⟩

end Riegeli.Props

import Verif.Varint
/-!
# C20: varints

`w` is 32 or 64. `IsVarint`, `varintValue` are the specification: base 128 digits, least significant first,
continuation bit on every byte but the last.
-/
namespace Riegeli.Props
open Riegeli

/-- **C20** (round trip and length). Whatever follows, a written varint is read back, by the plain and
by the canonical reader, leaving the rest; its length is `LengthVarint`. -/
theorem C20_varint_round_trip {w : Nat} (hw : w = 32 ∨ w = 64) {x : Nat} (hx : x < 2 ^ w)
    (canonical : Bool) (rest : Bytes) :
    readVarint w canonical (writeVarint x ++ rest) = some (x, rest) ∧
    (writeVarint x).length = lengthVarint x ∧
    IsVarint (writeVarint x) ∧ varintValue (writeVarint x) = x := by
  have h64 : x < 2 ^ 64 := by
    rcases hw with h | h <;> subst h <;> omega
  exact ⟨readVarint_write (by omega) hx _ _, lengthVarint_eq h64, writeVarint_spec x⟩

/-- **C20** (what is accepted). For every source, reading succeeds exactly if a prefix is a varint of at
most 5 (10) bytes whose value fits in 32 (64) bits; the canonical reader accepts exactly the prefixes
which `WriteVarint` writes. -/
theorem C20_varint_accepts {w : Nat} (hw : w = 32 ∨ w = 64) (canonical : Bool) (src rest : Bytes) (v : Nat) :
    readVarint w canonical src = some (v, rest) ↔
    ∃ bs, src = bs ++ rest ∧ IsVarint bs ∧ varintValue bs = v ∧
      bs.length ≤ (if w = 32 then 5 else 10) ∧ v < 2 ^ w ∧ (canonical = true → bs = writeVarint v) := by
  rw [readVarint_iff (by omega)]
  have : kMaxLengthVarint w = if w = 32 then 5 else 10 := by
    rcases hw with h | h <;> subst h <;> rfl
  rw [this]

/-- **C20** (copying). `CopyVarint` (and `SkipVarint`) succeed exactly when `ReadVarint` does, and copy
exactly the bytes it consumes. -/
theorem C20_varint_copy (w : Nat) (canonical : Bool) (src : Bytes) :
    (copyVarint w canonical src = none ↔ readVarint w canonical src = none) ∧
    ∀ bs rest, copyVarint w canonical src = some (bs, rest) →
      src = bs ++ rest ∧ ∃ v, readVarint w canonical src = some (v, rest) :=
  copyVarintLoop_eq canonical src 0 0

/-- **C20** (zigzag). The signed encoding is a bijection mapping 0, -1, 1, -2, ... to 0, 1, 2, 3, ... -/
theorem C20_zigzag {w : Nat} (hw : w = 32 ∨ w = 64) (v : BitVec w) :
    decodeVarintSigned (encodeVarintSigned v) = v ∧ encodeVarintSigned (decodeVarintSigned v) = v ∧
    ((encodeVarintSigned v).toNat : Int) = if 0 ≤ v.toInt then 2 * v.toInt else -2 * v.toInt - 1 :=
  ⟨decode_encode_signed (by omega) v, encode_decode_signed (by omega) v,
    encodeVarintSigned_toNat (by omega) v⟩

/-- Non-vacuity: a two-byte varint, an over-long one, one too large. -/
example : readVarint 64 true ([0xac, 0x02] ++ [7]) = some (300, [7]) := by decide
example : readVarint 64 true [0x80, 0x00] = none ∧ readVarint 64 false [0x80, 0x00] = some (0, []) := by
  decide
example : readVarint 32 false [0xff, 0xff, 0xff, 0xff, 0x1f] = none := by decide
example : (encodeVarintSigned (-1 : BitVec 64)).toNat = 1 := by decide

end Riegeli.Props

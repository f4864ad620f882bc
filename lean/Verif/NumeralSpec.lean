import Verif.Basic
/-!
# Specification of numerals
-/
namespace Riegeli.Num

/-- The numeral of `n` in base `b`, without leading zeros except for 0 itself. -/
def numeral (digit : Nat → UInt8) (b n : Nat) : Bytes :=
  if n < b ∨ b < 2 then [digit n] else numeral digit b (n / b) ++ [digit (n % b)]
termination_by n
decreasing_by
  rename_i h
  exact Nat.div_lt_self (by omega) (by omega)

/-- The numeral with at least `width` digits. -/
def padded (digit : Nat → UInt8) (b width n : Nat) : Bytes :=
  List.replicate (width - (numeral digit b n).length) (digit 0) ++ numeral digit b n

/-- The numeral of an integer with at least `width` characters; the minus sign is before the zeros. -/
def paddedInt (digit : Nat → UInt8) (b width : Nat) (n : Int) : Bytes :=
  if 0 ≤ n then padded digit b width n.natAbs else 45 :: padded digit b (width - 1) n.natAbs

/-- Decimal digits. -/
def decDigit (d : Nat) : UInt8 := UInt8.ofNat (48 + d)

/-- Hexadecimal digits. -/
def hexDigit (upper : Bool) (d : Nat) : UInt8 := UInt8.ofNat (if d < 10 then 48 + d else (if upper then 65 else 97) + (d - 10))

/-- The supported sizes of integers. -/
def IntBits (bits : Nat) : Prop := bits = 8 ∨ bits = 16 ∨ bits = 32 ∨ bits = 64 ∨ bits = 128

/-- The range of a signed type. -/
def Signed (bits : Nat) (n : Int) : Prop := -2 ^ (bits - 1) ≤ n ∧ n < 2 ^ (bits - 1)

/-- The number which digits denote in base `b`. -/
def valueOf (value : UInt8 → Nat) (b : Nat) (l : Bytes) : Nat := l.foldl (fun acc d => acc * b + value d) 0

/-- The number which a decimal or hexadecimal digit denotes. -/
def digitValue (d : UInt8) : Nat :=
  if 48 ≤ d ∧ d ≤ 57 then d.toNat - 48
  else if 65 ≤ d ∧ d ≤ 70 then d.toNat - 65 + 10
  else if 97 ≤ d ∧ d ≤ 102 then d.toNat - 97 + 10
  else 99

end Riegeli.Num

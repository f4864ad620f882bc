import Verif.Basic
/-!
# The wire format of proto messages

Specification only (https://protobuf.dev/programming-guides/encoding/): what the serialization of a message with given fields is. Nothing here refers to the model.
-/
namespace Riegeli.Msg

/-- The shortest varint which represents `n`. -/
def varint (n : Nat) : Bytes := if n < 128 then [UInt8.ofNat n] else UInt8.ofNat (n % 128 + 128) :: varint (n / 128)
termination_by n
decreasing_by omega

/-- `n` as `size` bytes, least significant first. -/
def little (size n : Nat) : Bytes := (List.range size).map (fun i => UInt8.ofNat (n / 256 ^ i))

/-- A numeric value together with its type in the proto language. Floating point values are given by their bits. -/
inductive Value where
  | int32 (v : BitVec 32)
  | int64 (v : BitVec 64)
  | uint32 (v : BitVec 32)
  | uint64 (v : BitVec 64)
  | sint32 (v : BitVec 32)
  | sint64 (v : BitVec 64)
  | bool (v : Bool)
  | fixed32 (v : BitVec 32)
  | fixed64 (v : BitVec 64)
  | sfixed32 (v : BitVec 32)
  | sfixed64 (v : BitVec 64)
  | float (bits : BitVec 32)
  | double (bits : BitVec 64)
  | enum (v : Int)

/-- Zigzag encoding. -/
def zigzag (v : Int) : Nat := if 0 ≤ v then (2 * v).toNat else (-2 * v - 1).toNat

namespace Value

/-- The wire type: 0 is a varint, 1 is 8 bytes, 5 is 4 bytes. -/
def wireType : Value → Nat
  | fixed32 _ | sfixed32 _ | float _ => 5
  | fixed64 _ | sfixed64 _ | double _ => 1
  | _ => 0

/-- The representation of the value. Negative values of types `int32`, `int64` and `enum` are represented as 64-bit two's complement numbers. -/
def payload : Value → Bytes
  | int32 v => varint (v.toInt % 2 ^ 64).toNat
  | int64 v => varint (v.toInt % 2 ^ 64).toNat
  | uint32 v => varint v.toNat
  | uint64 v => varint v.toNat
  | sint32 v => varint (zigzag v.toInt)
  | sint64 v => varint (zigzag v.toInt)
  | bool v => varint (if v then 1 else 0)
  | fixed32 v => little 4 v.toNat
  | fixed64 v => little 8 v.toNat
  | sfixed32 v => little 4 v.toNat
  | sfixed64 v => little 8 v.toNat
  | float v => little 4 v.toNat
  | double v => little 8 v.toNat
  | enum v => varint (v % 2 ^ 64).toNat

end Value

/-- The tag of a field. -/
def key (f wireType : Nat) : Bytes := varint (f * 8 + wireType)

/-- How the writer of a submessage or of a packed repeated field delimits it. -/
inductive How where
  /-- `OpenLengthDelimited()`, contents, `CloseLengthDelimited()` -/
  | opened
  /-- `OpenLengthDelimited()`, contents, `CloseOptionalLengthDelimited()` -/
  | optional
  /-- `WriteLengthUnchecked()` with the right length, and contents -/
  | pledged

/-- A part of a message. -/
inductive Field where
  /-- A field with a numeric value. -/
  | scalar (f : Nat) (v : Value)
  /-- A string, or anything written as a string. -/
  | str (f : Nat) (bs : Bytes)
  /-- A submessage or a packed repeated field, with its contents. -/
  | sub (how : How) (f : Nat) (body : List Field)
  /-- A group. -/
  | group (f : Nat) (body : List Field)
  /-- An element of a packed repeated field. -/
  | element (v : Value)
  /-- Bytes written directly. -/
  | raw (bs : Bytes)

mutual
/-- The serialization. -/
def wire : Field → Bytes
  | .scalar f v => key f v.wireType ++ v.payload
  | .str f bs => key f 2 ++ varint bs.length ++ bs
  | .sub .optional f body => if wires body = [] then [] else key f 2 ++ varint (wires body).length ++ wires body
  | .sub _ f body => key f 2 ++ varint (wires body).length ++ wires body
  | .group f body => key f 3 ++ wires body ++ key f 4
  | .element v => v.payload
  | .raw bs => bs
@[inherit_doc wire] def wires : List Field → Bytes
  | [] => []
  | x :: xs => wire x ++ wires xs
end

mutual
/-- Some string, submessage or packed repeated field has 2 GiB or more. -/
def TooLong : Field → Prop
  | .str _ bs => 2 ^ 31 ≤ bs.length
  | .sub _ _ body => AnyTooLong body ∨ 2 ^ 31 ≤ (wires body).length
  | .group _ body => AnyTooLong body
  | _ => False
@[inherit_doc TooLong] def AnyTooLong : List Field → Prop
  | [] => False
  | x :: xs => TooLong x ∨ AnyTooLong xs
end

mutual
/-- All field numbers are valid: less than 2^29. -/
def Valid : Field → Prop
  | .scalar f _ => 0 < f ∧ f < 2 ^ 29
  | .str f _ => 0 < f ∧ f < 2 ^ 29
  | .sub _ f body => (0 < f ∧ f < 2 ^ 29) ∧ AllValid body
  | .group f body => (0 < f ∧ f < 2 ^ 29) ∧ AllValid body
  | _ => True
@[inherit_doc Valid] def AllValid : List Field → Prop
  | [] => True
  | x :: xs => Valid x ∧ AllValid xs
end

end Riegeli.Msg

import Verif.MessageSpec
import Verif.Varint
import Verif.WriterProofs
/-!
# `SerializedMessageWriter` and `SerializedMessageBackwardWriter`

Model of `riegeli/messages/serialized_message_writer.{h,cc}` and `riegeli/messages/serialized_message_backward_writer.{h,cc}`, with
`riegeli/messages/message_wire_format.h`, over any `Writer` (`WriterOps`) or `BackwardWriter` (`BackOps`).

Simplifications: a submessage being built in a `CordWriter` is a list of bytes which does not fail. The result of a function is whether the status is OK. After a failure
nothing is claimed about open submessages. Not modelled: `NewLengthDelimited()`, `set_dest()`, moving, `WriteString()` from a `Reader` or a message (other than that
they write the length and the bytes).
-/
namespace Riegeli.Msg
open Riegeli.Wtr

/-- `MakeTag()` (`message_wire_format.h:89-92`); the field number is converted to `uint32_t`. -/
def makeTag (f wireType : Nat) : Nat := (f <<< 3) % 2 ^ 32 ||| wireType

/-- What the compiler and the caller decide. -/
structure Env where
  /-- `RIEGELI_IS_CONSTANT()` for a tag, value or length: the compiler knows the number. -/
  const : Nat → Bool
  /-- How a `Cord` with the given contents is divided into chunks. -/
  cut : Bytes → List Bytes
  /-- Which overload of `WriteString()` is used: 0 is with `StringifiedSize()`, 1 is without it, otherwise `CordIteratorSpan`. -/
  kind : Bytes → Nat

/-- How much space is asked for a varint (`serialized_message_writer.h:408-416`, `varint_writing.h:106-115`). -/
def Env.space (e : Env) (w v : Nat) : Nat := if e.const v then lengthVarint v else kMaxLengthVarint w

/-- `SerializedMessageWriter` (`serialized_message_writer.h:364-369`): `dest` is the root, `subs` are the contents of open submessages, innermost first. -/
structure Smw (σ : Type) where
  dest : σ
  subs : List Bytes

namespace Smw
variable {σ : Type} (W : WriterOps σ) (e : Env)

/-- `writer().Push(n)`, and then writing `bs` at the cursor and moving the cursor. -/
def emit (n : Nat) (bs : Bytes) (s : Smw σ) : Bool × Smw σ :=
  match s.subs with
  | [] =>
    let r := W.push n 0 s.dest
    if r.1 = false then (false, ⟨r.2, []⟩) else (true, ⟨W.put bs r.2, []⟩)
  | m :: ms => (true, ⟨s.dest, (m ++ bs) :: ms⟩)

/-- `writer().Write(char)`. -/
def writeChar (b : UInt8) (s : Smw σ) : Bool × Smw σ :=
  match s.subs with
  | [] => ((W.writeChar b s.dest).1, ⟨(W.writeChar b s.dest).2, []⟩)
  | m :: ms => (true, ⟨s.dest, (m ++ [b]) :: ms⟩)

/-- `writer().Write(string_view)`. -/
def write (bs : Bytes) (s : Smw σ) : Bool × Smw σ :=
  match s.subs with
  | [] => ((W.write bs s.dest).1, ⟨(W.write bs s.dest).2, []⟩)
  | m :: ms => (true, ⟨s.dest, (m ++ bs) :: ms⟩)

/-- `writer().Write(Cord)`. -/
def writeCord (bs : Bytes) (s : Smw σ) : Bool × Smw σ :=
  match s.subs with
  | [] => ((W.writeChain (e.cut bs) s.dest).1, ⟨(W.writeChain (e.cut bs) s.dest).2, []⟩)
  | m :: ms => (true, ⟨s.dest, (m ++ bs) :: ms⟩)

/-- Two calls, the second one only if the first one succeeded. -/
def andThen (f g : Smw σ → Bool × Smw σ) (s : Smw σ) : Bool × Smw σ :=
  let r := f s
  if r.1 = false then (false, r.2) else g r.2

/-- `WriteUInt32()` (`serialized_message_writer.h:405-423`). -/
def writeUInt32 (f v : Nat) : Smw σ → Bool × Smw σ :=
  emit W (e.space 32 (makeTag f 0) + e.space 32 v) (writeVarint (makeTag f 0) ++ writeVarint v)

/-- `WriteUInt64()` (`serialized_message_writer.h:425-443`). -/
def writeUInt64 (f v : Nat) : Smw σ → Bool × Smw σ :=
  emit W (e.space 32 (makeTag f 0) + e.space 64 v) (writeVarint (makeTag f 0) ++ writeVarint v)

/-- `WriteBool()` (`serialized_message_writer.h:455-470`). -/
def writeBool (f : Nat) (v : Bool) : Smw σ → Bool × Smw σ :=
  emit W (e.space 32 (makeTag f 0) + 1) (writeVarint (makeTag f 0) ++ [if v then 1 else 0])

/-- `WriteFixed32()` (`serialized_message_writer.h:472-488`). -/
def writeFixed32 (f v : Nat) : Smw σ → Bool × Smw σ :=
  emit W (e.space 32 (makeTag f 5) + 4) (writeVarint (makeTag f 5) ++ leBytes 4 v)

/-- `WriteFixed64()` (`serialized_message_writer.h:490-506`). -/
def writeFixed64 (f v : Nat) : Smw σ → Bool × Smw σ :=
  emit W (e.space 32 (makeTag f 1) + 8) (writeVarint (makeTag f 1) ++ leBytes 8 v)

/-- `WriteInt32()` etc. (`serialized_message_writer.h:395-403`, `serialized_message_writer.h:445-453`, `serialized_message_writer.h:508-535`). -/
def writeScalar (f : Nat) : Value → Smw σ → Bool × Smw σ
  | .int32 v => writeUInt64 W e f (v.signExtend 64).toNat
  | .int64 v => writeUInt64 W e f v.toNat
  | .uint32 v => writeUInt32 W e f v.toNat
  | .uint64 v => writeUInt64 W e f v.toNat
  | .sint32 v => writeUInt32 W e f (encodeVarintSigned v).toNat
  | .sint64 v => writeUInt64 W e f (encodeVarintSigned v).toNat
  | .bool v => writeBool W e f v
  | .fixed32 v => writeFixed32 W e f v.toNat
  | .fixed64 v => writeFixed64 W e f v.toNat
  | .sfixed32 v => writeFixed32 W e f v.toNat
  | .sfixed64 v => writeFixed64 W e f v.toNat
  | .float v => writeFixed32 W e f v.toNat
  | .double v => writeFixed64 W e f v.toNat
  | .enum v => writeUInt64 W e f (BitVec.ofInt 64 v).toNat

/-- `WriteVarint32(Writer&)` or `WriteVarint64(Writer&)` (`varint_writing.h:106-126`). -/
def writeVarintTo (w v : Nat) : Smw σ → Bool × Smw σ := emit W (e.space w v) (writeVarint v)

/-- `WriteLittleEndian<uint32_t>(Writer&)` or `WriteLittleEndian<uint64_t>(Writer&)` (`riegeli/endian/endian_writing.h:348-354`). -/
def writeLittleEndian (n v : Nat) : Smw σ → Bool × Smw σ := emit W n (leBytes n v)

/-- `WritePackedInt32()` etc. (`serialized_message_writer.h:537-614`). -/
def writePacked : Value → Smw σ → Bool × Smw σ
  | .int32 v => writeVarintTo W e 64 (v.signExtend 64).toNat
  | .int64 v => writeVarintTo W e 64 v.toNat
  | .uint32 v => writeVarintTo W e 32 v.toNat
  | .uint64 v => writeVarintTo W e 64 v.toNat
  | .sint32 v => writeVarintTo W e 32 (encodeVarintSigned v).toNat
  | .sint64 v => writeVarintTo W e 64 (encodeVarintSigned v).toNat
  | .bool v => writeChar W (if v then 1 else 0)
  | .fixed32 v => writeLittleEndian W 4 v.toNat
  | .fixed64 v => writeLittleEndian W 8 v.toNat
  | .sfixed32 v => writeLittleEndian W 4 v.toNat
  | .sfixed64 v => writeLittleEndian W 8 v.toNat
  | .float v => writeLittleEndian W 4 v.toNat
  | .double v => writeLittleEndian W 8 v.toNat
  | .enum v => writeVarintTo W e 64 (BitVec.ofInt 64 v).toNat

/-- `WriteLengthUnchecked()` (`serialized_message_writer.h:687-709`). -/
def writeLengthUnchecked (f length : Nat) (s : Smw σ) : Bool × Smw σ :=
  if 2147483647 < length then (false, s)
  else emit W (e.space 32 (makeTag f 2) + e.space 32 length) (writeVarint (makeTag f 2) ++ writeVarint length) s

/-- `WriteString()` (`serialized_message_writer.h:616-661`, `serialized_message_writer.cc:85-100`). -/
def writeString (f : Nat) (bs : Bytes) : Smw σ → Bool × Smw σ :=
  match e.kind bs with
  | 0 => andThen (writeLengthUnchecked W e f bs.length) (write W bs)
  | 1 => andThen (writeLengthUnchecked W e f bs.length) (writeCord W e bs)
  | _ =>
    if bs.length ≤ kMaxBytesToCopy then andThen (writeLengthUnchecked W e f bs.length) (emit W bs.length bs)
    else andThen (writeLengthUnchecked W e f bs.length) (writeCord W e bs)

/-- `OpenLengthDelimited()` (`serialized_message_writer.cc:102-104`). -/
def openLengthDelimited (s : Smw σ) : Bool × Smw σ := (true, ⟨s.dest, [] :: s.subs⟩)

/-- `CloseLengthDelimited()` (`serialized_message_writer.cc:113-137`). -/
def closeLengthDelimited (f : Nat) (s : Smw σ) : Bool × Smw σ :=
  match s.subs with
  | [] => (false, s)
  | m :: ms => andThen (writeLengthUnchecked W e f m.length) (writeCord W e m) ⟨s.dest, ms⟩

/-- `CloseOptionalLengthDelimited()` (`serialized_message_writer.cc:139-167`). -/
def closeOptionalLengthDelimited (f : Nat) (s : Smw σ) : Bool × Smw σ :=
  match s.subs with
  | [] => (false, s)
  | m :: ms => if m = [] then (true, ⟨s.dest, ms⟩) else andThen (writeLengthUnchecked W e f m.length) (writeCord W e m) ⟨s.dest, ms⟩

/-- `OpenGroup()` (`serialized_message_writer.h:711-717`). -/
def openGroup (f : Nat) : Smw σ → Bool × Smw σ := writeVarintTo W e 32 (makeTag f 3)

/-- `CloseGroup()` (`serialized_message_writer.h:719-725`). -/
def closeGroup (f : Nat) : Smw σ → Bool × Smw σ := writeVarintTo W e 32 (makeTag f 4)

mutual
/-- The calls which write a part of a message, stopping at the first failure. -/
def field : Field → Smw σ → Bool × Smw σ
  | .scalar f v => writeScalar W e f v
  | .str f bs => writeString W e f bs
  | .sub .opened f body => andThen openLengthDelimited (andThen (fields body) (closeLengthDelimited W e f))
  | .sub .optional f body => andThen openLengthDelimited (andThen (fields body) (closeOptionalLengthDelimited W e f))
  | .sub .pledged f body => andThen (writeLengthUnchecked W e f (wires body).length) (fields body)
  | .group f body => andThen (openGroup W e f) (andThen (fields body) (closeGroup W e f))
  | .element v => writePacked W e v
  | .raw bs => write W bs
@[inherit_doc field] def fields : List Field → Smw σ → Bool × Smw σ
  | [] => fun s => (true, s)
  | x :: xs => andThen (field x) (fields xs)
end

end Smw

/-! ## Lengths -/

/-- `LengthOfInt32()` etc. (`serialized_message_writer.h:727-796`). -/
def lengthOfScalar (f : Nat) : Value → Nat
  | .int32 v => lengthVarint (makeTag f 0) + lengthVarint (v.signExtend 64).toNat
  | .int64 v => lengthVarint (makeTag f 0) + lengthVarint v.toNat
  | .uint32 v => lengthVarint (makeTag f 0) + lengthVarint v.toNat
  | .uint64 v => lengthVarint (makeTag f 0) + lengthVarint v.toNat
  | .sint32 v => lengthVarint (makeTag f 0) + lengthVarint (encodeVarintSigned v).toNat
  | .sint64 v => lengthVarint (makeTag f 0) + lengthVarint (encodeVarintSigned v).toNat
  | .bool _ => lengthVarint (makeTag f 0) + 1
  | .fixed32 _ => lengthVarint (makeTag f 5) + 4
  | .fixed64 _ => lengthVarint (makeTag f 1) + 8
  | .sfixed32 _ => lengthVarint (makeTag f 5) + 4
  | .sfixed64 _ => lengthVarint (makeTag f 1) + 8
  | .float _ => lengthVarint (makeTag f 5) + 4
  | .double _ => lengthVarint (makeTag f 1) + 8
  | .enum v => lengthVarint (makeTag f 0) + lengthVarint (BitVec.ofInt 64 v).toNat

/-- `LengthOfPackedInt32()` etc. (`serialized_message_writer.h:798-854`). -/
def lengthOfPacked : Value → Nat
  | .int32 v => lengthVarint (v.signExtend 64).toNat
  | .int64 v => lengthVarint v.toNat
  | .uint32 v => lengthVarint v.toNat
  | .uint64 v => lengthVarint v.toNat
  | .sint32 v => lengthVarint (encodeVarintSigned v).toNat
  | .sint64 v => lengthVarint (encodeVarintSigned v).toNat
  | .bool _ => 1
  | .fixed32 _ => 4
  | .fixed64 _ => 8
  | .sfixed32 _ => 4
  | .sfixed64 _ => 8
  | .float _ => 4
  | .double _ => 8
  | .enum v => lengthVarint (BitVec.ofInt 64 v).toNat

/-- `LengthOfLengthDelimited()` (`serialized_message_writer.h:886-890`). -/
def lengthOfLengthDelimited (f length : Nat) : Nat := lengthVarint (makeTag f 2) + lengthVarint length + length

/-- `LengthOfOptionalLengthDelimited()` (`serialized_message_writer.h:892-895`). -/
def lengthOfOptionalLengthDelimited (f length : Nat) : Nat := if length = 0 then 0 else lengthOfLengthDelimited f length

/-- `LengthOfOpenPlusCloseGroup()` (`serialized_message_writer.h:897-900`). -/
def lengthOfOpenPlusCloseGroup (f : Nat) : Nat := 2 * lengthVarint (makeTag f 3)

mutual
/-- The length of a part of a message computed with these functions and `LengthOfString()` (`serialized_message_writer.h:856-884`), as a caller does this before
`WriteLengthUnchecked()`. -/
def lengthOf : Field → Nat
  | .scalar f v => lengthOfScalar f v
  | .str f bs => lengthOfLengthDelimited f bs.length
  | .sub .optional f body => lengthOfOptionalLengthDelimited f (lengthOfAll body)
  | .sub .opened f body => lengthOfLengthDelimited f (lengthOfAll body)
  | .sub .pledged f body => lengthOfLengthDelimited f (lengthOfAll body)
  | .group f body => lengthOfOpenPlusCloseGroup f + lengthOfAll body
  | .element v => lengthOfPacked v
  | .raw bs => bs.length
@[inherit_doc lengthOf] def lengthOfAll : List Field → Nat
  | [] => 0
  | x :: xs => lengthOf x + lengthOfAll xs
end

/-! ## Writing packed values to an array -/

/-- `WritePackedInt32()` etc. to an array: the bytes written (`serialized_message_writer.h:902-976`). -/
def packedBytes : Value → Bytes
  | .int32 v => writeVarint (v.signExtend 64).toNat
  | .int64 v => writeVarint v.toNat
  | .uint32 v => writeVarint v.toNat
  | .uint64 v => writeVarint v.toNat
  | .sint32 v => writeVarint (encodeVarintSigned v).toNat
  | .sint64 v => writeVarint (encodeVarintSigned v).toNat
  | .bool v => [if v then 1 else 0]
  | .fixed32 v => leBytes 4 v.toNat
  | .fixed64 v => leBytes 8 v.toNat
  | .sfixed32 v => leBytes 4 v.toNat
  | .sfixed64 v => leBytes 8 v.toNat
  | .float v => leBytes 4 v.toNat
  | .double v => leBytes 8 v.toNat
  | .enum v => writeVarint (BitVec.ofInt 64 v).toNat

/-! ## The backward writer -/

/-- Functions of a `BackwardWriter` (`riegeli/bytes/backward_writer.h`). `put bs` is `move_cursor(bs.length)` and then writing `bs` at the cursor. -/
structure BackOps (σ : Type) where
  pos : σ → Nat
  avail : σ → Nat
  ok : σ → Bool
  put : Bytes → σ → σ
  push : Nat → σ → Bool × σ
  write : Bytes → σ → Bool × σ

/-- The contract of `BackwardWriter`: `view` are the contents written so far, which grow at the beginning. -/
structure BackOps.Lawful {σ : Type} (B : BackOps σ) (view : σ → Bytes) (Inv : σ → Prop) : Prop where
  put : ∀ bs s, Inv s → bs.length ≤ B.avail s → Inv (B.put bs s) ∧ view (B.put bs s) = bs ++ view s ∧
    B.pos (B.put bs s) = B.pos s + bs.length ∧ B.ok (B.put bs s) = B.ok s
  push : ∀ n s, Inv s → Inv (B.push n s).2 ∧
    ((B.push n s).1 = true → n ≤ B.avail (B.push n s).2 ∧ view (B.push n s).2 = view s ∧ B.pos (B.push n s).2 = B.pos s ∧ B.ok (B.push n s).2 = B.ok s) ∧
    ((B.push n s).1 = false → B.ok (B.push n s).2 = false)
  write : ∀ bs s, Inv s → Inv (B.write bs s).2 ∧
    ((B.write bs s).1 = true → view (B.write bs s).2 = bs ++ view s ∧ B.pos (B.write bs s).2 = B.pos s + bs.length ∧ B.ok (B.write bs s).2 = B.ok s) ∧
    ((B.write bs s).1 = false → B.ok (B.write bs s).2 = false)

/-- `SerializedMessageBackwardWriter` (`serialized_message_backward_writer.h:253-254`): `subs` are the positions of the ends of open submessages, innermost first. -/
structure Smb (σ : Type) where
  dest : σ
  subs : List Nat

namespace Smb
variable {σ : Type} (B : BackOps σ)

/-- `writer().Push(n)`, `writer().move_cursor(n)`, and writing `bs` at the cursor. If `bs` does not have `n` bytes, then the rest is undefined; here it is zeros. -/
def emit (n : Nat) (bs : Bytes) (s : Smb σ) : Bool × Smb σ :=
  let r := B.push n s.dest
  if r.1 = false then (false, ⟨r.2, s.subs⟩) else (true, ⟨B.put (bs ++ List.replicate (n - bs.length) 0) r.2, s.subs⟩)

/-- `writer().Write()`. -/
def write (bs : Bytes) (s : Smb σ) : Bool × Smb σ := ((B.write bs s.dest).1, ⟨(B.write bs s.dest).2, s.subs⟩)

/-- Two calls, the second one only if the first one succeeded. -/
def andThen (f g : Smb σ → Bool × Smb σ) (s : Smb σ) : Bool × Smb σ :=
  let r := f s
  if r.1 = false then (false, r.2) else g r.2

/-- `WriteUInt32()` and `WriteUInt64()` (`serialized_message_backward_writer.h:301-321`). -/
def writeUInt (f v : Nat) : Smb σ → Bool × Smb σ :=
  emit B (lengthVarint (makeTag f 0) + lengthVarint v) (writeVarint (makeTag f 0) ++ writeVarint v)

/-- `WriteBool()` (`serialized_message_backward_writer.h:333-342`). -/
def writeBool (f : Nat) (v : Bool) : Smb σ → Bool × Smb σ :=
  emit B (lengthVarint (makeTag f 0) + 1) (writeVarint (makeTag f 0) ++ [if v then 1 else 0])

/-- `WriteFixed32()` (`serialized_message_backward_writer.h:344-353`). -/
def writeFixed32 (f v : Nat) : Smb σ → Bool × Smb σ :=
  emit B (lengthVarint (makeTag f 5) + 4) (writeVarint (makeTag f 5) ++ leBytes 4 v)

/-- `WriteFixed64()` (`serialized_message_backward_writer.h:355-364`). -/
def writeFixed64 (f v : Nat) : Smb σ → Bool × Smb σ :=
  emit B (lengthVarint (makeTag f 1) + 8) (writeVarint (makeTag f 1) ++ leBytes 8 v)

/-- `WriteInt32()` etc. (`serialized_message_backward_writer.h:291-299`, `serialized_message_backward_writer.h:323-331`,
`serialized_message_backward_writer.h:366-393`). -/
def writeScalar (f : Nat) : Value → Smb σ → Bool × Smb σ
  | .int32 v => writeUInt B f (v.signExtend 64).toNat
  | .int64 v => writeUInt B f v.toNat
  | .uint32 v => writeUInt B f v.toNat
  | .uint64 v => writeUInt B f v.toNat
  | .sint32 v => writeUInt B f (encodeVarintSigned v).toNat
  | .sint64 v => writeUInt B f (encodeVarintSigned v).toNat
  | .bool v => writeBool B f v
  | .fixed32 v => writeFixed32 B f v.toNat
  | .fixed64 v => writeFixed64 B f v.toNat
  | .sfixed32 v => writeFixed32 B f v.toNat
  | .sfixed64 v => writeFixed64 B f v.toNat
  | .float v => writeFixed32 B f v.toNat
  | .double v => writeFixed64 B f v.toNat
  | .enum v => writeUInt B f (BitVec.ofInt 64 v).toNat

/-- `WriteVarint32(BackwardWriter&)` and `WriteVarint64(BackwardWriter&)` (`varint_writing.h:128-142`). -/
def writeVarintTo (v : Nat) : Smb σ → Bool × Smb σ := emit B (lengthVarint v) (writeVarint v)

/-- `WriteLittleEndian<uint32_t>(BackwardWriter&)` or `WriteLittleEndian<uint64_t>(BackwardWriter&)` (`riegeli/endian/endian_writing.h:440-446`). -/
def writeLittleEndian (n v : Nat) : Smb σ → Bool × Smb σ := emit B n (leBytes n v)

/-- `WritePackedInt32()` etc. (`serialized_message_backward_writer.h:395-482`). -/
def writePacked : Value → Smb σ → Bool × Smb σ
  | .int32 v => writeVarintTo B (v.signExtend 64).toNat
  | .int64 v => writeVarintTo B v.toNat
  | .uint32 v => writeVarintTo B v.toNat
  | .uint64 v => writeVarintTo B v.toNat
  | .sint32 v => writeVarintTo B (encodeVarintSigned v).toNat
  | .sint64 v => writeVarintTo B (encodeVarintSigned v).toNat
  | .bool v => write B [if v then 1 else 0]
  | .fixed32 v => writeLittleEndian B 4 v.toNat
  | .fixed64 v => writeLittleEndian B 8 v.toNat
  | .sfixed32 v => writeLittleEndian B 4 v.toNat
  | .sfixed64 v => writeLittleEndian B 8 v.toNat
  | .float v => writeLittleEndian B 4 v.toNat
  | .double v => writeLittleEndian B 8 v.toNat
  | .enum v => writeVarintTo B (BitVec.ofInt 64 v).toNat

/-- `WriteLengthUnchecked()` (`serialized_message_backward_writer.h:538-554`). -/
def writeLengthUnchecked (f length : Nat) (s : Smb σ) : Bool × Smb σ :=
  if 2147483647 < length then (false, s)
  else emit B (lengthVarint (makeTag f 2) + lengthVarint length) (writeVarint (makeTag f 2) ++ writeVarint length) s

/-- `WriteString()` (`serialized_message_backward_writer.h:484-510`, `serialized_message_backward_writer.cc:68-79`). -/
def writeString (e : Env) (f : Nat) (bs : Bytes) (s : Smb σ) : Bool × Smb σ :=
  if 2 ≤ e.kind bs ∧ bs.length ≤ kMaxBytesToCopy then andThen (emit B bs.length bs) (writeLengthUnchecked B f bs.length) s
  else andThen (write B bs) (fun s1 => writeLengthUnchecked B f (B.pos s1.dest - B.pos s.dest) s1) s

/-- `OpenLengthDelimited()` (`serialized_message_backward_writer.cc:81-83`). -/
def openLengthDelimited (s : Smb σ) : Bool × Smb σ := (true, ⟨s.dest, B.pos s.dest :: s.subs⟩)

/-- `CloseLengthDelimited()` (`serialized_message_backward_writer.cc:85-98`). -/
def closeLengthDelimited (f : Nat) (s : Smb σ) : Bool × Smb σ :=
  match s.subs with
  | [] => (false, s)
  | p :: ps => writeLengthUnchecked B f (B.pos s.dest - p) ⟨s.dest, ps⟩

/-- `CloseOptionalLengthDelimited()` (`serialized_message_backward_writer.cc:100-114`). -/
def closeOptionalLengthDelimited (f : Nat) (s : Smb σ) : Bool × Smb σ :=
  match s.subs with
  | [] => (false, s)
  | p :: ps => if 0 < B.pos s.dest - p then writeLengthUnchecked B f (B.pos s.dest - p) ⟨s.dest, ps⟩ else (true, ⟨s.dest, ps⟩)

/-- `OpenGroup()` (`serialized_message_backward_writer.h:556-563`). -/
def openGroup (f : Nat) : Smb σ → Bool × Smb σ := writeVarintTo B (makeTag f 4)

/-- `CloseGroup()` (`serialized_message_backward_writer.h:565-572`). -/
def closeGroup (f : Nat) : Smb σ → Bool × Smb σ := writeVarintTo B (makeTag f 3)

mutual
/-- The calls which write a part of a message, from its end, stopping at the first failure. -/
def field (e : Env) : Field → Smb σ → Bool × Smb σ
  | .scalar f v => writeScalar B f v
  | .str f bs => writeString B e f bs
  | .sub .opened f body => andThen (openLengthDelimited B) (andThen (fields e body) (closeLengthDelimited B f))
  | .sub .optional f body => andThen (openLengthDelimited B) (andThen (fields e body) (closeOptionalLengthDelimited B f))
  | .sub .pledged f body => andThen (fields e body) (writeLengthUnchecked B f (wires body).length)
  | .group f body => andThen (openGroup B f) (andThen (fields e body) (closeGroup B f))
  | .element v => writePacked B v
  | .raw bs => write B bs
@[inherit_doc field] def fields (e : Env) : List Field → Smb σ → Bool × Smb σ
  | [] => fun s => (true, s)
  | x :: xs => andThen (fields e xs) (field e x)
end

end Smb
end Riegeli.Msg

import Verif.MessageReader
/-!
# Field handlers of `SerializedMessageReader`

Model of the classes in `riegeli/messages/field_handlers.h`: the field handlers which a user composes, and what they are for each kind of source.
-/
namespace Riegeli.Msg

/-- A field handler (`field_handlers.h:58-73`), with the field number and the action. A static field handler has a compile-time number or a number given with
`DynamicFieldHandler`, which makes no difference here. `OnPackedType` is not modelled. -/
inductive On (γ : Type) where
  /-- `OnOptionalInt32()` etc. -/
  | optionalVarint (f : Nat) (k : Kind) (a : Value → γ → Bool × γ)
  /-- `OnRepeatedInt32()` etc. -/
  | repeatedVarint (f : Nat) (k : Kind) (a : Value → γ → Bool × γ)
  /-- `OnOptionalFixed32()`, `OnOptionalSFixed32()`, `OnOptionalFloat()` -/
  | optionalFixed32 (f : Nat) (a : NumAct γ)
  /-- `OnRepeatedFixed32()`, `OnRepeatedSFixed32()`, `OnRepeatedFloat()` -/
  | repeatedFixed32 (f : Nat) (a : NumAct γ)
  /-- `OnOptionalFixed64()`, `OnOptionalSFixed64()`, `OnOptionalDouble()` -/
  | optionalFixed64 (f : Nat) (a : NumAct γ)
  /-- `OnRepeatedFixed64()`, `OnRepeatedSFixed64()`, `OnRepeatedDouble()` -/
  | repeatedFixed64 (f : Nat) (a : NumAct γ)
  /-- `OnLengthDelimited()` with an action which takes a string. -/
  | string (f : Nat) (a : StrAct γ)
  /-- `OnLengthDelimited()` with an action which reads a submessage with a `SerializedMessageReader` having the given field handlers. -/
  | message (f : Nat) (hs : List (On γ))
  /-- `BeforeGroup()` -/
  | beforeGroup (f : Nat) (a : γ → Bool × γ)
  /-- `AfterGroup()` -/
  | afterGroup (f : Nat) (a : γ → Bool × γ)
  /-- A dynamic field handler (`serialized_message_reader.h:149-231`) for all wire types, which takes length-delimited fields as strings. -/
  | dynamic (m : Meaning γ)

section
variable {γ : Type}

/-- The action gets the decoded value (`field_handlers.h:518-521`). -/
def decoding (k : Kind) (a : Value → γ → Bool × γ) : NumAct γ := fun repr => a (decodeVarint k repr)

mutual
/-- The field handler, for a `Reader` (`field_handlers.h:503-935`). -/
def On.reader : On γ → Handler γ (RdAct γ)
  | .optionalVarint f k a => { varint := some (only f (decoding k a)) }
  | .repeatedVarint f k a => { varint := some (only f (decoding k a)), len := some (only f (packedVarintReader (decoding k a))) }
  | .optionalFixed32 f a => { fixed32 := some (only f a) }
  | .repeatedFixed32 f a => { fixed32 := some (only f a), len := some (only f (packedFixedReader 4 a)) }
  | .optionalFixed64 f a => { fixed64 := some (only f a) }
  | .repeatedFixed64 f a => { fixed64 := some (only f a), len := some (only f (packedFixedReader 8 a)) }
  | .string f a => { len := some (only f (stringReader a)) }
  | .message f hs => { len := some (only f (messageReader (On.readers hs))) }
  | .beforeGroup f a => { start := some (only f a) }
  | .afterGroup f a => { stop := some (only f a) }
  | .dynamic m =>
    { varint := some m.varint, fixed32 := some m.fixed32, fixed64 := some m.fixed64, len := some (fun f => (m.len f).map stringReader), start := some m.start,
      stop := some m.stop }
@[inherit_doc On.reader] def On.readers : List (On γ) → List (Handler γ (RdAct γ))
  | [] => []
  | h :: hs => On.reader h :: On.readers hs
end

mutual
/-- The field handler, for a `Cord` (`field_handlers.h:503-935`). -/
def On.cord : On γ → Handler γ (CordAct γ)
  | .optionalVarint f k a => { varint := some (only f (decoding k a)) }
  | .repeatedVarint f k a => { varint := some (only f (decoding k a)), len := some (only f (packedVarintCord (decoding k a))) }
  | .optionalFixed32 f a => { fixed32 := some (only f a) }
  | .repeatedFixed32 f a => { fixed32 := some (only f a), len := some (only f (packedFixedCord 4 a)) }
  | .optionalFixed64 f a => { fixed64 := some (only f a) }
  | .repeatedFixed64 f a => { fixed64 := some (only f a), len := some (only f (packedFixedCord 8 a)) }
  | .string f a => { len := some (only f (stringCord a)) }
  | .message f hs => { len := some (only f (messageCord (On.cords hs))) }
  | .beforeGroup f a => { start := some (only f a) }
  | .afterGroup f a => { stop := some (only f a) }
  | .dynamic m =>
    { varint := some m.varint, fixed32 := some m.fixed32, fixed64 := some m.fixed64, len := some (fun f => (m.len f).map stringCord), start := some m.start,
      stop := some m.stop }
@[inherit_doc On.cord] def On.cords : List (On γ) → List (Handler γ (CordAct γ))
  | [] => []
  | h :: hs => On.cord h :: On.cords hs
end

mutual
/-- The field handler, for a string (`field_handlers.h:503-935`). -/
def On.str : On γ → Handler γ (StrImpl γ)
  | .optionalVarint f k a => { varint := some (only f (decoding k a)) }
  | .repeatedVarint f k a => { varint := some (only f (decoding k a)), len := some (only f (packedVarintString (decoding k a))) }
  | .optionalFixed32 f a => { fixed32 := some (only f a) }
  | .repeatedFixed32 f a => { fixed32 := some (only f a), len := some (only f (packedFixedStringChecked 4 a)) }
  | .optionalFixed64 f a => { fixed64 := some (only f a) }
  | .repeatedFixed64 f a => { fixed64 := some (only f a), len := some (only f (packedFixedStringChecked 8 a)) }
  | .string f a => { len := some (only f (fun bs c => some (a bs c))) }
  | .message f hs => { len := some (only f (fun bs c => stringMessage (On.strs hs) c bs)) }
  | .beforeGroup f a => { start := some (only f a) }
  | .afterGroup f a => { stop := some (only f a) }
  | .dynamic m =>
    { varint := some m.varint, fixed32 := some m.fixed32, fixed64 := some m.fixed64, len := some (fun f => (m.len f).map (fun a bs c => some (a bs c))),
      start := some m.start, stop := some m.stop }
@[inherit_doc On.str] def On.strs : List (On γ) → List (Handler γ (StrImpl γ))
  | [] => []
  | h :: hs => On.str h :: On.strs hs
end

end
end Riegeli.Msg

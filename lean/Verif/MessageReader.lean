import Verif.VarintIo
import Verif.MessageReadSpec
/-!
# `SerializedMessageReader`

Model of `riegeli/messages/serialized_message_reader.h`, the dispatch in `riegeli/messages/serialized_message_reader_internal.h`, and `riegeli/messages/field_handlers.h`.

The result of a function is whether the status is OK, together with the context. `none` is an access outside the bounds, or nontermination; it is proved that this does not
happen. Error messages are not modelled. The contexts are one value of type `γ`.

A `Reader` source is `Rd` (`Verif/ByteReader.lean`): any contents, any fragmentation into buffers. A `LimitingReader` is represented by what is visible through it: the bytes
until its limit, or until its source ends or fails, and the distance from there to the limit. That a `LimitingReader` makes exactly this visible is C31.
-/
namespace Riegeli.Msg
open Riegeli.Vio

/-- A `LimitingReader` (or just a `Reader`): `rd` is what can be read, `extra` is the distance between the end of this and the limit, `none` if there is no limit. -/
structure Src where
  rd : Rd
  extra : Option Nat

/-- `length > src.max_length()` (`limiting_reader.h:616-621`). -/
def Src.tooLong (n : Nat) (s : Src) : Bool :=
  match s.extra with
  | none => false
  | some e => decide (s.rd.rest.length + e < n)

/-- An action for a varint or for a number of a fixed width. -/
abbrev NumAct (γ : Type) := Nat → γ → Bool × γ
/-- An action for a length-delimited field, given as a string. -/
abbrev StrAct (γ : Type) := Bytes → γ → Bool × γ
/-- `HandleLengthDelimitedFromReader()`, with the length. -/
abbrev RdAct (γ : Type) := Nat → γ → Src → Option ((Bool × γ) × Src)
/-- `HandleLengthDelimitedFromCord()`, with the length. -/
abbrev CordAct (γ : Type) := Nat → γ → List Bytes → Option ((Bool × γ) × List Bytes)
/-- `HandleLengthDelimitedFromString()`. -/
abbrev StrImpl (γ : Type) := Bytes → γ → Option (Bool × γ)

/-- A field handler (`serialized_message_reader.h:149-231`). A static handler accepts one field number, a dynamic handler accepts what `AcceptX()` returns. The outer option
is whether the type supports the wire type (this selects the code with `if constexpr`). `ι` is the type of actions for length-delimited fields, which depends on the source. -/
structure Handler (γ ι : Type) where
  varint : Option (Nat → Option (NumAct γ)) := none
  fixed32 : Option (Nat → Option (NumAct γ)) := none
  fixed64 : Option (Nat → Option (NumAct γ)) := none
  len : Option (Nat → Option ι) := none
  start : Option (Nat → Option (γ → Bool × γ)) := none
  stop : Option (Nat → Option (γ → Bool × γ)) := none

section
variable {γ ι α : Type}

/-- `std::disjunction_v<IsFieldHandlerForX<FieldHandlers>...>`. -/
def supports (sel : Handler γ ι → Option α) (hs : List (Handler γ ι)) : Bool := hs.any (fun h => (sel h).isSome)

/-- `HandleXField()` with `ReadXField()` (`serialized_message_reader.h:383-502`, `serialized_message_reader_internal.h:653-882`): the action of the first handler which accepts the
field. -/
def accepted (sel : Handler γ ι → Option (Nat → Option α)) (f : Nat) : List (Handler γ ι) → Option α
  | [] => none
  | h :: hs =>
    match (sel h).bind (· f) with
    | some a => some a
    | none => accepted sel f hs

/-- Calling the action if there is one. -/
def act (a : Option (γ → Bool × γ)) (c : γ) : Bool × γ :=
  match a with
  | none => (true, c)
  | some a => a c

end

/-! ## `Reader` -/

/-- `ReadLittleEndian<T>(Reader&)` (`endian_reading.h:350-356`). -/
def readFixed (n : Nat) (s : Rd) : Option Nat × Rd :=
  let r := s.pull n
  if r.1 = false then (none, r.2) else (some (leNat (r.2.buffer.take n)), r.2.advance n)

/-- `Reader::Read(length, dest)` for a string: like `Pull(length)`. If it fails, the position would differ, which does not matter here. -/
def readBytes (n : Nat) (s : Rd) : Option Bytes × Rd :=
  let r := s.pull n
  if r.1 = false then (none, r.2) else (some (r.2.buffer.take n), r.2.advance n)

/-- `Reader::Skip(length)` (`reader.h:830-843`); `SeekSlow()` gives any new buffer. -/
def skip (n : Nat) (s : Rd) : Bool × Rd :=
  if n ≤ s.avail then (true, s.advance n)
  else if s.ok = false then (false, s)
  else if n ≤ s.rest.length then
    (true, { s with rest := s.rest.drop n, avail := min (s.frag 0) (s.rest.length - n), frag := fun i => s.frag (i + 1) })
  else (false, { s with rest := [], avail := 0, ok := !s.fails })

/-- The constructor of `ScopedLimiter` with an exact length not exceeding the current limit (`limiting_reader.h:717-743`): the buffer is cut at the new limit; a source ending
before the limit is a failure. -/
def Src.limit (n : Nat) (s : Src) : Src :=
  if n ≤ s.rd.rest.length then ⟨{ s.rd with rest := s.rd.rest.take n, avail := min s.rd.avail n, fails := false }, some 0⟩
  else ⟨{ s.rd with fails := true }, some (n - s.rd.rest.length)⟩

/-- The destructor of `ScopedLimiter` (`limiting_reader.h:745-758`), where `s0` was the state before the constructor: the buffer is not changed. -/
def Src.unlimit (n : Nat) (s0 s : Src) : Src :=
  if n ≤ s0.rd.rest.length then ⟨{ s.rd with rest := s.rd.rest ++ s0.rd.rest.drop n, fails := s0.rd.fails }, s0.extra⟩
  else ⟨{ s.rd with fails := s0.rd.fails }, s0.extra⟩

/-- A field whose tag has been read, in `ReadMessageFromReader()` (`serialized_message_reader.h:646-778`). -/
def readerField {γ : Type} (hs : List (Handler γ (RdAct γ))) (f wireType : Nat) (c : γ) (s : Src) : Option ((Bool × γ) × Src) :=
  match wireType with
  | 0 =>
    if supports (·.varint) hs then
      match fromReader 64 false (readUpd 64) 0 s.rd with
      | (.oob, _) => none
      | (.fail, rd) => some ((false, c), { s with rd := rd })
      | (.ok v, rd) => some (act ((accepted (·.varint) f hs).map (· v)) c, { s with rd := rd })
    else
      match fromReader 64 false skipUpd () s.rd with
      | (.oob, _) => none
      | (.fail, rd) => some ((false, c), { s with rd := rd })
      | (.ok _, rd) => some ((true, c), { s with rd := rd })
  | 5 =>
    match readFixed 4 s.rd with
    | (none, rd) => some ((false, c), { s with rd := rd })
    | (some v, rd) => some (act ((accepted (·.fixed32) f hs).map (· v)) c, { s with rd := rd })
  | 1 =>
    match readFixed 8 s.rd with
    | (none, rd) => some ((false, c), { s with rd := rd })
    | (some v, rd) => some (act ((accepted (·.fixed64) f hs).map (· v)) c, { s with rd := rd })
  | 2 =>
    match fromReader 32 false (readUpd 32) 0 s.rd with
    | (.oob, _) => none
    | (.fail, rd) => some ((false, c), { s with rd := rd })
    | (.ok n, rd) =>
      if 2 ^ 31 - 1 < n then some ((false, c), { s with rd := rd })
      else if supports (·.len) hs = true ∧ ({ s with rd := rd } : Src).tooLong n = true then some ((false, c), { s with rd := rd })
      else
        match accepted (·.len) f hs with
        | some a => a n c { s with rd := rd }
        | none => some (((skip n rd).1, c), { s with rd := (skip n rd).2 })
  | 3 => some (act (accepted (·.start) f hs) c, s)
  | 4 => some (act (accepted (·.stop) f hs) c, s)
  | _ => some ((false, c), s)

/-- `ReadMessageFromReader()` (`serialized_message_reader.h:636-785`); `GetTagFieldNumber()` and `GetTagWireType()` are in `message_wire_format.h:94-100`. -/
def readerMessage {γ : Type} (hs : List (Handler γ (RdAct γ))) (c : γ) (s : Src) : Option ((Bool × γ) × Src) :=
  match fromReader 32 false (readUpd 32) 0 s.rd with
  | (.oob, _) => none
  | (.fail, rd) => if 0 < rd.avail then some ((false, c), { s with rd := rd }) else some ((true, c), { s with rd := rd })
  | (.ok tag, rd) =>
    match readerField hs (tag >>> 3) (tag &&& 7) c { s with rd := rd } with
    | none => none
    | some ((false, c'), s') => some ((false, c'), s')
    | some ((true, c'), s') => readerMessage hs c' s'
partial_fixpoint

/-- The part of `ReadMessage(Src)` with a `Reader` before closing it (`serialized_message_reader.h:1098-1133`). If there are handlers for length-delimited fields, then the source is
wrapped in a `LimitingReader` limited to `src_dep->Size()` if `SupportsSize()`, unless it is a `LimitingReader` itself. `size` is the distance to the size; `own` is the
limit if the source is a `LimitingReader` itself. `Size()` is assumed not to fail. -/
def readMessageOpen {γ : Type} (hs : List (Handler γ (RdAct γ))) (own : Option (Option Nat)) (size : Option Nat) (c : γ) (s : Rd) : Option ((Bool × γ) × Src) :=
  if supports (·.len) hs then
    match own with
    | some e => readerMessage hs c ⟨s, e⟩
    | none =>
      match readerMessage hs c ⟨s, size.map (· - s.rest.length)⟩ with
      | none => none
      | some (r, s') => some ((r.1 && s'.rd.ok, r.2), s')
  else readerMessage hs c ⟨s, none⟩

/-- `ReadMessage(Src)` with a `Reader` (`serialized_message_reader.h:1098-1139`). `owning` is whether `src` is owned, so that it must be read to the end and it will be
closed. -/
def readMessage {γ : Type} (hs : List (Handler γ (RdAct γ))) (owning : Bool) (own : Option (Option Nat)) (size : Option Nat) (c : γ) (s : Rd) : Option ((Bool × γ) × Rd) :=
  match readMessageOpen hs own size c s with
  | none => none
  | some (r, s') =>
    if owning then
      let p := s'.rd.pull 1
      let s2 := if r.1 = true then (if p.1 = true then p.2.fail else p.2) else s'.rd
      some ((r.1 && s2.ok, r.2), s2)
    else some (r, s'.rd)

/-! ## `Cord` -/

/-- The loop of `CordIteratorSpan::ReadSlow()` (`cord_iterator_span.cc:34-49`): copying to the end of the chunk while it is too short, and then from the last chunk. -/
def cordReadSlow (n : Nat) : List Bytes → Option (Bytes × List Bytes)
  | [] => if n = 0 then some ([], []) else none
  | chunk :: cs =>
    if chunk.length < n then (cordReadSlow (n - chunk.length) cs).map (fun r => (chunk ++ r.1, r.2))
    else some (chunk.take n, cordAdvance n (chunk :: cs))

/-- `CordIteratorSpan::Read()` (`cord_iterator_span.h:134-150`); `ToStringView()` and `ToString()` (`cord_iterator_span.cc:51-77`) give the same bytes. -/
def cordRead (n : Nat) (src : List Bytes) : Option (Bytes × List Bytes) :=
  if n = 0 then some ([], src)
  else
    match src with
    | [] => none
    | chunk :: cs => if chunk.length < n then cordReadSlow n (chunk :: cs) else some (chunk.take n, cordAdvance n (chunk :: cs))

/-- A field whose tag has been read, in `ReadMessageFromCord()` (`serialized_message_reader.h:796-948`). -/
def cordField {γ : Type} (hs : List (Handler γ (CordAct γ))) (limit f wireType : Nat) (c : γ) (src : List Bytes) : Option ((Bool × γ) × List Bytes) :=
  match wireType with
  | 0 =>
    if supports (·.varint) hs then
      match fromCord 64 false (readUpd 64) (src.flatten.length - limit) 0 src with
      | (.oob, _) => none
      | (.fail, src) => some ((false, c), src)
      | (.ok v, src) => some (act ((accepted (·.varint) f hs).map (· v)) c, src)
    else
      match fromCord 64 false skipUpd (src.flatten.length - limit) () src with
      | (.oob, _) => none
      | (.fail, src) => some ((false, c), src)
      | (.ok _, src) => some ((true, c), src)
  | 5 =>
    if src.flatten.length - limit < 4 then some ((false, c), src)
    else if supports (·.fixed32) hs then
      match cordRead 4 src with
      | none => none
      | some (bs, src) => some (act ((accepted (·.fixed32) f hs).map (· (leNat bs))) c, src)
    else some ((true, c), cordAdvance 4 src)
  | 1 =>
    if src.flatten.length - limit < 8 then some ((false, c), src)
    else if supports (·.fixed64) hs then
      match cordRead 8 src with
      | none => none
      | some (bs, src) => some (act ((accepted (·.fixed64) f hs).map (· (leNat bs))) c, src)
    else some ((true, c), cordAdvance 8 src)
  | 2 =>
    match fromCord 32 false (readUpd 32) (src.flatten.length - limit) 0 src with
    | (.oob, _) => none
    | (.fail, src) => some ((false, c), src)
    | (.ok n, src) =>
      if 2 ^ 31 - 1 < n then some ((false, c), src)
      else if src.flatten.length - limit < n then some ((false, c), src)
      else
        match accepted (·.len) f hs with
        | some a => a n c src
        | none => some ((true, c), cordAdvance n src)
  | 3 => some (act (accepted (·.start) f hs) c, src)
  | 4 => some (act (accepted (·.stop) f hs) c, src)
  | _ => some ((false, c), src)

/-- The loop of `ReadMessageFromCord()` (`serialized_message_reader.h:795-954`). -/
def cordLoopMessage {γ : Type} (hs : List (Handler γ (CordAct γ))) (limit : Nat) (c : γ) (src : List Bytes) : Option ((Bool × γ) × List Bytes) :=
  match fromCord 32 false (readUpd 32) (src.flatten.length - limit) 0 src with
  | (.oob, _) => none
  | (.fail, src) => if limit < src.flatten.length then some ((false, c), src) else some ((true, c), src)
  | (.ok tag, src) =>
    match cordField hs limit (tag >>> 3) (tag &&& 7) c src with
    | none => none
    | some ((false, c'), src') => some ((false, c'), src')
    | some ((true, c'), src') => cordLoopMessage hs limit c' src'
partial_fixpoint

/-- `ReadMessageFromCord()` (`serialized_message_reader.h:787-956`), called by `ReadMessage(Cord)` and `ReadMessage(CordIteratorSpan)` (`1163-1196`) if all handlers are applicable. -/
def cordMessage {γ : Type} (hs : List (Handler γ (CordAct γ))) (available : Nat) (c : γ) (src : List Bytes) : Option ((Bool × γ) × List Bytes) :=
  cordLoopMessage hs (src.flatten.length - available) c src

/-! ## String -/

/-- A field whose tag has been read, in `ReadMessageFromString()` (`serialized_message_reader.h:972-1088`); `src` is from `cursor` to `limit`. -/
def stringField {γ : Type} (hs : List (Handler γ (StrImpl γ))) (f wireType : Nat) (c : γ) (src : Bytes) : Option ((Bool × γ) × Bytes) :=
  match wireType with
  | 0 =>
    if supports (·.varint) hs then
      match readVarint 64 false src with
      | none => some ((false, c), src)
      | some (v, src) => some (act ((accepted (·.varint) f hs).map (· v)) c, src)
    else
      match copyVarint 64 false src with
      | none => some ((false, c), src)
      | some (_, src) => some ((true, c), src)
  | 5 =>
    if src.length < 4 then some ((false, c), src)
    else some (act ((accepted (·.fixed32) f hs).map (· (leNat (src.take 4)))) c, src.drop 4)
  | 1 =>
    if src.length < 8 then some ((false, c), src)
    else some (act ((accepted (·.fixed64) f hs).map (· (leNat (src.take 8)))) c, src.drop 8)
  | 2 =>
    match readVarint 32 false src with
    | none => some ((false, c), src)
    | some (n, src) =>
      if 2 ^ 31 - 1 < n then some ((false, c), src)
      else if src.length < n then some ((false, c), src)
      else
        match accepted (·.len) f hs with
        | some a => (a (src.take n) c).map (fun r => (r, src.drop n))
        | none => some ((true, c), src.drop n)
  | 3 => some (act (accepted (·.start) f hs) c, src)
  | 4 => some (act (accepted (·.stop) f hs) c, src)
  | _ => some ((false, c), src)

/-- `ReadMessageFromString()` (`serialized_message_reader.h:958-1096`), called by `ReadMessage(BytesRef)` (`1141-1153`) if all handlers are applicable. -/
def stringMessage {γ : Type} (hs : List (Handler γ (StrImpl γ))) (c : γ) (src : Bytes) : Option (Bool × γ) :=
  match readVarint 32 false src with
  | none => if 0 < src.length then some (false, c) else some (true, c)
  | some (tag, src) =>
    match stringField hs (tag >>> 3) (tag &&& 7) c src with
    | none => none
    | some ((false, c'), _) => some (false, c')
    | some ((true, c'), src') => stringMessage hs c' src'
partial_fixpoint

/-! ## Field handlers -/

/-- `VarintKind` and the type of the value. -/
inductive Kind where
  | int32 | int64 | uint32 | uint64 | sint32 | sint64 | bool | enum

/-- `DecodeVarint<Value, kind>()` (`field_handlers.h:485-497`), with an enum having the underlying type `int32_t`. -/
def decodeVarint : Kind → Nat → Value
  | .int32, repr => .int32 (BitVec.ofNat 32 repr)
  | .int64, repr => .int64 (BitVec.ofNat 64 repr)
  | .uint32, repr => .uint32 (BitVec.ofNat 32 repr)
  | .uint64, repr => .uint64 (BitVec.ofNat 64 repr)
  | .sint32, repr => .sint32 ((decodeVarintSigned (BitVec.ofNat 64 repr)).truncate 32)
  | .sint64, repr => .sint64 (decodeVarintSigned (BitVec.ofNat 64 repr))
  | .bool, repr => .bool (decide (repr ≠ 0))
  | .enum, repr => .enum (BitVec.ofNat 32 repr).toInt

/-- A static handler accepts its field number. -/
def only {α : Type} (k : Nat) (a : α) : Nat → Option α := fun f => if f = k then some a else none

section
variable {γ : Type}

/-- The loop of `OnRepeatedVarintType::HandleLengthDelimitedFromString()` (`field_handlers.h:1017-1041`). -/
def packedVarintString (a : NumAct γ) (src : Bytes) (c : γ) : Option (Bool × γ) :=
  match readVarint 64 false src with
  | none => some (decide (src.length = 0), c)
  | some (v, src) =>
    match a v c with
    | (false, c) => some (false, c)
    | (true, c) => packedVarintString a src c
partial_fixpoint

/-- The loop of `OnRepeatedVarintType::HandleLengthDelimitedFromReader()` (`field_handlers.h:958-977`). -/
def packedVarintReaderLoop (a : NumAct γ) (c : γ) (s : Src) : Option ((Bool × γ) × Src) :=
  match fromReader 64 false (readUpd 64) 0 s.rd with
  | (.oob, _) => none
  | (.fail, rd) => some ((decide (rd.rest.length = 0 ∧ s.extra = some 0), c), { s with rd := rd })
  | (.ok v, rd) =>
    match a v c with
    | (false, c) => some ((false, c), { s with rd := rd })
    | (true, c) => packedVarintReaderLoop a c { s with rd := rd }
partial_fixpoint

/-- `OnRepeatedVarintType::HandleLengthDelimitedFromReader()` (`field_handlers.h:937-978`). -/
def packedVarintReader (a : NumAct γ) : RdAct γ := fun n c s =>
  let p := s.rd.pull 1
  if p.1 = true ∧ n ≤ p.2.avail then
    match packedVarintString a (p.2.buffer.take n) c with
    | none => none
    | some r => some (r, { s with rd := p.2.advance n })
  else
    let s := { s with rd := p.2 }
    match packedVarintReaderLoop a c (s.limit n) with
    | none => none
    | some (r, s') => some (r, s.unlimit n s')

/-- The loop of `OnRepeatedVarintType::HandleLengthDelimitedFromCord()` (`field_handlers.h:998-1014`). -/
def packedVarintCordLoop (a : NumAct γ) (limit : Nat) (c : γ) (src : List Bytes) : Option ((Bool × γ) × List Bytes) :=
  match fromCord 64 false (readUpd 64) (src.flatten.length - limit) 0 src with
  | (.oob, _) => none
  | (.fail, src) => some ((decide (¬limit < src.flatten.length), c), src)
  | (.ok v, src) =>
    match a v c with
    | (false, c) => some ((false, c), src)
    | (true, c) => packedVarintCordLoop a limit c src
partial_fixpoint

/-- `OnRepeatedVarintType::HandleLengthDelimitedFromCord()` (`field_handlers.h:980-1015`). At the end of the `Cord`, `Cord::ChunkRemaining()` is taken to be empty. -/
def packedVarintCord (a : NumAct γ) : CordAct γ := fun n c src =>
  let chunk := src.headD []
  if n ≤ chunk.length then
    match packedVarintString a (chunk.take n) c with
    | none => none
    | some r => some (r, cordAdvance n src)
  else packedVarintCordLoop a (src.flatten.length - n) c src

/-- `OnRepeatedFixedType::HandleLengthDelimitedFromStringInternal()` (`field_handlers.h:625-640`). -/
def packedFixedString (size : Nat) (a : NumAct γ) (src : Bytes) (c : γ) : Option (Bool × γ) :=
  if src.length = 0 then some (true, c)
  else if src.length < size then none
  else
    match a (leNat (src.take size)) c with
    | (false, c) => some (false, c)
    | (true, c) => packedFixedString size a (src.drop size) c
partial_fixpoint

/-- `OnRepeatedFixedType::HandleLengthDelimitedFromString()` (`field_handlers.h:1125-1136`). -/
def packedFixedStringChecked (size : Nat) (a : NumAct γ) (src : Bytes) (c : γ) : Option (Bool × γ) :=
  if 0 < src.length % size then some (false, c) else packedFixedString size a src c

/-- The loop of `OnRepeatedFixedType::HandleLengthDelimitedFromReader()` (`field_handlers.h:1069-1088`). -/
def packedFixedReaderLoop (size : Nat) (a : NumAct γ) (n : Nat) (c : γ) (s : Src) : Option ((Bool × γ) × Src) :=
  if n = 0 then some ((true, c), s)
  else
    match readFixed size s.rd with
    | (none, rd) => some ((false, c), { s with rd := rd })
    | (some v, rd) =>
      match a v c with
      | (false, c) => some ((false, c), { s with rd := rd })
      | (true, c) => packedFixedReaderLoop size a (n - size) c { s with rd := rd }
partial_fixpoint

/-- `OnRepeatedFixedType::HandleLengthDelimitedFromReader()` (`field_handlers.h:1043-1089`). -/
def packedFixedReader (size : Nat) (a : NumAct γ) : RdAct γ := fun n c s =>
  if 0 < n % size then some ((false, c), s)
  else
    let p := s.rd.pull 1
    if p.1 = true ∧ n ≤ p.2.avail then
      match packedFixedString size a (p.2.buffer.take n) c with
      | none => none
      | some r => some (r, { s with rd := p.2.advance n })
    else packedFixedReaderLoop size a n c { s with rd := p.2 }

/-- The loop of `OnRepeatedFixedType::HandleLengthDelimitedFromCord()` (`field_handlers.h:1110-1122`). -/
def packedFixedCordLoop (size : Nat) (a : NumAct γ) (n : Nat) (c : γ) (src : List Bytes) : Option ((Bool × γ) × List Bytes) :=
  if n = 0 then some ((true, c), src)
  else
    match cordRead size src with
    | none => none
    | some (bs, src) =>
      match a (leNat bs) c with
      | (false, c) => some ((false, c), src)
      | (true, c) => packedFixedCordLoop size a (n - size) c src
partial_fixpoint

/-- `OnRepeatedFixedType::HandleLengthDelimitedFromCord()` (`field_handlers.h:1091-1123`); `Cord::ChunkRemaining()` as above. -/
def packedFixedCord (size : Nat) (a : NumAct γ) : CordAct γ := fun n c src =>
  if 0 < n % size then some ((false, c), src)
  else
    let chunk := src.headD []
    if n ≤ chunk.length then
      match packedFixedString size a (chunk.take n) c with
      | none => none
      | some r => some (r, cordAdvance n src)
    else packedFixedCordLoop size a n c src

/-- `OnLengthDelimitedType` with an action which takes a string, `Chain` or `Cord`, `HandleString()` (`field_handlers.h:869-888`), and a handler which defines only
`HandleLengthDelimitedFromString()`, applied to a `Reader` (`serialized_message_reader_internal.h:734-745`). -/
def stringReader (a : StrAct γ) : RdAct γ := fun n c s =>
  match readBytes n s.rd with
  | (none, rd) => some ((false, c), { s with rd := rd })
  | (some bs, rd) => some (a bs c, { s with rd := rd })

/-- The same, applied to a `Cord` (`field_handlers.h:820-836`, `serialized_message_reader_internal.h:783-790`). -/
def stringCord (a : StrAct γ) : CordAct γ := fun n c src =>
  match cordRead n src with
  | none => none
  | some (bs, src) => some (a bs c, src)

/-- `OnLengthDelimitedType` with an action which takes `ReaderSpan<>` and reads a submessage with `ReadMessage()`: `SkipLengthDelimitedFromReader()` (`field_handlers.h:785-788`,
`serialized_message_reader.h:1198-1212`), and `Dependency<Reader*, ReaderSpan<>>` with `ScopedLimiter` (`limiting_reader.h:538-572`). -/
def messageReader (hs : List (Handler γ (RdAct γ))) : RdAct γ := fun n c s =>
  match readMessage hs false (some (s.limit n).extra) none c (s.limit n).rd with
  | none => none
  | some ((false, c'), rd) => some ((false, c'), s.unlimit n ⟨rd, (s.limit n).extra⟩)
  | some ((true, c'), rd) =>
    let s' := s.unlimit n ⟨rd, (s.limit n).extra⟩
    let r := skip (n - (s.rd.rest.length - s'.rd.rest.length)) s'.rd
    some ((r.1, c'), { s' with rd := r.2 })

/-- The same, with `CordIteratorSpan` and `SkipLengthDelimitedFromCord()` (`field_handlers.h:816-819`, `serialized_message_reader.h:1222-1238`). -/
def messageCord (hs : List (Handler γ (CordAct γ))) : CordAct γ := fun n c src =>
  let limit := src.flatten.length - n
  match cordMessage hs n c src with
  | none => none
  | some ((false, c'), src') => some ((false, c'), src')
  | some ((true, c'), src') => some ((true, c'), if src'.flatten.length ≠ limit then cordAdvance (src'.flatten.length - limit) src' else src')

end
end Riegeli.Msg

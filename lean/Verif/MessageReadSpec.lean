import Verif.MessageSpec
import Verif.Varint
/-!
# Reading a proto message field by field

Specification only: what fields a serialized message consists of, and what it means to handle them. Nothing here refers to the model of the code
(`IsVarint` and `varintValue` are the definition of a varint, from `Verif/Varint.lean`).
-/
namespace Riegeli.Msg

/-- A field as it appears in a serialized message, with its field number. -/
inductive Item where
  | varint (f v : Nat)
  | fixed32 (f v : Nat)
  | fixed64 (f v : Nat)
  | len (f : Nat) (bs : Bytes)
  | start (f : Nat)
  | stop (f : Nat)

/-- `p` is a varint with the value `v` which fits in `w` bits; it does not have to be the shortest one, but it has at most as many bytes as `w` bits can need. -/
def VarintOf (w : Nat) (p : Bytes) (v : Nat) : Prop := IsVarint p ∧ varintValue p = v ∧ v < 2 ^ w ∧ p.length ≤ (w + 6) / 7

/-- The data begin with the field `it`, and `rest` follows. -/
inductive Begins : Bytes → Item → Bytes → Prop
  | varint {t p rest : Bytes} {f v : Nat} : VarintOf 32 t (f * 8) → VarintOf 64 p v → Begins (t ++ p ++ rest) (.varint f v) rest
  | fixed64 {t rest : Bytes} {f v : Nat} : VarintOf 32 t (f * 8 + 1) → v < 2 ^ 64 → Begins (t ++ little 8 v ++ rest) (.fixed64 f v) rest
  | len {t p bs rest : Bytes} {f : Nat} : VarintOf 32 t (f * 8 + 2) → VarintOf 32 p bs.length → bs.length < 2 ^ 31 →
      Begins (t ++ p ++ bs ++ rest) (.len f bs) rest
  | start {t rest : Bytes} {f : Nat} : VarintOf 32 t (f * 8 + 3) → Begins (t ++ rest) (.start f) rest
  | stop {t rest : Bytes} {f : Nat} : VarintOf 32 t (f * 8 + 4) → Begins (t ++ rest) (.stop f) rest
  | fixed32 {t rest : Bytes} {f v : Nat} : VarintOf 32 t (f * 8 + 5) → v < 2 ^ 32 → Begins (t ++ little 4 v ++ rest) (.fixed32 f v) rest

/-- The data begin with the given fields, and the last argument follows. -/
inductive Parses : Bytes → List Item → Bytes → Prop
  | nil {bs : Bytes} : Parses bs [] bs
  | cons {bs r rest : Bytes} {it : Item} {its : List Item} : Begins bs it r → Parses r its rest → Parses bs (it :: its) rest

/-- A field handler: for each wire type, whether a field number is accepted, and the action. An action changes the context, and it can fail. -/
structure Meaning (γ : Type) where
  varint : Nat → Option (Nat → γ → Bool × γ) := fun _ => none
  fixed32 : Nat → Option (Nat → γ → Bool × γ) := fun _ => none
  fixed64 : Nat → Option (Nat → γ → Bool × γ) := fun _ => none
  len : Nat → Option (Bytes → γ → Bool × γ) := fun _ => none
  start : Nat → Option (γ → Bool × γ) := fun _ => none
  stop : Nat → Option (γ → Bool × γ) := fun _ => none

namespace Meaning
variable {γ : Type}

/-- The action for the given field, if the handler accepts it. -/
def action (m : Meaning γ) : Item → Option (γ → Bool × γ)
  | .varint f v => (m.varint f).map (· v)
  | .fixed32 f v => (m.fixed32 f).map (· v)
  | .fixed64 f v => (m.fixed64 f).map (· v)
  | .len f bs => (m.len f).map (· bs)
  | .start f => m.start f
  | .stop f => m.stop f

/-- The first handler which accepts the field handles it; a field which is not accepted is skipped. -/
def handle (ms : List (Meaning γ)) (it : Item) (c : γ) : Bool × γ :=
  match ms.findSome? (·.action it) with
  | none => (true, c)
  | some a => a c

/-- Handling fields in sequence until an action fails. -/
def handleAll (ms : List (Meaning γ)) : List Item → γ → Bool × γ
  | [], c => (true, c)
  | it :: its, c => if (handle ms it c).1 then handleAll ms its (handle ms it c).2 else (false, (handle ms it c).2)

end Meaning

/-- The result of reading the message `bs`, and the resulting context: all fields up to the first invalid one are handled in sequence, until an action fails;
it is a success if no action fails, and there is nothing after the fields. -/
def ReadResult {γ : Type} (ms : List (Meaning γ)) (bs : Bytes) (c : γ) (r : Bool × γ) : Prop :=
  ∃ its rest, Parses bs its rest ∧ (∀ it rest', ¬Begins rest it rest') ∧
    r.2 = (Meaning.handleAll ms its c).2 ∧ (r.1 = true ↔ (Meaning.handleAll ms its c).1 = true ∧ rest = [])

/-- The data begin with varints with the given values, and the last argument follows. -/
inductive Varints : Bytes → List Nat → Bytes → Prop
  | nil {bs : Bytes} : Varints bs [] bs
  | cons {p r rest : Bytes} {v : Nat} {vs : List Nat} : VarintOf 64 p v → Varints r vs rest → Varints (p ++ r) (v :: vs) rest

/-- Passing values to an action in sequence until it fails. -/
def feed {γ : Type} (a : Nat → γ → Bool × γ) : List Nat → γ → Bool × γ
  | [], c => (true, c)
  | v :: vs, c => if (a v c).1 then feed a vs (a v c).2 else (false, (a v c).2)

/-- The result of reading a packed repeated field with varints: all elements up to the first invalid one are passed to the action, until it fails. -/
def PackedVarintResult {γ : Type} (a : Nat → γ → Bool × γ) (bs : Bytes) (c : γ) (r : Bool × γ) : Prop :=
  ∃ vs rest, Varints bs vs rest ∧ (∀ p rest' v, rest = p ++ rest' → ¬VarintOf 64 p v) ∧ r.2 = (feed a vs c).2 ∧ (r.1 = true ↔ (feed a vs c).1 = true ∧ rest = [])

/-- The result of reading a packed repeated field with numbers of a fixed size: if the length is right, then all elements are passed to the action, until it fails. -/
def PackedFixedResult {γ : Type} (size : Nat) (a : Nat → γ → Bool × γ) (bs : Bytes) (c : γ) (r : Bool × γ) : Prop :=
  (bs.length % size ≠ 0 ∧ r = (false, c)) ∨ ∃ vs, (∀ v ∈ vs, v < 256 ^ size) ∧ bs = vs.flatMap (little size) ∧ r = feed a vs c

mutual
/-- The fields of a message written by `wire`. -/
def items : Field → List Item
  | .scalar f (.int32 v) => [.varint f (v.toInt % 2 ^ 64).toNat]
  | .scalar f (.int64 v) => [.varint f (v.toInt % 2 ^ 64).toNat]
  | .scalar f (.uint32 v) => [.varint f v.toNat]
  | .scalar f (.uint64 v) => [.varint f v.toNat]
  | .scalar f (.sint32 v) => [.varint f (zigzag v.toInt)]
  | .scalar f (.sint64 v) => [.varint f (zigzag v.toInt)]
  | .scalar f (.bool v) => [.varint f (if v then 1 else 0)]
  | .scalar f (.fixed32 v) => [.fixed32 f v.toNat]
  | .scalar f (.fixed64 v) => [.fixed64 f v.toNat]
  | .scalar f (.sfixed32 v) => [.fixed32 f v.toNat]
  | .scalar f (.sfixed64 v) => [.fixed64 f v.toNat]
  | .scalar f (.float v) => [.fixed32 f v.toNat]
  | .scalar f (.double v) => [.fixed64 f v.toNat]
  | .scalar f (.enum v) => [.varint f (v % 2 ^ 64).toNat]
  | .str f bs => [.len f bs]
  | .sub .optional f body => if wires body = [] then [] else [.len f (wires body)]
  | .sub _ f body => [.len f (wires body)]
  | .group f body => .start f :: (itemsAll body ++ [.stop f])
  | .element _ => []
  | .raw _ => []
@[inherit_doc items] def itemsAll : List Field → List Item
  | [] => []
  | x :: xs => items x ++ itemsAll xs
end

mutual
/-- Consists of whole fields: elements of packed repeated fields and bytes written directly occur only inside length-delimited fields. -/
def Whole : Field → Prop
  | .element _ => False
  | .raw _ => False
  | .group _ body => AllWhole body
  | _ => True
@[inherit_doc Whole] def AllWhole : List Field → Prop
  | [] => True
  | x :: xs => Whole x ∧ AllWhole xs
end

end Riegeli.Msg

import Verif.Varint
/-!
# Specification of field projection, independent of the model of the decoder

A proto message is a tree of fields; `Msg.ser` is its wire encoding. `Projection` is a list of field paths, as given by the
user. `inclusion` says what a projection asks for a field at a path, and `Msg.project` is the message with the other
fields removed.
-/
namespace Riegeli.Proj

/-- A list of fields of a message: the first field and the following ones. A length-delimited field is either a sequence of
bytes (also a string) or a message with its fields. -/
inductive Msg
  | nil
  | varint (num value : Nat) (rest : Msg)
  | fixed32 (num : Nat) (value : Bytes) (rest : Msg)
  | fixed64 (num : Nat) (value : Bytes) (rest : Msg)
  | bytes (num : Nat) (value : Bytes) (rest : Msg)
  | message (num : Nat) (body rest : Msg)
  | group (num : Nat) (body rest : Msg)
deriving DecidableEq, Repr

namespace Msg

/-- The wire encoding (https://protobuf.dev/programming-guides/encoding/): a field begins with the varint
`8 * number + wire type`. -/
def ser : Msg → Bytes
  | nil => []
  | varint n v rest => writeVarint (8 * n) ++ writeVarint v ++ rest.ser
  | fixed32 n v rest => writeVarint (8 * n + 5) ++ v ++ rest.ser
  | fixed64 n v rest => writeVarint (8 * n + 1) ++ v ++ rest.ser
  | bytes n v rest => writeVarint (8 * n + 2) ++ writeVarint v.length ++ v ++ rest.ser
  | message n body rest => writeVarint (8 * n + 2) ++ writeVarint body.ser.length ++ body.ser ++ rest.ser
  | group n body rest => writeVarint (8 * n + 3) ++ body.ser ++ writeVarint (8 * n + 4) ++ rest.ser

/-- Numbers and sizes are in range. -/
def Valid : Msg → Prop
  | nil => True
  | varint n v rest => (0 < n ∧ n < 2 ^ 29) ∧ v < 2 ^ 64 ∧ rest.Valid
  | fixed32 n v rest => (0 < n ∧ n < 2 ^ 29) ∧ v.length = 4 ∧ rest.Valid
  | fixed64 n v rest => (0 < n ∧ n < 2 ^ 29) ∧ v.length = 8 ∧ rest.Valid
  | bytes n v rest => (0 < n ∧ n < 2 ^ 29) ∧ v.length < 2 ^ 32 ∧ rest.Valid
  | message n body rest => (0 < n ∧ n < 2 ^ 29) ∧ body.ser.length < 2 ^ 32 ∧ body.Valid ∧ rest.Valid
  | group n body rest => (0 < n ∧ n < 2 ^ 29) ∧ body.Valid ∧ rest.Valid

end Msg

/-- The bytes are the encoding of some message. -/
def IsMessage (b : Bytes) : Prop := ∃ m : Msg, m.Valid ∧ m.ser = b

/-- Fields are described as finely as riegeli does it: nesting of messages and groups is `depth`, and a length-delimited
field is described as a message if it is not empty, it can be a message, and it is not nested in `maxDepth` messages or
groups. -/
def Msg.Split (maxDepth : Nat) : Nat → Msg → Prop
  | _, .nil => True
  | d, .varint _ _ rest => rest.Split maxDepth d
  | d, .fixed32 _ _ rest => rest.Split maxDepth d
  | d, .fixed64 _ _ rest => rest.Split maxDepth d
  | d, .bytes _ v rest => ¬ (v ≠ [] ∧ d < maxDepth ∧ IsMessage v) ∧ rest.Split maxDepth d
  | d, .message _ body rest => (body.ser ≠ [] ∧ d < maxDepth) ∧ body.Split maxDepth (d + 1) ∧ rest.Split maxDepth d
  | d, .group _ body rest => body.Split maxDepth (d + 1) ∧ rest.Split maxDepth d

/-! ## Projection -/

/-- What to do with a field: keep it, keep it with the value replaced by the default value, remove it. -/
inductive Inclusion
  | keep | clear | remove
deriving DecidableEq, Repr

/-- The paths which are to be included with everything inside. A path whose last element is 0 is for existence only. -/
def fullPaths (fields : List (List Nat)) : List (List Nat) := fields.filter (fun f => f.getLast? ≠ some 0)

/-- The paths for which existence only is to be preserved. -/
def existencePaths (fields : List (List Nat)) : List (List Nat) :=
  (fields.filter (fun f => f.getLast? = some 0)).map List.dropLast

/-- What the projection says about a field with the path `p` (the numbers of the fields from the root):
a field is kept if it is at or inside a full path, or if something inside it is mentioned (if it has fields inside, they
are considered separately); if it is only an existence path, its value is cleared; otherwise the field is removed. -/
def inclusion (fields : List (List Nat)) (p : List Nat) : Inclusion :=
  if (fullPaths fields).any (fun f => f.isPrefixOf p) then .keep
  else if (fullPaths fields ++ existencePaths fields).any (fun f => p.isPrefixOf f && p != f) then .keep
  else if (existencePaths fields).any (fun f => f == p) then .clear
  else .remove

/-- The fields which remain, for a message at path `p`. -/
def Msg.project (fields : List (List Nat)) : List Nat → Msg → Msg
  | _, .nil => .nil
  | p, .varint n v rest =>
    match inclusion fields (p ++ [n]) with
    | .keep => .varint n v (rest.project fields p)
    | .clear => .varint n 0 (rest.project fields p)
    | .remove => rest.project fields p
  | p, .fixed32 n v rest =>
    match inclusion fields (p ++ [n]) with
    | .keep => .fixed32 n v (rest.project fields p)
    | .clear => .fixed32 n (List.replicate 4 0) (rest.project fields p)
    | .remove => rest.project fields p
  | p, .fixed64 n v rest =>
    match inclusion fields (p ++ [n]) with
    | .keep => .fixed64 n v (rest.project fields p)
    | .clear => .fixed64 n (List.replicate 8 0) (rest.project fields p)
    | .remove => rest.project fields p
  | p, .bytes n v rest =>
    match inclusion fields (p ++ [n]) with
    | .keep => .bytes n v (rest.project fields p)
    | .clear => .bytes n [] (rest.project fields p)
    | .remove => rest.project fields p
  | p, .message n body rest =>
    match inclusion fields (p ++ [n]) with
    | .remove => rest.project fields p
    | _ => .message n (body.project fields (p ++ [n])) (rest.project fields p)
  | p, .group n body rest =>
    match inclusion fields (p ++ [n]) with
    | .remove => rest.project fields p
    | _ => .group n (body.project fields (p ++ [n])) (rest.project fields p)

/-- A record: a message, or bytes which cannot be a message. -/
inductive Rec
  | msg (m : Msg)
  | other (b : Bytes)
deriving DecidableEq, Repr

/-- The bytes of a record. -/
def Rec.ser : Rec → Bytes
  | .msg m => m.ser
  | .other b => b

/-- A record described as finely as riegeli does it. -/
def Rec.Wf (maxDepth : Nat) : Rec → Prop
  | .msg m => m.Valid ∧ m.Split maxDepth 0
  | .other b => ¬ IsMessage b

/-- The projected record. What is not a message is kept. -/
def Rec.project (fields : List (List Nat)) : Rec → Rec
  | .msg m => .msg (m.project fields [])
  | .other b => .other b

end Riegeli.Proj

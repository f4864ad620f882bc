import Verif.Csv
/-!
# Specification of CSV: what is a record

A declarative grammar, independent of the code: fields and their encodings, records, lines which are skipped.
-/
namespace Riegeli
namespace Csv
open Lines

/-- A character which cannot be written in an unquoted field (the comment character can, but not at the beginning of a record). -/
def Special (o : ROpts) (b : UInt8) : Prop :=
  b = LF ∨ b = CR ∨ b = o.sep ∨ o.quote = some b ∨ o.escape = some b

/-- `PlainEnc o f e`: `e` is an unquoted representation of `f`. -/
inductive PlainEnc (o : ROpts) : Bytes → Bytes → Prop
  | nil : PlainEnc o [] []
  | char {b : UInt8} {f e : Bytes} (h : ¬Special o b) (t : PlainEnc o f e) : PlainEnc o (b :: f) (b :: e)
  | escaped {c b : UInt8} {f e : Bytes} (h : o.escape = some c) (t : PlainEnc o f e) : PlainEnc o (b :: f) (c :: b :: e)

/-- `InsideEnc o q f e`: `e` is a representation of `f` between quotes. -/
inductive InsideEnc (o : ROpts) (q : UInt8) : Bytes → Bytes → Prop
  | nil : InsideEnc o q [] []
  | char {b : UInt8} {f e : Bytes} (h : b ≠ q) (h' : o.escape ≠ some b) (t : InsideEnc o q f e) :
      InsideEnc o q (b :: f) (b :: e)
  | twice {f e : Bytes} (t : InsideEnc o q f e) : InsideEnc o q (q :: f) (q :: q :: e)
  | escaped {c b : UInt8} {f e : Bytes} (h : o.escape = some c) (t : InsideEnc o q f e) : InsideEnc o q (b :: f) (c :: b :: e)

/-- A representation of a field. -/
inductive FieldEnc (o : ROpts) : Bytes → Bytes → Prop
  | plain {f e : Bytes} (h : PlainEnc o f e) : FieldEnc o f e
  | quoted {q : UInt8} {f e : Bytes} (hq : o.quote = some q) (h : InsideEnc o q f e) : FieldEnc o f (q :: (e ++ [q]))

/-- A representation of fields after the first. -/
inductive MoreEnc (o : ROpts) : List Bytes → Bytes → Prop
  | nil : MoreEnc o [] []
  | cons {f e : Bytes} {fs : List Bytes} {es : Bytes} (h : FieldEnc o f e) (t : MoreEnc o fs es) :
      MoreEnc o (f :: fs) (o.sep :: (e ++ es))

/-- A representation of a record, without the newline. -/
inductive RecordEnc (o : ROpts) : List Bytes → Bytes → Prop
  | mk {f e : Bytes} {fs : List Bytes} {es : Bytes} (h : FieldEnc o f e) (t : MoreEnc o fs es) :
      RecordEnc o (f :: fs) (e ++ es)

/-- Lines skipped before a record: comments, and empty lines if so requested. -/
inductive Skipped (o : ROpts) : Bytes → Prop
  | nil : Skipped o []
  | comment {c : UInt8} {l r : Bytes} (hc : o.comment = some c) (hl : LF ∉ l) (t : Skipped o r) :
      Skipped o (c :: (l ++ LF :: r))
  | lf {r : Bytes} (h : o.skipEmptyLines = true) (t : Skipped o r) : Skipped o (LF :: r)
  | crLf {r : Bytes} (h : o.skipEmptyLines = true) (t : Skipped o r) : Skipped o (CR :: LF :: r)

/-- `data` is: lines to be skipped, a representation `enc` of a record, its newline, and `rest`. -/
structure RecordAt (o : ROpts) (data : Bytes) (fields : List Bytes) (skipped enc newline rest : Bytes) : Prop where
  cut : data = skipped ++ (enc ++ (newline ++ rest))
  isSkipped : Skipped o skipped
  isEnc : RecordEnc o fields enc
  /-- not a comment -/
  noComment : ∀ c, o.comment = some c → enc.head? ≠ some c
  /-- not an empty line which is skipped, nor the end of data -/
  notEmpty : enc = [] → o.skipEmptyLines = false ∧ newline ≠ []
  /-- the newline can be missing at the end of data -/
  ends : newline = [LF] ∨ newline = [CR, LF] ∨ newline = [] ∧ rest = []

/-- There are no more records: the rest of data is skipped. -/
def NoRecords (o : ROpts) (data : Bytes) : Prop :=
  ∃ skipped tail, data = skipped ++ tail ∧ Skipped o skipped ∧
    (tail = [] ∨ ∃ c l, o.comment = some c ∧ tail = c :: l ∧ LF ∉ l)

end Csv
end Riegeli

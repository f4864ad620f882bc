import Verif.Lines
/-!
# Model of `riegeli/csv/csv_reader.cc` and `riegeli/csv/csv_writer.{cc,h}`

Not modelled: headers (`CsvHeader`, `CsvRecord`), recovery (`recovery() == nullptr`), texts of messages, failures of the
destination, overflow of `int64_t` line numbers.
-/
namespace Riegeli
namespace Csv
open Lines

/-! ## Reader -/

/-- `CsvReaderBase::CharClass` (`csv_reader.h:477-485`). -/
inductive Cls
  | other | lf | cr | comment | sep | quote | escape
deriving DecidableEq, Repr

/-- `CsvReaderBase::Options`, and `standalone_record_` (`csv_reader.h:56-352,494`). -/
structure ROpts where
  comment : Option UInt8
  sep : UInt8
  quote : Option UInt8
  escape : Option UInt8
  skipEmptyLines : Bool
  preserveBom : Bool
  maxFields : Nat
  maxLen : Nat
  standalone : Bool
deriving Repr

/-- A failure (the kind of the message). -/
inductive Err
  | options | source | maxLen | maxFields | beforeQuote | noClosingQuote | afterEscape | crNoLf | afterQuote | newline
deriving DecidableEq, Repr

/-- Comparison of a character with LF, CR (`'\n'`, `'\r'`). -/
def isNewlineChar (b : UInt8) : Bool := b = LF || b = CR

/-- The checks of options in `CsvReaderBase::Initialize` (`csv_reader.cc:58-126`). -/
def ROpts.valid (o : ROpts) : Bool :=
  !(o.comment.any isNewlineChar) && !isNewlineChar o.sep && !(some o.sep == o.comment) &&
  (match o.quote with
    | none => true
    | some q => !isNewlineChar q && !(some q == o.comment) && !(q == o.sep)) &&
  (match o.escape with
    | none => true
    | some e => !isNewlineChar e && !(some e == o.comment) && !(e == o.sep) && !(some e == o.quote))

/-- The table `char_classes_`, assigned at `csv_reader.cc:128-144`; a later assignment overrides an earlier one. -/
def cls (o : ROpts) (b : UInt8) : Cls :=
  if o.escape = some b then .escape
  else if o.quote = some b then .quote
  else if b = o.sep then .sep
  else if o.comment = some b then .comment
  else if b = CR then .cr
  else if b = LF then .lf
  else .other

/-- `quote_` (`csv_reader.cc:146`). -/
def quoteChar (o : ROpts) : UInt8 := o.quote.getD 0

/-- The state of a `CsvReader`: the source, `line_number_`, `last_line_number_`. -/
structure St where
  src : Rd
  line : Nat
  last : Nat

/-- `SkipLine` (`csv_reader.cc:241-260`); `ptr` is `src.cursor() + i`. -/
def skipLine (s : St) (i : Nat) : Option St :=
  match (if i = s.src.avail then ((s.src.advance s.src.avail).pull 1, 0) else ((true, s.src), i)) with
  | ((false, src), _) => some { s with src := src, line := s.line + 1 }
  | ((true, src), i) =>
    if src.rest[i]? = some LF then some { s with src := src.advance (i + 1), line := s.line + 1 }
    else skipLine { s with src := src } (i + 1)
partial_fixpoint

/-- The beginning of the loops of `ReadQuoted` (`csv_reader.cc:272-287`) and `ReadFields` (`csv_reader.cc:382-397`): if
`ptr == src.limit()`, the data scanned is moved to `field`, and `Pull()`. -/
inductive Refill
  | tooLong
  | ended (field : Bytes) (src : Rd)
  | ready (field : Bytes) (src : Rd) (i : Nat)

/-- See `Refill`. -/
def refill (o : ROpts) (field : Bytes) (src : Rd) (i : Nat) : Refill :=
  if i = src.avail then
    if src.avail > o.maxLen - field.length then .tooLong
    else
      match (src.advance src.avail).pull 1 with
      | (false, src') => .ended (field ++ src.buffer) src'
      | (true, src') => .ready (field ++ src.buffer) src' 0
  else .ready field src i

/-- A failure of `Pull()` in the middle: the source failed, or the data ended. -/
def pullErr (src : Rd) (e : Err) : Err := if src.ok then e else .source

/-- The loop of `ReadQuoted` (`csv_reader.cc:270-341`). -/
def readQuoted (o : ROpts) (field : Bytes) (s : St) (i : Nat) : Option (Except Err (Bytes × St)) :=
  match refill o field s.src i with
  | .tooLong => some (.error .maxLen)
  | .ended _ src => some (.error (pullErr src .noClosingQuote))
  | .ready field src i =>
    match src.rest[i]? with
    | none => none
    | some b =>
      match cls o b with
      | .other => readQuoted o field { s with src := src } (i + 1)
      | .lf => readQuoted o field { s with src := src, line := s.line + 1 } (i + 1)
      | .cr => readQuoted o field { s with src := src } (i + 1)
      | .comment => readQuoted o field { s with src := src } (i + 1)
      | .sep => readQuoted o field { s with src := src } (i + 1)
      | .quote =>
        if i > o.maxLen - field.length then some (.error .maxLen)
        else
          match (src.advance (i + 1)).pull 1 with
          | (false, src') =>
            if src'.ok then some (.ok (field ++ src.rest.take i, { s with src := src' })) else some (.error .source)
          | (true, src') =>
            if src'.rest[0]? = some (quoteChar o) then
              readQuoted o (field ++ src.rest.take i) { s with src := src' } 1
            else some (.ok (field ++ src.rest.take i, { s with src := src' }))
      | .escape =>
        if i > o.maxLen - field.length then some (.error .maxLen)
        else
          match (src.advance (i + 1)).pull 1 with
          | (false, src') => some (.error (pullErr src' .afterEscape))
          | (true, src') => readQuoted o (field ++ src.rest.take i) { s with src := src' } 1
partial_fixpoint

/-- What `ReadRecord()` gives: a record, `false` with `ok()`, or a failure. -/
inductive Ret
  | record (fields : List Bytes)
  | eof
  | fail (e : Err)
deriving DecidableEq, Repr

/-- What happens after a step in `ReadFields`: return, or go on with the fields before the current one, the current one, the
state, and `ptr`. -/
inductive Step
  | done (r : Ret) (s : St)
  | more (fields : List Bytes) (field : Bytes) (s : St) (i : Nat)

/-- `next_field:` (`csv_reader.cc:365-379`). -/
def nextField (o : ROpts) (fields : List Bytes) (s : St) : Step :=
  if fields.length = o.maxFields then .done (.fail .maxFields) s else .more fields [] s 0

/-- `next_record:` (`csv_reader.cc:351-364`). `record_index_ > 0` with `standalone_record_` never happens because
`ReadCsvRecordFromString` reads one record only. -/
def nextRecord (o : ROpts) (s : St) : Step :=
  let s := { s with last := s.line }
  if o.standalone then nextField o [] s
  else
    match s.src.pull 1 with
    | (false, src) => .done (if src.ok then .eof else .fail .source) { s with src := src }
    | (true, src) => nextField o [] { s with src := src }

/-- `case CharClass::kLf` of `ReadFields` (`csv_reader.cc:436-444`), with the fields read so far, and whether the field can be an empty
line. -/
def endLine (o : ROpts) (fields : List Bytes) (field : Bytes) (s : St) : Step :=
  let s := { s with line := s.line + 1 }
  if o.skipEmptyLines && fields.isEmpty && field.isEmpty then nextRecord o s
  else if o.standalone then .done (.fail .newline) s
  else .done (.record (fields ++ [field])) s

/-- The same after a quoted field (`csv_reader.cc:485-490`): it is not an empty line. -/
def endLineQuoted (o : ROpts) (fields : List Bytes) (field : Bytes) (s : St) : Step :=
  let s := { s with line := s.line + 1 }
  if o.standalone then .done (.fail .newline) s else .done (.record (fields ++ [field])) s

/-- `case CharClass::kCr` (`csv_reader.cc:422-435,471-484`): `src` is after CR. -/
def afterCr (s : St) (k : St → Step) : Step :=
  match s.src.pull 1 with
  | (false, src) => .done (.fail (pullErr src .crNoLf)) { s with src := src }
  | (true, src) =>
    if src.rest[0]? ≠ some LF then .done (.fail .crNoLf) { s with src := src }
    else k { s with src := src.advance 1 }

/-- After a quoted field (`csv_reader.cc:451-497`). -/
def afterQuoted (o : ROpts) (fields : List Bytes) (field : Bytes) (s : St) : Option Step :=
  match s.src.pull 1 with
  | (false, src) =>
    if src.ok then some (.done (.record (fields ++ [field])) { s with src := src, line := s.line + 1 })
    else some (.done (.fail .source) { s with src := src })
  | (true, src) =>
    match src.rest[0]? with
    | none => none
    | some b =>
      let s := { s with src := src.advance 1 }
      match cls o b with
      | .other => some (.done (.fail .afterQuote) s)
      | .comment => some (.done (.fail .afterQuote) s)
      | .escape => some (.done (.fail .afterQuote) s)
      | .sep => some (nextField o (fields ++ [field]) s)
      | .cr => some (afterCr s (endLineQuoted o fields field))
      | .lf => some (endLineQuoted o fields field s)
      | .quote => none

/-- One round of the loop of `ReadFields` (`csv_reader.cc:380-512`). -/
def step (o : ROpts) (fields : List Bytes) (field : Bytes) (s : St) (i : Nat) : Option Step :=
  match refill o field s.src i with
  | .tooLong => some (.done (.fail .maxLen) s)
  | .ended field src =>
    if src.ok then some (.done (.record (fields ++ [field])) { s with src := src, line := s.line + 1 })
    else some (.done (.fail .source) { s with src := src })
  | .ready field src i =>
    match src.rest[i]? with
    | none => none
    | some b =>
      if cls o b = .other then some (.more fields field { s with src := src } (i + 1))
      else if cls o b = .comment then
        if fields.isEmpty && field.isEmpty && i == 0 then
          match skipLine { s with src := src.advance 1 } 0 with
          | none => none
          | some s => some (nextRecord o s)
        else some (.more fields field { s with src := src } (i + 1))
      else if i > o.maxLen - field.length then some (.done (.fail .maxLen) { s with src := src })
      else
        let field := field ++ src.rest.take i
        let s := { s with src := src.advance (i + 1) }
        match cls o b with
        | .other => none
        | .comment => none
        | .cr => some (afterCr s (endLine o fields field))
        | .lf => some (endLine o fields field s)
        | .sep => some (nextField o (fields ++ [field]) s)
        | .quote =>
          if field.isEmpty then
            match readQuoted o [] s 0 with
            | none => none
            | some (.error e) => some (.done (.fail e) s)
            | some (.ok (field, s)) => afterQuoted o fields field s
          else some (.done (.fail .beforeQuote) s)
        | .escape =>
          match s.src.pull 1 with
          | (false, src) => some (.done (.fail (pullErr src .afterEscape)) { s with src := src })
          | (true, src) => some (.more fields field { s with src := src } 1)

/-- The loop of `ReadFields`. -/
def run (o : ROpts) (fields : List Bytes) (field : Bytes) (s : St) (i : Nat) : Option (Ret × St) :=
  match step o fields field s i with
  | none => none
  | some (.done r s) => some (r, s)
  | some (.more fields field s i) => run o fields field s i
partial_fixpoint

/-- `ReadRecord(std::vector<std::string>&)` of an OK reader without recovery (`csv_reader.cc:563-606`). `none` if it does not
return. -/
def readRecord (o : ROpts) (s : St) : Option (Ret × St) :=
  match nextRecord o s with
  | .done r s => some (r, s)
  | .more fields field s i => run o fields field s i

/-- A `CsvReader` after `Initialize` with valid options (`csv_reader.cc:43-158`). -/
def init (o : ROpts) (src : Rd) : St :=
  ⟨if o.preserveBom then src else skipUtf8Bom src, 1, 1⟩

/-- `HasNextRecord()` of an OK reader (`csv_reader.cc:608-647`): the value returned, the failure if any, and the reader. -/
def hasNextRecord (o : ROpts) (s : St) : Option (Bool × Option Err × St) :=
  let s := { s with last := s.line }
  match s.src.pull 1 with
  | (false, src) => some (false, if src.ok then none else some .source, { s with src := src })
  | (true, src) =>
    let s := { s with src := src }
    match src.rest[0]? with
    | none => none
    | some b =>
      match cls o b with
      | .cr =>
        match (src.advance 1).pull 1 with
        | (false, src) => some (false, if src.ok then none else some .source, { s with src := src })
        | (true, src) =>
          if src.rest[0]? ≠ some LF then some (false, none, { s with src := src })
          else if o.skipEmptyLines then hasNextRecord o { s with src := src.advance 1, line := s.line + 1 }
          else some (true, none, { s with src := src })
      | .lf =>
        if o.skipEmptyLines then hasNextRecord o { s with src := src.advance 1, line := s.line + 1 }
        else some (true, none, s)
      | .comment =>
        match skipLine s 0 with
        | none => none
        | some s => hasNextRecord o s
      | _ => some (true, none, s)
partial_fixpoint

/-! ## Writer -/

/-- `CsvWriterBase::Options`, and `standalone_record_` (`csv_writer.h:60-230,357`). -/
structure WOpts where
  newline : WNewline
  comment : Option UInt8
  sep : UInt8
  quote : Option UInt8
  writeBom : Bool
  standalone : Bool
deriving Repr

/-- The checks of options in `CsvWriterBase::Initialize` (`csv_writer.cc:57-98`). -/
def WOpts.valid (o : WOpts) : Bool :=
  !(o.comment.any isNewlineChar) && !isNewlineChar o.sep && !(some o.sep == o.comment) &&
  (match o.quote with
    | none => true
    | some q => !isNewlineChar q && !(some q == o.comment) && !(q == o.sep))

/-- The table `quotes_needed_` (`csv_writer.cc:100-108`). -/
def quotesNeeded (o : WOpts) (b : UInt8) : Bool :=
  b == LF || b == CR || o.comment == some b || b == o.sep || o.quote == some b

/-- The loop of `WriteQuoted` (`csv_writer.cc:145-162`): `start`, `next` are the offsets of `start`, `next_to_check`. -/
def quotedLoop (q : UInt8) (field : Bytes) (start next : Nat) : Bytes :=
  match _h : memchr q (field.drop next) with
  | some j => (field.drop start).take (next + j + 1 - start) ++ quotedLoop q field (next + j) (next + j + 1)
  | none => field.drop start
termination_by field.length - next
decreasing_by
  obtain ⟨p, r, e, _, hl⟩ := memchr_some _h
  have := congrArg List.length e
  simp only [List.length_drop, List.length_append, List.length_cons] at this
  omega

/-- `WriteQuoted` (`csv_writer.cc:139-169`). -/
def writeQuoted (q : UInt8) (field : Bytes) (alreadyScanned : Nat) : Bytes :=
  [q] ++ quotedLoop q field 0 alreadyScanned ++ [q]

/-- `WriteField` (`csv_writer.cc:200-216`). `none` if it fails. -/
def writeField (o : WOpts) (field : Bytes) : Option Bytes :=
  match field.findIdx? (quotesNeeded o) with
  | some i =>
    match o.quote with
    | none => none
    | some q => some (writeQuoted q field i)
  | none => some field

/-- The condition in `WriteFirstField` (`csv_writer.cc:184-193`): `kUtf8Bom` is EF BB BF. -/
def looksLikeBom (o : WOpts) (field : Bytes) : Bool :=
  match field with
  | [] => o.sep == 0xef
  | [a] => a == 0xef && o.sep == 0xbb
  | [a, b] => a == 0xef && b == 0xbb && o.sep == 0xbf
  | a :: b :: c :: _ => a == 0xef && b == 0xbb && c == 0xbf

/-- `WriteFirstField` (`csv_writer.cc:179-198`). -/
def writeFirstField (o : WOpts) (field : Bytes) : Option Bytes :=
  match o.quote with
  | some q => if looksLikeBom o field then some (writeQuoted q field 0) else writeField o field
  | none => writeField o field

/-- The loop over the fields after the first (`csv_writer.h:564-570`). -/
def writeMoreFields (o : WOpts) : List Bytes → Option Bytes
  | [] => some []
  | f :: fs =>
    match writeField o f, writeMoreFields o fs with
    | some a, some b => some (o.sep :: (a ++ b))
    | _, _ => none

/-- `WriteQuotes` (`csv_writer.cc:171-177`). -/
def writeQuotes (o : WOpts) : Bytes :=
  match o.quote with
  | none => []
  | some q => [q, q]

/-- The fields of a record in `WriteRecordInternal` (`csv_writer.h:556-577`). -/
def writeFields (o : WOpts) (record : List Bytes) : Option Bytes :=
  match record with
  | [] => some []
  | [f] =>
    match writeFirstField o f with
    | none => none
    | some a => some (if f.isEmpty && o.sep != 0xef then a ++ writeQuotes o else a)
  | f :: fs =>
    match writeFirstField o f, writeMoreFields o fs with
    | some a, some b => some (a ++ b)
    | _, _ => none

/-- `WriteRecordInternal` (`csv_writer.h:547-585`). -/
def writeRecord (o : WOpts) (record : List Bytes) : Option Bytes :=
  match writeFields o record with
  | none => none
  | some a => some (if o.standalone then a else a ++ o.newline.bytes)

/-- The records written one after another; `none` if any of them fails. -/
def writeRecords (o : WOpts) : List (List Bytes) → Option Bytes
  | [] => some []
  | r :: rs =>
    match writeRecord o r, writeRecords o rs with
    | some a, some b => some (a ++ b)
    | _, _ => none

/-- The file written by a `CsvWriter` (with the BOM: `csv_writer.cc:117`). -/
def writeFile (o : WOpts) (records : List (List Bytes)) : Option Bytes :=
  match writeRecords o records with
  | none => none
  | some a => some (if o.writeBom then utf8Bom ++ a else a)

end Csv
end Riegeli

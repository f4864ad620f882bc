import Verif.ByteReader
/-!
# Model of `riegeli/lines/line_reading.cc` and `riegeli/lines/line_writing.h`
-/
namespace Riegeli
namespace Lines

/-- `ReadNewline` (`newline.h:23-26`). -/
inductive Newline
  | lf | crLfOrLf
deriving DecidableEq, Repr

/-- `WriteNewline` (`newline.h:29-38`). -/
inductive WNewline
  | lf | crLf
deriving DecidableEq, Repr

/-- `ReadLineOptions` (`line_reading.h:34-96`). -/
structure Opts where
  newline : Newline
  keepNewline : Bool
  maxLength : Nat
deriving Repr

/-- `'\n'` -/
abbrev LF : UInt8 := 10
/-- `'\r'` -/
abbrev CR : UInt8 := 13

/-- Result of `ReadLine()`: the value returned, `dest`, and the reader. -/
structure Res where
  ret : Bool
  dest : Bytes
  src : Rd

/-- `FailMaxLineLengthExceeded` (`line_reading.cc:86-92`). `dest` is what has been read before. -/
def failMax (s : Rd) (dest : Bytes) (maxLength : Nat) : Res :=
  ⟨false, dest ++ s.rest.take maxLength, (s.advance maxLength).fail⟩

/-- `FoundNewline` (`line_reading.cc:94-104`). -/
def foundNewline (s : Rd) (dest : Bytes) (o : Opts) (length newlineLength : Nat) : Res :=
  let lengthWithNewline := length + newlineLength
  let length := if o.keepNewline then lengthWithNewline else length
  if length > o.maxLength then failMax s dest o.maxLength
  else ⟨true, dest ++ s.rest.take length, s.advance lengthWithNewline⟩

/-- How the scan of the buffer ends: the function returns, or `goto continue_reading` with `length`. -/
inductive Step
  | done (r : Res)
  | cont (s : Rd) (length : Nat)

/-- The loop of the case `kCrLfOrLf` in `ReadLineInternal` (`line_reading.cc:125-163`). -/
def scanCrLf (o : Opts) (dest : Bytes) (s : Rd) (newline : Option Nat) : Option Step :=
  match newline with
  | some i =>
    if i > 0 ∧ s.rest[i - 1]? = some CR then some (.done (foundNewline s dest o (i - 1) 2))
    else some (.done (foundNewline s dest o i 1))
  | none =>
    if s.rest[s.avail - 1]? ≠ some CR then some (.cont s s.avail)
    else if s.avail - 1 > 0 then some (.cont s (s.avail - 1))
    else
      match s.pull 2 with
      | (false, s) =>
        if o.maxLength < 1 then some (.done (failMax s dest o.maxLength))
        else some (.done ⟨s.ok, dest ++ s.rest.take 1, s.advance 1⟩)
      | (true, s) =>
        if s.rest[1]? = some LF then some (.done (foundNewline s dest o 0 2))
        else scanCrLf o dest s ((memchr LF (s.buffer.drop 2)).map (· + 2))
partial_fixpoint

/-- One scan of the buffer (`line_reading.cc:110-166`). -/
def scan (o : Opts) (dest : Bytes) (s : Rd) : Option Step :=
  match o.newline with
  | .lf =>
    match memchr LF s.buffer with
    | some i => some (.done (foundNewline s dest o i 1))
    | none => some (.cont s s.avail)
  | .crLfOrLf => scanCrLf o dest s (memchr LF s.buffer)

/-- The loop of `ReadLineInternal` (`line_reading.cc:110-174`). -/
def internalLoop (o : Opts) (dest : Bytes) (s : Rd) : Option Res :=
  match scan o dest s with
  | none => none
  | some (.done r) => some r
  | some (.cont s length) =>
    if length > o.maxLength then some (failMax s dest o.maxLength)
    else
      match (s.advance length).pull 1 with
      | (true, s') => internalLoop { o with maxLength := o.maxLength - length } (dest ++ s.rest.take length) s'
      | (false, s') => some ⟨s'.ok, dest ++ s.rest.take length, s'⟩
partial_fixpoint

/-- `ReadLine(Reader&, std::string&)`, also for `Chain` and `absl::Cord` (`line_reading.cc:106-175,244-257`). `none` if it does not
return. -/
def readLine (o : Opts) (s : Rd) : Option Res :=
  match s.pull 1 with
  | (false, s) => some ⟨false, [], s⟩
  | (true, s) => internalLoop o [] s

/-- The loop of the case `kCrLfOrLf` in `ReadLine(absl::string_view&)` (`line_reading.cc:197-229`). -/
def viewCrLf (o : Opts) (s : Rd) (length : Nat) : Option Step :=
  match memchr LF (s.buffer.drop length) with
  | some i =>
    let i := length + i
    if i > 0 ∧ s.rest[i - 1]? = some CR then some (.done (foundNewline s [] o (i - 1) 2))
    else some (.done (foundNewline s [] o i 1))
  | none =>
    if s.rest[s.avail - 1]? ≠ some CR then some (.cont s s.avail)
    else
      let length := s.avail - 1
      if length > o.maxLength then some (.done (failMax s [] o.maxLength))
      else
        match s.pull (length + 2) with
        | (false, s) =>
          if s.avail > o.maxLength then some (.done (failMax s [] o.maxLength))
          else some (.done ⟨s.ok, s.buffer, s.advance s.avail⟩)
        | (true, s) =>
          if s.rest[length + 1]? = some LF then some (.done (foundNewline s [] o length 2))
          else viewCrLf o s (length + 2)
partial_fixpoint

/-- One scan of the buffer (`line_reading.cc:186-232`). -/
def viewScan (o : Opts) (s : Rd) (length : Nat) : Option Step :=
  match o.newline with
  | .lf =>
    match memchr LF (s.buffer.drop length) with
    | some i => some (.done (foundNewline s [] o (length + i) 1))
    | none => some (.cont s s.avail)
  | .crLfOrLf => viewCrLf o s length

/-- The loop of `ReadLine(Reader&, absl::string_view&)` (`line_reading.cc:185-241`). -/
def viewLoop (o : Opts) (s : Rd) (length : Nat) : Option Res :=
  match viewScan o s length with
  | none => none
  | some (.done r) => some r
  | some (.cont s length) =>
    if length > o.maxLength then some (failMax s [] o.maxLength)
    else
      match s.pull (length + 1) with
      | (true, s) => viewLoop o s length
      | (false, s) => some ⟨s.ok, s.buffer, s.advance s.avail⟩
partial_fixpoint

/-- `ReadLine(Reader&, absl::string_view&)` (`line_reading.cc:179-242`). -/
def readLineView (o : Opts) (s : Rd) : Option Res :=
  match s.pull 1 with
  | (false, s) => some ⟨false, [], s⟩
  | (true, s) => viewLoop o s 0

/-- `kUtf8Bom` (`newline.h:48`). -/
def utf8Bom : Bytes := [0xef, 0xbb, 0xbf]

/-- `SkipUtf8Bom` (`line_reading.cc:259-264`). -/
def skipUtf8Bom (s : Rd) : Rd :=
  match s.pull 3 with
  | (false, s) => s
  | (true, s) => if s.rest.take 3 = utf8Bom then s.advance 3 else s

/-- The line terminator (`line_writing.h:108-113`). -/
def WNewline.bytes : WNewline → Bytes
  | .lf => [LF]
  | .crLf => [CR, LF]

/-- What `WriteLine` (`line_writing.h:97-116`) writes. -/
def writeLine (n : WNewline) (line : Bytes) : Bytes := line ++ n.bytes

/-! ## Specification -/

/-- Splits off the first line: the line, its terminator (empty if there is none), the rest. -/
def splitLine (n : Newline) : Bytes → Bytes × Bytes × Bytes
  | [] => ([], [], [])
  | b :: r =>
    if b = LF then ([], [LF], r)
    else if n = .crLfOrLf ∧ b = CR ∧ r.head? = some LF then ([], [CR, LF], r.tail)
    else (b :: (splitLine n r).1, (splitLine n r).2)

/-- `ls` are the lines of `data`, each with its terminator. -/
inductive LinesOf (n : Newline) : Bytes → List (Bytes × Bytes) → Prop
  | nil : LinesOf n [] []
  | cons {data : Bytes} {ls : List (Bytes × Bytes)} (h : data ≠ []) (hr : LinesOf n (splitLine n data).2.2 ls) :
      LinesOf n data (((splitLine n data).1, (splitLine n data).2.1) :: ls)

/-- What `ReadLine()` at a position before `data` is expected to do: the value returned, `dest`, the data left, and
whether the reader is still OK. -/
def expected (o : Opts) (fails : Bool) (data : Bytes) : Bool × Bytes × Bytes × Bool :=
  if data = [] then (false, [], [], !fails)
  else
    let l := splitLine o.newline data
    let out := if o.keepNewline then l.1 ++ l.2.1 else l.1
    if out.length > o.maxLength then
      (false, data.take o.maxLength, data.drop o.maxLength, false)
    else if l.2.1 = [] then (!fails, out, [], !fails)
    else (true, out, l.2.2, true)

/-- Calling a line reading function until it returns `false`: the lines it gave, and the reader at the end. -/
inductive ReadsAll (f : Rd → Option Res) : Rd → List Bytes → Rd → Prop
  | stop {s : Rd} {r : Res} (h : f s = some r) (hr : r.ret = false) : ReadsAll f s [] r.src
  | more {s : Rd} {r : Res} {ls : List Bytes} {s' : Rd} (h : f s = some r) (hr : r.ret = true) (ht : ReadsAll f r.src ls s') :
      ReadsAll f s (r.dest :: ls) s'

end Lines
end Riegeli

import Verif.Basic
/-!
# The interface of `Reader` and its contract

Model of `riegeli/bytes/reader.{h,cc}`: a `Reader` is a buffer `[start, limit)` of the data of the source with a cursor in it, and
virtual functions which are called when the buffer is not sufficient. The public functions (`Pull`, `Read`, `ReadSome`, `Copy`,
`CopySome`, `Seek`, `Skip`, `Size`, `ReadHint`) first try the buffer. `Lawful R D E Inv` is the contract of `reader.h:100-420`: `R`
reads the data `D`, then ends if `E`, otherwise it can only fail there. Any source may fail (`!ok()`) at any point. Classes of readers which override the virtual functions are
modelled by other values of `ReaderOps`.

Simplifications: pointers are represented by the positions they correspond to; `length_read` is not returned separately, being
the length of the data read; `Chain` and `absl::Cord` destinations are byte strings; a `std::string` destination behaves as `char*`
(`reader.cc:381-420`); position overflow is not modelled (data are shorter than `2^64`).
-/
namespace Riegeli.Rdr

/-- `kMaxBytesToCopy` (`riegeli/base/buffering.h:41`). -/
def kMaxBytesToCopy : Nat := 511

/-- Kinds of destinations: `char*` (also `std::string`), or `Chain`/`absl::Cord`, for which more than `kMaxBytesToCopy` bytes go
to the virtual functions even if they are available (`reader.cc:126-158`). -/
inductive Kind where
  | chars
  | blocks
deriving DecidableEq

/-- A destination `Writer` of `Copy()`: it accepts `cap` bytes, then fails. -/
structure Dest where
  written : Bytes
  cap : Nat
  ok : Bool

/-- `Writer::Write()`. -/
def Dest.write (d : Dest) (bs : Bytes) : Bool × Dest :=
  if d.ok = false then (false, d)
  else if d.written.length + bs.length ≤ d.cap then (true, { d with written := d.written ++ bs })
  else (false, { d with written := d.written ++ bs.take (d.cap - d.written.length), ok := false })

/-- `BackwardWriter::Write()`: prepends. -/
def Dest.prepend (d : Dest) (bs : Bytes) : Bool × Dest :=
  if d.ok = false then (false, d)
  else if d.written.length + bs.length ≤ d.cap then (true, { d with written := bs ++ d.written })
  else (false, { d with ok := false })

/-- A class of readers with states in `σ`. `start`, `cursor`, `limit` are `start_pos()`, `pos()`, `limit_pos()`; `buf` is the
data between `start()` and `limit()` (`reader.h:120-250`). The others are the virtual functions (`reader.h:480-620`). -/
structure ReaderOps (σ : Type) where
  start : σ → Nat
  cursor : σ → Nat
  limit : σ → Nat
  buf : σ → Bytes
  ok : σ → Bool
  setCursor : Nat → σ → σ
  pullSlow : Nat → Nat → σ → Bool × σ
  readSlow : Kind → Nat → σ → Bool × Bytes × σ
  copySlow : Nat → Dest → σ → Bool × Dest × σ
  copyBackSlow : Nat → Dest → σ → Bool × Dest × σ
  readSomeSlow : Nat → σ → Bool × Bytes × σ
  copySomeSlow : Nat → Dest → σ → Bool × Dest × σ
  readHintSlow : Nat → Nat → σ → σ
  seekSlow : Nat → σ → Bool × σ
  sizeImpl : σ → Option Nat × σ
  /-- Whether a function can succeed and leave the reader failed, because reading more than was requested failed. -/
  ahead : Prop := False

namespace ReaderOps
variable {σ : Type} (R : ReaderOps σ)

/-- `Reader::available()` (`reader.h:153`). -/
def avail (s : σ) : Nat := R.limit s - R.cursor s

/-- The first `n` bytes at the cursor, for `n <= available()`. -/
def peek (n : Nat) (s : σ) : Bytes := slice (R.buf s) (R.cursor s - R.start s) n

/-- `Reader::move_cursor(n)` (`reader.h:707-711`). -/
def move (n : Nat) (s : σ) : σ := R.setCursor (R.cursor s + n) s

/-- `Reader::Pull()` (`reader.h:696-705`). -/
def pull (n rec : Nat) (s : σ) : Bool × σ := if n ≤ R.avail s then (true, s) else R.pullSlow n rec s

/-- `Reader::Read(length, char*)`, `ReadAndAppend(length, string&)`, `ReadAndAppend(length, Chain&)`,
`ReadAndAppend(length, Cord&)` (`reader.h:754-763`, `reader.cc:70-158`). -/
def read (k : Kind) (n : Nat) (s : σ) : Bool × Bytes × σ :=
  if n ≤ R.avail s ∧ (k = .chars ∨ n ≤ kMaxBytesToCopy) then (true, R.peek n s, R.move n s)
  else R.readSlow k n s

/-- `Reader::Read(length, absl::string_view&)` (`reader.h:744-752`). -/
def readView (n : Nat) (s : σ) : Bool × Bytes × σ :=
  let r := R.pull n 0 s
  let len := if r.1 then n else R.avail r.2
  (r.1, R.peek len r.2, R.move len r.2)

/-- `Reader::ReadByte()` (`reader.h:730-735`). -/
def readByte (s : σ) : Option UInt8 × σ :=
  let r := R.pull 1 0 s
  if r.1 then ((R.peek 1 r.2).head?, R.move 1 r.2) else (none, r.2)

/-- `Reader::Copy(length, Writer&)` (`reader.cc:160-169`). -/
def copy (n : Nat) (d : Dest) (s : σ) : Bool × Dest × σ :=
  if n ≤ R.avail s ∧ n ≤ kMaxBytesToCopy then
    let w := d.write (R.peek n s)
    (w.1, w.2, R.move n s)
  else R.copySlow n d s

/-- `Reader::Copy(length, BackwardWriter&)` (`reader.cc:171-178`). -/
def copyBack (n : Nat) (d : Dest) (s : σ) : Bool × Dest × σ :=
  if n ≤ R.avail s ∧ n ≤ kMaxBytesToCopy then
    let w := d.prepend (R.peek n s)
    (w.1, w.2, R.move n s)
  else R.copyBackSlow n d s

/-- `Reader::ReadSome(max_length, char*)`, `ReadAndAppendSome(max_length, string&)`, and `ReadAndAppendSome(max_length, Chain&)`,
for which `ReadSomeSlow()` pulls and reads (`reader.h:776-790`, `reader.cc:180-318`, `reader.cc:667-756`). -/
def readSome (k : Kind) (n : Nat) (s : σ) : Bool × Bytes × σ :=
  if 0 < R.avail s ∨ n = 0 then
    let n := min n (R.avail s)
    if k = .chars ∨ n ≤ kMaxBytesToCopy then (true, R.peek n s, R.move n s)
    else R.readSlow k n s
  else if k = .chars then R.readSomeSlow n s
  else
    let r := R.pullSlow 1 n s
    if r.1 then R.read k (min n (R.avail r.2)) r.2 else (false, [], r.2)

/-- `Reader::CopySome(max_length, Writer&)` (`reader.cc:320-342`). -/
def copySome (n : Nat) (d : Dest) (s : σ) : Bool × Dest × σ :=
  if 0 < R.avail s ∨ n = 0 then
    let n := min n (R.avail s)
    if n ≤ kMaxBytesToCopy then
      let w := d.write (R.peek n s)
      (w.1, w.2, R.move n s)
    else R.copySlow n d s
  else R.copySomeSlow n d s

/-- `Reader::ReadHint()` (`reader.h:792-795`). -/
def readHint (n rec : Nat) (s : σ) : σ := if n ≤ R.avail s then s else R.readHintSlow n rec s

/-- `Reader::Seek()` (`reader.h:822-828`). -/
def seek (p : Nat) (s : σ) : Bool × σ :=
  if R.start s ≤ p ∧ p ≤ R.limit s then (true, R.setCursor p s) else R.seekSlow p s

/-- `Reader::Skip()` (`reader.h:830-865`). -/
def skip (n : Nat) (s : σ) : Bool × σ :=
  if n ≤ R.avail s then (true, R.move n s)
  else if 2 ^ 64 - 1 - R.cursor s < n then (false, (R.seekSlow (2 ^ 64 - 1) s).2)
  else R.seekSlow (R.cursor s + n) s

/-- A function which succeeded did not make the reader fail, unless by reading ahead. -/
def Keeps (s s' : σ) : Prop := R.ok s' = R.ok s ∨ R.ahead

/-- What reading `n` bytes of `D` means: the data read are the data of the source from the position before to the position after.
Success means that all `n` bytes were read; lack of success without a failure means that the source ended. -/
def ReadPost (D : Bytes) (E : Prop) (n : Nat) (s : σ) (r : Bool × Bytes × σ) : Prop :=
  R.cursor s ≤ R.cursor r.2.2 ∧ r.2.1 = slice D (R.cursor s) (R.cursor r.2.2 - R.cursor s) ∧
  (r.1 = true → R.cursor r.2.2 = R.cursor s + n ∧ R.Keeps s r.2.2) ∧
  (r.1 = false → R.cursor r.2.2 < R.cursor s + n ∧ (R.ok r.2.2 = false ∨ (E ∧ R.cursor r.2.2 = D.length)))

/-- What reading some bytes, at most `n`, means. Lack of success means that nothing was read. -/
def SomePost (D : Bytes) (E : Prop) (n : Nat) (s : σ) (r : Bool × Bytes × σ) : Prop :=
  R.cursor s ≤ R.cursor r.2.2 ∧ R.cursor r.2.2 ≤ R.cursor s + n ∧
  r.2.1 = slice D (R.cursor s) (R.cursor r.2.2 - R.cursor s) ∧
  (r.1 = true → (0 < n → R.cursor s < R.cursor r.2.2) ∧ R.Keeps s r.2.2) ∧
  (r.1 = false → R.cursor r.2.2 = R.cursor s ∧ (R.ok r.2.2 = false ∨ (E ∧ R.cursor s = D.length)))

/-- What copying `n` bytes of `D` to `d` means: the destination gets a prefix of the data read, all of them unless it failed. -/
def CopyPost (D : Bytes) (E : Prop) (n : Nat) (d : Dest) (s : σ) (r : Bool × Dest × σ) : Prop :=
  R.cursor s ≤ R.cursor r.2.2 ∧ R.cursor r.2.2 ≤ R.cursor s + n ∧
  (∃ k, k ≤ R.cursor r.2.2 - R.cursor s ∧ r.2.1.written = d.written ++ slice D (R.cursor s) k ∧
    (r.2.1.ok = true → k = R.cursor r.2.2 - R.cursor s)) ∧
  (r.1 = true → R.cursor r.2.2 = R.cursor s + n ∧ R.Keeps s r.2.2 ∧ r.2.1.ok = true) ∧
  (r.1 = false → r.2.1.ok = true → R.cursor r.2.2 < R.cursor s + n ∧ (R.ok r.2.2 = false ∨ (E ∧ R.cursor r.2.2 = D.length))) ∧
  (r.2.1.ok = true → d.ok = true)

/-- What copying some bytes, at most `n`, to `d` means. -/
def CopySomePost (D : Bytes) (E : Prop) (n : Nat) (d : Dest) (s : σ) (r : Bool × Dest × σ) : Prop :=
  R.cursor s ≤ R.cursor r.2.2 ∧ R.cursor r.2.2 ≤ R.cursor s + n ∧
  (∃ k, k ≤ R.cursor r.2.2 - R.cursor s ∧ r.2.1.written = d.written ++ slice D (R.cursor s) k ∧
    (r.2.1.ok = true → k = R.cursor r.2.2 - R.cursor s)) ∧
  (r.1 = true → (0 < n → R.cursor s < R.cursor r.2.2) ∧ R.Keeps s r.2.2 ∧ r.2.1.ok = true) ∧
  (r.1 = false → r.2.1.ok = true → R.ok r.2.2 = false ∨ (E ∧ R.cursor s = D.length)) ∧
  (r.2.1.ok = true → d.ok = true)

/-- What copying `n` bytes of `D` to a `BackwardWriter` means: all of them are prepended, or nothing. -/
def CopyBackPost (D : Bytes) (E : Prop) (n : Nat) (d : Dest) (s : σ) (r : Bool × Dest × σ) : Prop :=
  R.cursor s ≤ R.cursor r.2.2 ∧ R.cursor r.2.2 ≤ R.cursor s + n ∧
  (r.1 = true → R.cursor r.2.2 = R.cursor s + n ∧ R.Keeps s r.2.2 ∧ r.2.1.ok = true ∧
    r.2.1.written = slice D (R.cursor s) n ++ d.written) ∧
  (r.1 = false → r.2.1.ok = true → r.2.1.written = d.written ∧ R.cursor r.2.2 < R.cursor s + n ∧
    (R.ok r.2.2 = false ∨ (E ∧ R.cursor r.2.2 = D.length))) ∧
  (r.2.1.ok = true → d.ok = true)

/-- What seeking to `p` means. A reader which fails while seeking back may be left at any position. -/
def SeekPost (D : Bytes) (E : Prop) (p : Nat) (s : σ) (r : Bool × σ) : Prop :=
  (R.cursor r.2 ≤ max p (R.cursor s) ∨ (p < R.cursor s ∧ R.ok r.2 = false)) ∧ (R.cursor s ≤ p → R.cursor s ≤ R.cursor r.2) ∧
  (r.1 = true → R.cursor r.2 = p ∧ R.Keeps s r.2) ∧
  (r.1 = false → R.ok r.2 = false ∨ (E ∧ R.cursor r.2 = D.length ∧ D.length < p))

/-- The contract of a reader of the data `D`; `E` says whether the end of the data is a clean end of the source; `Inv` is the
invariant of the class. -/
structure Lawful (D : Bytes) (E : Prop) (Inv : σ → Prop) : Prop where
  window : ∀ s, Inv s → R.start s ≤ R.cursor s ∧ R.cursor s ≤ R.limit s ∧ R.limit s ≤ D.length
  data : ∀ s, Inv s → R.buf s = slice D (R.start s) (R.limit s - R.start s)
  setCursor : ∀ s c, Inv s → R.start s ≤ c → c ≤ R.limit s → Inv (R.setCursor c s) ∧ R.cursor (R.setCursor c s) = c ∧
    R.start (R.setCursor c s) = R.start s ∧ R.limit (R.setCursor c s) = R.limit s ∧ R.ok (R.setCursor c s) = R.ok s
  pullSlow : ∀ s n rec, Inv s → R.avail s < n → Inv (R.pullSlow n rec s).2 ∧
    R.cursor (R.pullSlow n rec s).2 = R.cursor s ∧
    ((R.pullSlow n rec s).1 = true → n ≤ R.avail (R.pullSlow n rec s).2 ∧ R.Keeps s (R.pullSlow n rec s).2) ∧
    ((R.pullSlow n rec s).1 = false → R.avail (R.pullSlow n rec s).2 < n ∧
      (R.ok (R.pullSlow n rec s).2 = false ∨ (E ∧ R.limit (R.pullSlow n rec s).2 = D.length))) ∧
    (R.ok s = false → R.ok (R.pullSlow n rec s).2 = false)
  readSlow : ∀ s k n, Inv s → 0 < n → (n ≤ R.avail s → kMaxBytesToCopy < n ∧ k = .blocks) →
    Inv (R.readSlow k n s).2.2 ∧ R.ReadPost D E n s (R.readSlow k n s) ∧
    (R.ok s = false → R.ok (R.readSlow k n s).2.2 = false)
  readAvail : ∀ s n, Inv s → kMaxBytesToCopy < n → n ≤ R.avail s → (R.readSlow .blocks n s).1 = false →
    R.cursor (R.readSlow .blocks n s).2.2 = R.cursor s
  copySlow : ∀ s n d, Inv s → 0 < n → (n ≤ R.avail s → kMaxBytesToCopy < n) → Inv (R.copySlow n d s).2.2 ∧
    R.CopyPost D E n d s (R.copySlow n d s) ∧ (R.ok s = false → R.ok (R.copySlow n d s).2.2 = false)
  copyBackSlow : ∀ s n d, Inv s → 0 < n → (n ≤ R.avail s → kMaxBytesToCopy < n) → Inv (R.copyBackSlow n d s).2.2 ∧
    R.CopyBackPost D E n d s (R.copyBackSlow n d s) ∧ (R.ok s = false → R.ok (R.copyBackSlow n d s).2.2 = false)
  readSomeSlow : ∀ s n, Inv s → 0 < n → R.avail s = 0 → Inv (R.readSomeSlow n s).2.2 ∧
    R.SomePost D E n s (R.readSomeSlow n s) ∧ (R.ok s = false → R.ok (R.readSomeSlow n s).2.2 = false)
  copySomeSlow : ∀ s n d, Inv s → 0 < n → R.avail s = 0 → Inv (R.copySomeSlow n d s).2.2 ∧
    R.CopySomePost D E n d s (R.copySomeSlow n d s) ∧ (R.ok s = false → R.ok (R.copySomeSlow n d s).2.2 = false)
  readHintSlow : ∀ s n rec, Inv s → R.avail s < n → Inv (R.readHintSlow n rec s) ∧
    R.cursor (R.readHintSlow n rec s) = R.cursor s ∧ (R.ok s = false → R.ok (R.readHintSlow n rec s) = false)
  seekSlow : ∀ s p, Inv s → (p < R.start s ∨ R.limit s < p) → Inv (R.seekSlow p s).2 ∧
    R.SeekPost D E p s (R.seekSlow p s) ∧ (R.ok s = false → R.ok (R.seekSlow p s).2 = false)
  sizeImpl : ∀ s, Inv s → Inv (R.sizeImpl s).2 ∧ R.cursor (R.sizeImpl s).2 = R.cursor s ∧
    (∀ n, (R.sizeImpl s).1 = some n → (E → n = D.length) ∧ D.length ≤ n ∧ R.Keeps s (R.sizeImpl s).2) ∧
    ((R.sizeImpl s).1 = none → R.ok (R.sizeImpl s).2 = false) ∧
    (R.ok s = false → R.ok (R.sizeImpl s).2 = false)

end ReaderOps
end Riegeli.Rdr

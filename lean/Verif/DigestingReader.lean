import Verif.ReaderDefaults
/-!
# `DigestingReader`

Model of `riegeli/digests/digesting_reader.{h,cc}` over any class of readers `R`, with any digester. It shares the buffer with its source, hiding what
was already digested: its `start()` is the cursor of the source, and its `limit()` is that of the source. It moves its own cursor, and digests what
was read from the buffer and moves the cursor of the source only when it synchronizes.

Not modelled: moving, error messages, effects of `AnnotateStatus()` of the source, closing the source and the digester, `NewReader()`, `Sync()` with a source
which changes, `SetReadAllHint()`, the digest computed from the data by the digester.
-/
namespace Riegeli.Rdr

/-- The source, with its cursor where it was synchronized most recently, which is `start_pos()`; `pos()`; what the digester was given, and whether it did not
fail. `broken` is not used by the program: it says that the assertion of `SyncBuffer()` failed. -/
structure DR (σ : Type) where
  src : σ
  cur : Nat
  digested : Bytes
  digOk : Bool
  ok : Bool
  broken : Bool

namespace DR
variable {σ : Type} (R : ReaderOps σ) (accepts : Bytes → Bytes → Bool)

/-- `Write()` of the digester: `accepts x bs` says whether it succeeds to digest `bs` after `x`. After a failure it fails. -/
def feed (bs : Bytes) (l : DR σ) : Bool × DR σ :=
  if l.digOk && accepts l.digested bs then (true, { l with digested := l.digested ++ bs }) else (false, { l with digOk := false })

/-- The data from `start()` to `cursor()`. -/
def pend (l : DR σ) : Bytes := slice (R.buf l.src) (R.cursor l.src - R.start l.src) (l.cur - R.cursor l.src)

/-- `SyncBuffer()` (`digesting_reader.h:270-283`). If the digester fails, then `AnnotateStatusImpl()` tries to digest the same data again, which fails
again. -/
def sync (l : DR σ) : Bool × DR σ :=
  if l.cur - R.cursor l.src = 0 then (true, l)
  else
    let f := l.feed accepts (l.pend R)
    if f.1 = false then (false, { f.2 with ok := false })
    else (true, { f.2 with src := R.setCursor l.cur l.src })

/-- `MakeBuffer()` (`digesting_reader.h:285-289`), with the source in the given state. -/
def make (s : σ) (l : DR σ) : DR σ := { l with src := s, cur := R.cursor s, ok := l.ok && R.ok s }

/-- `Fail()` (`object.cc:98-106`) with `AnnotateStatusImpl()` (`digesting_reader.cc:62-71`). -/
def fail (l : DR σ) : DR σ :=
  if l.ok = false then l
  else
    let s := l.sync R accepts
    if s.1 = false then s.2 else { s.2.make R s.2.src with ok := false }

/-- `PullSlow()` (`digesting_reader.cc:73-84`). -/
def pullSlow (n rec : Nat) (l : DR σ) : Bool × DR σ :=
  if l.ok = false then (false, l)
  else
    let s := l.sync R accepts
    if s.1 = false then (false, s.2)
    else
      let r := R.pull n rec s.2.src
      (r.1, s.2.make R r.2)

/-- `ReadSlow(char*)`, `ReadSlow(Chain&)`, `ReadSlow(Cord&)` (`digesting_reader.cc:86-154`). If the digester fails to digest what was read, then
`SyncBuffer()` called by `AnnotateStatusImpl()` finds that the cursor of the source is moved, and a `Chain` or `absl::Cord` does not get what was read. -/
def readSlow (kd : Kind) (n : Nat) (l : DR σ) : Bool × Bytes × DR σ :=
  if l.ok = false then (false, [], l)
  else
    let s := l.sync R accepts
    if s.1 = false then (false, [], s.2)
    else
      let r := R.read kd n s.2.src
      if r.2.1 = [] then (r.1, [], s.2.make R r.2.2)
      else
        let f := s.2.feed accepts r.2.1
        if f.1 = false then
          (false, if kd = .chars then r.2.1 else [], { f.2.make R r.2.2 with ok := false, broken := true })
        else (r.1, r.2.1, f.2.make R r.2.2)

/-- `ReadSomeSlow(char*)` (`digesting_reader.cc:156-177`). -/
def readSomeSlow (n : Nat) (l : DR σ) : Bool × Bytes × DR σ :=
  if l.ok = false then (false, [], l)
  else
    let s := l.sync R accepts
    if s.1 = false then (false, [], s.2)
    else
      let r := R.readSome .chars n s.2.src
      if r.1 then
        let f := s.2.feed accepts r.2.1
        if f.1 = false then (false, r.2.1, { f.2.make R r.2.2 with ok := false, broken := true })
        else (true, r.2.1, f.2.make R r.2.2)
      else (false, r.2.1, s.2.make R r.2.2)

/-- `ReadHintSlow()` (`digesting_reader.cc:179-189`). -/
def readHintSlow (n rec : Nat) (l : DR σ) : DR σ :=
  if l.ok = false then l
  else
    let s := l.sync R accepts
    if s.1 = false then s.2 else s.2.make R (R.readHint n rec s.2.src)

/-- `SizeImpl()` (`digesting_reader.cc:196-203`). -/
def sizeImpl (l : DR σ) : Option Nat × DR σ :=
  if l.ok = false then (none, l)
  else
    let s := l.sync R accepts
    if s.1 = false then (none, s.2)
    else
      let r := R.sizeImpl s.2.src
      (r.1, s.2.make R r.2)

/-- What the default implementations of virtual functions of `Reader` use. -/
def core : Core (DR σ) where
  start l := R.cursor l.src
  cursor l := l.cur
  limit l := R.limit l.src
  buf l := slice (R.buf l.src) (R.cursor l.src - R.start l.src) (R.limit l.src - R.cursor l.src)
  ok := DR.ok
  setCursor c l := { l with cur := c }
  pullSlow := pullSlow R accepts
  fail := fail R accepts
  block n := n
  ahead := R.ahead

/-- `Reader::CopySlow(length, BackwardWriter&)` (`reader.cc:555-576`), which is not overridden, and calls `ReadSlow(char*)` or `Read(Chain&)`. -/
def copyBackSlow (n : Nat) (d : Dest) (l : DR σ) : Bool × Dest × DR σ :=
  if n ≤ (core R accepts).avail l then
    let w := d.prepend ((core R accepts).peek n l)
    (w.1, w.2, (core R accepts).move n l)
  else if n ≤ kMaxBytesToCopy then
    let p := d.push n
    if p.1 = false then (false, p.2, l)
    else
      let r := l.readSlow R accepts .chars n
      if r.1 = false then (false, p.2, r.2.2)
      else (true, { p.2 with written := r.2.1 ++ p.2.written }, r.2.2)
  else
    let r := l.readSlow R accepts .blocks n
    if r.1 = false then (false, d, r.2.2)
    else
      let w := d.prepend r.2.1
      (w.1, w.2, r.2.2)

/-- `DigestingReader` as a class of readers. The other virtual functions are not overridden; in particular `SeekSlow()` reads and digests what is
skipped, and seeking back before `start_pos()` fails (`reader.cc:810-828`). -/
def ops : ReaderOps (DR σ) :=
  { (core R accepts).toOps with
    readSlow := readSlow R accepts
    copyBackSlow := copyBackSlow R accepts
    readSomeSlow := readSomeSlow R accepts
    readHintSlow := readHintSlow R accepts
    sizeImpl := sizeImpl R accepts }

/-- `DigestingReader(src, digester)` (`digesting_reader.h:261-268`, `digesting_reader.h:315-320`). -/
def init (s : σ) (digOk : Bool) : DR σ := ⟨s, R.cursor s, [], digOk, R.ok s && digOk, false⟩

/-- `Digest()` (`digesting_reader.h:156-167`): what the digest is of. -/
def digest (l : DR σ) : Bytes × DR σ :=
  let s := l.sync R accepts
  (s.2.digested, s.2)

/-- `VerifyEnd()` if the source is not owned (`reader.cc:47-59`), without the remaining length in the message. -/
def verifyEnd (l : DR σ) : DR σ :=
  let r := (ops R accepts).pull 1 0 l
  if r.1 then r.2.fail R accepts else r.2

/-- `Close()`: `DigestingReaderBase::Done()` (`digesting_reader.cc:54-60`), if the source and the digester are not owned. -/
def close (l : DR σ) : DR σ := if l.ok then (l.sync R accepts).2 else l

/-- The loop of `DigestFromReader()` (`digesting_reader.h:400-402`). The first argument bounds the number of iterations. -/
def drain : Nat → DR σ → DR σ
  | 0, l => l
  | fuel + 1, l =>
    let r := (ops R accepts).pull 1 0 { l with cur := R.limit l.src }
    if r.1 then drain fuel r.2 else r.2

/-- The `DigestingReader` of `DigestFromReader()` after `VerifyEndAndClose()`, and the length read (`digesting_reader.h:393-406`). -/
def digestRun (fuel : Nat) (s : σ) : DR σ × Nat :=
  let l := init R s true
  let q := l.drain R accepts fuel
  ((q.verifyEnd R accepts).close R accepts, q.cur - l.cur)

/-- `DigestFromReader()` (`digesting_reader.h:393-411`): `none` if it failed, otherwise what the digest is of, and the length read. -/
def digestFromReader (fuel : Nat) (s : σ) : Option (Bytes × Nat) :=
  let r := digestRun R accepts fuel s
  if r.1.ok then some (r.1.digested, r.2) else none

end DR
end Riegeli.Rdr

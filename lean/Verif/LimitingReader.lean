import Verif.ReaderProofs
/-!
# `LimitingReader`

Model of `riegeli/bytes/limiting_reader.{h,cc}` over an arbitrary source `Reader`. The buffer of a `LimitingReader` is a part of the
buffer of the source; the pointers `start()`, `cursor()`, `limit()` are represented by source positions, but `limit_pos()` is
separate, because `MakeBufferSlow()` makes them disagree when the position exceeds the limit.

Not modelled: status messages, moving, `NewReader()`, `Sync()` with a source which changes, owning of the source (`Close()` of an
owned source closes it too).
-/
namespace Riegeli.Rdr

/-- `kMaxPosition` (`limiting_reader.h:260`). -/
def kMaxPosition : Nat := 2 ^ 64 - 1

/-- `LimitingReaderBase` with its source (`limiting_reader.h:225-295`). -/
structure LR (σ : Type) where
  src : σ
  start : Nat
  cur : Nat
  lim : Nat
  limitPos : Nat
  maxPos : Nat
  exact : Bool
  failIfLonger : Bool
  ok : Bool

/-- The limit in `LimitingReaderBase::Options` (`limiting_reader.h:46-140`): `max_pos()`, `max_length()`, or none. -/
inductive Lim where
  | none
  | pos (m : Nat)
  | length (n : Nat)

/-- `LimitingReaderBase::Options`. -/
structure LOpts where
  limit : Lim
  exact : Bool
  failIfLonger : Bool

/-- The arguments of `Options::set_max_pos()` and `set_max_length()` are of type `Position`. -/
def LOpts.InRange (o : LOpts) : Prop :=
  match o.limit with
  | .none => True
  | .pos m => m ≤ kMaxPosition
  | .length n => n ≤ kMaxPosition

/-- The limit requested by options, as a position, if the current position is `pos`. -/
def LOpts.requested (o : LOpts) (pos : Nat) : Nat :=
  match o.limit with
  | .none => kMaxPosition
  | .pos m => m
  | .length n => pos + n

namespace LR
variable {σ : Type} (R : ReaderOps σ)

/-- `pos()`: `limit_pos_ - available()` (`reader.h:799-803`). -/
def pos (l : LR σ) : Nat := l.limitPos - (l.lim - l.cur)

/-- The source after an operation. -/
def setSrc (l : LR σ) (s : σ) : LR σ := { l with src := s }

/-- `SyncBuffer()` (`limiting_reader.h:643-645`). -/
def sync (l : LR σ) : LR σ := { l with src := R.setCursor l.cur l.src }

/-- `MakeBufferSlow()` (`limiting_reader.cc:52-61`). -/
def makeBufferSlow (l : LR σ) : LR σ :=
  if l.maxPos < l.pos then { l with start := l.cur, lim := l.cur, limitPos := l.maxPos }
  else { l with lim := l.lim - (l.limitPos - l.maxPos), limitPos := l.maxPos }

/-- `MakeBuffer()` (`limiting_reader.h:647-652`). -/
def makeBuffer (l : LR σ) : LR σ :=
  let l1 := { l with start := R.start l.src, cur := R.cursor l.src, lim := R.limit l.src, limitPos := R.limit l.src }
  let l2 := if l1.maxPos < l1.limitPos then l1.makeBufferSlow else l1
  if R.ok l.src = false then { l2 with ok := false } else l2

/-- `Fail()`: annotating the status synchronizes the buffer with the source (`limiting_reader.cc:119-128`). -/
def fail (l : LR σ) : LR σ := { (l.sync R).makeBuffer R with ok := false }

/-- `CheckEnough()` (`limiting_reader.cc:78-89`). -/
def checkEnough (l : LR σ) : LR σ := if l.exact then l.fail R else l

/-- `set_max_pos()` (`limiting_reader.h:623-626`). -/
def setMaxPos (m : Nat) (l : LR σ) : LR σ :=
  let l1 := { l with maxPos := m }
  if l1.maxPos < l1.limitPos then l1.makeBufferSlow else l1

/-- `set_max_length()` (`limiting_reader.h:628-641`). -/
def setMaxLength (n : Nat) (l : LR σ) : LR σ :=
  let m := w64 (l.pos + n)
  if m < n then
    let l1 := { l with maxPos := kMaxPosition }
    if l.exact then l1.fail R else l1
  else
    let l1 := { l with maxPos := m }
    if l1.maxPos < l1.limitPos then { l1 with lim := l1.lim - (l1.limitPos - l1.maxPos), limitPos := l1.maxPos }
    else l1

/-- `clear_limit()` (`limiting_reader.h:183`). -/
def clearLimit (l : LR σ) : LR σ := { l with maxPos := kMaxPosition }

/-- `max_length()` (`limiting_reader.h:616-621`). -/
def maxLength (l : LR σ) : Nat := l.maxPos - l.pos

/-- `LimitingReader(src, options)`: `Initialize()` (`limiting_reader.cc:39-50`). -/
def init (o : LOpts) (s : σ) : LR σ :=
  let l : LR σ := ⟨s, R.start s, R.cursor s, R.limit s, R.limit s, kMaxPosition, o.exact, o.failIfLonger, R.ok s⟩
  match o.limit with
  | .none => l
  | .pos m => l.setMaxPos m
  | .length n => l.setMaxLength R n

/-- `PullSlow()` (`limiting_reader.cc:130-145`). -/
def pullSlow (n rec : Nat) (l : LR σ) : Bool × LR σ :=
  if l.ok = false then (false, l)
  else
    let l := l.sync R
    let k := min n (l.maxPos - l.pos)
    let r := R.pull k rec l.src
    let l := makeBuffer R (l.setSrc r.2)
    if r.1 = false then (false, l.checkEnough R) else (k == n, l)

/-- `ReadSlow(char*)`, `ReadSlow(Chain&)`, `ReadSlow(Cord&)` (`limiting_reader.cc:147-197`). -/
def readSlow (kd : Kind) (n : Nat) (l : LR σ) : Bool × Bytes × LR σ :=
  if l.ok = false then (false, [], l)
  else
    let l := l.sync R
    let k := min n (l.maxPos - l.pos)
    let r := R.read kd k l.src
    let l := makeBuffer R (l.setSrc r.2.2)
    if r.1 = false then (false, r.2.1, l.checkEnough R) else (k == n, r.2.1, l)

/-- `CopySlow(Writer&)` (`limiting_reader.cc:199-217`). -/
def copySlow (n : Nat) (d : Dest) (l : LR σ) : Bool × Dest × LR σ :=
  if l.ok = false then (false, d, l)
  else
    let l := l.sync R
    let k := min n (l.maxPos - l.pos)
    let r := R.copy k d l.src
    let l := makeBuffer R (l.setSrc r.2.2)
    if r.1 = false then (false, r.2.1, if r.2.1.ok then l.checkEnough R else l) else (k == n, r.2.1, l)

/-- `CopySlow(BackwardWriter&)` (`limiting_reader.cc:219-242`). -/
def copyBackSlow (n : Nat) (d : Dest) (l : LR σ) : Bool × Dest × LR σ :=
  if l.ok = false then (false, d, l)
  else
    let l := l.sync R
    if l.maxPos - l.pos < n then
      let r := R.seek l.maxPos l.src
      let l := makeBuffer R (l.setSrc r.2)
      (false, d, if r.1 = false then l.checkEnough R else l)
    else
      let r := R.copyBack n d l.src
      let l := makeBuffer R (l.setSrc r.2.2)
      if r.1 = false then (false, r.2.1, if r.2.1.ok then l.checkEnough R else l) else (true, r.2.1, l)

/-- `ReadSomeSlow(char*)` (`limiting_reader.cc:244-262`). -/
def readSomeSlow (n : Nat) (l : LR σ) : Bool × Bytes × LR σ :=
  if l.ok = false then (false, [], l)
  else
    let l := l.sync R
    let k := min n (l.maxPos - l.pos)
    let r := R.readSome .chars k l.src
    let l := makeBuffer R (l.setSrc r.2.2)
    if r.1 = false then (false, r.2.1, l.checkEnough R) else (decide (0 < k), r.2.1, l)

/-- `CopySomeSlow(Writer&)` (`limiting_reader.cc:264-285`). -/
def copySomeSlow (n : Nat) (d : Dest) (l : LR σ) : Bool × Dest × LR σ :=
  if l.ok = false then (false, d, l)
  else
    let l := l.sync R
    let k := min n (l.maxPos - l.pos)
    let r := R.copySome k d l.src
    let l := makeBuffer R (l.setSrc r.2.2)
    if r.1 = false then (false, r.2.1, if r.2.1.ok then l.checkEnough R else l) else (decide (0 < k), r.2.1, l)

/-- `ReadHintSlow()` (`limiting_reader.cc:287-302`). -/
def readHintSlow (n rec : Nat) (l : LR σ) : LR σ :=
  if l.ok = false then l
  else
    let l := l.sync R
    let remaining := l.maxPos - l.pos
    makeBuffer R (l.setSrc (R.readHint (min n remaining) (min rec remaining) l.src))

/-- `SeekSlow()` (`limiting_reader.cc:319-334`). -/
def seekSlow (p : Nat) (l : LR σ) : Bool × LR σ :=
  if l.ok = false then (false, l)
  else
    let l := l.sync R
    let q := min p l.maxPos
    let r := R.seek q l.src
    let l := makeBuffer R (l.setSrc r.2)
    if r.1 = false then (false, l.checkEnough R) else (q == p, l)

/-- `SizeImpl()` (`limiting_reader.cc:342-354`). -/
def sizeImpl (l : LR σ) : Option Nat × LR σ :=
  if l.ok = false then (none, l)
  else if l.exact then (some l.maxPos, l)
  else
    let l := l.sync R
    let r := R.sizeImpl l.src
    let l := makeBuffer R (l.setSrc r.2)
    (r.1.map (min · l.maxPos), l)

/-- `LimitingReaderBase` as a class of readers. -/
def ops : ReaderOps (LR σ) where
  start l := l.limitPos - (l.lim - l.start)
  cursor := pos
  limit := limitPos
  buf l := slice (R.buf l.src) (l.start - R.start l.src) (l.lim - l.start)
  ok := LR.ok
  setCursor p l := { l with cur := l.lim - (l.limitPos - p) }
  pullSlow := pullSlow R
  readSlow := readSlow R
  copySlow := copySlow R
  copyBackSlow := copyBackSlow R
  readSomeSlow := readSomeSlow R
  copySomeSlow := copySomeSlow R
  readHintSlow := readHintSlow R
  seekSlow := seekSlow R
  sizeImpl := sizeImpl R
  ahead := R.ahead

/-- `Close()` of a `LimitingReader` which does not own the source: returns `ok()` and the source
(`limiting_reader.cc:63-76`). -/
def close (l : LR σ) : Bool × σ :=
  if l.ok then
    let l := l.sync R
    if l.failIfLonger ∧ l.pos = l.maxPos then
      let r := R.pull 1 0 l.src
      (!r.1, r.2)
    else (true, l.src)
  else (false, l.src)

/-- The settings which `ScopedLimiter` restores (`limiting_reader.h:442-446`). -/
structure Scope where
  oldMaxPos : Nat
  oldExact : Bool
  failIfLonger : Bool

/-- `ScopedLimiter::ScopedLimiter()` (`limiting_reader.h:718-743`). -/
def enter (o : LOpts) (l : LR σ) : Scope × LR σ :=
  let sc : Scope := ⟨l.maxPos, l.exact, o.failIfLonger⟩
  let l :=
    match o.limit with
    | .pos m => if l.maxPos < m then (if o.exact then l.fail R else l) else l.setMaxPos m
    | .length n => if l.maxLength < n then (if o.exact then l.fail R else l) else l.setMaxLength R n
    | .none => if l.maxPos < kMaxPosition ∧ o.exact then l.fail R else l
  (sc, { l with exact := true })

/-- `ScopedLimiter::~ScopedLimiter()` (`limiting_reader.h:746-758, `restore_max_pos()` at 609-614`). -/
def leave (sc : Scope) (l : LR σ) : LR σ :=
  let inner := l.maxPos
  let l1 := { l with maxPos := sc.oldMaxPos, exact := sc.oldExact }
  if sc.failIfLonger ∧ l1.pos = inner then
    let r := (ops R).pull 1 0 l1
    if r.1 then r.2.fail R else r.2
  else l1

end LR
end Riegeli.Rdr

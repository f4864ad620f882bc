import Verif.PrefixLimitingWriterProofs
/-!
# `PositionShiftingWriter`

Model of `riegeli/bytes/position_shifting_writer.{h,cc}` over any class of writers `W`. Like a `LimitingWriter`, it shares the buffer with its
destination: it writes to that buffer on its own, and moves the cursor of the destination only when it synchronizes. `kMax` is the maximal position
(`position_shifting_writer.h:123`); positions of the destination are not bounded.

Not modelled: moving, error messages, effects of `AnnotateStatus()` of the destination, `Fail()` called from outside, closing the destination, the
`PositionShiftingReader` returned by `ReadMode()`.
-/
namespace Riegeli.Wtr

/-- The destination, with its cursor where it was synchronized most recently; the bytes written to the shared buffer since then; `start_pos()`; the
length of the buffer from `start()`; `base_pos_` (`position_shifting_writer.h:132`). `owns` is `dest_.IsOwning()`. -/
structure PSW (σ : Type) where
  dst : σ
  pend : Bytes
  start : Nat
  lim : Nat
  basePos : Nat
  owns : Bool
  ok : Bool

namespace PSW
variable {σ : Type} (W : WriterOps σ) (kMax : Nat)

/-- `pos()` (`writer.h:311`). -/
def pos (l : PSW σ) : Nat := l.start + l.pend.length

/-- `available()`. -/
def avail (l : PSW σ) : Nat := l.lim - l.pend.length

/-- Copying to `cursor()` and `move_cursor()`. -/
def put (bs : Bytes) (l : PSW σ) : PSW σ := { l with pend := l.pend ++ bs }

/-- `SyncBuffer()` (`position_shifting_writer.h:249-251`): the destination afterwards. -/
def sync (l : PSW σ) : σ := W.put l.pend l.dst

/-- `OnFail()` (`writer.cc:69`) with marking the writer as failed, if the writer did not fail before. -/
def dead (l : PSW σ) : PSW σ := if l.ok then { l with ok := false, lim := 0 } else l

/-- `MakeBuffer()` (`position_shifting_writer.h:253-273`), with the destination in the given state. If it fails with `FailOverflow()` then
`AnnotateStatusImpl()` (`position_shifting_writer.cc:59-71`) makes the buffer again, in the same way. If the writer failed before, then it still takes the
buffer of the destination. -/
def make (n : Nat) (d : σ) (l : PSW σ) : Bool × PSW σ :=
  let l := { l with dst := d, pend := [] }
  let maxPos := kMax - l.basePos
  if maxPos < W.pos d + W.avail d then
    if maxPos < W.pos d then (false, ({ l with lim := 0, start := kMax }).dead)
    else
      let l := { l with lim := maxPos - W.pos d, start := W.pos d + l.basePos }
      if l.lim < n then (false, l.dead)
      else if W.ok d = false then (false, l.dead)
      else (true, l)
  else
    let l := { l with lim := W.avail d, start := W.pos d + l.basePos }
    if W.ok d = false then (false, l.dead) else (true, l)

/-- Synchronizes the buffer, calls a function of the destination, and takes its buffer again: the common part of functions below. -/
def through (n : Nat) (f : σ → Bool × σ) (l : PSW σ) : Bool × PSW σ :=
  if l.ok = false then (false, l)
  else
    let r := f (l.sync W)
    let m := l.make W kMax n r.2
    (m.1 && r.1, m.2)

/-- `FailUnderflow()` (`position_shifting_writer.cc:51-57`) and `FailOverflow()` (`writer.cc:76-78`), with `AnnotateStatusImpl()`
(`position_shifting_writer.cc:59-71`) which leaves buffered data to the destination. -/
def fail (l : PSW σ) : PSW σ := (l.make W kMax 0 (l.sync W)).2.dead

/-- `PushSlow()` (`position_shifting_writer.cc:81-91`). -/
def pushSlow (n rec : Nat) (l : PSW σ) : Bool × PSW σ := l.through W kMax n (W.push n rec)

/-- `WriteInternal()` (`position_shifting_writer.cc:142-149`), called by all variants of `WriteSlow()` (`position_shifting_writer.cc:93-140`); chains and
cords are written by fragments in `WriterOps.writeChain`. -/
def writeSlow (bs : Bytes) (l : PSW σ) : Bool × PSW σ := l.through W kMax 0 (W.write bs)

/-- `WriteSlow(ByteFill)` (`position_shifting_writer.cc:135-140`). -/
def fillSlow (n : Nat) (b : UInt8) (l : PSW σ) : Bool × PSW σ := l.through W kMax 0 (W.fill n b)

/-- `FlushImpl()` (`position_shifting_writer.h:339-348`). -/
def flushImpl (t : FlushType) (l : PSW σ) : Bool × PSW σ :=
  match t, l.owns with
  | .fromObject, false => l.through W kMax 0 (fun d => (true, d))
  | _, _ => l.through W kMax 0 (W.flushImpl t)

/-- `SeekSlow()` (`position_shifting_writer.cc:156-168`). -/
def seekSlow (q : Nat) (l : PSW σ) : Bool × PSW σ :=
  if l.ok = false then (false, l)
  else if q < l.basePos then (false, l.fail W kMax)
  else l.through W kMax 0 (W.seek (q - l.basePos))

/-- `SizeImpl()` (`position_shifting_writer.cc:170-183`). -/
def sizeImpl (l : PSW σ) : Option Nat × PSW σ :=
  if l.ok = false then (none, l)
  else
    let r := W.sizeImpl (l.sync W)
    let m := l.make W kMax 0 r.2
    match m.1, r.1 with
    | true, some n => if kMax - l.basePos < n then (none, m.2.fail W kMax) else (some (n + l.basePos), m.2)
    | _, _ => (none, m.2)

/-- `TruncateImpl()` (`position_shifting_writer.cc:190-199`). -/
def truncateImpl (n : Nat) (l : PSW σ) : Bool × PSW σ :=
  if l.ok = false then (false, l)
  else if n < l.basePos then (false, l.fail W kMax)
  else l.through W kMax 0 (W.truncateImpl (n - l.basePos))

/-- `ReadModeImpl()` (`position_shifting_writer.cc:206-222`): whether a reader is returned. -/
def readModeImpl (q : Nat) (l : PSW σ) : Bool × PSW σ := l.through W kMax 0 (W.readModeImpl (q - l.basePos))

/-- `SupportsRandomAccess()` and `SupportsTruncate()` (`position_shifting_writer.cc:151-154`, `position_shifting_writer.cc:185-188`): the buffer is not
synchronized. -/
def randomAccess (l : PSW σ) : Bool × PSW σ :=
  let r := W.randomAccess l.dst
  (r.1, { l with dst := r.2 })

/-- `SetWriteSizeHintImpl()` (`position_shifting_writer.h:326-337`). It does not check `ok()`. -/
def setHint (h : Option Nat) (l : PSW σ) : PSW σ :=
  if l.owns then (l.make W kMax 0 (W.setHint (h.map (fun n => l.basePos + n)) (l.sync W))).2 else l

/-- `PositionShiftingWriterBase::Done()` (`position_shifting_writer.cc:42-49`), called by `Close()`. Closing the destination if it is owned is up to the
class of the destination. -/
def done (l : PSW σ) : PSW σ := if l.ok then { l with dst := l.sync W, pend := [], start := l.pos } else l

/-- `PositionShiftingWriter(dest, Options().set_base_pos(basePos))` (`position_shifting_writer.h:243-247`). -/
def init (d : σ) (basePos : Nat) (owns : Bool) : PSW σ :=
  (make W kMax 0 d { dst := d, pend := [], start := 0, lim := 0, basePos := basePos, owns := owns, ok := true }).2

/-- `PositionShiftingWriter` as a class of writers. -/
def ops : WriterOps (PSW σ) where
  pos := pos
  avail := avail
  ok := PSW.ok
  put := put
  pushSlow := pushSlow W kMax
  writeSlow := writeSlow W kMax
  fillSlow := fillSlow W kMax
  flushImpl := flushImpl W kMax
  seekSlow := seekSlow W kMax
  sizeImpl := sizeImpl W kMax
  truncateImpl := truncateImpl W kMax
  readModeImpl := readModeImpl W kMax
  randomAccess := randomAccess W
  setHint := setHint W kMax

/-- The same class, except that `SetWriteSizeHint()` of a failed writer does nothing. -/
def opsOk : WriterOps (PSW σ) := { ops W kMax with setHint := fun h l => if l.ok then l.setHint W kMax h else l }

end PSW
end Riegeli.Wtr

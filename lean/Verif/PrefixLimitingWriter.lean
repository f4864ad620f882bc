import Verif.LimitingWriterProofs
/-!
# `PrefixLimitingWriter`

Model of `riegeli/bytes/prefix_limiting_writer.{h,cc}` over any class of writers `W`. Like a `LimitingWriter`, it shares the buffer with its
destination: it writes to that buffer on its own, and moves the cursor of the destination only when it synchronizes.

Not modelled: moving, `AnnotateStatus()` and error messages, overflow of positions, `Fail()` called from outside, closing the destination, the
`PrefixLimitingReader` returned by `ReadMode()`.
-/
namespace Riegeli.Wtr

/-- The destination, with its cursor where it was synchronized most recently; the bytes written to the shared buffer since then; `start_pos()`;
`base_pos_` (`prefix_limiting_writer.h:130`). `owns` is `dest_.IsOwning()`. `broken` is not used by the program: it says that the assertion of
`MakeBuffer()` failed. -/
structure PLW (σ : Type) where
  dst : σ
  pend : Bytes
  start : Nat
  basePos : Nat
  owns : Bool
  ok : Bool
  broken : Bool

namespace PLW
variable {σ : Type} (W : WriterOps σ)

/-- `pos()` (`writer.h:311`). -/
def pos (l : PLW σ) : Nat := l.start + l.pend.length

/-- `available()`: the end of the buffer is that of the destination; a failed writer has no buffer (`writer.cc:69`). -/
def avail (l : PLW σ) : Nat := if l.ok then W.avail l.dst - l.pend.length else 0

/-- Copying to `cursor()` and `move_cursor()`. -/
def put (bs : Bytes) (l : PLW σ) : PLW σ := { l with pend := l.pend ++ bs }

/-- `SyncBuffer()` (`prefix_limiting_writer.h:253-255`): the destination afterwards. -/
def sync (l : PLW σ) : σ := W.put l.pend l.dst

/-- `MakeBuffer()` (`prefix_limiting_writer.h:257-265`), with the destination in the given state. Simplified: the assertion about the position is
considered only for a destination which did not fail. -/
def make (d : σ) (l : PLW σ) : PLW σ :=
  { l with dst := d, pend := [], start := W.pos d - l.basePos, ok := l.ok && W.ok d, broken := l.broken || (W.ok d && decide (W.pos d < l.basePos)) }

/-- Synchronizes the buffer, calls a function of the destination, and takes its buffer again: the common part of functions below. -/
def through (f : σ → Bool × σ) (l : PLW σ) : Bool × PLW σ :=
  if l.ok = false then (false, l)
  else
    let r := f (l.sync W)
    (r.1, l.make W r.2)

/-- `PushSlow()` (`prefix_limiting_writer.cc:71-82`). -/
def pushSlow (n rec : Nat) (l : PLW σ) : Bool × PLW σ := l.through W (W.push n rec)

/-- `WriteInternal()` (`prefix_limiting_writer.cc:133-141`), called by all variants of `WriteSlow()` (`prefix_limiting_writer.cc:84-131`); chains and cords are
written by fragments in `WriterOps.writeChain`. -/
def writeSlow (bs : Bytes) (l : PLW σ) : Bool × PLW σ := l.through W (W.write bs)

/-- `WriteSlow(ByteFill)` (`prefix_limiting_writer.cc:126-131`). -/
def fillSlow (n : Nat) (b : UInt8) (l : PLW σ) : Bool × PLW σ := l.through W (W.fill n b)

/-- `FlushImpl()` (`prefix_limiting_writer.h:331-341`). -/
def flushImpl (t : FlushType) (l : PLW σ) : Bool × PLW σ :=
  match t, l.owns with
  | .fromObject, false => l.through W (fun d => (true, d))
  | _, _ => l.through W (W.flushImpl t)

/-- `SeekSlow()` (`prefix_limiting_writer.cc:148-164`). -/
def seekSlow (q : Nat) (l : PLW σ) : Bool × PLW σ := l.through W (W.seek (q + l.basePos))

/-- `SizeImpl()` (`prefix_limiting_writer.cc:166-174`). -/
def sizeImpl (l : PLW σ) : Option Nat × PLW σ :=
  if l.ok = false then (none, l)
  else
    let r := W.sizeImpl (l.sync W)
    (r.1.map (fun n => n - l.basePos), l.make W r.2)

/-- `TruncateImpl()` (`prefix_limiting_writer.cc:181-194`). -/
def truncateImpl (n : Nat) (l : PLW σ) : Bool × PLW σ := l.through W (W.truncateImpl (n + l.basePos))

/-- `ReadModeImpl()` (`prefix_limiting_writer.cc:201-210`). -/
def readModeImpl (q : Nat) (l : PLW σ) : Bool × PLW σ := l.through W (W.readModeImpl (q + l.basePos))

/-- `SupportsRandomAccess()` and `SupportsTruncate()` (`prefix_limiting_writer.cc:143-146`, `prefix_limiting_writer.cc:176-179`): the buffer is not
synchronized. -/
def randomAccess (l : PLW σ) : Bool × PLW σ :=
  let r := W.randomAccess l.dst
  (r.1, { l with dst := r.2 })

/-- `SetWriteSizeHintImpl()` (`prefix_limiting_writer.h:318-329`). It does not check `ok()`. -/
def setHint (h : Option Nat) (l : PLW σ) : PLW σ :=
  if l.owns then l.make W (W.setHint (h.map (fun n => l.basePos + n)) (l.sync W)) else l

/-- `PrefixLimitingWriterBase::Done()` (`prefix_limiting_writer.cc:41-48`), called by `Close()`. Closing the destination if it is owned is up to the
class of the destination. -/
def done (l : PLW σ) : PLW σ := if l.ok then { l with dst := l.sync W, pend := [], start := l.pos } else l

/-- `PrefixLimitingWriter(dest, Options().set_base_pos(basePos))` (`prefix_limiting_writer.h:238-251`, `prefix_limiting_writer.h:287-292`). -/
def init (d : σ) (basePos : Option Nat) (owns : Bool) : PLW σ :=
  make W d { dst := d, pend := [], start := 0, basePos := basePos.getD (W.pos d), owns := owns, ok := true, broken := false }

/-- `PrefixLimitingWriter` as a class of writers. -/
def ops : WriterOps (PLW σ) where
  pos := pos
  avail := avail W
  ok := PLW.ok
  put := put
  pushSlow := pushSlow W
  writeSlow := writeSlow W
  fillSlow := fillSlow W
  flushImpl := flushImpl W
  seekSlow := seekSlow W
  sizeImpl := sizeImpl W
  truncateImpl := truncateImpl W
  readModeImpl := readModeImpl W
  randomAccess := randomAccess W
  setHint := setHint W

end PLW
end Riegeli.Wtr

import Verif.WriterProofs
/-!
# `LimitingWriter`

Model of `riegeli/bytes/limiting_writer.{h,cc}` over any class of writers `W`. A `LimitingWriter` shares the buffer with its destination: it
writes to that buffer on its own, and moves the cursor of the destination only when it synchronizes.

Not modelled: moving, `AnnotateStatus()` and error messages, overflow of positions, a destination which is not positioned at or before the limit
(see `make` and `setMaxPos`).
-/
namespace Riegeli.Wtr

/-- The destination, with its cursor where it was synchronized most recently; the bytes written to the shared buffer since then; the position of
that cursor as seen by the `LimitingWriter`; and the fields of `LimitingWriterBase` (`limiting_writer.h:208-216`). `owns` is
`dest_.IsOwning()`. `broken` is not used by the program: it says that `set_cursor()` of the destination was called with a pointer outside
its buffer. -/
structure LW (σ : Type) where
  dst : σ
  pend : Bytes
  base : Nat
  maxPos : Nat
  exact : Bool
  owns : Bool
  ok : Bool
  broken : Bool

namespace LW
variable {σ : Type} (W : WriterOps σ)

/-- `pos()` (`writer.h:311`). -/
def pos (l : LW σ) : Nat := l.base + l.pend.length

/-- `available()`: the end of the buffer is that of the destination; a failed writer has no buffer (`writer.cc:69`). -/
def avail (l : LW σ) : Nat := if l.ok then W.avail l.dst - l.pend.length else 0

/-- Copying to `cursor()` and `move_cursor()`. -/
def put (bs : Bytes) (l : LW σ) : LW σ := { l with pend := l.pend ++ bs }

/-- `FailLimitExceeded()` (`limiting_writer.cc:91-103`), with the destination in the given state. -/
def failLimit (d : σ) (l : LW σ) : LW σ := { l with dst := d, pend := [], base := l.maxPos, ok := false }

/-- `SyncBuffer()` (`limiting_writer.h:311-318`). -/
def sync (l : LW σ) : Bool × LW σ :=
  if l.maxPos < l.pos then (false, l.failLimit (W.put (l.pend.take (l.pend.length - (l.pos - l.maxPos))) l.dst))
  else (true, { l with dst := W.put l.pend l.dst, pend := [], base := l.pos })

/-- `MakeBuffer()` (`limiting_writer.h:320-329`), with the destination in the given state. Simplified: the code compares the limit with the
position of the beginning of the buffer rather than of the cursor; this differs only if the destination moved past the limit. -/
def make (d : σ) (l : LW σ) : LW σ :=
  if l.maxPos < W.pos d then l.failLimit d
  else { l with dst := d, pend := [], base := W.pos d, ok := l.ok && W.ok d }

/-- Synchronizes the buffer, calls a function of the destination, and takes its buffer again: the common part of functions below. -/
def through (f : σ → Bool × σ) (l : LW σ) : Bool × LW σ :=
  if l.ok = false then (false, l)
  else
    let s := l.sync W
    if s.1 = false then (false, s.2)
    else
      let r := f s.2.dst
      (r.1, s.2.make W r.2)

/-- `PushSlow()` (`limiting_writer.cc:122-136`). -/
def pushSlow (n rec : Nat) (l : LW σ) : Bool × LW σ := l.through W (W.push n rec)

/-- `WriteInternal()` (`limiting_writer.cc:203-224`), called by all variants of `WriteSlow()` (`limiting_writer.cc:138-201`); chains and cords are written
by fragments in `WriterOps.writeChain`. -/
def writeSlow (bs : Bytes) (l : LW σ) : Bool × LW σ :=
  if l.ok = false then (false, l)
  else
    let s := l.sync W
    if s.1 = false then (false, s.2)
    else
      let maxLength := s.2.maxPos - s.2.pos
      if bs.length ≤ maxLength then
        let r := W.write bs s.2.dst
        (r.1, s.2.make W r.2)
      else
        let r := W.write (bs.take (bs.length - (bs.length - maxLength))) s.2.dst
        if r.1 = false then (false, s.2.make W r.2)
        else (false, s.2.failLimit r.2)

/-- `WriteSlow(ByteFill)` (`limiting_writer.cc:226-247`). -/
def fillSlow (n : Nat) (b : UInt8) (l : LW σ) : Bool × LW σ :=
  if l.ok = false then (false, l)
  else
    let s := l.sync W
    if s.1 = false then (false, s.2)
    else
      let maxLength := s.2.maxPos - s.2.pos
      if n ≤ maxLength then
        let r := W.fill n b s.2.dst
        (r.1, s.2.make W r.2)
      else
        let r := W.fill maxLength b s.2.dst
        if r.1 = false then (false, s.2.make W r.2)
        else (false, s.2.failLimit r.2)

/-- `FlushImpl()` (`limiting_writer.h:399-409`). -/
def flushImpl (t : FlushType) (l : LW σ) : Bool × LW σ :=
  match t, l.owns with
  | .fromObject, false => l.through W (fun d => (true, d))
  | _, _ => l.through W (W.flushImpl t)

/-- `SeekSlow()` (`limiting_writer.cc:254-268`). -/
def seekSlow (q : Nat) (l : LW σ) : Bool × LW σ :=
  let r := l.through W (W.seek (min q l.maxPos))
  (r.1 && min q l.maxPos == q, r.2)

/-- `SizeImpl()` (`limiting_writer.cc:270-280`). -/
def sizeImpl (l : LW σ) : Option Nat × LW σ :=
  if l.ok = false then (none, l)
  else
    let s := l.sync W
    if s.1 = false then (none, s.2)
    else
      let r := W.sizeImpl s.2.dst
      (r.1, s.2.make W r.2)

/-- `TruncateImpl()` (`limiting_writer.cc:287-300`): data past the limit are dropped first if they would be truncated anyway. -/
def truncateImpl (n : Nat) (l : LW σ) : Bool × LW σ :=
  if l.ok = false then (false, l)
  else
    let l := if l.maxPos < l.pos ∧ n ≤ l.maxPos then { l with pend := l.pend.take (l.pend.length - (l.pos - l.maxPos)) } else l
    l.through W (W.truncateImpl n)

/-- `ReadModeImpl()` (`limiting_writer.cc:307-317`). -/
def readModeImpl (q : Nat) (l : LW σ) : Bool × LW σ := l.through W (W.readModeImpl q)

/-- `SupportsRandomAccess()` and `SupportsTruncate()` (`limiting_writer.cc:249-252`, `limiting_writer.cc:282-285`): the buffer is not synchronized. -/
def randomAccess (l : LW σ) : Bool × LW σ :=
  let r := W.randomAccess l.dst
  (r.1, { l with dst := r.2 })

/-- `SetWriteSizeHintImpl()` (`limiting_writer.h:386-397`). It does not check `ok()`: if the limit was exceeded, then the cursor is null, and
`SyncBuffer()` sets the cursor of the destination to null. In this case the rest is not modelled. -/
def setHint (h : Option Nat) (l : LW σ) : LW σ :=
  if l.owns && !l.exact then
    if l.ok = false ∧ W.ok l.dst = true then { l with broken := true }
    else
      let s := l.sync W
      if s.1 = false then s.2
      else s.2.make W (W.setHint (h.map (fun n => min n (s.2.maxPos - s.2.pos))) s.2.dst)
  else l

/-- `LimitingWriterBase::Done()` (`limiting_writer.cc:78-89`), called by `Close()`. Closing the destination if it is owned is up to the class of the
destination. -/
def done (l : LW σ) : LW σ :=
  let l := if l.ok then (l.sync W).2 else l
  if l.exact ∧ l.pos < l.maxPos then { l with ok := false } else l

/-- `set_max_pos()` (`limiting_writer.cc:60-67`). Simplified: it is not called with a limit before the current position. -/
def setMaxPos (n : Nat) (l : LW σ) : LW σ := { l with maxPos := n }

/-- `LimitingWriter(dest, Options().set_max_pos(maxPos).set_exact(exact))` (`limiting_writer.h:355-360`, `limiting_writer.cc:39-58`). -/
def init (d : σ) (maxPos : Nat) (exact owns : Bool) : LW σ :=
  let d := if owns && exact then W.setHint (some (maxPos - W.pos d)) d else d
  { dst := d, pend := [], base := W.pos d, maxPos := maxPos, exact := exact, owns := owns, ok := W.ok d, broken := false }

/-- `LimitingWriter` as a class of writers. -/
def ops : WriterOps (LW σ) where
  pos := pos
  avail := avail W
  ok := LW.ok
  put := put
  pushSlow := pushSlow W
  writeSlow := writeSlow W
  fillSlow := fillSlow W
  flushImpl := flushImpl W
  seekSlow := seekSlow W
  sizeImpl := sizeImpl W
  truncateImpl := truncateImpl W
  readModeImpl := readModeImpl W
  randomAccess := randomAccess W
  setHint := setHint W

end LW
end Riegeli.Wtr

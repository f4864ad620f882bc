import Verif.WriterProofs
/-!
# `DigestingWriter`

Model of `riegeli/digests/digesting_writer.{h,cc}` over any class of writers `W`, with any digester. Like a `LimitingWriter`, it shares the buffer
with its destination: it writes to that buffer on its own, and digests these data and moves the cursor of the destination only when it
synchronizes.

Not modelled: moving, error messages, effects of `AnnotateStatus()` of the destination, closing the destination and the digester, the digest
computed from the data by the digester.
-/
namespace Riegeli.Wtr

/-- The destination, with its cursor where it was synchronized most recently; the bytes written to the shared buffer since then; `start_pos()`; whether
`limit()` is that of the destination, rather than `start()`; what the digester was given, and whether it did not fail. `owns` is
`dest_.IsOwning()`. `broken` is not used by the program: it says that the assertion of `SyncBuffer()` failed. -/
structure DW (σ : Type) where
  dst : σ
  pend : Bytes
  base : Nat
  live : Bool
  digested : Bytes
  digOk : Bool
  owns : Bool
  ok : Bool
  broken : Bool

namespace DW
variable {σ : Type} (W : WriterOps σ) (accepts : Bytes → Bytes → Bool)

/-- `pos()` (`writer.h:311`). -/
def pos (l : DW σ) : Nat := l.base + l.pend.length

/-- `available()`. -/
def avail (l : DW σ) : Nat := if l.live then W.avail l.dst - l.pend.length else 0

/-- Copying to `cursor()` and `move_cursor()`. -/
def put (bs : Bytes) (l : DW σ) : DW σ := { l with pend := l.pend ++ bs }

/-- `Write()` of the digester: `accepts x bs` says whether it succeeds to digest `bs` after `x`. After a failure it fails. -/
def feed (bs : Bytes) (l : DW σ) : Bool × DW σ :=
  if l.digOk && accepts l.digested bs then (true, { l with digested := l.digested ++ bs }) else (false, { l with digOk := false })

/-- `OnFail()` (`writer.cc:69`), if the writer did not fail before. -/
def dead (l : DW σ) : DW σ := if l.ok then { l with ok := false, live := false, pend := [] } else l

/-- `SyncBuffer()` (`digesting_writer.h:307-320`). If the digester fails, then `AnnotateStatusImpl()` tries to digest the same data again, which fails
again. -/
def sync (l : DW σ) : Bool × DW σ :=
  if l.pend = [] then (true, l)
  else
    let f := l.feed accepts l.pend
    if f.1 = false then (false, f.2.dead)
    else (true, { f.2 with dst := W.put l.pend l.dst, pend := [], base := l.pos })

/-- `MakeBuffer()` (`digesting_writer.h:322-326`), with the destination in the given state. If the writer failed before, then it still takes the buffer
of the destination. -/
def make (d : σ) (l : DW σ) : DW σ :=
  { l with dst := d, pend := [], base := W.pos d, live := !l.ok || W.ok d, ok := l.ok && W.ok d }

/-- `Fail()` (`object.cc:98-106`) with `AnnotateStatusImpl()` (`digesting_writer.cc:61-70`): buffered data are digested and left to the destination. -/
def fail (l : DW σ) : DW σ :=
  if l.ok = false then l
  else
    let s := l.sync W accepts
    if s.1 = false then s.2 else (s.2.make W s.2.dst).dead

/-- Synchronizes the buffer, calls a function of the destination, and takes its buffer again: the common part of functions below. -/
def through (f : σ → Bool × σ) (l : DW σ) : Bool × DW σ :=
  if l.ok = false then (false, l)
  else
    let s := l.sync W accepts
    if s.1 = false then (false, s.2)
    else
      let r := f s.2.dst
      (r.1, s.2.make W r.2)

/-- `PushSlow()` (`digesting_writer.cc:72-83`). -/
def pushSlow (n rec : Nat) (l : DW σ) : Bool × DW σ := l.through W accepts (W.push n rec)

/-- `WriteSlow()` (`digesting_writer.cc:85-96`) and `WriteInternal()` (`digesting_writer.cc:141-150`), writing with the given function. If the digester fails,
then `SyncBuffer()` called by `AnnotateStatusImpl()` finds that the cursor of the destination is already moved. -/
def writeWith (bs : Bytes) (f : σ → Bool × σ) (l : DW σ) : Bool × DW σ :=
  if l.ok = false then (false, l)
  else
    let s := l.sync W accepts
    if s.1 = false then (false, s.2)
    else
      let g := s.2.feed accepts bs
      if g.1 = false then (false, { g.2.dead with base := l.base, broken := l.broken || decide (l.pend ≠ []) })
      else
        let r := f g.2.dst
        (r.1, g.2.make W r.2)

/-- `WriteSlow(string_view)` (`digesting_writer.cc:85-96`); chains and cords are written by fragments in `WriterOps.writeChain`. -/
def writeSlow (bs : Bytes) (l : DW σ) : Bool × DW σ := l.writeWith W accepts bs (W.write bs)

/-- `WriteSlow(ByteFill)` (`digesting_writer.cc:133-138`). -/
def fillSlow (n : Nat) (b : UInt8) (l : DW σ) : Bool × DW σ := l.writeWith W accepts (List.replicate n b) (W.fill n b)

/-- `FlushImpl()` (`digesting_writer.h:434-443`). -/
def flushImpl (t : FlushType) (l : DW σ) : Bool × DW σ :=
  match t, l.owns with
  | .fromObject, false => l.through W accepts (fun d => (true, d))
  | _, _ => l.through W accepts (W.flushImpl t)

/-- `ReadModeImpl()` (`digesting_writer.cc:157-164`). -/
def readModeImpl (q : Nat) (l : DW σ) : Bool × DW σ := l.through W accepts (W.readModeImpl q)

/-- `SetWriteSizeHintImpl()` (`digesting_writer.h:417-431`), without the hint for the digester. It does not check `ok()`. -/
def setHint (h : Option Nat) (l : DW σ) : DW σ :=
  if l.owns then
    let s := l.sync W accepts
    if s.1 = false then s.2 else s.2.make W (W.setHint h s.2.dst)
  else l

/-- `Digest()` (`digesting_writer.h:192-204`): what the digest is of. -/
def digest (l : DW σ) : Bytes × DW σ :=
  let s := l.sync W accepts
  (s.2.digested, s.2)

/-- `DigestingWriterBase::Done()` (`digesting_writer.cc:53-59`), called by `Close()`. -/
def done (l : DW σ) : DW σ := if l.ok then (l.sync W accepts).2 else l

/-- `DigestingWriter(dest, digester)` (`digesting_writer.h:298-305`, `digesting_writer.h:359-363`). -/
def init (d : σ) (digOk owns : Bool) : DW σ :=
  { dst := d, pend := [], base := W.pos d, live := W.ok d && digOk, digested := [], digOk := digOk, owns := owns, ok := W.ok d && digOk,
    broken := false }

/-- `DigestingWriter` as a class of writers. `Seek()` to another position, `Size()` and `Truncate()` are not supported (`writer.cc:265-279`). -/
def ops : WriterOps (DW σ) where
  pos := pos
  avail := avail W
  ok := DW.ok
  put := put
  pushSlow := pushSlow W accepts
  writeSlow := writeSlow W accepts
  fillSlow := fillSlow W accepts
  flushImpl := flushImpl W accepts
  seekSlow _ l := (false, l.fail W accepts)
  sizeImpl l := (none, l.fail W accepts)
  truncateImpl _ l := (false, l.fail W accepts)
  readModeImpl := readModeImpl W accepts
  randomAccess l := (false, l)
  setHint := setHint W accepts

/-- The same class, except that `SetWriteSizeHint()` of a failed writer does nothing. -/
def opsOk : WriterOps (DW σ) := { ops W accepts with setHint := fun h l => if l.ok then l.setHint W accepts h else l }

end DW
end Riegeli.Wtr

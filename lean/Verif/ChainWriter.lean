import Verif.StringWriter
import Verif.WriterRef
/-!
# `ChainWriter`

Model of `riegeli/bytes/chain_writer.{h,cc}`. Data are written to space at the end of a `Chain`. After seeking back, data which follow the current position are either
kept in another `Chain`, the tail, or appended to the destination.

How much space `Chain::AppendBuffer()` gives, and what is in memory which was not written yet, are arbitrary (`SCfg`). A `Chain` is a sequence of bytes (C30), and so
copying between chains block by block is not modelled.

Not modelled: moving, other users changing the chain.
-/
namespace Riegeli.Wtr

/-- `*DestChain()` with the buffer at its end; `*tail_`, where no tail is the same as an empty tail; `start_pos()`, `start_to_limit()`, `start_to_cursor()`.
`tick` counts decisions about memory. `seen` is not used by the program: it is what the last `Flush()` or `ReadMode()` showed. -/
structure CW where
  dest : Bytes
  tail : Bytes
  startPos : Nat
  lim : Nat
  cur : Nat
  ok : Bool
  tick : Nat
  seen : Bytes

namespace CW
variable (G : SCfg)

/-- `pos()` (`writer.h:311`). -/
def pos (s : CW) : Nat := s.startPos + s.cur

/-- `limit_pos()` (`writer.h:319`). -/
def limitPos (s : CW) : Nat := s.startPos + s.lim

/-- `available()`. -/
def avail (s : CW) : Nat := s.lim - s.cur

/-- Copying to `cursor()` and `move_cursor()`. The buffer is the end of the chain. -/
def put (bs : Bytes) (s : CW) : CW := { s with dest := poke s.dest (s.dest.length - s.lim + s.cur) bs, cur := s.cur + bs.length }

/-- `Fail()` with `OnFail()` (`writer.cc:69`). -/
def failed (s : CW) : CW := { s with ok := false, lim := 0, cur := 0 }

/-- `HasAppendedTail()` (`chain_writer.cc:113-115`). -/
def hasTail (s : CW) : Bool := s.limitPos < s.dest.length

/-- `MoveToTail()` (`chain_writer.cc:88-111`). -/
def moveToTail (n : Nat) (s : CW) : CW :=
  { s with tail := s.dest.drop (s.dest.length - n) ++ s.tail, dest := s.dest.take (s.dest.length - n) }

/-- `MoveFromTail()` (`chain_writer.cc:65-86`). -/
def moveFromTail (n : Nat) (s : CW) : CW := { s with dest := s.dest ++ s.tail.take n, tail := s.tail.drop n }

/-- `AppendTail()` (`chain_writer.cc:127-135`). -/
def appendTail (s : CW) : CW := { s with dest := s.dest ++ s.tail, tail := [] }

/-- `ShrinkTail()` (`chain_writer.cc:137-141`). -/
def shrinkTail (n : Nat) (s : CW) : CW := { s with tail := s.tail.drop (min n s.tail.length) }

/-- `SyncBuffer()` with `ExtractTail()` (`chain_writer.cc:47-56`, `chain_writer.cc:117-125`). -/
def sync (s : CW) : CW :=
  if s.hasTail then s.moveToTail (s.dest.length - s.startPos)
  else
    let t := s.shrinkTail s.cur
    { t with startPos := s.pos, dest := s.dest.take (s.dest.length - s.avail), lim := 0, cur := 0 }

/-- `MakeBuffer()` (`chain_writer.cc:58-63`). -/
def makeBuf (n rec : Nat) (s : CW) : CW :=
  let k := max n (G.block s.tick s.dest.length n rec)
  { s with dest := s.dest ++ G.fresh s.tick k, lim := k, cur := 0, tick := s.tick + 1 }

/-- `PushSlow()` (`chain_writer.cc:153-168`). `kMaxSize` is `kMaxPosition` (`chain_writer.h:168`). -/
def pushSlow (n rec : Nat) (s : CW) : Bool × CW :=
  if s.ok = false then (false, s)
  else
    let t := s.sync
    if kMaxSize - t.startPos < n then (false, t.failed) else (true, t.makeBuf G n rec)

/-- `WriteSlow(ExternalRef)`, `WriteSlow(Chain)`, `WriteSlow(Cord)` and `WriteSlow(ByteFill)` (`chain_writer.cc:170-288`). -/
def refSlow (bs : Bytes) (s : CW) : Bool × CW :=
  if s.ok = false then (false, s)
  else
    let t := s.sync
    if kMaxSize - t.startPos < bs.length then (false, t.failed)
    else
      let t := t.shrinkTail bs.length
      (true, ({ t with startPos := t.startPos + bs.length, dest := t.dest ++ bs }).makeBuf G 0 0)

/-- `FlushImpl()` (`chain_writer.cc:290-307`). -/
def flushImpl (s : CW) : Bool × CW :=
  if s.ok = false then (false, s)
  else if s.hasTail then (true, { s with seen := s.dest })
  else
    let t := s.sync.appendTail
    (true, { t with seen := t.dest })

/-- `SeekSlow()` (`chain_writer.cc:309-347`). -/
def seekSlow (q : Nat) (s : CW) : Bool × CW :=
  if s.ok = false then (false, s)
  else if s.hasTail then
    if s.dest.length < q then (false, { s with startPos := s.dest.length })
    else (true, { s.moveToTail (s.dest.length - q) with startPos := q })
  else if s.pos < q then
    if s.tail = [] then (false, s)
    else
      let t := s.sync
      if t.dest.length + t.tail.length < q then
        let t := t.appendTail
        (false, { t with startPos := t.dest.length })
      else (true, { t.moveFromTail (q - t.dest.length) with startPos := q })
  else
    let t := s.sync
    (true, { t.moveToTail (t.dest.length - q) with startPos := q })

/-- `SizeImpl()` (`chain_writer.cc:349-367`). -/
def sizeImpl (s : CW) : Option Nat × CW :=
  if s.ok = false then (none, s)
  else if s.hasTail then (some s.dest.length, s)
  else (some (max s.pos (s.startPos + s.tail.length)), s)

/-- The end of `TruncateImpl()` (`chain_writer.cc:405-410`). -/
def cut (n : Nat) (s : CW) : CW := { s with startPos := n, dest := s.dest.take (s.dest.length - (s.dest.length - n)), lim := 0, cur := 0 }

/-- `TruncateImpl()` (`chain_writer.cc:369-411`). -/
def truncateImpl (n : Nat) (s : CW) : Bool × CW :=
  if s.ok = false then (false, s)
  else if s.hasTail then
    if s.dest.length < n then (false, { s with startPos := s.dest.length }) else (true, s.cut n)
  else if s.pos < n then
    if s.tail = [] then (false, s)
    else
      let t := s.sync
      if t.dest.length + t.tail.length < n then (false, ({ t with startPos := t.startPos + t.tail.length }).appendTail)
      else (true, ({ t with startPos := n, tail := t.tail.take (t.tail.length - (t.dest.length + t.tail.length - n)) }).appendTail)
  else
    let t := { s with tail := [] }
    if s.startPos ≤ n then (true, { t with cur := n - s.startPos }) else (true, t.cut n)

/-- `ReadModeImpl()` (`chain_writer.cc:413-421`). The reader reads the chain. -/
def readModeImpl (_ : Nat) (s : CW) : Bool × CW := s.flushImpl

/-- The functions used by `WriteSlow(string_view)`. -/
def core : WriterOps CW where
  pos := pos
  avail := avail
  ok := CW.ok
  put := put
  pushSlow := pushSlow G
  writeSlow _ s := (false, s)
  fillSlow n b := refSlow G (List.replicate n b)
  flushImpl _ := flushImpl
  seekSlow := seekSlow
  sizeImpl := sizeImpl
  truncateImpl := truncateImpl
  readModeImpl := readModeImpl
  randomAccess s := (true, s)
  setHint _ s := s

/-- `ChainWriter` as a class of writers. `WriteSlow(string_view)` is the one of `Writer` (`chain_writer.h:154`). `SetWriteSizeHintImpl()` changes options of
the chain (`chain_writer.cc:143-151`), which influence only the choice of the size of blocks. -/
def ops : RefOps CW where
  toWriterOps := { core G with writeSlow := fun bs => (core G).defaultWriteSlow (bs.length + 1) bs }
  refSlow fs := refSlow G fs.flatten

/-- `ChainWriter(dest, options)`: `Initialize()` (`chain_writer.h:349-357`). -/
def init (d : Bytes) (append : Bool) : CW :=
  if append then ⟨d, [], d.length, 0, 0, true, 0, d⟩ else ⟨[], [], 0, 0, 0, true, 0, []⟩

/-- `Close()`: `Done()` (`chain_writer.cc:40-45`). -/
def close (s : CW) : CW := { s.flushImpl.2 with tail := [] }

end CW
end Riegeli.Wtr

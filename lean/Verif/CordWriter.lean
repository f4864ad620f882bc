import Verif.StringWriter
import Verif.WriterRef
/-!
# `CordWriter`

Model of `riegeli/bytes/cord_writer.{h,cc}`. Data are written to a separate buffer which is appended to an `absl::Cord`. After seeking back, data which follow the
current position are either kept in another `absl::Cord`, the tail, or appended to the destination.

The buffer is `cord_buffer_` or `buffer_`, whichever `start()` points to. Which one is used, what their capacities are, and what is in memory which was not
written yet, are arbitrary (`SCfg`). An `absl::Cord` is a sequence of bytes.

Not modelled: moving, other users changing the cord.
-/
namespace Riegeli.Wtr

/-- `*DestCord()`; `*tail_`, where no tail is the same as an empty tail; memory between `start()` and `limit()`; `start_pos()`, `start_to_cursor()`;
`size_hint_`. `ub` is set when undefined behavior occurred. `tick` counts decisions about memory. `seen` is not used by the program: it is what the last `Flush()`
or `ReadMode()` showed. -/
structure CdW where
  dest : Bytes
  tail : Bytes
  buf : Bytes
  startPos : Nat
  cur : Nat
  ok : Bool
  hint : Option Nat
  ub : Bool
  tick : Nat
  seen : Bytes

namespace CdW
variable (G : SCfg) (minBlock : Nat)

/-- `pos()` (`writer.h:311`). -/
def pos (s : CdW) : Nat := s.startPos + s.cur

/-- `available()`. -/
def avail (s : CdW) : Nat := s.buf.length - s.cur

/-- Copying to `cursor()` and `move_cursor()`. -/
def put (bs : Bytes) (s : CdW) : CdW := { s with buf := poke s.buf s.cur bs, cur := s.cur + bs.length }

/-- `Fail()` with `OnFail()` (`writer.cc:69`). -/
def failed (s : CdW) : CdW := { s with ok := false, buf := [], cur := 0 }

/-- `HasAppendedTail()` (`cord_writer.cc:118-120`). -/
def hasTail (s : CdW) : Bool := s.startPos < s.dest.length

/-- `MoveToTail()` (`cord_writer.cc:104-116`). -/
def moveToTail (n : Nat) (s : CdW) : CdW :=
  { s with tail := s.dest.drop (s.dest.length - n) ++ s.tail, dest := s.dest.take (s.dest.length - n) }

/-- `MoveFromTail()` (`cord_writer.cc:89-102`). -/
def moveFromTail (n : Nat) (s : CdW) : CdW := { s with dest := s.dest ++ s.tail.take n, tail := s.tail.drop n }

/-- `AppendTail()` (`cord_writer.cc:132-140`). -/
def appendTail (s : CdW) : CdW := { s with dest := s.dest ++ s.tail, tail := [] }

/-- `ShrinkTail()` (`cord_writer.cc:142-146`). -/
def shrinkTail (n : Nat) (s : CdW) : CdW := { s with tail := s.tail.drop (min n s.tail.length) }

/-- `ExtractTail()` (`cord_writer.cc:122-130`). -/
def extractTail (s : CdW) : CdW := s.moveToTail (s.dest.length - s.startPos)

/-- `SyncBuffer()` (`cord_writer.cc:62-87`). Without a buffer, the rest of the function does nothing. -/
def sync (s : CdW) : CdW :=
  if s.hasTail then s.extractTail
  else
    let t := s.shrinkTail s.cur
    { t with startPos := s.pos, dest := s.dest ++ s.buf.take s.cur, buf := [], cur := 0 }

/-- `MaxBytesToCopy()` (`cord_writer.cc:52-60`). -/
def maxBytesToCopy (s : CdW) : Nat :=
  match s.hint with
  | some h => if s.pos < h then max (min (h - s.pos - 1) 511) 15 else if s.pos = 0 then 15 else 511
  | none => if s.pos = 0 then 15 else 511

/-- `SetWriteSizeHintImpl()` (`cord_writer.cc:148-155`). Dereferencing `std::nullopt` is undefined behavior: the result is arbitrary. -/
def setHint (h : Option Nat) (s : CdW) : CdW :=
  if h = s.hint then { s with hint := none }
  else
    match h with
    | some h => { s with hint := some (min (s.pos + h) kMaxSize) }
    | none => { s with hint := some (G.grow s.tick s.pos 0), ub := true, tick := s.tick + 1 }

/-- The end of `PushSlow()`: a new or a reused buffer, with data from the old one (`cord_writer.cc:184-233`). -/
def makeBuf (n rec : Nat) (s : CdW) : CdW :=
  let k := max (s.cur + n) (G.block s.tick s.dest.length (s.cur + n) (s.cur + rec))
  let k := min k (kMaxSize - s.dest.length)
  { s with buf := s.buf.take s.cur ++ G.fresh s.tick (k - s.cur), tick := s.tick + 1 }

/-- `PushSlow()` (`cord_writer.cc:157-233`). The capacity of `cord_buffer_` before the first allocation is arbitrary. -/
def pushSlow (n rec : Nat) (s : CdW) : Bool × CdW :=
  if s.ok = false then (false, s)
  else
    let k := G.grow s.tick 0 0
    if s.hasTail = false ∧ s.pos = 0 ∧ max (max n rec) (s.hint.getD 0) ≤ k ∧ k ≤ kMaxSize then
      (true, { s with buf := G.fresh s.tick k, cur := 0, tick := s.tick + 1 })
    else
      let t := if s.hasTail then s.extractTail else s
      if kMaxSize - t.pos < n then (false, t.failed)
      else
        let t := if minBlock ≤ t.cur then t.sync else t
        (true, t.makeBuf G n rec)

/-- Appending by reference: the common part of `WriteSlow(ExternalRef)`, `WriteSlow(Chain)`, `WriteSlow(Cord)` and `WriteSlow(ByteFill)`
(`cord_writer.cc:235-363`). -/
def refCore (bs : Bytes) (s : CdW) : Bool × CdW :=
  if s.ok = false then (false, s)
  else
    let t := s.sync
    if kMaxSize - t.startPos < bs.length then (false, t.failed)
    else
      let t := t.shrinkTail bs.length
      (true, { t with startPos := t.startPos + bs.length, dest := t.dest ++ bs })

/-- `FlushImpl()` (`cord_writer.cc:365-382`). -/
def flushImpl (s : CdW) : Bool × CdW :=
  if s.ok = false then (false, s)
  else if s.hasTail then (true, { s with seen := s.dest })
  else
    let t := s.sync.appendTail
    (true, { t with seen := t.dest })

/-- `SeekSlow()` (`cord_writer.cc:384-422`). -/
def seekSlow (q : Nat) (s : CdW) : Bool × CdW :=
  if s.ok = false then (false, s)
  else if s.hasTail then
    if s.dest.length < q then (false, { s with startPos := s.dest.length })
    else (true, { s.moveToTail (s.dest.length - q) with startPos := q })
  else if s.pos < q then
    if s.tail = [] then (false, s)
    else
      let t := s.sync
      if t.dest.length + t.tail.length < q then
        let t := t.appendTail
        (false, { t with startPos := t.dest.length })
      else (true, { t.moveFromTail (q - t.dest.length) with startPos := q })
  else
    let t := s.sync
    (true, { t.moveToTail (t.dest.length - q) with startPos := q })

/-- `SizeImpl()` (`cord_writer.cc:424-442`). -/
def sizeImpl (s : CdW) : Option Nat × CdW :=
  if s.ok = false then (none, s)
  else if s.hasTail then (some s.dest.length, s)
  else (some (max s.pos (s.startPos + s.tail.length)), s)

/-- The end of `TruncateImpl()` (`cord_writer.cc:480-485`). The buffer remains, emptied. -/
def cut (n : Nat) (s : CdW) : CdW := { s with startPos := n, dest := s.dest.take (s.dest.length - (s.dest.length - n)), cur := 0 }

/-- `TruncateImpl()` (`cord_writer.cc:444-486`). -/
def truncateImpl (n : Nat) (s : CdW) : Bool × CdW :=
  if s.ok = false then (false, s)
  else if s.hasTail then
    if s.dest.length < n then (false, { s with startPos := s.dest.length }) else (true, s.cut n)
  else if s.pos < n then
    if s.tail = [] then (false, s)
    else
      let t := s.sync
      if t.dest.length + t.tail.length < n then (false, ({ t with startPos := t.startPos + t.tail.length }).appendTail)
      else (true, ({ t with startPos := n, tail := t.tail.take (t.tail.length - (t.dest.length + t.tail.length - n)) }).appendTail)
  else
    let t := { s with tail := [] }
    if s.startPos ≤ n then (true, { t with cur := n - s.startPos }) else (true, t.cut n)

/-- `ReadModeImpl()` (`cord_writer.cc:488-496`). The reader reads the cord. -/
def readModeImpl (_ : Nat) (s : CdW) : Bool × CdW := s.flushImpl

/-- The functions used by `WriteSlow(string_view)` and `WriteSlow(ByteFill)` of `Writer`. -/
def core : WriterOps CdW where
  pos := pos
  avail := avail
  ok := CdW.ok
  put := put
  pushSlow := pushSlow G minBlock
  writeSlow _ s := (false, s)
  fillSlow _ _ s := (false, s)
  flushImpl _ := flushImpl
  seekSlow := seekSlow
  sizeImpl := sizeImpl
  truncateImpl := truncateImpl
  readModeImpl := readModeImpl
  randomAccess s := (true, s)
  setHint := setHint G

/-- With `WriteSlow(string_view)` of `Writer` (`cord_writer.h:155`). -/
def mid : WriterOps CdW := { core G minBlock with writeSlow := fun bs => (core G minBlock).defaultWriteSlow (bs.length + 1) bs }

/-- `WriteSlow(ByteFill)` (`cord_writer.cc:345-363`). -/
def fillSlow (n : Nat) (b : UInt8) (s : CdW) : Bool × CdW :=
  if n ≤ s.maxBytesToCopy then (core G minBlock).defaultFillSlow (n + 1) n b s else s.refCore (List.replicate n b)

/-- `WriteSlow(ExternalRef)`, `WriteSlow(Chain)` and `WriteSlow(Cord)` (`cord_writer.cc:235-343`). -/
def refSlow (fs : List Bytes) (s : CdW) : Bool × CdW :=
  if fs.flatten.length ≤ s.maxBytesToCopy then (mid G minBlock).writeFragments fs s else s.refCore fs.flatten

/-- `CordWriter` as a class of writers. -/
def ops : RefOps CdW where
  toWriterOps := { mid G minBlock with fillSlow := fillSlow G minBlock }
  refSlow := refSlow G minBlock

/-- `CordWriter(dest, options)`: `Initialize()` (`cord_writer.h:372-389`). When appending, `GetAppendBuffer()` moves some number of last bytes of the destination to
`cord_buffer_`: the last `k` bytes, to a buffer with room for `room` more bytes. -/
def init (d : Bytes) (append : Bool) (k room : Nat) : CdW :=
  if append then
    let e := d.take (d.length - k)
    let x := d.drop (d.length - k)
    let buf := if x = [] then [] else x ++ G.fresh 0 (min (x.length + room) (kMaxSize - e.length) - x.length)
    ⟨e, [], buf, e.length, x.length, true, none, false, 1, d⟩
  else ⟨[], [], [], 0, 0, true, none, false, 1, []⟩

/-- `Close()`: `Done()` (`cord_writer.cc:43-50`). -/
def close (s : CdW) : CdW := { s.flushImpl.2 with tail := [], buf := [], cur := 0, startPos := s.flushImpl.2.pos }

end CdW
end Riegeli.Wtr

import Verif.WriterProofs
/-!
# `StringWriter`

Model of `riegeli/bytes/string_writer.{h,cc}`. Data are written to the space between the end of data and the end of the string; when the capacity of
the string is exceeded, they are written to a `Chain`, the secondary buffer, which is appended to the string later.

How the capacity of the string grows, how much space `Chain::AppendBuffer()` gives, and what is in memory which was not written yet, are arbitrary
(`SCfg`). The `Chain` is a sequence of bytes (C30).

Not modelled: moving, exceptions of `std::string` when a size is too large, other users changing the string.
-/
namespace Riegeli.Wtr

/-- `StringWriterBase::kMaxPosition` (`string_writer.h:118`). -/
def kMaxSize : Nat := 2 ^ 64 - 1

/-- What the implementation of `std::string` and of `Chain` decide. The first argument of each function is the number of decisions made before. -/
structure SCfg where
  grow : Nat → Nat → Nat → Nat
  block : Nat → Nat → Nat → Nat → Nat
  junk : Nat → Nat → UInt8

/-- Space of `n` bytes which was not written yet. -/
def SCfg.fresh (G : SCfg) (tick n : Nat) : Bytes := (List.range n).map (G.junk tick)

/-- Writing to memory. -/
def poke (m : Bytes) (i : Nat) (bs : Bytes) : Bytes := m.take i ++ bs ++ m.drop (i + bs.length)

/-- The string with its capacity; the secondary buffer; `start_pos()`, `start_to_limit()`, `start_to_cursor()`; `written_size_`.
`tick` counts decisions about memory. `seen` is not used by the program: it is what the last `Flush()` or `ReadMode()` showed. -/
structure SW where
  str : Bytes
  cap : Nat
  sec : Bytes
  startPos : Nat
  lim : Nat
  cur : Nat
  written : Nat
  ok : Bool
  tick : Nat
  seen : Bytes

namespace SW
variable (G : SCfg)

/-- `pos()` (`writer.h:311`). -/
def pos (s : SW) : Nat := s.startPos + s.cur

/-- `limit_pos()` (`writer.h:319`). -/
def limitPos (s : SW) : Nat := s.startPos + s.lim

/-- `available()`. -/
def avail (s : SW) : Nat := s.lim - s.cur

/-- Copying to `cursor()` and `move_cursor()`. The buffer is the end of the secondary buffer, or the string. -/
def put (bs : Bytes) (s : SW) : SW :=
  if s.sec ≠ [] then { s with sec := poke s.sec (s.sec.length - s.lim + s.cur) bs, cur := s.cur + bs.length }
  else { s with str := poke s.str s.pos bs, cur := s.cur + bs.length }

/-- `Fail()` with `OnFail()` (`writer.cc:69`). -/
def failed (s : SW) : SW := { s with ok := false, lim := 0, cur := 0 }

/-- `used_size()` (`string_writer.cc:50-52`). -/
def usedSize (s : SW) : Nat := max s.pos s.written

/-- `used_dest_size()` (`string_writer.cc:54-64`). -/
def usedDestSize (s : SW) : Nat := s.usedSize - s.sec.length

/-- `StringReserveAmortized()` (`string_utils.h:42-47`). -/
def reserve (n : Nat) (s : SW) : SW := if s.cap < n then { s with cap := max n (G.grow s.tick s.cap n), tick := s.tick + 1 } else s

/-- `set_buffer()` without arguments, and `set_start_pos()`. -/
def noBuffer (p : Nat) (s : SW) : SW := { s with startPos := p, lim := 0, cur := 0 }

/-- `MakeDestBuffer()` (`string_writer.cc:66-73`). -/
def makeDest (c : Nat) (s : SW) : SW := { s with startPos := 0, lim := s.str.length, cur := c }

/-- `GrowDestAndMakeBuffer()` (`string_writer.cc:75-90`). -/
def growDest (c n : Nat) (s : SW) : SW :=
  let t := if s.str.length < n then { s.reserve G n with str := s.str ++ G.fresh s.tick (n - s.str.length), tick := s.tick + 1 } else s
  t.makeDest c

/-- `GrowDestUnderCapacityAndMakeBuffer()` (`string_writer.cc:92-116`). -/
def growUnder (c min' : Nat) (s : SW) : Bool × SW :=
  if s.cap < c + min' then (false, s)
  else
    let n := max (min (s.str.length + max (min s.str.length 65536) 512) s.cap) (c + min')
    let t := if s.str.length < n then { s with str := s.str ++ G.fresh s.tick (n - s.str.length), tick := s.tick + 1 } else s
    (true, t.makeDest c)

/-- `SyncSecondaryBuffer()` (`string_writer.cc:118-122`). -/
def syncSec (s : SW) : SW := { s with startPos := s.pos, sec := s.sec.take (s.sec.length - s.avail), lim := 0, cur := 0 }

/-- `MakeSecondaryBuffer()` (`string_writer.cc:124-129`). -/
def makeSec (n rec : Nat) (s : SW) : SW :=
  let k := max n (G.block s.tick s.sec.length n rec)
  { s with sec := s.sec ++ G.fresh s.tick k, lim := k, cur := 0, tick := s.tick + 1 }

/-- Moving the secondary buffer to the string: after `SyncSecondaryBuffer()`, `dest.erase(used_dest_size())`,
`std::move(secondary_buffer_).AppendTo(dest)`, `secondary_buffer_.Clear()` (`string_writer.cc:145-149`, `string_writer.cc:464-467`,
`string_writer.cc:490-493`, `string_writer.cc:537-540`). -/
def merge (s : SW) : SW :=
  let t := s.syncSec
  let u := t.str.take t.usedDestSize ++ t.sec
  { t.reserve G u.length with str := u, sec := [] }

/-- `SetWriteSizeHintImpl()` (`string_writer.cc:131-151`). -/
def setHint (h : Option Nat) (s : SW) : SW :=
  match h with
  | none => s
  | some h =>
    if s.ok = false then s
    else
      let n := max (min (s.pos + min h kMaxSize) kMaxSize) s.written
      if s.sec = [] then s.growDest G s.pos n
      else
        let t := s.syncSec
        let t := { t with str := t.str.take t.usedDestSize }
        let t := t.reserve G n
        let u := t.str ++ t.sec
        let t := { t.reserve G u.length with str := u, sec := [] }
        t.makeDest s.pos

/-- `PushSlow()` (`string_writer.cc:153-189`). -/
def pushSlow (n rec : Nat) (s : SW) : Bool × SW :=
  if s.ok = false then (false, s)
  else if kMaxSize - s.pos < n then (false, s.failed)
  else if s.sec = [] then
    let t := if s.pos = 0 ∨ s.pos < s.written then s.reserve G (min (s.pos + max n rec) kMaxSize) else s
    let g := t.growUnder G s.pos n
    if g.1 then g
    else (true, ({ t.noBuffer s.pos with written := 0 }).makeSec G n rec)
  else (true, s.syncSec.makeSec G n rec)

/-- The end of `WriteSlow()`: appending to the secondary buffer. -/
def appendSec (bs : Bytes) (s : SW) : SW := ({ s with startPos := s.startPos + bs.length, sec := s.sec ++ bs }).makeSec G 0 0

/-- Writing to the string under its capacity, the common part of `WriteSlow()`. -/
def writeDest (bs : Bytes) (s : SW) : SW :=
  let c := s.pos
  let t := { s with str := if c + bs.length ≤ s.str.length then poke s.str c bs else s.str.take c ++ bs }
  (t.growUnder G (c + bs.length) 0).2

/-- `WriteSlow(string_view)` (`string_writer.cc:191-236`). -/
def writeSlow (bs : Bytes) (s : SW) : Bool × SW :=
  if s.ok = false then (false, s)
  else if kMaxSize - s.pos < bs.length then (false, s.failed)
  else if s.sec = [] then
    let c := s.pos
    let t := if c = 0 then s.reserve G (c + bs.length) else s
    if c + bs.length ≤ t.cap then (true, t.writeDest G bs)
    else
      let k := t.cap - c
      let t := { t with str := t.str.take c ++ bs.take k }
      (true, ({ t.noBuffer (c + k) with written := 0 }).appendSec G (bs.drop k))
  else (true, s.syncSec.appendSec G bs)

/-- `WriteSlow(ExternalRef)`, `WriteSlow(Chain)`, `WriteSlow(Cord)` and `WriteSlow(ByteFill)` (`string_writer.cc:238-453`). -/
def refSlow (bs : Bytes) (s : SW) : Bool × SW :=
  if s.ok = false then (false, s)
  else if kMaxSize - s.pos < bs.length then (false, s.failed)
  else if s.sec = [] then
    if s.pos + bs.length ≤ s.cap then (true, s.writeDest G bs)
    else (true, ({ s.noBuffer s.pos with written := 0 }).appendSec G bs)
  else (true, s.syncSec.appendSec G bs)

/-- `FlushImpl()` (`string_writer.cc:455-472`). -/
def flushImpl (s : SW) : Bool × SW :=
  if s.ok = false then (false, s)
  else
    let c := s.pos
    let t := if s.sec = [] then { s with str := s.str.take s.usedSize } else s.merge G
    (true, { t.noBuffer c with seen := t.str })

/-- `SeekSlow()` (`string_writer.cc:474-499`). -/
def seekSlow (q : Nat) (s : SW) : Bool × SW :=
  if s.ok = false then (false, s)
  else if s.pos < q then
    if s.sec ≠ [] then (false, s)
    else if s.usedSize < q then (false, s.makeDest s.usedSize)
    else (true, s.makeDest q)
  else
    let t := if s.sec = [] then s else s.merge G
    (true, ({ t with written := t.usedSize }).makeDest q)

/-- `SizeImpl()` (`string_writer.cc:501-504`). -/
def sizeImpl (s : SW) : Option Nat × SW := if s.ok = false then (none, s) else (some s.usedSize, s)

/-- `TruncateImpl()` (`string_writer.cc:506-529`). -/
def truncateImpl (n : Nat) (s : SW) : Bool × SW :=
  if s.ok = false then (false, s)
  else if s.pos < n then
    if s.sec ≠ [] then (false, s)
    else if s.usedSize < n then (false, s.makeDest s.usedSize)
    else (true, ({ s with written := 0 }).makeDest n)
  else if s.limitPos - s.sec.length < n then
    (true, ({ s with sec := s.sec.take (s.sec.length - (s.limitPos - n)) }).noBuffer n)
  else (true, ({ s with sec := [], written := 0 }).makeDest n)

/-- `ReadModeImpl()` (`string_writer.cc:531-546`). The reader reads `used_size()` bytes of the string. -/
def readModeImpl (_ : Nat) (s : SW) : Bool × SW :=
  if s.ok = false then (false, s)
  else
    let t := if s.sec = [] then s else s.merge G
    (true, { t with seen := t.str.take t.usedSize })

/-- `StringWriter` as a class of writers. -/
def ops : WriterOps SW where
  pos := pos
  avail := avail
  ok := SW.ok
  put := put
  pushSlow := pushSlow G
  writeSlow := writeSlow G
  fillSlow n b := refSlow G (List.replicate n b)
  flushImpl _ := flushImpl G
  seekSlow := seekSlow G
  sizeImpl := sizeImpl
  truncateImpl := truncateImpl
  readModeImpl := readModeImpl G
  randomAccess s := (true, s)
  setHint := setHint G

/-- `Write()` of an `ExternalRef`, `Chain` or `absl::Cord` (`writer.h:670-679`, `writer.cc:80-142`). -/
def writeRef (bs : Bytes) (s : SW) : Bool × SW :=
  if bs.length ≤ s.avail ∧ bs.length ≤ kMaxBytesToCopy then (true, s.put bs) else s.refSlow G bs

/-- Calls a public function. -/
def call (op : WOp) (s : SW) : Bool × SW :=
  match op with
  | .writeExternal bs => s.writeRef G bs
  | .writeChain fs => s.writeRef G fs.flatten
  | op => op.run (ops G) s

/-- Calls functions, and collects their results. -/
def callAll : List WOp → SW → List Bool × SW
  | [], s => ([], s)
  | op :: ops, s =>
    let r := s.call G op
    let rs := callAll ops r.2
    (r.1 :: rs.1, rs.2)

/-- `StringWriter(dest, options)`: `Initialize()` (`string_writer.h:332-341`), for a string with the given capacity. -/
def init (d : Bytes) (cap : Nat) (append : Bool) : SW :=
  if append then ⟨d, cap, [], d.length, 0, 0, 0, true, 0, d⟩ else ⟨d, cap, [], 0, d.length, 0, 0, true, 0, []⟩

/-- `Close()`: `Done()` (`string_writer.cc:43-48`). -/
def close (s : SW) : SW := { (s.flushImpl G).2 with sec := [] }

end SW
end Riegeli.Wtr

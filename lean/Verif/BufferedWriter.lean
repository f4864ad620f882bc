import Verif.Writer
import Verif.ByteFill
import Verif.BufferedReader
/-!
# `BufferedWriter`

Model of `riegeli/bytes/buffered_writer.{h,cc}` and of `WriteBufferSizer` (`riegeli/bytes/buffer_options.{h,cc}`), over an arbitrary
derived class, given by `BDst`: `WriteInternal()` and the other virtual functions of the derived class.

The buffer is modelled with its contents, which are arbitrary where nothing was written. Not modelled: moving, assertions.
-/
namespace Riegeli.Wtr

/-- `kMaxPosition` (`buffered_writer.h:132`). -/
def kMaxPosition : Nat := 2 ^ 64 - 1

/-- `WriteBufferSizer` (`buffer_options.h:285-356`). -/
structure WSizer where
  base : Nat
  last : Nat
  hint : Option Nat

/-- `WriteBufferSizer::BufferLength()` (`buffer_options.cc:78-92`). -/
def WSizer.bufferLength (z : WSizer) (o : Rdr.BufOpts) (pos min rec : Nat) : Nat :=
  let len := Rdr.roundPos (max (pos - z.base) (max z.last o.minSize)) min rec o.maxSize z.hint pos (decide (z.last = 0))
  match z.hint with
  | some h => if pos ≤ h then max (Nat.min len (h - pos)) min else len
  | none => len

/-- `WriteBufferSizer::EndRun()` (`buffer_options.h:402-412`). -/
def WSizer.endRun (z : WSizer) (pos : Nat) : WSizer :=
  if pos = z.base then z else { z with last := (pos - z.base) + (pos - z.base - 1) }

/-- `WriteBufferSizer::BeginRun()` (`buffer_options.h:322`). -/
def WSizer.beginRun (z : WSizer) (pos : Nat) : WSizer := { z with base := pos }

/-- `WriteBufferSizer::set_write_size_hint()` (`buffer_options.h:306-313`). -/
def WSizer.setHint (z : WSizer) (pos : Nat) (h : Option Nat) : WSizer := { z with hint := h.map fun n => min (pos + n) kMaxPosition }

/-- The state which the virtual functions of a derived class use and change: its own, `start_pos()` (the physical position in the
destination), and `ok()`. -/
structure WPhys (τ : Type) where
  dst : τ
  startPos : Nat
  ok : Bool

/-- A class derived from `BufferedWriter`: its virtual functions (`buffered_writer.h:79-118`). `randomAccess` is
`SupportsRandomAccess()`. `ReadModeBehindBuffer()` returns whether a reader is returned. -/
structure BDst (τ : Type) where
  writeInternal : Bytes → WPhys τ → Bool × WPhys τ
  flushBehind : Bytes → FlushType → WPhys τ → Bool × WPhys τ
  doneBehind : Bytes → WPhys τ → WPhys τ
  seekBehind : Nat → WPhys τ → Bool × WPhys τ
  sizeBehind : WPhys τ → Option Nat × WPhys τ
  truncateBehind : Nat → WPhys τ → Bool × WPhys τ
  readModeBehind : Nat → WPhys τ → Bool × WPhys τ
  randomAccess : WPhys τ → Bool × WPhys τ
  opts : Rdr.BufOpts
  /-- The contents of uninitialized memory: the first argument counts the allocations. -/
  junk : Nat → Nat → UInt8

/-- `BufferedWriter` (`buffered_writer.h:137-142`): `mem` is the memory from `start()` to `limit()`, `cur` is `start_to_cursor()`. -/
structure BW (τ : Type) where
  phys : WPhys τ
  mem : Bytes
  cur : Nat
  written : Nat
  sizer : WSizer
  tick : Nat

/-- `FlushBehindBuffer()` by default (`buffered_writer.cc:95-103`). -/
def BDst.defaultFlush {τ : Type} (writeInternal : Bytes → WPhys τ → Bool × WPhys τ) (bs : Bytes) (p : WPhys τ) : Bool × WPhys τ :=
  if p.ok = false then (false, p) else if bs = [] then (true, p) else writeInternal bs p

namespace BW
variable {τ : Type} (S : BDst τ)

/-- `available()`. -/
def avail (b : BW τ) : Nat := b.mem.length - b.cur

/-- `pos()`. -/
def pos (b : BW τ) : Nat := b.phys.startPos + b.cur

/-- The size of buffered data: `UnsignedMax(start_to_cursor(), written_)`. -/
def len (b : BW τ) : Nat := max b.cur b.written

/-- Buffered data. -/
def data (b : BW τ) : Bytes := b.mem.take b.len

/-- `memcpy()` to `cursor()`, and `move_cursor()`. -/
def put (bs : Bytes) (b : BW τ) : BW τ :=
  { b with mem := b.mem.take b.cur ++ bs ++ b.mem.drop (b.cur + bs.length), cur := b.cur + bs.length }

/-- `set_buffer()` and `written_ = 0`. -/
def clear (b : BW τ) : BW τ := { b with mem := [], cur := 0, written := 0 }

/-- The effect of a function of the derived class: if it fails, then `OnFail()` is called (`writer.cc:69`). -/
def after (p : WPhys τ) (b : BW τ) : BW τ := if p.ok then { b with phys := p } else { b with phys := p, mem := [], cur := 0 }

/-- `Fail()`. -/
def fail (b : BW τ) : BW τ := b.after { b.phys with ok := false }

/-- `SyncBuffer()` (`buffered_writer.cc:58-71`). -/
def sync (b : BW τ) : Bool × BW τ :=
  let bs := b.data
  let n := b.len
  let q := b.pos
  let b := b.clear
  if n = 0 then (true, b)
  else if b.phys.ok = false then (false, b)
  else
    let r := S.writeInternal bs b.phys
    if r.1 = false then (false, b.after r.2)
    else if r.2.startPos ≠ q then
      let r' := S.seekBehind q r.2
      (r'.1, b.after r'.2)
    else (true, b.after r.2)

/-- `PushSlow()` (`buffered_writer.cc:78-93`). -/
def pushSlow (n rec : Nat) (b : BW τ) : Bool × BW τ :=
  let r := b.sync S
  if r.1 = false then (false, r.2)
  else if r.2.phys.ok = false then (false, r.2)
  else if kMaxPosition - r.2.phys.startPos < n then (false, r.2.fail)
  else
    let len := min (r.2.sizer.bufferLength S.opts r.2.phys.startPos n rec) (kMaxPosition - r.2.phys.startPos)
    (true, { r.2 with mem := (List.range len).map (S.junk r.2.tick), cur := 0, tick := r.2.tick + 1 })

/-- `BufferedWriter` with `PushSlow()` only, for `Writer::WriteSlow()`. -/
def core : WriterOps (BW τ) where
  pos := pos
  avail := avail
  ok b := b.phys.ok
  put := put
  pushSlow := pushSlow S
  writeSlow _ b := (false, b)
  fillSlow _ _ b := (false, b)
  flushImpl _ b := (false, b)
  seekSlow _ b := (false, b)
  sizeImpl b := (none, b)
  truncateImpl _ b := (false, b)
  readModeImpl _ b := (false, b)
  randomAccess b := (false, b)
  setHint _ b := b

/-- `WriteSlow(string_view)` (`buffered_writer.cc:138-149`). -/
def writeSlow (bs : Bytes) (b : BW τ) : Bool × BW τ :=
  if b.sizer.bufferLength S.opts b.pos 0 0 ≤ bs.length then
    let r := b.sync S
    if r.1 = false then (false, r.2)
    else if r.2.phys.ok = false then (false, r.2)
    else
      let w := S.writeInternal bs r.2.phys
      (w.1, r.2.after w.2)
  else (core S).defaultWriteSlow (bs.length + 1) bs b

/-- `WriteSlow(ByteFill)` (`buffered_writer.cc:151-159`). -/
def fillSlow (n : Nat) (c : UInt8) (b : BW τ) : Bool × BW τ :=
  ({ core S with writeSlow := writeSlow S } : WriterOps (BW τ)).writeFragments (Fill.make n c).toList b

/-- `FlushImpl()` (`buffered_writer.cc:161-172`). -/
def flushImpl (t : FlushType) (b : BW τ) : Bool × BW τ :=
  let b := { b with sizer := b.sizer.endRun (b.phys.startPos + b.len) }
  let bs := b.data
  let q := b.pos
  let b := b.clear
  let r := S.flushBehind bs t b.phys
  if r.1 = false then (false, b.after r.2)
  else
    let r' := if r.2.startPos = q then (true, r.2) else S.seekBehind q r.2
    let b := b.after r'.2
    (r'.1, { b with sizer := b.sizer.beginRun b.phys.startPos })

/-- `SupportsRandomAccess()`. -/
def randomAccess (b : BW τ) : Bool × BW τ :=
  let r := S.randomAccess b.phys
  (r.1, b.after r.2)

/-- `SeekSlow()` (`buffered_writer.cc:174-190`). -/
def seekSlow (q : Nat) (b : BW τ) : Bool × BW τ :=
  let r := b.randomAccess S
  let b := r.2
  if r.1 ∧ b.phys.startPos ≤ q ∧ q ≤ b.phys.startPos + b.len then
    (true, { b with written := b.len, cur := q - b.phys.startPos })
  else
    let b := { b with sizer := b.sizer.endRun (b.phys.startPos + b.len) }
    let s := b.sync S
    if s.1 = false then (false, s.2)
    else
      let k := S.seekBehind q s.2.phys
      let b := s.2.after k.2
      (k.1, { b with sizer := b.sizer.beginRun b.phys.startPos })

/-- `SizeImpl()` (`buffered_writer.cc:192-199`). -/
def sizeImpl (b : BW τ) : Option Nat × BW τ :=
  let b := { b with sizer := b.sizer.endRun (b.phys.startPos + b.len) }
  let s := b.sync S
  if s.1 = false then (none, s.2)
  else
    let k := S.sizeBehind s.2.phys
    let b := s.2.after k.2
    match k.1 with
    | none => (none, b)
    | some n => (some n, { b with sizer := b.sizer.beginRun b.phys.startPos })

/-- `TruncateImpl()` (`buffered_writer.cc:201-207`). -/
def truncateImpl (n : Nat) (b : BW τ) : Bool × BW τ :=
  let b := { b with sizer := b.sizer.endRun (b.phys.startPos + b.len) }
  let s := b.sync S
  if s.1 = false then (false, s.2)
  else
    let k := S.truncateBehind n s.2.phys
    let b := s.2.after k.2
    (k.1, { b with sizer := b.sizer.beginRun b.phys.startPos })

/-- `ReadModeImpl()` (`buffered_writer.cc:209-216`). -/
def readModeImpl (q : Nat) (b : BW τ) : Bool × BW τ :=
  let b := { b with sizer := b.sizer.endRun (b.phys.startPos + b.len) }
  let s := b.sync S
  if s.1 = false then (false, s.2)
  else
    let k := S.readModeBehind q s.2.phys
    let b := s.2.after k.2
    if k.1 = false then (false, b) else (true, { b with sizer := b.sizer.beginRun b.phys.startPos })

/-- `Done()` (`buffered_writer.cc:37-49`), called by `Close()`: the state of the destination afterwards. `Close()` returns `ok()`. -/
def done (b : BW τ) : WPhys τ :=
  let p := S.doneBehind b.data b.phys
  if p.startPos ≠ b.pos ∧ p.ok then (S.seekBehind b.pos p).2 else p

/-- `SetWriteSizeHint()` (`buffered_writer.cc:73-76`). -/
def setWriteSizeHint (h : Option Nat) (b : BW τ) : BW τ := { b with sizer := b.sizer.setHint b.pos h }

/-- `BufferedWriter` as a class of writers. -/
def ops : WriterOps (BW τ) where
  pos := pos
  avail := avail
  ok b := b.phys.ok
  put := put
  pushSlow := pushSlow S
  writeSlow := writeSlow S
  fillSlow := fillSlow S
  flushImpl := flushImpl S
  seekSlow := seekSlow S
  sizeImpl := sizeImpl S
  truncateImpl := truncateImpl S
  readModeImpl := readModeImpl S
  randomAccess := randomAccess S
  setHint := setWriteSizeHint

end BW
end Riegeli.Wtr

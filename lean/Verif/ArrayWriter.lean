import Verif.StringWriterProofs
import Verif.WriterRef
/-!
# `PushableWriter` and `ArrayWriter`

Model of `riegeli/bytes/array_writer.{h,cc}` over `riegeli/bytes/pushable_writer.{h,cc}`: a `Writer` to an array with a fixed size. When there is not
enough space before the end of the array, the buffer given to the caller is scratch memory, which is copied to the array when scratch is no longer used.

How much scratch memory `SizedSharedBuffer::AppendBuffer()` gives is arbitrary.

Simplifications: assertions are not checked, so a call which violates a precondition goes on like in a release build; where the position of a failed
writer is, and what is in its scratch memory, is not modelled exactly; moving the writer is not modelled; sizes do not overflow.
-/
namespace Riegeli.Wtr

/-- `ArrayWriterBase` (`array_writer.h:43-96`) with `PushableWriter` (`pushable_writer.h:43-174`): the array, the cursor in it, the size of `written_`,
scratch: data written to it, and its size. `older` are data in former scratch memory: buffer pointers of the array, which should be saved while scratch is
used, are replaced with pointers to scratch memory if scratch is begun again while it is used. `tick` counts allocations of scratch. `seen` is not used by the
program: it is what the last `Flush()` or `ReadMode()` showed. -/
structure AW where
  arr : Bytes
  off : Nat
  written : Nat
  older : Bytes
  scratch : Option (Bytes × Nat)
  ok : Bool
  tick : Nat
  seen : Bytes

namespace AW
variable (room : Nat → Nat → Nat → Nat)

/-- `Initialize()` (`array_writer.h:197-199`). -/
def init (d : Bytes) : AW := ⟨d, 0, 0, [], none, true, 0, []⟩

/-- Data in scratch. -/
def fresh (s : AW) : Bytes :=
  match s.scratch with
  | none => []
  | some p => p.1

/-- `pos()`. -/
def pos (s : AW) : Nat := s.off + (s.older ++ s.fresh).length

/-- `available()`. -/
def avail (s : AW) : Nat :=
  match s.scratch with
  | none => if s.ok = true then s.arr.length - s.off else 0
  | some p => p.2 - p.1.length

/-- Copying to `cursor()` and `move_cursor()`. -/
def put (bs : Bytes) (s : AW) : AW :=
  match s.scratch with
  | none => { s with arr := poke s.arr s.off bs, off := s.off + bs.length }
  | some p => { s with scratch := some (p.1 ++ bs, p.2) }

/-- `FailOverflow()` with `OnFail()` (`writer.cc:76-78`, `writer.cc:69`, `pushable_writer.cc:52-55`). -/
def fail (s : AW) : AW := { s with ok := false, off := 0, older := [], scratch := none }

/-- `Write(string_view)` while scratch is not used, with `WriteBehindScratch(string_view)` (`array_writer.cc:49-59`). -/
def writeBehind (bs : Bytes) (s : AW) : Bool × AW := if bs.length ≤ s.avail then (true, s.put bs) else (false, s.fail)

/-- `WriteBehindScratch(ExternalRef)`, `WriteBehindScratch(Chain)`, `WriteBehindScratch(Cord)` (`pushable_writer.cc:179-241`): fragments are written one
after another. -/
def fragsBehind : List Bytes → AW → Bool × AW
  | [], s => (true, s)
  | f :: fs, s =>
    let r := s.writeBehind f
    if r.1 = false then (false, r.2) else fragsBehind fs r.2

/-- `SyncScratch()` (`pushable_writer.cc:64-95`), if scratch is used. If the saved buffer pointers are pointers to former scratch memory, then there is no
space in it. -/
def sync (s : AW) : Bool × AW :=
  match s.scratch with
  | none => (true, s)
  | some p =>
    let t := { s with scratch := none }
    if s.older ≠ [] then (false, t.fail)
    else if p.1.length ≤ t.avail ∧ p.1.length ≤ kMaxBytesToCopy then (true, t.put p.1)
    else t.fragsBehind [p.1]

/-- `ForcePushUsingScratch()` (`pushable_writer.cc:139-156`), `PushBehindScratch()` (`array_writer.cc:39-47`). -/
def force (s : AW) : AW := { s with older := s.older ++ s.fresh, scratch := some ([], max 1 (room s.tick 1 0)), tick := s.tick + 1 }

/-- `PushSlow()` from the allocation of scratch (`pushable_writer.cc:126-136`). -/
def begin (n rec : Nat) (s : AW) : AW := { s with older := s.older ++ s.fresh, scratch := some ([], max n (room s.tick n rec)), tick := s.tick + 1 }

/-- `PushSlow()` (`pushable_writer.cc:97-137`). -/
def pushSlow (n rec : Nat) (s : AW) : Bool × AW :=
  let r := s.sync
  if r.1 = false then (false, r.2)
  else if s.scratch.isSome = true ∧ n ≤ r.2.avail then (true, r.2)
  else if n = 1 then (true, r.2.force room)
  else if r.2.avail = 0 then
    let t := r.2.force room
    if n ≤ t.avail then (true, t)
    else
      let q := t.sync
      if q.1 = false then (false, q.2)
      else if n ≤ q.2.avail then (true, q.2)
      else (true, q.2.begin room n rec)
  else (true, r.2.begin room n rec)

/-- `WriteSlow(string_view)` (`pushable_writer.cc:307-320`). -/
def writeSlow (bs : Bytes) (s : AW) : Bool × AW :=
  let r := s.sync
  if r.1 = false then (false, r.2) else r.2.writeBehind bs

/-- `WriteSlow(ExternalRef)`, `WriteSlow(Chain)`, `WriteSlow(Cord)` (`pushable_writer.cc:322-395`). -/
def refSlow (fs : List Bytes) (s : AW) : Bool × AW :=
  let r := s.sync
  if r.1 = false then (false, r.2)
  else if s.scratch.isSome = true ∧ fs.flatten.length ≤ r.2.avail ∧ fs.flatten.length ≤ kMaxBytesToCopy then (true, r.2.put fs.flatten)
  else r.2.fragsBehind fs

/-- `WriteBehindScratch(ByteFill)` (`pushable_writer.cc:243-265`), which is not overridden. The first argument bounds the number of iterations;
`n + 2` is enough. -/
def fillBehind : Nat → Nat → UInt8 → AW → Bool × AW
  | 0, _, _, s => (false, s.fail)
  | fuel + 1, n, b, s =>
    let a := s.avail
    if a < n then fillBehind fuel (n - a) b ((s.put (List.replicate a b)).force room)
    else (true, s.put (List.replicate n b))

/-- `WriteSlow(ByteFill)` (`pushable_writer.cc:397-411`). -/
def fillSlow (n : Nat) (b : UInt8) (s : AW) : Bool × AW :=
  let r := s.sync
  if r.1 = false then (false, r.2)
  else if s.scratch.isSome = true ∧ n ≤ r.2.avail ∧ n ≤ kMaxBytesToCopy then (true, r.2.put (List.replicate n b))
  else r.2.fillBehind room (n + 2) n b

/-- The size of data. -/
def size (s : AW) : Nat := max s.off s.written

/-- `FlushImpl()` (`pushable_writer.cc:413-418`) with `FlushBehindScratch()` (`array_writer.cc:61-69`). -/
def flushImpl (s : AW) : Bool × AW :=
  let r := s.sync
  if r.1 = false then (false, r.2)
  else if r.2.ok = false then (false, r.2)
  else (true, { r.2 with written := r.2.size, seen := r.2.arr.take r.2.size })

/-- `SeekSlow()` (`pushable_writer.cc:420-428`) with `SeekBehindScratch()` (`array_writer.cc:71-87`). -/
def seekSlow (q : Nat) (s : AW) : Bool × AW :=
  let r := s.sync
  if r.1 = false then (false, r.2)
  else if r.2.ok = false then (false, r.2)
  else if r.2.size < q then (false, { r.2 with off := r.2.size })
  else (true, { r.2 with written := r.2.size, off := q })

/-- `SizeImpl()` (`pushable_writer.cc:430-435`) with `SizeBehindScratch()` (`array_writer.cc:89-95`). -/
def sizeImpl (s : AW) : Option Nat × AW :=
  let r := s.sync
  if r.1 = false then (none, r.2)
  else if r.2.ok = false then (none, r.2)
  else (some r.2.size, r.2)

/-- `TruncateImpl()` (`pushable_writer.cc:437-442`) with `TruncateBehindScratch()` (`array_writer.cc:97-110`). -/
def truncateImpl (n : Nat) (s : AW) : Bool × AW :=
  let r := s.sync
  if r.1 = false then (false, r.2)
  else if r.2.ok = false then (false, r.2)
  else if r.2.size < n then (false, { r.2 with off := r.2.size })
  else (true, { r.2 with written := n, off := n })

/-- `ReadModeImpl()` (`pushable_writer.cc:444-449`) with `ReadModeBehindScratch()` (`array_writer.cc:112-121`). -/
def readModeImpl (s : AW) : Bool × AW :=
  let r := s.sync
  if r.1 = false then (false, r.2)
  else if r.2.ok = false then (false, r.2)
  else (true, { r.2 with seen := r.2.arr.take r.2.size })

/-- Virtual functions of `ArrayWriter`. `SetWriteSizeHintImpl()` is not overridden. -/
def ops : RefOps AW where
  pos := pos
  avail := avail
  ok := AW.ok
  put := put
  pushSlow := pushSlow room
  writeSlow := writeSlow
  fillSlow := fillSlow room
  flushImpl _ := flushImpl
  seekSlow := seekSlow
  sizeImpl := sizeImpl
  truncateImpl := truncateImpl
  readModeImpl _ := readModeImpl
  randomAccess s := (true, s)
  setHint _ s := s
  refSlow := refSlow

/-- Calls public functions. -/
def callAll (ops' : List WOp) (s : AW) : List Bool × AW := (ops room).callAll ops' s

/-- `Close()` with `Done()` (`pushable_writer.cc:44-50`), and its result. Afterwards the writer is closed, which is not in the state here: see `written()`. -/
def close (s : AW) : Bool × AW := s.flushImpl

/-- What the writer presents: the contents which it would have after copying scratch to the array if the array was longer. -/
def view (s : AW) : Bytes := overlay (s.arr.take s.size) s.off (s.older ++ s.fresh)

end AW
end Riegeli.Wtr

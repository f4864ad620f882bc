import Verif.WriterRef
/-!
# `NullWriter`

Model of `riegeli/bytes/null_writer.{h,cc}`: a `Writer` which discards data, and tracks only the position and the size. The data are not in the model either.
`kMax` is the maximal position (`null_writer.h:87`).

How long a buffer `WriteBufferSizer::BufferLength()` asks for is arbitrary, as long as it is at least `min_length`; how much longer than asked for memory is, is
not used by the program (`null_writer.cc:56`).

Not modelled: moving, error messages, `Fail()` called from outside.
-/
namespace Riegeli.Wtr

/-- `start_pos()`, `start_to_cursor()`, `start_to_limit()`, `written_size_` (`null_writer.h:100`), whether it did not fail; `tick` counts calls of
`MakeBuffer()`. -/
structure NW where
  start : Nat
  len : Nat
  lim : Nat
  written : Nat
  ok : Bool
  tick : Nat

namespace NW
variable (kMax : Nat) (room : Nat → Nat → Nat → Nat)

/-- `NullWriter(Options)` (`null_writer.h:105-106`). -/
def init : NW := ⟨0, 0, 0, 0, true, 0⟩

/-- `pos()` (`writer.h:311`). -/
def pos (s : NW) : Nat := s.start + s.len

/-- `available()`. -/
def avail (s : NW) : Nat := s.lim - s.len

/-- Copying to `cursor()` and `move_cursor()`. -/
def put (bs : Bytes) (s : NW) : NW := { s with len := s.len + bs.length }

/-- `FailOverflow()` (`writer.cc:76-78`) and other failures, with `OnFail()` (`writer.cc:69`). -/
def fail (s : NW) : NW := { s with ok := false, len := 0, lim := 0 }

/-- `SyncBuffer()` (`null_writer.cc:42-45`). -/
def sync (s : NW) : NW := { s with start := s.pos, len := 0 }

/-- `MakeBuffer()` (`null_writer.cc:47-58`). -/
def make (n rec : Nat) (s : NW) : Bool × NW :=
  if kMax - s.start < n then (false, s.fail)
  else (true, { s with len := 0, lim := min (max n (room s.tick n rec)) (kMax - s.start), tick := s.tick + 1 })

/-- `PushSlow()` (`null_writer.cc:64-71`). -/
def pushSlow (n rec : Nat) (s : NW) : Bool × NW := if s.ok = false then (false, s) else s.sync.make kMax room n rec

/-- All variants of `WriteSlow()` (`null_writer.cc:73-136`), for data with the given size. -/
def skipSlow (n : Nat) (s : NW) : Bool × NW :=
  if s.ok = false then (false, s)
  else
    let t := s.sync
    if kMax - t.start < n then (false, t.fail) else ({ t with start := t.start + n }).make kMax room 0 0

/-- The size of data written: `UnsignedMax(pos(), written_size_)`. -/
def size (s : NW) : Nat := max s.pos s.written

/-- `SeekSlow()` (`null_writer.cc:138-160`). -/
def seekSlow (q : Nat) (s : NW) : Bool × NW :=
  if s.ok = false then (false, s)
  else if s.start ≤ q ∧ q ≤ s.pos then (true, { s with written := s.size, len := q - s.start })
  else if s.size < q then (false, (({ s with start := s.size }).make kMax room 0 0).2)
  else ({ s with written := s.size, start := q }).make kMax room 0 0

/-- `SizeImpl()` (`null_writer.cc:162-165`). -/
def sizeImpl (s : NW) : Option Nat × NW := if s.ok = false then (none, s) else (some s.size, s)

/-- `TruncateImpl()` (`null_writer.cc:167-186`). -/
def truncateImpl (n : Nat) (s : NW) : Bool × NW :=
  if s.ok = false then (false, s)
  else if s.start ≤ n ∧ n ≤ s.pos then (true, { s with written := n, len := n - s.start })
  else if s.size < n then (false, (({ s with start := s.size }).make kMax room 0 0).2)
  else ({ s with written := n, start := n }).make kMax room 0 0

/-- `NullWriter` as a class of writers. `FlushImpl()` and `ReadModeImpl()` are not overridden (`writer.cc:263`, `writer.cc:281-284`); `SetWriteSizeHintImpl()`
(`null_writer.cc:60-62`) changes only sizes of buffers, which are arbitrary here. -/
def ops : RefOps NW where
  pos := pos
  avail := avail
  ok := NW.ok
  put := put
  pushSlow := pushSlow kMax room
  writeSlow bs := skipSlow kMax room bs.length
  fillSlow n _ := skipSlow kMax room n
  flushImpl _ s := (s.ok, s)
  seekSlow := seekSlow kMax room
  sizeImpl := sizeImpl
  truncateImpl := truncateImpl kMax room
  readModeImpl _ s := (false, if s.ok = true then s.fail else s)
  randomAccess s := (true, s)
  setHint _ s := s
  refSlow fs := skipSlow kMax room fs.flatten.length

end NW
end Riegeli.Wtr

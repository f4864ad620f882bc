import Verif.BufferedWriter
import Verif.FdReader
/-!
# `FdWriter`

Model of `riegeli/bytes/fd_writer.{h,cc}` (not on Windows), over an operating system given by `WOs`: it decides how much each `write()`
writes and which calls fail. Nobody else changes the file. `EINTR` is not modelled: it repeats the call. Opening and closing the file
descriptor, moving and assertions are not modelled. The reader returned by `ReadMode()` is modelled only by leaving the file descriptor
at an arbitrary position.
-/
namespace Riegeli.Wtr

/-- The file descriptor and the behaviour of the operating system. Calls are numbered. -/
structure WOs where
  /-- `O_APPEND` -/
  append : Bool
  /-- `O_RDWR` -/
  rdwr : Bool
  /-- Whether `lseek()` is supported. A file descriptor for which it is not supported is a stream. -/
  seekable : Bool
  /-- Whether `lseek(fd, 0, SEEK_END)` is supported. -/
  seekEnd : Bool
  /-- How much the call writes, 0 standing for 1 byte; `none` if it fails. -/
  write : Nat → Option Nat
  /-- Whether other calls succeed. -/
  succeeds : Nat → Bool
  /-- Where the reader returned by `ReadMode()` leaves the file descriptor. -/
  readPos : Nat → Nat

/-- The fields of `FdWriterBase` (`fd_writer.h:424-440`), and the state of the operating system: the contents of the file, the position of
the file descriptor, and the number of calls so far. `sent` and `durable` are not used by the program: they are what `write()`
wrote, and the contents of the file at the last `fsync()`. -/
structure FdW where
  content : Bytes
  filePos : Nat
  clock : Nat
  indep : Bool
  ra : Option Bool
  rm : Option Bool
  readMode : Bool
  sent : Bytes
  durable : Bytes

namespace FdW
variable (os : WOs)

/-- `Fail()`. -/
def fail (p : WPhys FdW) : WPhys FdW := { p with ok := false }

/-- A call to the operating system. -/
def tick (p : WPhys FdW) : WPhys FdW := { p with dst := { p.dst with clock := p.dst.clock + 1 } }

/-- `SeekInternal()` (`fd_writer.cc:583-598`). -/
def seekInternal (q : Nat) (p : WPhys FdW) : Bool × WPhys FdW :=
  if p.dst.indep then (true, { p with startPos := q })
  else if os.seekable = false ∨ os.succeeds p.dst.clock = false then (false, fail (tick p))
  else (true, { tick p with startPos := q, dst := { (tick p).dst with filePos := q } })

/-- `SizeStatus()` (`fd_writer.cc:297-313`): whether `lseek(fd, 0, SEEK_END)` is supported. -/
def sizeStatus (p : WPhys FdW) : Bool × WPhys FdW :=
  if os.seekable = false ∨ os.seekEnd = false ∨ os.succeeds p.dst.clock = false then (false, tick p)
  else
    let p := { tick p with dst := { (tick p).dst with filePos := p.dst.content.length } }
    if os.succeeds p.dst.clock = false then (false, fail (tick p))
    else (true, { tick p with dst := { (tick p).dst with filePos := p.startPos } })

/-- `SupportsRandomAccess()` (`fd_writer.cc:315-337`). -/
def randomAccess (p : WPhys FdW) : Bool × WPhys FdW :=
  match p.dst.ra with
  | some r => (r, p)
  | none =>
    if p.ok = false then (false, p)
    else
      let r := sizeStatus os p
      if r.1 = false then (false, { r.2 with dst := { r.2.dst with ra := some false, rm := some false } })
      else (true, { r.2 with dst := { r.2.dst with ra := some true, rm := some (r.2.dst.rm.getD true) } })

/-- `SupportsReadMode()` (`fd_writer.cc:339-427`). -/
def supportsReadMode (p : WPhys FdW) : Bool × WPhys FdW :=
  match p.dst.rm with
  | some r => (r, p)
  | none =>
    if p.ok = false then (false, p)
    else
      let r := sizeStatus os p
      if r.1 = false then (false, { r.2 with dst := { r.2.dst with ra := some false, rm := some false } })
      else (true, { r.2 with dst := { r.2.dst with ra := some true, rm := some true } })

/-- `WriteMode()` (`fd_writer.cc:429-435`). -/
def writeMode (p : WPhys FdW) : Bool × WPhys FdW :=
  if p.dst.readMode = false then (true, p)
  else
    let p := { p with dst := { p.dst with readMode := false } }
    if p.ok = false then (false, p) else seekInternal os p.startPos p

/-- The position in the file where the next `write()` or `pwrite()` writes. -/
def at' (p : WPhys FdW) : Nat :=
  if p.dst.indep then p.startPos else if os.append || !os.seekable then p.dst.content.length else p.dst.filePos

/-- The effect of `write()` or `pwrite()` which writes `bs`, with `move_start_pos()`. -/
def emit (bs : Bytes) (p : WPhys FdW) : WPhys FdW :=
  { p with
    startPos := p.startPos + bs.length
    dst := { p.dst with
      content := overlay p.dst.content (at' os p) bs
      filePos := if p.dst.indep then p.dst.filePos else at' os p + bs.length
      sent := p.dst.sent ++ bs } }

/-- The loop of `WriteInternal()` (`fd_writer.cc:449-513`). The first argument bounds the number of iterations; the length of `bs` is
enough. -/
def writeLoop : Nat → Bytes → WPhys FdW → Bool × WPhys FdW
  | 0, _, p => (false, p)
  | fuel + 1, bs, p =>
    match os.write p.dst.clock with
    | none => (false, fail (tick p))
    | some more =>
      let k := min (min bs.length (2 ^ 30)) (more + 1)
      let p := tick (emit os (bs.take k) p)
      let bs := bs.drop k
      if bs = [] then (true, p) else writeLoop fuel bs p

/-- `WriteInternal()` (`fd_writer.cc:437-515`). -/
def writeInternal (bs : Bytes) (p : WPhys FdW) : Bool × WPhys FdW :=
  let r := writeMode os p
  if r.1 = false then (false, r.2)
  else if Rdr.fdMaxPos - r.2.startPos < bs.length then (false, fail r.2)
  else writeLoop os bs.length bs r.2

/-- `FlushBehindBuffer()` (`fd_writer.cc:574-581`). -/
def flushBehind (bs : Bytes) (p : WPhys FdW) : Bool × WPhys FdW :=
  let r := writeMode os p
  if r.1 = false then (false, r.2) else BDst.defaultFlush (writeInternal os) bs r.2

/-- `if (ok()) Fail(random_access_status_)`. -/
def unsupported (p : WPhys FdW) : WPhys FdW := if p.ok then fail p else p

/-- Leaves the read mode. -/
def noReadMode (p : WPhys FdW) : WPhys FdW := { p with dst := { p.dst with readMode := false } }

/-- `SeekBehindBuffer()` (`fd_writer.cc:600-627`). -/
def seekBehind (q : Nat) (p : WPhys FdW) : Bool × WPhys FdW :=
  let r := randomAccess os p
  if r.1 = false then (false, unsupported r.2)
  else if r.2.ok = false then (false, r.2)
  else
    let p := noReadMode r.2
    if p.startPos < q then
      if os.succeeds p.dst.clock = false then (false, fail (tick p))
      else if p.dst.content.length < q then (false, (seekInternal os p.dst.content.length (tick p)).2)
      else seekInternal os q (tick p)
    else seekInternal os q p

/-- `SizeBehindBuffer()` (`fd_writer.cc:629-645`). -/
def sizeBehind (p : WPhys FdW) : Option Nat × WPhys FdW :=
  let r := randomAccess os p
  if r.1 = false then (none, unsupported r.2)
  else if r.2.ok = false then (none, r.2)
  else if os.succeeds r.2.dst.clock = false then (none, fail (tick r.2))
  else (some r.2.dst.content.length, tick r.2)

/-- `TruncateInternal()` (`fd_writer.cc:647-667`). -/
def truncateInternal (n : Nat) (p : WPhys FdW) : Bool × WPhys FdW :=
  if os.succeeds p.dst.clock = false then (false, fail (tick p))
  else (true, { tick p with dst := { (tick p).dst with content := resize n p.dst.content } })

/-- `TruncateBehindBuffer()` (`fd_writer.cc:669-690`). -/
def truncateBehind (n : Nat) (p : WPhys FdW) : Bool × WPhys FdW :=
  if p.ok = false then (false, p)
  else
    let p := noReadMode p
    let finish (p : WPhys FdW) : Bool × WPhys FdW :=
      let r := truncateInternal os n p
      if r.1 = false then (false, r.2) else seekInternal os n r.2
    if p.startPos ≤ n then
      if os.succeeds p.dst.clock = false then (false, fail (tick p))
      else if p.dst.content.length < n then (false, (seekInternal os p.dst.content.length (tick p)).2)
      else finish (tick p)
    else finish p

/-- `ReadModeBehindBuffer()` (`fd_writer.cc:692-711`). -/
def readModeBehind (_q : Nat) (p : WPhys FdW) : Bool × WPhys FdW :=
  let r := supportsReadMode os p
  if r.1 = false then (false, unsupported r.2)
  else if r.2.ok = false then (false, r.2)
  else (true, { tick r.2 with dst := { (tick r.2).dst with
    filePos := if r.2.dst.indep then r.2.dst.filePos else os.readPos r.2.dst.clock, readMode := true } })

/-- `FdWriterBase` as a class derived from `BufferedWriter`. `DoneBehindBuffer()` is the default one (`buffered_writer.cc:51-56`). -/
def dst (o : Rdr.BufOpts) (junk : Nat → Nat → UInt8) : BDst FdW where
  writeInternal := writeInternal os
  flushBehind bs _ := flushBehind os bs
  doneBehind bs p := (flushBehind os bs p).2
  seekBehind := seekBehind os
  sizeBehind := sizeBehind os
  truncateBehind := truncateBehind os
  readModeBehind := readModeBehind os
  randomAccess := randomAccess os
  opts := o
  junk := junk

/-- Extending the file with zeros by `ftruncate()` (`fd_writer.cc:540-547`): `p` is the physical state, `size` the size of the file. -/
def extend (n size : Nat) (p : WPhys FdW) : Bool × WPhys FdW :=
  let r := if p.startPos < size then truncateInternal os p.startPos p else (true, p)
  if r.1 = false then (false, r.2)
  else
    let r' := truncateInternal os (p.startPos + n) r.2
    if r'.1 = false then (false, r'.2) else seekInternal os (p.startPos + n) r'.2

/-- `WriteSlow(ByteFill)` (`fd_writer.cc:517-548`). -/
def fillSlow (S : BDst FdW) (n : Nat) (c : UInt8) (b : BW FdW) : Bool × BW FdW :=
  if c ≠ 0 then b.fillSlow S n c
  else
    let r := b.randomAccess S
    if r.1 = false then r.2.fillSlow S n c
    else
      let s := r.2.sizeImpl S
      match s.1 with
      | none => (false, s.2)
      | some size =>
        if Rdr.fdMaxPos - s.2.phys.startPos < n then (false, s.2.fail)
        else if s.2.phys.startPos + n < size then s.2.fillSlow S n c
        else
          let e := extend os n size s.2.phys
          (e.1, s.2.after e.2)

/-- `FlushImpl()` (`fd_writer.cc:550-572`). -/
def flushImpl (S : BDst FdW) (t : FlushType) (b : BW FdW) : Bool × BW FdW :=
  let r := b.flushImpl S t
  if r.1 = false then (false, r.2)
  else match t with
    | .fromMachine =>
      let p := r.2.phys
      if os.succeeds p.dst.clock = false then (false, r.2.after (fail (tick p)))
      else (true, r.2.after { tick p with dst := { (tick p).dst with durable := p.dst.content } })
    | _ => (true, r.2)

/-- `FdWriterBase` as a class of writers. -/
def ops (o : Rdr.BufOpts) (junk : Nat → Nat → UInt8) : WriterOps (BW FdW) :=
  { BW.ops (dst os o junk) with
    fillSlow := fillSlow os (dst os o junk)
    flushImpl := flushImpl os (dst os o junk) }

/-- `InitializePos()` (`fd_writer.cc:95-244`) without Windows: `pos` is the initial position of the file descriptor, `opened` is
`mode_was_passed_to_open`. -/
def init (o : Rdr.FdPos) (opened : Bool) (content : Bytes) (pos : Nat) : BW FdW :=
  let mk (p : WPhys FdW) (z : Nat) : BW FdW := { phys := p, mem := [], cur := 0, written := 0, sizer := ⟨z, 0, none⟩, tick := 0 }
  let p : WPhys FdW := ⟨⟨content, pos, 0, false, none, if os.rdwr then none else some false, false, [], content⟩, 0, true⟩
  if opened = false ∧ os.succeeds 0 = false then mk (fail (tick p)) 0
  else
    match o with
    | .assumed a =>
      if Rdr.fdMaxPos < a then mk (fail p) 0
      else mk { p with startPos := a, dst := { p.dst with ra := some false, rm := some false } } a
    | .independent a =>
      if os.append then mk (fail p) 0
      else
        let p := { p with dst := { p.dst with indep := true } }
        if Rdr.fdMaxPos < a then mk (fail p) 0
        else mk { p with startPos := a, dst := { p.dst with ra := some true, rm := some (p.dst.rm.getD true) } } a
    | .current =>
      if os.seekable = false ∨ (os.append = true ∧ os.seekEnd = false) then
        mk { p with dst := { p.dst with ra := some false, rm := some false } } 0
      else if os.append then
        mk { p with startPos := content.length, dst := { p.dst with filePos := content.length, ra := some false, rm := some (p.dst.rm.getD true) } } content.length
      else mk { p with startPos := pos } pos

end FdW
end Riegeli.Wtr

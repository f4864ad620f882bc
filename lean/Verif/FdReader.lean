import Verif.BufferedReader
/-!
# `FdReader`

Model of `riegeli/bytes/fd_reader.{h,cc}` (not on Windows), over an operating system given by `Os`: it decides how much each `read()`
reads and which calls fail. Contents of files do not change. `EINTR` is not modelled: it repeats the call. Opening and closing the
file descriptor, `NewReader()`, moving and assertions are not modelled.
-/
namespace Riegeli.Rdr

/-- `FdReaderBase::kMaxPosition` (`fd_reader.cc:163-164`). -/
def fdMaxPos : Nat := 2 ^ 63 - 1

/-- The file and the behaviour of the operating system. Calls are numbered. -/
structure Os where
  content : Bytes
  /-- Whether `lseek(fd, 0, SEEK_CUR)` succeeds. -/
  seekable : Bool
  /-- The result of `lseek(fd, 0, SEEK_END)` if it succeeds. -/
  endPos : Option Nat
  /-- The size returned by `fstat()`. -/
  statSize : Nat
  /-- How much the call reads, 0 standing for 1 byte; `none` if it fails. -/
  read : Nat → Option Nat
  /-- Whether other calls succeed. -/
  succeeds : Nat → Bool
  /-- Whether the destination of `Copy()` is an `FdWriter`, so that `copy_file_range()` is tried. -/
  fdDest : Bool
  /-- How much `copy_file_range()` copies, 0 standing for 1 byte; `none` if it fails. -/
  copyRange : Nat → Option Nat

/-- The fields of `FdReaderBase` (`fd_reader.h:283-286`), the position of the file descriptor in the operating system, and the number of
calls so far. -/
structure Fd where
  filePos : Nat
  clock : Nat
  indep : Bool
  growing : Bool
  ra : Bool

/-- `FdReaderBase::Options`: which position to use (`fd_reader.h:133-203`). -/
inductive FdPos where
  | current
  | assumed (p : Nat)
  | independent (p : Nat)

namespace Fd
variable (os : Os)

/-- `Fail()`. -/
def fail (p : Phys Fd) : Phys Fd := { p with ok := false }

/-- A call to the operating system. -/
def tick (p : Phys Fd) : Phys Fd := { p with src := { p.src with clock := p.src.clock + 1 } }

/-- `if (!growing_source_) set_exact_size(e)`. -/
def setExact (e : Nat) (p : Phys Fd) : Phys Fd := if p.src.growing then p else { p with exact := some e }

/-- The position in the file which the next `read()` or `pread()` reads from. -/
def at' (p : Phys Fd) : Nat := if p.src.indep then p.limitPos else p.src.filePos

/-- `move_limit_pos()`, together with the effect on the position of the file descriptor. -/
def advance (k : Nat) (p : Phys Fd) : Phys Fd :=
  { p with limitPos := p.limitPos + k, src := { p.src with filePos := if p.src.indep then p.src.filePos else p.src.filePos + k } }

/-- `ReadInternal()` (`fd_reader.cc:389-468`). The first argument bounds the number of iterations; the second one is enough. -/
def readInternal : Nat → Nat → Nat → Phys Fd → Bool × Bytes × Phys Fd
  | 0, _, _, p => (false, [], p)
  | fuel + 1, m, n, p =>
    if fdMaxPos ≤ p.limitPos then (false, [], fail p)
    else
      let len := min n (min (fdMaxPos - p.limitPos) (2 ^ 30))
      match os.read p.src.clock with
      | none => (false, [], fail (tick p))
      | some more =>
        let k := min (min len (os.content.length - at' p)) (more + 1)
        if k = 0 then (false, [], setExact p.limitPos (tick p))
        else
          let bs := slice os.content (at' p) k
          if m ≤ k then (true, bs, advance k (tick p))
          else
            let r := readInternal fuel (m - k) (n - k) (advance k (tick p))
            (r.1, bs ++ r.2.1, r.2.2)

/-- `FdReaderBase` with `ReadInternal()` only, for the default implementation of `CopyInternal()`. -/
def base (o : BufOpts) (room : Nat → Nat → Bool) (push : Nat → Nat) : BSrc Fd where
  readInternal m n p := readInternal os m m n p
  tolerates p := p.src.ra
  randomAccess p := p.src.ra
  opts := o
  room := room
  push := push

/-- The loop of `CopyInternal()` with `copy_file_range()` (`fd_reader.cc:478-525`): `none` means falling back to `read()` and `write()`.
A destination without space makes `copy_file_range()` fail. -/
def copyRange : Nat → Nat → Dest → Phys Fd → Option (Bool × Dest × Phys Fd) × Nat × Dest × Phys Fd
  | 0, n, d, p => (none, n, d, p)
  | fuel + 1, n, d, p =>
    if d.ok = false then (some (false, d, p), n, d, p)
    else if fdMaxPos ≤ p.limitPos then (some (false, d, fail p), n, d, p)
    else
      let len := min n (min (fdMaxPos - p.limitPos) (2 ^ 62))
      if fdMaxPos < d.written.length + len then (some (false, { d with ok := false }, p), n, d, p)
      else match os.copyRange p.src.clock with
        | none => (none, n, d, tick p)
        | some more =>
          let k := min (min len (os.content.length - at' p)) (more + 1)
          if k = 0 then (some (false, d, setExact p.limitPos (tick p)), n, d, p)
          else
            let k := min k (d.cap - d.written.length)
            if k = 0 then (none, n, d, tick p)
            else
              let d := { d with written := d.written ++ slice os.content (at' p) k }
              let p := advance k (tick p)
              if n - k = 0 then (some (true, d, p), n, d, p) else copyRange fuel (n - k) d p

/-- `CopyInternal()` (`fd_reader.cc:472-527`). -/
def copyInternal (S : BSrc Fd) (n : Nat) (d : Dest) (p : Phys Fd) : Bool × Dest × Phys Fd :=
  if os.fdDest then
    match copyRange os n n d p with
    | (some r, _) => r
    | (none, n, d, p) => BR.copyInternalLoop S n n n d p
  else BR.copyInternalLoop S n n n d p

/-- `SeekInternal()` (`fd_reader.cc:531-547`). -/
def seekInternal (q : Nat) (p : Phys Fd) : Bool × Phys Fd :=
  if p.src.indep then (true, { p with limitPos := q })
  else if os.succeeds p.src.clock = false then (false, fail (tick p))
  else (true, { tick p with limitPos := q, src := { (tick p).src with filePos := q } })

/-- The size used for seeking: `exact_size()`, or else found by `fstat()` (`fd_reader.cc:567-577`). -/
def findSize (p : Phys Fd) : Option Nat × Phys Fd :=
  match p.exact with
  | some e => (some e, p)
  | none => if os.succeeds p.src.clock = false then (none, fail (tick p)) else (some os.statSize, setExact os.statSize (tick p))

/-- `SeekBehindBuffer()` (`fd_reader.cc:549-585`); `none` stands for the default implementation. -/
def seekBehind (q : Nat) (p : Phys Fd) : Option (Bool × Phys Fd) :=
  if p.src.ra = false then
    if q < p.limitPos then some (false, fail p) else none
  else if p.ok = false then some (false, p)
  else if p.limitPos < q then
    match findSize os p with
    | (none, p) => some (false, p)
    | (some size, p) => if size < q then some (false, (seekInternal os size p).2) else some (seekInternal os q p)
  else some (seekInternal os q p)

/-- `SizeImpl()` (`fd_reader.cc:587-602`). -/
def sizeImpl (p : Phys Fd) : Option Nat × Phys Fd :=
  if p.ok = false then (none, p)
  else match p.exact with
    | some e => (some e, p)
    | none =>
      if p.src.ra = false then (none, fail p)
      else if os.succeeds p.src.clock = false then (none, fail (tick p))
      else (some os.statSize, setExact os.statSize (tick p))

/-- `FdReaderBase` as a class derived from `BufferedReader`. -/
def src (o : BufOpts) (room : Nat → Nat → Bool) (push : Nat → Nat) : BSrc Fd :=
  { base os o room push with
    copyInternal := fun n d p => some (copyInternal os (base os o room push) n d p)
    seekBehind := seekBehind os
    sizeImpl := fun p => some (sizeImpl os p) }

/-- `lseek(fd, 0, SEEK_END)` and back, in `InitializePos()` (`fd_reader.cc:269-286`, `fd_reader.cc:296-309`): returns the size, or `none` if
`SEEK_END` is not supported. -/
def lseekEnd (p : Phys Fd) : Option Nat × Phys Fd :=
  match os.endPos with
  | none => (none, tick p)
  | some size =>
    let q := { tick p with src := { (tick p).src with filePos := size } }
    if p.limitPos = size then (some size, q)
    else if os.succeeds q.src.clock = false then (some size, fail (tick q))
    else (some size, { tick q with src := { (tick q).src with filePos := p.limitPos } })

/-- Random access is supported (`fd_reader.cc:327-331`). -/
def regular (size : Nat) (b : BR Fd) : BR Fd :=
  let p := setExact size { b.phys with src := { b.phys.src with ra := true } }
  { b with phys := p, sizer := b.sizer.beginRun ({ b with phys := p } : BR Fd).start }

/-- `InitializePos()` (`fd_reader.cc:177-332`) without Windows: `pos` is the initial position of the file descriptor. -/
def init (S : BSrc Fd) (o : FdPos) (growing : Bool) (pos : Nat) : BR Fd :=
  let p : Phys Fd := { src := ⟨pos, 0, false, growing, false⟩, limitPos := 0, ok := true, exact := none }
  let mk (p : Phys Fd) (z : Nat) : BR Fd := { phys := p, buf := [], idx := 0, sizer := ⟨z, 0, false⟩, tick := 0 }
  match o with
  | .assumed a =>
    if fdMaxPos < a then mk (fail p) 0 else mk { p with limitPos := a } a
  | .independent a =>
    let p := { p with src := { p.src with indep := true } }
    if fdMaxPos < a then mk (fail p) 0
    else mk { p with limitPos := a, src := { p.src with ra := true } } a
  | .current =>
    if os.seekable = false then mk (tick p) 0
    else
      match lseekEnd os { tick p with limitPos := pos } with
      | (none, p) => mk p 0
      | (some size, p) =>
        if p.ok = false then mk p 0
        else if size = 0 ∧ p.limitPos = 0 then
          let r := (mk p 0).pullSlow S 1 0
          if r.1 then
            if growing then
              match lseekEnd os r.2.phys with
              | (none, p) => { r.2 with phys := fail p }
              | (some size, p) =>
                let b := { r.2 with phys := p }
                if p.ok = false then b
                else if 0 < size then regular size b
                else b
            else r.2
          else if r.2.phys.ok = false then r.2
          else regular size r.2
        else regular size (mk p 0)

/-- What the reader should read, for the options and the initial position `pos` of the file descriptor: the data `D`, from the initial
position of the reader. If the position is assumed, then the data before the initial position are unspecified; if the file descriptor
does not support `lseek()`, then the data are the rest of the file, otherwise the file. The position must not be beyond the end of the file, and the system must know the size
of the file, unless it claims that the file is empty, and the initial position is 0 (see finding 24). -/
def Reads (o : FdPos) (pos : Nat) (D : Bytes) : Prop :=
  match o with
  | .assumed a => if fdMaxPos < a then True else a ≤ D.length ∧ D.drop a = os.content.drop pos
  | .independent a => D = os.content ∧ a ≤ D.length ∧ os.statSize = D.length
  | .current =>
    if os.seekable = false then D = os.content.drop pos
    else D = os.content ∧ pos ≤ D.length ∧
      (os.endPos = none ∨ (os.endPos = some D.length ∧ os.statSize = D.length) ∨ (os.endPos = some 0 ∧ pos = 0 ∧ 0 < D.length))

end Fd
end Riegeli.Rdr

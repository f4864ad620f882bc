import Verif.ReaderDefaults
/-!
# `BufferedReader`

Model of `riegeli/bytes/buffered_reader.{h,cc}` and of `ReadBufferSizer` (`riegeli/bytes/buffer_options.{h,cc}`), over an arbitrary
derived class, given by `BSrc`: `ReadInternal()` and the other virtual functions of the derived class.

The memory of `buffer_` is not modelled: whether more data fit in it (`AppendBufferIfExisting()`, which depends on the capacity and on
sharing of the buffer with `Chain`s read earlier) is decided by an arbitrary function `room`; the data read are byte strings. The
space obtained by `Writer::Push()` is given by an arbitrary function `push`. Not modelled: position overflow, moving, `NewReader()`,
`SaveBuffer()`, `RestoreBuffer()`, `ShareBufferTo()`, assertions.
-/
namespace Riegeli.Rdr

/-- `absl::bit_ceil()`: the smallest power of 2 not smaller than `n`. -/
def bitCeil (n : Nat) : Nat := if n ≤ 1 then 1 else 2 ^ (Nat.log2 (n - 1) + 1)

/-- `BufferOptions` (`buffer_options.h:33-96`). -/
structure BufOpts where
  minSize : Nat
  maxSize : Nat

/-- `ReadBufferSizer`, without `exact_size` (`buffer_options.h:195-269`). -/
structure Sizer where
  base : Nat
  last : Nat
  readAll : Bool

/-- `ApplySizeHint()` (`riegeli/base/buffering.h:47-51`). -/
def applySizeHint (base : Nat) (hint : Option Nat) (pos : Nat) : Nat :=
  match hint with
  | some h => if pos ≤ h then h - pos else base
  | none => base

/-- `ApplySizeHintAndRoundPos()` (`buffer_options.cc:40-58`). -/
def roundPos (base min rec max' : Nat) (hint : Option Nat) (pos : Nat) (single : Bool) : Nat :=
  let base := if single then applySizeHint base hint pos else base
  let len := Nat.min (max base (max min rec)) max'
  if len = 0 then min
  else
    let m := bitCeil len
    let rounded := m - pos % m
    if rounded < min then (min - rounded + (m - 1)) / m * m + rounded else rounded

/-- `ReadBufferSizer::BufferLength()` (`buffer_options.cc:62-76`). -/
def Sizer.bufferLength (z : Sizer) (o : BufOpts) (exact : Option Nat) (pos min rec : Nat) : Nat :=
  let len := roundPos (max (pos - z.base) (max z.last o.minSize)) min rec o.maxSize exact pos z.readAll
  match exact with
  | some e => Nat.min len (e - pos)
  | none => len

/-- `ReadBufferSizer::EndRun()` (`buffer_options.h:373-383`). -/
def Sizer.endRun (z : Sizer) (pos : Nat) : Sizer :=
  if pos = z.base then z else { z with last := (pos - z.base) + (pos - z.base - 1) }

/-- `ReadBufferSizer::BeginRun()` (`buffer_options.h:236`). -/
def Sizer.beginRun (z : Sizer) (pos : Nat) : Sizer := { z with base := pos }

/-- The state which the virtual functions of a derived class use and change: its own, `limit_pos()` (the physical position in the
source), `ok()`, and `exact_size()`. -/
structure Phys (τ : Type) where
  src : τ
  limitPos : Nat
  ok : Bool
  exact : Option Nat

/-- A class derived from `BufferedReader`: its virtual functions (`buffered_reader.h:125-156`), where `none` stands for the default
implementation. -/
structure BSrc (τ : Type) where
  readInternal : Nat → Nat → Phys τ → Bool × Bytes × Phys τ
  copyInternal : Nat → Dest → Phys τ → Option (Bool × Dest × Phys τ) := fun _ _ _ => none
  exactSizeReached : Phys τ → Phys τ := id
  seekBehind : Nat → Phys τ → Option (Bool × Phys τ) := fun _ _ => none
  /-- What a derived class does in its `SeekBehindBuffer()` before calling the default one, if it can only start reading again from the
  beginning: `TextReaderBase::SeekBehindBuffer()` (`riegeli/lines/text_reader.cc:72-93`), and those of the decompressors. -/
  rewind : Nat → Phys τ → Option (Phys τ) := fun _ _ => none
  sizeImpl : Phys τ → Option (Option Nat × Phys τ) := fun _ => none
  tolerates : Phys τ → Bool
  randomAccess : Phys τ → Bool
  opts : BufOpts
  /-- Whether `n` more bytes fit in the buffer, the first argument counting the questions. -/
  room : Nat → Nat → Bool
  /-- How much space more than 1 byte `Writer::Push()` makes, depending on the length written. -/
  push : Nat → Nat

/-- `BufferedReader` (`buffered_reader.h:207-210`): `buf` are the contents of `buffer_`, and `idx` is `start_to_cursor()`. -/
structure BR (τ : Type) where
  phys : Phys τ
  buf : Bytes
  idx : Nat
  sizer : Sizer
  tick : Nat

/-- `Writer::Push(1)`: returns the space available. -/
def Dest.space (more : Nat → Nat) (d : Dest) : Option Nat × Dest :=
  if d.ok = false then (none, d)
  else if d.cap ≤ d.written.length then (none, { d with ok := false })
  else (some (min (d.cap - d.written.length) (1 + more d.written.length)), d)

namespace BR
variable {τ : Type} (S : BSrc τ)

/-- `available()`. -/
def avail (b : BR τ) : Nat := b.buf.length - b.idx

/-- `start_pos()`. -/
def start (b : BR τ) : Nat := b.phys.limitPos - b.buf.length

/-- `pos()`. -/
def pos (b : BR τ) : Nat := b.phys.limitPos - b.avail

/-- The first `n` bytes at the cursor. -/
def peek (n : Nat) (b : BR τ) : Bytes := slice b.buf b.idx n

/-- `move_cursor()`. -/
def move (n : Nat) (b : BR τ) : BR τ := { b with idx := b.idx + n }

/-- `SyncBuffer()` (`buffered_reader.cc:59-62`). -/
def sync (b : BR τ) : BR τ := { b with buf := [], idx := 0 }

/-- `Fail()`. -/
def fail (b : BR τ) : BR τ := { b with phys := { b.phys with ok := false } }

/-- `ExactSizeReached()`. -/
def exactSizeReached (b : BR τ) : BR τ := { b with phys := S.exactSizeReached b.phys }

/-- `ReadBufferSizer::BufferLength()` of `buffer_sizer_`. -/
def bufferLength (p min rec : Nat) (b : BR τ) : Nat := b.sizer.bufferLength S.opts b.phys.exact p min rec

/-- `ToleratesReadingAhead()` (`buffered_reader.h:47`). -/
def tolerates (b : BR τ) : Bool := b.sizer.readAll || S.tolerates b.phys

/-- Reading more data to the end of the buffer, in `PullSlow()`, `ReadSlow()`, `CopySlow()` (`buffered_reader.cc:92-114` and similarly
there): `want` bytes are wanted, `len` is the buffer length. -/
def fill (want len : Nat) (b : BR τ) : Bool × BR τ :=
  let m := if b.tolerates S then len else min want len
  let r := S.readInternal m len b.phys
  (r.1, { b with phys := r.2.2, buf := b.buf ++ r.2.1, tick := b.tick + 1 })

/-- `PullSlow()` (`buffered_reader.cc:70-116`). -/
def pullSlow (n rec : Nat) (b : BR τ) : Bool × BR τ :=
  if b.phys.ok = false then (false, b)
  else
    let a := b.avail
    let len := b.bufferLength S b.phys.limitPos (n - a) (rec - a)
    if len = 0 then (false, b.exactSizeReached S)
    else
      let b := if S.room b.tick len then b else { b with buf := b.buf.drop b.idx, idx := 0 }
      let r := b.fill S (n - a) len
      (decide (n ≤ r.2.avail), r.2)

/-- `BufferedReader` with `PullSlow()`, for the default implementations of `Reader`. -/
def core : Core (BR τ) where
  start := start
  cursor := pos
  limit b := b.phys.limitPos
  buf := BR.buf
  ok b := b.phys.ok
  setCursor c b := { b with idx := c - b.start }
  pullSlow := pullSlow S
  fail := fail
  block _ := 0
  ahead := True

/-- The limit on reading directly by `exact_size()`, for reading `n` bytes: `none` if the size was reached
(`buffered_reader.cc:153-160` and similarly in other places). -/
def direct (n : Nat) (p : Phys τ) : Option Nat :=
  match p.exact with
  | some e => if e ≤ p.limitPos then none else some (min n (e - p.limitPos))
  | none => some n

/-- `ReadSlow(char*)` (`buffered_reader.cc:141-168`). -/
def readChars (n : Nat) (b : BR τ) : Bool × Bytes × BR τ :=
  if b.bufferLength S b.pos 0 0 ≤ n then
    let a := b.avail
    let bs := b.peek a
    let b := b.sync
    if b.phys.ok = false then (false, bs, b)
    else match direct (n - a) b.phys with
      | none => (false, bs, b.exactSizeReached S)
      | some k =>
        let r := S.readInternal k k b.phys
        (r.1 && decide (n - a ≤ k), bs ++ r.2.1, { b with phys := r.2.2 })
  else (core S).readChars (n + 1) n b

/-- The end of `ReadSlow(Chain&)`: append `n` bytes from the buffer, or as much as is available. -/
def readEnd (n : Nat) (b : BR τ) : Bool × Bytes × BR τ :=
  if n ≤ b.avail then (true, b.peek n, b.move n) else (false, b.peek b.avail, b.move b.avail)

/-- The loop of `ReadSlow(Chain&)` and `ReadSlow(Cord&)` (`buffered_reader.cc:170-313`). The first argument bounds the number of
iterations; `n + 1` is enough. -/
def readBlocks : Nat → Nat → BR τ → Bool × Bytes × BR τ
  | 0, _, b => (false, [], b)
  | fuel + 1, n, b =>
    if n ≤ b.avail then b.readEnd n
    else if b.phys.ok = false then b.readEnd n
    else
      let a := b.avail
      let len := b.bufferLength S b.phys.limitPos 1 (n - a)
      if S.room b.tick len ∧ len ≠ 0 then
        let r := b.fill S (n - a) len
        if r.1 = false then r.2.readEnd n else readBlocks fuel n r.2
      else
        let bs := b.peek a
        let n := n - a
        let b := b.sync
        if len = 0 then (false, bs, b.exactSizeReached S)
        else
          let r := b.fill S n len
          let q := if r.1 = false then r.2.readEnd n else readBlocks fuel n r.2
          (q.1, bs ++ q.2.1, q.2.2)

/-- `ReadSlow()`. -/
def readSlow (k : Kind) (n : Nat) (b : BR τ) : Bool × Bytes × BR τ :=
  match k with
  | .chars => b.readChars S n
  | .blocks => readBlocks S (n + 1) n b

/-- The loop of `CopyInternal()` (`buffered_reader.cc:429-473`): `n` bytes remain, and `k` of them do not exceed `exact_size()`. The
first argument bounds the number of iterations; `n` is enough. -/
def copyInternalLoop : Nat → Nat → Nat → Dest → Phys τ → Bool × Dest × Phys τ
  | 0, _, _, d, p => (false, d, p)
  | fuel + 1, n, k, d, p =>
    match d.space S.push with
    | (none, d) => (false, d, p)
    | (some space, d) =>
      let len := min k space
      let r := S.readInternal len len p
      let d := { d with written := d.written ++ r.2.1 }
      if r.1 = false then (false, d, r.2.2)
      else if n - r.2.1.length = 0 then (true, d, r.2.2)
      else match direct (n - r.2.1.length) r.2.2 with
        | none => (false, d, S.exactSizeReached r.2.2)
        | some k => copyInternalLoop fuel (n - r.2.1.length) k d r.2.2

/-- `CopyUsingPush()` with `CopyInternal()` (`buffered_reader.cc:412-427`). -/
def copyUsingPush (n : Nat) (d : Dest) (b : BR τ) : Bool × Dest × BR τ :=
  match direct n b.phys with
  | none => (false, d, b.exactSizeReached S)
  | some k =>
    let r := (S.copyInternal k d b.phys).getD (copyInternalLoop S k k k d b.phys)
    (r.1 && decide (k = n), r.2.1, { b with phys := r.2.2 })

/-- The end of `CopySlow(Writer&)`: write `n` bytes from the buffer, or as much as is available. -/
def copyEnd (n : Nat) (d : Dest) (b : BR τ) : Bool × Dest × BR τ :=
  let k := min n b.avail
  let w := d.write (b.peek k)
  (w.1 && decide (n ≤ b.avail), w.2, b.move k)

/-- `CopySlow(Writer&)` (`buffered_reader.cc:315-410`). The first argument bounds the number of iterations; `n + 1` is enough. -/
def copyLoop : Nat → Nat → Dest → BR τ → Bool × Dest × BR τ
  | 0, _, d, b => (false, d, b)
  | fuel + 1, n, d, b =>
    if n ≤ b.avail then b.copyEnd n d
    else if b.phys.ok = false then b.copyEnd n d
    else
      let a := b.avail
      let directly := decide (b.bufferLength S b.pos 0 0 ≤ n)
      if directly ∧ a ≤ kMaxBytesToCopy then
        let w := d.write (b.peek a)
        if w.1 = false then (false, w.2, b.move a)
        else b.sync.copyUsingPush S (n - a) w.2
      else
        let len := b.bufferLength S b.phys.limitPos 1 (n - a)
        if S.room b.tick len ∧ len ≠ 0 then
          let r := b.fill S (n - a) len
          if r.1 = false then r.2.copyEnd n d else copyLoop fuel n d r.2
        else
          let w := if 0 < a then d.write (b.peek a) else (true, d)
          let b := b.sync
          if w.1 = false then (false, w.2, b)
          else if len = 0 then (false, w.2, b.exactSizeReached S)
          else if directly then b.copyUsingPush S (n - a) w.2
          else
            let r := b.fill S (n - a) len
            if r.1 = false then r.2.copyEnd (n - a) w.2 else copyLoop fuel (n - a) w.2 r.2

/-- `CopySlow(BackwardWriter&)` (`buffered_reader.cc:475-491`). -/
def copyBackSlow (n : Nat) (d : Dest) (b : BR τ) : Bool × Dest × BR τ :=
  if n ≤ kMaxBytesToCopy then
    let p := d.push n
    if p.1 = false then (false, p.2, b)
    else
      let r := b.readChars S n
      if r.1 = false then (false, p.2, r.2.2)
      else (true, { p.2 with written := r.2.1 ++ p.2.written }, r.2.2)
  else
    let r := readBlocks S (n + 1) n b
    if r.1 = false then (false, d, r.2.2)
    else
      let w := d.prepend r.2.1
      (w.1, w.2, r.2.2)

/-- `ReadSomeSlow(char*)` (`buffered_reader.cc:493-519`). -/
def readSomeSlow (n : Nat) (b : BR τ) : Bool × Bytes × BR τ :=
  if b.bufferLength S b.phys.limitPos 0 0 ≤ n then
    if b.phys.ok = false then (false, [], b)
    else
      let b := b.sync
      match direct n b.phys with
      | none => (false, [], b.exactSizeReached S)
      | some k =>
        let r := S.readInternal (if b.tolerates S then k else 1) k b.phys
        (decide (r.2.2.limitPos ≠ b.phys.limitPos), r.2.1, { b with phys := r.2.2 })
  else (core S).readSomeSlow n b

/-- `CopySomeSlow(Writer&)` (`buffered_reader.cc:521-553`), with `Reader::CopySomeSlow()` (`reader.cc:758-773`). -/
def copySomeSlow (n : Nat) (d : Dest) (b : BR τ) : Bool × Dest × BR τ :=
  if b.bufferLength S b.phys.limitPos 0 0 ≤ n then
    if b.phys.ok = false then (false, d, b)
    else
      let b := b.sync
      match direct n b.phys with
      | none => (false, d, b.exactSizeReached S)
      | some k =>
        match d.space S.push with
        | (none, d) => (false, d, b)
        | (some space, d) =>
          let k := min k space
          let r := S.readInternal (if b.tolerates S then k else 1) k b.phys
          (decide (0 < r.2.1.length), { d with written := d.written ++ r.2.1 }, { b with phys := r.2.2 })
  else
    let r := b.pullSlow S 1 n
    if r.1 = false then (false, d, r.2)
    else
      let k := min n r.2.avail
      if k ≤ r.2.avail ∧ k ≤ kMaxBytesToCopy then
        let w := d.write (r.2.peek k)
        (w.1, w.2, r.2.move k)
      else copyLoop S (k + 1) k d r.2

/-- `SeekBehindBuffer()` of the derived class, or the default one (`buffered_reader.cc:118-139`). -/
def seekBehind (q : Nat) (b : BR τ) : Bool × BR τ :=
  match S.seekBehind q b.phys with
  | some r => (r.1, { b with phys := r.2 })
  | none =>
    match S.rewind q b.phys with
    | none => (core S).seekSlow q b
    | some p =>
      if p.ok = false then (false, { b with phys := p })
      else if q = p.limitPos then (true, { b with phys := p })
      else (core S).seekSlow q { b with phys := p }

/-- `SeekSlow()` (`buffered_reader.cc:576-589`). -/
def seekSlow (q : Nat) (b : BR τ) : Bool × BR τ :=
  if S.randomAccess b.phys = false then b.sync.seekBehind S q
  else
    let b := { b with sizer := b.sizer.endRun b.pos }
    let r := b.sync.seekBehind S q
    (r.1, { r.2 with sizer := r.2.sizer.beginRun r.2.start })

/-- `SizeImpl()` of the derived class, or the default one (`buffered_reader.cc:591-598`). -/
def sizeImpl (b : BR τ) : Option Nat × BR τ :=
  match S.sizeImpl b.phys with
  | some r => (r.1, { b with phys := r.2 })
  | none =>
    if b.phys.ok = false then (none, b)
    else match b.phys.exact with
      | none => (none, b.fail)
      | some e => (some e, b)

/-- `SyncImpl()` (`buffered_reader.cc:563-574`). -/
def syncImpl (b : BR τ) : Bool × BR τ :=
  if 0 < b.avail ∧ S.randomAccess b.phys = false then (b.phys.ok, b)
  else
    let q := b.pos
    let b := { b with sizer := b.sizer.endRun q }.sync
    let r := if q = b.phys.limitPos then (b.phys.ok, b) else b.seekBehind S q
    (r.1, { r.2 with sizer := r.2.sizer.beginRun r.2.start })

/-- `Done()` (`buffered_reader.cc:43-57`), called by `Close()`: the state of the source afterwards. `Close()` returns `ok()`. -/
def done (b : BR τ) : Phys τ :=
  if 0 < b.avail ∧ S.randomAccess b.phys then (({ b with buf := [], idx := 0 } : BR τ).seekBehind S b.pos).2.phys
  else b.phys

/-- `SetReadAllHint()` (`buffered_reader.cc:64-66`). -/
def setReadAllHint (h : Bool) (b : BR τ) : BR τ := { b with sizer := { b.sizer with readAll := h } }

/-- `BufferedReader` as a class of readers. -/
def ops : ReaderOps (BR τ) where
  start := start
  cursor := pos
  limit b := b.phys.limitPos
  buf := BR.buf
  ok b := b.phys.ok
  setCursor c b := { b with idx := c - b.start }
  pullSlow := pullSlow S
  readSlow k n b := b.readSlow S k n
  copySlow n d b := copyLoop S (n + 1) n d b
  copyBackSlow n d b := b.copyBackSlow S n d
  readSomeSlow n b := b.readSomeSlow S n
  copySomeSlow n d b := b.copySomeSlow S n d
  readHintSlow n rec b := (b.pullSlow S n rec).2
  seekSlow q b := b.seekSlow S q
  sizeImpl b := b.sizeImpl S
  ahead := True

end BR
end Riegeli.Rdr

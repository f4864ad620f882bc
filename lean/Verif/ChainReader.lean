import Verif.PullableReader
/-!
# `ChainReader` and `CordReader`

Models of `riegeli/bytes/chain_reader.{h,cc}` and `riegeli/bytes/cord_reader.{h,cc}`: the functions behind scratch of `PullableReader`. A `Chain` is its
list of blocks; an `absl::Cord` is its data with an arbitrary division into chunks. Functions which are not overridden have default
implementations in `pullable_reader.cc:169-371`, which have the same text as those of `reader.cc`, with `PullBehindScratch()` for `PullSlow()`.

Simplifications: destinations of kinds `Chain` and `absl::Cord` get the same data (`ReadBehindScratch(Chain&)` and `ReadBehindScratch(Cord&)` differ in
how data are shared); moving the reader is not modelled; the source does not change while it is being read.
-/
namespace Riegeli.Rdr

/-- Buffer pointers and `limit_pos()` of a `Reader` (`reader.h:127-129`, `reader.h:361`): the buffer, the cursor in it. -/
structure Win where
  buf : Bytes
  off : Nat
  limitPos : Nat

namespace Win

/-- `start_pos()`. -/
def start (w : Win) : Nat := w.limitPos - w.buf.length

/-- `pos()`. -/
def cursor (w : Win) : Nat := w.limitPos - (w.buf.length - w.off)

/-- `set_cursor()`. -/
def setCursor (c : Nat) (w : Win) : Win := { w with off := c - w.start }

end Win

/-! ## Copying from a source which is a whole -/

/-- `ChainReaderBase::CopyBehindScratch(Writer&)` (`chain_reader.cc:146-172`), `CordReaderBase::CopyBehindScratch(Writer&)` (`cord_reader.cc:131-157`). -/
def copyVia {σ : Type} (R : ReaderOps σ) (src : Bytes) (n : Nat) (d : Dest) (s : σ) : Bool × Dest × σ :=
  if R.ok s = false then (false, d, s)
  else
    let len := min n (src.length - R.cursor s)
    if len = src.length then
      let t := (R.skip len s).2
      let w := d.write src
      if w.1 = false then (false, w.2, t) else (decide (len = n), w.2, t)
    else if len ≤ kMaxBytesToCopy then
      let p := d.push len
      if p.1 = false then (false, p.2, s)
      else
        let r := R.read .chars len s
        (decide (len = n), { p.2 with written := p.2.written ++ r.2.1 }, r.2.2)
    else
      let r := R.read .blocks len s
      let w := d.write r.2.1
      if w.1 = false then (false, w.2, r.2.2) else (decide (len = n), w.2, r.2.2)

/-- `ChainReaderBase::CopyBehindScratch(BackwardWriter&)` (`chain_reader.cc:174-207`), `CordReaderBase::CopyBehindScratch(BackwardWriter&)`
(`cord_reader.cc:159-192`). -/
def copyBackVia {σ : Type} (R : ReaderOps σ) (src : Bytes) (n : Nat) (d : Dest) (s : σ) : Bool × Dest × σ :=
  if R.ok s = false then (false, d, s)
  else if src.length - R.cursor s < n then (false, d, (R.seek src.length s).2)
  else if n = src.length then
    let t := (R.skip n s).2
    let w := d.prepend src
    (w.1, w.2, t)
  else if n ≤ kMaxBytesToCopy then
    let p := d.push n
    if p.1 = false then (false, p.2, s)
    else
      let r := R.readSlow .chars n s
      if r.1 = false then (false, p.2, r.2.2) else (true, { p.2 with written := r.2.1 ++ p.2.written }, r.2.2)
  else
    let r := R.readSlow .blocks n s
    let w := d.prepend r.2.1
    (w.1, w.2, r.2.2)

/-- `PullableReader::CopySomeBehindScratch()` (`pullable_reader.cc:310-331`) with these functions. -/
def copySomeVia {σ : Type} (R : ReaderOps σ) (src : Bytes) (n : Nat) (d : Dest) (s : σ) : Bool × Dest × σ :=
  let r := R.pullSlow 1 n s
  if r.1 = false then (false, d, r.2)
  else
    let k := min n (R.avail r.2)
    if k ≤ kMaxBytesToCopy then
      let w := d.write (R.peek k r.2)
      (w.1, w.2, R.move k r.2)
    else copyVia R src k d r.2

/-- A class with these functions. -/
def via {σ : Type} (R : ReaderOps σ) (src : Bytes) : ReaderOps σ :=
  { R with copySlow := copyVia R src, copyBackSlow := copyBackVia R src, copySomeSlow := copySomeVia R src }

/-! ## `ChainReader` -/

/-- `ChainReaderBase` (`chain_reader.h:42-87`): the index of the block `iter_`, the buffer. -/
structure ChR where
  i : Nat
  w : Win
  ok : Bool

namespace ChR
variable (bs : List Bytes)

/-- The index of the first nonempty block at or after the given index (`chain_reader.cc:57-58`). -/
def nextFull : List Bytes → Nat → Nat
  | [], j => j
  | b :: l, j => if b.isEmpty then nextFull l (j + 1) else j

/-- `PullBehindScratch()` (`chain_reader.cc:45-68`). -/
def pull (s : ChR) : Bool × ChR :=
  if s.ok = false then (false, s)
  else if s.i = bs.length then (false, s)
  else
    let j := nextFull (bs.drop (s.i + 1)) (s.i + 1)
    match bs[j]? with
    | some b => (true, { s with i := j, w := ⟨b, 0, s.w.limitPos + b.length⟩ })
    | none => (false, { s with i := j, w := ⟨[], 0, s.w.limitPos⟩ })

/-- The buffer and `PullBehindScratch()`, which is called only for pulling 1 byte. -/
def core : Core ChR where
  start s := s.w.start
  cursor s := s.w.cursor
  limit s := s.w.limitPos
  buf s := s.w.buf
  ok s := s.ok
  setCursor c s := { s with w := s.w.setCursor c }
  pullSlow n _ s := if n = 1 then s.pull bs else (false, { s with ok := false })
  fail s := { s with ok := false }
  block n := n

/-- The loop of `ReadBehindScratch()` (`chain_reader.cc:92-105`): the blocks after `iter_`, the index, the length, `limit_pos()`. Returns the result, the
data, `iter_`, and the buffer. -/
def readLoop : List Bytes → Nat → Nat → Nat → Bool × Bytes × Nat × Win
  | [], i, _, lp => (false, [], i, ⟨[], 0, lp⟩)
  | b :: l, i, n, lp =>
    if n ≤ b.length then (true, b.take n, i, ⟨b, n, lp + b.length⟩)
    else
      let q := readLoop l (i + 1) (n - b.length) (lp + b.length)
      (q.1, b ++ q.2.1, q.2.2)

/-- `ReadBehindScratch(Chain&)`, `ReadBehindScratch(Cord&)` (`chain_reader.cc:70-144`). -/
def readBlocks (n : Nat) (s : ChR) : Bool × Bytes × ChR :=
  if s.ok = false then (false, [], s)
  else if n ≤ (core bs).avail s then (true, (core bs).peek n s, (core bs).move n s)
  else if s.i = bs.length then (false, [], s)
  else
    let a := (core bs).avail s
    let q := readLoop (bs.drop (s.i + 1)) (s.i + 1) (n - a) s.w.limitPos
    (q.1, (core bs).peek a s ++ q.2.1, { s with i := q.2.2.1, w := q.2.2.2 })

/-- `Chain::BlockAndCharIndex()` (`chain.cc:708-739`, modelled in `ChainRead.lean`): the block, and the index in the block. -/
def locate : List Bytes → Nat → Nat → Nat × Nat
  | [], i, p => (i, p)
  | b :: l, i, p => if p < b.length then (i, p) else locate l (i + 1) (p - b.length)

/-- `SeekBehindScratch()` (`chain_reader.cc:209-233`). -/
def seek (p : Nat) (s : ChR) : Bool × ChR :=
  if s.ok = false then (false, s)
  else if bs.flatten.length ≤ p then (decide (p = bs.flatten.length), { s with i := bs.length, w := ⟨[], 0, bs.flatten.length⟩ })
  else
    let l := locate bs 0 p
    let b := bs.getD l.1 []
    (true, { s with i := l.1, w := ⟨b, l.2, p + (b.length - l.2)⟩ })

/-- The class without copying. `SizeImpl()` (`chain_reader.cc:235-239`). -/
def base : ReaderOps ChR :=
  { (core bs).toOps with
    readSlow := fun k n s => match k with
      | .chars => (core bs).readChars (n + 1) n s
      | .blocks => s.readBlocks bs n
    seekSlow := fun p s => s.seek bs p
    sizeImpl := fun s => if s.ok = false then (none, s) else (some bs.flatten.length, s) }

/-- `ChainReaderBase` behind scratch. -/
def behind : ReaderOps ChR := via (base bs) bs.flatten

/-- `Initialize()` (`chain_reader.h:162-170`). -/
def init : ChR :=
  match bs with
  | [] => ⟨0, ⟨[], 0, 0⟩, true⟩
  | b :: _ => ⟨0, ⟨b, 0, b.length⟩, true⟩

/-- `ChainReader`. -/
def ops (room : Nat → Nat → Nat) : ReaderOps (PS ChR) := PS.ops (behind bs) room

end ChR

/-! ## `CordReader` -/

/-- `CordReaderBase` (`cord_reader.h:45-110`): the position of `*iter_`, the buffer. -/
structure CdR where
  iter : Option Nat
  w : Win
  ok : Bool

namespace CdR
variable (D : Bytes) (chunk block : Nat → Nat)

/-- `absl::Cord::ChunkRemaining()` at the position `p` before the end: nonempty, otherwise arbitrary. -/
def remaining (p : Nat) : Bytes := slice D p (max 1 (min (chunk p) (D.length - p)))

/-- `MakeBuffer()` (`cord_reader.h:202-213`), with `*iter_` at `p`. -/
def makeBuffer (p limitPos : Nat) : Win :=
  if p = D.length then ⟨[], 0, limitPos⟩ else ⟨remaining D chunk p, 0, limitPos + (remaining D chunk p).length⟩

/-- `PullBehindScratch()` (`cord_reader.cc:53-74`). -/
def pull (s : CdR) : Bool × CdR :=
  match s.iter with
  | none => (false, s)
  | some p =>
    if s.ok = false then (false, s)
    else
      let p := p + s.w.off
      if p = D.length then (false, { s with iter := some p, w := ⟨[], 0, s.w.limitPos⟩ })
      else (true, { s with iter := some p, w := ⟨remaining D chunk p, 0, s.w.limitPos + (remaining D chunk p).length⟩ })

/-- The buffer and `PullBehindScratch()`, which is called only for pulling 1 byte. `block` is the size of buffers for the default
`ReadBehindScratch(Chain&)`. -/
def core : Core CdR where
  start s := s.w.start
  cursor s := s.w.cursor
  limit s := s.w.limitPos
  buf s := s.w.buf
  ok s := s.ok
  setCursor c s := { s with w := s.w.setCursor c }
  pullSlow n _ s := if n = 1 then s.pull D chunk else (false, { s with ok := false })
  fail s := { s with ok := false }
  block := block

/-- `ReadBehindScratch(Chain&)`, `ReadBehindScratch(Cord&)` (`cord_reader.cc:76-129`), with `SyncBuffer()` (`cord_reader.cc:44-51`). -/
def readBlocks (n : Nat) (s : CdR) : Bool × Bytes × CdR :=
  match s.iter with
  | none => (core D chunk block).readBlocks n n s
  | some p =>
    if s.ok = false then (false, [], s)
    else
      let limitPos := s.w.cursor
      let p := p + s.w.off
      let len := min n (D.length - limitPos)
      (decide (len = n), slice D p len, { s with iter := some (p + len), w := makeBuffer D chunk (p + len) (limitPos + len) })

/-- `SeekBehindScratch()` (`cord_reader.cc:194-233`). -/
def seek (q : Nat) (s : CdR) : Bool × CdR :=
  if s.ok = false then (false, s)
  else
    match s.iter with
    | none => (false, { s with w := s.w.setCursor s.w.limitPos })
    | some p =>
      if s.w.limitPos < q then
        if D.length ≤ q then (decide (q = D.length), { s with iter := some D.length, w := ⟨[], 0, D.length⟩ })
        else
          let p := p + (q - s.w.start)
          (true, { s with iter := some p, w := makeBuffer D chunk p q })
      else (true, { s with iter := some q, w := makeBuffer D chunk q q })

/-- The class without copying. `SizeImpl()` (`cord_reader.cc:235-239`). -/
def base : ReaderOps CdR :=
  { (core D chunk block).toOps with
    readSlow := fun k n s => match k with
      | .chars => (core D chunk block).readChars (n + 1) n s
      | .blocks => s.readBlocks D chunk block n
    seekSlow := fun p s => s.seek D chunk p
    sizeImpl := fun s => if s.ok = false then (none, s) else (some D.length, s) }

/-- `CordReaderBase` behind scratch. -/
def behind : ReaderOps CdR := via (base D chunk block) D

/-- `Initialize()` (`cord_reader.h:188-200`); `flat` tells whether `TryFlat()` succeeds. -/
def init (flat : Bool) : CdR :=
  if flat ∧ D.length ≤ kMaxBytesToCopy then ⟨none, ⟨D, 0, D.length⟩, true⟩
  else ⟨some 0, makeBuffer D chunk 0 0, true⟩

/-- `CordReader`. -/
def ops (room : Nat → Nat → Nat) : ReaderOps (PS CdR) := PS.ops (behind D chunk block) room

end CdR
end Riegeli.Rdr

import Verif.ReaderDefaults
/-!
# `PullableReader`

Model of `riegeli/bytes/pullable_reader.{h,cc}`: a `Reader` whose class is able to make available only as much contiguous data as the source has
(`PullBehindScratch()`). `Pull(n)` for `n > 1` collects the data in scratch. While scratch is used, the buffer pointers point to scratch instead of
the buffer of the source, which is remembered aside.

The class behind scratch is a `ReaderOps`, of which `pullSlow` is called only as `pullSlow 1`: it is `PullBehindScratch()`. The other functions are
`ReadBehindScratch()`, `CopyBehindScratch()`, ....

Simplifications: `limit_pos()` while scratch is used is the position of the source behind scratch, to which `set_limit_pos(pos())` sets it when scratch
begins to be used (`pullable_reader.cc:160`) and which `move_limit_pos(available())` undoes (`pullable_reader.cc:86`); sharing the memory of
scratch with `Chain` and `absl::Cord` destinations (`ExternalRef`) is represented as copying.
-/
namespace Riegeli.Rdr

/-- `PullableReader` (`pullable_reader.h:41-154`): the source with its buffer (`original_start`, ... while scratch is used), scratch, and the cursor in
scratch. -/
structure PS (σ : Type) where
  src : σ
  scratch : Bytes
  off : Nat

namespace PS
variable {σ : Type} (R : ReaderOps σ) (room : Nat → Nat → Nat)

/-- `scratch_used()` (`pullable_reader.h:209-211`). -/
def used (s : PS σ) : Bool := !s.scratch.isEmpty

/-- `start_pos()` (`reader.h:357`). -/
def start (s : PS σ) : Nat := if s.used then R.cursor s.src - s.scratch.length else R.start s.src

/-- `pos()` (`reader.h:353`). -/
def cursor (s : PS σ) : Nat := if s.used then R.cursor s.src - (s.scratch.length - s.off) else R.cursor s.src

/-- `limit_pos()` (`reader.h:361`). -/
def limit (s : PS σ) : Nat := if s.used then R.cursor s.src else R.limit s.src

/-- The data between `start()` and `limit()`. -/
def buf (s : PS σ) : Bytes := if s.used then s.scratch else R.buf s.src

/-- `available()`. -/
def avail (s : PS σ) : Nat := s.limit R - s.cursor R

/-- `set_cursor()`. -/
def setCursor (c : Nat) (s : PS σ) : PS σ := if s.used then { s with off := c - s.start R } else { s with src := R.setCursor c s.src }

/-- The first `n` bytes at the cursor. -/
def peek (n : Nat) (s : PS σ) : Bytes := slice (s.buf R) (s.cursor R - s.start R) n

/-- `move_cursor(n)`. -/
def move (n : Nat) (s : PS σ) : PS σ := s.setCursor R (s.cursor R + n)

/-- `SyncScratch()`, `ClearScratch()` (`pullable_reader.cc:69-87`). -/
def sync (s : PS σ) : PS σ := { s with scratch := [], off := 0 }

/-- `ScratchEnds()` (`pullable_reader.cc:89-100`). -/
def ends (s : PS σ) : Bool × PS σ :=
  let a := s.avail R
  if a ≤ R.cursor s.src - R.start s.src then (true, { s.sync with src := R.setCursor (R.cursor s.src - a) s.src })
  else (false, s)

/-- The loop of `PullSlow()` (`pullable_reader.cc:147-158`): at least `need` bytes are needed, there is place for `most`, `rec` are recommended.
`scratch_used()` in the loop is false because scratch was taken away. The first argument bounds the number of iterations; `need + 1` is enough. -/
def gather : Nat → Nat → Nat → Nat → σ → Bytes × σ
  | 0, _, _, _, s => ([], s)
  | fuel + 1, need, most, rec, s =>
    let len := min (R.avail s) most
    let bs := R.peek len s
    let t := R.move len s
    if need ≤ len then (bs, t)
    else
      let r := R.pullSlow 1 (rec - len) t
      if r.1 = false then (bs, r.2)
      else
        let q := gather fuel (need - len) (most - len) (rec - len) r.2
        (bs ++ q.1, q.2)

/-- The second part of `PullSlow()` (`pullable_reader.cc:122-166`): collecting `n` bytes in scratch, after what scratch already has. `AppendBuffer()`
gives at least the length needed, possibly more (`room`). -/
def collect (n rec : Nat) (s : PS σ) : Bool × PS σ :=
  let kept := s.scratch.drop s.off
  let need := n - kept.length
  let rec' := max n rec - kept.length
  let q := gather R (need + 1) need (max need (room need rec')) rec' s.src
  let t : PS σ := ⟨q.2, kept ++ q.1, 0⟩
  (decide (n ≤ t.scratch.length), t)

/-- `PullSlow()` (`pullable_reader.cc:102-167`). -/
def pullSlow (n rec : Nat) (s : PS σ) : Bool × PS σ :=
  if n = 1 then
    let t := s.sync
    if s.used ∧ 0 < R.avail t.src then (true, t)
    else
      let r := R.pullSlow 1 rec t.src
      (r.1, { t with src := r.2 })
  else
    let e := if s.used then s.ends R else (false, s)
    if e.1 ∧ n ≤ e.2.avail R then (true, e.2)
    else if e.2.avail R = 0 then
      let r := R.pullSlow 1 rec e.2.src
      let t := { e.2 with src := r.2 }
      if r.1 = false then (false, t)
      else if n ≤ t.avail R then (true, t)
      else t.collect R room n rec
    else e.2.collect R room n rec

/-- `ReadSlow(length, char*)`, `ReadSlow(length, Chain&)`, `ReadSlow(length, Cord&)` (`pullable_reader.cc:373-452`). -/
def readSlow (k : Kind) (n : Nat) (s : PS σ) : Bool × Bytes × PS σ :=
  if s.used then
    let e := s.ends R
    if e.1 = false ∧ k = .blocks ∧ n ≤ s.avail R then (true, s.peek R n, s.move R n)
    else
      let a := if e.1 then 0 else s.avail R
      let t := if e.1 then e.2 else s.sync
      let m := n - a
      if m ≤ t.avail R ∧ (k = .chars ∨ m ≤ kMaxBytesToCopy) then (true, s.peek R a ++ t.peek R m, t.move R m)
      else
        let r := R.readSlow k m t.src
        (r.1, s.peek R a ++ r.2.1, { t with src := r.2.2 })
  else
    let r := R.readSlow k n s.src
    (r.1, r.2.1, { s with src := r.2.2 })

/-- `CopySlow(length, Writer&)` (`pullable_reader.cc:454-479`). -/
def copySlow (n : Nat) (d : Dest) (s : PS σ) : Bool × Dest × PS σ :=
  if s.used then
    let e := s.ends R
    if e.1 = false ∧ n ≤ s.avail R then
      let w := d.write (s.peek R n)
      (w.1, w.2, s.move R n)
    else
      let w := if e.1 then (true, d) else d.write (s.peek R (s.avail R))
      let t := if e.1 then e.2 else s.sync
      let m := if e.1 then n else n - s.avail R
      if w.1 = false then (false, w.2, t)
      else if m ≤ t.avail R ∧ m ≤ kMaxBytesToCopy then
        let v := w.2.write (t.peek R m)
        (v.1, v.2, t.move R m)
      else
        let r := R.copySlow m w.2 t.src
        (r.1, r.2.1, { t with src := r.2.2 })
  else
    let r := R.copySlow n d s.src
    (r.1, r.2.1, { s with src := r.2.2 })

/-- `CopySlow(length, BackwardWriter&)` (`pullable_reader.cc:481-509`). -/
def copyBackSlow (n : Nat) (d : Dest) (s : PS σ) : Bool × Dest × PS σ :=
  if s.used then
    let e := s.ends R
    if e.1 = false ∧ n ≤ s.avail R then
      let w := d.prepend (s.peek R n)
      (w.1, w.2, s.move R n)
    else
      let pre := if e.1 then [] else s.peek R (s.avail R)
      let t := if e.1 then e.2 else s.sync
      let m := if e.1 then n else n - s.avail R
      if m ≤ t.avail R ∧ m ≤ kMaxBytesToCopy then
        let v := d.prepend (t.peek R m)
        if v.1 = false then (false, v.2, t.move R m)
        else
          let w := v.2.prepend pre
          (w.1, w.2, t.move R m)
      else
        let r := R.copyBackSlow m d t.src
        if r.1 = false then (false, r.2.1, { t with src := r.2.2 })
        else
          let w := r.2.1.prepend pre
          (w.1, w.2, { t with src := r.2.2 })
  else
    let r := R.copyBackSlow n d s.src
    (r.1, r.2.1, { s with src := r.2.2 })

/-- `ReadSomeSlow()` (`pullable_reader.cc:511-528`). -/
def readSomeSlow (n : Nat) (s : PS σ) : Bool × Bytes × PS σ :=
  let t := s.sync
  if s.used ∧ 0 < R.avail t.src then
    let m := min n (R.avail t.src)
    (true, R.peek m t.src, { t with src := R.move m t.src })
  else
    let r := R.readSomeSlow n t.src
    (r.1, r.2.1, { t with src := r.2.2 })

/-- `CopySomeSlow()` (`pullable_reader.cc:530-555`). -/
def copySomeSlow (n : Nat) (d : Dest) (s : PS σ) : Bool × Dest × PS σ :=
  let e := if s.used then s.ends R else (true, s)
  if e.1 = false then
    let m := min n (s.avail R)
    let w := d.write (s.peek R m)
    (w.1, w.2, s.move R m)
  else if s.used ∧ 0 < e.2.avail R then
    let m := min n (e.2.avail R)
    if m ≤ kMaxBytesToCopy then
      let w := d.write (e.2.peek R m)
      (w.1, w.2, e.2.move R m)
    else
      let r := R.copySlow m d e.2.src
      (r.1, r.2.1, { e.2 with src := r.2.2 })
  else
    let r := R.copySomeSlow n d e.2.src
    (r.1, r.2.1, { e.2 with src := r.2.2 })

/-- `ReadHintSlow()` (`pullable_reader.cc:557-576`), with `BehindScratch` (`pullable_reader.cc:605-635`), which reveals the buffer of the source for a
while. -/
def readHintSlow (n rec : Nat) (s : PS σ) : PS σ :=
  if s.used then
    let e := s.ends R
    if e.1 = false then
      let m := n - s.avail R
      if R.avail s.src < m then { s with src := R.readHintSlow m (max rec n - s.avail R) s.src } else s
    else if n ≤ e.2.avail R then e.2
    else { e.2 with src := R.readHintSlow n rec e.2.src }
  else { s with src := R.readHintSlow n rec s.src }

/-- `SeekSlow()` (`pullable_reader.cc:591-603`). -/
def seekSlow (p : Nat) (s : PS σ) : Bool × PS σ :=
  let t := s.sync
  if s.used ∧ R.start t.src ≤ p ∧ p ≤ R.limit t.src then (true, { t with src := R.setCursor p t.src })
  else
    let r := R.seekSlow p t.src
    (r.1, { t with src := r.2 })

/-- `SyncImpl()` before `SyncBehindScratch()`, and `Done()` before `DoneBehindScratch()`, if `SupportsRandomAccess()` (`pullable_reader.cc:45-60`,
`pullable_reader.cc:578-589`). -/
def syncImpl (s : PS σ) : PS σ :=
  if s.used then
    let e := s.ends R
    if e.1 then e.2
    else
      let t := s.sync
      { t with src := (R.seek (s.cursor R) t.src).2 }
  else s

/-- `PullableReader` over the class behind scratch. `SizeImpl()` is not redefined. -/
def ops : ReaderOps (PS σ) where
  start := start R
  cursor := cursor R
  limit := limit R
  buf := buf R
  ok s := R.ok s.src
  setCursor := setCursor R
  pullSlow := pullSlow R room
  readSlow := readSlow R
  copySlow := copySlow R
  copyBackSlow := copyBackSlow R
  readSomeSlow := readSomeSlow R
  copySomeSlow := copySomeSlow R
  readHintSlow := readHintSlow R
  seekSlow := seekSlow R
  sizeImpl s :=
    let r := R.sizeImpl s.src
    (r.1, { s with src := r.2 })
  ahead := R.ahead

/-- A new object. -/
def init (src : σ) : PS σ := ⟨src, [], 0⟩

end PS
end Riegeli.Rdr

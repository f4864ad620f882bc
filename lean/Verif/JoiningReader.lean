import Verif.PullableReader
/-!
# `JoiningReader`

Model of `riegeli/bytes/joining_reader.{h,cc}`: a `Reader` of the data of a sequence of shards, one after another. It is a `PullableReader`; the
functions below are those behind scratch. The buffer is the part of the buffer of the open shard which begins at its cursor.

Shards are readers of one class `R`, with arbitrary states. `OpenShardImpl()`, which the user provides, takes the next element of a list; after the
last one it says that there is no next shard, or fails (`last`). The result of closing a shard (`CloseShardImpl()`) is an arbitrary function of its
state.

Simplifications: the length of all data is less than `kMaxPosition`, so that `FailOverflow()` does not happen; `SetReadAllHint()`, moving the reader,
annotating a status, and calling `OpenShard()` or `CloseShard()` from a derived class are not modelled.
-/
namespace Riegeli.Rdr

/-- `JoiningReaderBase` (`joining_reader.h:40-150`): the open shard, the shards to be opened, the length of the buffer, the cursor in it,
`limit_pos()`. -/
structure JR (σ : Type) where
  shard : Option σ
  rest : List σ
  len : Nat
  off : Nat
  limitPos : Nat
  ok : Bool

namespace JR
variable {σ : Type} (R : ReaderOps σ) (close : σ → Bool) (last : Bool)

/-- `start_pos()`. -/
def start (s : JR σ) : Nat := s.limitPos - s.len

/-- `pos()`. -/
def cursor (s : JR σ) : Nat := s.limitPos - (s.len - s.off)

/-- The data between `start()` and `limit()`: `start()` is the cursor of the shard. -/
def buf (s : JR σ) : Bytes :=
  match s.shard with
  | none => []
  | some t => R.peek s.len t

/-- `MakeBuffer()` (`joining_reader.h:252-262`), with the given `limit_pos()`. -/
def makeBuffer (t : σ) (rest : List σ) (limitPos : Nat) (ok : Bool) : JR σ :=
  ⟨some t, rest, R.avail t, 0, limitPos + R.avail t, ok && R.ok t⟩

/-- The loop over shards which is common to `PullBehindScratch()` (`joining_reader.cc:164-174`), `ReadBehindScratch(char*)` (`joining_reader.cc:192-212`),
`ReadInternal()` (`joining_reader.cc:251-271`), `CopyBehindScratch()` (`joining_reader.cc:289-312`), `ReadSomeBehindScratch()` (`joining_reader.cc:336-350`), and
`CopySomeBehindScratch()` (`joining_reader.cc:377-394`): `f` is the function of the shard, with what remains to be done as its argument; `stuck` says that the
destination failed. `CloseShardInternal()` (`joining_reader.cc:78-97`), `OpenShardInternal()` (`joining_reader.cc:59-76`). -/
def run {α : Type} (f : α → σ → Bool × α × σ) (stuck : α → Bool) : List σ → α → σ → Nat → Bool × α × JR σ
  | rest, a, t, lp =>
    let r := f a t
    let lp := lp + (R.cursor r.2.2 - R.cursor t)
    if r.1 = true then (true, r.2.1, makeBuffer R r.2.2 rest lp true)
    else if R.ok r.2.2 = false then (false, r.2.1, ⟨some r.2.2, rest, 0, 0, lp, false⟩)
    else if stuck r.2.1 = true then (false, r.2.1, makeBuffer R r.2.2 rest lp true)
    else if close r.2.2 = false then (false, r.2.1, ⟨none, rest, 0, 0, lp, false⟩)
    else match rest with
      | [] => (false, r.2.1, ⟨none, [], 0, 0, lp, last⟩)
      | u :: us => run f stuck us r.2.1 u lp

/-- The beginning of these functions: `SyncBuffer()` (`joining_reader.h:243-250`) of the open shard, or `OpenShardInternal()`
(`joining_reader.cc:157-163`, `joining_reader.cc:184-191`, ...). -/
def go {α : Type} (f : α → σ → Bool × α × σ) (stuck : α → Bool) (a : α) (s : JR σ) : Bool × α × JR σ :=
  if s.ok = false then (false, a, s)
  else match s.shard with
    | some t => run R close last f stuck s.rest a (R.move s.off t) s.cursor
    | none =>
      match s.rest with
      | [] => (false, a, { s with ok := last })
      | u :: us => run R close last f stuck us a u s.limitPos

/-- `PullBehindScratch()` (`joining_reader.cc:149-175`). -/
def pull (rec : Nat) (s : JR σ) : Bool × JR σ :=
  let r := go R close last (fun _ t => let p := R.pull 1 rec t; (p.1, (), p.2)) (fun _ => false) () s
  (r.1, r.2.2)

/-- `ReadBehindScratch()` (`joining_reader.cc:177-272`). -/
def readSlow (k : Kind) (n : Nat) (s : JR σ) : Bool × Bytes × JR σ :=
  let r := go R close last (fun a t => let p := R.read k a.1 t; (p.1, (a.1 - p.2.1.length, a.2 ++ p.2.1), p.2.2)) (fun _ => false) (n, []) s
  (r.1, r.2.1.2, r.2.2)

/-- `CopyBehindScratch(Writer&)` (`joining_reader.cc:274-313`). -/
def copySlow (n : Nat) (d : Dest) (s : JR σ) : Bool × Dest × JR σ :=
  let r := go R close last (fun a t => let p := R.copy a.1 a.2 t; (p.1, (a.1 - (R.cursor p.2.2 - R.cursor t), p.2.1), p.2.2)) (fun a => !a.2.ok) (n, d) s
  (r.1, r.2.1.2, r.2.2)

/-- `ReadSomeBehindScratch()` (`joining_reader.cc:315-351`). -/
def readSomeSlow (n : Nat) (s : JR σ) : Bool × Bytes × JR σ :=
  go R close last (fun a t => let p := R.readSome .chars n t; (p.1, a ++ p.2.1, p.2.2)) (fun _ => false) [] s

/-- `CopySomeBehindScratch()` (`joining_reader.cc:353-395`). -/
def copySomeSlow (n : Nat) (d : Dest) (s : JR σ) : Bool × Dest × JR σ :=
  let r := go R close last (fun a t => let p := R.copySome n a.2 t; (p.1, (a.1 + (R.cursor p.2.2 - R.cursor t), p.2.1), p.2.2)) (fun a => !a.2.ok) (0, d) s
  (r.1, r.2.1.2, r.2.2)

/-- `ReadHintBehindScratch()` (`joining_reader.cc:397-415`). -/
def readHintSlow (n rec : Nat) (s : JR σ) : JR σ :=
  if s.ok = false then s
  else match s.shard with
    | some t => makeBuffer R (R.readHint n rec (R.move s.off t)) s.rest s.cursor true
    | none =>
      match s.rest with
      | [] => { s with ok := last }
      | u :: us => makeBuffer R (R.readHint n rec u) us s.limitPos true

/-- `PullableReader::CopyBehindScratch(BackwardWriter&)` (`pullable_reader.cc:265-291`). -/
def copyBackSlow (n : Nat) (d : Dest) (s : JR σ) : Bool × Dest × JR σ :=
  if n ≤ s.len - s.off then
    let w := d.prepend (slice (s.buf R) s.off n)
    (w.1, w.2, { s with off := s.off + n })
  else if n ≤ kMaxBytesToCopy then
    let p := d.push n
    if p.1 = false then (false, p.2, s)
    else
      let r := s.readSlow R close last .chars n
      if r.1 = false then (false, p.2, r.2.2) else (true, { p.2 with written := r.2.1 ++ p.2.written }, r.2.2)
  else
    let r := s.readSlow R close last .blocks n
    if r.1 = false then (false, d, r.2.2)
    else
      let w := d.prepend r.2.1
      (w.1, w.2, r.2.2)

/-- The buffer and `PullBehindScratch()`, which is called only for pulling 1 byte. -/
def core : Core (JR σ) where
  start s := s.start
  cursor s := s.cursor
  limit s := s.limitPos
  buf s := s.buf R
  ok s := s.ok
  setCursor c s := { s with off := c - s.start }
  pullSlow n rec s := if n = 1 then s.pull R close last rec else (false, { s with ok := false })
  fail s := { s with ok := false }
  block n := n
  ahead := R.ahead

/-- `JoiningReaderBase` behind scratch. `SeekBehindScratch()` (`pullable_reader.cc:350-371`) and `SizeImpl()` are not overridden. -/
def behind : ReaderOps (JR σ) :=
  { (core R close last).toOps with
    readSlow := readSlow R close last
    copySlow := copySlow R close last
    copyBackSlow := copyBackSlow R close last
    readSomeSlow := readSomeSlow R close last
    copySomeSlow := copySomeSlow R close last
    readHintSlow := readHintSlow R last }

/-- `JoiningReader`. -/
def ops (room : Nat → Nat → Nat) : ReaderOps (PS (JR σ)) := PS.ops (behind R close last) room

/-- A new object: no shard is open. -/
def init (shards : List σ) : JR σ := ⟨none, shards, 0, 0, 0, true⟩

/-- `Done()` (`joining_reader.cc:38-44`): the result of `Close()`. `JoiningReader::Done()` then resets the shard. -/
def close' (s : JR σ) : Bool :=
  s.ok && match s.shard with
    | some t => close t
    | none => true

end JR
end Riegeli.Rdr

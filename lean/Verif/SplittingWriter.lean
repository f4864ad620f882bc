import Verif.WriterRef
/-!
# `SplittingWriter`

Model of `riegeli/bytes/splitting_writer.{h,cc}`: a `Writer` which splits data into shards. It is a `PushableWriter` (`pushable_writer.{h,cc}`): when there is
not enough space before the end of the buffer, the buffer given to the caller is scratch memory, which is written when scratch is no longer used.

Shards are writers of one class `W`, with arbitrary states. `OpenShardImpl()`, which the user provides, takes the next shard and its size limit from a list;
after the last one it fails. The result of closing a shard is an arbitrary function of its state. The buffer is the part of the buffer of the open shard
which begins at its cursor, up to the size limit; `buf` are the data written to it.

Simplifications: the length of all data is less than `kMaxPosition`; `Copy()` from a part of data to the shard writes this part to the shard like `Write()`;
assertions are not checked; moving the writer, annotating a status, and calling `OpenShard()` or `CloseShard()` from a derived class are not modelled.
-/
namespace Riegeli.Wtr

/-- The first `n` bytes of fragments. -/
def takeF : Nat → List Bytes → List Bytes
  | _, [] => []
  | n, f :: fs => f.take n :: takeF (n - f.length) fs

/-- The remaining bytes of fragments. -/
def dropF : Nat → List Bytes → List Bytes
  | _, [] => []
  | n, f :: fs => f.drop n :: dropF (n - f.length) fs

/-- `SplittingWriterBase` (`splitting_writer.h:41-184`) with `PushableWriter` (`pushable_writer.h:43-174`): the open shard, shards to be opened with their
size limits, `start_pos()`, `start_to_limit()`, data between `start()` and `cursor()`, `shard_pos_limit_`, `size_hint_`, scratch: data in it and its size.
`closed` and `limit` are not used by the program: the shards which were closed successfully, in the order of closing, with their size limits, and the size
limit of the open shard. -/
structure Sp (σ : Type) where
  closed : List (σ × Nat)
  limit : Nat
  shard : Option σ
  rest : List (σ × Nat)
  startPos : Nat
  len : Nat
  buf : Bytes
  limitPos : Nat
  hint : Option Nat
  scratch : Option (Bytes × Nat)
  ok : Bool
  tick : Nat

namespace Sp
variable {σ : Type} (W : WriterOps σ) (close : σ → Bool) (empty : Bool) (room : Nat → Nat → Nat → Nat)

/-- `Reset()` (`splitting_writer.h:252-256`). -/
def init (shards : List (σ × Nat)) : Sp σ := ⟨[], 0, none, shards, 0, 0, [], 0, none, none, true, 0⟩

/-- Data in scratch. -/
def fresh (s : Sp σ) : Bytes :=
  match s.scratch with
  | none => []
  | some p => p.1

/-- `pos()`. -/
def pos (s : Sp σ) : Nat := s.startPos + (s.buf ++ s.fresh).length

/-- `available()`. -/
def avail (s : Sp σ) : Nat :=
  match s.scratch with
  | none => s.len - s.buf.length
  | some p => p.2 - p.1.length

/-- Copying to `cursor()` and `move_cursor()`. -/
def put (bs : Bytes) (s : Sp σ) : Sp σ :=
  match s.scratch with
  | none => { s with buf := s.buf ++ bs }
  | some p => { s with scratch := some (p.1 ++ bs, p.2) }

/-- `Fail()` with `OnFail()` (`writer.cc:69`, `pushable_writer.cc:52-55`). -/
def fail (s : Sp σ) : Sp σ := { s with ok := false, len := 0, buf := [], scratch := none }

/-- `SyncBuffer()` (`splitting_writer.h:266-273`) of the open shard. -/
def syncBuffer (t : σ) (s : Sp σ) : Sp σ := { s with shard := some (W.put s.buf t), startPos := s.startPos + s.buf.length, buf := [], len := 0 }

/-- `MakeBuffer()` (`splitting_writer.h:275-287`), with the shard in the given state. -/
def makeBuffer (t : σ) (s : Sp σ) : Sp σ :=
  let s := { s with shard := some t, buf := [], len := min (W.avail t) (s.limitPos - s.startPos) }
  if W.ok t = true then s else s.fail

/-- The write size hint for the shard (`splitting_writer.cc:86-90`). -/
def shardHint (s : Sp σ) : Nat :=
  (match s.hint with
   | none => s.limitPos
   | some h => min s.limitPos h) - s.startPos

/-- `OpenShardInternal()` (`splitting_writer.cc:65-92`). -/
def openShard (s : Sp σ) : Bool × Sp σ :=
  match s.rest with
  | [] => (false, s.fail)
  | u :: us =>
    let s := { s with rest := us, limit := u.2, limitPos := s.startPos + u.2 }
    (true, { s with shard := some (W.setHint (some s.shardHint) u.1) })

/-- `CloseShardInternal()` (`splitting_writer.cc:94-110`), `CloseShardImpl()` (`splitting_writer.cc:52-63`). -/
def closeShard (t : σ) (s : Sp σ) : Bool × Sp σ :=
  if close t = true then (true, { s with shard := none, closed := s.closed ++ [(t, s.limit)] }) else (false, { s with shard := none }.fail)

/-- `PushableWriter::PushSlow()` from the allocation of scratch (`pushable_writer.cc:126-136`). `ForcePushUsingScratch()` (`pushable_writer.cc:139-156`) is the
same for 1 byte. -/
def begin (n rec : Nat) (s : Sp σ) : Sp σ := { s with scratch := some ([], max n (room s.tick n rec)), tick := s.tick + 1 }

/-- The end of `PushBehindScratch()` (`splitting_writer.cc:199-201`). -/
def pushShard (rec : Nat) (t : σ) (s : Sp σ) : Bool × Sp σ :=
  let r := W.push 1 rec t
  (r.1, s.makeBuffer W r.2)

/-- The loop in `PushBehindScratch()` (`splitting_writer.cc:192-197`). The first argument bounds the number of iterations; the number of shards to be opened + 1 is
enough. -/
def pushLoop (rec : Nat) : Nat → σ → Sp σ → Bool × Sp σ
  | 0, _, s => (false, s.fail)
  | k + 1, t, s =>
    if s.startPos = s.limitPos then
      let c := s.closeShard close t
      if c.1 = false then (false, c.2)
      else if empty = false then (true, c.2.begin room 1 0)
      else
        let o := c.2.openShard W
        match o.1, o.2.shard with
        | true, some u => pushLoop rec k u o.2
        | _, _ => (false, o.2)
    else s.pushShard W rec t

/-- `PushBehindScratch()` (`splitting_writer.cc:174-202`). -/
def pushBehind (rec : Nat) (s : Sp σ) : Bool × Sp σ :=
  if s.ok = false then (false, s)
  else match s.shard with
    | none =>
      if empty = false then (true, s.begin room 1 0)
      else
        let o := s.openShard W
        match o.1, o.2.shard with
        | true, some u => o.2.pushShard W rec u
        | _, _ => (false, o.2)
    | some t => pushLoop W close empty room rec (s.rest.length + 1) (W.put s.buf t) (s.syncBuffer W t)

/-- The loop over shards in `WriteInternal()` (`splitting_writer.cc:270-299`) and `WriteBehindScratch(ByteFill)` (`splitting_writer.cc:324-341`): `wr` writes to the shard.
The first argument bounds the number of iterations; the number of shards to be opened + 1 is enough. -/
def spread (wr : List Bytes → σ → Bool × σ) : Nat → List Bytes → σ → Sp σ → Bool × Sp σ
  | 0, _, _, s => (false, s.fail)
  | k + 1, fs, t, s =>
    let space := s.limitPos - s.startPos
    if fs.flatten.length ≤ space then
      let r := wr fs t
      if r.1 = false then (false, s.makeBuffer W r.2)
      else (true, { s with startPos := s.startPos + fs.flatten.length }.makeBuffer W r.2)
    else
      let r := wr (takeF space fs) t
      if r.1 = false then (false, s.makeBuffer W r.2)
      else
        let c := { s with startPos := s.startPos + space }.closeShard close r.2
        if c.1 = false then (false, c.2)
        else
          let o := c.2.openShard W
          match o.1, o.2.shard with
          | true, some u => spread wr k (dropF space fs) u o.2
          | _, _ => (false, o.2)

/-- The beginning of `WriteInternal()` (`splitting_writer.cc:256-269`) and `WriteBehindScratch(ByteFill)` (`splitting_writer.cc:303-323`), then the loop. -/
def writeBehind (wr : List Bytes → σ → Bool × σ) (fs : List Bytes) (s : Sp σ) : Bool × Sp σ :=
  if s.ok = false then (false, s)
  else match s.shard with
    | some t => spread W close wr (s.rest.length + 1) fs (W.put s.buf t) (s.syncBuffer W t)
    | none =>
      let o := s.openShard W
      match o.1, o.2.shard with
      | true, some u => spread W close wr (o.2.rest.length + 1) fs u o.2
      | _, _ => (false, o.2)

/-- `WriteBehindScratch(string_view)` (`splitting_writer.cc:204-214`). -/
def writeChars (bs : Bytes) (s : Sp σ) : Bool × Sp σ := s.writeBehind W close (fun fs => W.write fs.flatten) [bs]

/-- `WriteBehindScratch()` of a `Chain` or `absl::Cord` (`splitting_writer.cc:216-254`); an `ExternalRef` (`pushable_writer.cc:179-189`) is like a chain with one
block. -/
def writeRefs (fs : List Bytes) (s : Sp σ) : Bool × Sp σ := s.writeBehind W close W.writeChain fs

/-- `WriteBehindScratch(ByteFill)` (`splitting_writer.cc:303-342`). -/
def writeFill (n : Nat) (b : UInt8) (s : Sp σ) : Bool × Sp σ := s.writeBehind W close (fun fs => W.fill fs.flatten.length b) [List.replicate n b]

/-- `PushableWriter::SyncScratch()` (`pushable_writer.cc:64-95`), if scratch is used: writes its data as an `ExternalRef`. -/
def sync (s : Sp σ) : Bool × Sp σ :=
  match s.scratch with
  | none => (true, s)
  | some p =>
    let t := { s with scratch := none }
    if p.1.length ≤ t.avail ∧ p.1.length ≤ kMaxBytesToCopy then (true, t.put p.1)
    else if p.1.length ≤ t.avail then (true, t.put p.1)
    else t.writeChars W close p.1

/-- `PushableWriter::PushSlow()` (`pushable_writer.cc:97-137`). -/
def pushSlow (n rec : Nat) (s : Sp σ) : Bool × Sp σ :=
  let r := s.sync W close
  if r.1 = false then (false, r.2)
  else if s.scratch.isSome = true ∧ n ≤ r.2.avail then (true, r.2)
  else if n = 1 then r.2.pushBehind W close empty room rec
  else if r.2.avail = 0 then
    let p := r.2.pushBehind W close empty room rec
    if p.1 = false then (false, p.2)
    else if n ≤ p.2.avail then (true, p.2)
    else
      let q := p.2.sync W close
      if q.1 = false then (false, q.2)
      else if p.2.scratch.isSome = true ∧ n ≤ q.2.avail then (true, q.2)
      else (true, q.2.begin room n rec)
  else (true, r.2.begin room n rec)

/-- `PushableWriter::WriteSlow(string_view)` (`pushable_writer.cc:307-320`). -/
def writeSlow (bs : Bytes) (s : Sp σ) : Bool × Sp σ :=
  let r := s.sync W close
  if r.1 = false then (false, r.2)
  else if s.scratch.isSome = true ∧ bs.length ≤ r.2.avail then (true, r.2.put bs)
  else r.2.writeChars W close bs

/-- `PushableWriter::WriteSlow()` of an `ExternalRef`, `Chain` or `absl::Cord` (`pushable_writer.cc:322-395`). -/
def refSlow (fs : List Bytes) (s : Sp σ) : Bool × Sp σ :=
  let r := s.sync W close
  if r.1 = false then (false, r.2)
  else if s.scratch.isSome = true ∧ fs.flatten.length ≤ r.2.avail ∧ fs.flatten.length ≤ kMaxBytesToCopy then (true, r.2.put fs.flatten)
  else r.2.writeRefs W close fs

/-- `PushableWriter::WriteSlow(ByteFill)` (`pushable_writer.cc:397-411`). -/
def fillSlow (n : Nat) (b : UInt8) (s : Sp σ) : Bool × Sp σ :=
  let r := s.sync W close
  if r.1 = false then (false, r.2)
  else if s.scratch.isSome = true ∧ n ≤ r.2.avail ∧ n ≤ kMaxBytesToCopy then (true, r.2.put (List.replicate n b))
  else r.2.writeFill W close n b

/-- `FlushBehindScratch()` (`splitting_writer.cc:344-362`). -/
def flushBehind (ty : FlushType) (s : Sp σ) : Bool × Sp σ :=
  if s.ok = false then (false, s)
  else match s.shard with
    | none => (true, s)
    | some t =>
      let u := W.put s.buf t
      let s := s.syncBuffer W t
      match ty with
      | .fromObject => s.closeShard close u
      | ty =>
        let r := W.flushImpl ty u
        if r.1 = false then (false, { s with shard := some r.2 }) else s.closeShard close r.2

/-- `PushableWriter::FlushImpl()` (`pushable_writer.cc:413-418`). -/
def flushImpl (ty : FlushType) (s : Sp σ) : Bool × Sp σ :=
  let r := s.sync W close
  if r.1 = false then (false, r.2) else r.2.flushBehind W close ty

/-- `SetWriteSizeHintImpl()` after setting `size_hint_` (`splitting_writer.cc:160-171`). -/
def rehint (s : Sp σ) : Sp σ :=
  match s.shard with
  | none => s
  | some t =>
    let a := { s with scratch := none }.syncBuffer W t
    let b := a.makeBuffer W (W.setHint (some a.shardHint) (W.put s.buf t))
    if b.ok = true then { b with scratch := s.scratch } else b

/-- `SetWriteSizeHintImpl()` (`splitting_writer.cc:154-172`). -/
def setHint (n : Option Nat) (s : Sp σ) : Sp σ := if s.ok = false then s else { s with hint := n.map (s.pos + ·) }.rehint W

/-- `Seek()`, `Size()`, `Truncate()` and `ReadMode()` are not supported (`pushable_writer.cc:274-305`, `pushable_writer.cc:420-449`). -/
def unsupported (s : Sp σ) : Sp σ := (s.sync W close).2.fail

/-- Virtual functions of a `SplittingWriter`. -/
def ops : RefOps (Sp σ) where
  pos := pos
  avail := avail
  ok := Sp.ok
  put := put
  pushSlow := pushSlow W close empty room
  writeSlow := writeSlow W close
  fillSlow := fillSlow W close
  flushImpl := flushImpl W close
  seekSlow _ s := (false, s.unsupported W close)
  sizeImpl s := (none, s.unsupported W close)
  truncateImpl _ s := (false, s.unsupported W close)
  readModeImpl _ s := (false, s.unsupported W close)
  randomAccess s := (false, s)
  setHint := setHint W
  refSlow := refSlow W close

/-- Calls public functions. -/
def callAll (os : List WOp) (s : Sp σ) : List Bool × Sp σ := (ops W close empty room).callAll os s

/-- `Close()` with `Done()` (`pushable_writer.cc:44-50`) and `DoneBehindScratch()` (`splitting_writer.cc:42-50`): like `Flush(FlushType::kFromObject)`. -/
def done (s : Sp σ) : Bool × Sp σ := s.flushImpl W close .fromObject

end Sp
end Riegeli.Wtr

import Verif.ChainHeap
/-!
# Chain

`riegeli/base/chain.cc`, `riegeli/base/chain_base.h`, `riegeli/base/chain_details.h`:
a `Chain` and its operations, over the heap of blocks of `ChainHeap`.

Every function takes the heap and returns the new heap; the outcome `none` stands for
undefined behaviour (a deleted block used, an access outside of an array) or a failed
assertion.
-/
namespace Riegeli.Chn

/-- `size_t` arithmetic. -/
def wrap (n : Nat) : Nat := n % 2 ^ 64

/-- The largest `size_t`. -/
def maxSize : Nat := 2 ^ 64 - 1

/-- The allocated array of block pointers and block offsets (`chain_base.h:406-417`):
how many elements are unused before and after the used ones, and the used block
offsets. -/
structure Arr where
  before : Nat
  after : Nat
  offs : List Nat
deriving DecidableEq, Repr

/-- A `Chain` (`chain_base.h:419-438, 567-586`).
* `blocks`: the block pointers between `begin_` and `end_`;
* `short`: `block_ptrs_.short_data`, meaningful if there are no blocks;
* `size`: `size_`;
* `arr`: `none` if `has_here()`, otherwise the allocated array.

The bytes of `short` share memory with the pointers in the code; that they are lost
when there are blocks is not modelled, because they cannot be accessed then
(`shortData`). -/
structure Ch where
  blocks : List Nat := []
  short : Bytes := List.replicate maxShort 0
  size : Nat := 0
  arr : Option Arr := none
deriving DecidableEq, Repr

/-- `Chain::Options` (`chain_base.h:80-158`). -/
structure Opts where
  hint : Option Nat := none
  minB : Nat := minBlock
  maxB : Nat := maxBlock
deriving DecidableEq, Repr

/-- The expected final size is unknown or fits in short data (`chain.cc:1133-1135`). -/
def Opts.hintShort (o : Opts) : Bool :=
  match o.hint with
  | none => true
  | some h => decide (h ≤ maxShort)

/-- `short_data_begin()`, as the 16 bytes there (`chain_details.h:1034-1050`), with its
assertions. -/
def short16 (c : Ch) : Option Bytes :=
  if c.blocks = [] ∧ (c.size = 0 ∨ c.arr = none) then some c.short else none

/-- `short_data()` (`chain_details.h:1030-1032`). -/
def shortData (c : Ch) : Option Bytes := (short16 c).map (·.take c.size)

/-- `EnsureHasHere()` (`chain_details.h:1061-1069`). -/
def ensureHasHere (c : Ch) : Option Ch :=
  if c.blocks = [] then some { c with arr := none } else none

/-- `back()` (`chain_base.h:480`). -/
def back (c : Ch) : Option Nat := c.blocks.getLast?

/-- `front()` (`chain_base.h:483`). -/
def front (c : Ch) : Option Nat := c.blocks.head?

/-- The sizes of blocks. -/
def sizeOf (H : Heap) (id : Nat) : Option Nat := (view H id).map (·.data.length)

/-- The block offsets put into a new array, for block pointers which were stored in
place: `ReserveBackSlow()`, `ReserveFrontSlow()` (`chain.cc:993-1004, 1080-1091`). -/
def initialOffs (H : Heap) (ids : List Nat) : Option (List Nat) :=
  match ids with
  | [] => some []
  | [_] => some [0]
  | [a, _] => do
    let n ← sizeOf H a
    some [0, n]
  | _ => none

/-- `ReserveBack(extra_capacity)` and `ReserveBackSlow()`
(`chain.cc:915-923, 936-1010`). The array having 2^59 elements is not modelled. -/
def reserveBack (H : Heap) (c : Ch) (extra : Nat) : Option Ch :=
  match c.arr with
  | none =>
    if extra ≤ 2 - c.blocks.length then some c
    else do
      let offs ← initialOffs H c.blocks
      let cap := max (max (c.blocks.length + extra) (2 + 2 / 2)) 16
      some { c with arr := some ⟨0, cap - c.blocks.length, offs⟩ }
  | some a =>
    if extra ≤ a.after then some c
    else
      let cap := a.before + c.blocks.length + a.after
      if c.blocks.length + extra ≤ cap ∧ 2 * c.blocks.length ≤ cap then
        some { c with arr := some ⟨0, cap - c.blocks.length, a.offs⟩ }
      else
        let cap' := max (max (c.blocks.length + extra) (cap + cap / 2)) 16
        some { c with arr := some ⟨0, cap' - c.blocks.length, a.offs⟩ }

/-- `ReserveFront(extra_capacity)` and `ReserveFrontSlow()`
(`chain.cc:925-934, 1012-1097`). When block pointers are stored in place, making space
for new ones shifts the existing one; this needs nothing here. -/
def reserveFront (H : Heap) (c : Ch) (extra : Nat) : Option Ch :=
  match c.arr with
  | none =>
    if extra ≤ 2 - c.blocks.length then some c
    else do
      let offs ← initialOffs H c.blocks
      let cap := c.blocks.length
      let cap' := max (max (c.blocks.length + extra) (cap + cap / 2)) 16
      some { c with arr := some ⟨cap' - c.blocks.length, 0, offs⟩ }
  | some a =>
    if extra ≤ a.before then some c
    else
      let cap := a.before + c.blocks.length + a.after
      if c.blocks.length + extra ≤ cap ∧ 2 * c.blocks.length ≤ cap then
        let b := (cap - c.blocks.length + extra) / 2
        some { c with arr := some ⟨b, cap - c.blocks.length - b, a.offs⟩ }
      else
        let cap' := max (max (c.blocks.length + a.after + extra) (cap + cap / 2)) 16
        some { c with arr := some ⟨cap' - a.after - c.blocks.length, a.after, a.offs⟩ }

/-- Stores a block pointer, and its offset, after the last one: the common part of
`PushBack()` and `AppendBlocks()` (`chain.cc:795-805, 844-878`). -/
def pushRaw (H : Heap) (c : Ch) (id : Nat) : Option Ch :=
  match c.arr with
  | none => if c.blocks.length < 2 then some { c with blocks := c.blocks ++ [id] } else none
  | some a =>
    if a.after = 0 then none else
    match back c with
    | none => some { c with blocks := c.blocks ++ [id], arr := some ⟨a.before, a.after - 1, a.offs ++ [0]⟩ }
    | some l => do
      let n ← sizeOf H l
      let o ← a.offs.getLast?
      some { c with blocks := c.blocks ++ [id],
                    arr := some ⟨a.before, a.after - 1, a.offs ++ [wrap (o + n)]⟩ }

/-- Stores a block pointer, and its offset, before the first one: the common part of
`PushFront()` and `PrependBlocks()` (`chain.cc:807-818, 880-913`). -/
def pushRawFront (H : Heap) (c : Ch) (id : Nat) : Option Ch :=
  match c.arr with
  | none => if c.blocks.length < 2 then some { c with blocks := id :: c.blocks } else none
  | some a =>
    if a.before = 0 then none else
    if c.blocks = [] then
      some { c with blocks := id :: c.blocks, arr := some ⟨a.before - 1, a.after, 0 :: a.offs⟩ }
    else do
      let n ← sizeOf H id
      let o ← a.offs.head?
      some { c with blocks := id :: c.blocks,
                    arr := some ⟨a.before - 1, a.after, wrap (o + 2 ^ 64 - n) :: a.offs⟩ }

/-- `PushBack(block)` (`chain.cc:795-805`). -/
def pushBack (H : Heap) (c : Ch) (id : Nat) : Option Ch := do
  let c ← reserveBack H c 1
  pushRaw H c id

/-- `PushFront(block)` (`chain.cc:807-818`). -/
def pushFront (H : Heap) (c : Ch) (id : Nat) : Option Ch := do
  let c ← reserveFront H c 1
  pushRawFront H c id

/-- `PopBack()` (`chain.cc:820-825`); the reference is handed to the caller. -/
def popBack (c : Ch) : Option (Ch × Nat) :=
  match back c with
  | none => none
  | some b => some ({ c with
      blocks := c.blocks.dropLast
      arr := c.arr.map fun a => ⟨a.before, a.after + 1, a.offs.dropLast⟩ }, b)

/-- `PopFront()` (`chain.cc:827-842`). -/
def popFront (c : Ch) : Option (Ch × Nat) :=
  match front c with
  | none => none
  | some b => some ({ c with
      blocks := c.blocks.tail
      arr := c.arr.map fun a => ⟨a.before + 1, a.after, a.offs.tail⟩ }, b)

/-- `SetBack(block)` (`chain.cc:765-771`); the old block is handed to the caller. -/
def setBack (c : Ch) (id : Nat) : Option (Ch × Nat) :=
  match back c with
  | none => none
  | some b => some ({ c with blocks := c.blocks.dropLast ++ [id] }, b)

/-- `SetFrontSameSize(block)` (`chain.cc:780-784`). -/
def setFrontSameSize (c : Ch) (id : Nat) : Option (Ch × Nat) :=
  match front c with
  | none => none
  | some b => some ({ c with blocks := id :: c.blocks.tail }, b)

/-- `RefreshFront()` (`chain.cc:786-793`). -/
def refreshFront (H : Heap) (c : Ch) : Option Ch :=
  match c.arr with
  | none => some c
  | some a =>
    match c.blocks with
    | [] => none
    | [_] => some { c with arr := some { a with offs := [0] } }
    | b :: _ => do
      let n ← sizeOf H b
      let o ← a.offs.tail.head?
      some { c with arr := some { a with offs := wrap (o + 2 ^ 64 - n) :: a.offs.tail } }

/-- `SetFront(block)` (`chain.cc:773-778`). -/
def setFront (H : Heap) (c : Ch) (id : Nat) : Option (Ch × Nat) := do
  let (c, b) ← setFrontSameSize c id
  let c ← refreshFront H c
  some (c, b)

/-- The type parameter `Ownership` (`riegeli/base/ownership.h`). -/
inductive Ownership where
  | pass
  | share
deriving DecidableEq, Repr

/-- `Ref<Ownership>()` (`chain_details.h:546-550`, `riegeli/base/ref_count.h:44-50`). -/
def refO (H : Heap) (id : Nat) : Ownership → Option Heap
  | .pass => some H
  | .share => ref H id

/-- `Unref<Ownership>()` (`chain_details.h:552-561`, `ref_count.h:62-83`). -/
def unrefO (H : Heap) (id : Nat) : Ownership → Option Heap
  | .pass => unref H id
  | .share => some H

/-- The loop of `AppendBlocks()`. -/
def appendLoop (H : Heap) (c : Ch) (o : Ownership) : List Nat → Option (Heap × Ch)
  | [] => some (H, c)
  | id :: ids => do
    let H ← refO H id o
    let c ← pushRaw H c id
    appendLoop H c o ids

/-- `AppendBlocks<Ownership>(begin, end)` (`chain.cc:844-878`). -/
def appendBlocks (H : Heap) (c : Ch) (o : Ownership) (ids : List Nat) : Option (Heap × Ch) := do
  let c ← if ids = [] then some c else reserveBack H c ids.length
  appendLoop H c o ids

/-- The loop of `PrependBlocks()`, over the blocks in reverse order. -/
def prependLoop (H : Heap) (c : Ch) (o : Ownership) : List Nat → Option (Heap × Ch)
  | [] => some (H, c)
  | id :: ids => do
    let H ← refO H id o
    let c ← pushRawFront H c id
    prependLoop H c o ids

/-- `PrependBlocks<Ownership>(begin, end)` (`chain.cc:880-913`). -/
def prependBlocks (H : Heap) (c : Ch) (o : Ownership) (ids : List Nat) : Option (Heap × Ch) := do
  let c ← if ids = [] then some c else reserveFront H c ids.length
  prependLoop H c o ids.reverse

/-- `UnrefBlocksSlow(begin, end)` (`chain.cc:504-511`). -/
def unrefAll (H : Heap) : List Nat → Option Heap
  | [] => some H
  | id :: ids => do
    let H ← unref H id
    unrefAll H ids

/-- `end_ = begin_ + n`, after the blocks that follow were dropped. -/
def truncate (c : Ch) (n : Nat) : Ch :=
  { c with
    blocks := c.blocks.take n
    arr := c.arr.map fun a => ⟨a.before, a.after + (c.blocks.length - n), a.offs.take n⟩ }

/-- `NewBlockCapacity()` (`chain.cc:1099-1115`), with `ApplySizeHint()` and
`ApplyBufferConstraints()` (`buffering.h:47-64`). -/
def newBlockCapacity (c : Ch) (replaced minLen rec : Nat) (o : Opts) : Option Nat :=
  if replaced ≤ c.size ∧ minLen ≤ maxCap - replaced then
    let base := max c.size (o.minB - replaced)
    let base := match o.hint with
      | some h => if c.size ≤ h then h - c.size else base
      | none => base
    some (replaced + max (min (max base rec) (o.maxB - replaced)) minLen)
  else none

/-- Where the space returned by `AppendBuffer()`/`PrependBuffer()` is. -/
inductive Buf where
  | empty
  | short (off len : Nat)
  | block (s : Span)
deriving DecidableEq, Repr

/-- The length of the space. -/
def Buf.len : Buf → Nat
  | .empty => 0
  | .short _ n => n
  | .block s => s.len

/-- Filling the space. -/
def fill (H : Heap) (c : Ch) (b : Buf) (bs : Bytes) : Option (Heap × Ch) :=
  match b with
  | .empty => if bs = [] then some (H, c) else none
  | .short off n =>
    if bs.length = n then (writeMem c.short off bs).map fun s => (H, { c with short := s }) else none
  | .block s => (fillSpan H s bs).map fun H => (H, c)

/-- The part of `AppendBuffer()` where the last block is going to provide space
(`chain.cc:1197-1202`). -/
def appendBufferLast (H : Heap) (c : Ch) (minLen maxLen : Nat) : Option (Heap × Ch × Buf) := do
  let l ← back c
  let (H, s) ← blkAppendBuffer H l (min maxLen (maxSize - c.size))
  if minLen ≤ s.len then some (H, { c with size := c.size + s.len }, .block s) else none

/-- `AppendBuffer()` on a chain with short data (`chain.cc:1126-1161`). -/
def appendBufferShort (env : Env) (H : Heap) (c : Ch) (minLen rec maxLen : Nat) (o : Opts) :
    Option (Heap × Ch × Buf) :=
  if maxShort < c.size then none
  else if minLen ≤ maxShort - c.size ∧ rec ≤ maxShort - c.size ∧
      o.hintShort = true then do
    let c ← ensureHasHere c
    let n := min maxLen (maxShort - c.size)
    some (H, { c with size := c.size + n }, .short c.size n)
  else if minLen = 0 then some (H, c, .empty)
  else if maxCap - c.size < minLen then do
    let s ← short16 c
    let (H, b) ← newInternal env H maxShort
    let H ← blkAppendExplicit H b s c.size
    let c ← pushBack H c b
    let cap ← newBlockCapacity c 0 minLen rec o
    let (H, b) ← newInternal env H cap
    let c ← pushBack H c b
    appendBufferLast H c minLen maxLen
  else do
    let s ← short16 c
    let cap ← newBlockCapacity c c.size (max minLen (maxShort - c.size)) rec o
    let (H, b) ← newInternal env H cap
    let H ← blkAppendExplicit H b s c.size
    let c ← pushBack H c b
    appendBufferLast H c minLen maxLen

/-- The new block of `AppendBuffer()`, if the last block was rewritten because it was
wasteful: the old memory is used again if possible (`chain.cc:1178-1194`). -/
def appendBufferReuse (env : Env) (H : Heap) (c : Ch) (minLen rec : Nat) (o : Opts) :
    Option (Heap × Ch × Nat) := do
  let l ← back c
  let v ← view H l
  if v.wasteful then
    let (H, b) ← copyBlock env H l
    let (c, last) ← setBack c b
    let (H, cleared) ← tryClear H last
    let can ← canAppend H last minLen
    if cleared && can then some (H, c, last)
    else
      let H ← unref H last
      let cap ← newBlockCapacity c 0 minLen rec o
      let (H, b) ← newInternal env H cap
      some (H, c, b)
  else
    let cap ← newBlockCapacity c 0 minLen rec o
    let (H, b) ← newInternal env H cap
    some (H, c, b)

/-- `AppendBuffer(min_length, recommended_length, max_length, options)`
(`chain.cc:1117-1203`). -/
def appendBuffer (env : Env) (H : Heap) (c : Ch) (minLen rec maxLen : Nat) (o : Opts) :
    Option (Heap × Ch × Buf) :=
  if maxLen < minLen then none
  else if maxSize - c.size < minLen then none
  else match back c with
  | none => appendBufferShort env H c minLen rec maxLen o
  | some l => do
    let can ← canAppend H l minLen
    let v ← view H l
    if can then appendBufferLast H c minLen maxLen
    else if minLen = 0 then some (H, c, .empty)
    else if v.tiny ∧ minLen ≤ maxCap - v.data.length then do
      let cap ← newBlockCapacity c v.data.length minLen rec o
      let (H, b) ← newInternal env H cap
      let H ← blkAppend H b v.data
      let (c, old) ← setBack c b
      let H ← unref H old
      appendBufferLast H c minLen maxLen
    else do
      let (H, c, b) ← appendBufferReuse env H c minLen rec o
      let c ← pushBack H c b
      appendBufferLast H c minLen maxLen

/-- The part of `PrependBuffer()` where the first block is going to provide space
(`chain.cc:1285-1291`). -/
def prependBufferFirst (H : Heap) (c : Ch) (minLen maxLen : Nat) : Option (Heap × Ch × Buf) := do
  let f ← front c
  let (H, s) ← blkPrependBuffer H f (min maxLen (maxSize - c.size))
  if minLen ≤ s.len then
    let c ← refreshFront H c
    some (H, { c with size := c.size + s.len }, .block s)
  else none

/-- `PrependBuffer()` on a chain with short data (`chain.cc:1214-1249`). -/
def prependBufferShort (env : Env) (H : Heap) (c : Ch) (minLen rec maxLen : Nat) (o : Opts) :
    Option (Heap × Ch × Buf) :=
  if maxShort < c.size then none
  else if minLen ≤ maxShort - c.size ∧ rec ≤ maxShort - c.size ∧
      o.hintShort = true then do
    let c ← ensureHasHere c
    let n := min maxLen (maxShort - c.size)
    let s ← writeMem c.short n (c.short.take c.size)
    some (H, { c with size := c.size + n, short := s }, .short 0 n)
  else if minLen = 0 then some (H, c, .empty)
  else if maxCap - c.size < minLen then do
    let s ← short16 c
    let (H, b) ← newInternal env H maxShort
    let H ← blkAppendExplicit H b s c.size
    let c ← pushFront H c b
    let cap ← newBlockCapacity c 0 minLen rec o
    let (H, b) ← newInternal env H cap
    let c ← pushFront H c b
    prependBufferFirst H c minLen maxLen
  else do
    let d ← shortData c
    let cap ← newBlockCapacity c c.size minLen rec o
    let (H, b) ← newInternal env H cap
    let H ← blkPrepend H b d
    let c ← pushFront H c b
    prependBufferFirst H c minLen maxLen

/-- The new block of `PrependBuffer()`, if the first block was rewritten because it was
wasteful (`chain.cc:1266-1282`). -/
def prependBufferReuse (env : Env) (H : Heap) (c : Ch) (minLen rec : Nat) (o : Opts) :
    Option (Heap × Ch × Nat) := do
  let f ← front c
  let v ← view H f
  if v.wasteful then
    let (H, b) ← copyBlock env H f
    let (c, first) ← setFrontSameSize c b
    let (H, cleared) ← tryClear H first
    let can ← canPrepend H first minLen
    if cleared && can then some (H, c, first)
    else
      let H ← unref H first
      let cap ← newBlockCapacity c 0 minLen rec o
      let (H, b) ← newInternal env H cap
      some (H, c, b)
  else
    let cap ← newBlockCapacity c 0 minLen rec o
    let (H, b) ← newInternal env H cap
    some (H, c, b)

/-- `PrependBuffer(min_length, recommended_length, max_length, options)`
(`chain.cc:1205-1292`). -/
def prependBuffer (env : Env) (H : Heap) (c : Ch) (minLen rec maxLen : Nat) (o : Opts) :
    Option (Heap × Ch × Buf) :=
  if maxLen < minLen then none
  else if maxSize - c.size < minLen then none
  else match front c with
  | none => prependBufferShort env H c minLen rec maxLen o
  | some f => do
    let can ← canPrepend H f minLen
    let v ← view H f
    if can then prependBufferFirst H c minLen maxLen
    else if minLen = 0 then some (H, c, .empty)
    else if v.tiny ∧ minLen ≤ maxCap - v.data.length then do
      let cap ← newBlockCapacity c v.data.length minLen rec o
      let (H, b) ← newInternal env H cap
      let H ← blkPrepend H b v.data
      let (c, old) ← setFront H c b
      let H ← unref H old
      prependBufferFirst H c minLen maxLen
    else do
      let (H, c, b) ← prependBufferReuse env H c minLen rec o
      let c ← pushFront H c b
      prependBufferFirst H c minLen maxLen

/-- `Append(BytesRef src, options)` (`chain.cc:1294-1301`). -/
def appendBytes (env : Env) (H : Heap) (c : Ch) (src : Bytes) (o : Opts) : Option (Heap × Ch) :=
  if _h : src = [] then some (H, c)
  else
    match appendBuffer env H c 1 src.length src.length o with
    | none => none
    | some (H, c, b) =>
      if _hn : b.len = 0 then none else
      match fill H c b (src.take b.len) with
      | none => none
      | some (H, c) => appendBytes env H c (src.drop b.len) o
termination_by src.length
decreasing_by
  have : src.length ≠ 0 := by simpa using _h
  simp; omega

/-- `Prepend(BytesRef src, options)` (`chain.cc:1572-1580`). -/
def prependBytes (env : Env) (H : Heap) (c : Ch) (src : Bytes) (o : Opts) : Option (Heap × Ch) :=
  if _h : src = [] then some (H, c)
  else
    match prependBuffer env H c 1 src.length src.length o with
    | none => none
    | some (H, c, b) =>
      if _hn : b.len = 0 then none else
      match fill H c b (src.drop (src.length - b.len)) with
      | none => none
      | some (H, c) => prependBytes env H c (src.take (src.length - b.len)) o
termination_by src.length
decreasing_by
  have : src.length ≠ 0 := by simpa using _h
  simp; omega

/-- Step `merge` of `AppendChain()` (`chain.cc:1355-1383`): the last block and the
first block of the source, `f`, become one block. -/
def appendMerge (env : Env) (H : Heap) (c : Ch) (f : Nat) (single : Bool) (o : Opts) :
    Option (Heap × Ch) := do
  let l ← back c
  let vl ← view H l
  let vf ← view H f
  let can ← canAppend H l vf.data.length
  if vl.empty && vf.empty then
    let (c, old) ← popBack c
    let H ← unref H old
    some (H, c)
  else if can && (single || !vl.wasteful vf.data.length) then
    let H ← blkAppend H l vf.data
    some (H, c)
  else if vf.data.length ≤ maxCap - vl.data.length then
    let cap ← if single then newBlockCapacity c vl.data.length vf.data.length 0 o
      else some (vl.data.length + vf.data.length)
    let (H, b) ← newInternal env H cap
    let H ← blkAppend H b vl.data
    let H ← blkAppend H b vf.data
    let (c, old) ← setBack c b
    let H ← unref H old
    some (H, c)
  else none

/-- `AppendChain()` until `size_ += src.size_`, if the destination has blocks
(`chain.cc:1353-1425`). The result tells whether the first block of the source, `f`,
was already handled. -/
def appendBoundary (env : Env) (H : Heap) (c : Ch) (f : Nat) (single : Bool) (o : Opts) :
    Option (Heap × Ch × Bool) := do
  let l ← back c
  let vl ← view H l
  let vf ← view H f
  let can ← canAppend H l vf.data.length
  if vl.tiny && vf.tiny then
    let (H, c) ← appendMerge env H c f single o
    some (H, c, true)
  else if vl.empty then
    if !single && vf.wasteful then
      let (H, c) ← appendMerge env H c f single o
      some (H, c, true)
    else
      let (c, old) ← popBack c
      let H ← unref H old
      some (H, c, false)
  else if vl.wasteful then
    if !single && (vf.empty || vf.wasteful) then
      let (H, c) ← appendMerge env H c f single o
      some (H, c, true)
    else if can && (single || !vl.wasteful vf.data.length) &&
        decide (vf.data.length ≤ allocationCost + vl.data.length) then
      let H ← blkAppend H l vf.data
      some (H, c, true)
    else
      let (H, b) ← copyBlock env H l
      let (c, old) ← setBack c b
      let H ← unref H old
      some (H, c, false)
  else if !single then
    if vf.empty then some (H, c, true)
    else if vf.wasteful then
      if can && !vl.wasteful vf.data.length then
        let H ← blkAppend H l vf.data
        some (H, c, true)
      else
        let (H, b) ← copyBlock env H f
        let c ← pushBack H c b
        some (H, c, true)
    else some (H, c, false)
  else some (H, c, false)

/-- The same if the destination has short data (`chain.cc:1324-1352`). -/
def appendBoundaryShort (env : Env) (H : Heap) (c : Ch) (f : Nat) (single : Bool) (o : Opts) :
    Option (Heap × Ch × Bool) := do
  let vf ← view H f
  if vf.tiny || (!single && vf.wasteful) then
    let d ← shortData c
    if !d.isEmpty || !vf.empty then
      if vf.data.length ≤ maxCap - c.size then
        let s ← short16 c
        let cap ← if single then
            newBlockCapacity c c.size (max vf.data.length (maxShort - c.size)) 0 o
          else some (max (c.size + vf.data.length) maxShort)
        let (H, b) ← newInternal env H cap
        let H ← blkAppendExplicit H b s c.size
        let H ← blkAppend H b vf.data
        let c ← pushBack H c b
        some (H, c, true)
      else none
    else some (H, c, true)
  else if c.size ≠ 0 then
    let s ← short16 c
    let (H, b) ← newInternal env H maxShort
    let H ← blkAppendExplicit H b s c.size
    let c ← pushBack H c b
    some (H, c, false)
  else some (H, c, false)

/-- `DropPassedBlocks(Ownership)` (`chain.cc:513-518`). -/
def dropPassed (c : Ch) : Ownership → Ch
  | .pass => { truncate c 0 with size := 0 }
  | .share => c

/-- `AppendChain<Ownership>(src, options)` (`chain.cc:1311-1429`), for a source which is
another object. Also the new source is returned. -/
def appendChain (env : Env) (H : Heap) (c src : Ch) (own : Ownership) (o : Opts) :
    Option (Heap × Ch × Ch) :=
  match front src with
  | none => do
    let d ← shortData src
    let (H, c) ← appendBytes env H c d o
    some (H, c, src)
  | some f =>
    if maxSize - c.size < src.size then none else do
    let (H, c, consumed) ←
      if c.blocks = [] then appendBoundaryShort env H c f (src.blocks.length == 1) o
      else appendBoundary env H c f (src.blocks.length == 1) o
    let H ← if consumed then unrefO H f own else some H
    let c := { c with size := c.size + src.size }
    let (H, c) ← appendBlocks H c own (if consumed then src.blocks.tail else src.blocks)
    some (H, c, dropPassed src own)

/-- Moves the reference `id` to the end of the chain, or shares it
(`PushBack(std::forward<RawBlockPtrRef>(block))`, `chain.cc:1512-1513`). -/
def pushBackO (H : Heap) (c : Ch) (id : Nat) (own : Ownership) : Option (Heap × Ch) := do
  let H ← refO H id own
  let c ← pushBack H c id
  some (H, c)

/-- `AppendRawBlock(block, options)` (`chain.cc:1441-1514`). For `pass`, if the block was
copied then the caller still has it, and drops it. -/
def appendRawBlock (env : Env) (H : Heap) (c : Ch) (id : Nat) (own : Ownership) (o : Opts) :
    Option (Heap × Ch) := do
  let v ← view H id
  if maxSize - c.size < v.data.length then none else
  match back c with
  | none =>
    let d ← shortData c
    if d.isEmpty then
      pushBackO H { c with size := c.size + v.data.length } id own
    else
      let s ← short16 c
      if v.tiny then
        if v.data.length ≤ maxCap - c.size then
          let cap ← newBlockCapacity c c.size (max v.data.length (maxShort - c.size)) 0 o
          let (H, b) ← newInternal env H cap
          let H ← blkAppendExplicit H b s c.size
          let H ← blkAppend H b v.data
          let c ← pushBack H c b
          let H ← unrefO H id own
          some (H, { c with size := c.size + v.data.length })
        else none
      else
        let (H, b) ← newInternal env H maxShort
        let H ← blkAppendExplicit H b s c.size
        let c ← pushBack H c b
        pushBackO H { c with size := c.size + v.data.length } id own
  | some l =>
    let vl ← view H l
    let can ← canAppend H l v.data.length
    if vl.tiny && v.tiny then
      if can then
        let H ← blkAppend H l v.data
        let H ← unrefO H id own
        some (H, { c with size := c.size + v.data.length })
      else if v.data.length ≤ maxCap - vl.data.length then
        let cap ← newBlockCapacity c vl.data.length v.data.length 0 o
        let (H, b) ← newInternal env H cap
        let H ← blkAppend H b vl.data
        let H ← blkAppend H b v.data
        let (c, old) ← setBack c b
        let H ← unref H old
        let H ← unrefO H id own
        some (H, { c with size := c.size + v.data.length })
      else none
    else if vl.empty then
      let H ← refO H id own
      let (c, old) ← setBack c id
      let H ← unref H old
      some (H, { c with size := c.size + v.data.length })
    else if vl.wasteful then
      if can && decide (v.data.length ≤ allocationCost + vl.data.length) then
        let H ← blkAppend H l v.data
        let H ← unrefO H id own
        some (H, { c with size := c.size + v.data.length })
      else
        let (H, b) ← copyBlock env H l
        let (c, old) ← setBack c b
        let H ← unref H old
        pushBackO H { c with size := c.size + v.data.length } id own
    else
      pushBackO H { c with size := c.size + v.data.length } id own

/-- Step `merge` of `PrependChain()` (`chain.cc:1631-1660`). -/
def prependMerge (env : Env) (H : Heap) (c : Ch) (f : Nat) (single : Bool) (o : Opts) :
    Option (Heap × Ch) := do
  let l ← front c
  let vl ← view H l
  let vf ← view H f
  let can ← canPrepend H l vf.data.length
  if vf.empty && vl.empty then
    let (c, old) ← popFront c
    let H ← unref H old
    some (H, c)
  else if can && (single || !vl.wasteful vf.data.length) then
    let H ← blkPrepend H l vf.data
    let c ← refreshFront H c
    some (H, c)
  else if vf.data.length ≤ maxCap - vl.data.length then
    let cap ← if single then newBlockCapacity c vl.data.length vf.data.length 0 o
      else some (vl.data.length + vf.data.length)
    let (H, b) ← newInternal env H cap
    let H ← blkPrepend H b vl.data
    let H ← blkPrepend H b vf.data
    let (c, old) ← setFront H c b
    let H ← unref H old
    some (H, c)
  else none

/-- `PrependChain()` until `size_ += src.size_`, if the destination has blocks
(`chain.cc:1629-1704`); `f` is the last block of the source. -/
def prependBoundary (env : Env) (H : Heap) (c : Ch) (f : Nat) (single : Bool) (o : Opts) :
    Option (Heap × Ch × Bool) := do
  let l ← front c
  let vl ← view H l
  let vf ← view H f
  let can ← canPrepend H l vf.data.length
  if vl.tiny && vf.tiny then
    let (H, c) ← prependMerge env H c f single o
    some (H, c, true)
  else if vl.empty then
    if !single && vf.wasteful then
      let (H, c) ← prependMerge env H c f single o
      some (H, c, true)
    else
      let (c, old) ← popFront c
      let H ← unref H old
      some (H, c, false)
  else if vl.wasteful then
    if !single && (vf.empty || vf.wasteful) then
      let (H, c) ← prependMerge env H c f single o
      some (H, c, true)
    else if can && (single || !vl.wasteful vf.data.length) &&
        decide (vf.data.length ≤ allocationCost + vl.data.length) then
      let H ← blkPrepend H l vf.data
      let c ← refreshFront H c
      some (H, c, true)
    else
      let (H, b) ← copyBlock env H l
      let (c, old) ← setFrontSameSize c b
      let H ← unref H old
      some (H, c, false)
  else if !single then
    if vf.empty then some (H, c, true)
    else if vf.wasteful then
      if can && !vl.wasteful vf.data.length then
        let H ← blkPrepend H l vf.data
        let c ← refreshFront H c
        some (H, c, true)
      else
        let (H, b) ← copyBlock env H f
        let c ← pushFront H c b
        some (H, c, true)
    else some (H, c, false)
  else some (H, c, false)

/-- The same if the destination has short data (`chain.cc:1603-1628`). -/
def prependBoundaryShort (env : Env) (H : Heap) (c : Ch) (f : Nat) (single : Bool) (o : Opts) :
    Option (Heap × Ch × Bool) := do
  let vf ← view H f
  if vf.tiny || (!single && vf.wasteful) then
    let d ← shortData c
    if !d.isEmpty || !vf.empty then
      if vf.data.length ≤ maxCap - c.size then
        let cap ← if single then newBlockCapacity c c.size vf.data.length 0 o
          else some (c.size + vf.data.length)
        let (H, b) ← newInternal env H cap
        let H ← blkPrepend H b d
        let H ← blkPrepend H b vf.data
        let c ← pushFront H c b
        some (H, c, true)
      else none
    else some (H, c, true)
  else if c.size ≠ 0 then
    let s ← short16 c
    let (H, b) ← newInternal env H maxShort
    let H ← blkAppendExplicit H b s c.size
    let c ← pushFront H c b
    some (H, c, false)
  else some (H, c, false)

/-- `PrependChain<Ownership>(src, options)` (`chain.cc:1590-1708`), for a source which is
another object. -/
def prependChain (env : Env) (H : Heap) (c src : Ch) (own : Ownership) (o : Opts) :
    Option (Heap × Ch × Ch) :=
  match back src with
  | none => do
    let d ← shortData src
    let (H, c) ← prependBytes env H c d o
    some (H, c, src)
  | some f =>
    if maxSize - c.size < src.size then none else do
    let (H, c, consumed) ←
      if c.blocks = [] then prependBoundaryShort env H c f (src.blocks.length == 1) o
      else prependBoundary env H c f (src.blocks.length == 1) o
    let H ← if consumed then unrefO H f own else some H
    let c := { c with size := c.size + src.size }
    let (H, c) ← prependBlocks H c own (if consumed then src.blocks.dropLast else src.blocks)
    some (H, c, dropPassed src own)

/-- Moves the reference `id` to the beginning of the chain, or shares it
(`chain.cc:1792-1793`). -/
def pushFrontO (H : Heap) (c : Ch) (id : Nat) (own : Ownership) : Option (Heap × Ch) := do
  let H ← refO H id own
  let c ← pushFront H c id
  some (H, c)

/-- `PrependRawBlock(block, options)` (`chain.cc:1720-1794`). -/
def prependRawBlock (env : Env) (H : Heap) (c : Ch) (id : Nat) (own : Ownership) (o : Opts) :
    Option (Heap × Ch) := do
  let v ← view H id
  if maxSize - c.size < v.data.length then none else
  match front c with
  | none =>
    let d ← shortData c
    if d.isEmpty then
      pushFrontO H { c with size := c.size + v.data.length } id own
    else
      let s ← short16 c
      if v.tiny then
        if v.data.length ≤ maxCap - c.size then
          let cap ← newBlockCapacity c c.size v.data.length 0 o
          let (H, b) ← newInternal env H cap
          let H ← blkPrepend H b d
          let H ← blkPrepend H b v.data
          let c ← pushFront H c b
          let H ← unrefO H id own
          some (H, { c with size := c.size + v.data.length })
        else none
      else
        let (H, b) ← newInternal env H maxShort
        let H ← blkAppendExplicit H b s c.size
        let c ← pushFront H c b
        pushFrontO H { c with size := c.size + v.data.length } id own
  | some l =>
    let vl ← view H l
    let can ← canPrepend H l v.data.length
    if vl.tiny && v.tiny then
      if can then
        let H ← blkPrepend H l v.data
        let c ← refreshFront H c
        let H ← unrefO H id own
        some (H, { c with size := c.size + v.data.length })
      else if v.data.length ≤ maxCap - vl.data.length then
        let cap ← newBlockCapacity c vl.data.length v.data.length 0 o
        let (H, b) ← newInternal env H cap
        let H ← blkPrepend H b vl.data
        let H ← blkPrepend H b v.data
        let (c, old) ← setFront H c b
        let H ← unref H old
        let H ← unrefO H id own
        some (H, { c with size := c.size + v.data.length })
      else none
    else if vl.empty then
      let H ← refO H id own
      let (c, old) ← setFront H c id
      let H ← unref H old
      some (H, { c with size := c.size + v.data.length })
    else if vl.wasteful then
      if can && decide (v.data.length ≤ allocationCost + vl.data.length) then
        let H ← blkPrepend H l v.data
        let c ← refreshFront H c
        let H ← unrefO H id own
        some (H, { c with size := c.size + v.data.length })
      else
        let (H, b) ← copyBlock env H l
        let (c, old) ← setFrontSameSize c b
        let H ← unref H old
        pushFrontO H { c with size := c.size + v.data.length } id own
    else
      pushFrontO H { c with size := c.size + v.data.length } id own

/-- `kMaxBytesToCopy` (`buffering.h:39`). -/
def maxBytesToCopyDefault : Nat := 511

/-- `Chain::MaxBytesToCopy(options)` (`chain_base.h:178-187`). -/
def maxBytesToCopy (c : Ch) (o : Opts) : Nat :=
  match o.hint with
  | some h =>
    if c.size < h then max (min (h - c.size - 1) maxBytesToCopyDefault) maxShort
    else if c.size = 0 then maxShort else maxBytesToCopyDefault
  | none => if c.size = 0 then maxShort else maxBytesToCopyDefault

/-- The block of an `ExternalRef` to a part of the data of a block taken out of a chain,
`MakeBlock()` and `Chain::Block::ToChainBlock(substr)` (`chain_details.h:112-117,
853-859`, `chain.cc:314-317`): a block which is itself a part of another block is
replaced with that other block. The part is `len` bytes from `off`, in the data of
block `id`; the reference to `id` is taken over. -/
def subBlock (H : Heap) (id off len : Nat) : Option (Heap × Nat) := do
  let r ← get H id
  match r.body with
  | .sub o off' _ =>
    let H ← ref H o
    let H ← unref H id
    let v ← view H o
    if len = v.data.length then some (H, o) else newSub H o (off' + off) len
  | _ =>
    if len = r.body.size then some (H, id) else newSub H id off len

/-- The loop of `RemoveSuffix()` (`chain.cc:1861-1867`): drops whole blocks. -/
def removeSuffixLoop (H : Heap) (c : Ch) (n : Nat) : Nat → Option (Heap × Ch × Nat)
  | 0 => none
  | fuel + 1 => do
    let l ← back c
    let v ← view H l
    if n ≤ v.data.length then some (H, c, n)
    else
      let (c, old) ← popBack c
      let H ← unref H old
      removeSuffixLoop H c (n - v.data.length) fuel

/-- `RemoveSuffix()` when the last block has the end of the new contents
(`chain.cc:1868-1892`). -/
def removeSuffixLast (env : Env) (H : Heap) (c : Ch) (n : Nat) (o : Opts) : Option (Heap × Ch) := do
  let l ← back c
  let (H, done) ← tryRemoveSuffix H l n
  if done then
    let vl ← view H l
    match c.blocks.dropLast.getLast? with
    | none => some (H, c)
    | some p =>
      let vp ← view H p
      if vl.tiny && vp.tiny then
        let (c, last) ← popBack c
        if vl.empty then
          let H ← unref H last
          some (H, c)
        else if vl.data.length ≤ maxCap - vp.data.length then
          let cap ← newBlockCapacity c (vp.data.length + vl.data.length) 0 0 o
          let (H, b) ← newInternal env H cap
          let H ← blkAppend H b vp.data
          let H ← blkAppend H b vl.data
          let (c, old) ← setBack c b
          let H ← unref H old
          let H ← unref H last
          some (H, c)
        else none
      else some (H, c)
  else
    let (c, last) ← popBack c
    let v ← view H last
    if n = v.data.length then
      let H ← unref H last
      some (H, c)
    else
      let d := v.data.take (v.data.length - n)
      if c.size < d.length then none else
      let c := { c with size := c.size - d.length }
      if d.length ≤ maxBytesToCopy c o then
        let (H, c) ← appendBytes env H c d o
        let H ← unref H last
        some (H, c)
      else
        let (H, b) ← subBlock H last 0 d.length
        appendRawBlock env H c b .pass o

/-- `RemoveSuffix(length, options)` (`chain.cc:1851-1893`). -/
def removeSuffix (env : Env) (H : Heap) (c : Ch) (n : Nat) (o : Opts) : Option (Heap × Ch) :=
  if n = 0 then some (H, c)
  else if c.size < n then none
  else
    let c := { c with size := c.size - n }
    if c.blocks = [] then some (H, c)
    else do
      let (H, c, n) ← removeSuffixLoop H c n c.blocks.length
      removeSuffixLast env H c n o

/-- The loop of `RemovePrefix()` (`chain.cc:1906-1912`). -/
def removePrefixLoop (H : Heap) (c : Ch) (n : Nat) : Nat → Option (Heap × Ch × Nat)
  | 0 => none
  | fuel + 1 => do
    let f ← front c
    let v ← view H f
    if n ≤ v.data.length then some (H, c, n)
    else
      let (c, old) ← popFront c
      let H ← unref H old
      removePrefixLoop H c (n - v.data.length) fuel

/-- `RemovePrefix()` when the first block has the beginning of the new contents
(`chain.cc:1913-1939`). -/
def removePrefixFirst (env : Env) (H : Heap) (c : Ch) (n : Nat) (o : Opts) : Option (Heap × Ch) := do
  let f ← front c
  let (H, done) ← tryRemovePrefix H f n
  if done then
    let c ← refreshFront H c
    let vf ← view H f
    match c.blocks.tail.head? with
    | none => some (H, c)
    | some p =>
      let vp ← view H p
      if vf.tiny && vp.tiny then
        let (c, first) ← popFront c
        if vf.empty then
          let H ← unref H first
          some (H, c)
        else if vf.data.length ≤ maxCap - vp.data.length then
          let cap ← newBlockCapacity c (vf.data.length + vp.data.length) 0 0 o
          let (H, b) ← newInternal env H cap
          let H ← blkPrepend H b vp.data
          let H ← blkPrepend H b vf.data
          let (c, old) ← setFront H c b
          let H ← unref H old
          let H ← unref H first
          some (H, c)
        else none
      else some (H, c)
  else
    let (c, first) ← popFront c
    let v ← view H first
    if n = v.data.length then
      let H ← unref H first
      some (H, c)
    else
      let d := v.data.drop n
      if c.size < d.length then none else
      let c := { c with size := c.size - d.length }
      if d.length ≤ maxBytesToCopy c o then
        let (H, c) ← prependBytes env H c d o
        let H ← unref H first
        some (H, c)
      else
        let (H, b) ← subBlock H first n d.length
        prependRawBlock env H c b .pass o

/-- `RemovePrefix(length, options)` (`chain.cc:1895-1940`). -/
def removePrefix (env : Env) (H : Heap) (c : Ch) (n : Nat) (o : Opts) : Option (Heap × Ch) :=
  if n = 0 then some (H, c)
  else if c.size < n then none
  else
    let c := { c with size := c.size - n }
    if c.blocks = [] then do
      let s ← short16 c
      let s' ← writeMem s 0 (slice s n c.size)
      some (H, { c with short := s' })
    else do
      let (H, c, n) ← removePrefixLoop H c n c.blocks.length
      removePrefixFirst env H c n o

/-- `ClearSlow()` (`chain.cc:363-372`). -/
def clearSlow (H : Heap) (c : Ch) : Option (Heap × Ch × Bool) := do
  let f ← front c
  let (H, remains) ← tryClear H f
  let n := if remains then 1 else 0
  let H ← unrefAll H (c.blocks.drop n)
  some (H, truncate c n, remains)

/-- `Clear()` (`chain_details.h:1006-1009`). -/
def clear (H : Heap) (c : Ch) : Option (Heap × Ch) := do
  let c := { c with size := 0 }
  if c.blocks = [] then some (H, c)
  else
    let (H, c, _) ← clearSlow H c
    some (H, c)

/-- `Initialize(Block src)` (`chain_details.h:1025-1028`): unlike `PushBack()`, no space is
reserved in an allocated array, and the block offset is not set. -/
def initBlock (env : Env) (H : Heap) (c : Ch) (id : Nat) : Option Ch :=
  match c.blocks, c.arr with
  | [], none => do
    let n ← sizeOf H id
    some { c with blocks := [id], size := n }
  | [], some a => do
    let n ← sizeOf H id
    if a.after = 0 then none
    else some { c with blocks := [id], size := n,
                       arr := some ⟨a.before, a.after - 1, [wrap (env.off id)]⟩ }
  | _, _ => none

/-- `Initialize(string_view src)` and `InitializeSlow()` (`chain_details.h:1011-1023`,
`chain.cc:409-422`). -/
def initBytes (env : Env) (H : Heap) (c : Ch) (src : Bytes) : Option (Heap × Ch) :=
  if c.size ≠ 0 then none
  else if src = [] then some (H, c)
  else if src.length ≤ maxShort then do
    let c ← ensureHasHere c
    let s ← writeMem c.short 0 src
    some (H, { c with size := src.length, short := s })
  else do
    let (H, b) ← newInternal env H (min src.length maxBlock)
    let (H, s) ← blkAppendBuffer H b src.length
    let H ← fillSpan H s (src.take s.len)
    let c ← initBlock env H c b
    appendBytes env H c (src.drop s.len) { hint := some src.length }

/-- `Reset(BytesRef src)` (`chain.cc:374-381`). -/
def resetBytes (env : Env) (H : Heap) (c : Ch) (src : Bytes) : Option (Heap × Ch) := do
  let c := { c with size := 0 }
  if c.blocks = [] then initBytes env H c src
  else
    let (H, c, remains) ← clearSlow H c
    if remains then appendBytes env H c src { hint := some src.length }
    else initBytes env H c src

/-- `Reset(Block src)` (`chain.cc:383-388`), for a block which is not null, moved. -/
def resetBlock (env : Env) (H : Heap) (c : Ch) (id : Nat) : Option (Heap × Ch) := do
  let H ← unrefAll H c.blocks
  let c := { truncate c 0 with size := 0 }
  let c ← initBlock env H c id
  some (H, c)

/-- `Initialize(const Chain& src)` (`chain.cc:454-463`). -/
def initChain (H : Heap) (c src : Ch) : Option (Heap × Ch) := do
  let c := { truncate c 0 with size := src.size }
  if src.blocks = [] then
    let c ← ensureHasHere c
    let s ← short16 src
    let s' ← writeMem c.short 0 s
    some (H, { c with short := s' })
  else appendBlocks H c .share src.blocks

/-- `Chain(const Chain&)` (`chain.cc:353`). -/
def copyChain (H : Heap) (src : Ch) : Option (Heap × Ch) := initChain H {} src

/-- `operator=(const Chain&)`, from another object (`chain.cc:355-361`). -/
def assignChain (H : Heap) (c src : Ch) : Option (Heap × Ch) := do
  let H ← unrefAll H c.blocks
  initChain H c src

/-- `~Chain()` (`chain_details.h:991-994`). -/
def destroyChain (H : Heap) (c : Ch) : Option Heap := unrefAll H c.blocks

/-- `Chain(Chain&&)` and what remains in the source (`chain_details.h:945-962`). -/
def moveChain (src : Ch) : Ch × Ch :=
  (src, { src with blocks := [], size := 0, arr := none })

/-- `operator=(Chain&&)`, from another object (`chain_details.h:964-989`). -/
def moveAssign (H : Heap) (c src : Ch) : Option (Heap × Ch × Ch) := do
  let H ← unrefAll H c.blocks
  some (H, (moveChain src).1, (moveChain src).2)

/-- The fragments of a chain, `blocks()` (`chain_details.h:671-698, 1077-1079`): short data are one
fragment, unless empty. -/
def fragments (H : Heap) (c : Ch) : Option (List Bytes) :=
  if c.blocks = [] then (shortData c).map fun d => if c.size = 0 then [] else [d]
  else c.blocks.mapM fun id => (view H id).map (·.data)

/-- `CopyTo()`, `ToString()`, `AppendTo(std::string&)`, `Stringify()`
(`chain.cc:465-473, 528-550`): all bytes. -/
def copyTo (H : Heap) (c : Ch) : Option Bytes := (fragments H c).map (·.flatten)

/-- `FlattenSlow()`, the part copying blocks into a new one (`chain.cc:487-497`). -/
def flattenCopy (env : Env) (H : Heap) (c : Ch) : Option (Heap × Ch × Bytes) := do
  let cap ← newBlockCapacity c 0 c.size c.size {}
  let (H, b) ← newInternal env H cap
  let frs ← c.blocks.mapM fun id => (view H id).map (·.data)
  let H ← frs.foldlM (fun H d => blkAppend H b d) H
  let H ← unrefAll H c.blocks
  let c := truncate c 0
  let c ← pushBack H c b
  let v ← view H b
  some (H, c, v.data)

/-- The data of the only block. -/
def onlyBlock (H : Heap) (c : Ch) : Option (Heap × Ch × Bytes) := do
  let f ← front c
  let v ← view H f
  some (H, c, v.data)

/-- `FlattenSlow()`, after an empty first block was removed (`chain.cc:476-497`). -/
def flattenBack (env : Env) (H : Heap) (c : Ch) : Option (Heap × Ch × Bytes) := do
  let l ← back c
  let v ← view H l
  if v.empty then
    let (c, old) ← popBack c
    let H ← unref H old
    if c.blocks.length = 1 then onlyBlock H c else flattenCopy env H c
  else flattenCopy env H c

/-- `Flatten()` and `FlattenSlow()` (`chain_details.h:1093-1102`, `chain.cc:475-498`). -/
def flatten (env : Env) (H : Heap) (c : Ch) : Option (Heap × Ch × Bytes) :=
  match c.blocks with
  | [] => (shortData c).map fun d => (H, c, d)
  | [_] => onlyBlock H c
  | f :: _ => do
    let v ← view H f
    if v.empty then
      let (c, old) ← popFront c
      let H ← unref H old
      if c.blocks.length = 1 then onlyBlock H c else flattenBack env H c
    else flattenBack env H c

end Riegeli.Chn

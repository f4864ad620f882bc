import Verif.Basic
/-!
# Chain: reference counted blocks

The heap of `Chain::RawBlock` objects (`riegeli/base/chain_base.h:588-766`,
`riegeli/base/chain.cc:119-288`, `riegeli/base/chain_details.h:512-636`).

A block is identified by the index of its allocation. Using a block that was
deleted, or that never existed, writing outside the allocated memory, and a
failed `RIEGELI_ASSERT` or `RIEGELI_CHECK` are all the outcome `none`.
-/
namespace Riegeli.Chn

/-- `Chain::RawBlock::kMaxCapacity`, the largest `ptrdiff_t`
(`chain_base.h:610-611`). -/
def maxCap : Nat := 2 ^ 63 - 1

/-- `kDefaultMinBlockSize` (`riegeli/base/buffering.h:30`). -/
def minBlock : Nat := 512
/-- `kDefaultMaxBlockSize` (`buffering.h:31`). -/
def maxBlock : Nat := 65536
/-- `Chain::kMaxShortDataSize`: two pointers (`chain_base.h:77`). -/
def maxShort : Nat := 16
/-- `Chain::RawBlock::kInternalAllocatedOffset()`: the bytes of an internal block
before its memory (`chain_details.h:531-533`), on a 64-bit platform: reference
count, `substr_`, `allocated_end_`. -/
def headerSize : Nat := 32
/-- `Chain::kAllocationCost` (`chain_base.h:442`). -/
def allocationCost : Nat := 512

/-- What a `RawBlock` holds (`chain_base.h:607-766`).
* `internal mem beg len`: memory of the block, and the part of it which is data
  (`substr_`), as an offset from `allocated_begin_` and a length;
* `external data`: an object of a user owning `data`;
* `sub owner off len`: an object of type `Chain::Block`, keeping a reference to
  `owner`, with `substr_` being a part of the data of `owner`, given relative to
  the data of `owner`. (A pointer in the code; the difference would matter only
  if the data of `owner` could be changed.) -/
inductive Body where
  | internal (mem : Bytes) (beg len : Nat)
  | external (data : Bytes)
  | sub (owner off len : Nat)
deriving DecidableEq, Repr

/-- A `RawBlock`: the reference count, 0 once the block is deleted, and the rest. -/
structure Raw where
  refs : Nat
  body : Body
deriving DecidableEq, Repr

/-- All blocks ever allocated. -/
abbrev Heap := List Raw

/-- The memory allocator, and memory which was not initialized.
`mem id n`: memory obtained for block `id` if `n` bytes were requested (its length
can be larger, `SizeReturningNewAligned`, `chain.cc:119-126`; its contents are
arbitrary). `off id`: an uninitialized element of the array of block offsets. -/
structure Env where
  mem : Nat → Nat → Bytes
  off : Nat → Nat

/-- What is assumed about the allocator: at least as much memory as requested, not
more than `kMaxCapacity` unless more was requested, and not so much more than a
full block would be considered wasteful (`RIEGELI_ASSERT(!block->wasteful())`,
`chain.cc:139-145`). -/
structure Env.Ok (env : Env) : Prop where
  enough : ∀ id n, n ≤ (env.mem id n).length
  fits : ∀ id n, n ≤ maxCap → (env.mem id n).length ≤ maxCap
  tight : ∀ id n, headerSize + (env.mem id n).length ≤ 2 * n + minBlock

/-- What is visible of a block: its data, and its capacity if it is internal. -/
structure View where
  data : Bytes
  cap : Option Nat
deriving DecidableEq, Repr

/-- `RawBlock::size()`. -/
def Body.size : Body → Nat
  | .internal _ _ len => len
  | .external d => d.length
  | .sub _ _ len => len

/-- The data and capacity of block `id`; `none` if the block, or a block it refers
to, is not alive. `RawBlock::operator string_view`, `size()`, `empty()`,
`capacity()` (`chain_details.h:567-572`). -/
def view (H : Heap) (id : Nat) : Option View :=
  match H[id]? with
  | none => none
  | some r =>
    if r.refs = 0 then none else
    match r.body with
    | .internal mem beg len => some ⟨slice mem beg len, some mem.length⟩
    | .external d => some ⟨d, none⟩
    | .sub o off len =>
      if o < id then (view H o).map (fun v => ⟨slice v.data off len, none⟩) else none
termination_by id

/-- `RawBlock::tiny(extra_size)` (`chain.cc:161-174`). -/
def View.tiny (v : View) (extra : Nat := 0) : Bool := decide (v.data.length + extra < minBlock)

/-- `Wasteful(allocated, used)` (`buffering.h:69-74`). -/
def wasteful (allocated used : Nat) : Bool :=
  if used > allocated then false
  else if allocated - used ≤ minBlock then false
  else decide (allocated - used - minBlock > used)

/-- `RawBlock::wasteful(extra_size)` (`chain.cc:176-190`). -/
def View.wasteful (v : View) (extra : Nat := 0) : Bool :=
  match v.cap with
  | none => false
  | some c => Chn.wasteful (headerSize + c) (v.data.length + extra)

/-- `RawBlock::empty()` (`chain_base.h:647`). -/
def View.empty (v : View) : Bool := v.data.isEmpty

/-- A live block. -/
def get (H : Heap) (id : Nat) : Option Raw :=
  match H[id]? with
  | some r => if r.refs = 0 then none else some r
  | none => none

/-- `RawBlock::NewInternal(min_capacity)` (`chain.cc:119-137`). -/
def newInternal (env : Env) (H : Heap) (n : Nat) : Option (Heap × Nat) :=
  if n = 0 then none
  else if maxCap < (env.mem H.length n).length then none
  else some (H ++ [⟨1, .internal (env.mem H.length n) 0 0⟩], H.length)

/-- A new external block with an object of the user
(`ExternalMethodsFor<T>::NewBlock`, `chain_details.h:466-472`). -/
def newExternal (H : Heap) (d : Bytes) : Heap × Nat :=
  (H ++ [⟨1, .external d⟩], H.length)

/-- A new external block with a `Chain::Block` referring to `owner` (the reference
is taken over), and a substring of its data (`ExternalMethodsFor<Block>::NewBlock`,
`chain_details.h:474-481`; the range is checked by `AssertSubstr`,
`chain_base.h:717-739`). -/
def newSub (H : Heap) (owner off len : Nat) : Option (Heap × Nat) :=
  match get H owner with
  | none => none
  | some r =>
    if off + len ≤ r.body.size then some (H ++ [⟨1, .sub owner off len⟩], H.length) else none

/-- `RawBlock::Ref<ShareOwnership>()` (`chain_details.h:546-550`). -/
def ref (H : Heap) (id : Nat) : Option Heap :=
  match get H id with
  | none => none
  | some r => some (H.set id { r with refs := r.refs + 1 })

/-- `RawBlock::Unref<PassOwnership>()` (`chain_details.h:552-561`): when the last
reference is dropped, the block is deleted together with its external object; for a
`Chain::Block` this drops a reference to the block it refers to. -/
def unref (H : Heap) (id : Nat) : Option Heap :=
  match H[id]? with
  | none => none
  | some r =>
    if r.refs = 0 then none
    else if 1 < r.refs then some (H.set id { r with refs := r.refs - 1 })
    else
      match r.body with
      | .sub o _ _ => if o < id then unref (H.set id { r with refs := 0 }) o else none
      | _ => some (H.set id { r with refs := 0 })
termination_by id

/-- `RawBlock::is_mutable()` (`chain_base.h:741`). -/
def isMutable (H : Heap) (id : Nat) : Option Bool :=
  match get H id with
  | none => none
  | some ⟨refs, .internal _ _ _⟩ => some (refs == 1)
  | some _ => some false

/-- `RawBlock::can_append(length)` (`chain.cc:222-224`). -/
def canAppend (H : Heap) (id n : Nat) : Option Bool :=
  match get H id with
  | none => none
  | some ⟨refs, .internal mem beg len⟩ =>
    some (refs == 1 && decide (n ≤ (if len = 0 then mem.length else mem.length - (beg + len))))
  | some _ => some false

/-- `RawBlock::can_prepend(length)` (`chain.cc:226-228`). -/
def canPrepend (H : Heap) (id n : Nat) : Option Bool :=
  match get H id with
  | none => none
  | some ⟨refs, .internal mem beg len⟩ =>
    some (refs == 1 && decide (n ≤ (if len = 0 then mem.length else beg)))
  | some _ => some false

/-- `std::memcpy(mem + off, bs)`, within the memory. -/
def writeMem (mem : Bytes) (off : Nat) (bs : Bytes) : Option Bytes :=
  if off + bs.length ≤ mem.length then some (mem.take off ++ bs ++ mem.drop (off + bs.length))
  else none

/-- Replaces the body of a block. -/
def setBody (H : Heap) (id : Nat) (b : Body) : Heap :=
  match H[id]? with
  | some r => H.set id { r with body := b }
  | none => H

/-- Space handed out to the user: where it is in the memory of block `id`. -/
structure Span where
  id : Nat
  off : Nat
  len : Nat
deriving DecidableEq, Repr

/-- `RawBlock::AppendBuffer(max_length)` (`chain.cc:230-240`). -/
def blkAppendBuffer (H : Heap) (id maxLen : Nat) : Option (Heap × Span) :=
  match get H id with
  | some ⟨refs, .internal mem beg len⟩ =>
    if refs = 1 then
      let beg := if len = 0 then 0 else beg
      let n := min (mem.length - (beg + len)) maxLen
      some (setBody H id (.internal mem beg (len + n)), ⟨id, beg + len, n⟩)
    else none
  | _ => none

/-- `RawBlock::PrependBuffer(max_length)` (`chain.cc:242-253`). -/
def blkPrependBuffer (H : Heap) (id maxLen : Nat) : Option (Heap × Span) :=
  match get H id with
  | some ⟨refs, .internal mem beg len⟩ =>
    if refs = 1 then
      let beg := if len = 0 then mem.length else beg
      let n := min beg maxLen
      some (setBody H id (.internal mem (beg - n) (len + n)), ⟨id, beg - n, n⟩)
    else none
  | _ => none

/-- The user, or a `std::memcpy` in the code, fills a span. -/
def fillSpan (H : Heap) (s : Span) (bs : Bytes) : Option Heap :=
  match get H s.id with
  | some ⟨_, .internal mem beg len⟩ =>
    if bs.length = s.len then
      match writeMem mem s.off bs with
      | some mem => some (setBody H s.id (.internal mem beg len))
      | none => none
    else none
  | _ => none

/-- `RawBlock::AppendWithExplicitSizeToCopy(src, size_to_copy)` (`chain.cc:265-277`):
`bs` are the `size_to_copy` bytes at `src.data()`, `n` is `src.size()`. -/
def blkAppendExplicit (H : Heap) (id : Nat) (bs : Bytes) (n : Nat) : Option Heap :=
  match get H id with
  | some ⟨refs, .internal mem beg len⟩ =>
    if n ≤ bs.length ∧ refs = 1 ∧
        bs.length ≤ (if len = 0 then mem.length else mem.length - (beg + len)) then
      match writeMem mem (beg + len) bs with
      | some mem => some (setBody H id (.internal mem beg (len + n)))
      | none => none
    else none
  | _ => none

/-- `RawBlock::Append(src)` with no space requested before (`chain.cc:255-263`). -/
def blkAppend (H : Heap) (id : Nat) (src : Bytes) : Option Heap :=
  match get H id with
  | some ⟨_, .internal mem beg len⟩ =>
    let beg := if len = 0 then 0 else beg
    blkAppendExplicit (setBody H id (.internal mem beg len)) id src src.length
  | _ => none

/-- `RawBlock::Prepend(src)` with no space requested after (`chain.cc:279-288`). -/
def blkPrepend (H : Heap) (id : Nat) (src : Bytes) : Option Heap :=
  match get H id with
  | some ⟨refs, .internal mem beg len⟩ =>
    if refs = 1 ∧ src.length ≤ (if len = 0 then mem.length else beg) then
      let beg := if len = 0 then mem.length else beg
      match writeMem mem (beg - src.length) src with
      | some mem => some (setBody H id (.internal mem (beg - src.length) (len + src.length)))
      | none => none
    else none
  | _ => none

/-- `RawBlock::TryClear()` (`chain_details.h:608-614`). -/
def tryClear (H : Heap) (id : Nat) : Option (Heap × Bool) :=
  match get H id with
  | some ⟨refs, .internal mem beg _⟩ =>
    if refs = 1 then some (setBody H id (.internal mem beg 0), true) else some (H, false)
  | some _ => some (H, false)
  | none => none

/-- `RawBlock::TryRemoveSuffix(length)` (`chain_details.h:616-625`). -/
def tryRemoveSuffix (H : Heap) (id n : Nat) : Option (Heap × Bool) :=
  match get H id with
  | some ⟨refs, .internal mem beg len⟩ =>
    if n ≤ len then
      if refs = 1 then some (setBody H id (.internal mem beg (len - n)), true)
      else some (H, false)
    else none
  | some ⟨_, b⟩ => if n ≤ b.size then some (H, false) else none
  | none => none

/-- `RawBlock::TryRemovePrefix(length)` (`chain_details.h:627-636`). -/
def tryRemovePrefix (H : Heap) (id n : Nat) : Option (Heap × Bool) :=
  match get H id with
  | some ⟨refs, .internal mem beg len⟩ =>
    if n ≤ len then
      if refs = 1 then some (setBody H id (.internal mem (beg + n) (len - n)), true)
      else some (H, false)
    else none
  | some ⟨_, b⟩ => if n ≤ b.size then some (H, false) else none
  | none => none

/-- `RawBlock::Copy()` (`chain.cc:139-145`), with its assertion. -/
def copyBlock (env : Env) (H : Heap) (id : Nat) : Option (Heap × Nat) := do
  let v ← view H id
  let (H, b) ← newInternal env H v.data.length
  let H ← blkAppend H b v.data
  let w ← view H b
  if w.wasteful then none else some (H, b)

end Riegeli.Chn

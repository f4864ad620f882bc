import Verif.StrSet
import Verif.BinarySearch
/-!
# Model of `riegeli/containers/chunked_sorted_string_set.{h,cc}`

As in `Verif/StrSet.lean`, `none` is a failed assertion. Iterators over `chunks_` are indices.
-/
namespace Riegeli.StrSet

/-- `ChunkedSortedStringSet::Chunk` (`chunked_sorted_string_set.h:337-347`). -/
structure Chunk where
  set : Bytes
  cumulativeEnd : Nat
deriving DecidableEq, Repr

/-- `ChunkedSortedStringSet`: `chunks_`. -/
abbrev CSet := List Chunk

namespace CSet

/-- `ChunkedSortedStringSet(const LinearSortedStringSet&)` (`chunked_sorted_string_set.cc:56-74`). -/
def ofLinear (src : Bytes) : Option CSet :=
  if src = [] then some []
  else do
    let n ← StrSet.size src
    some [⟨src, n⟩]

/-- `TheChunk()` (`chunked_sorted_string_set.cc:76-93`). -/
def theChunk (s : CSet) : Option Bytes :=
  match s with
  | [] => some []
  | [c] => some c.set
  | _ => none

/-- `size()` (`chunked_sorted_string_set.h:268-270`). -/
def size (s : CSet) : Nat :=
  match s.getLast? with
  | none => 0
  | some c => c.cumulativeEnd

/-- `first()` (`chunked_sorted_string_set.h:273-277`). -/
def first (s : CSet) : Option Bytes := s.head?.bind fun c => StrSet.first c.set

/-- `last()` (`chunked_sorted_string_set.h:282-286`). -/
def last (s : CSet) : Option Bytes := s.getLast?.bind fun c => StrSet.last c.set

/-! ## Iteration -/

/-- `IteratorImpl<LinearIterator>` (`chunked_sorted_string_set.h:379-455`): `current_iterator_`, `current_chunk_iterator_`. -/
structure Iter (ι : Type) where
  cur : ι
  chunk : Nat

/-- `IteratorImpl(set)` (`chunked_sorted_string_set.h:445-452`). -/
def begin {ι α : Type} (I : LinIter ι α) (s : CSet) : Option (Iter ι) :=
  match s with
  | [] => some ⟨I.sentinel, 0⟩
  | c :: _ => (I.begin c.set).map fun it => ⟨it, 0⟩

/-- `operator==` with the sentinel (`chunked_sorted_string_set.h:436-438`). -/
def isEnd {ι α : Type} (I : LinIter ι α) (it : Iter ι) : Bool := I.isEnd it.cur

/-- `IteratorImpl::operator*` (`chunked_sorted_string_set.h:410-416`). -/
def deref {ι α : Type} (I : LinIter ι α) (s : CSet) (it : Iter ι) : Option α :=
  if I.isEnd it.cur then none else (s[it.chunk]?).bind fun c => I.deref c.set it.cur

/-- `IteratorImpl::operator++` (`chunked_sorted_string_set.cc:210-234`). -/
def next {ι α : Type} (I : LinIter ι α) (s : CSet) (it : Iter ι) : Option (Iter ι) :=
  if I.isEnd it.cur then none
  else
    match s[it.chunk]? with
    | none => none
    | some c =>
      match I.next c.set it.cur with
      | none => none
      | some cur =>
        if I.isEnd cur = false then some ⟨cur, it.chunk⟩
        else
          match s[it.chunk + 1]? with
          | none => some ⟨cur, it.chunk + 1⟩
          | some c => (I.begin c.set).map fun cur => ⟨cur, it.chunk + 1⟩

/-- `for (x : set)`, from an iterator. -/
def collect {ι α : Type} (I : LinIter ι α) (s : CSet) (it : Iter ι) : Option (List α) :=
  if isEnd I it then some []
  else do
    let x ← deref I s it
    let it ← next I s it
    let xs ← collect I s it
    some (x :: xs)
partial_fixpoint

/-- `for (x : set)`. -/
def all {ι α : Type} (I : LinIter ι α) (s : CSet) : Option (List α) := do
  let it ← begin I s
  collect I s it

/-! ## Lookup -/

/-- `riegeli::Compare` of `string_view`s as an ordering of `BinarySearch`. -/
def toPOrd : Ordering → POrd
  | .lt => .less
  | .eq => .equivalent
  | .gt => .greater

/-- `CompareFirst` (`chunked_sorted_string_set.h:349-354`). `none` is a failed assertion. -/
def compareFirst (s : CSet) (element : Bytes) (p : Nat) : Option POrd :=
  (s[p]?).bind fun c => (StrSet.first c.set).map fun f => toPOrd (cmp f element)

/-- `BinarySearch(chunks_.cbegin() + 1, chunks_.cend(), CompareFirst{element})`, then `--chunk.found`. -/
def findChunk (s : CSet) (element : Bytes) : Option SearchResult :=
  match binarySearch (defaultSearcher (compareFirst s element)) 1 s.length () with
  | some (some r, _, _) => some ⟨r.ordering, r.found - 1⟩
  | _ => none

/-- `ContainsImpl` (`chunked_sorted_string_set.cc:95-106`). -/
def containsNoIndex (s : CSet) (element : Bytes) : Option Bool :=
  match s with
  | [] => some false
  | _ =>
    match findChunk s element with
    | none => none
    | some r =>
      if r.ordering = .equivalent then some true
      else
        match s[r.found]? with
        | none => none
        | some c =>
          if r.found = 0 then (StrSet.contains c.set element).map (·.1)
          else (StrSet.containsSkipFirst c.set element).map (·.1)

/-- `ContainsWithIndexImpl` (`chunked_sorted_string_set.cc:108-128`). -/
def containsWithIndex (s : CSet) (element : Bytes) : Option (Bool × Nat) :=
  match s with
  | [] => some (false, 0)
  | _ =>
    match findChunk s element with
    | none => none
    | some r =>
      match s[r.found]? with
      | none => none
      | some c =>
        if r.ordering = .equivalent then some (true, c.cumulativeEnd)
        else if r.found = 0 then StrSet.contains c.set element
        else
          match StrSet.containsSkipFirst c.set element, s[r.found - 1]? with
          | some (b, some i), some c => some (b, i + c.cumulativeEnd)
          | _, _ => none

/-! ## Comparison -/

/-- `Equal` (`chunked_sorted_string_set.cc:130-135`). -/
def equal (a b : CSet) : Option Bool :=
  if a.size ≠ b.size then some false
  else do
    let i ← begin splitIter a
    let j ← begin splitIter b
    equalLoop (isEnd splitIter) (next splitIter a) (deref splitIter a) (isEnd splitIter) (next splitIter b) (deref splitIter b) i j

/-- `Compare` (`chunked_sorted_string_set.cc:137-152`). -/
def compare (a b : CSet) : Option Ordering := do
  let i ← begin splitIter a
  let j ← begin splitIter b
  compareLoop (isEnd splitIter) (next splitIter a) (deref splitIter a) (isEnd splitIter) (next splitIter b) (deref splitIter b) i j

/-! ## Encoding and decoding -/

/-- `EncodeImpl` (`chunked_sorted_string_set.cc:160-171`), for a `dest` which does not fail. -/
def encode (s : CSet) : Bytes := writeVarint (w64 s.length) ++ s.flatMap fun c => StrSet.encode c.set

/-- `EncodedSize()` (`chunked_sorted_string_set.cc:154-158`). -/
def encodedSize (s : CSet) : Nat := lengthVarint s.length + (s.map fun c => StrSet.encodedSize c.set).sum

/-- `DecodeOptions` (`chunked_sorted_string_set.h:108-168`). -/
structure DecodeOptions where
  validate : Bool
  maxNumChunks : Nat
  maxEncodedChunkSize : Nat

/-- The loop over chunks in `DecodeImpl` (`chunked_sorted_string_set.cc:195-206`). -/
def decodeChunks (o : DecodeOptions) : Nat → Bytes → DecodeState → Option (Except DecErr (CSet × Bytes))
  | 0, src, _ => some (.ok ([], src))
  | n + 1, src, st =>
    match StrSet.decode src ⟨o.validate, o.maxEncodedChunkSize, some st⟩ with
    | none => none
    | some (.error e) => some (.error e)
    | some (.ok (set, st, src)) =>
      if set = [] then some (.error .malformed)
      else
        match st with
        | none => none
        | some st =>
          match decodeChunks o n src st with
          | none => none
          | some (.error e) => some (.error e)
          | some (.ok (cs, src)) => some (.ok (⟨set, st.cumulativeSize⟩ :: cs, src))

/-- `DecodeImpl` (`chunked_sorted_string_set.cc:173-208`): the new set and the remaining bytes; if it fails, the set is not changed. -/
def decode (src : Bytes) (o : DecodeOptions) : Option (Except DecErr (CSet × Bytes)) :=
  match readVarint 64 false src with
  | none => some (.error .malformed)
  | some (numChunks, src) =>
    if o.maxNumChunks < numChunks then some (.error .tooLarge)
    else decodeChunks o numChunks src ⟨0, none⟩

/-! ## Building -/

/-- `ChunkedSortedStringSet::Builder` (`chunked_sorted_string_set.h:495-590`): `chunk_size_`, `chunks_`, `current_builder_`. The size hint only
reserves memory. -/
structure CBuilder where
  chunkSize : Nat
  chunks : CSet
  current : Builder

/-- `Builder(options)` (`chunked_sorted_string_set.cc:244-247`). -/
def CBuilder.new (chunkSize : Nat) : CBuilder := ⟨chunkSize, [], .new⟩

/-- `AddChunk()` (`chunked_sorted_string_set.cc:342-351`). -/
def CBuilder.addChunk (b : CBuilder) : CBuilder :=
  let cumulativeEnd := CSet.size b.chunks + b.current.size
  let r := b.current.build
  { b with chunks := b.chunks ++ [⟨r.1, cumulativeEnd⟩], current := r.2 }

/-- `Builder::InsertNextImpl` (`chunked_sorted_string_set.cc:312-331`); `current_builder_.last()` requires that `current_builder_` is not empty. -/
def CBuilder.tryInsertNext (b : CBuilder) (element : Bytes) : Option (Inserted × CBuilder) :=
  if b.current.size = b.chunkSize then
    if b.current.size = 0 then none
    else if cmp element b.current.last ≠ .gt then
      if element = b.current.last then some (.no, b) else some (.unsorted, b)
    else
      let b := b.addChunk
      let r := b.current.tryInsertNext element
      some (r.1, { b with current := r.2 })
  else
    let r := b.current.tryInsertNext element
    some (r.1, { b with current := r.2 })

/-- `Builder::size()` (`chunked_sorted_string_set.h:558-561`). -/
def CBuilder.size (b : CBuilder) : Nat := CSet.size b.chunks + b.current.size

/-- `Builder::last()` (`chunked_sorted_string_set.h:564-569`): `none` if it is empty. -/
def CBuilder.last (b : CBuilder) : Option Bytes := if b.current.size = 0 then none else some b.current.last

/-- `Build()` (`chunked_sorted_string_set.cc:333-340`). -/
def CBuilder.build (b : CBuilder) : CSet × CBuilder :=
  let b := if b.current.size ≠ 0 then b.addChunk else b
  (b.chunks, { b with chunks := [] })

/-- A sequence of calls to `TryInsertNext`. -/
def CBuilder.insertAll (b : CBuilder) : List Bytes → Option (List Inserted × CBuilder)
  | [] => some ([], b)
  | e :: es => do
    let r ← b.tryInsertNext e
    let rs ← r.2.insertAll es
    some (r.1 :: rs.1, rs.2)

end CSet

end Riegeli.StrSet

import Verif.Varint
/-!
# Model of `riegeli/containers/linear_sorted_string_set.{h,cc}`

A `LinearSortedStringSet` is its `encoded_` bytes. Pointers into `encoded_` (`cursor_`, `ptr`) are offsets, `nullptr` is `none`.
Each operation returns `none` if an assertion of the code (`RIEGELI_ASSERT`, `RIEGELI_ASSUME`) would fail, which in an optimized
build is undefined behavior. `size_t` values which count bytes in memory are not wrapped around.
-/
namespace Riegeli.StrSet

/-- `StrongOrdering riegeli::Compare(absl::string_view, absl::string_view)` (`base/compare.h`): `memcmp` as unsigned bytes,
then the lengths. -/
def cmp : Bytes → Bytes → Ordering
  | [], [] => .eq
  | [], _ :: _ => .lt
  | _ :: _, [] => .gt
  | a :: as, b :: bs => if a.toNat < b.toNat then .lt else if b.toNat < a.toNat then .gt else cmp as bs

/-- `absl::countr_zero(uint64_t)`, for a nonzero argument. -/
def countrZero (x : Nat) : Nat :=
  if h : x = 0 then 64 else if x % 2 = 1 then 0 else 1 + countrZero (x / 2)
termination_by x
decreasing_by omega

/-- Byte by byte (`linear_sorted_string_set.cc:57-64`). -/
def commonPrefixBytes (a b : Bytes) (minLength length : Nat) : Nat :=
  if length < minLength then
    if a[length]? ≠ b[length]? then length else commonPrefixBytes a b minLength (length + 1)
  else length
termination_by minLength - length

/-- `ReadLittleEndian<uint64_t>(a.data() + i) ^ ReadLittleEndian<uint64_t>(b.data() + i)`. -/
def xorAt (a b : Bytes) (i : Nat) : Nat := leNat (slice a i 8) ^^^ leNat (slice b i 8)

/-- Whole blocks (`linear_sorted_string_set.cc:66-84`). -/
def commonPrefixBlocks (a b : Bytes) (limit length : Nat) : Nat :=
  if length < limit then
    if xorAt a b length ≠ 0 then length + countrZero (xorAt a b length) / 8
    else commonPrefixBlocks a b limit (length + 8)
  else if xorAt a b limit ≠ 0 then limit + countrZero (xorAt a b limit) / 8
  else limit + 8
termination_by limit - length

/-- `CommonPrefix` (`linear_sorted_string_set.cc:54-85`). -/
def commonPrefix (a b : Bytes) : Nat :=
  let minLength := min a.length b.length
  if minLength < 8 then commonPrefixBytes a b minLength 0
  else commonPrefixBlocks a b (minLength - 8) 0

/-- `ReadVarint64(ptr, PtrDistance(ptr, limit), value)`: the value and the pointer after it. -/
def readAt (enc : Bytes) (ptr : Nat) : Option (Nat × Nat) :=
  (readVarint 64 false (enc.drop ptr)).map fun r => (r.1, enc.length - r.2.length)

/-- The loop of `LinearSortedStringSet::size()` (`linear_sorted_string_set.cc:101-139`). -/
def sizeLoop (enc : Bytes) (ptr currentLength size : Nat) : Option Nat :=
  if ptr = enc.length then some size
  else do
    let (tagged, ptr) ← readAt enc ptr
    let unshared := tagged / 2
    let (shared, ptr) ←
      if tagged % 2 = 0 then some (0, ptr)
      else do
        let (shared, ptr) ← readAt enc ptr
        if shared < currentLength then some (shared + 1, ptr) else none
    if unshared ≤ enc.length - ptr then sizeLoop enc (ptr + unshared) (shared + unshared) (size + 1) else none
partial_fixpoint

/-- `LinearSortedStringSet::size()`. -/
def size (enc : Bytes) : Option Nat := sizeLoop enc 0 0 0

/-- `LinearSortedStringSet::first()` (`linear_sorted_string_set.cc:141-159`). -/
def first (enc : Bytes) : Option Bytes :=
  if enc = [] then none
  else do
    let (tagged, ptr) ← readAt enc 0
    if tagged % 2 = 0 then
      if tagged / 2 ≤ enc.length - ptr then some (slice enc ptr (tagged / 2)) else none
    else none

/-! ## Iteration -/

/-- An iterator class over `LinearSortedStringSet`: `ι` is the state, `α` is what `operator*` returns. -/
structure LinIter (ι α : Type) where
  /-- The default constructor: equal to `end()`. -/
  sentinel : ι
  /-- `cursor_ == nullptr`. -/
  isEnd : ι → Bool
  /-- The constructor from `encoded_`, which calls `operator++`. -/
  begin : Bytes → Option ι
  /-- `operator++`. -/
  next : Bytes → ι → Option ι
  /-- `operator*`. -/
  deref : Bytes → ι → Option α

/-- `for (x : set)`, from an iterator: everything seen. -/
def LinIter.collect {ι α : Type} (I : LinIter ι α) (enc : Bytes) (it : ι) : Option (List α) :=
  if I.isEnd it then some []
  else do
    let x ← I.deref enc it
    let it ← I.next enc it
    let xs ← I.collect enc it
    some (x :: xs)
partial_fixpoint

/-- `for (x : set)`. -/
def LinIter.all {ι α : Type} (I : LinIter ι α) (enc : Bytes) : Option (List α) := do
  let it ← I.begin enc
  I.collect enc it

/-- `LinearSortedStringSet::Iterator` (`linear_sorted_string_set.h:373-390`): `cursor_`, `length_if_unshared_`,
`current_if_shared_`. -/
structure It where
  cursor : Option Nat
  lengthIfUnshared : Nat
  currentIfShared : Bytes
deriving DecidableEq, Repr

/-- `Iterator::operator*` (`linear_sorted_string_set.h:326-337`). -/
def It.deref (enc : Bytes) (it : It) : Option Bytes :=
  match it.cursor with
  | none => none
  | some c =>
    if 0 < it.lengthIfUnshared then some (slice enc (c - it.lengthIfUnshared) it.lengthIfUnshared)
    else some it.currentIfShared

/-- `Iterator::operator++` (`linear_sorted_string_set.cc:417-480`). `current_if_shared_.resize(new_size, n)` keeps the first `n`
bytes and requires that there are so many. -/
def It.next (enc : Bytes) (it : It) : Option It :=
  match it.cursor with
  | none => none
  | some c =>
    if c = enc.length then some { it with cursor := none, lengthIfUnshared := 0 }
    else do
      let (tagged, ptr) ← readAt enc c
      let unshared := tagged / 2
      if tagged % 2 = 0 then
        if unshared ≤ enc.length - ptr then some ⟨some (ptr + unshared), unshared, []⟩ else none
      else
        let (shared, ptr) ← readAt enc ptr
        if shared < (if 0 < it.lengthIfUnshared then it.lengthIfUnshared else it.currentIfShared.length) then
          let shared := shared + 1
          if unshared ≤ enc.length - ptr then
            let kept := if 0 < it.lengthIfUnshared then slice enc (c - it.lengthIfUnshared) shared
              else it.currentIfShared.take shared
            some ⟨some (ptr + unshared), 0, kept ++ slice enc ptr unshared⟩
          else none
        else none

/-- `Iterator(encoded)` (`linear_sorted_string_set.h:364-371`). -/
def It.begin (enc : Bytes) : Option It := It.next enc ⟨some 0, 0, []⟩

/-- `LinearSortedStringSet::Iterator`. -/
def plainIter : LinIter It Bytes := ⟨⟨none, 0, []⟩, fun it => it.cursor.isNone, It.begin, It.next, It.deref⟩

/-- `LinearSortedStringSet::SplitElement`. -/
structure Split where
  pre : Bytes
  suf : Bytes
deriving DecidableEq, Repr

/-- `SplitElement::operator std::string` (`linear_sorted_string_set.cc:482-484`). -/
def Split.str (s : Split) : Bytes := s.pre ++ s.suf

/-- What `SplitElementIterator::prefix_` points to: bytes of `encoded_` from an offset, or the beginning of
`prefix_if_stored_`. -/
inductive PrefixPtr
  | none
  | enc (pos : Nat)
  | stored
deriving DecidableEq, Repr

/-- `LinearSortedStringSet::SplitElementIterator` (`linear_sorted_string_set.h:547-563`). `prefix_` is a pointer and a length. -/
structure SIt where
  cursor : Option Nat
  prefixIfStored : Bytes
  prefixPtr : PrefixPtr
  prefixLen : Nat
  suffixLength : Nat
deriving DecidableEq, Repr

/-- The bytes `prefix_` denotes. -/
def SIt.pre (enc : Bytes) (it : SIt) : Bytes :=
  match it.prefixPtr with
  | .none => []
  | .enc p => slice enc p it.prefixLen
  | .stored => it.prefixIfStored.take it.prefixLen

/-- `SplitElementIterator::operator*` (`linear_sorted_string_set.h:507-514`). -/
def SIt.deref (enc : Bytes) (it : SIt) : Option Split :=
  match it.cursor with
  | none => none
  | some c => some ⟨it.pre enc, slice enc (c - it.suffixLength) it.suffixLength⟩

/-- How `SplitElementIterator::operator++` updates `prefix_` and `prefix_if_stored_` (`linear_sorted_string_set.cc:539-572`), where
`shared` is the new `shared_length` and `c` is `cursor_`. `none` if the assertion in the fourth branch fails. -/
def SIt.movePrefix (enc : Bytes) (it : SIt) (c shared : Nat) : Option (PrefixPtr × Nat × Bytes) :=
  if shared ≤ it.prefixLen then some (it.prefixPtr, shared, it.prefixIfStored)
  else if it.prefixLen = 0 then some (.enc (c - it.suffixLength), shared, it.prefixIfStored)
  else if it.prefixPtr = .stored then
    if it.prefixLen ≤ it.prefixIfStored.length then
      some (.stored, shared,
        it.prefixIfStored.take it.prefixLen ++ slice enc (c - it.suffixLength) (shared - it.prefixLen))
    else none
  else some (.stored, shared, it.pre enc ++ slice enc (c - it.suffixLength) (shared - it.prefixLen))

/-- `SplitElementIterator::operator++` (`linear_sorted_string_set.cc:493-577`). -/
def SIt.next (enc : Bytes) (it : SIt) : Option SIt :=
  match it.cursor with
  | none => none
  | some c =>
    if c = enc.length then some { it with cursor := none, prefixPtr := .none, prefixLen := 0, suffixLength := 0 }
    else do
      let (tagged, ptr) ← readAt enc c
      let unshared := tagged / 2
      if tagged % 2 = 0 then
        if unshared ≤ enc.length - ptr then some ⟨some (ptr + unshared), it.prefixIfStored, .none, 0, unshared⟩ else none
      else
        let (shared, ptr) ← readAt enc ptr
        if shared < it.prefixLen + it.suffixLength then
          let shared := shared + 1
          if unshared ≤ enc.length - ptr then
            let (p, l, st) ← it.movePrefix enc c shared
            some ⟨some (ptr + unshared), st, p, l, unshared⟩
          else none
        else none

/-- `SplitElementIterator(encoded)` (`linear_sorted_string_set.h:542-545`). -/
def SIt.begin (enc : Bytes) : Option SIt := SIt.next enc ⟨some 0, [], .none, 0, 0⟩

/-- `LinearSortedStringSet::SplitElementIterator`. -/
def splitIter : LinIter SIt Split := ⟨⟨none, [], .none, 0, 0⟩, fun it => it.cursor.isNone, SIt.begin, SIt.next, SIt.deref⟩

/-- The loop of `LinearSortedStringSet::last()` (`linear_sorted_string_set.cc:164-169`). -/
def lastLoop (enc : Bytes) (it : SIt) : Option Split := do
  let l ← it.deref enc
  let it ← it.next enc
  if it.cursor.isNone then some l else lastLoop enc it
partial_fixpoint

/-- `LinearSortedStringSet::last()` (`linear_sorted_string_set.cc:161-171`). -/
def last (enc : Bytes) : Option Bytes :=
  if enc = [] then none
  else do
    let it ← SIt.begin enc
    let l ← lastLoop enc it
    some l.str

/-! ## Lookup -/

/-- The result of comparing `element` with one element of the set in `ContainsImpl`: `return`, or continue with
`common_length`. -/
inductive Probe
  | ret (b : Bool)
  | cont (commonLength : Nat)
deriving DecidableEq, Repr

/-- `x.empty() || front(f) > front(x)`, with `f` nonempty. -/
def frontGreater (f x : Bytes) : Bool :=
  match f, x with
  | _, [] => true
  | a :: _, b :: _ => b.toNat < a.toNat
  | [], _ :: _ => false

/-- The second half of the body of the loop of `ContainsImpl` (`linear_sorted_string_set.cc:213-250`): comparing with the suffix. -/
def probeSuffix (element : Bytes) (commonLength : Nat) (found : Split) : Option Probe :=
  if found.pre.length ≤ commonLength ∧ commonLength - found.pre.length ≤ found.suf.length ∧
      commonLength ≤ element.length then
    let common := commonLength +
      commonPrefix (found.suf.drop (commonLength - found.pre.length)) (element.drop commonLength)
    if common - found.pre.length ≤ found.suf.length ∧ common ≤ element.length then
      let foundSuffix := found.suf.drop (common - found.pre.length)
      let elementSuffix := element.drop common
      if foundSuffix.isEmpty then
        if elementSuffix.isEmpty then some (.ret true) else some (.cont common)
      else if frontGreater foundSuffix elementSuffix then some (.ret false)
      else some (.cont common)
    else none
  else none

/-- The body of the loop of `ContainsImpl` (`linear_sorted_string_set.cc:179-250`). -/
def probe (element : Bytes) (commonLength : Nat) (found : Split) : Option Probe :=
  let common := min commonLength found.pre.length
  if common ≤ element.length then
    if common < found.pre.length then
      let common := common + commonPrefix (found.pre.drop common) (element.drop common)
      if common < found.pre.length then
        if common ≤ element.length then
          if frontGreater (found.pre.drop common) (element.drop common) then some (.ret false) else some (.cont common)
        else none
      else probeSuffix element common found
    else probeSuffix element common found
  else none

/-- `ContainsImpl` (`linear_sorted_string_set.cc:173-253`): the result and `cumulative_index`. -/
def containsLoop (enc element : Bytes) (it : SIt) (commonLength index : Nat) : Option (Bool × Nat) :=
  if it.cursor.isNone then some (false, index)
  else do
    let found ← it.deref enc
    match ← probe element commonLength found with
    | .ret b => some (b, index)
    | .cont common =>
      let it ← it.next enc
      containsLoop enc element it common (index + 1)
partial_fixpoint

/-- `contains(element, &index)` (`linear_sorted_string_set.h:814-823`). -/
def contains (enc element : Bytes) : Option (Bool × Nat) := do
  let it ← SIt.begin enc
  containsLoop enc element it 0 0

/-- `contains_skip_first(element, &index)` (`linear_sorted_string_set.h:825-837`); for an empty set `index` is not set, which is `none` here. -/
def containsSkipFirst (enc element : Bytes) : Option (Bool × Option Nat) := do
  let it ← SIt.begin enc
  if it.cursor.isNone then some (false, none)
  else
    let it ← it.next enc
    let (b, i) ← containsLoop enc element it 0 1
    some (b, some i)

/-! ## Comparison -/

/-- `SplitElement::Equal(a, b)` (`linear_sorted_string_set.cc:579-610`). -/
def Split.equal (a b : Split) : Bool :=
  if a.pre.length + a.suf.length ≠ b.pre.length + b.suf.length then false
  else if a.pre.length < b.pre.length then
    let d := b.pre.length - a.pre.length
    decide (a.pre ≠ b.pre.take a.pre.length) && decide (a.suf.take d ≠ b.pre.drop a.pre.length) &&
      decide (a.suf.drop d = b.suf)
  else if a.pre.length = b.pre.length then decide (a.pre = b.pre) && decide (a.suf = b.suf)
  else
    let d := a.pre.length - b.pre.length
    decide (a.pre.take b.pre.length = b.pre) && decide (a.pre.drop b.pre.length = b.suf.take d) &&
      decide (a.suf = b.suf.drop d)

/-- `SplitElement::Compare(a, string_view b)` (`linear_sorted_string_set.cc:653-670`). -/
def Split.compareStr (a : Split) (b : Bytes) : Ordering :=
  if a.pre.length ≤ b.length then
    (cmp a.pre (b.take a.pre.length)).then (cmp a.suf (b.drop a.pre.length))
  else (cmp (a.pre.take b.length) b).then .gt

/-- `SplitElement::Equal(a, string_view b)` (`linear_sorted_string_set.cc:642-651`). -/
def Split.equalStr (a : Split) (b : Bytes) : Bool :=
  if a.pre.length + a.suf.length ≠ b.length then false
  else decide (a.pre = b.take a.pre.length) && decide (a.suf = b.drop a.pre.length)

/-- `SplitElement::Compare(a, b)` (`linear_sorted_string_set.cc:612-640`). Comparing a `string_view` with a `SplitElement` is the reversed
comparison (`WithCompare`). -/
def Split.compare (a b : Split) : Ordering :=
  if a.pre.length < b.pre.length then
    (cmp a.pre (b.pre.take a.pre.length)).then
      (Split.compareStr ⟨b.pre.drop a.pre.length, b.suf⟩ a.suf).swap
  else if a.pre.length = b.pre.length then (cmp a.pre b.pre).then (cmp a.suf b.suf)
  else
    (cmp (a.pre.take b.pre.length) b.pre).then
      (Split.compareStr ⟨a.pre.drop b.pre.length, a.suf⟩ b.suf)

/-- `std::equal` over two ranges given by iterators. -/
def equalLoop {ι : Type} (isEnd : ι → Bool) (next : ι → Option ι) (deref : ι → Option Split)
    {κ : Type} (isEnd' : κ → Bool) (next' : κ → Option κ) (deref' : κ → Option Split) (a : ι) (b : κ) : Option Bool :=
  if isEnd a then some (isEnd' b)
  else if isEnd' b then some false
  else do
    let x ← deref a
    let y ← deref' b
    if x.equal y then
      let a ← next a
      let b ← next' b
      equalLoop isEnd next deref isEnd' next' deref' a b
    else some false
partial_fixpoint

/-- The loop of `Compare` (`linear_sorted_string_set.cc:261-276`, `chunked_sorted_string_set.cc:139-153`). -/
def compareLoop {ι : Type} (isEnd : ι → Bool) (next : ι → Option ι) (deref : ι → Option Split)
    {κ : Type} (isEnd' : κ → Bool) (next' : κ → Option κ) (deref' : κ → Option Split) (a : ι) (b : κ) : Option Ordering :=
  if isEnd a then some (if isEnd' b then .eq else .lt)
  else if isEnd' b then some .gt
  else do
    let x ← deref a
    let y ← deref' b
    match x.compare y with
    | .eq =>
      let a ← next a
      let b ← next' b
      compareLoop isEnd next deref isEnd' next' deref' a b
    | o => some o
partial_fixpoint

/-- `a == b` (`linear_sorted_string_set.cc:255-259`). -/
def equal (a b : Bytes) : Option Bool := do
  let i ← SIt.begin a
  let j ← SIt.begin b
  equalLoop splitIter.isEnd (splitIter.next a) (splitIter.deref a) splitIter.isEnd (splitIter.next b) (splitIter.deref b) i j

/-- `RIEGELI_COMPARE(a, b)`. -/
def compare (a b : Bytes) : Option Ordering := do
  let i ← SIt.begin a
  let j ← SIt.begin b
  compareLoop splitIter.isEnd (splitIter.next a) (splitIter.deref a) splitIter.isEnd (splitIter.next b) (splitIter.deref b) i j

/-! ## Building -/

/-- `LinearSortedStringSet::Builder`: what was written to `writer_`, `size_`, `last_`. -/
structure Builder where
  written : Bytes
  size : Nat
  last : Bytes
deriving DecidableEq, Repr

/-- A new builder, or after `Reset()` or `Build()`. -/
def Builder.new : Builder := ⟨[], 0, []⟩

/-- The result of `TryInsertNext`: `true`, `false`, or a failed status. -/
inductive Inserted
  | yes | no | unsorted
deriving DecidableEq, Repr

/-- `Builder::InsertNextImpl` (`linear_sorted_string_set.cc:745-781`). Both variants of `update_last` set `last_` to the element and
return its part from `shared_length`: `TryInsertNext(string_view)` (`716-726`) truncates `last_` to `shared_length` and appends;
`TryInsertNext(std::string&&)` (`729-740`) moves. `StrCat` and the like never fail. `uint64_t{unshared_length} << 1` wraps around. -/
def Builder.tryInsertNext (b : Builder) (element : Bytes) : Inserted × Builder :=
  let shared := commonPrefix b.last element
  let unsharedElement := element.drop shared
  let unsharedLast := b.last.drop shared
  if cmp unsharedElement unsharedLast ≠ .gt ∧ b.size ≠ 0 then
    if unsharedElement = unsharedLast then (.no, b) else (.unsorted, b)
  else
    let shared := if shared = 1 then 0 else shared
    let unshared := element.drop shared
    let last := b.last.take shared ++ unshared
    let tagged := w64 (2 * unshared.length) + (if 0 < shared then 1 else 0)
    (.yes, ⟨b.written ++ writeVarint tagged ++ (if 0 < shared then writeVarint (shared - 1) else []) ++ unshared,
      b.size + 1, last⟩)

/-- `Builder::Build()` (`linear_sorted_string_set.cc:783-798`): the set, and the builder, which is empty. -/
def Builder.build (b : Builder) : Bytes × Builder := (b.written, .new)

/-- A sequence of calls to `TryInsertNext`. -/
def Builder.insertAll (b : Builder) : List Bytes → List Inserted × Builder
  | [] => ([], b)
  | e :: es =>
    let r := b.tryInsertNext e
    let rs := r.2.insertAll es
    (r.1 :: rs.1, rs.2)

/-- `FromSorted` (`linear_sorted_string_set.h:755-767`): `none` if `RIEGELI_CHECK_OK` in `InsertNext` fails. -/
def fromSorted (src : List Bytes) : Option Bytes :=
  let r := Builder.new.insertAll src
  if r.1.any (· == .unsorted) then none else some r.2.build.1

/-! ## Encoding and decoding -/

/-- `EncodeImpl` (`linear_sorted_string_set.cc:278-284`), for a `dest` which does not fail. -/
def encode (enc : Bytes) : Bytes := writeVarint (w64 enc.length) ++ enc

/-- `EncodedSize()` (`linear_sorted_string_set.h:854-856`). -/
def encodedSize (enc : Bytes) : Nat := lengthVarint enc.length + enc.length

/-- `DecodeState` (`linear_sorted_string_set.h:65-72`). -/
structure DecodeState where
  cumulativeSize : Nat
  last : Option Bytes
deriving DecidableEq, Repr

/-- `DecodeOptions` (`linear_sorted_string_set.h:75-142`). -/
structure DecodeOptions where
  validate : Bool
  maxEncodedSize : Nat
  decodeState : Option DecodeState
deriving Repr

/-- Why decoding fails. -/
inductive DecErr
  | malformed | tooLarge | unsorted
deriving DecidableEq, Repr

/-- The state of the loop of `DecodeImpl`. `current_if_validated` is a `string_view` of the previous element: in `encoded`, in
`decode_state->last` or in `current_if_validated_and_shared`; here it is its value. -/
structure DecLoop where
  ptr : Nat
  size : Nat
  currentLength : Nat
  shared : Bytes
  validated : Option Bytes
deriving DecidableEq, Repr

/-- The check that elements are sorted (`linear_sorted_string_set.cc:337-346`, `371-381`): `new` is compared with the previous element without
its first `n` bytes. -/
def notAfter (new : Bytes) (n : Nat) : Option Bytes → Bool
  | none => false
  | some cur => cmp new (cur.drop n) ≠ .gt

/-- One iteration of the loop of `DecodeImpl` (`linear_sorted_string_set.cc:318-401`). The outer `none` is a failed assertion. -/
def decodeStep (enc : Bytes) (validate : Bool) (s : DecLoop) : Option (Except DecErr DecLoop) :=
  match readAt enc s.ptr with
  | none => some (.error .malformed)
  | some (tagged, ptr) =>
    let unshared := tagged / 2
    if tagged % 2 = 0 then
      if enc.length - ptr < unshared then some (.error .malformed)
      else if validate then
        if notAfter (slice enc ptr unshared) 0 s.validated then some (.error .unsorted)
        else some (.ok ⟨ptr + unshared, s.size + 1, unshared, [], some (slice enc ptr unshared)⟩)
      else some (.ok ⟨ptr + unshared, s.size + 1, unshared, s.shared, s.validated⟩)
    else
      match readAt enc ptr with
      | none => some (.error .malformed)
      | some (shared, ptr) =>
        if s.currentLength ≤ shared then some (.error .malformed)
        else
          let shared := shared + 1
          if enc.length - ptr < unshared then some (.error .malformed)
          else if validate then
            if notAfter (slice enc ptr unshared) shared s.validated then some (.error .unsorted)
            else
              match (if s.shared = [] then s.validated else some s.shared) with
              | none => none
              | some cur =>
                if shared ≤ cur.length then
                  let cur := cur.take shared ++ slice enc ptr unshared
                  some (.ok ⟨ptr + unshared, s.size + 1, shared + unshared, cur, some cur⟩)
                else none
          else some (.ok ⟨ptr + unshared, s.size + 1, shared + unshared, s.shared, s.validated⟩)

/-- The loop of `DecodeImpl`. -/
def decodeLoop (enc : Bytes) (validate : Bool) (s : DecLoop) : Option (Except DecErr DecLoop) :=
  if s.ptr = enc.length then some (.ok s)
  else
    match decodeStep enc validate s with
    | none => none
    | some (.error e) => some (.error e)
    | some (.ok s) => decodeLoop enc validate s
partial_fixpoint

/-- The update of `decode_state` (`linear_sorted_string_set.cc:402-412`). -/
def updateState (validate : Bool) (s : DecLoop) : Option DecodeState → Option (Option DecodeState)
  | none => some none
  | some st =>
    if 0 < s.size then
      if validate then
        if s.shared = [] then
          match s.validated with
          | none => none
          | some cur => some (some ⟨st.cumulativeSize + s.size, some cur⟩)
        else some (some ⟨st.cumulativeSize + s.size, some s.shared⟩)
      else some (some { st with cumulativeSize := st.cumulativeSize + s.size })
    else some (some st)

/-- `DecodeImpl` (`linear_sorted_string_set.cc:286-415`), for a `src` which has the remaining bytes `src` and does not fail otherwise.
The result is the new set, `*decode_state()` and the remaining bytes; if it fails, the set is not changed. -/
def decode (src : Bytes) (o : DecodeOptions) : Option (Except DecErr (Bytes × Option DecodeState × Bytes)) :=
  match readVarint 64 false src with
  | none => some (.error .malformed)
  | some (encodedSize, rest) =>
    if o.maxEncodedSize < encodedSize then some (.error .tooLarge)
    else if rest.length < encodedSize then some (.error .malformed)
    else
      let enc := rest.take encodedSize
      match decodeLoop enc o.validate ⟨0, 0, 0, [], o.decodeState.bind (·.last)⟩ with
      | none => none
      | some (.error e) => some (.error e)
      | some (.ok s) =>
        match updateState o.validate s o.decodeState with
        | none => none
        | some st => some (.ok (enc, st, rest.drop encodedSize))

end Riegeli.StrSet

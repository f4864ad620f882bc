import Verif.Codec
/-!
# Transposed chunks, encoding: model of `chunk_encoding/transpose_encoder.{h,cc}`, `transpose_internal.h`

Conventions. A `uint32_t` position whose invalid value is `kInvalidPos` is an `Option Nat`, `none` being
`kInvalidPos` (which compares greater than every position). A failing `RIEGELI_ASSERT` or `IntCast` is
the result `none` of the function. `flat_hash_map`s are modelled by their contents; where the code iterates
over one, the order of iteration is a parameter of the model (`HashOrder`). Vectors indexed by position
whose elements are updated in place are functions from positions, with a size.
-/
namespace Riegeli.Tr

/-- `MessageId::kNonProto` (`transpose_internal.h:28`). -/
def kNonProto : Nat := 1
/-- `MessageId::kStartOfSubmessage` (`transpose_internal.h:29`). -/
def kStartOfSubmessage : Nat := 2
/-- `MessageId::kStartOfMessage` (`transpose_internal.h:30`). -/
def kStartOfMessage : Nat := 3
/-- `MessageId::kRoot` (`transpose_internal.h:32`). -/
def kRoot : Nat := 4
/-- `Subtype::kVarintInline0` (`transpose_internal.h:55-59`), that is `kMaxLengthVarint64`. -/
def kVarintInline0 : Nat := 10
/-- `Subtype::kLengthDelimitedString`, also `kTrivial` and `kVarint1` (`transpose_internal.h:51-62`). -/
def kString : Nat := 0
/-- `Subtype::kLengthDelimitedStartOfSubmessage` (`transpose_internal.h:63`). -/
def kSubStart : Nat := 1
/-- `Subtype::kLengthDelimitedEndOfSubmessage` (`transpose_internal.h:64`). -/
def kSubEnd : Nat := 2
/-- `kMaxVarintInline` (`transpose_encoder.cc:69`). -/
def kMaxVarintInline : Nat := 3
/-- `kMaxRecursionDepth` (`transpose_encoder.cc:77`). -/
def kMaxRecursionDepth : Nat := 100
/-- `kMaxTransition` (`transpose_encoder.cc:1315`). -/
def kMaxTransition : Nat := 63
/-- `kMinCountForState` (`transpose_encoder.cc:1318`). -/
def kMinCountForState : Nat := 10
/-- `kWriteBufSize` (`transpose_encoder.cc:816`). -/
def kWriteBufSize : Nat := 32
/-- `kInvalidPos` (`transpose_encoder.cc:67`), where it is written out. -/
def kInvalidPos : Nat := 2 ^ 32 - 1

/-- `GetTagWireType` (`message_wire_format.h`): 0 varint, 1 fixed64, 2 length-delimited, 3 start group,
4 end group, 5 fixed32. -/
def wireType (tag : Nat) : Nat := tag % 8
/-- `GetTagFieldNumber` (`message_wire_format.h`). -/
def fieldNumber (tag : Nat) : Nat := tag / 8

/-- `HasDataBuffer` (`transpose_internal.h:77-95`). -/
def hasDataBuffer (tag subtype : Nat) : Bool :=
  match wireType tag with
  | 0 => subtype < kVarintInline0
  | 1 => true
  | 5 => true
  | 2 => subtype == kString
  | _ => false

/-- `HasSubtype` (`transpose_internal.h:99-117`). -/
def hasSubtype (tag : Nat) : Bool := wireType tag == 0

/-- Number of bytes that reading consumes. -/
theorem readVarint_lt_length {w : Nat} (hw : 7 < w) {c : Bool} {src rest : Bytes} {v : Nat}
    (h : readVarint w c src = some (v, rest)) : rest.length < src.length := by
  have := readVarint_length hw h
  omega

theorem copyVarintLoop_lt {w : Nat} {c : Bool} : ∀ {src : Bytes} {i : Nat} {bs rest : Bytes},
    copyVarintLoop w c i src = some (bs, rest) → rest.length < src.length := by
  intro src
  induction src with
  | nil => intro i bs rest h; simp [copyVarintLoop] at h
  | cons b src ih =>
    intro i bs rest h
    simp only [copyVarintLoop] at h
    split at h
    · split at h
      · simp at h
      split at h
      · simp at h
      simp only [Option.some.injEq, Prod.mk.injEq] at h
      obtain ⟨_, rfl⟩ := h; simp
    · split at h
      · cases hr : copyVarintLoop w c (i + 1) src with
        | none => simp [hr] at h
        | some r =>
          have hi := ih (bs := r.1) (rest := r.2) (i := i + 1) (by rw [hr])
          simp only [hr, Option.map_some, Option.some.injEq, Prod.mk.injEq] at h
          obtain ⟨_, rfl⟩ := h
          simp only [List.length_cons]; omega
      · split at h
        · simp at h
        · simp only [Option.some.injEq, Prod.mk.injEq] at h
          obtain ⟨_, rfl⟩ := h; simp

theorem copyVarint_lt_length {w : Nat} {c : Bool} {src bs rest : Bytes}
    (h : copyVarint w c src = some (bs, rest)) : rest.length < src.length := copyVarintLoop_lt h

/-- The loop of `IsProtoMessage` (`transpose_encoder.cc:90-133`); `groups` is `started_groups`, innermost
first, `src` the rest of the record. -/
def isProtoLoop (groups : List Nat) (src : Bytes) : Bool :=
  if src = [] then groups.isEmpty
  else
    match _h : readVarint 32 true src with
    | none => false
    | some (tag, src1) =>
      if fieldNumber tag = 0 then false
      else
        match wireType tag with
        | 0 =>
          match _h2 : copyVarint 64 true src1 with
          | none => false
          | some (_, src2) => isProtoLoop groups src2
        | 5 => if src1.length < 4 then false else isProtoLoop groups (src1.drop 4)
        | 1 => if src1.length < 8 then false else isProtoLoop groups (src1.drop 8)
        | 2 =>
          match _h2 : readVarint 32 true src1 with
          | none => false
          | some (length, src2) =>
            if src2.length < length then false else isProtoLoop groups (src2.drop length)
        | 3 => isProtoLoop (fieldNumber tag :: groups) src1
        | 4 =>
          match groups with
          | [] => false
          | g :: gs => if g ≠ fieldNumber tag then false else isProtoLoop gs src1
        | _ => false
termination_by src.length
decreasing_by
  all_goals
    have h1 := readVarint_lt_length (by omega) _h
    try have h2 := readVarint_lt_length (by omega) _h2
    try have h3 := copyVarint_lt_length _h2
    try simp only [List.length_drop]
    omega

/-- `IsProtoMessage` (`transpose_encoder.cc:90-133`). -/
def isProtoMessage (src : Bytes) : Bool := isProtoLoop [] src

/-- `TransposeEncoder::NodeId` (`transpose_encoder.h`): `parent_message_id` and `tag`. -/
structure NodeId where
  parent : Nat
  tag : Nat
deriving DecidableEq, Repr

/-- `TransposeEncoder::BufferType` (`transpose_encoder.h`). -/
inductive BufType
  | varint | fixed32 | fixed64 | string | nonProto
deriving DecidableEq, Repr

/-- The members of `TransposeEncoder` while records are added. `nodes` are the keys of `message_nodes_` in
the order of insertion, so that the `message_id` of the key at index `i` is `kRoot + 1 + i`. `tags` is
`tags_list_` (node and subtype; `encoded_tag_pos` of the nodes is its inverse). `enc` is `encoded_tags_`
with the last element first. `data t` is `data_[t]`. Data is prepended to buffers. -/
structure ESt where
  numRecords : Nat
  decodedDataSize : Nat
  nodes : List NodeId
  tags : List (NodeId × Nat)
  enc : List Nat
  data : BufType → List (NodeId × Bytes)
  lens : Bytes

/-- `TransposeEncoder::Clear` (`transpose_encoder.cc:209-219`). -/
def ESt.empty : ESt := ⟨0, 0, [], [], [], fun _ => [], []⟩

/-- The index of the first occurrence of `x`, after appending it if it does not occur. -/
def findOrAppend {α : Type} [DecidableEq α] (l : List α) (x : α) : List α × Nat :=
  if l.idxOf x < l.length then (l, l.idxOf x) else (l ++ [x], l.length)

/-- `TransposeEncoder::GetNode` (`transpose_encoder.cc:335-340`), returning the `message_id` too. -/
def ESt.getNode (s : ESt) (id : NodeId) : ESt × Nat :=
  ({ s with nodes := (findOrAppend s.nodes id).1 }, kRoot + 1 + (findOrAppend s.nodes id).2)

/-- `TransposeEncoder::GetPosInTagsList` (`transpose_encoder.cc:320-333`). -/
def ESt.getPos (s : ESt) (id : NodeId) (subtype : Nat) : ESt × Nat :=
  ({ s with tags := (findOrAppend s.tags (id, subtype)).1 }, (findOrAppend s.tags (id, subtype)).2)

/-- `encoded_tags_.push_back(pos)`. -/
def ESt.push (s : ESt) (pos : Nat) : ESt := { s with enc := pos :: s.enc }

/-- `encoded_tags_.push_back(GetPosInTagsList(node, subtype))`. -/
def ESt.pushTag (s : ESt) (id : NodeId) (subtype : Nat) : ESt :=
  (s.getPos id subtype).1.push (s.getPos id subtype).2

/-- Writing to the `BackwardWriter` of a node in one vector of buffers. -/
def prependTo (id : NodeId) (d : Bytes) : List (NodeId × Bytes) → List (NodeId × Bytes)
  | [] => [(id, d)]
  | (k, b) :: l => if k = id then (k, d ++ b) :: l else (k, b) :: prependTo id d l

/-- `GetBuffer(node, type)` (`transpose_encoder.cc:308-318`) followed by writing `d` to it. -/
def ESt.write (s : ESt) (type : BufType) (id : NodeId) (d : Bytes) : ESt :=
  { s with data := fun t => if t = type then prependTo id d (s.data type) else s.data t }

/-- `TransposeEncoder::MessageFrame` (`transpose_encoder.h`); instead of `parent_max_record_pos`, `rest` is
what remains of the parent message after the submessage. -/
structure Frame where
  endPos : Nat
  parentId : Nat
  rest : Bytes

/-- The termination measure of `addLoop`. -/
def framesSize : List Frame → Nat
  | [] => 0
  | f :: fs => 2 * f.rest.length + 1 + framesSize fs

/-- Clearing the high bit of each byte (`transpose_encoder.cc:376`). -/
def clearHigh (bs : Bytes) : Bytes := bs.map (fun b => UInt8.ofNat (b.toNat % 128))

/-- The loop of `TransposeEncoder::AddMessage` (`transpose_encoder.cc:345-477`). `src` is what remains up to
`limited_record.max_pos()`, `frames` is `message_stack_` and `groups` is `group_stack_`, innermost first. -/
def addLoop (s : ESt) (parent : Nat) (frames : List Frame) (groups : List Nat) (src : Bytes) : Option ESt :=
  if src = [] then
    match frames with
    | [] => some s
    | f :: fs => addLoop (s.push f.endPos) f.parentId fs groups f.rest
  else
    match _h : readVarint 32 false src with
    | none => none
    | some (tag, src1) =>
      let id : NodeId := ⟨parent, tag⟩
      let r := s.getNode id
      match wireType tag with
      | 0 =>
        match _h2 : copyVarint 64 false src1 with
        | none => none
        | some (value, src2) =>
          if (value.headD 0).toNat ≤ kMaxVarintInline then
            addLoop (r.1.pushTag id (kVarintInline0 + (value.headD 0).toNat)) parent frames groups src2
          else
            addLoop ((r.1.pushTag id (value.length - 1)).write .varint id (clearHigh value))
              parent frames groups src2
      | 5 =>
        if src1.length < 4 then none
        else addLoop ((r.1.pushTag id 0).write .fixed32 id (src1.take 4)) parent frames groups (src1.drop 4)
      | 1 =>
        if src1.length < 8 then none
        else addLoop ((r.1.pushTag id 0).write .fixed64 id (src1.take 8)) parent frames groups (src1.drop 8)
      | 2 =>
        match _h2 : readVarint 32 false src1 with
        | none => none
        | some (length, src2) =>
          if src2.length < length then none
          else if 0 < length ∧ frames.length + groups.length < kMaxRecursionDepth ∧
              isProtoMessage (src2.take length) = true then
            let s1 := r.1.pushTag id kSubStart
            let e := s1.getPos id kSubEnd
            addLoop e.1 r.2 (⟨e.2, parent, src2.drop length⟩ :: frames) groups (src2.take length)
          else
            addLoop ((r.1.pushTag id kString).write .string id
                (src1.take (src1.length - src2.length + length))) parent frames groups (src2.drop length)
      | 3 => addLoop (r.1.pushTag id 0) r.2 frames (parent :: groups) src1
      | 4 =>
        match groups with
        | [] => none
        | g :: gs => addLoop (r.1.pushTag id 0) g frames gs src1
      | _ => none
termination_by 2 * src.length + framesSize frames
decreasing_by
  · simp only [framesSize]; omega
  all_goals
    have h1 := readVarint_lt_length (by omega) _h
    try have h2 := readVarint_lt_length (by omega) _h2
    try have h3 := copyVarint_lt_length _h2
    try simp only [List.length_drop, List.length_take, framesSize]
    omega

/-- `TransposeEncoder::AddRecordInternal` (`transpose_encoder.cc:265-306`). -/
def ESt.addRecord (s : ESt) (r : Bytes) : Option ESt :=
  if s.numRecords = kMaxNumRecords then none
  else if r.length > (2 ^ 64 - 1) - s.decodedDataSize then none
  else
    let s := { s with numRecords := s.numRecords + 1, decodedDataSize := s.decodedDataSize + r.length }
    if isProtoMessage r = true then
      addLoop ((s.getNode ⟨kStartOfMessage, 0⟩).1.pushTag ⟨kStartOfMessage, 0⟩ 0) kRoot [] [] r
    else
      let s := ((s.getNode ⟨kNonProto, 0⟩).1.pushTag ⟨kNonProto, 0⟩ 0).write .nonProto ⟨kNonProto, 0⟩ r
      some { s with lens := writeVarint r.length ++ s.lens }

/-- Adding records one by one; `AddRecords(Chain, limits)` (`transpose_encoder.cc:246-263`) does the same. -/
def ESt.addAll (s : ESt) : List Bytes → Option ESt
  | [] => some s
  | r :: rs => (s.addRecord r).bind (fun s => s.addAll rs)

/-! ## The state machine -/

/-- `TransposeEncoder::StateInfo` (`transpose_encoder.h`): `etag_index`, `base`, `canonical_source`. -/
structure StateInfo where
  etag : Option Nat
  base : Option Nat
  cs : Option Nat
deriving DecidableEq, Repr

/-- `std::vector<StateInfo>`. -/
structure SM where
  size : Nat
  get : Nat → StateInfo

/-- The default constructed `StateInfo` (`transpose_encoder.cc:176-183`). -/
def StateInfo.invalid : StateInfo := ⟨none, none, none⟩

/-- `state_machine[p] = x`. -/
def SM.set (m : SM) (p : Nat) (x : StateInfo) : SM :=
  { m with get := fun i => if i = p then x else m.get i }

/-- `TransposeEncoder::EncodedTagInfo` (`transpose_encoder.h`) without the node and subtype. `dests` are the
keys of `dest_info` in the order of insertion, `cnt` and `pos` the fields of the values. -/
structure TagInfo where
  dests : List Nat
  cnt : Nat → Nat
  pos : Nat → Option Nat
  incoming : Nat
  smPos : Option Nat
  noopPos : Option Nat
  base : Option Nat

/-- A new `EncodedTagInfo` (`transpose_encoder.cc:187-193`). -/
def TagInfo.init : TagInfo := ⟨[], fun _ => 0, fun _ => none, 0, none, none, none⟩

/-- Updating one element of `tags_list_`. -/
def updTag (tags : Nat → TagInfo) (i : Nat) (f : TagInfo → TagInfo) : Nat → TagInfo :=
  fun j => if j = i then f (tags i) else tags j

/-- Order of iteration over hash maps: for the map of tag number `a`, in one of the loops (numbered), the
keys in the order in which they are visited. -/
structure HashOrder where
  order : Nat → Nat → List Nat → List Nat
  perm : ∀ loop a l, (order loop a l).Perm l

/-- `++tags_list_[prev].dest_info[pos].num_transitions` (`transpose_encoder.cc:942`). -/
def TagInfo.countDest (t : TagInfo) (d : Nat) : TagInfo :=
  { t with
    dests := if d ∈ t.dests then t.dests else t.dests ++ [d]
    cnt := fun i => if i = d then t.cnt d + 1 else t.cnt i }

/-- The loop of `CollectTransitionStatistics` (`transpose_encoder.cc:939-945`): `prev` is the tag before
those in the list. -/
def collectLoop (tags : Nat → TagInfo) (prev : Nat) : List Nat → (Nat → TagInfo)
  | [] => tags
  | pos :: rest =>
    collectLoop (updTag (updTag tags prev (·.countDest pos)) pos
      (fun t => { t with incoming := t.incoming + 1 })) pos rest

/-- `TransposeEncoder::CollectTransitionStatistics` (`transpose_encoder.cc:936-952`) for a non-empty
`encoded_tags_`, the last element being `first`. -/
def collect (first : Nat) (rest : List Nat) : Nat → TagInfo :=
  let tags := collectLoop (fun _ => TagInfo.init) first rest
  if (tags first).incoming = 0 then updTag tags first (fun t => { t with incoming := 1 }) else tags

/-- Marking the frequent transitions of tag `a` (`transpose_encoder.cc:1111-1122`); `kInListPos` is `0`. -/
def markDests (minCount a : Nat) (tags : Nat → TagInfo) : List Nat → (Nat → TagInfo)
  | [] => tags
  | d :: ds =>
    if (tags a).cnt d ≥ minCount then
      let n := (tags a).cnt d
      markDests minCount a
        (updTag (updTag tags d (fun t => { t with incoming := t.incoming - n })) a
          (fun t => { t with pos := fun i => if i = d then some 0 else t.pos i })) ds
    else markDests minCount a tags ds

/-- The loop over all tags (`transpose_encoder.cc:1110-1123`), from tag `a`, `n` of them. -/
def markAll (O : HashOrder) (minCount : Nat) (tags : Nat → TagInfo) : Nat → Nat → (Nat → TagInfo)
  | 0, _ => tags
  | n + 1, a => markAll O minCount (markDests minCount a tags (O.order 0 a (tags a).dests)) n (a + 1)

/-- What a `dest_index` in the priority queue denotes (`transpose_encoder.cc:1212-1231`): a tag, the `kNoOp`
leading to the public list (`kInvalidPos`), the `kNoOp` of a block (`tags_list_.size() + k`). -/
inductive Key
  | tag (i : Nat) | pub | block (k : Nat)
deriving DecidableEq, Repr

/-- `PriorityQueueEntry` (`transpose_encoder.cc:137-164`). -/
structure Entry where
  key : Key
  weight : Nat
deriving DecidableEq, Repr

/-- `dest_index` as a number, with `n` tags. -/
def Key.index (n : Nat) : Key → Nat
  | .tag i => i
  | .pub => kInvalidPos
  | .block k => n + k

/-- Whether `a` leaves the priority queue not later than `b` (`transpose_encoder.cc:148-158`). The
`std::priority_queue` returns the greatest element, that is with the smallest number of transitions. -/
def Entry.before (n : Nat) (a b : Entry) : Bool :=
  a.weight < b.weight || (a.weight == b.weight && b.key.index n ≤ a.key.index n)

/-- `tag_priority.push`: the priority queue is the list of its elements in the order in which they will be
returned. -/
def pqPush (n : Nat) (e : Entry) : List Entry → List Entry
  | [] => [e]
  | x :: xs => if e.before n x then e :: x :: xs else x :: pqPush n e xs

/-- The loop collecting the private list of tag `a` (`transpose_encoder.cc:1147-1169`): the priority queue,
`num_excluded_transitions` and `excluded_state`. -/
def collectPrivate (n a : Nat) (tags : Nat → TagInfo) (q : List Entry) (excl : Nat) (last : Nat × Nat) :
    List Nat → (Nat → TagInfo) × List Entry × Nat × (Nat × Nat)
  | [] => (tags, q, excl, last)
  | d :: ds =>
    let c := (tags a).cnt d
    if (tags a).pos d = some 0 ∨ c = (tags d).incoming then
      let tags' := if (tags a).pos d = some 0 then tags
        else updTag tags d (fun t => { t with incoming := t.incoming - c })
      collectPrivate n a tags' (pqPush n ⟨.tag d, c⟩ q) excl last ds
    else collectPrivate n a tags q (excl + c) (d, c) ds

/-- Variables of the loop which creates a list of states (`transpose_encoder.cc:1196-1244`, repeated at
`1269-1302`). `placed` are the states created for keys other than blocks; the assignments of their
positions to `dest_info[].pos`, `public_list_noop_pos`, `state_machine_pos`, which the loop does not read,
are made from it afterwards. -/
structure BSt where
  sm : SM
  prev : Nat
  queue : List Entry
  noopBase : List Nat
  placed : List (Key × Nat)

/-- Taking the top of the queue and creating its state (`transpose_encoder.cc:1211-1232`, `1280-1295`);
also returns the weight. -/
def buildPop (maxT : Nat) (s : BSt) : Option (BSt × Nat) :=
  match s.queue with
  | [] => none
  | e :: q =>
    if s.prev = 0 then none
    else
      let p := s.prev - 1
      match e.key with
      | .pub => some (⟨s.sm.set p ⟨none, none, none⟩, p, q, s.noopBase, (.pub, p) :: s.placed⟩, e.weight)
      | .tag i => some (⟨s.sm.set p ⟨some i, none, none⟩, p, q, s.noopBase, (.tag i, p) :: s.placed⟩, e.weight)
      | .block k =>
        match s.noopBase[k]? with
        | none => none
        | some base =>
          let m := s.sm.set p ⟨none, some base, none⟩
          let m : SM := { m with get := fun i =>
            if base ≤ i ∧ i ≤ base + maxT ∧ i < m.size then { m.get i with cs := some p } else m.get i }
          some (⟨m, p, q, s.noopBase, s.placed⟩, e.weight)

/-- The loop creating one block (`transpose_encoder.cc:1209-1233`). -/
def buildBlock (maxT : Nat) : Nat → BSt → Nat → Option (BSt × Nat)
  | 0, s, weight => some (s, weight)
  | n + 1, s, weight =>
    match buildPop maxT s with
    | none => none
    | some (s, w) => buildBlock maxT n s (weight + w)

/-- The loop creating all blocks (`transpose_encoder.cc:1205-1244`). -/
def buildLoop (nTags maxT : Nat) : Nat → Nat → BSt → Option BSt
  | 0, _, _ => none
  | fuel + 1, blockSize, s =>
    match buildBlock maxT blockSize s 0 with
    | none => none
    | some (s, weight) =>
      if s.queue = [] then some s
      else
        buildLoop nTags maxT fuel (maxT + 1)
          { s with queue := pqPush nTags ⟨.block s.noopBase.length, weight⟩ s.queue
                   noopBase := s.noopBase ++ [s.prev] }

/-- Creating a list of states from the queue (`transpose_encoder.cc:1190-1244`, `1265-1302`). -/
def buildList (nTags maxT : Nat) (sm : SM) (q : List Entry) : Option BSt :=
  let k := q.length
  let noops := if k ≤ maxT + 1 then 0 else (k - 2) / maxT
  let numStates := k + noops
  let size := sm.size + numStates
  let sm' : SM := ⟨size, fun i => if i < sm.size then sm.get i else StateInfo.invalid⟩
  buildLoop nTags maxT (numStates + 1) ((numStates - 1) % (maxT + 1) + 1) ⟨sm', size, q, [], []⟩

/-- The positions in `placed` assigned to the tag whose private list was created
(`transpose_encoder.cc:1216`, `1230`). -/
def assignPrivate (a : Nat) (placed : List (Key × Nat)) (tags : Nat → TagInfo) : Nat → TagInfo :=
  match placed with
  | [] => tags
  | (.tag d, p) :: rest =>
    updTag (assignPrivate a rest tags) a (fun t => { t with pos := fun i => if i = d then some p else t.pos i })
  | (.pub, p) :: rest => updTag (assignPrivate a rest tags) a (fun t => { t with noopPos := some p })
  | (.block _, _) :: rest => assignPrivate a rest tags

/-- Variables of `CreateStateMachine`: `tags_list_`, `state_machine`, `public_list_noops`. -/
structure CSt where
  tags : Nat → TagInfo
  sm : SM
  noops : List (Nat × Nat)

/-- One iteration of the loop creating private lists (`transpose_encoder.cc:1142-1245`), for tag `a`. -/
def privateStep (O : HashOrder) (nTags maxT : Nat) (s : CSt) (a : Nat) : Option CSt :=
  let sz := (s.tags a).dests.length
  match collectPrivate nTags a s.tags [] 0 (0, 0) (O.order 1 a (s.tags a).dests) with
  | (tags, q, excl, last) =>
    if q.length = 0 then some { s with tags := tags }
    else
      let one := q.length + 1 = sz
      let tags := if one then updTag tags last.1 (fun t => { t with incoming := t.incoming - last.2 }) else tags
      let q := if one then pqPush nTags ⟨.tag last.1, last.2⟩ q else q
      let q := if q.length ≠ sz then pqPush nTags ⟨.pub, excl⟩ q else q
      let tags := updTag tags a (fun t => { t with base := some s.sm.size })
      match buildList nTags maxT s.sm q with
      | none => none
      | some b =>
        let tags := assignPrivate a b.placed tags
        some ⟨tags, b.sm,
          s.noops ++ b.placed.filterMap (fun (k, p) => if k = .pub then some (a, p) else none)⟩

/-- The loop creating private lists (`transpose_encoder.cc:1142-1245`), from tag `a`, `n` of them. -/
def privateLoop (O : HashOrder) (nTags maxT : Nat) (s : CSt) : Nat → Nat → Option CSt
  | 0, _ => some s
  | n + 1, a =>
    match privateStep O nTags maxT s a with
    | none => none
    | some s => privateLoop O nTags maxT s n (a + 1)

/-- The queue of tags in the public list (`transpose_encoder.cc:1250-1255`), from tag `i`, `n` of them. -/
def publicQueue (nTags : Nat) (tags : Nat → TagInfo) (q : List Entry) : Nat → Nat → List Entry
  | 0, _ => q
  | n + 1, i =>
    publicQueue nTags tags
      (if (tags i).incoming ≠ 0 then pqPush nTags ⟨.tag i, (tags i).incoming⟩ q else q) n (i + 1)

/-- Positions of states in the public list (`transpose_encoder.cc:1293`). -/
def assignPublic (placed : List (Key × Nat)) (tags : Nat → TagInfo) : Nat → TagInfo :=
  match placed with
  | [] => tags
  | (.tag d, p) :: rest => updTag (assignPublic rest tags) d (fun t => { t with smPos := some p })
  | _ :: rest => assignPublic rest tags

/-- `base <= pos && pos - base <= max_transition`; false if `base` is `kInvalidPos`. -/
def inWindow (maxT : Nat) (base : Option Nat) (pos : Nat) : Bool :=
  match base with
  | none => false
  | some b => b ≤ pos && pos - b ≤ maxT

/-- `UnsignedMin` of a possibly invalid position and a position. -/
def minPos (m : Option Nat) (p : Nat) : Option Nat :=
  match m with
  | none => some p
  | some x => some (min x p)

/-- The loop finding the common block of `base` and `pos` (`transpose_encoder.cc:1001-1040`, repeated at
`1064-1090`): `base`, `min_pos`, `pos`. -/
def baseLoop (maxT pubBase : Nat) (sm : SM) : Nat → Option Nat → Option Nat → Nat →
    Option (Option Nat × Option Nat × Nat)
  | 0, _, _, _ => none
  | fuel + 1, base, m, pos =>
    if inWindow maxT base pos then some (base, m, pos)
    else
      match base with
      | none =>
        match (sm.get pos).cs with
        | none => baseLoop maxT pubBase sm fuel (some pubBase) m pos
        | some cs => baseLoop maxT pubBase sm fuel (sm.get cs).base m pos
      | some b =>
        if b > pos then
          match (sm.get b).cs with
          | none => none
          | some c =>
            match (sm.get c).cs with
            | none => baseLoop maxT pubBase sm fuel (some pubBase) (minPos m c) pos
            | some cs => baseLoop maxT pubBase sm fuel (sm.get cs).base (minPos m c) pos
        else
          match (sm.get pos).cs with
          | none => none
          | some cs => baseLoop maxT pubBase sm fuel base m cs

/-- The loop over the destinations of a tag (`transpose_encoder.cc:970-1042`, `1054-1092`): `min_pos`. -/
def baseOfDests (maxT pubBase : Nat) (sm : SM) (tags : Nat → TagInfo) (a : Nat) (base m : Option Nat) :
    List Nat → Option (Option Nat)
  | [] => some m
  | d :: ds =>
    if (tags a).pos d ≠ none then baseOfDests maxT pubBase sm tags a base m ds
    else
      match (tags d).smPos with
      | none => none
      | some pos =>
        match baseLoop maxT pubBase sm (2 * sm.size + 2) base m pos with
        | none => none
        | some (base, m, pos) => baseOfDests maxT pubBase sm tags a base (minPos m pos) ds

/-- The first loop of `ComputeBaseIndices` (`transpose_encoder.cc:966-1046`). -/
def computeNoopBases (O : HashOrder) (maxT pubBase : Nat) (tags : Nat → TagInfo) (sm : SM) :
    List (Nat × Nat) → Option SM
  | [] => some sm
  | (a, p) :: rest =>
    match baseOfDests maxT pubBase sm tags a none none (O.order 2 a (tags a).dests) with
    | none => none
    | some none => none
    | some (some m) =>
      computeNoopBases O maxT pubBase tags (sm.set p { sm.get p with base := some m }) rest

/-- The second loop of `ComputeBaseIndices` (`transpose_encoder.cc:1048-1094`), from tag `a`, `n` of them. -/
def computeTagBases (O : HashOrder) (maxT pubBase : Nat) (sm : SM) (tags : Nat → TagInfo) :
    Nat → Nat → Option (Nat → TagInfo)
  | 0, _ => some tags
  | n + 1, a =>
    if (tags a).base ≠ none then computeTagBases O maxT pubBase sm tags n (a + 1)
    else
      match baseOfDests maxT pubBase sm tags a none none (O.order 2 a (tags a).dests) with
      | none => none
      | some m =>
        computeTagBases O maxT pubBase sm
          (if m ≠ none then updTag tags a (fun t => { t with base := m }) else tags) n (a + 1)

/-- `TransposeEncoder::CreateStateMachine` (`transpose_encoder.cc:1097-1311`): `tags_list_` and the state
machine. `enc` is `encoded_tags_` with the last element first, `nTags` is `tags_list_.size()`. -/
def createStateMachine (O : HashOrder) (maxT minCount nTags : Nat) (enc : List Nat) :
    Option ((Nat → TagInfo) × SM) :=
  match enc with
  | [] => some (fun _ => TagInfo.init, ⟨1, fun _ => ⟨none, some 0, none⟩⟩)
  | first :: rest =>
    let tags := markAll O minCount (collect first rest) nTags 0
    match privateLoop O nTags maxT ⟨tags, ⟨0, fun _ => StateInfo.invalid⟩, []⟩ nTags 0 with
    | none => none
    | some s =>
      let pubBase := s.sm.size
      let q := publicQueue nTags s.tags [] nTags 0
      match (if q.length > 0 then (buildList nTags maxT s.sm q).map (fun b => (b.sm, b.placed))
        else some (s.sm, [])) with
      | none => none
      | some (sm, placed) =>
        let tags := assignPublic placed s.tags
        match computeNoopBases O maxT pubBase tags sm s.noops with
        | none => none
        | some sm =>
          match computeTagBases O maxT pubBase sm tags nTags 0 with
          | none => none
          | some tags => some (tags, sm)

/-! ## Transitions -/

/-- Encoding a transition from `base` to `pos` (`transpose_encoder.cc:843-862`, repeated at `888-905`): the
offsets in `write`. -/
def climb (maxT : Nat) (sm : SM) (base : Option Nat) : Nat → Nat → List Nat → Option (List Nat)
  | 0, _, _ => none
  | room + 1, pos, w =>
    if inWindow maxT base pos then some ((pos - base.getD 0) :: w)
    else
      match (sm.get pos).cs with
      | none => none
      | some cs =>
        match (sm.get cs).base with
        | none => none
        | some b => if cs < sm.size ∧ b ≤ pos ∧ pos - b ≤ maxT then climb maxT sm base room cs ((pos - b) :: w)
          else none

/-- The offsets for one transition (`transpose_encoder.cc:832-924`), from tag `prev` to tag `tag`. -/
def transitionOffsets (maxT : Nat) (sm : SM) (tags : Nat → TagInfo) (prev tag : Nat) : Option (List Nat) :=
  if (tags prev).dests.length ≠ 1 then
    let currentBase := (tags prev).base
    match (tags prev).pos tag with
    | some pos => if pos < sm.size then climb maxT sm currentBase kWriteBufSize pos [] else none
    | none =>
      match (tags tag).smPos with
      | none => none
      | some pos =>
        if pos < sm.size then
          match (tags prev).noopPos with
          | none => climb maxT sm currentBase kWriteBufSize pos []
          | some q =>
            match climb maxT sm currentBase kWriteBufSize q [] with
            | none => none
            | some w1 =>
              match climb maxT sm (sm.get q).base kWriteBufSize pos [] with
              | none => none
              | some w2 => some (w1 ++ w2)
        else none
  else if ((tags prev).base.bind (fun b => (sm.get b).etag)) = some tag then some []
  else none

/-- All offsets written by `WriteTransitions` (`transpose_encoder.cc:803-934`). -/
def allOffsets (maxT : Nat) (sm : SM) (tags : Nat → TagInfo) (prev : Nat) : List Nat → Option (List Nat)
  | [] => some []
  | tag :: rest =>
    match transitionOffsets maxT sm tags prev tag with
    | none => none
    | some w =>
      match allOffsets maxT sm tags tag rest with
      | none => none
      | some ws => some (w ++ ws)

/-- Packing offsets into bytes (`transpose_encoder.cc:864-877`, `906-919`, `928-932`): `last` is
`last_transition`. -/
def packOffsets (last : Option Nat) : List Nat → Bytes
  | [] =>
    match last with
    | none => []
    | some l => [UInt8.ofNat l]
  | w :: ws =>
    match last with
    | none => packOffsets (some (w * 4)) ws
    | some l =>
      if w = 0 ∧ l % 4 < 3 then packOffsets (some (l + 1)) ws
      else UInt8.ofNat l :: packOffsets (some (w * 4)) ws

/-- `TransposeEncoder::WriteTransitions` (`transpose_encoder.cc:803-934`): contents of the transitions. -/
def writeTransitions (maxT : Nat) (sm : SM) (tags : Nat → TagInfo) (enc : List Nat) : Option Bytes :=
  match enc with
  | [] => some []
  | first :: rest => (allOffsets maxT sm tags first rest).map (packOffsets none)

/-! ## Buffers and buckets -/

/-- The order of buffers of one type (`transpose_encoder.cc:512-523`). -/
def bufLe (a b : NodeId × Bytes) : Bool :=
  if a.2.length ≠ b.2.length then a.2.length < b.2.length
  else if a.1.parent ≠ b.1.parent then a.1.parent < b.1.parent
  else a.1.tag ≤ b.1.tag

/-- Insertion into a sorted list. -/
def bufInsert (x : NodeId × Bytes) : List (NodeId × Bytes) → List (NodeId × Bytes)
  | [] => [x]
  | y :: ys => if bufLe x y then x :: y :: ys else y :: bufInsert x ys

/-- `std::sort` (`transpose_encoder.cc:512-523`): the keys are distinct, so the result is unique. -/
def bufSort : List (NodeId × Bytes) → List (NodeId × Bytes)
  | [] => []
  | x :: xs => bufInsert x (bufSort xs)

/-- The loop computing `uncompressed_bucket_sizes` of buffers of one type (`transpose_encoder.cc:545-561`):
the list of sizes, with the element pushed last first. The buffers are given from the last one;
`remaining` is `remaining_buffers_size`, `cur` is `current_bucket_size`. -/
def bucketSizesLoop (bucketSize : Nat) : List Nat → Nat → Nat → List Nat → List Nat
  | [], _, cur, acc => if cur > 0 then cur :: acc else acc
  | sz :: rest, remaining, cur, acc =>
    let new : Bool := cur > 0 && cur + sz / 2 ≥ bucketSize
    let acc := if new then cur :: acc else acc
    let cur := (if new then 0 else cur) + sz
    let remaining := remaining - sz
    if remaining ≤ bucketSize / 2 then
      if cur + remaining > 0 then (cur + remaining) :: acc else acc
    else bucketSizesLoop bucketSize rest remaining cur acc

/-- `uncompressed_bucket_sizes` for buffers of the given sizes, last element first
(`transpose_encoder.cc:538-564`). -/
def bucketSizes (bucketSize : Nat) (sizes : List Nat) : List Nat :=
  bucketSizesLoop bucketSize sizes.reverse sizes.sum 0 []

/-- Variables of `WriteBuffers` (`transpose_encoder.cc:507-638`): `data_writer`, `compressed_bucket_sizes`,
`buffer_sizes`, and the `bucket_compressor`: its contents and pledged size. -/
structure WSt where
  out : Bytes
  bucketLens : List Nat
  bufSizes : List Nat
  cur : Bytes
  pledged : Option Nat

/-- Closing a bucket (`transpose_encoder.cc:486-495`, `607-617`): if something was written to the compressor,
it is compressed. The compressor fails if the pledged size was wrong (Zstd does). -/
def WSt.flush (C : Codec) (t : UInt8) (s : WSt) : Option WSt :=
  if s.cur = [] then some s
  else
    match s.pledged with
    | some n => if n ≠ s.cur.length then none
      else some { s with out := s.out ++ encodeCompressed C t s.cur
                         bucketLens := s.bucketLens ++ [(encodeCompressed C t s.cur).length]
                         cur := [] }
    | none => some { s with out := s.out ++ encodeCompressed C t s.cur
                            bucketLens := s.bucketLens ++ [(encodeCompressed C t s.cur).length]
                            cur := [] }

/-- `TransposeEncoder::AddBuffer` (`transpose_encoder.cc:479-505`). -/
def WSt.addBuffer (C : Codec) (t : UInt8) (s : WSt) (newSize : Option Nat) (buffer : Bytes) : Option WSt :=
  let s := { s with bufSizes := s.bufSizes ++ [buffer.length] }
  match newSize with
  | none => some { s with cur := s.cur ++ buffer }
  | some n =>
    match s.flush C t with
    | none => none
    | some s => some { s with pledged := some n, cur := buffer }

/-- The loop adding the buffers of one type (`transpose_encoder.cc:566-591`): `cur` is
`current_bucket_size`, `sizes` is `uncompressed_bucket_sizes` with the last element first. -/
def addBuffers (C : Codec) (t : UInt8) : List Bytes → Nat → List Nat → WSt → Option WSt
  | [], cur, sizes, s => if sizes = [] ∧ cur = 0 then some s else none
  | b :: bs, cur, sizes, s =>
    if cur = 0 then
      match sizes with
      | [] => none
      | n :: sizes =>
        if n < b.length then none
        else
          match s.addBuffer C t (some n) b with
          | none => none
          | some s => addBuffers C t bs (n - b.length) sizes s
    else if cur < b.length then none
    else
      match s.addBuffer C t none b with
      | none => none
      | some s => addBuffers C t bs (cur - b.length) sizes s

/-- The loop over the types of buffers (`transpose_encoder.cc:537-596`), the buffers being sorted. -/
def addTypes (C : Codec) (t : UInt8) (bucketSize : Nat) : List (List Bytes) → WSt → Option WSt
  | [], s => some s
  | l :: ls, s =>
    match addBuffers C t l 0 (bucketSizes bucketSize (l.map (·.length))) s with
    | none => none
    | some s => addTypes C t bucketSize ls s

/-- All buffer types in the order of `data_`. -/
def bufTypes : List BufType := [.varint, .fixed32, .fixed64, .string, .nonProto]

/-- The sorted buffers by type. -/
def sortedBufs (s : ESt) : List (List (NodeId × Bytes)) := bufTypes.map (fun t => bufSort (s.data t))

/-- `buffer_pos` (`transpose_encoder.cc:584-586`): the index of a node in this list. -/
def bufferKeys (s : ESt) : List NodeId := (sortedBufs s).flatten.map (·.1)

/-- `TransposeEncoder::WriteBuffers` (`transpose_encoder.cc:507-638`): header and data. -/
def writeBuffers (C : Codec) (t : UInt8) (bucketSize : Nat) (s : ESt) : Option (Bytes × Bytes) :=
  match addTypes C t bucketSize ((sortedBufs s).map (fun l => l.map (·.2))) ⟨[], [], [], [], none⟩ with
  | none => none
  | some w =>
    match (if s.lens = [] then some w else w.addBuffer C t (some s.lens.length) s.lens) with
    | none => none
    | some w =>
      match w.flush C t with
      | none => none
      | some w =>
        if w.bucketLens.length < 2 ^ 32 ∧ w.bufSizes.length < 2 ^ 32 then
          some (writeVarint w.bucketLens.length ++ writeVarint w.bufSizes.length ++
            w.bucketLens.flatMap writeVarint ++ w.bufSizes.flatMap writeVarint, w.out)
        else none

/-! ## States -/

/-- The tag written for a state with the given node and subtype (`transpose_encoder.cc:672-749`). -/
def stateTag (node : NodeId) (subtype : Nat) : Nat :=
  if node.tag ≠ 0 then
    if wireType node.tag = 2 ∧ subtype = kSubStart then kStartOfSubmessage
    else if wireType node.tag = 2 ∧ subtype = kSubEnd then node.tag + 4
    else node.tag
  else node.parent

/-- The subtype written for a state (`transpose_encoder.cc:713-715`). -/
def stateSubtype (node : NodeId) (subtype : Nat) : Bytes :=
  if node.tag ≠ 0 then
    if wireType node.tag = 2 ∧ (subtype = kSubStart ∨ subtype = kSubEnd) then []
    else if hasSubtype node.tag then [UInt8.ofNat subtype] else []
  else []

/-- The buffer whose index is written for a state (`transpose_encoder.cc:716-724`, `733-741`). -/
def stateBuffer (node : NodeId) (subtype : Nat) : Option NodeId :=
  if node.tag ≠ 0 then
    if wireType node.tag = 2 ∧ (subtype = kSubStart ∨ subtype = kSubEnd) then none
    else if hasDataBuffer node.tag subtype then some node else none
  else if node.parent = kNonProto then some node else none

/-- The `base` written for a state (`transpose_encoder.cc:680`, `750-760`). -/
def stateBase (tags : Nat → TagInfo) (size : Nat) (st : StateInfo) : Nat :=
  match st.etag with
  | none => st.base.getD kInvalidPos
  | some e =>
    match (tags e).base with
    | none => 0
    | some b => (b + if (tags e).dests.length = 1 then size else 0) % 2 ^ 32

/-- The states in order. -/
def SM.toList (m : SM) : List StateInfo := (List.range m.size).map m.get

/-- Node and subtype of a state; `none` for `kNoOp`. -/
def stateNode (tl : List (NodeId × Nat)) (st : StateInfo) : Option (NodeId × Nat) :=
  st.etag.bind (fun e => tl[e]?)

/-- The extra destination added so that there is no implicit transition from the last state
(`transpose_encoder.cc:643-655`). `last` is `encoded_tags_[0]`. -/
def addDummyDest (tags : Nat → TagInfo) (last : Nat) : Nat → TagInfo :=
  if (tags last).dests.length = 1 then
    updTag tags last (fun t => { t with dests := t.dests ++ [t.dests.headD 0 + 1] })
  else tags

/-- The buffer indices, `none` if some buffer is missing. -/
def bufferIndices (keys : List NodeId) : List NodeId → Option (List Nat)
  | [] => some []
  | id :: ids =>
    if keys.idxOf id < keys.length then (bufferIndices keys ids).map (keys.idxOf id :: ·) else none

/-- The position of the first state with the given tag (`transpose_encoder.cc:781-783`). -/
def findFirst (m : SM) (tag : Nat) : Option Nat :=
  (List.range m.size).find? (fun i => (m.get i).etag == some tag)

/-- Where the decoder starts (`transpose_encoder.cc:776-784`): the state of the first encoded tag, or the first state
if nothing is encoded. -/
def firstPosition (sm : SM) : List Nat → Option Nat
  | [] => some 0
  | first :: _ => findFirst sm first

/-- The part of the header written by `WriteStatesAndData` after `WriteBuffers`
(`transpose_encoder.cc:662-787`). -/
def writeStates (s : ESt) (tags : Nat → TagInfo) (sm : SM) : Option Bytes :=
  let nodes := sm.toList.filterMap (stateNode s.tags)
  match bufferIndices (bufferKeys s) (nodes.filterMap (fun n => stateBuffer n.1 n.2)) with
  | none => none
  | some bufIdx =>
    match firstPosition sm s.enc with
    | none => none
    | some firstPos =>
      if sm.size < 2 ^ 32 then
        some (writeVarint sm.size ++
          sm.toList.flatMap (fun st => writeVarint
            (match stateNode s.tags st with | none => 0 | some n => stateTag n.1 n.2)) ++
          sm.toList.flatMap (fun st => writeVarint (stateBase tags sm.size st)) ++
          nodes.flatMap (fun n => stateSubtype n.1 n.2) ++
          bufIdx.flatMap writeVarint ++
          writeVarint firstPos)
      else none

/-- The extra destination, if something is encoded (`transpose_encoder.cc:643-655`). -/
def withDummyDest (tags : Nat → TagInfo) (enc : List Nat) : Nat → TagInfo :=
  match enc.getLast? with
  | none => tags
  | some last => addDummyDest tags last

/-- `TransposeEncoder::EncodeAndClose` (`transpose_encoder.cc:1320-1388`, `640-801`): the chunk data.
`bucketSize` is the option; without compression it is ignored (`transpose_encoder.cc:198-205`). -/
def ESt.encode (C : Codec) (t : UInt8) (bucketSize : Nat) (O : HashOrder) (s : ESt) : Option Bytes :=
  let bucketSize := if t = kNone then 2 ^ 64 - 1 else bucketSize
  match createStateMachine O kMaxTransition kMinCountForState s.tags.length s.enc with
  | none => none
  | some (tags, sm) =>
    let tags := withDummyDest tags s.enc
    match writeBuffers C t bucketSize s with
    | none => none
    | some (header1, data1) =>
      match writeStates s tags sm with
      | none => none
      | some header2 =>
        match writeTransitions kMaxTransition sm tags s.enc with
        | none => none
        | some transitions =>
          some ([t] ++ encodeLengthPrefixed C t (header1 ++ header2) ++ data1 ++
            encodeCompressed C t transitions)

end Riegeli.Tr

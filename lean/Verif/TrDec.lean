import Verif.TrEnc
/-!
# Transposed chunks, decoding: model of `chunk_encoding/transpose_decoder.cc`, `field_projection.h`

Readers of buffers are the bytes which remain to be read. A failure is `none`.
-/
namespace Riegeli.Tr

/-! ## Field projection -/

/-- `Context::IncludeType` (`transpose_decoder.cc:409-416`). -/
inductive IncludeType
  | fully | child | existence
deriving DecidableEq, Repr

/-- The order in which `std::min` is taken (`transpose_decoder.cc:501-506`). -/
def IncludeType.min : IncludeType → IncludeType → IncludeType
  | .fully, _ => .fully
  | _, .fully => .fully
  | .child, _ => .child
  | _, .child => .child
  | .existence, .existence => .existence

/-- An element of `include_fields` (`transpose_decoder.cc:418-430`): the key is the parent id (`none` is
`kInvalidPos`, the root) and the field number, the value is the id and the type. -/
structure IncField where
  parent : Option Nat
  field : Nat
  id : Nat
  type : IncludeType
deriving DecidableEq, Repr

/-- `include_fields.find`. -/
def findField (m : List IncField) (parent : Option Nat) (field : Nat) : Option IncField :=
  m.find? (fun f => f.parent = parent ∧ f.field = field)

/-- `emplace` followed by updating `include_type` (`transpose_decoder.cc:495-506`). -/
def addField (m : List IncField) (parent : Option Nat) (field : Nat) (type : IncludeType) :
    List IncField × Nat :=
  match findField m parent field with
  | none => (m ++ [⟨parent, field, m.length, type⟩], m.length)
  | some f =>
    (m.map (fun g => if g.parent = parent ∧ g.field = field then { g with type := g.type.min type } else g),
      f.id)

/-- The loop over the path of one field (`transpose_decoder.cc:485-507`); `none` if `kExistenceOnly` occurs
inside the path. -/
def addPath (existenceOnly : Bool) (m : List IncField) (current : Option Nat) : List Nat → Option (List IncField)
  | [] => some m
  | f :: path =>
    if f = 0 then none
    else
      let type := if path = [] then (if existenceOnly then .existence else .fully) else IncludeType.child
      let r := addField m current f type
      addPath existenceOnly r.1 (some r.2) path

/-- The loop over the fields of the projection (`transpose_decoder.cc:472-508`): `none` is failure,
`some none` means that projection is disabled because all fields are included. -/
def parseProjection (m : List IncField) : List (List Nat) → Option (Option (List IncField))
  | [] => some (some m)
  | path :: rest =>
    if path = [] then some none
    else if path.getLastD 1 = 0 then
      if path.length = 1 then parseProjection m rest
      else
        match addPath true m none path.dropLast with
        | none => none
        | some m => parseProjection m rest
    else
      match addPath false m none path with
      | none => none
      | some m => parseProjection m rest

/-! ## Parsing -/

/-- `ValidTag` (`transpose_decoder.cc:90-105`). -/
def validTag (tag : Nat) : Bool := decide (wireType tag < 6) && decide (8 ≤ tag)

/-- `FieldIncluded` (`transpose_decoder.cc:83-87`). -/
inductive Included
  | yes | no | existence
deriving DecidableEq, Repr

/-- `CallbackType` (`transpose_decoder.cc:108-142`). The types generated for each tag length have it as the
last argument, where it matters. -/
inductive Cb
  | noOp | messageStart | submessageStart | submessageEnd | select | skippedStart | skippedEnd | nonProto
  | failure
  | copyTag (n : Nat)
  | varint (dataLen tagLen : Nat)
  | fixed (dataLen tagLen : Nat)
  | fixedExistence (dataLen tagLen : Nat)
  | string (tagLen : Nat)
  | startGroup (tagLen : Nat)
  | endGroup (tagLen : Nat)
  | unknown
deriving DecidableEq, Repr

/-- `GetVarintCallbackType` (`transpose_decoder.cc:181-195`). `kVarintInlineMax` is
`kVarintInline0 + 0x7f`. -/
def varintCb (subtype tagLen : Nat) : Cb :=
  if subtype > kVarintInline0 + 127 then .unknown
  else if subtype ≥ kVarintInline0 then .copyTag (tagLen + 1)
  else .varint (subtype + 1) tagLen

/-- `GetCallbackType` (`transpose_decoder.cc:302-365`) with `GetStringCallbackType`,
`GetStringExcludeCallbackType`, `GetStringExistenceCallbackType` (`240-284`). -/
def callbackType (incl : Included) (tag subtype tagLen : Nat) (projection : Bool) : Cb :=
  match incl with
  | .yes =>
    match wireType tag with
    | 0 => varintCb subtype tagLen
    | 5 => .fixed 4 tagLen
    | 1 => .fixed 8 tagLen
    | 2 => if subtype = kString then .string tagLen else if subtype = kSubEnd then .submessageEnd else .unknown
    | 3 => if projection then .startGroup tagLen else .copyTag tagLen
    | 4 => if projection then .endGroup tagLen else .copyTag tagLen
    | _ => .unknown
  | .no =>
    match wireType tag with
    | 0 => .noOp
    | 5 => .noOp
    | 1 => .noOp
    | 2 => if subtype = kString then .noOp else if subtype = kSubEnd then .skippedEnd else .unknown
    | 3 => .skippedStart
    | 4 => .skippedEnd
    | _ => .unknown
  | .existence =>
    match wireType tag with
    | 0 => .copyTag (tagLen + 1)
    | 5 => .fixedExistence 4 tagLen
    | 1 => .fixedExistence 8 tagLen
    | 2 => if subtype = kString then .copyTag (tagLen + 1)
      else if subtype = kSubEnd then .submessageEnd else .unknown
    | 3 => .startGroup tagLen
    | 4 => .endGroup tagLen
    | _ => .unknown

/-- `StateMachineNode` (`transpose_decoder.cc:370-390`) with `StateMachineNodeTemplate` (`157-168`): `tag`
and `subtype` come from the template (used if projection is enabled), `tagData` is the tag followed by one
byte, `tagLen` is `tag_data_size`, `buf` is the buffer, `next` the index of `next_node`. -/
structure Node where
  tag : Nat
  subtype : Nat
  tagData : Bytes
  tagLen : Nat
  implicit : Bool
  cb : Cb
  buf : Option Nat
  next : Nat
deriving DecidableEq, Repr

/-- A node past the end (`transpose_decoder.cc:762-766`). -/
def Node.failing : Node := ⟨0, 0, [], 0, false, .failure, none, 0⟩

/-- Reading `n` varints. -/
def readVarints (w : Nat) : Nat → Bytes → Option (List Nat × Bytes)
  | 0, src => some ([], src)
  | n + 1, src =>
    match readVarint w false src with
    | none => none
    | some (v, src) =>
      match readVarints w n src with
      | none => none
      | some (vs, src) => some (v :: vs, src)

/-- Reading a buffer index (`transpose_decoder.cc:605-613`, `668-676`, `691-699`). -/
def readBufIdx (numBuffers : Nat) (h : Bytes) : Option (Nat × Bytes) :=
  match readVarint 32 false h with
  | none => none
  | some (i, h) => if i ≥ numBuffers then none else some (i, h)

/-- The subtype of a node and the remaining subtypes (`transpose_decoder.cc:640-665`). -/
def nextSubtype (tag : Nat) (isEnd : Bool) (subtypes : Bytes) : Option (Nat × Bytes) :=
  if hasSubtype tag then
    match subtypes with
    | [] => none
    | b :: bs => some (b.toNat, bs)
  else some (if isEnd then kSubEnd else 0, subtypes)

/-- Creating one node, except for the transition (`transpose_decoder.cc:596-720`): the node, the remaining
subtypes and the remaining header. `proj` is `projection_enabled`. -/
def parseNode (proj : Bool) (numBuffers tag : Nat) (subtypes h : Bytes) : Option (Node × Bytes × Bytes) :=
  if tag = 0 then some (⟨0, 0, [], 0, false, .noOp, none, 0⟩, subtypes, h)
  else if tag = kNonProto then
    match readBufIdx numBuffers h with
    | none => none
    | some (i, h) => some (⟨kNonProto, 0, [], 0, false, .nonProto, some i, 0⟩, subtypes, h)
  else if tag = kStartOfMessage then
    some (⟨kStartOfMessage, 0, [], 0, false, .messageStart, none, 0⟩, subtypes, h)
  else if tag = kStartOfSubmessage then
    some (⟨kStartOfSubmessage, 0, [], 0, false, if proj then .select else .submessageStart, none, 0⟩,
      subtypes, h)
  else
    let isEnd : Bool := wireType tag == 6
    let tag := if isEnd then tag - 4 else tag
    if validTag tag = false then none
    else
      let tagBytes := writeVarint tag
      match nextSubtype tag isEnd subtypes with
      | none => none
      | some (subtype, subtypes) =>
        match (if hasDataBuffer tag subtype then (readBufIdx numBuffers h).map (fun r => (some r.1, r.2))
          else some (none, h)) with
        | none => none
        | some (buf, h) =>
          let cb := if proj then .select else callbackType .yes tag subtype tagBytes.length false
          if cb = .unknown then none
          else
            let extra : UInt8 := if wireType tag = 0 ∧ subtype ≥ kVarintInline0
              then UInt8.ofNat (subtype - kVarintInline0) else 0
            some (⟨tag, subtype, tagBytes ++ [extra], tagBytes.length, false, cb, buf, 0⟩, subtypes, h)

/-- The loop creating all nodes (`transpose_decoder.cc:594-734`), given tags and next node indices; `size`
is `state_machine_size`. -/
def parseNodes (proj : Bool) (numBuffers size : Nat) : List (Nat × Nat) → Bytes → Bytes →
    Option (List Node × Bytes)
  | [], _, h => some ([], h)
  | (tag, next) :: rest, subtypes, h =>
    match parseNode proj numBuffers tag subtypes h with
    | none => none
    | some (node, subtypes, h) =>
      let implicit : Bool := decide (size ≤ next)
      let next := if implicit then next - size else next
      if size ≤ next then none
      else
        match parseNodes proj numBuffers size rest subtypes h with
        | none => none
        | some (nodes, h) => some ({ node with implicit := implicit, next := next } :: nodes, h)

/-- The inner loop of `ContainsImplicitLoop` (`transpose_decoder.cc:1026-1032`); `ids` is
`implicit_loop_ids`. Returns whether a loop was found. -/
def implicitWalk (nodes : Nat → Node) (id : Nat) : Nat → Nat → (Nat → Nat) → Bool × (Nat → Nat)
  | 0, _, ids => (true, ids)
  | fuel + 1, i, ids =>
    if (nodes i).implicit then
      let j := (nodes i).next
      if ids j = id then (true, ids)
      else if ids j ≠ 0 then (false, ids)
      else implicitWalk nodes id fuel j (fun x => if x = j then id else ids x)
    else (false, ids)

/-- The outer loop of `ContainsImplicitLoop` (`transpose_decoder.cc:1020-1035`), from node `i`, `n` of them;
`total` is the number of nodes. -/
def implicitLoop (nodes : Nat → Node) (total : Nat) : Nat → Nat → Nat → (Nat → Nat) → Bool
  | 0, _, _, _ => false
  | n + 1, i, id, ids =>
    if ids i ≠ 0 then implicitLoop nodes total n (i + 1) id ids
    else
      match implicitWalk nodes id (total + 1) i (fun x => if x = i then id else ids x) with
      | (true, _) => true
      | (false, ids) => implicitLoop nodes total n (i + 1) (id + 1) ids

/-- `TransposeDecoder::ContainsImplicitLoop` (`transpose_decoder.cc:1018-1036`). -/
def containsImplicitLoop (nodes : Nat → Node) (total : Nat) : Bool :=
  implicitLoop nodes total total 0 1 (fun _ => 0)

/-- Reading the buckets (`transpose_decoder.cc:817-839`): lengths from the header, contents from the
source. -/
def readBuckets : Nat → Bytes → Bytes → Option (List Bytes × Bytes × Bytes)
  | 0, h, src => some ([], h, src)
  | n + 1, h, src =>
    match readVarint 64 false h with
    | none => none
    | some (len, h) =>
      if src.length < len then none
      else
        match readBuckets n h (src.drop len) with
        | none => none
        | some (bs, h, src') => some (src.take len :: bs, h, src')

/-- Decompressors of all buckets (`transpose_decoder.cc:817-839`). -/
def openBuckets (C : Codec) (t : UInt8) : List Bytes → Option (List (Bytes × Bool))
  | [] => some []
  | b :: bs =>
    match decompressor C t b with
    | none => none
    | some d => (openBuckets C t bs).map (d :: ·)

/-- Moving to the next bucket (`transpose_decoder.cc:859-866`): the current bucket and the following ones. -/
def nextBucket (cur : Bytes × Bool) : List (Bytes × Bool) → Option ((Bytes × Bool) × List (Bytes × Bool))
  | [] => some (cur, [])
  | d :: ds =>
    if cur.1 ≠ [] then some (cur, d :: ds)
    else if cur.2 = false then none
    else nextBucket d ds

/-- The loop reading buffers (`transpose_decoder.cc:841-867`). -/
def readBuffers : Nat → Bytes → (Bytes × Bool) → List (Bytes × Bool) →
    Option (List Bytes × Bytes × (Bytes × Bool) × List (Bytes × Bool))
  | 0, h, cur, rest => some ([], h, cur, rest)
  | n + 1, h, cur, rest =>
    match readVarint 64 false h with
    | none => none
    | some (len, h) =>
      if cur.1.length < len then none
      else
        match nextBucket (cur.1.drop len, cur.2) rest with
        | none => none
        | some (cur', rest) =>
          match readBuffers n h cur' rest with
          | none => none
          | some (bs, h, cur', rest) => some (cur.1.take len :: bs, h, cur', rest)

/-- `TransposeDecoder::ParseBuffers` (`transpose_decoder.cc:785-876`): the buffers, the remaining header and
the remaining source. -/
def parseBuffers (C : Codec) (t : UInt8) (h src : Bytes) : Option (List Bytes × Bytes × Bytes) :=
  match readVarint 32 false h with
  | none => none
  | some (numBuckets, h) =>
    match readVarint 32 false h with
    | none => none
    | some (numBuffers, h) =>
      if numBuckets = 0 then
        if numBuffers ≠ 0 then none else some ([], h, src)
      else
        match readBuckets numBuckets h src with
        | none => none
        | some (buckets, h, src) =>
          match openBuckets C t buckets with
          | none => none
          | some [] => none
          | some (cur :: rest) =>
            match readBuffers numBuffers h cur rest with
            | none => none
            | some (bufs, h, cur, rest) =>
              if rest ≠ [] then none
              else if cur.1 ≠ [] ∨ cur.2 = false then none
              else some (bufs, h, src)

/-- `UncompressedSize` (`decompressor.cc`): the size stored before the compressed data. -/
def uncompressedSize (t : UInt8) (data : Bytes) : Option Nat :=
  if t = kNone then some data.length else (readVarint 64 false data).map (·.1)

/-- Moving to the next bucket while filtering (`transpose_decoder.cc:951-961`): `remaining_bucket_size`, the
following buckets, the buffer sizes of finished buckets (last first, each with its data). -/
def nextBucketF (t : UInt8) (remaining : Nat) (cur : Bytes × List Nat) (done : List (Bytes × List Nat)) :
    List Bytes → Option (Nat × (Bytes × List Nat) × List (Bytes × List Nat) × List Bytes)
  | [] => some (remaining, cur, done, [])
  | b :: bs =>
    if remaining ≠ 0 then some (remaining, cur, done, b :: bs)
    else
      match uncompressedSize t b with
      | none => none
      | some n => nextBucketF t n (b, []) (cur :: done) bs

/-- The loop assigning buffers to buckets (`transpose_decoder.cc:926-962`). -/
def assignBuffers (t : UInt8) : Nat → Bytes → Nat → (Bytes × List Nat) → List (Bytes × List Nat) → List Bytes →
    Option (Bytes × Nat × (Bytes × List Nat) × List (Bytes × List Nat) × List Bytes)
  | 0, h, remaining, cur, done, rest => some (h, remaining, cur, done, rest)
  | n + 1, h, remaining, cur, done, rest =>
    match readVarint 64 false h with
    | none => none
    | some (len, h) =>
      if len > remaining then none
      else
        match nextBucketF t (remaining - len) (cur.1, cur.2 ++ [len]) done rest with
        | none => none
        | some (remaining, cur, done, rest) => assignBuffers t n h remaining cur done rest

/-- `GetBuffer` (`transpose_decoder.cc:972-1016`) for each buffer of a bucket, in order: decompression is
lazy but sequential, so the outcome for a buffer depends only on the data and sizes. `none` is failure. -/
def bucketBuffers (data : Bytes) (clean : Bool) : List Nat → List (Option Bytes)
  | [] => []
  | len :: lens =>
    if data.length < len then none :: bucketBuffers [] false lens
    else if lens = [] ∧ (data.drop len ≠ [] ∨ clean = false) then [none]
    else some (data.take len) :: bucketBuffers (data.drop len) clean lens

/-- `GetBuffer` for all buffers of a bucket. -/
def openBucket (C : Codec) (t : UInt8) (b : Bytes × List Nat) : List (Option Bytes) :=
  match decompressor C t b.1 with
  | none => b.2.map (fun _ => none)
  | some d => bucketBuffers d.1 d.2 b.2

/-- `TransposeDecoder::ParseBuffersForFiltering` (`transpose_decoder.cc:878-970`): what `GetBuffer` would
return for each buffer, the remaining header and the remaining source. -/
def parseBuffersF (C : Codec) (t : UInt8) (h src : Bytes) : Option (List (Option Bytes) × Bytes × Bytes) :=
  match readVarint 32 false h with
  | none => none
  | some (numBuckets, h) =>
    match readVarint 32 false h with
    | none => none
    | some (numBuffers, h) =>
      if numBuckets = 0 then
        if numBuffers ≠ 0 then none else some ([], h, src)
      else
        match readBuckets numBuckets h src with
        | none => none
        | some ([], _, _) => none
        | some (b :: buckets, h, src) =>
          match uncompressedSize t b with
          | none => none
          | some n =>
            match assignBuffers t numBuffers h n (b, []) [] buckets with
            | none => none
            | some (h, remaining, cur, done, rest) =>
              if rest ≠ [] then none
              else if remaining > 0 then none
              else some ((done.reverse ++ [cur]).flatMap (openBucket C t), h, src)

/-- `TransposeDecoder::Context` (`transpose_decoder.cc:392-435`) after `Parse`. `bufs` are the buffers (those
which `GetBuffer` would fail to return are `none`), `lensBuf` is the index of `nonproto_lengths`,
`proj` is `include_fields` if projection is enabled, `trans` are the bytes of the transitions and whether
they end cleanly. -/
structure Ctx where
  nodes : List Node
  bufs : List (Option Bytes)
  lensBuf : Option Nat
  first : Nat
  proj : Option (List IncField)
  trans : Bytes × Bool

/-- Nodes by index, followed by the failing nodes (`transpose_decoder.cc:762-766`). -/
def nodeAt (nodes : List Node) (i : Nat) : Node := nodes.getD i Node.failing

/-- `TransposeDecoder::Parse` after the header is decompressed and the buffers are read
(`transpose_decoder.cc:551-766`): nodes, the index of the buffer of lengths, the first node. -/
def parseStates (proj : Bool) (bufs : List (Option Bytes)) (h : Bytes) (clean : Bool) :
    Option (List Node × Option Nat × Nat) :=
  match readVarint 32 false h with
  | none => none
  | some (size, h) =>
    match readVarints 32 size h with
    | none => none
    | some (tags, h) =>
      match readVarints 32 size h with
      | none => none
      | some (nexts, h) =>
        let numSubtypes := (tags.filter (fun t => validTag t && hasSubtype t)).length
        if h.length < numSubtypes then none
        else
          match parseNodes proj bufs.length size (tags.zip nexts) (h.take numSubtypes) (h.drop numSubtypes) with
          | none => none
          | some (nodes, h) =>
            let hasNonProto := nodes.any (fun n => n.cb == .nonProto)
            if hasNonProto ∧ bufs.length = 0 then none
            else if proj ∧ nodes.any (fun n => n.cb == .nonProto &&
                ((n.buf.bind (fun i => (bufs[i]?).bind id)) == none)) then none
            else if proj ∧ hasNonProto ∧ (bufs[bufs.length - 1]?).bind id = none then none
            else
              match readVarint 32 false h with
              | none => none
              | some (first, h) =>
                if first ≥ size then none
                else if containsImplicitLoop (nodeAt nodes) (size + 255) then none
                else if h ≠ [] ∨ clean = false then none
                else some (nodes, if hasNonProto then some (bufs.length - 1) else none, first)

/-- `TransposeDecoder::Parse` (`transpose_decoder.cc:470-783`). -/
def parse (C : Codec) (fields : List (List Nat)) (src : Bytes) : Option Ctx :=
  match parseProjection [] fields with
  | none => none
  | some proj =>
    match src with
    | [] => none
    | t :: src =>
      match readVarint 64 false src with
      | none => none
      | some (headerSize, src) =>
        if src.length < headerSize then none
        else
          match decompressor C t (src.take headerSize) with
          | none => none
          | some (h, clean) =>
            match (if proj.isSome then parseBuffersF C t h (src.drop headerSize)
              else (parseBuffers C t h (src.drop headerSize)).map (fun r => (r.1.map some, r.2))) with
            | none => none
            | some (bufs, h, src) =>
              match parseStates proj.isSome bufs h clean with
              | none => none
              | some (nodes, lensBuf, first) =>
                match decompressor C t src with
                | none => none
                | some trans => some ⟨nodes, bufs, lensBuf, first, proj, trans⟩

/-! ## Decoding -/

/-- `DecodingState` (`transpose_decoder.cc:1045-1513`). `nodes` are the nodes, which change if projection is
enabled, `bufs` the remaining contents of the buffers, `dest` what was written (at the front), `limits` the
positions pushed to `limits`, last first, `stack` is `submessage_stack`, innermost first. -/
structure DSt where
  nodes : Nat → Node
  bufs : Nat → Option Bytes
  dest : Bytes
  limits : List Nat
  skipped : Nat
  stack : List (Nat × Nat)
  node : Nat
  iters : Nat
  trans : Bytes

/-- Parameters of decoding: `num_records`, the maximal size of `dest`, `nonproto_lengths`,
`include_fields`. -/
structure Env where
  numRecords : Nat
  maxSize : Nat
  lensBuf : Option Nat
  proj : List IncField

/-- `dest->Write(d)` through the `LimitingBackwardWriter` (`transpose_decoder.cc:455-459`). -/
def DSt.write (env : Env) (s : DSt) (d : Bytes) : Option DSt :=
  if s.dest.length + d.length ≤ env.maxSize then some { s with dest := d ++ s.dest } else none

/-- Reading `n` bytes from buffer `i`. -/
def DSt.read (s : DSt) (i : Option Nat) (n : Nat) : Option (Bytes × DSt) :=
  match i with
  | none => none
  | some i =>
    match s.bufs i with
    | none => none
    | some b =>
      if b.length < n then none
      else some (b.take n, { s with bufs := fun j => if j = i then some (b.drop n) else s.bufs j })

/-- What remains in buffer `i`. -/
def DSt.peek (s : DSt) (i : Option Nat) : Bytes :=
  match i with
  | none => []
  | some i => (s.bufs i).getD []

/-- `MaskBuffer` (`transpose_decoder.cc:1152-1202`): setting the high bit in all bytes but the last. -/
def maskBuffer : Bytes → Bytes
  | [] => []
  | [b] => [b]
  | b :: bs => UInt8.ofNat (b.toNat % 128 + 128) :: maskBuffer bs

/-- The tag in `tag_data` (`ReadVarint32(node.tag_data, ...)`, `transpose_decoder.cc:1546-1549`). -/
def Node.dataTag (n : Node) : Nat :=
  match readVarint 32 false n.tagData with
  | none => 0
  | some (t, _) => t

/-- The loop over `submessage_stack`, outermost first (`transpose_decoder.cc:1545-1563`): whether the field is
included, with the id reached. -/
def stackIncluded (m : List IncField) (nodes : Nat → Node) (id : Option Nat) : List Nat → Included × Option Nat
  | [] => (.existence, id)
  | i :: rest =>
    match findField m id (fieldNumber (nodes i).dataTag) with
    | none => (.no, id)
    | some f => if f.type = .fully then (.yes, id) else stackIncluded m nodes (some f.id) rest

/-- Whether the field is included (`transpose_decoder.cc:1541-1591`). -/
def fieldIncluded (m : List IncField) (skipped : Nat) (stack : List Nat) (nodes : Nat → Node) (n : Node) :
    Included :=
  let r := if skipped = 0 then stackIncluded m nodes none stack else (.no, none)
  if wireType n.tag ≠ 3 ∧ r.1 = .existence then
    match findField m r.2 (fieldNumber n.dataTag) with
    | none => .no
    | some f => if f.type = .fully ∨ f.type = .child then .yes else .existence
  else r.1

/-- `TransposeDecoder::SetCallbackType` (`transpose_decoder.cc:1527-1618`) for the current node. The buffer of
an excluded field is `kEmptyReader()`, here `none`. -/
def setCallbackType (env : Env) (s : DSt) : Option DSt :=
  let n := s.nodes s.node
  let set (n : Node) : DSt := { s with nodes := fun i => if i = s.node then n else s.nodes i }
  if n.tag = kStartOfSubmessage then
    some (set { n with cb := if s.skipped > 0 then .skippedStart else .submessageStart })
  else
    let incl := fieldIncluded env.proj s.skipped (s.stack.map (·.2)).reverse s.nodes n
    if incl = .yes ∧ n.buf ≠ none ∧ n.buf.bind s.bufs = none then none
    else
      some (set { n with
        buf := if incl = .yes then n.buf else none
        cb := callbackType incl n.tag n.subtype n.tagLen true
        tagData := if incl = .existence ∧ wireType n.tag = 0 then n.tagData.take n.tagLen ++ [0] else n.tagData })

/-- `MessageStartCallback` (`transpose_decoder.cc:1321-1330`). -/
def messageStart (env : Env) (s : DSt) : Option DSt :=
  if s.stack ≠ [] then none
  else if s.limits.length = env.numRecords then none
  else some { s with limits := s.dest.length :: s.limits }

/-- The callback of the current node (`transpose_decoder.cc:1135-1439`), except for `kSelectCallback`. -/
def callback (env : Env) (s : DSt) : Option DSt :=
  let n := s.nodes s.node
  match n.cb with
  | .select => none
  | .skippedEnd => some { s with skipped := s.skipped + 1 }
  | .skippedStart => if s.skipped = 0 then none else some { s with skipped := s.skipped - 1 }
  | .submessageEnd => some { s with stack := (s.dest.length, s.node) :: s.stack }
  | .submessageStart =>
    match s.stack with
    | [] => none
    | (pos, e) :: stack =>
      let length := s.dest.length - pos
      if length > 2 ^ 32 - 1 then none
      else
        { s with stack := stack }.write env
          ((s.nodes e).tagData.take (s.nodes e).tagLen ++ writeVarint length)
  | .copyTag k => s.write env (n.tagData.take k)
  | .varint len tagLen =>
    match s.read n.buf len with
    | none => none
    | some (d, s) => s.write env (n.tagData.take tagLen ++ maskBuffer d)
  | .fixed len tagLen =>
    match s.read n.buf len with
    | none => none
    | some (d, s) => s.write env (n.tagData.take tagLen ++ d)
  | .fixedExistence len tagLen => s.write env (n.tagData.take tagLen ++ List.replicate len 0)
  | .string tagLen =>
    match readVarint 32 false (s.peek n.buf) with
    | none => none
    | some (length, rest) =>
      let lengthLength := (s.peek n.buf).length - rest.length
      if length > 2 ^ 32 - 1 - lengthLength then none
      else
        match s.read n.buf (lengthLength + length) with
        | none => none
        | some (d, s) =>
          match s.write env d with
          | none => none
          | some s => s.write env (n.tagData.take tagLen)
  | .startGroup tagLen =>
    match s.stack with
    | [] => none
    | _ :: stack => { s with stack := stack }.write env (n.tagData.take tagLen)
  | .endGroup tagLen => { s with stack := (s.dest.length, s.node) :: s.stack }.write env (n.tagData.take tagLen)
  | .nonProto =>
    match readVarint 32 false (s.peek env.lensBuf) with
    | none => none
    | some (length, rest) =>
      match s.read env.lensBuf ((s.peek env.lensBuf).length - rest.length) with
      | none => none
      | some (_, s) =>
        match s.read n.buf length with
        | none => none
        | some (d, s) =>
          match s.write env d with
          | none => none
          | some s => messageStart env s
  | .messageStart => messageStart env s
  | .noOp => some s
  | .failure => none
  | .unknown => none

/-- `HandleNode` (`transpose_decoder.cc:1347-1439`). -/
def handleNode (env : Env) (s : DSt) : Option DSt :=
  if (s.nodes s.node).cb = .select then
    match setCallbackType env s with
    | none => none
    | some s => callback env s
  else callback env s

/-- `TransitionNode` (`transpose_decoder.cc:1441-1454`): `none` if there are no more transitions. -/
def transitionNode (s : DSt) : Option DSt :=
  let next := (s.nodes s.node).next
  if s.iters = 0 then
    match s.trans with
    | [] => none
    | b :: trans =>
      let node := next + b.toNat / 4
      some { s with node := node, trans := trans
                    iters := b.toNat % 4 + if (s.nodes node).implicit then 1 else 0 }
  else some { s with node := next, iters := s.iters - if (s.nodes next).implicit then 0 else 1 }

/-- The loop of `TransposeDecoder::Decode` (`transpose_decoder.cc:1515-1523`): the state after the last
transition, `some none` on failure; `none` would mean that the loop does not end. -/
def decodeLoop (env : Env) (s : DSt) : Option (Option DSt) :=
  match handleNode env s with
  | none => some none
  | some s =>
    match transitionNode s with
    | none => some (some s)
    | some s => decodeLoop env s
partial_fixpoint

/-- The loop reversing and complementing `limits` (`transpose_decoder.cc:1474-1489`): elements from index
`first` to index `last`, exclusive. -/
def reverseLimits (size : Nat) (limits : List Nat) (first last : Nat) : List Nat :=
  if first < last then
    let last := last - 1
    let tmp := size - limits.getD first 0
    reverseLimits size ((limits.set first (size - limits.getD last 0)).set last tmp) (first + 1) last
  else limits
termination_by last - first

/-- `Finish` (`transpose_decoder.cc:1456-1491`): the record end positions. -/
def finish (env : Env) (clean : Bool) (s : DSt) : Option (List Nat) :=
  if clean = false then none
  else if s.stack ≠ [] then none
  else if s.skipped ≠ 0 then none
  else if s.limits.length ≠ env.numRecords then none
  else
    let size := s.limits.headD 0
    if size ≠ s.dest.length then none
    else some (reverseLimits size s.limits.reverse 0 (s.limits.length - 1))

/-- The initial `DecodingState` (`transpose_decoder.cc:1109-1125`). -/
def DSt.init (c : Ctx) : DSt where
  nodes := nodeAt c.nodes
  bufs := fun i => (c.bufs[i]?).bind id
  dest := []
  limits := []
  skipped := 0
  stack := []
  node := c.first
  iters := if (nodeAt c.nodes c.first).implicit then 1 else 0
  trans := c.trans.1

/-- `TransposeDecoder::Decode` (`transpose_decoder.cc:437-468`): record end positions and record values;
`some none` on failure, `none` would mean that it does not return. -/
def decode (C : Codec) (fields : List (List Nat)) (src : Bytes) (numRecords decodedDataSize : Nat) :
    Option (Option (List Nat × Bytes)) :=
  match parse C fields src with
  | none => some none
  | some c =>
    let env : Env := ⟨numRecords, decodedDataSize, c.lensBuf, c.proj.getD []⟩
    match decodeLoop env (DSt.init c) with
    | none => none
    | some none => some none
    | some (some s) =>
      match finish env c.trans.2 s with
      | none => some none
      | some limits =>
        if c.proj = none ∧ s.dest.length ≠ decodedDataSize then some none
        else some (some (limits, s.dest))

end Riegeli.Tr

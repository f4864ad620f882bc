import Verif.RecordSpec
/-!
# Specification vocabulary for damaged files

A damaged file has the layout of the original one, with the same block headers and padding; the header
and data bytes of any chunks may have been replaced.
-/
namespace Riegeli

/-- What is found in the place of a chunk occupying `[cb, ce)` with `n` bytes of data: the first `40 + n` bytes
outside block headers. -/
def foundPayload (F : Bytes) (cb ce n : Nat) : Bytes :=
  (((List.range' cb (ce - cb)).filter (fun p => 24 ≤ p % 65536)).map (fun p => F.getD p 0)).take (40 + n)

/-- The chunks of the original file, with what is found in their places in the damaged file `F'`. -/
def found (F' : Bytes) : Nat → List Chunk → List (Chunk × Bytes)
  | _, [] => []
  | pos, c :: cs => (c, foundPayload F' pos (c.endAt pos) c.data.length) :: found F' (c.endAt pos) cs

/-- `F'` is a damaged version of the file `F` with chunks `cs`: block headers and padding after chunk data are the
same. Anything may have happened to headers and data of chunks. -/
structure SameFrame (cs : List Chunk) (F F' : Bytes) : Prop where
  length : F'.length = F.length
  blockHeaders : ∀ p, p % 65536 < 24 → F'[p]? = F[p]?
  padding : ∀ pre c post, cs = pre ++ c :: post → ∀ p, fileEnd 0 pre ≤ p → p < c.endAt (fileEnd 0 pre) →
    40 + c.data.length ≤ usable (fileEnd 0 pre) p → F'[p]? = F[p]?

/-- What happened to a chunk: its bytes are as they were. -/
def Intact (d : Chunk × Bytes) : Prop := d.2 = d.1.header ++ d.1.data

/-- The header is as it was, the data were changed, and this is detected by their hash. -/
def DataDamaged (H : Bytes → UInt64) (d : Chunk × Bytes) : Prop :=
  d.2.length = 40 + d.1.data.length ∧ d.2.take 40 = d.1.header ∧
    Hdr.dataHash d.1.header ≠ (H (d.2.drop 40)).toNat

/-- The header was changed, and this is detected by its hash. (The data may have been changed too.) -/
def HeaderDamaged (H : Bytes → UInt64) (d : Chunk × Bytes) : Prop :=
  d.2.length = 40 + d.1.data.length ∧
    Hdr.storedHash (d.2.take 40) ≠ (H ((d.2.take 40).drop 8)).toNat

/-- What a user of a reader with a recovery function sees: records, and calls of the recovery function. -/
inductive Event
  | record (r : Bytes) (pos : RecordPosition)
  | skipped (b e : Nat)
deriving DecidableEq, Repr

/-- The records of a chunk at `pos`. -/
def recordEvents (pos : Nat) (rs : List Bytes) : List Event :=
  rs.zipIdx.map (fun r => .record r.1 ⟨pos, r.2⟩)

/-- All records of the chunks. -/
def allRecords (recs : Chunk → List Bytes) : Nat → List Chunk → List Event
  | _, [] => []
  | pos, c :: cs => recordEvents pos (recs c) ++ allRecords recs (c.endAt pos) cs

/-- `b` is the first block boundary after the 40 header bytes of a chunk beginning at `pos`. -/
def NextBlock (pos b : Nat) : Prop :=
  b % 65536 = 0 ∧ 40 ≤ usable pos b ∧ usable pos (b - 65536) < 40

/-- What the user should see from a damaged file, from a chunk boundary `pos` on:
* an intact chunk gives its records;
* a chunk with damaged data, or one which cannot be decoded, gives one skipped region, which is this chunk;
* a chunk with a damaged header gives one skipped region, which extends up to the first chunk boundary at or
  after the next block boundary, or to the end of the file if there is none. -/
inductive Outcome (H : Bytes → UInt64) (parse : Chunk → Option (List Nat × Bytes)) :
    Nat → List (Chunk × Bytes) → List Event → Prop
  | done (pos : Nat) : Outcome H parse pos [] []
  | intact (pos : Nat) (d : Chunk × Bytes) (ds : List (Chunk × Bytes)) (rs : List Bytes) (ev : List Event) :
      Intact d → DecodesTo parse d.1 rs → Outcome H parse (d.1.endAt pos) ds ev →
      Outcome H parse pos (d :: ds) (recordEvents pos rs ++ ev)
  | undecodable (pos : Nat) (d : Chunk × Bytes) (ds : List (Chunk × Bytes)) (ev : List Event) :
      Intact d → parse d.1 = none → Outcome H parse (d.1.endAt pos) ds ev →
      Outcome H parse pos (d :: ds) (.skipped pos (d.1.endAt pos) :: ev)
  | data (pos : Nat) (d : Chunk × Bytes) (ds : List (Chunk × Bytes)) (ev : List Event) :
      DataDamaged H d → Outcome H parse (d.1.endAt pos) ds ev →
      Outcome H parse pos (d :: ds) (.skipped pos (d.1.endAt pos) :: ev)
  | header (pos b : Nat) (d : Chunk × Bytes) (lost rest : List (Chunk × Bytes)) (ev : List Event) :
      HeaderDamaged H d → NextBlock pos b →
      -- chunks before the block boundary are lost
      (∀ l1 x l2, lost = l1 ++ x :: l2 → fileEnd pos ((d :: l1).map Prod.fst) < b) →
      -- the first chunk not lost begins at or after the block boundary
      (rest ≠ [] → b ≤ fileEnd pos ((d :: lost).map Prod.fst)) →
      Outcome H parse (fileEnd pos ((d :: lost).map Prod.fst)) rest ev →
      Outcome H parse pos (d :: lost ++ rest) (.skipped pos (fileEnd pos ((d :: lost).map Prod.fst)) :: ev)

/-- The events up to the `n`-th record, or all of them if there are fewer records. -/
def takeRecords : Nat → List Event → List Event
  | 0, _ => []
  | _, [] => []
  | n + 1, .skipped b e :: ev => .skipped b e :: takeRecords (n + 1) ev
  | n + 1, .record r p :: ev => .record r p :: takeRecords n ev

/-- Up to `n` calls of `ReadRecord`, with a recovery function which wants to continue, until the end. The
events of a call are the regions newly passed to the recovery function, and then the record returned. -/
def readEvents (H : Bytes → UInt64) (parse : Chunk → Option (List Nat × Bytes)) (F : Bytes) :
    Nat → RR → Option (List Event × RR)
  | 0, s => some ([], s)
  | n + 1, s =>
    match s.readRecord H parse (some fun _ => true) F with
    | none => none
    | some (r, s1) =>
      let new := (s1.skipped.take (s1.skipped.length - s.skipped.length)).reverse.map
        (fun g => Event.skipped g.begin g.end)
      match r with
      | none => some (new, s1)
      | some b =>
        match readEvents H parse F n s1 with
        | none => none
        | some (ev, s2) => some (new ++ Event.record b s1.lastPos :: ev, s2)

end Riegeli

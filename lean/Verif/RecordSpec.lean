import Verif.FileSpec
import Verif.RecordReader
/-!
# Specification vocabulary for records in a file
-/
namespace Riegeli

/-- Running end positions of records laid out one after another from `acc`. -/
def limitsFrom : Nat → List Bytes → List Nat
  | _, [] => []
  | acc, r :: rs => (acc + r.length) :: limitsFrom (acc + r.length) rs

/-- `c` decodes to the records `rs`, as many as its header says. -/
def DecodesTo (parse : Chunk → Option (List Nat × Bytes)) (c : Chunk) (rs : List Bytes) : Prop :=
  parse c = some (limitsFrom 0 rs, rs.flatten) ∧ rs.length = Hdr.numRecords c.header

/-- The chunks (laid out from `pos`) which are completely contained in the first `n` bytes. -/
def completeChunks : Nat → List Chunk → Nat → List Chunk
  | _, [], _ => []
  | pos, c :: cs, n => if c.endAt pos ≤ n then c :: completeChunks (c.endAt pos) cs n else []

/-- Positions of all records: chunk beginning and index within the chunk, given the number of records of
each chunk. -/
def recordPositions (recs : Chunk → List Bytes) : Nat → List Chunk → List RecordPosition
  | _, [] => []
  | pos, c :: cs =>
    (List.range (recs c).length).map (fun i => ⟨pos, i⟩) ++ recordPositions recs (c.endAt pos) cs

/-- What a reader should return, having already returned `k` records, for successive read calls which see
the file contents `fs`: the next record and its position, if its chunk is complete by then. -/
def expectedReads (recs : Chunk → List Bytes) (cs : List Chunk) :
    Nat → List Bytes → List (Option (Bytes × RecordPosition))
  | _, [] => []
  | k, f :: fs =>
    match (((completeChunks 0 cs f.length).flatMap recs).zip (recordPositions recs 0 cs))[k]? with
    | some r => some r :: expectedReads recs cs (k + 1) fs
    | none => none :: expectedReads recs cs k fs

/-- Successive `ReadRecord` calls, the i-th of which sees the file contents `fs[i]`: their results and,
after a successful call, `last_pos()`. -/
def readSchedule (H : Bytes → UInt64) (parse : Chunk → Option (List Nat × Bytes))
    (recovery : Option (CR.Region → Bool)) :
    List Bytes → RR → Option (List (Option (Bytes × RecordPosition)) × RR)
  | [], s => some ([], s)
  | f :: fs, s =>
    match s.readRecord H parse recovery f with
    | none => none
    | some (r, s1) =>
      match readSchedule H parse recovery fs s1 with
      | none => none
      | some (rs, s2) => some (r.map (fun b => (b, s1.lastPos)) :: rs, s2)

/-- The contents of a growing file: each version is a prefix of the next, and of the final `F`. -/
def Growing (F : Bytes) (fs : List Bytes) : Prop :=
  fs.Pairwise (· <+: ·) ∧ ∀ f ∈ fs, f <+: F

theorem limitsFrom_length (acc : Nat) (rs : List Bytes) : (limitsFrom acc rs).length = rs.length := by
  induction rs generalizing acc with
  | nil => rfl
  | cons r rs ih => simp [limitsFrom, ih]

end Riegeli

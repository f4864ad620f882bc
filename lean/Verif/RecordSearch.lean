import Verif.BinarySearch
import Verif.RecordReader
/-!
# Model of `RecordReaderBase::Search` (`riegeli/records/record_reader.cc:533-687`)

`test` is the user's function: it gets the reader seeked to some record, may operate on the reader, and returns an
ordering, or `none` to cancel the search. The outer `none` of all functions means that something did not terminate.
-/
namespace Riegeli
namespace RR
open CR

/-- The reader and the local variables of `SearchImpl()` which the chunk test updates: `less_found` (chunk beginning,
record index, number of records) and `greater_record_index` (`record_reader.cc:582-588`). -/
structure SearchSt where
  rr : RR
  lessFound : Option (Nat × Nat × Nat)
  greaterIndex : Nat
  /-- ghost: where `test()` was called -/
  calls : List RecordPosition

variable (H : Bytes → UInt64) (parse : Chunk → Option (List Nat × Bytes))
  (recovery : Option (Region → Bool)) (test : RR → Option (Option POrd × RR))

/-- `ChunkSearchTraits::Middle` (`record_reader.cc:543-564`). -/
def searchMiddle (f : Bytes) (s : SearchSt) (low high : Nat) : Option (Option Nat × SearchSt) :=
  if high ≤ low then some (none, s)
  else
    match s.rr.cr.seekToChunk H f .before (low + (high - low) / 2) with
    | none => none
    | some (true, cr) => some (some cr.pos, { s with rr := { s.rr with cr := cr } })
    | some (false, cr) =>
      match ({ s.rr with cr := cr } : RR).failSeeking H recovery f with
      | none => none
      | some (false, rr) => some (none, { s with rr := rr })
      | some (true, rr) =>
        if high ≤ rr.cr.pos then
          match rr.cr.seek f low with
          | (true, cr) => some (some cr.pos, { s with rr := { rr with cr := cr } })
          | (false, cr) =>
            match ({ rr with cr := cr } : RR).failSeeking H recovery f with
            | none => none
            | some (ok, rr) =>
              if ok = false ∨ high ≤ rr.cr.pos then some (none, { s with rr := rr })
              else some (some rr.cr.pos, { s with rr := rr })
        else some (some rr.cr.pos, { s with rr := rr })

/-- The loop judging a chunk by its earliest record which is not unordered (`record_reader.cc:612-640`), with `k` of `n`
records left. -/
def searchChunkLoop (f : Bytes) (cb n : Nat) : Nat → SearchSt → Option (Option (POrd × Nat) × SearchSt)
  | 0, s => some (some (.unordered, s.rr.cr.pos), s)
  | k + 1, s =>
    match s.rr.seek H parse recovery f ⟨cb, n - (k + 1)⟩ with
    | none => none
    | some (false, rr) => some (none, { s with rr := rr })
    | some (true, rr) =>
      match test rr with
      | none => none
      | some (ordering, rr) =>
        let s : SearchSt := { s with calls := s.calls ++ [⟨cb, n - (k + 1)⟩] }
        if rr.err ≠ none then
          match rr.tryRecovery H recovery f with
          | none => none
          | some (false, rr) => some (none, { s with rr := rr })
          | some (true, rr) => searchChunkLoop f cb n k { s with rr := rr }
        else
          match ordering with
          | none => some (none, { s with rr := rr })
          | some .less =>
            some (some (.less, rr.cr.pos), { s with rr := rr, lessFound := some (cb, n - (k + 1) + 1, n) })
          | some .equivalent => some (some (.equivalent, cb), { s with rr := rr, greaterIndex := n - (k + 1) })
          | some .greater => some (some (.greater, cb), { s with rr := rr, greaterIndex := n - (k + 1) })
          | some .unordered => searchChunkLoop f cb n k { s with rr := rr }

/-- The test of a chunk (`record_reader.cc:591-643`). -/
def searchTestChunk (f : Bytes) (s : SearchSt) (cb : Nat) : Option (Option (POrd × Nat) × SearchSt) :=
  match s.rr.cr.seek f cb with
  | (false, cr) =>
    match ({ s.rr with cr := cr } : RR).failSeeking H recovery f with
    | none => none
    | some (false, rr) => some (none, { s with rr := rr })
    | some (true, rr) => some (some (.unordered, rr.cr.pos), { s with rr := rr })
  | (true, cr) =>
    match ({ s.rr with cr := cr } : RR).readChunk H parse f with
    | (false, rr) =>
      match rr.tryRecovery H recovery f with
      | none => none
      | some (false, rr) =>
        if rr.err ≠ none then some (none, { s with rr := rr })
        else some (some (.greater, cb), { s with rr := rr, greaterIndex := 0 })
      | some (true, rr) => some (some (.unordered, rr.cr.pos), { s with rr := rr })
    | (true, rr) =>
      searchChunkLoop H parse recovery test f rr.chunkBegin rr.dec.numRecords rr.dec.numRecords { s with rr := rr }

/-- `BinarySearch()` over chunks. -/
def chunkSearcher (f : Bytes) : Searcher SearchSt where
  middle := searchMiddle H recovery f
  empty low high := high ≤ low
  test := searchTestChunk H parse recovery test f

/-- The test of a record of the chunk at `cb` (`record_reader.cc:653-671`). -/
def searchTestRecord (f : Bytes) (cb : Nat) (s : SearchSt) (i : Nat) : Option (Option POrd × SearchSt) :=
  match s.rr.seek H parse recovery f ⟨cb, i⟩ with
  | none => none
  | some (false, rr) => some (none, { s with rr := rr })
  | some (true, rr) =>
    match test rr with
    | none => none
    | some (ordering, rr) =>
      let s : SearchSt := { s with calls := s.calls ++ [⟨cb, i⟩] }
      if rr.err ≠ none then
        match rr.tryRecovery H recovery f with
        | none => none
        | some (false, rr) => some (none, { s with rr := rr })
        | some (true, rr) => some (some .unordered, { s with rr := rr })
      else some (ordering, { s with rr := rr })

/-- `BinarySearch()` over the records of a chunk, with `DefaultSearchTraits`. -/
def recordSearcher (f : Bytes) (cb : Nat) : Searcher SearchSt where
  middle s low high := some (if high ≤ low then none else some (low + (high - low) / 2), s)
  empty low high := high ≤ low
  test s i := (searchTestRecord H parse recovery test f cb s i).map (fun r => (r.1.map (fun o => guideOf (· + 1) o i), r.2))

/-- The end of `SearchImpl()` (`record_reader.cc:681-686`). The failure there is not distinguished from other failures. -/
def searchFinish (f : Bytes) (s : SearchSt) (cb i : Nat) (o : POrd) : Option (Option POrd × SearchSt) :=
  match s.rr.seek H parse recovery f ⟨cb, i⟩ with
  | none => none
  | some (false, rr) => some (none, { s with rr := { rr with err := some (rr.err.getD .decoder), rcv := .no } })
  | some (true, rr) => some (some o, { s with rr := rr })

/-- `RecordReaderBase::SearchImpl` (`record_reader.cc:568-687`). The result includes the local variables. -/
def searchImpl (f : Bytes) (s : RR) : Option (Option POrd × SearchSt) :=
  if s.err ≠ none then some (none, ⟨s, none, 0, []⟩)
  else
    let s := { s with lastValid := false }
    if s.cr.err ≠ none then some (none, ⟨{ s with err := some (.reader s.cr.err) }, none, 0, []⟩)
    else
      match binarySearch (chunkSearcher H parse recovery test f) 0 f.length ⟨s, none, 0, []⟩ with
      | none => none
      | some (none, st, _) => some (none, st)
      | some (some r, st, _) =>
        if r.ordering = .equivalent then searchFinish H parse recovery f st r.found st.greaterIndex r.ordering
        else
          match st.lessFound with
          | none => searchFinish H parse recovery f st r.found st.greaterIndex r.ordering
          | some (cb, i, n) =>
            match binarySearch (recordSearcher H parse recovery test f cb) i n st with
            | none => none
            | some (none, st, _) => some (none, st)
            | some (some r2, st, _) =>
              if r2.ordering.stops then searchFinish H parse recovery f st cb r2.found r2.ordering
              else searchFinish H parse recovery f st r.found st.greaterIndex r.ordering

/-- `RecordReaderBase::Search` (`record_reader.h:381-441,710-715`): the result, the reader, and (ghost) the positions of the records
at which `test()` was called. -/
def search (f : Bytes) (s : RR) : Option (Option POrd × RR × List RecordPosition) :=
  (searchImpl H parse recovery test f s).map (fun r => (r.1, r.2.rr, r.2.calls))

/-- The test function of `Search<Record>(cmp)` (`record_reader.h:717-727`): reads a record,
without recovery, and compares it; the comparison may use the position of the record, too. -/
def compareTest (f : Bytes) (cmp : RecordPosition → Bytes → Option POrd) (s : RR) : Option (Option POrd × RR) :=
  match s.readRecord H parse none f with
  | none => none
  | some (none, s) => some (some .unordered, s)
  | some (some r, s) => some (cmp s.lastPos r, s)

end RR
end Riegeli

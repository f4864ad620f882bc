import Verif.RecordSearchProofs
import Verif.Props.Seeking
import Verif.Examples
/-!
# C33: `RecordReader::Search()` on a valid file
-/
namespace Riegeli.Props
open Riegeli Riegeli.CR Riegeli.RSeek

variable {H : Bytes → UInt64} {parse : Chunk → Option (List Nat × Bytes)}
  {recovery : Option (CR.Region → Bool)} {recs : Chunk → List Bytes} {cs : List Chunk} {F : Bytes}

/-- Specification: the position of the `k`-th record of the file. -/
def recordPos (recs : Chunk → List Bytes) (cs : List Chunk) (k : Nat) : RecordPosition :=
  (recordPositions recs 0 cs).getD k ⟨0, 0⟩

/-- Specification: the `k`-th record of the file. -/
def recordAt (recs : Chunk → List Bytes) (cs : List Chunk) (k : Nat) : Bytes := (cs.flatMap recs).getD k []

/-- Specification: a reader whose next record is the `k`-th one (which may not exist: the end of the file), and which is
ok. -/
def PointsTo (H : Bytes → UInt64) (parse : Chunk → Option (List Nat × Bytes)) (recovery : Option (CR.Region → Bool))
    (recs : Chunk → List Bytes) (cs : List Chunk) (F : Bytes) (k : Nat) (s : RR) : Prop :=
  s.err = none ∧ ∃ s', s.readRecord H parse recovery F = some ((cs.flatMap recs)[k]?, s') ∧
    ((cs.flatMap recs)[k]? ≠ none → some s'.lastPos = (recordPositions recs 0 cs)[k]?) ∧ s'.err = none

/-- **C33.** `Search()` with a function comparing a record (and its position) with something, meeting the documented
precondition, in a valid file, with any history of the reader. It terminates, the result is the one documented: the ordering
`o` and the place `k` where the reader is left satisfy `SearchContract` over the records of the file (`equivalent`: at some
`equivalent` record; `greater`: at the earliest `greater` record, and there is no `equivalent` one; `less`, `unordered`: at
the end of the file); `test()` is called for distinct records, after `less` only for later ones, after `greater` only for
earlier ones, after `equivalent` not at all (`SearchTrace`); and if some test returned `equivalent` or `greater` then the
reader is left at the record of the last such test. -/
theorem C33_search (hv : ValidFile H cs F) (hdec : ∀ c ∈ cs, DecodesTo parse c (recs c)) {s : RR}
    (hs : HasHistory H parse recovery cs F s) (cmp : RecordPosition → Bytes → POrd)
    (hord : OrderedTest (fun _ => True) (fun k => cmp (recordPos recs cs k) (recordAt recs cs k)) 0 (cs.flatMap recs).length) :
    ∃ o s' k ks, s.search H parse recovery (RR.compareTest H parse F (fun p r => some (cmp p r))) F =
        some (some o, s', ks.map (recordPos recs cs)) ∧
      PointsTo H parse recovery recs cs F k s' ∧
      SearchContract (fun _ => True) (fun k => cmp (recordPos recs cs k) (recordAt recs cs k)) 0 (cs.flatMap recs).length ⟨o, k⟩ ∧
      SearchTrace (fun _ => True) (fun k => cmp (recordPos recs cs k) (recordAt recs cs k)) 0 (cs.flatMap recs).length ks ∧
      lastWith (fun k => (cmp (recordPos recs cs k) (recordAt recs cs k)).stops) ks = (if o.stops then some k else none) := by
  have hV : Valid H parse recs cs F := ⟨hv, hdec⟩
  obtain ⟨k0, hst⟩ := hs.seqSt hv hdec
  obtain ⟨r, st, ks, k, h1, h2, h3, h4, h5⟩ := RSearch.search_spec (recovery := recovery) hV
    (RSearch.compareTest_ok hV (fun p r => some (cmp p r)))
    (T := fun k => cmp (recordPos recs cs k) (recordAt recs cs k))
    (fun k o h => by injection h) hord hst
  cases r with
  | none =>
    obtain ⟨_, t, _, h6, _⟩ := h5
    cases h6
  | some o =>
    obtain ⟨h6, h7, h8⟩ := h5
    obtain ⟨s2, e2, h9, h10⟩ := read_at (recovery := recovery) hV h3
    refine ⟨o, st.rr, k, ks, ?_, ⟨RSearch.SeqSt.err h3, s2, e2, h9, h10⟩, h6, h4, h8⟩
    simp only [RR.search, h1, Option.map_some, h2]
    rfl

/-- **C33** (cancelling). The same if the comparison may cancel the search: the result is `nullopt` exactly if some call
cancelled it, which is then the last call, and the reader is still ok; otherwise the result is as documented, whatever
orderings `T` are attributed to the records at which the comparison would cancel. -/
theorem C33_search_cancelling (hv : ValidFile H cs F) (hdec : ∀ c ∈ cs, DecodesTo parse c (recs c)) {s : RR}
    (hs : HasHistory H parse recovery cs F s) (cmp : RecordPosition → Bytes → Option POrd) (T : Nat → POrd)
    (hT : ∀ k o, cmp (recordPos recs cs k) (recordAt recs cs k) = some o → T k = o)
    (hord : OrderedTest (fun _ => True) T 0 (cs.flatMap recs).length) :
    ∃ r s' k ks, s.search H parse recovery (RR.compareTest H parse F cmp) F =
        some (r, s', ks.map (recordPos recs cs)) ∧
      PointsTo H parse recovery recs cs F k s' ∧
      SearchTrace (fun _ => True) T 0 (cs.flatMap recs).length ks ∧
      match r with
      | none => ∃ pre t, ks = pre ++ [t] ∧ cmp (recordPos recs cs t) (recordAt recs cs t) = none ∧
          ∀ x ∈ pre, cmp (recordPos recs cs x) (recordAt recs cs x) ≠ none
      | some o => SearchContract (fun _ => True) T 0 (cs.flatMap recs).length ⟨o, k⟩ ∧
          (∀ x ∈ ks, cmp (recordPos recs cs x) (recordAt recs cs x) ≠ none) ∧
          lastWith (fun k => (T k).stops) ks = (if o.stops then some k else none) := by
  have hV : Valid H parse recs cs F := ⟨hv, hdec⟩
  obtain ⟨k0, hst⟩ := hs.seqSt hv hdec
  obtain ⟨r, st, ks, k, h1, h2, h3, h4, h5⟩ := RSearch.search_spec (recovery := recovery) hV
    (RSearch.compareTest_ok hV cmp) (T := T) hT hord hst
  obtain ⟨s2, e2, h9, h10⟩ := read_at (recovery := recovery) hV h3
  refine ⟨r, st.rr, k, ks, ?_, ⟨RSearch.SeqSt.err h3, s2, e2, h9, h10⟩, h4, ?_⟩
  · simp only [RR.search, h1, Option.map_some, h2]
    rfl
  · cases r with
    | none => exact h5
    | some o => exact h5

/-- Comparing the length of a record with 49990, where longer records come first. -/
def lengthOrder (r : Bytes) : POrd :=
  if r.length > 49990 then .less else if r.length = 49990 then .equivalent else .greater

theorem example_order (H : Bytes → UInt64) :
    ((Example.chunks H).flatMap Example.recs).length = 4 ∧
    ∀ k, lengthOrder (recordAt Example.recs (Example.chunks H) k) =
      (if k = 0 then .less else if k = 1 then .equivalent else .greater) := by
  have hr : (Example.chunks H).flatMap Example.recs =
      [List.replicate 50000 1, List.replicate 49990 2, List.replicate 10 3, [1, 2, 3, 4, 5]] := by
    have h1 : Example.recs (Example.sig H) = [] := by simp [Example.recs, (Example.sig_fields H).2]
    have h2 : Example.recs (Example.big H) = Example.recs1 := by
      simp only [Example.recs, (Example.big_fields H).2, ↓reduceIte]
    have h3 : Example.recs (Example.small H) = [[1, 2, 3, 4, 5]] := by
      simp [Example.recs, (Example.small_fields H).2]
    simp only [Example.chunks, List.flatMap_cons, List.flatMap_nil, h1, h2, h3]
    rfl
  refine ⟨by rw [hr]; rfl, ?_⟩
  intro k
  simp only [recordAt, hr, lengthOrder]
  match k with
  | 0 =>
    rw [if_pos]
    · rfl
    · show (List.replicate 50000 (1 : UInt8)).length > 49990
      rw [List.length_replicate]; decide
  | 1 =>
    rw [if_neg, if_pos]
    · rfl
    · show (List.replicate 49990 (2 : UInt8)).length = 49990
      rw [List.length_replicate]
    · show ¬ (List.replicate 49990 (2 : UInt8)).length > 49990
      rw [List.length_replicate]; decide
  | 2 => rfl
  | 3 => rfl
  | k + 4 => rfl

/-- The hypotheses of C33 are met by the example file, searching for a record of 49990 bytes (the records are sorted by
decreasing length), and the result is then determined: the reader is left at record 1. -/
example (H : Bytes → UInt64) {s : RR} (hs : HasHistory H Example.parse none (Example.chunks H) (Example.file H) s) :
    ∃ s' calls, s.search H Example.parse none (RR.compareTest H Example.parse (Example.file H)
        (fun _ r => some (lengthOrder r))) (Example.file H) = some (some .equivalent, s', calls) ∧
      PointsTo H Example.parse none Example.recs (Example.chunks H) (Example.file H) 1 s' := by
  obtain ⟨hn, hT⟩ := example_order H
  have hord : OrderedTest (fun _ => True) (fun k => lengthOrder (recordAt Example.recs (Example.chunks H) k)) 0
      ((Example.chunks H).flatMap Example.recs).length := by
    intro p q _ _ _ _ _ _
    simp only [hT]
    refine ⟨?_, ?_, ?_⟩ <;> intro h1 h2 <;> (repeat' split at h1) <;> (repeat' split at h2) <;>
      first | omega | (cases h1; done) | (cases h2; done)
  obtain ⟨o, s', k, ks, h1, h2, h3, _⟩ := C33_search (Example.valid H) (Example.decodes H) hs (fun _ r => lengthOrder r) hord
  rw [hn] at h3
  have hok : o = .equivalent ∧ k = 1 := by
    cases o with
    | equivalent =>
      obtain ⟨_, _, _, h4⟩ := h3
      have h4 := (hT k).symm.trans h4
      refine ⟨rfl, ?_⟩
      (repeat' split at h4) <;> simp_all
    | greater => exact absurd (hT 1) (h3.2.2.2.2.1 1 trivial (by omega) (by omega))
    | less => exact absurd (hT 1) (h3.2.2 1 trivial (by omega) (by omega)).1
    | unordered => have := (hT 1).symm.trans (h3.2 1 trivial (by omega) (by omega)); cases this
  obtain ⟨rfl, rfl⟩ := hok
  exact ⟨s', _, h1, h2⟩

end Riegeli.Props

import Verif.RecordSeek
import Verif.Props.Reading
/-!
# C09, C10, C11, C12: seeking in a valid file

`H` is the hash function (arbitrary), `parse` the chunk decoder (arbitrary: all that is used is that the chunks of the
file decode to the records `recs c`), `recovery` the recovery function, if any.

The history of the reader is arbitrary: first any number of reads while the file grows (`fs`), then any sequence of reads
and seeks of the complete file (`ops`).
-/
namespace Riegeli.Props
open Riegeli Riegeli.CR Riegeli.RSeek

variable {H : Bytes → UInt64} {parse : Chunk → Option (List Nat × Bytes)}
  {recovery : Option (CR.Region → Bool)} {recs : Chunk → List Bytes} {cs : List Chunk} {F : Bytes}

/-! ## Chunk level -/

/-- Operations of a `ChunkReader`. -/
inductive ChunkOp
  | readChunk
  | pullHeader
  | seek (p : Nat)
  | seekToChunk (which : Which) (p : Nat)

/-- Running an operation of a `ChunkReader` of the complete file. -/
def runChunkOp (H : Bytes → UInt64) (F : Bytes) (s : CR) : ChunkOp → Option CR
  | .readChunk => some (s.readChunk H F).2
  | .pullHeader => some (s.pullChunkHeader H F).2
  | .seek p => some (s.seek F p).2
  | .seekToChunk w p => (s.seekToChunk H F w p).map (·.2)

/-- The histories considered: the documentation requires the argument of `Seek` to be a chunk boundary; the position
given to `SeekToChunk...` is within the file. -/
def ChunkOpOk (cs : List Chunk) (F : Bytes) : ChunkOp → Prop
  | .seek p => IsBoundary 0 cs p
  | .seekToChunk _ p => p ≤ F.length
  | _ => True

/-- Running a sequence of operations. -/
def runChunkOps (H : Bytes → UInt64) (F : Bytes) : List ChunkOp → CR → Option CR
  | [], s => some s
  | o :: os, s => (runChunkOp H F s o).bind (runChunkOps H F os)

theorem chunkOp_atSome (hv : ValidFile H cs F) {s : CR} (hs : AtSome H F cs s) {o : ChunkOp} (ho : ChunkOpOk cs F o) :
    ∃ s', runChunkOp H F s o = some s' ∧ AtSome H F cs s' := by
  cases o with
  | readChunk =>
    obtain ⟨pre, post, rfl, hr⟩ := hs
    rcases seqReadChunk hv.ok hv.sig (by rw [← hv.bytes]; exact List.prefix_refl _) hr with
      ⟨c, cs', s', rfl, _, e, hr'⟩ | ⟨s', e, hr', _⟩
    · exact ⟨s', by simp [runChunkOp, e], pre ++ [c], cs', by simp, hr'⟩
    · exact ⟨s', by simp [runChunkOp, e], pre, post, rfl, hr'⟩
  | pullHeader =>
    obtain ⟨pre, post, e, hr⟩ := hs
    cases post with
    | nil =>
      have ha : AtBoundary F (fileEnd 0 pre) s := hr
      have hlen : F.length = fileEnd 0 pre := by rw [hv.toLaid.length, e, List.append_nil]
      have hrc := readChunk_at_end (H := H) (hlen ▸ ha) (hlen ▸ (hv.toLaid.boundary e).1)
      refine ⟨_, rfl, pre, [], e, ?_⟩
      -- `ReadChunk` begins with `PullChunkHeader`, which is where it stops at the end of the file
      unfold readChunk at hrc
      split at hrc
      · next s1 h1 =>
        simp only [h1]
        injection hrc with _ hrc
        rw [hrc]
        exact ⟨ha.pos, ha.err, ha.rcv, ha.data, ha.hl, ha.bl, ha.hf, ha.src⟩
      · next s1 h1 =>
        -- the header cannot be complete
        exfalso
        have hsrc : s.srcPos = s.pos := by
          have := ha.hf
          have := ha.pos
          rcases ha.src with h | ⟨_, h, _⟩ <;> omega
        have h2 := Arb.pullChunkHeader_arb (H := H) (B := False) (List.prefix_refl F) (s := s)
          (Or.inl (Arb.Good.fresh ha.err ha.rcv hsrc (by rw [← hsrc]; exact ha.hf) (by intro h; exact h.elim) ha.data ha.hl ha.bl))
        rcases h2 with ⟨s2, q1, q2, q3, q4, _⟩ | ⟨s2, q1, _⟩ | ⟨s2, q1, _⟩ | ⟨s2, q1, _⟩
        · rw [h1] at q1
          injection q1 with _ q1
          subst q1
          have hge := q3.ge
          have hle := q2.hf
          have hp := ha.pos
          have : usable s1.pos s1.srcPos = 0 := by
            have h3 : s1.pos = F.length := by rw [q4]; omega
            rw [h3]
            unfold usable
            rw [show s1.srcPos - F.length = 0 by omega]; rfl
          omega
        · rw [h1] at q1; injection q1 with q1; simp at q1
        · rw [h1] at q1; injection q1 with q1; simp at q1
        · rw [h1] at q1; injection q1 with q1; simp at q1
    | cons c post =>
      rcases pullChunkHeader_spec (hv.toLaid.chunkAt e) (List.prefix_refl _) hr with ⟨s', h1, h2, _⟩ | ⟨s', h1, h2⟩
      · exact ⟨s', by simp [runChunkOp, h1], pre, _, e, h2⟩
      · exact ⟨s', by simp [runChunkOp, h1], pre, _, e, h2.mid⟩
  | seek p =>
    obtain ⟨pre, post, e, rfl⟩ := ho
    obtain ⟨s', h1, h2⟩ := SeekP.seek_valid hv.toLaid e hs
    exact ⟨s', by simp [runChunkOp, h1], pre, post, e, h2⟩
  | seekToChunk w p =>
    obtain ⟨s', h1, h2, _⟩ := SeekP.seekToChunk_valid hv.toLaid w ho hs
    exact ⟨s', by simp [runChunkOp, h1], h2⟩

/-- **C12.** After any history of chunk reads and seeks on a valid file (the history itself terminates),
`SeekToChunkBefore/After/Containing(p)` for any `p` up to the file size terminates, succeeds, and leaves the reader at the
documented chunk boundary: the nearest one at or before `p`; the nearest one at or after `p`; or the beginning of the
chunk which has a record at `p` if there is one, otherwise the nearest chunk boundary at or after `p`. -/
theorem C12_seekToChunk {cs : List Chunk} {F : Bytes} (hv : ValidFile H cs F) {hdr0 bh0 : Bytes}
    (h40 : hdr0.length = 40) (h24 : bh0.length = 24) {ops : List ChunkOp} (hops : ∀ o ∈ ops, ChunkOpOk cs F o)
    (which : Which) {p : Nat} (hp : p ≤ F.length) :
    ∃ s s', runChunkOps H F ops (CR.init 0 hdr0 bh0) = some s ∧
      s.seekToChunk H F which p = some (true, s') ∧ s'.err = none ∧ IsTarget 0 cs which p s'.pos := by
  have hall : ∀ (ops : List ChunkOp) (s : CR), (∀ o ∈ ops, ChunkOpOk cs F o) → AtSome H F cs s →
      ∃ s', runChunkOps H F ops s = some s' ∧ AtSome H F cs s' := by
    intro ops
    induction ops with
    | nil => intro s _ h; exact ⟨s, rfl, h⟩
    | cons o os ih =>
      intro s ho h
      obtain ⟨s1, e1, h1⟩ := chunkOp_atSome hv h (ho o (by simp))
      obtain ⟨s2, e2, h2⟩ := ih s1 (fun x hx => ho x (by simp [hx])) h1
      exact ⟨s2, by simp [runChunkOps, e1, e2], h2⟩
  have hinit : AtSome H F cs (CR.init 0 hdr0 bh0) :=
    ⟨[], cs, rfl, SeekP.atBoundary_reading hv.toLaid rfl ⟨rfl, rfl, rfl, rfl, h40, h24, Nat.zero_le _, Or.inl rfl⟩⟩
  obtain ⟨s, e, hs⟩ := hall ops _ hops hinit
  obtain ⟨s', h1, h2, h3⟩ := SeekP.seekToChunk_valid hv.toLaid which hp hs
  exact ⟨s, s', e, h1, (SeekP.AtSome.base h2).1, h3⟩

/-- The target is unique, so that C12 determines the resulting position. -/
theorem C12_target_unique (hv : ValidFile H cs F) {which : Which} {p b b' : Nat}
    (h : IsTarget 0 cs which p b) (h' : IsTarget 0 cs which p b') : b = b' := by
  have hcont : ∀ {x y : Nat}, ChunkHasPosition 0 cs p x → ChunkHasPosition 0 cs p y → x ≤ y := by
    rintro x y ⟨pre, c, post, e, hx, h1, h2⟩ hy
    obtain ⟨pre', c', post', e', hy', h3, h4⟩ := hy
    have hb : IsBoundary 0 (pre' ++ c' :: post') x := ⟨pre, c :: post, e' ▸ e, hx⟩
    have hn := (hv.toLaid.chunkAt e').holds.2.2.2
    rcases boundary_outside (H := H) boundaryOk_zero (e' ▸ hv.ok.laid) hb with a | a <;> omega
  cases which with
  | containing =>
    rcases h with h | ⟨h1, h2⟩
    · rcases h' with h' | ⟨h1', _⟩
      · exact Nat.le_antisymm (hcont h h') (hcont h' h)
      · exact absurd h (h1' _)
    · rcases h' with h' | ⟨_, h2'⟩
      · exact absurd h' (h1 _)
      · exact Nat.le_antisymm (h2.2.2 _ h2'.1 h2'.2.1) (h2'.2.2 _ h2.1 h2.2.1)
  | before => exact Nat.le_antisymm (h'.2.2 _ h.1 h.2.1) (h.2.2 _ h'.1 h'.2.1)
  | after => exact Nat.le_antisymm (h.2.2 _ h'.1 h'.2.1) (h'.2.2 _ h.1 h.2.1)

/-! ## Record level -/

/-- Operations of a `RecordReader`. -/
inductive RecordOp
  | read
  | seek (p : RecordPosition)
  | seekNumeric (p : Nat)
  | seekBack

/-- What an operation returns: the record read and `last_pos()`, or whether the seek succeeded. -/
inductive Result
  | record (r : Option (Bytes × RecordPosition))
  | seeked (ok : Bool)
deriving DecidableEq

/-- Running a sequence of operations of a `RecordReader` of the complete file `F`. -/
def runOps (H : Bytes → UInt64) (parse : Chunk → Option (List Nat × Bytes)) (recovery : Option (CR.Region → Bool))
    (F : Bytes) : List RecordOp → RR → Option (List Result × RR)
  | [], s => some ([], s)
  | o :: os, s =>
    let r : Option (Result × RR) := match o with
      | .read => (s.readRecord H parse recovery F).map (fun r => (.record (r.1.map (fun b => (b, r.2.lastPos))), r.2))
      | .seek p => (s.seek H parse recovery F p).map (fun r => (.seeked r.1, r.2))
      | .seekNumeric p => (s.seekNumeric H parse recovery F p).map (fun r => (.seeked r.1, r.2))
      | .seekBack => (s.seekBack H parse recovery F).map (fun r => (.seeked r.1, r.2))
    r.bind (fun r => (runOps H parse recovery F os r.2).map (fun q => (r.1 :: q.1, q.2)))

/-- Specification: a file with records `vs` at positions `ps` behaves as a cursor `k` into these lists. Reading returns
the `k`-th record and advances. Seeking moves the cursor to the first record which is not before the given position.
`SeekBack` decrements the cursor. -/
def cursorRun (vs : List Bytes) (ps : List RecordPosition) : List RecordOp → Nat → List Result × Nat
  | [], k => ([], k)
  | o :: os, k =>
    let r : Result × Nat := match o with
      | .read => match (vs.zip ps)[k]? with
        | some x => (.record (some x), k + 1)
        | none => (.record none, k)
      | .seek p => (.seeked true, ps.countP p.before)
      | .seekNumeric p => (.seeked true, ps.countP (fun q => decide (q.numeric < p)))
      | .seekBack => if k = 0 then (.seeked false, 0) else (.seeked true, k - 1)
    let q := cursorRun vs ps os r.2
    (r.1 :: q.1, q.2)

/-- Arguments of seeks: a `RecordPosition` whose `chunk_begin` is the beginning of a chunk of the file, or is the end of
the file with `record_index` 0 (in particular every position of a record, and everything returned by `pos()`); an
integer up to the file size. -/
def RecordOpOk (cs : List Chunk) (F : Bytes) : RecordOp → Prop
  | .seek p => ∃ pre post, cs = pre ++ post ∧ p.chunkBegin = fileEnd 0 pre ∧ (p.recordIndex = 0 ∨ post ≠ [])
  | .seekNumeric p => p ≤ F.length
  | _ => True

/-- Every sequence of operations behaves as the cursor, from any state between operations. -/
theorem runOps_cursor (hv : Valid H parse recs cs F) : ∀ (ops : List RecordOp) (k : Nat) (s : RR),
    (∀ o ∈ ops, RecordOpOk cs F o) → SeqSt H recs cs k F s →
    ∃ s', runOps H parse recovery F ops s =
        some ((cursorRun (cs.flatMap recs) (recordPositions recs 0 cs) ops k).1, s') ∧
      SeqSt H recs cs (cursorRun (cs.flatMap recs) (recordPositions recs 0 cs) ops k).2 F s'
  | [], k, s, _, h => ⟨s, rfl, h⟩
  | o :: os, k, s, ho, h => by
    have ih := fun k s => runOps_cursor hv os k s (fun x hx => ho x (by simp [hx]))
    have hoo := ho o (by simp)
    cases o with
    | read =>
      have hall := completeChunks_all (n := F.length) boundaryOk_zero hv.file.ok.laid
        (by rw [hv.file.toLaid.length]; exact Nat.le_refl _)
      rcases readRecord_seq (recovery := recovery) hv.file.ok hv.file.sig
        (by rw [← hv.file.bytes]; exact List.prefix_refl _) hv.dec h with
        ⟨r, s1, q, e, h1, h2, h3, _, h4⟩ | ⟨s1, e, h1, h4, _⟩
      · rw [hall] at h1
        have hz : ((cs.flatMap recs).zip (recordPositions recs 0 cs))[k]? = some (r, q) := by
          rw [List.getElem?_zip_eq_some]; exact ⟨h1, h2⟩
        obtain ⟨s', e', h5⟩ := ih (k + 1) s1 h4
        refine ⟨s', ?_, ?_⟩
        · simp only [runOps, e, Option.map_some, Option.bind_some, e', cursorRun, hz, h3]
        · simp only [cursorRun, hz]; exact h5
      · rw [hall] at h1
        have hz : ((cs.flatMap recs).zip (recordPositions recs 0 cs))[k]? = none := by
          rw [List.getElem?_eq_none_iff] at h1 ⊢
          rw [List.length_zip]; omega
        obtain ⟨s', e', h5⟩ := ih k s1 h4
        refine ⟨s', ?_, ?_⟩
        · simp only [runOps, e, Option.map_some, Option.bind_some, e', cursorRun, hz, Option.map_none]
        · simp only [cursorRun, hz]; exact h5
    | seek p =>
      obtain ⟨pre, post, e, hp, hi⟩ := hoo
      obtain ⟨s1, e1, h1⟩ := seek_spec (recovery := recovery) hv h e hp hi
      obtain ⟨s', e', h5⟩ := ih _ s1 h1
      exact ⟨s', by simp only [runOps, e1, Option.map_some, Option.bind_some, e', cursorRun], h5⟩
    | seekNumeric p =>
      obtain ⟨s1, e1, h1⟩ := seekNumeric_spec (recovery := recovery) hv h hoo
      obtain ⟨s', e', h5⟩ := ih _ s1 h1
      exact ⟨s', by simp only [runOps, e1, Option.map_some, Option.bind_some, e', cursorRun], h5⟩
    | seekBack =>
      obtain ⟨s1, e1, h1⟩ := seekBack_spec (recovery := recovery) hv h
      obtain ⟨s', e', h5⟩ := ih _ s1 h1
      by_cases h0 : k = 0
      · subst h0
        exact ⟨s', by simp [runOps, e1, e', cursorRun], by simpa [cursorRun] using h5⟩
      · refine ⟨s', ?_, ?_⟩
        · have : decide (0 < k) = true := by simp; omega
          simp [runOps, e1, e', cursorRun, h0, this]
        · simpa [cursorRun, h0] using h5

/-- **C09, C10, C11 (refinement).** A reader of a valid file behaves as a cursor over the list of records, for every
history: any reads while the file grows (`fs`, seeing the contents `fs[i]`), then any sequence of reads and seeks. No
operation fails, diverges or reports a skipped region. -/
theorem C09_reader_is_cursor (hv : ValidFile H cs F) (hdec : ∀ c ∈ cs, DecodesTo parse c (recs c))
    {hdr0 bh0 : Bytes} (h40 : hdr0.length = 40) (h24 : bh0.length = 24) {fs : List Bytes} (hg : Growing F fs)
    {ops : List RecordOp} (hops : ∀ o ∈ ops, RecordOpOk cs F o) :
    ∃ rs s k s', readSchedule H parse recovery fs (newReader hdr0 bh0) = some (rs, s) ∧
      runOps H parse recovery F ops s =
        some ((cursorRun (cs.flatMap recs) (recordPositions recs 0 cs) ops k).1, s') ∧
      s'.err = none ∧ s'.skipped = [] := by
  have hg' : Growing (fileBytes H 0 cs) ([] :: fs) := by
    rw [← hv.bytes]
    exact ⟨List.pairwise_cons.2 ⟨fun x _ => List.nil_prefix, hg.1⟩, fun x hx => by
      rcases List.mem_cons.1 hx with h | h
      · subst h; exact List.nil_prefix
      · exact hg.2 x h⟩
  obtain ⟨s, g, k, e, hlast, hst⟩ := readSchedule_seq (recovery := recovery) hv.ok hv.sig hdec fs [] 0 _
    hg' (SeqSt.init (hdr0 := hdr0) (bh0 := bh0) hv.ok hv.sig h40 h24 List.nil_prefix)
  have hgF : g <+: F := by
    rw [hlast, hv.bytes]; exact hg'.2 _ (List.getLast_mem _)
  obtain ⟨s', e', hst'⟩ := runOps_cursor (recovery := recovery) ⟨hv, hdec⟩ ops k s hops (hst.mono hgF)
  obtain ⟨_, _, _, _, _, hr, _⟩ := hst'
  exact ⟨_, s, k, s', e, e', hr.err, hr.skip⟩

/-- A reader with any history (as in `C09_reader_is_cursor`) is in a state from which everything behaves as the cursor. -/
def HasHistory (H : Bytes → UInt64) (parse : Chunk → Option (List Nat × Bytes)) (recovery : Option (CR.Region → Bool))
    (cs : List Chunk) (F : Bytes) (s : RR) : Prop :=
  ∃ hdr0 bh0 fs ops rs s0 res, hdr0.length = 40 ∧ bh0.length = 24 ∧ Growing F fs ∧ (∀ o ∈ ops, RecordOpOk cs F o) ∧
    readSchedule H parse recovery fs (newReader hdr0 bh0) = some (rs, s0) ∧
    runOps H parse recovery F ops s0 = some (res, s)

theorem HasHistory.seqSt (hv : ValidFile H cs F) (hdec : ∀ c ∈ cs, DecodesTo parse c (recs c)) {s : RR}
    (h : HasHistory H parse recovery cs F s) : ∃ k, SeqSt H recs cs k F s := by
  obtain ⟨hdr0, bh0, fs, ops, rs, s0, res, h40, h24, hg, hops, e0, e1⟩ := h
  have hg' : Growing (fileBytes H 0 cs) ([] :: fs) := by
    rw [← hv.bytes]
    exact ⟨List.pairwise_cons.2 ⟨fun x _ => List.nil_prefix, hg.1⟩, fun x hx => by
      rcases List.mem_cons.1 hx with h | h
      · subst h; exact List.nil_prefix
      · exact hg.2 x h⟩
  obtain ⟨s1, g, k, e, hlast, hst⟩ := readSchedule_seq (recovery := recovery) hv.ok hv.sig hdec fs [] 0 _
    hg' (SeqSt.init (hdr0 := hdr0) (bh0 := bh0) hv.ok hv.sig h40 h24 List.nil_prefix)
  have hgF : g <+: F := by
    rw [hlast, hv.bytes]; exact hg'.2 _ (List.getLast_mem _)
  obtain ⟨s', e', hst'⟩ := runOps_cursor (recovery := recovery) ⟨hv, hdec⟩ ops k s1 hops (hst.mono hgF)
  unfold newReader at e0
  rw [e0] at e
  injection e with e
  injection e with _ e
  subst e
  rw [e1] at e'
  injection e' with e'
  injection e' with _ e'
  subst e'
  exact ⟨_, hst'⟩

theorem countP_before_getElem {ps : List RecordPosition} {j : Nat} {p : RecordPosition}
    (hs : ps.Pairwise posLt) (hj : ps[j]? = some p) : ps.countP p.before = j := by
  obtain ⟨hlt, hget⟩ := List.getElem?_eq_some_iff.1 hj
  have hsplit : ps = ps.take j ++ p :: ps.drop (j + 1) := by
    rw [← hget, ← List.drop_eq_getElem_cons hlt, List.take_append_drop]
  rw [hsplit] at hs
  obtain ⟨_, h2, h3⟩ := List.pairwise_append.1 hs
  rw [hsplit, List.countP_append, countP_all, countP_none]
  · simp; omega
  · intro q hq
    rcases List.mem_cons.1 hq with rfl | hq
    · simp [RecordPosition.before]
    · have := (List.pairwise_cons.1 h2).1 q hq
      unfold posLt at this
      simp [RecordPosition.before]; omega
  · intro q hq
    have := h3 q hq p (by simp)
    unfold posLt at this
    simp [RecordPosition.before]; omega

theorem countP_numeric_getElem {ps : List RecordPosition} {j : Nat} {p : RecordPosition}
    (hs : ps.Pairwise (fun p q => p.numeric < q.numeric)) (hj : ps[j]? = some p) :
    ps.countP (fun q => decide (q.numeric < p.numeric)) = j := by
  obtain ⟨hlt, hget⟩ := List.getElem?_eq_some_iff.1 hj
  have hsplit : ps = ps.take j ++ p :: ps.drop (j + 1) := by
    rw [← hget, ← List.drop_eq_getElem_cons hlt, List.take_append_drop]
  rw [hsplit] at hs
  obtain ⟨_, h2, h3⟩ := List.pairwise_append.1 hs
  rw [hsplit, List.countP_append, countP_all, countP_none]
  · simp; omega
  · intro q hq
    rcases List.mem_cons.1 hq with rfl | hq
    · simp
    · have := (List.pairwise_cons.1 h2).1 q hq
      simp; omega
  · intro q hq
    have := h3 q hq p (by simp)
    simpa using this

theorem positions_sorted (hv : Valid H parse recs cs F) :
    (recordPositions recs 0 cs).Pairwise (fun p q => p.numeric < q.numeric ∧ posLt p q) :=
  (positions_aux cs 0 boundaryOk_zero hv.file.ok hv.num (by omega)).2

/-- Reading with the cursor at record `j`. -/
theorem read_at (hv : Valid H parse recs cs F) {j : Nat} {s : RR} (hs : SeqSt H recs cs j F s) :
    ∃ s', s.readRecord H parse recovery F = some ((cs.flatMap recs)[j]?, s') ∧
      ((cs.flatMap recs)[j]? ≠ none → some s'.lastPos = (recordPositions recs 0 cs)[j]?) ∧ s'.err = none := by
  have hall := completeChunks_all (n := F.length) boundaryOk_zero hv.file.ok.laid
    (by rw [hv.file.toLaid.length]; exact Nat.le_refl _)
  rcases readRecord_seq (recovery := recovery) hv.file.ok hv.file.sig
    (by rw [← hv.file.bytes]; exact List.prefix_refl _) hv.dec hs with
    ⟨r, s1, q, e, h1, h2, h3, _, _, _, _, _, _, hr, _⟩ | ⟨s1, e, h1, ⟨_, _, _, _, _, hr, _⟩, _⟩
  · rw [hall] at h1
    exact ⟨s1, by rw [e, h1], fun _ => by rw [h2, h3], hr.err⟩
  · rw [hall] at h1
    exact ⟨s1, by rw [e, h1], fun h => absurd h1 h, hr.err⟩

/-- **C09.** From any reader state (any history), `Seek` with the position of the `j`-th record, as `RecordPosition` or
as its `numeric()` value, succeeds, and the next `ReadRecord` returns the `j`-th record, with `last_pos()` that
position. -/
theorem C09_seek_to_record (hv : ValidFile H cs F) (hdec : ∀ c ∈ cs, DecodesTo parse c (recs c)) {s : RR}
    (hs : HasHistory H parse recovery cs F s) {j : Nat} {p : RecordPosition} {r : Bytes}
    (hp : (recordPositions recs 0 cs)[j]? = some p) (hr : (cs.flatMap recs)[j]? = some r) :
    (∃ s1 s2, s.seek H parse recovery F p = some (true, s1) ∧
      s1.readRecord H parse recovery F = some (some r, s2) ∧ s2.lastPos = p) ∧
    (∃ s1 s2, s.seekNumeric H parse recovery F p.numeric = some (true, s1) ∧
      s1.readRecord H parse recovery F = some (some r, s2) ∧ s2.lastPos = p) := by
  have hV : Valid H parse recs cs F := ⟨hv, hdec⟩
  obtain ⟨k, hst⟩ := hs.seqSt hv hdec
  have hsorted := positions_sorted hV
  have hmem : p ∈ recordPositions recs 0 cs := List.mem_of_getElem? hp
  constructor
  · -- the chunk of the record
    have hex : ∀ (cs : List Chunk) (pos : Nat), p ∈ recordPositions recs pos cs →
        ∃ pre c post, cs = pre ++ c :: post ∧ p.chunkBegin = fileEnd pos pre := by
      intro cs
      induction cs with
      | nil => intro pos h; simp [recordPositions] at h
      | cons c cs ih =>
        intro pos h
        simp only [recordPositions, List.mem_append, List.mem_map, List.mem_range] at h
        rcases h with ⟨i, hi, rfl⟩ | h
        · exact ⟨[], c, cs, rfl, rfl⟩
        · obtain ⟨pre, d, post, e, hd⟩ := ih _ h
          exact ⟨c :: pre, d, post, by simp [e], hd⟩
    obtain ⟨pre, c, post, e, hcb⟩ := hex cs 0 hmem
    obtain ⟨s1, e1, h1⟩ := seek_spec (recovery := recovery) hV hst e hcb (Or.inr (by simp))
    rw [countP_before_getElem (hsorted.imp (fun h => h.2)) hp] at h1
    obtain ⟨s2, e2, h2, _⟩ := read_at (recovery := recovery) hV h1
    rw [hr] at e2 h2
    rw [hp] at h2
    exact ⟨s1, s2, e1, e2, Option.some.inj (h2 (by simp))⟩
  · have hle : p.numeric ≤ F.length := by
      have := (positions_aux (recs := recs) cs 0 boundaryOk_zero hv.ok hV.num (by omega)).1 p hmem
      rw [hv.toLaid.length]; omega
    obtain ⟨s1, e1, h1⟩ := seekNumeric_spec (recovery := recovery) hV hst hle
    rw [countP_numeric_getElem (hsorted.imp (fun h => h.1)) hp] at h1
    obtain ⟨s2, e2, h2, _⟩ := read_at (recovery := recovery) hV h1
    rw [hr] at e2 h2
    rw [hp] at h2
    exact ⟨s1, s2, e1, e2, Option.some.inj (h2 (by simp))⟩

/-- **C09 (`pos()`).** `Seek(pos())` restores the place: `pos()` taken at any time, used later from any state of a reader
of the same file, makes the reader return the same next record (or end of source) as it would have returned. -/
theorem C09_seek_pos (hv : ValidFile H cs F) (hdec : ∀ c ∈ cs, DecodesTo parse c (recs c)) {s t : RR}
    (hs : HasHistory H parse recovery cs F s) (ht : HasHistory H parse recovery cs F t) :
    ∃ r s1 t1 t2, s.readRecord H parse recovery F = some (r, s1) ∧
      t.seek H parse recovery F s.pos = some (true, t1) ∧ t1.readRecord H parse recovery F = some (r, t2) ∧
      (r ≠ none → t2.lastPos = s1.lastPos) := by
  have hV : Valid H parse recs cs F := ⟨hv, hdec⟩
  obtain ⟨k, hst⟩ := hs.seqSt hv hdec
  obtain ⟨k', htt⟩ := ht.seqSt hv hdec
  obtain ⟨⟨pre, post, e, h1, h2⟩, h3⟩ := pos_spec hV hst
  obtain ⟨t1, e1, q1⟩ := seek_spec (recovery := recovery) hV htt e h1 h2
  rw [h3] at q1
  obtain ⟨s1, e2, q2, _⟩ := read_at (recovery := recovery) hV hst
  obtain ⟨t2, e3, q3, _⟩ := read_at (recovery := recovery) hV q1
  exact ⟨_, s1, t1, t2, e2, e1, e3, fun hr => Option.some.inj ((q3 hr).trans (q2 hr).symm)⟩

/-- **C10.** From any reader state (any history), `Seek(n)` for any integer `n` up to the file size succeeds, and the
next `ReadRecord` returns the first record whose numeric position is at or after `n`: there is `j` such that all records
before the `j`-th have a smaller numeric position, all the others have not, and the record returned is the `j`-th (end of
source if there is none). -/
theorem C10_seek_numeric (hv : ValidFile H cs F) (hdec : ∀ c ∈ cs, DecodesTo parse c (recs c)) {s : RR}
    (hs : HasHistory H parse recovery cs F s) {n : Nat} (hn : n ≤ F.length) :
    ∃ j s1 s2, s.seekNumeric H parse recovery F n = some (true, s1) ∧
      s1.readRecord H parse recovery F = some ((cs.flatMap recs)[j]?, s2) ∧ s2.err = none ∧
      j ≤ (recordPositions recs 0 cs).length ∧
      (∀ i p, (recordPositions recs 0 cs)[i]? = some p → (i < j ↔ p.numeric < n)) ∧
      ((cs.flatMap recs)[j]? ≠ none → some s2.lastPos = (recordPositions recs 0 cs)[j]?) := by
  have hV : Valid H parse recs cs F := ⟨hv, hdec⟩
  obtain ⟨k, hst⟩ := hs.seqSt hv hdec
  obtain ⟨s1, e1, h1⟩ := seekNumeric_spec (recovery := recovery) hV hst hn
  obtain ⟨s2, e2, h2, h3⟩ := read_at (recovery := recovery) hV h1
  refine ⟨_, s1, s2, e1, e2, h3, List.countP_le_length, ?_, h2⟩
  have hsorted := (positions_sorted hV).imp (fun h => h.1)
  generalize recordPositions recs 0 cs = ps at hsorted
  clear h1 e2 h2 e1 hst hs
  induction ps with
  | nil => intro i p h; simp at h
  | cons q ps ih =>
    obtain ⟨g1, g2⟩ := List.pairwise_cons.1 hsorted
    intro i p h
    rw [List.countP_cons]
    by_cases hq : q.numeric < n
    · simp only [hq, decide_true, ↓reduceIte]
      cases i with
      | zero => simp only [List.getElem?_cons_zero, Option.some.injEq] at h; subst h; omega
      | succ i =>
        simp only [List.getElem?_cons_succ] at h
        have := ih g2 i p h
        omega
    · have hz : ps.countP (fun p => decide (p.numeric < n)) = 0 := by
        apply countP_none
        intro a ha; have := g1 a ha; simp; omega
      simp only [hq, decide_false, hz]
      have hge : n ≤ p.numeric := by
        cases i with
        | zero => simp only [List.getElem?_cons_zero, Option.some.injEq] at h; subst h; omega
        | succ i =>
          simp only [List.getElem?_cons_succ] at h
          have := g1 p (List.mem_of_getElem? h); omega
      simp; omega

/-- **C11.** From any reader state (any history): if the next record to be read is the `j`-th, then `SeekBack()` for
`j > 0` returns true and the next record is the one numbered `j - 1`; for `j = 0` it returns false, with `ok()`, and the next record is
still the first one. -/
theorem C11_seekBack (hv : ValidFile H cs F) (hdec : ∀ c ∈ cs, DecodesTo parse c (recs c)) {s : RR}
    (hs : HasHistory H parse recovery cs F s) :
    ∃ j s0 s1 s2, s.readRecord H parse recovery F = some ((cs.flatMap recs)[j]?, s0) ∧
      j ≤ (cs.flatMap recs).length ∧
      s.seekBack H parse recovery F = some (decide (0 < j), s1) ∧ s1.err = none ∧
      s1.readRecord H parse recovery F = some ((cs.flatMap recs)[j - 1]?, s2) ∧
      ((cs.flatMap recs)[j - 1]? ≠ none → some s2.lastPos = (recordPositions recs 0 cs)[j - 1]?) := by
  have hV : Valid H parse recs cs F := ⟨hv, hdec⟩
  obtain ⟨j, hst⟩ := hs.seqSt hv hdec
  obtain ⟨s0, e0, _⟩ := read_at (recovery := recovery) hV hst
  obtain ⟨s1, e1, h1⟩ := seekBack_spec (recovery := recovery) hV hst
  obtain ⟨s2, e2, h2, _⟩ := read_at (recovery := recovery) hV h1
  have hle : j ≤ (cs.flatMap recs).length := by
    obtain ⟨done, rest, rs, i, e, h, hk⟩ := hst
    rw [e]; simp [-List.length_flatMap]; omega
  obtain ⟨_, _, _, _, _, hr, _⟩ := h1
  exact ⟨j, s0, s1, s2, e0, hle, e1, hr.err, e2, h2⟩

/-- Stepping back over all records from the end, for example, is a history: `SeekBack` after reading the record before
the `j`-th makes it return again. The hypotheses are met by the example file, with a history which seeks in it. -/
example (H : Bytes → UInt64) : ValidFile H (Example.chunks H) (Example.file H) ∧
    (∀ c ∈ Example.chunks H, DecodesTo Example.parse c (Example.recs c)) ∧
    (∀ o ∈ [RecordOp.seekNumeric 100000, .read, .seek ⟨64, 2⟩, .read, .seekBack, .seekBack, .seek ⟨100170, 0⟩],
      RecordOpOk (Example.chunks H) (Example.file H) o) := by
  refine ⟨Example.valid H, Example.decodes H, ?_⟩
  intro o ho
  simp only [List.mem_cons, List.not_mem_nil, or_false] at ho
  rcases ho with rfl | rfl | rfl | rfl | rfl | rfl | rfl
  · show 100000 ≤ (Example.file H).length
    rw [Example.length]; decide
  · trivial
  · refine ⟨[Example.sig H], [Example.big H, Example.small H], rfl, ?_, Or.inr (by simp)⟩
    show 64 = (Example.sig H).endAt 0
    rw [Example.sig_end]
  · trivial
  · trivial
  · trivial
  · refine ⟨Example.chunks H, [], by simp, ?_, Or.inl rfl⟩
    show 100170 = fileEnd 0 [Example.sig H, Example.big H, Example.small H]
    simp only [fileEnd, Example.sig_end, Example.big_end, Example.small_end]

/-- Every history meeting `RecordOpOk` is really possible, by `C09_reader_is_cursor`; for example. -/
example (H : Bytes → UInt64) : ∃ s, HasHistory H Example.parse none (Example.chunks H) (Example.file H) s := by
  obtain ⟨rs, s, k, s', h1, h2, _⟩ := C09_reader_is_cursor (recovery := none) (hdr0 := List.replicate 40 0)
    (bh0 := List.replicate 24 0) (fs := [Example.file H]) (ops := [.seekNumeric 100000, .read, .seekBack])
    (Example.valid H) (Example.decodes H) (by simp) (by simp)
    ⟨by simp, fun f hf => by simp only [List.mem_singleton] at hf; subst hf; exact List.prefix_refl _⟩
    (by
      intro o ho
      simp only [List.mem_cons, List.not_mem_nil, or_false] at ho
      rcases ho with rfl | rfl | rfl
      · show 100000 ≤ (Example.file H).length
        rw [Example.length]; decide
      · trivial
      · trivial)
  refine ⟨s', List.replicate 40 0, List.replicate 24 0, [Example.file H], [.seekNumeric 100000, .read, .seekBack], rs, s, _,
    by simp, by simp, ⟨by simp, fun f hf => by simp only [List.mem_singleton] at hf; subst hf; exact List.prefix_refl _⟩, ?_, h1, h2⟩
  intro o ho
  simp only [List.mem_cons, List.not_mem_nil, or_false] at ho
  rcases ho with rfl | rfl | rfl
  · show 100000 ≤ (Example.file H).length
    rw [Example.length]; decide
  · trivial
  · trivial

/-- The hypotheses of C12 are met by the example file. -/
example (H : Bytes → UInt64) : ValidFile H (Example.chunks H) (Example.file H) ∧ 70000 ≤ (Example.file H).length ∧
    (∀ o ∈ [ChunkOp.readChunk, .seekToChunk .before 66000, .pullHeader], ChunkOpOk (Example.chunks H) (Example.file H) o) := by
  refine ⟨Example.valid H, by rw [Example.length]; decide, ?_⟩
  intro o ho
  simp only [List.mem_cons, List.not_mem_nil, or_false] at ho
  rcases ho with rfl | rfl | rfl
  · trivial
  · show 66000 ≤ (Example.file H).length
    rw [Example.length]; decide
  · trivial

end Riegeli.Props

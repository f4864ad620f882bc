import Verif.SeekProofs
import Verif.RecordReaderProofs
import Verif.Props.Positions
/-!
# Record level seeks on valid files: lemmas

The property theorems are in `Verif/Props/Seeking.lean`.
-/
namespace Riegeli
open CR Props

/-- Specification: `p` comes strictly before `q` (`record_position.h`: by `chunk_begin`, then `record_index`). -/
def RecordPosition.before (q p : RecordPosition) : Bool :=
  p.chunkBegin < q.chunkBegin || (p.chunkBegin = q.chunkBegin && p.recordIndex < q.recordIndex)

namespace RSeek
variable {H : Bytes → UInt64} {parse : Chunk → Option (List Nat × Bytes)}
  {recovery : Option (CR.Region → Bool)} {recs : Chunk → List Bytes} {cs : List Chunk} {F : Bytes}

theorem countP_range (m : Nat) : ∀ n, (List.range n).countP (fun i => decide (i < m)) = min m n
  | 0 => by simp
  | n + 1 => by
    rw [List.range_succ, List.countP_append, countP_range m n]
    simp only [List.countP_cons, List.countP_nil, decide_eq_true_eq]
    split <;> omega

/-- Setting of the lemmas: a valid file whose chunks decode. -/
structure Valid (H : Bytes → UInt64) (parse : Chunk → Option (List Nat × Bytes)) (recs : Chunk → List Bytes)
    (cs : List Chunk) (F : Bytes) : Prop where
  file : ValidFile H cs F
  dec : ∀ c ∈ cs, DecodesTo parse c (recs c)

theorem Valid.num (hv : Valid H parse recs cs F) : ∀ c ∈ cs, (recs c).length = Hdr.numRecords c.header :=
  fun c hc => (hv.dec c hc).2

/-- Positions of records in chunks before and after a boundary. -/
theorem split_positions (hv : Valid H parse recs cs F) {pre post : List Chunk} (e : cs = pre ++ post) :
    (∀ p ∈ recordPositions recs 0 pre, p.numeric < fileEnd 0 pre ∧ p.chunkBegin < fileEnd 0 pre) ∧
    (∀ p ∈ recordPositions recs (fileEnd 0 pre) post, fileEnd 0 pre ≤ p.numeric ∧ fileEnd 0 pre ≤ p.chunkBegin) := by
  have hok := (chunksOk_append 0 pre post).1 (e ▸ hv.file.ok)
  have hn := hv.num
  subst e
  have h1 := (positions_aux (recs := recs) pre 0 boundaryOk_zero hok.1 (fun c hc => hn c (by simp [hc])) (by omega)).1
  have hb := hok.1.laid.boundary boundaryOk_zero
  have hlt := hok.1.laid.fileEnd_lt (by omega) boundaryOk_zero
  have h2 := (positions_aux (recs := recs) post _ hb.1 hok.2 (fun c hc => hn c (by simp [hc])) hlt).1
  exact ⟨fun p hp => ⟨(h1 p hp).2.2.1, by have := (h1 p hp); omega⟩, fun p hp => ⟨(h2 p hp).2.1, (h2 p hp).2.2.2⟩⟩

theorem countP_all {α} {p : α → Bool} {l : List α} (h : ∀ a ∈ l, p a = true) : l.countP p = l.length :=
  List.countP_eq_length.2 h
theorem countP_none {α} {p : α → Bool} {l : List α} (h : ∀ a ∈ l, p a = false) : l.countP p = 0 :=
  List.countP_eq_zero.2 (fun a ha => by simp [h a ha])

theorem count_numeric_boundary (hv : Valid H parse recs cs F) {pre post : List Chunk} (e : cs = pre ++ post) :
    (recordPositions recs 0 cs).countP (fun p => decide (p.numeric < fileEnd 0 pre)) = (pre.flatMap recs).length := by
  obtain ⟨h1, h2⟩ := split_positions hv e
  rw [e, recordPositions_append, List.countP_append, countP_all, countP_none, recordPositions_length, Nat.add_zero]
  · intro p hp; have := h2 p hp; simp; omega
  · intro p hp; have := h1 p hp; simp; omega

theorem count_before_boundary (hv : Valid H parse recs cs F) {pre post : List Chunk} (e : cs = pre ++ post) :
    (recordPositions recs 0 cs).countP (fun p => RecordPosition.before ⟨fileEnd 0 pre, 0⟩ p) =
      (pre.flatMap recs).length := by
  obtain ⟨h1, h2⟩ := split_positions hv e
  rw [e, recordPositions_append, List.countP_append, countP_all, countP_none, recordPositions_length, Nat.add_zero]
  · intro p hp; have := h2 p hp; simp [RecordPosition.before]; omega
  · intro p hp; have := h1 p hp; simp [RecordPosition.before]; omega

theorem count_numeric_chunk (hv : Valid H parse recs cs F) {pre post : List Chunk} {c : Chunk}
    (e : cs = pre ++ c :: post) {n : Nat} (h1 : fileEnd 0 pre ≤ n)
    (h2 : n ≤ c.endAt (fileEnd 0 pre) ) :
    (recordPositions recs 0 cs).countP (fun p => decide (p.numeric < n)) =
      (pre.flatMap recs).length + min (n - fileEnd 0 pre) (recs c).length := by
  have hfe : fileEnd 0 (pre ++ [c]) = c.endAt (fileEnd 0 pre) := by rw [fileEnd_append]; rfl
  have hl := (hv.file.toLaid.chunkAt e).lt
  have hholds := (hv.file.toLaid.chunkAt e).holds.2.2.2
  have hnum := hv.num c (by simp [e])
  have s1 := (split_positions hv e).1
  have e' : cs = (pre ++ [c]) ++ post := by simp [e]
  have s2 := (split_positions hv e').2
  rw [hfe] at s2
  rw [e, recordPositions_append, List.countP_append, recordPositions, List.countP_append, countP_all,
    countP_none (l := recordPositions recs _ post), recordPositions_length, Nat.add_zero, List.countP_map]
  · congr 1
    rw [← countP_range]
    apply List.countP_congr
    intro i hi
    simp only [List.mem_range] at hi
    have hm : RecordPosition.numeric ⟨fileEnd 0 pre, i⟩ = fileEnd 0 pre + i := Nat.mod_eq_of_lt (by show fileEnd 0 pre + i < _; omega)
    simp only [Function.comp, hm, decide_eq_true_eq]
    omega
  · intro p hp; have := s2 p hp; simp; omega
  · intro p hp; have := s1 p hp; simp; omega

theorem count_before_chunk (hv : Valid H parse recs cs F) {pre post : List Chunk} {c : Chunk}
    (e : cs = pre ++ c :: post) (n : Nat) :
    (recordPositions recs 0 cs).countP (fun p => RecordPosition.before ⟨fileEnd 0 pre, n⟩ p) =
      (pre.flatMap recs).length + min n (recs c).length := by
  have hfe : fileEnd 0 (pre ++ [c]) = c.endAt (fileEnd 0 pre) := by rw [fileEnd_append]; rfl
  have hgt := (hv.file.toLaid.chunkAt e).holds.gt
  have s1 := (split_positions hv e).1
  have e' : cs = (pre ++ [c]) ++ post := by simp [e]
  have s2 := (split_positions hv e').2
  rw [hfe] at s2
  rw [e, recordPositions_append, List.countP_append, recordPositions, List.countP_append, countP_all,
    countP_none (l := recordPositions recs _ post), recordPositions_length, Nat.add_zero, List.countP_map]
  · congr 1
    rw [← countP_range]
    apply List.countP_congr
    intro i hi
    simp [Function.comp, RecordPosition.before]
  · intro p hp; have := s2 p hp; simp [RecordPosition.before]; omega
  · intro p hp; have := s1 p hp; simp [RecordPosition.before]; omega

/-- Reading the chunk at a boundary of the complete file. -/
theorem readChunk_full (hv : Valid H parse recs cs F) {pre post : List Chunk} {c : Chunk} (e : cs = pre ++ c :: post)
    {s : RR} (hr : Reading H F (fileEnd 0 pre) (c :: post) s.cr) (he : s.err = none) (hrcv : s.rcv = .no)
    (hsk : s.skipped = []) :
    ∃ s', s.readChunk H parse F = (true, s') ∧ RSt H recs F (pre ++ [c]) post (recs c) 0 s' ∧
      s'.chunkBegin = fileEnd 0 pre := by
  have hlen := (hv.file.toLaid.chunkAt e).len
  have hf := hv.file
  have hd := hv.dec c (by simp [e])
  subst e
  rcases seqReadChunk hf.ok hf.sig (by rw [← hf.bytes]; exact List.prefix_refl _) hr with
    ⟨c', cs', s1, h1, h2, h3, h4⟩ | ⟨s1, h1, h2, h3, -⟩
  · injection h1 with h1 h1'
    subst h1 h1'
    obtain ⟨d, ed, hda⟩ := DecAt.ofDecode hd
    refine ⟨{ s with chunkBegin := s.cr.pos, cr := s1, dec := d }, ?_, ⟨h4, hda, he, hrcv, hsk,
      Or.inr ⟨pre, c, rfl, hr.pos, rfl⟩⟩, hr.pos⟩
    simp only [RR.readChunk, h3, ed]
  · simp only [completeChunks] at h3
    rw [if_pos hlen] at h3
    simp at h3

theorem RSt.atSome {done rest : List Chunk} {rs : List Bytes} {i : Nat} {s : RR}
    (h : RSt H recs F done rest rs i s) (e : cs = done ++ rest) : AtSome H F cs s.cr := ⟨done, rest, e, h.cr⟩

/-- `Seek(RecordPosition)`. -/
theorem seek_spec (hv : Valid H parse recs cs F) {k : Nat} {s : RR} (hs : SeqSt H recs cs k F s)
    {p : RecordPosition} {pre post : List Chunk} (e : cs = pre ++ post) (hp : p.chunkBegin = fileEnd 0 pre)
    (hi : p.recordIndex = 0 ∨ post ≠ []) :
    ∃ s', s.seek H parse recovery F p = some (true, s') ∧
      SeqSt H recs cs ((recordPositions recs 0 cs).countP p.before) F s' := by
  obtain ⟨done, rest, rs, i, e0, h, hk⟩ := hs
  have hl := hv.file.toLaid
  obtain ⟨pcb, idx⟩ := p
  simp only at hp hi
  subst hp
  unfold RR.seek
  simp only
  rw [if_neg (by simp [h.err])]
  -- reading the chunk and setting the index
  have hread : ∀ t : RR, Reading H F (fileEnd 0 pre) post t.cr → t.err = none → t.rcv = .no → t.skipped = [] →
      idx ≠ 0 → ∃ s', (match t.readChunk H parse F with
        | (false, s1) => s1.tryRecovery H recovery F
        | (true, s1) => some (true, { s1 with dec := s1.dec.setIndex idx })) = some (true, s') ∧
      SeqSt H recs cs ((recordPositions recs 0 cs).countP (RecordPosition.before ⟨fileEnd 0 pre, idx⟩)) F s' := by
    intro t h1 h2 h3 h4 h5
    cases post with
    | nil => simp at hi; exact absurd hi h5
    | cons c post =>
      obtain ⟨s', g1, g2, g3⟩ := readChunk_full hv e h1 h2 h3 h4
      rw [g1]
      refine ⟨_, rfl, pre ++ [c], post, recs c, min idx (recs c).length, by simp [e],
        ⟨g2.cr, g2.dec.set, g2.err, g2.rcv, g2.skip, g2.cur⟩, ?_⟩
      rw [count_before_chunk hv e]
      simp [-List.length_flatMap]; omega
  by_cases hcb : fileEnd 0 pre = s.chunkBegin
  · rw [if_pos hcb]
    rcases h.cur with ⟨c1, c2⟩ | ⟨pre0, c, c1, c2, c3⟩
    · obtain ⟨rfl, rfl⟩ := SeekP.fileEnd_inj (H := H) boundaryOk_zero (e ▸ hl.laid) (e ▸ e0) (hcb.trans c1)
      have hpos := h.cr.pos
      by_cases h0 : idx = 0
      · rw [if_pos (Or.inl h0)]
        subst h0 c2
        refine ⟨_, rfl, pre, post, [], 0, e, ⟨h.cr, by simpa using h.dec.set (j := 0), h.err, h.rcv, h.skip, h.cur⟩, ?_⟩
        rw [count_before_boundary hv e]; simp
      · rw [if_neg (by omega)]
        exact hread _ h.cr h.err h.rcv h.skip h0
    · have e1 : cs = pre0 ++ c :: rest := by simp [e0, c1]
      obtain ⟨rfl, rfl⟩ := SeekP.fileEnd_inj (H := H) boundaryOk_zero (e ▸ hl.laid) (e ▸ e1) (hcb.trans c2)
      have hpos := h.cr.pos
      have hgt := (hl.chunkAt e).holds.gt
      have hfe : fileEnd 0 done = c.endAt (fileEnd 0 pre) := by rw [c1, fileEnd_append]; rfl
      rw [if_pos (Or.inr (by omega))]
      subst c3
      refine ⟨_, rfl, done, rest, recs c, min idx (recs c).length, e0,
        ⟨h.cr, h.dec.set, h.err, h.rcv, h.skip, h.cur⟩, ?_⟩
      rw [count_before_chunk hv e, c1]
      simp [-List.length_flatMap]; omega
  · rw [if_neg hcb]
    obtain ⟨cr', g1, g2⟩ := SeekP.seek_valid hl e (RSt.atSome h e0)
    rw [g1]
    simp only
    by_cases h0 : idx = 0
    · rw [if_pos h0]
      subst h0
      refine ⟨_, rfl, pre, post, [], 0, e, ⟨g2, DecAt.clear, h.err, h.rcv, h.skip, Or.inl ⟨g2.pos, rfl⟩⟩, ?_⟩
      rw [count_before_boundary hv e]; simp
    · rw [if_neg h0]
      exact hread _ g2 h.err h.rcv h.skip h0

/-- `Seek(Position)`. -/
theorem seekNumeric_spec (hv : Valid H parse recs cs F) {k : Nat} {s : RR} (hs : SeqSt H recs cs k F s)
    {n : Nat} (hn : n ≤ F.length) :
    ∃ s', s.seekNumeric H parse recovery F n = some (true, s') ∧
      SeqSt H recs cs ((recordPositions recs 0 cs).countP (fun p => decide (p.numeric < n))) F s' := by
  obtain ⟨done, rest, rs, i, e0, h, hk⟩ := hs
  have hl := hv.file.toLaid
  have hpos := h.cr.pos
  unfold RR.seekNumeric
  simp only
  rw [if_neg (by simp [h.err])]
  by_cases hin : s.chunkBegin ≤ n ∧ n ≤ s.cr.pos
  · rw [if_pos hin]
    rcases h.cur with ⟨c1, c2⟩ | ⟨pre0, c, c1, c2, c3⟩
    · have : n = fileEnd 0 done := by omega
      subst this c2
      refine ⟨_, rfl, done, rest, [], 0, e0, ⟨h.cr, by simpa using h.dec.set (j := fileEnd 0 done - s.chunkBegin), h.err, h.rcv, h.skip, h.cur⟩, ?_⟩
      rw [count_numeric_boundary hv e0]; simp
    · have e1 : cs = pre0 ++ c :: rest := by simp [e0, c1]
      have hfe : fileEnd 0 done = c.endAt (fileEnd 0 pre0) := by rw [c1, fileEnd_append]; rfl
      subst c3
      refine ⟨_, rfl, done, rest, recs c, min (n - s.chunkBegin) (recs c).length, e0,
        ⟨h.cr, h.dec.set, h.err, h.rcv, h.skip, h.cur⟩, ?_⟩
      rw [count_numeric_chunk hv e1 (by omega) (by omega), c1, c2]
      simp [-List.length_flatMap]; omega
  · rw [if_neg hin]
    obtain ⟨cr', g1, g2, g3⟩ := SeekP.seekToChunk_valid hl .containing hn (RSt.atSome h e0)
    rw [g1]
    simp only
    have hbd := (SeekP.AtSome.base g2).2.2.2.2
    obtain ⟨pre, post, e, hb⟩ := hbd
    have hrd := SeekP.AtSome.at hl e g2 hb
    have hcount : n ≤ cr'.pos → (recordPositions recs 0 cs).countP (fun p => decide (p.numeric < n)) =
        (pre.flatMap recs).length := by
      intro hle
      rcases g3 with ⟨pre1, c1, post1, e1, q1, q2, q3⟩ | ⟨hno, hna1, hna2, hna3⟩
      · have : n = fileEnd 0 pre := by omega
        rw [this]; exact count_numeric_boundary hv e
      · rcases List.eq_nil_or_concat pre with hnil | ⟨pre0, c, hpre⟩
        · subst hnil
          have h0 : n = 0 := by rw [hb] at hle; simpa [fileEnd] using hle
          rw [h0]; exact count_numeric_boundary hv e
        · rw [List.concat_eq_append] at hpre
          have e1 : cs = pre0 ++ c :: post := by simp [e, hpre]
          have hfe : fileEnd 0 pre = c.endAt (fileEnd 0 pre0) := by rw [hpre, fileEnd_append]; rfl
          have hgt := (hl.chunkAt e1).holds.gt
          have hlt : fileEnd 0 pre0 < n := by
            apply Nat.lt_of_not_le; intro hge
            have := hna3 (fileEnd 0 pre0) ⟨pre0, _, e1, rfl⟩ hge
            omega
          have hnr : fileEnd 0 pre0 + Hdr.numRecords c.header ≤ n := by
            apply Nat.le_of_not_lt; intro hge
            exact hno (fileEnd 0 pre0) ⟨pre0, c, post, e1, rfl, by omega, hge⟩
          have hnum := hv.num c (by simp [e1])
          rw [count_numeric_chunk hv e1 (by omega) (by omega), hpre]
          simp [-List.length_flatMap]; omega
    by_cases hle : n ≤ cr'.pos
    · rw [if_pos hle]
      refine ⟨_, rfl, pre, post, [], 0, e, ⟨hrd, DecAt.clear, h.err, h.rcv, h.skip, Or.inl ⟨hb, rfl⟩⟩, ?_⟩
      rw [hcount hle]; simp
    · rw [if_neg hle]
      rcases g3 with ⟨pre1, c1, post1, e1, q1, q2, q3⟩ | ⟨hno, hna1, hna2, hna3⟩
      · obtain ⟨rfl, rfl⟩ := SeekP.fileEnd_inj (H := H) boundaryOk_zero (e ▸ hl.laid) (e ▸ e1) (hb.symm.trans q1)
        obtain ⟨s', w1, w2, w3⟩ := readChunk_full hv e1 (s := { s with lastValid := false, cr := cr' }) hrd h.err h.rcv h.skip
        rw [w1]
        have hnr := (hl.chunkAt e1).holds.2.2.2
        refine ⟨_, rfl, pre ++ [c1], post1, recs c1, min (n - s'.chunkBegin) (recs c1).length, by simp [e1],
          ⟨w2.cr, w2.dec.set, w2.err, w2.rcv, w2.skip, w2.cur⟩, ?_⟩
        rw [count_numeric_chunk hv e1 (by omega) (by omega), w3]
        simp [-List.length_flatMap]; omega
      · omega

/-- A boundary is not strictly inside a chunk. -/
theorem boundary_outside {c : Chunk} : ∀ {pre post : List Chunk} {pos b : Nat}, BoundaryOk pos →
    ChunksLaid H pos (pre ++ c :: post) → IsBoundary pos (pre ++ c :: post) b →
    b ≤ fileEnd pos pre ∨ c.endAt (fileEnd pos pre) ≤ b
  | [], post, pos, b, hb, hl, h => by
    obtain ⟨_, _, _, he, hr⟩ := hl
    have hs := endAt_spec hb he
    rcases isBoundary_cons.1 h with h | h
    · left; simp [fileEnd, h]
    · right; exact h.ge hs.1.1 hr
  | d :: pre, post, pos, b, hb, hl, h => by
    obtain ⟨_, _, _, he, hr⟩ := hl
    have hs := endAt_spec hb he
    rcases isBoundary_cons.1 h with h | h
    · left
      have := ((((chunksLaid_append _ _ _).1 hr).1).boundary hs.1.1).2
      have := hs.1.gt
      simp only [fileEnd]; omega
    · exact boundary_outside (pre := pre) (pos := d.endAt pos) hs.1.1 hr h

theorem seekBackLoop_spec (hv : Valid H parse recs cs F) : ∀ (m : Nat) {k : Nat} {s : RR} {done rest : List Chunk}
    {rs : List Bytes} {pre post : List Chunk}, cs = done ++ rest → RSt H recs F done rest rs 0 s →
    (done.flatMap recs).length = k + rs.length → cs = pre ++ post → (pre.flatMap recs).length = k →
    fileEnd 0 pre + s.chunkBegin < m →
    ∃ s', s.seekBackLoop H parse recovery F (fileEnd 0 pre) = some (decide (0 < k), s') ∧
      SeqSt H recs cs (k - 1) F s' := by
  intro m
  induction m with
  | zero => intro k s done rest rs pre post _ _ _ _ _ h; omega
  | succ m ih =>
    intro k s done rest rs pre post e0 h hk e hk' hm
    have hl := hv.file.toLaid
    rw [RR.seekBackLoop]
    rcases List.eq_nil_or_concat pre with hnil | ⟨pre0, c, hpre⟩
    · subst hnil
      simp only [List.flatMap_nil, List.length_nil] at hk'
      subst hk'
      rw [if_pos (show fileEnd 0 [] = 0 from rfl)]
      exact ⟨s, rfl, done, rest, rs, 0, e0, h, hk⟩
    · rw [List.concat_eq_append] at hpre
      have e1 : cs = pre0 ++ c :: post := by simp [e, hpre]
      have hfe : fileEnd 0 pre = c.endAt (fileEnd 0 pre0) := by rw [hpre, fileEnd_append]; rfl
      have hgt := (hl.chunkAt e1).holds.gt
      have hb := (hl.boundary e).2
      rw [if_neg (by omega)]
      obtain ⟨cr', g1, g2, g3, g4, g5⟩ := SeekP.seekToChunk_valid hl .before (p := fileEnd 0 pre - 1) (by omega) (RSt.atSome h e0)
      rw [g1]
      simp only
      have hpos : cr'.pos = fileEnd 0 pre0 := by
        have a1 := g5 (fileEnd 0 pre0) ⟨pre0, _, e1, rfl⟩ (by omega)
        rcases boundary_outside (H := H) boundaryOk_zero (e1 ▸ hl.laid) (e1 ▸ g3) with a | a <;> omega
      have hrd := SeekP.AtSome.at hl e1 g2 hpos
      obtain ⟨s', w1, w2, w3⟩ := readChunk_full hv e1 (s := { s with cr := cr' }) hrd h.err h.rcv h.skip
      rw [w1]
      simp only
      rw [w2.dec.num]
      have hlen : (pre0.flatMap recs).length + (recs c).length = k := by
        rw [← hk', hpre]; simp [-List.length_flatMap]
      have e2 : cs = (pre0 ++ [c]) ++ post := by simp [e1]
      by_cases hn : (recs c).length > 0
      · rw [if_pos hn]
        refine ⟨{ s' with dec := s'.dec.setIndex ((recs c).length - 1) }, ?_, ?_⟩
        · rw [show decide (0 < k) = true by simp; omega]
        · refine ⟨pre0 ++ [c], post, recs c, min ((recs c).length - 1) (recs c).length, e2,
            ⟨w2.cr, w2.dec.set, w2.err, w2.rcv, w2.skip, w2.cur⟩, ?_⟩
          simp [-List.length_flatMap]; omega
      · rw [if_neg hn]
        have hrc : recs c = [] := List.eq_nil_of_length_eq_zero (by omega)
        have hcbB : ∃ pre2 post2, cs = pre2 ++ post2 ∧ s.chunkBegin = fileEnd 0 pre2 ∧ (pre2.flatMap recs).length = k := by
          rcases h.cur with ⟨c1, c2⟩ | ⟨pre2, c2, q1, q2, q3⟩
          · refine ⟨done, rest, e0, c1, ?_⟩
            subst c2; simpa using hk
          · refine ⟨pre2, c2 :: rest, by simp [e0, q1], q2, ?_⟩
            subst q3
            rw [q1] at hk
            simp [-List.length_flatMap] at hk; exact hk
        obtain ⟨pre2, post2, b1, b2, b3⟩ := hcbB
        rw [hrc] at w2
        simp only [b2]
        have := ih (s := s') e2 w2 (k := k) (by simp [-List.length_flatMap]; omega) b1 b3 (by rw [w3, ← b2]; omega)
        exact this

/-- `SeekBack()`. -/
theorem seekBack_spec (hv : Valid H parse recs cs F) {k : Nat} {s : RR} (hs : SeqSt H recs cs k F s) :
    ∃ s', s.seekBack H parse recovery F = some (decide (0 < k), s') ∧ SeqSt H recs cs (k - 1) F s' := by
  obtain ⟨done, rest, rs, i, e0, h, hk⟩ := hs
  unfold RR.seekBack
  rw [if_neg (by simp [h.err])]
  simp only
  have hidx := h.dec.index
  have hle := h.dec.le
  by_cases hi : s.dec.index > 0
  · rw [if_pos hi]
    have hkpos : 0 < k := by
      rcases h.cur with ⟨c1, c2⟩ | ⟨pre2, c2, q1, q2, q3⟩
      · subst c2; simp at hle; omega
      · subst q3; rw [q1] at hk; simp [-List.length_flatMap] at hk; omega
    refine ⟨{ s with lastValid := false, dec := s.dec.setIndex (s.dec.index - 1) }, by simp [hkpos], done, rest, rs,
      min (s.dec.index - 1) rs.length, e0, ⟨h.cr, h.dec.set, h.err, h.rcv, h.skip, h.cur⟩, ?_⟩
    omega
  · rw [if_neg hi]
    have hi0 : i = 0 := by omega
    subst hi0
    have hcbB : ∃ pre2 post2, cs = pre2 ++ post2 ∧ s.chunkBegin = fileEnd 0 pre2 ∧ (pre2.flatMap recs).length = k := by
      rcases h.cur with ⟨c1, c2⟩ | ⟨pre2, c2, q1, q2, q3⟩
      · refine ⟨done, rest, e0, c1, ?_⟩
        subst c2; simpa using hk
      · refine ⟨pre2, c2 :: rest, by simp [e0, q1], q2, ?_⟩
        subst q3
        rw [q1] at hk
        simp [-List.length_flatMap] at hk; exact hk
    obtain ⟨pre2, post2, b1, b2, b3⟩ := hcbB
    have := seekBackLoop_spec (recovery := recovery) hv _ e0 (h.setLast (b := false)) (by simpa using hk) b1 b3 (Nat.lt_succ_self _)
    rw [← b2] at this
    exact this

/-- `pos()` identifies the place of the reader. -/
theorem pos_spec (hv : Valid H parse recs cs F) {k : Nat} {s : RR} (hs : SeqSt H recs cs k F s) :
    (∃ pre post, cs = pre ++ post ∧ s.pos.chunkBegin = fileEnd 0 pre ∧ (s.pos.recordIndex = 0 ∨ post ≠ [])) ∧
    (recordPositions recs 0 cs).countP s.pos.before = k := by
  obtain ⟨done, rest, rs, i, e0, h, hk⟩ := hs
  have hpos := h.cr.pos
  have hle := h.dec.le
  unfold RR.pos
  rw [h.dec.num, h.dec.index, h.rcv]
  by_cases hi : i < rs.length
  · rw [if_pos (Or.inl hi)]
    rcases h.cur with ⟨c1, c2⟩ | ⟨pre2, c2, q1, q2, q3⟩
    · subst c2; simp at hi
    · have e1 : cs = pre2 ++ c2 :: rest := by simp [e0, q1]
      refine ⟨⟨pre2, c2 :: rest, e1, q2, by simp⟩, ?_⟩
      rw [q2, count_before_chunk hv e1]
      subst q3; rw [q1] at hk; simp [-List.length_flatMap] at hk; omega
  · rw [if_neg (by simp; omega)]
    refine ⟨⟨done, rest, e0, hpos, Or.inl rfl⟩, ?_⟩
    rw [hpos, count_before_boundary hv e0]; omega

end RSeek
end Riegeli

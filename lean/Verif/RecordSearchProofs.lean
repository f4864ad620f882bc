import Verif.RecordSearch
import Verif.RecordSeek
/-!
# `RecordReader::Search` on a valid file: lemmas
-/
namespace Riegeli
open CR Props

namespace RSearch
variable {H : Bytes → UInt64} {parse : Chunk → Option (List Nat × Bytes)}
  {recovery : Option (CR.Region → Bool)} {recs : Chunk → List Bytes} {cs : List Chunk} {F : Bytes}

/-- The chunk beginning at `p`: index of its first record, and the chunk. -/
def chunkInfo (recs : Chunk → List Bytes) : Nat → List Chunk → Nat → Nat → Option (Nat × Chunk)
  | _, [], _, _ => none
  | pos, c :: cs, k, p => if p = pos then some (k, c) else chunkInfo recs (c.endAt pos) cs (k + (recs c).length) p

theorem chunkInfo_at : ∀ {pre post : List Chunk} {c : Chunk} {pos k : Nat}, BoundaryOk pos →
    ChunksLaid H pos (pre ++ c :: post) →
    chunkInfo recs pos (pre ++ c :: post) k (fileEnd pos pre) = some (k + (pre.flatMap recs).length, c)
  | [], post, c, pos, k, _, _ => by simp [chunkInfo, fileEnd]
  | d :: pre, post, c, pos, k, hb, hl => by
    obtain ⟨_, _, _, he, hr⟩ := hl
    have hs := endAt_spec hb he
    have hge := ((((chunksLaid_append _ _ _).1 hr).1).boundary hs.1.1).2
    have hgt := hs.1.gt
    simp only [List.cons_append, chunkInfo, fileEnd]
    rw [if_neg (by omega), chunkInfo_at hs.1.1 hr]
    simp [-List.length_flatMap]; omega

/-- Index of the first of `n` records from `k` which is not unordered. -/
def firstIdx (T : Nat → POrd) (k n : Nat) : Option Nat := (List.range n).find? (fun i => T (k + i) != .unordered)

theorem firstIdx_some {T : Nat → POrd} {k n i : Nat} (h : firstIdx T k n = some i) :
    i < n ∧ T (k + i) ≠ .unordered ∧ ∀ j, j < i → T (k + j) = .unordered := by
  unfold firstIdx at h
  rw [List.find?_range_eq_some] at h
  refine ⟨by simpa using h.2.1, by simpa using h.1, ?_⟩
  intro j hj
  have := h.2.2 j hj
  simpa using this

theorem firstIdx_none {T : Nat → POrd} {k n : Nat} (h : firstIdx T k n = none) (j : Nat) (hj : j < n) :
    T (k + j) = .unordered := by
  unfold firstIdx at h
  rw [List.find?_eq_none] at h
  simpa using h j (List.mem_range.2 hj)

/-- How the chunk at `p` is judged. -/
def chunkT (recs : Chunk → List Bytes) (cs : List Chunk) (T : Nat → POrd) (p : Nat) : POrd :=
  match chunkInfo recs 0 cs 0 p with
  | none => .unordered
  | some (k, c) =>
    match firstIdx T k (recs c).length with
    | none => .unordered
    | some i => T (k + i)

/-- The position provided by the test of the chunk at `p`. -/
def chunkN (recs : Chunk → List Bytes) (cs : List Chunk) (T : Nat → POrd) (p : Nat) : Nat :=
  if (chunkT recs cs T p).stops then p
  else match chunkInfo recs 0 cs 0 p with
    | none => p
    | some (_, c) => c.endAt p

/-- The test of the chunk at `p` cancels the search. -/
def chunkCancel (recs : Chunk → List Bytes) (cs : List Chunk) (ord : Nat → Option POrd) (p : Nat) : Prop :=
  ∃ k c i, chunkInfo recs 0 cs 0 p = some (k, c) ∧ i < (recs c).length ∧ ord (k + i) = none ∧
    ∀ j, j < i → ord (k + j) = some .unordered

/-- What `less_found` should be, given the last tested `less` chunk. -/
def lessOf (recs : Chunk → List Bytes) (cs : List Chunk) (T : Nat → POrd) (o : Option Nat) : Option (Nat × Nat × Nat) :=
  match o with
  | none => none
  | some p =>
    match chunkInfo recs 0 cs 0 p with
    | none => none
    | some (k, c) => some (p, (firstIdx T k (recs c).length).getD 0 + 1, (recs c).length)

/-- What `greater_record_index` should be, given the last tested `equivalent` or `greater` chunk. -/
def greaterOf (recs : Chunk → List Bytes) (cs : List Chunk) (T : Nat → POrd) (o : Option Nat) : Nat :=
  match o with
  | none => 0
  | some p =>
    match chunkInfo recs 0 cs 0 p with
    | none => 0
    | some (k, c) => (firstIdx T k (recs c).length).getD 0

/-- How many records of a chunk are tested. -/
def callLen (ord : Nat → Option POrd) (k n : Nat) : Nat :=
  match (List.range n).find? (fun i => ord (k + i) != some .unordered) with
  | some i => i + 1
  | none => n

/-- The records tested by the test of the chunk at `p`. -/
def chunkCalls (recs : Chunk → List Bytes) (cs : List Chunk) (ord : Nat → Option POrd) (p : Nat) : List Nat :=
  match chunkInfo recs 0 cs 0 p with
  | none => []
  | some (k, c) => (List.range (callLen ord k (recs c).length)).map (k + ·)

/-- The position of the `k`-th record. -/
def posOf (recs : Chunk → List Bytes) (cs : List Chunk) (k : Nat) : RecordPosition :=
  (recordPositions recs 0 cs).getD k ⟨0, 0⟩

/-- What is known about the local variables. -/
def Locals (recs : Chunk → List Bytes) (cs : List Chunk) (T : Nat → POrd) (ord : Nat → Option POrd) (tr : List Nat)
    (s : RR.SearchSt) : Prop :=
  s.calls = (tr.flatMap (chunkCalls recs cs ord)).map (posOf recs cs) ∧
  ((∀ t ∈ tr, ¬ chunkCancel recs cs ord t) →
    s.lessFound = lessOf recs cs T (lastWith (fun p => chunkT recs cs T p == .less) tr) ∧
    s.greaterIndex = greaterOf recs cs T (lastWith (fun p => (chunkT recs cs T p).stops) tr))

/-- What is known between tests. -/
def SInv (H : Bytes → UInt64) (recs : Chunk → List Bytes) (cs : List Chunk) (F : Bytes) (T : Nat → POrd)
    (ord : Nat → Option POrd) (tr : List Nat) (s : RR.SearchSt) : Prop :=
  (∃ k, SeqSt H recs cs k F s.rr) ∧ Locals recs cs T ord tr s

/-- What is known before a test: `Middle` has moved the chunk reader. -/
def SMid (H : Bytes → UInt64) (recs : Chunk → List Bytes) (cs : List Chunk) (F : Bytes) (T : Nat → POrd)
    (ord : Nat → Option POrd) (tr : List Nat) (s : RR.SearchSt) : Prop :=
  (AtSome H F cs s.rr.cr ∧ s.rr.err = none ∧ s.rr.rcv = .no ∧ s.rr.skipped = []) ∧ Locals recs cs T ord tr s

/-- The assumption about the user's test function: at the `k`-th record it returns `ord k`, and leaves the reader ok, and
in the same chunk. -/
def TestOk (H : Bytes → UInt64) (recs : Chunk → List Bytes) (cs : List Chunk) (F : Bytes)
    (test : RR → Option (Option POrd × RR)) (ord : Nat → Option POrd) : Prop :=
  ∀ pre c post i s, cs = pre ++ c :: post → RSt H recs F (pre ++ [c]) post (recs c) i s → i < (recs c).length →
    ∃ s' k', test s = some (ord ((pre.flatMap recs).length + i), s') ∧ SeqSt H recs cs k' F s' ∧ s'.cr.pos = s.cr.pos

variable {test : RR → Option (Option POrd × RR)} {ord : Nat → Option POrd} {T : Nat → POrd}

theorem info (hv : RSeek.Valid H parse recs cs F) {pre post : List Chunk} {c : Chunk} (e : cs = pre ++ c :: post) :
    chunkInfo recs 0 cs 0 (fileEnd 0 pre) = some ((pre.flatMap recs).length, c) := by
  have := chunkInfo_at (recs := recs) (k := 0) boundaryOk_zero (e ▸ hv.file.ok.laid)
  rw [Nat.zero_add] at this
  rw [e]; exact this

/-- `Seek` to a record, when it must leave the reader inside the chunk. -/
theorem seek_in_chunk (hv : RSeek.Valid H parse recs cs F) {k : Nat} {s : RR} (hs : SeqSt H recs cs k F s)
    {pre post : List Chunk} {c : Chunk} (e : cs = pre ++ c :: post) {i : Nat} (hi : i < (recs c).length)
    (h0 : i = 0 → s.chunkBegin = fileEnd 0 pre ∧ s.cr.pos = c.endAt (fileEnd 0 pre)) :
    ∃ s', s.seek H parse recovery F ⟨fileEnd 0 pre, i⟩ = some (true, s') ∧
      RSt H recs F (pre ++ [c]) post (recs c) i s' := by
  obtain ⟨done, rest, rs, i0, e0, h, hk⟩ := hs
  have hl := hv.file.toLaid
  have hmin : min i (recs c).length = i := by omega
  unfold RR.seek
  simp only
  rw [if_neg (by simp [h.err])]
  have hread : ∀ t : RR, Reading H F (fileEnd 0 pre) (c :: post) t.cr → t.err = none → t.rcv = .no → t.skipped = [] →
      ∃ s', (match t.readChunk H parse F with
        | (false, s1) => s1.tryRecovery H recovery F
        | (true, s1) => some (true, { s1 with dec := s1.dec.setIndex i })) = some (true, s') ∧
      RSt H recs F (pre ++ [c]) post (recs c) i s' := by
    intro t h1 h2 h3 h4
    obtain ⟨s', g1, g2, g3⟩ := RSeek.readChunk_full hv e h1 h2 h3 h4
    rw [g1]
    exact ⟨_, rfl, ⟨g2.cr, by have := g2.dec.set (j := i); rwa [hmin] at this, g2.err, g2.rcv, g2.skip, g2.cur⟩⟩
  by_cases hcb : fileEnd 0 pre = s.chunkBegin
  · rw [if_pos hcb]
    rcases h.cur with ⟨c1, c2⟩ | ⟨pre0, c', c1, c2, c3⟩
    · obtain ⟨rfl, rfl⟩ := SeekP.fileEnd_inj (H := H) boundaryOk_zero (e ▸ hl.laid) (e ▸ e0) (hcb.trans c1)
      have hpos := h.cr.pos
      have hne : i ≠ 0 := by
        intro hz
        have := h0 hz
        have hgt := (hl.chunkAt e).holds.gt
        omega
      rw [if_neg (by omega)]
      exact hread _ h.cr h.err h.rcv h.skip
    · have e1 : cs = pre0 ++ c' :: rest := by simp [e0, c1]
      obtain ⟨rfl, h2⟩ := SeekP.fileEnd_inj (H := H) boundaryOk_zero (e ▸ hl.laid) (e ▸ e1) (hcb.trans c2)
      injection h2 with h2 h3
      subst h2 h3
      have hpos := h.cr.pos
      have hgt := (hl.chunkAt e).holds.gt
      have hfe : fileEnd 0 done = c.endAt (fileEnd 0 pre) := by rw [c1, fileEnd_append]; rfl
      rw [if_pos (Or.inr (by omega))]
      subst c3 c1
      exact ⟨_, rfl, ⟨h.cr, by have := h.dec.set (j := i); rwa [hmin] at this, h.err, h.rcv, h.skip, Or.inr ⟨pre, c, rfl, c2, rfl⟩⟩⟩
  · rw [if_neg hcb]
    obtain ⟨cr', g1, g2⟩ := SeekP.seek_valid hl e (RSeek.RSt.atSome h e0)
    rw [g1]
    simp only
    have hne : i ≠ 0 := fun hz => hcb (h0 hz).1.symm
    rw [if_neg hne]
    exact hread _ g2 h.err h.rcv h.skip

theorem RSt.seqSt {pre post : List Chunk} {c : Chunk} {i : Nat} {s : RR} (e : cs = pre ++ c :: post)
    (h : RSt H recs F (pre ++ [c]) post (recs c) i s) : SeqSt H recs cs ((pre.flatMap recs).length + i) F s := by
  refine ⟨pre ++ [c], post, recs c, i, by simp [e], h, ?_⟩
  have := h.dec.le
  simp [-List.length_flatMap]; omega

theorem RSt.endPos {pre post : List Chunk} {c : Chunk} {i : Nat} {s : RR}
    (h : RSt H recs F (pre ++ [c]) post (recs c) i s) : s.cr.pos = c.endAt (fileEnd 0 pre) := by
  rw [h.cr.pos, fileEnd_append]; rfl

theorem SeqSt.err {k : Nat} {s : RR} (h : SeqSt H recs cs k F s) : s.err = none := by
  obtain ⟨_, _, _, _, _, h, _⟩ := h; exact h.err

theorem posOf_at {pre post : List Chunk} {c : Chunk} (e : cs = pre ++ c :: post) {i : Nat} (hi : i < (recs c).length) :
    posOf recs cs ((pre.flatMap recs).length + i) = ⟨fileEnd 0 pre, i⟩ := by
  unfold posOf
  rw [List.getD_eq_getElem?_getD, e, recordPositions_at hi]; rfl

/-- Judging a chunk. -/
theorem chunkLoop_spec (hv : RSeek.Valid H parse recs cs F) (ht : TestOk H recs cs F test ord)
    {pre post : List Chunk} {c : Chunk} (e : cs = pre ++ c :: post) (K n : Nat) (hK : K = (pre.flatMap recs).length)
    (hn : n = (recs c).length) :
    ∀ (m : Nat) (s : RR.SearchSt), m ≤ n → (∀ j, j < n - m → ord (K + j) = some .unordered) →
      (∃ k, SeqSt H recs cs k F s.rr) → s.rr.cr.pos = c.endAt (fileEnd 0 pre) →
      (m = n → s.rr.chunkBegin = fileEnd 0 pre) →
      ∃ r s' l, RR.searchChunkLoop H parse recovery test F (fileEnd 0 pre) n m s = some (r, s') ∧
        (∃ k, SeqSt H recs cs k F s'.rr) ∧ n - m ≤ l ∧ l ≤ n ∧
        s'.calls = s.calls ++ (List.range' (n - m) (l - (n - m))).map (fun j => posOf recs cs (K + j)) ∧
        ((∃ i, i < n ∧ l = i + 1 ∧ (∀ j, j < i → ord (K + j) = some .unordered) ∧ ord (K + i) = none ∧ r = none) ∨
         (∃ i o, i < n ∧ l = i + 1 ∧ (∀ j, j < i → ord (K + j) = some .unordered) ∧ ord (K + i) = some o ∧ o ≠ .unordered ∧
            r = some (o, if o.stops then fileEnd 0 pre else c.endAt (fileEnd 0 pre)) ∧
            s'.lessFound = (if o = .less then some (fileEnd 0 pre, i + 1, n) else s.lessFound) ∧
            s'.greaterIndex = (if o.stops then i else s.greaterIndex)) ∨
         (l = n ∧ (∀ j, j < n → ord (K + j) = some .unordered) ∧ r = some (.unordered, c.endAt (fileEnd 0 pre)) ∧
            s'.lessFound = s.lessFound ∧ s'.greaterIndex = s.greaterIndex)) := by
  intro m
  induction m with
  | zero =>
    intro s _ hu hs hp _
    refine ⟨_, s, n, rfl, hs, by omega, Nat.le_refl _, by simp, Or.inr (Or.inr ⟨rfl, hu, ?_, rfl, rfl⟩)⟩
    rw [hp]
  | succ m ih =>
    intro s hm hu ⟨k, hs⟩ hp hcb
    have hi : n - (m + 1) < (recs c).length := by omega
    obtain ⟨s1, e1, h1⟩ := seek_in_chunk (recovery := recovery) hv hs e hi (fun hz => ⟨hcb (by omega), hp⟩)
    obtain ⟨s2, k2, e2, h2, h2p⟩ := ht pre c post _ s1 e h1 hi
    have hp2 : s2.cr.pos = c.endAt (fileEnd 0 pre) := by rw [h2p, RSt.endPos h1]
    have hpos := posOf_at (recs := recs) e hi
    rw [← hK] at e2 hpos
    have hr1 : List.range' (n - (m + 1)) (n - (m + 1) + 1 - (n - (m + 1))) = [n - (m + 1)] := by
      rw [show n - (m + 1) + 1 - (n - (m + 1)) = 1 by omega]; rfl
    rw [RR.searchChunkLoop, e1]
    simp only [e2]
    rw [if_neg (by simp [SeqSt.err h2])]
    cases ho : ord (K + (n - (m + 1))) with
    | none =>
      refine ⟨_, _, n - (m + 1) + 1, rfl, ⟨k2, h2⟩, by omega, by omega, ?_, Or.inl ⟨n - (m + 1), by omega, rfl, hu, ho, rfl⟩⟩
      simp only [hr1, List.map_cons, List.map_nil, hpos]
    | some o =>
      cases o with
      | less =>
        refine ⟨_, _, n - (m + 1) + 1, rfl, ⟨k2, h2⟩, by omega, by omega, ?_,
          Or.inr (Or.inl ⟨n - (m + 1), .less, by omega, rfl, hu, ho, by simp, ?_, ?_, ?_⟩)⟩
        · simp only [hr1, List.map_cons, List.map_nil, hpos]
        · simp [hp2, POrd.stops]
        · simp
        · simp [POrd.stops]
      | equivalent =>
        refine ⟨_, _, n - (m + 1) + 1, rfl, ⟨k2, h2⟩, by omega, by omega, ?_,
          Or.inr (Or.inl ⟨n - (m + 1), .equivalent, by omega, rfl, hu, ho, by simp, ?_, ?_, ?_⟩)⟩
        · simp only [hr1, List.map_cons, List.map_nil, hpos]
        · simp [POrd.stops]
        · simp
        · simp [POrd.stops]
      | greater =>
        refine ⟨_, _, n - (m + 1) + 1, rfl, ⟨k2, h2⟩, by omega, by omega, ?_,
          Or.inr (Or.inl ⟨n - (m + 1), .greater, by omega, rfl, hu, ho, by simp, ?_, ?_, ?_⟩)⟩
        · simp only [hr1, List.map_cons, List.map_nil, hpos]
        · simp [POrd.stops]
        · simp
        · simp [POrd.stops]
      | unordered =>
        have hu' : ∀ j, j < n - m → ord (K + j) = some .unordered := by
          intro j hj
          rcases Nat.lt_or_ge j (n - (m + 1)) with h | h
          · exact hu j h
          · rw [show j = n - (m + 1) by omega]; exact ho
        obtain ⟨r, s', l, g1, g2, g3, g4, g5, g6⟩ := ih ⟨s2, s.lessFound, s.greaterIndex, s.calls ++ [⟨fileEnd 0 pre, n - (m + 1)⟩]⟩
          (by omega) hu' ⟨k2, h2⟩ hp2 (by omega)
        have hle : n - (m + 1) ≤ l := by clear g6; omega
        have hl1 : l - (n - (m + 1)) = (l - (n - m)) + 1 := by clear g6; omega
        refine ⟨r, s', l, g1, g2, hle, g4, ?_, g6⟩
        rw [g5, List.append_assoc]
        congr 1
        rw [hl1, List.range'_succ, List.map_cons, hpos,
          show n - (m + 1) + 1 = n - m by clear g6; omega]
        rfl

theorem callLen_of_some {k n i : Nat} (hi : i < n) (h : ∀ j, j < i → ord (k + j) = some .unordered)
    (h' : ord (k + i) ≠ some .unordered) : callLen ord k n = i + 1 := by
  have : (List.range n).find? (fun i => ord (k + i) != some .unordered) = some i := by
    rw [List.find?_range_eq_some]
    exact ⟨by simpa using h', by simpa using hi, fun j hj => by simp [h j hj]⟩
  unfold callLen; rw [this]

theorem callLen_of_none {k n : Nat} (h : ∀ j, j < n → ord (k + j) = some .unordered) : callLen ord k n = n := by
  have : (List.range n).find? (fun i => ord (k + i) != some .unordered) = none := by
    rw [List.find?_eq_none]
    intro j hj
    simp [h j (List.mem_range.1 hj)]
  unfold callLen; rw [this]

theorem firstIdx_of_some {k n i : Nat} (hi : i < n) (h : ∀ j, j < i → T (k + j) = .unordered)
    (h' : T (k + i) ≠ .unordered) : firstIdx T k n = some i := by
  unfold firstIdx
  rw [List.find?_range_eq_some]
  exact ⟨by simpa using h', by simpa using hi, fun j hj => by simp [h j hj]⟩

theorem firstIdx_of_none {k n : Nat} (h : ∀ j, j < n → T (k + j) = .unordered) : firstIdx T k n = none := by
  unfold firstIdx
  rw [List.find?_eq_none]
  intro j hj
  simp [h j (List.mem_range.1 hj)]

theorem Locals.snoc_cancel {tr : List Nat} {p : Nat} {s : RR.SearchSt}
    (hc : s.calls = ((tr ++ [p]).flatMap (chunkCalls recs cs ord)).map (posOf recs cs)) (h : chunkCancel recs cs ord p) :
    Locals recs cs T ord (tr ++ [p]) s :=
  ⟨hc, fun hn => absurd h (hn p (by simp))⟩

theorem boundary_chunk (hv : RSeek.Valid H parse recs cs F) {p : Nat} (hp : IsBoundary 0 cs p) (hlt : p < F.length) :
    ∃ pre c post, cs = pre ++ c :: post ∧ p = fileEnd 0 pre := by
  obtain ⟨pre, post, e, h⟩ := hp
  cases post with
  | nil =>
    rw [List.append_nil] at e
    rw [hv.file.toLaid.length, e, ← h] at hlt
    omega
  | cons c post => exact ⟨pre, c, post, e, h⟩

theorem chunkSearcher_ok (hv : RSeek.Valid H parse recs cs F) (ht : TestOk H recs cs F test ord)
    (hT : ∀ k o, ord k = some o → T k = o) :
    SearcherOk (RR.chunkSearcher H parse recovery test F) (SInv H recs cs F T ord) (SMid H recs cs F T ord)
      (IsBoundary 0 cs) (chunkT recs cs T) (chunkN recs cs T) (chunkCancel recs cs ord) 0 F.length := by
  have hl := hv.file.toLaid
  refine ⟨⟨[], cs, rfl, rfl⟩, ?_, ?_, ?_, ?_, ?_, ?_⟩
  · intro l h; simp [RR.chunkSearcher]
  · intro tr s l h ⟨⟨k, hs⟩, hloc⟩ hI _ hh
    simp only [RR.chunkSearcher, RR.searchMiddle]
    by_cases hhl : h ≤ l
    · rw [if_pos hhl]
      exact ⟨none, s, rfl, fun _ => ⟨⟨⟨k, hs⟩, hloc⟩, hhl⟩, by simp⟩
    · rw [if_neg hhl]
      obtain ⟨done, rest, rs, i, e0, h0, hk⟩ := hs
      obtain ⟨cr', g1, g2, g3, g4, g5⟩ := SeekP.seekToChunk_valid hl .before (p := l + (h - l) / 2) (by omega) (RSeek.RSt.atSome h0 e0)
      rw [g1]
      refine ⟨_, _, rfl, by simp, ?_⟩
      intro m hm
      simp only [Option.some.injEq] at hm
      subst hm
      exact ⟨⟨⟨g2, h0.err, h0.rcv, h0.skip⟩, hloc⟩, g3, g5 l hI (by omega), by omega⟩
  · intro tr s ⟨⟨k, done, rest, rs, i, e0, h0, hk⟩, hloc⟩
    exact ⟨⟨RSeek.RSt.atSome h0 e0, h0.err, h0.rcv, h0.skip⟩, hloc⟩
  · intro tr s p ⟨⟨m1, m2, m3, m4⟩, hloc⟩ hI _ hlt
    obtain ⟨pre, c, post, e, rfl⟩ := boundary_chunk hv hI hlt
    have hinfo := info hv e
    obtain ⟨cr', g1, g2⟩ := SeekP.seek_valid hl e m1
    obtain ⟨s1, w1, w2, w3⟩ := RSeek.readChunk_full hv e (s := { s.rr with cr := cr' }) g2 m2 m3 m4
    have hn : s1.dec.numRecords = (recs c).length := w2.dec.num
    obtain ⟨r, s', l, q1, q2, _, q4, q5, q6⟩ := chunkLoop_spec (recovery := recovery) hv ht e _ _ rfl rfl (recs c).length
      { s with rr := s1 } (Nat.le_refl _) (fun j hj => by omega) ⟨_, RSt.seqSt e w2⟩ (RSt.endPos w2) (fun _ => w3)
    have htest : (RR.chunkSearcher H parse recovery test F).test s (fileEnd 0 pre) = some (r, s') := by
      simp only [RR.chunkSearcher, RR.searchTestChunk, g1, w1, hn, w3, q1]
    rw [htest]
    have hcalls : l = callLen ord (pre.flatMap recs).length (recs c).length →
        s'.calls = ((tr ++ [fileEnd 0 pre]).flatMap (chunkCalls recs cs ord)).map (posOf recs cs) := by
      intro hl
      rw [q5, List.flatMap_append, List.map_append, ← hloc.1, List.flatMap_singleton]
      simp only [Nat.sub_self, Nat.sub_zero, chunkCalls, hinfo, ← hl, List.map_map, List.range_eq_range']
      rfl
    rcases q6 with ⟨i, hi, rfl, hu, ho, rfl⟩ | ⟨i, o, hi, rfl, hu, ho, hne, rfl, hlf, hgi⟩ | ⟨rfl, hu, rfl, hlf, hgi⟩
    · have hcc : chunkCancel recs cs ord (fileEnd 0 pre) := ⟨_, _, i, hinfo, hi, ho, hu⟩
      exact Or.inl ⟨hcc, s', rfl, q2, Locals.snoc_cancel (hcalls (callLen_of_some hi hu (by rw [ho]; simp)).symm) hcc⟩
    · have hnc : ¬ chunkCancel recs cs ord (fileEnd 0 pre) := by
        rintro ⟨k, c', i', h1, h2, h3, h4⟩
        rw [hinfo] at h1
        simp only [Option.some.injEq, Prod.mk.injEq] at h1
        obtain ⟨rfl, rfl⟩ := h1
        rcases Nat.lt_trichotomy i i' with h | h | h
        · have := h4 i h; rw [ho] at this; injection this with this; exact hne this
        · subst h; rw [ho] at h3; cases h3
        · have := hu i' h; rw [h3] at this; cases this
      have hfi : firstIdx T (pre.flatMap recs).length (recs c).length = some i :=
        firstIdx_of_some hi (fun j hj => hT _ _ (hu j hj)) (by rw [hT _ _ ho]; exact hne)
      have hcT : chunkT recs cs T (fileEnd 0 pre) = o := by
        simp only [chunkT, hinfo, hfi, hT _ _ ho]
      refine Or.inr ⟨hnc, s', ?_, q2, hcalls (callLen_of_some hi hu (by rw [ho]; simpa using hne)).symm, ?_⟩
      · rw [hcT]
        simp only [chunkN, hcT, hinfo]
      · intro hall
        obtain ⟨a1, a2⟩ := hloc.2 (fun t ht => hall t (by simp [ht]))
        rw [lastWith_snoc, lastWith_snoc, hcT, hlf, hgi]
        constructor
        · by_cases hol : o = .less
          · subst hol; simp [-List.length_flatMap, lessOf, hinfo, hfi]
          · rw [if_neg hol, if_neg (by simpa using hol)]; exact a1
        · by_cases hos : o.stops = true
          · rw [if_pos hos, if_pos hos]; simp [-List.length_flatMap, greaterOf, hinfo, hfi]
          · rw [if_neg hos, if_neg hos]; exact a2
    · have hnc : ¬ chunkCancel recs cs ord (fileEnd 0 pre) := by
        rintro ⟨k, c', i', h1, h2, h3, h4⟩
        rw [hinfo] at h1
        simp only [Option.some.injEq, Prod.mk.injEq] at h1
        obtain ⟨rfl, rfl⟩ := h1
        rw [hu i' h2] at h3; cases h3
      have hfi : firstIdx T (pre.flatMap recs).length (recs c).length = none :=
        firstIdx_of_none (fun j hj => hT _ _ (hu j hj))
      have hcT : chunkT recs cs T (fileEnd 0 pre) = .unordered := by
        simp only [chunkT, hinfo, hfi]
      refine Or.inr ⟨hnc, s', ?_, q2, hcalls (callLen_of_none hu).symm, ?_⟩
      · rw [hcT]
        simp [chunkN, hcT, hinfo, POrd.stops]
      · intro hall
        obtain ⟨a1, a2⟩ := hloc.2 (fun t ht => hall t (by simp [ht]))
        rw [lastWith_snoc, lastWith_snoc, hcT, hlf, hgi, if_neg (by simp), if_neg (by simp [POrd.stops])]
        exact ⟨a1, a2⟩
  · intro p _ _ _ h
    unfold chunkN
    rw [if_pos (by rcases h with h | h <;> rw [h] <;> rfl)]
  · intro p hI _ hlt h
    obtain ⟨pre, c, post, e, rfl⟩ := boundary_chunk hv hI hlt
    have hN : chunkN recs cs T (fileEnd 0 pre) = c.endAt (fileEnd 0 pre) := by
      unfold chunkN
      rw [if_neg (by rcases h with h | h <;> rw [h] <;> decide), info hv e]
    rw [hN]
    refine ⟨by have := (hl.chunkAt e).holds.gt; omega, ⟨pre ++ [c], post, by simp [e], by rw [fileEnd_append]; rfl⟩, ?_⟩
    intro q h1 h2 hq
    rcases RSeek.boundary_outside (H := H) boundaryOk_zero (e ▸ hl.laid) (e ▸ hq) with h | h <;> omega

/-- Records of later chunks come later. -/
theorem chunk_order (hv : RSeek.Valid H parse recs cs F) {pre post pre' post' : List Chunk} {c c' : Chunk}
    (e : cs = pre ++ c :: post) (e' : cs = pre' ++ c' :: post') (h : fileEnd 0 pre < fileEnd 0 pre') :
    (pre.flatMap recs).length + (recs c).length ≤ (pre'.flatMap recs).length := by
  have hl := hv.file.toLaid
  -- `pre'` extends `pre ++ [c]`
  have hlen : pre.length < pre'.length := by
    apply Nat.lt_of_not_le
    intro hle
    have hp : pre' <+: pre := by
      apply List.prefix_of_prefix_length_le (l₃ := cs) ⟨_, e'.symm⟩ ⟨_, e.symm⟩ hle
    obtain ⟨t, rfl⟩ := hp
    have := SeekP.fileEnd_le (H := H) (pre := pre') (post := t) (((chunksLaid_append 0 _ _).1 (e ▸ hl.laid)).1)
    omega
  have hp : pre ++ [c] <+: pre' :=
    List.prefix_of_prefix_length_le (l₃ := cs) ⟨post, by simp [e]⟩ ⟨_, e'.symm⟩ (by simp; omega)
  obtain ⟨t, rfl⟩ := hp
  simp [-List.length_flatMap]

theorem chunk_eq (hv : RSeek.Valid H parse recs cs F) {pre post pre' post' : List Chunk} {c c' : Chunk}
    (e : cs = pre ++ c :: post) (e' : cs = pre' ++ c' :: post') (h : fileEnd 0 pre = fileEnd 0 pre') :
    pre = pre' ∧ c = c' := by
  obtain ⟨h1, h2⟩ := SeekP.fileEnd_inj (H := H) boundaryOk_zero (e ▸ hv.file.toLaid.laid) (e ▸ e') h
  injection h2 with h2
  exact ⟨h1, h2⟩

/-- The chunk of a record. -/
theorem record_chunk : ∀ (cs : List Chunk) (q : Nat), q < (cs.flatMap recs).length →
    ∃ pre c post i, cs = pre ++ c :: post ∧ i < (recs c).length ∧ q = (pre.flatMap recs).length + i
  | [], q, h => by simp at h
  | c :: cs, q, h => by
    rcases Nat.lt_or_ge q (recs c).length with h1 | h1
    · exact ⟨[], c, cs, q, rfl, h1, by simp⟩
    · obtain ⟨pre, d, post, i, e, hi, hq⟩ := record_chunk cs (q - (recs c).length) (by simp [-List.length_flatMap] at h; omega)
      refine ⟨c :: pre, d, post, i, by simp [e], hi, ?_⟩
      simp [-List.length_flatMap]; omega

theorem chunkT_cases (hv : RSeek.Valid H parse recs cs F) {pre post : List Chunk} {c : Chunk} (e : cs = pre ++ c :: post) :
    (∃ i, firstIdx T (pre.flatMap recs).length (recs c).length = some i ∧ i < (recs c).length ∧
      chunkT recs cs T (fileEnd 0 pre) = T ((pre.flatMap recs).length + i) ∧ T ((pre.flatMap recs).length + i) ≠ .unordered ∧
      ∀ j, j < i → T ((pre.flatMap recs).length + j) = .unordered) ∨
    (chunkT recs cs T (fileEnd 0 pre) = .unordered ∧ ∀ j, j < (recs c).length → T ((pre.flatMap recs).length + j) = .unordered) := by
  have hi := info hv e
  cases hf : firstIdx T (pre.flatMap recs).length (recs c).length with
  | none => exact Or.inr ⟨by simp only [chunkT, hi, hf], firstIdx_none hf⟩
  | some i =>
    obtain ⟨h1, h2, h3⟩ := firstIdx_some hf
    exact Or.inl ⟨i, rfl, h1, by simp only [chunkT, hi, hf], h2, h3⟩

theorem chunk_le_total {pre post : List Chunk} {c : Chunk} (e : cs = pre ++ c :: post) :
    (pre.flatMap recs).length + (recs c).length ≤ (cs.flatMap recs).length := by
  rw [e]; simp [-List.length_flatMap]

/-- The precondition about records implies the precondition about chunks. -/
theorem chunk_ordered (hv : RSeek.Valid H parse recs cs F)
    (hT : OrderedTest (fun _ => True) T 0 (cs.flatMap recs).length) :
    OrderedTest (IsBoundary 0 cs) (chunkT recs cs T) 0 F.length := by
  have key : ∀ (a b : POrd), a ≠ b → a ≠ .unordered → b ≠ .unordered →
      (∀ p q, p < (cs.flatMap recs).length → q < (cs.flatMap recs).length → T p = a → T q = b → p < q) →
      ∀ p q, IsBoundary 0 cs p → IsBoundary 0 cs q → p < F.length → q < F.length →
      chunkT recs cs T p = a → chunkT recs cs T q = b → p < q := by
    intro a b hab ha hb hlt p q hp hq hpF hqF h1 h2
    obtain ⟨pre, c, post, e, rfl⟩ := boundary_chunk hv hp hpF
    obtain ⟨pre', c', post', e', rfl⟩ := boundary_chunk hv hq hqF
    rcases chunkT_cases (T := T) hv e with ⟨i, hfi, hi, hTi, _, _⟩ | ⟨hu, _⟩
    · rcases chunkT_cases (T := T) hv e' with ⟨i', hfi', hi', hTi', _, _⟩ | ⟨hu, _⟩
      · have := chunk_le_total (recs := recs) e
        have := chunk_le_total (recs := recs) e'
        have hr := hlt _ _ (by omega) (by omega) (hTi ▸ h1) (hTi' ▸ h2)
        rcases Nat.lt_trichotomy (fileEnd 0 pre) (fileEnd 0 pre') with h | h | h
        · exact h
        · rw [h] at h1; exact absurd (h1.symm.trans h2) hab
        · have := chunk_order hv e' e h; omega
      · rw [hu] at h2; exact absurd h2.symm hb
    · rw [hu] at h1; exact absurd h1.symm ha
  intro p q hp hq _ hpF _ hqF
  refine ⟨?_, ?_, ?_⟩
  · exact key .less .equivalent (by simp) (by simp) (by simp)
      (fun p q h1 h2 => (hT p q trivial trivial (by omega) h1 (by omega) h2).1) p q hp hq hpF hqF
  · exact key .equivalent .greater (by simp) (by simp) (by simp)
      (fun p q h1 h2 => (hT p q trivial trivial (by omega) h1 (by omega) h2).2.1) p q hp hq hpF hqF
  · exact key .less .greater (by simp) (by simp) (by simp)
      (fun p q h1 h2 => (hT p q trivial trivial (by omega) h1 (by omega) h2).2.2) p q hp hq hpF hqF

/-- What is known during the search in a chunk. -/
def RInv (H : Bytes → UInt64) (recs : Chunk → List Bytes) (cs : List Chunk) (F : Bytes) (K : Nat) (s0 : RR.SearchSt)
    (tr : List Nat) (s : RR.SearchSt) : Prop :=
  (∃ k, SeqSt H recs cs k F s.rr) ∧ s.calls = s0.calls ++ tr.map (fun i => posOf recs cs (K + i)) ∧
    s.lessFound = s0.lessFound ∧ s.greaterIndex = s0.greaterIndex

theorem recordSearcher_ok (hv : RSeek.Valid H parse recs cs F) (ht : TestOk H recs cs F test ord)
    (hT : ∀ k o, ord k = some o → T k = o) {pre post : List Chunk} {c : Chunk} (e : cs = pre ++ c :: post) (i0 : Nat)
    (s0 : RR.SearchSt) :
    SearcherOk (RR.recordSearcher H parse recovery test F (fileEnd 0 pre)) (RInv H recs cs F (pre.flatMap recs).length s0)
      (RInv H recs cs F (pre.flatMap recs).length s0) (fun _ => True) (fun i => T ((pre.flatMap recs).length + i))
      (fun i => (guideOf (· + 1) (T ((pre.flatMap recs).length + i)) i).2)
      (fun i => ord ((pre.flatMap recs).length + i) = none) (i0 + 1) (recs c).length := by
  refine ⟨trivial, ?_, ?_, fun _ _ h => h, ?_, ?_, ?_⟩
  · intro l h; simp [RR.recordSearcher]
  · intro tr s l h hs _ _ _
    refine ⟨_, _, rfl, ?_, ?_⟩
    · split <;> simp_all
    · intro m
      split
      · simp
      · simp only [Option.some.injEq, true_and]
        intro hm
        exact ⟨hs, by omega, by omega⟩
  · intro tr s i ⟨⟨k, hs⟩, hc, hlf, hgi⟩ _ hlo hi
    obtain ⟨s1, e1, h1⟩ := seek_in_chunk (recovery := recovery) hv hs e hi (fun hz => by omega)
    obtain ⟨s2, k2, e2, h2, _⟩ := ht pre c post i s1 e h1 hi
    have hrun : RR.searchTestRecord H parse recovery test F (fileEnd 0 pre) s i =
        some (ord ((pre.flatMap recs).length + i), { s with rr := s2, calls := s.calls ++ [⟨fileEnd 0 pre, i⟩] }) := by
      simp only [RR.searchTestRecord, e1, e2]
      rw [if_neg (by simp [SeqSt.err h2])]
    have hinv : RInv H recs cs F (pre.flatMap recs).length s0 (tr ++ [i])
        { s with rr := s2, calls := s.calls ++ [⟨fileEnd 0 pre, i⟩] } := by
      refine ⟨⟨k2, h2⟩, ?_, hlf, hgi⟩
      simp only [hc, List.map_append, List.map_cons, List.map_nil, posOf_at (recs := recs) e hi, List.append_assoc]
    cases ho : ord ((pre.flatMap recs).length + i) with
    | none =>
      rw [ho] at hrun
      exact Or.inl ⟨rfl, _, by simp only [RR.recordSearcher, hrun]; rfl, hinv⟩
    | some o =>
      rw [ho] at hrun
      refine Or.inr ⟨by simp, _, ?_, hinv⟩
      simp only [RR.recordSearcher, hrun, Option.map_some, hT _ _ ho]
      rfl
  · intro p _ _ _ h
    simp only [guideOf]; rw [if_pos h]
  · intro p _ _ _ h
    have hn : ¬ (T ((pre.flatMap recs).length + p) = .equivalent ∨ T ((pre.flatMap recs).length + p) = .greater) := by
      rcases h with h | h <;> rw [h] <;> simp
    simp only [guideOf]; rw [if_neg hn]
    exact ⟨by omega, trivial, fun q h1 h2 => by omega⟩

theorem finish_spec (hv : RSeek.Valid H parse recs cs F) {s : RR.SearchSt} (hs : ∃ k, SeqSt H recs cs k F s.rr)
    {pre post : List Chunk} (e : cs = pre ++ post) {i : Nat} (hi : i = 0 ∨ ∃ c post', post = c :: post' ∧ i < (recs c).length)
    (o : POrd) :
    ∃ s', RR.searchFinish H parse recovery F s (fileEnd 0 pre) i o = some (some o, s') ∧
      SeqSt H recs cs ((pre.flatMap recs).length + i) F s'.rr ∧ s'.calls = s.calls := by
  obtain ⟨k, hs⟩ := hs
  obtain ⟨s1, e1, h1⟩ := RSeek.seek_spec (recovery := recovery) hv hs (p := ⟨fileEnd 0 pre, i⟩) e rfl
    (by rcases hi with h | ⟨c, post', h, _⟩
        · exact Or.inl h
        · exact Or.inr (by simp [h]))
  refine ⟨{ s with rr := s1 }, by simp only [RR.searchFinish, e1], ?_, rfl⟩
  have : (recordPositions recs 0 cs).countP (RecordPosition.before ⟨fileEnd 0 pre, i⟩) = (pre.flatMap recs).length + i := by
    rcases hi with rfl | ⟨c, post', rfl, hi⟩
    · rw [RSeek.count_before_boundary hv e]; rfl
    · rw [RSeek.count_before_chunk hv e]; omega
  rw [this] at h1
  exact h1

/-! ## Traces -/

theorem lastWith_append (P : Nat → Bool) (a b : List Nat) :
    lastWith P (a ++ b) = (lastWith P b).or (lastWith P a) := by
  unfold lastWith
  rw [List.reverse_append, List.find?_append]

theorem lastWith_split {P : Nat → Bool} {tr : List Nat} {p : Nat} (h : lastWith P tr = some p) :
    ∃ u v, tr = u ++ p :: v ∧ P p = true ∧ ∀ b ∈ v, P b = false := by
  unfold lastWith at h
  rw [List.find?_eq_some_iff_append] at h
  obtain ⟨hp, as, bs, h1, h2⟩ := h
  refine ⟨bs.reverse, as.reverse, ?_, hp, ?_⟩
  · have := congrArg List.reverse h1
    simpa using this
  · intro b hb
    have := h2 b (by simpa using hb)
    simpa using this

theorem lastWith_none {P : Nat → Bool} {tr : List Nat} (h : lastWith P tr = none) : ∀ b ∈ tr, P b = false := by
  unfold lastWith at h
  rw [List.find?_eq_none] at h
  intro b hb
  simpa using h b (by simpa using hb)

theorem lastWith_map (P : Nat → Bool) (f : Nat → Nat) (tr : List Nat) :
    lastWith P (tr.map f) = (lastWith (fun i => P (f i)) tr).map f := by
  unfold lastWith
  rw [← List.map_reverse, List.find?_map]
  rfl

/-- The records tested in a chunk: all except possibly the last one are unordered. -/
theorem calls_spec (hv : RSeek.Valid H parse recs cs F) (hT : ∀ k o, ord k = some o → T k = o)
    {pre post : List Chunk} {c : Chunk} (e : cs = pre ++ c :: post) :
    ∃ L, chunkCalls recs cs ord (fileEnd 0 pre) = (List.range L).map ((pre.flatMap recs).length + ·) ∧ L ≤ (recs c).length ∧
      (∀ j, j + 1 < L → ord ((pre.flatMap recs).length + j) = some .unordered) ∧
      (∀ i, i + 1 = L → ord ((pre.flatMap recs).length + i) = none → chunkCancel recs cs ord (fileEnd 0 pre)) ∧
      (¬ chunkCancel recs cs ord (fileEnd 0 pre) → ∀ i, i + 1 = L → T ((pre.flatMap recs).length + i) ≠ .unordered →
        chunkT recs cs T (fileEnd 0 pre) = T ((pre.flatMap recs).length + i) ∧
        firstIdx T (pre.flatMap recs).length (recs c).length = some i) ∧
      (¬ chunkCancel recs cs ord (fileEnd 0 pre) → chunkT recs cs T (fileEnd 0 pre) ≠ .unordered →
        ∃ i, i + 1 = L ∧ firstIdx T (pre.flatMap recs).length (recs c).length = some i) := by
  have hinfo := info hv e
  refine ⟨callLen ord (pre.flatMap recs).length (recs c).length, by simp only [chunkCalls, hinfo], ?_⟩
  cases hf : (List.range (recs c).length).find? (fun i => ord ((pre.flatMap recs).length + i) != some .unordered) with
  | none =>
    have hu : ∀ j, j < (recs c).length → ord ((pre.flatMap recs).length + j) = some .unordered := by
      intro j hj
      rw [List.find?_eq_none] at hf
      simpa [-List.length_flatMap] using hf j (List.mem_range.2 hj)
    rw [callLen_of_none hu]
    refine ⟨Nat.le_refl _, fun j hj => hu j (by omega), ?_, ?_, ?_⟩
    · intro i hi h
      rw [hu i (by omega)] at h; cases h
    · intro _ i hi h
      exact absurd (hT _ _ (hu i (by omega))) h
    · intro _ h
      rcases chunkT_cases (T := T) hv e with ⟨i, hfi, hi, _, hne, _⟩ | ⟨h', _⟩
      · exact absurd (hT _ _ (hu i hi)) hne
      · exact absurd h' h
  | some i =>
    rw [List.find?_range_eq_some] at hf
    obtain ⟨h1, h2, h3⟩ := hf
    have h2 : i < (recs c).length := by simpa using h2
    have hu : ∀ j, j < i → ord ((pre.flatMap recs).length + j) = some .unordered := by
      intro j hj
      have := h3 j hj
      simpa [-List.length_flatMap] using this
    have h1 : ord ((pre.flatMap recs).length + i) ≠ some .unordered := by simpa [-List.length_flatMap] using h1
    rw [callLen_of_some h2 hu h1]
    refine ⟨by omega, fun j hj => hu j (by omega), ?_, ?_, ?_⟩
    · intro i' hi' h
      have : i' = i := by omega
      subst this
      exact ⟨_, _, i', hinfo, h2, h, hu⟩
    · intro _ i' hi' hne
      have : i' = i := by omega
      subst this
      have hfi := firstIdx_of_some (T := T) h2 (fun j hj => hT _ _ (hu j hj)) hne
      exact ⟨by simp only [chunkT, hinfo, hfi], hfi⟩
    · intro hnc _
      refine ⟨i, rfl, firstIdx_of_some (T := T) h2 (fun j hj => hT _ _ (hu j hj)) ?_⟩
      cases ho : ord ((pre.flatMap recs).length + i) with
      | none => exact absurd ⟨_, _, i, hinfo, h2, ho, hu⟩ hnc
      | some o => rw [hT _ _ ho]; intro h; exact h1 (by rw [ho, h])

/-- Properties of a tested record. -/
theorem mem_calls (hv : RSeek.Valid H parse recs cs F) (hT : ∀ k o, ord k = some o → T k = o)
    {pre post : List Chunk} {c : Chunk} (e : cs = pre ++ c :: post) {x : Nat}
    (hx : x ∈ chunkCalls recs cs ord (fileEnd 0 pre)) :
    (pre.flatMap recs).length ≤ x ∧ x < (pre.flatMap recs).length + (recs c).length ∧
      (¬ chunkCancel recs cs ord (fileEnd 0 pre) → ord x ≠ none ∧ (T x ≠ .unordered →
        chunkT recs cs T (fileEnd 0 pre) = T x ∧ ∃ i, firstIdx T (pre.flatMap recs).length (recs c).length = some i ∧
          x = (pre.flatMap recs).length + i)) := by
  obtain ⟨L, h1, h2, h3, h4, h5, h6⟩ := calls_spec hv hT e
  rw [h1, List.mem_map] at hx
  obtain ⟨j, hj, rfl⟩ := hx
  rw [List.mem_range] at hj
  refine ⟨by omega, by omega, ?_⟩
  intro hnc
  by_cases hl : j + 1 = L
  · refine ⟨fun h => hnc (h4 j hl h), fun h => ?_⟩
    obtain ⟨g1, g2⟩ := h5 hnc j hl h
    exact ⟨g1, j, g2, rfl⟩
  · have := h3 j (by omega)
    rw [hT _ _ this, this]
    simp

theorem pairwise_calls (hv : RSeek.Valid H parse recs cs F) (hT : ∀ k o, ord k = some o → T k = o)
    {pre post : List Chunk} {c : Chunk} (e : cs = pre ++ c :: post) :
    (chunkCalls recs cs ord (fileEnd 0 pre)).Pairwise
      (fun a b => a ≠ b ∧ (T a = .less → a < b) ∧ (T a = .greater → b < a) ∧ T a ≠ .equivalent) := by
  obtain ⟨L, h1, h2, h3, -⟩ := calls_spec hv hT e
  rw [h1, List.pairwise_map]
  refine (List.pairwise_lt_range (n := L)).imp_of_mem ?_
  intro a b ha hb hab
  rw [List.mem_range] at ha hb
  have := hT _ _ (h3 a (by omega))
  rw [this]
  simp; omega

/-- The calls of `test()` for chunks. -/
theorem chunks_trace (hv : RSeek.Valid H parse recs cs F) (hT : ∀ k o, ord k = some o → T k = o) {tr : List Nat}
    (htr : SearchTrace (IsBoundary 0 cs) (chunkT recs cs T) 0 F.length tr)
    (hnc : tr.Pairwise (fun p _ => ¬ chunkCancel recs cs ord p)) :
    SearchTrace (fun _ => True) T 0 (cs.flatMap recs).length (tr.flatMap (chunkCalls recs cs ord)) := by
  refine ⟨?_, ?_⟩
  · intro t ht
    rw [List.mem_flatMap] at ht
    obtain ⟨p, hp, ht⟩ := ht
    obtain ⟨hI, _, hlt⟩ := htr.1 p hp
    obtain ⟨pre, c, post, e, rfl⟩ := boundary_chunk hv hI hlt
    have := mem_calls hv hT e ht
    have := chunk_le_total (recs := recs) e
    exact ⟨trivial, Nat.zero_le _, by omega⟩
  · rw [List.pairwise_flatMap]
    refine ⟨?_, ?_⟩
    · intro p hp
      obtain ⟨hI, _, hlt⟩ := htr.1 p hp
      obtain ⟨pre, c, post, e, rfl⟩ := boundary_chunk hv hI hlt
      exact pairwise_calls hv hT e
    · refine (htr.2.and hnc).imp_of_mem ?_
      intro p q hp hq ⟨⟨hne, hless, hgr, heq⟩, hc⟩ x hx y hy
      obtain ⟨hI, _, hlt⟩ := htr.1 p hp
      obtain ⟨pre, c, post, e, rfl⟩ := boundary_chunk hv hI hlt
      obtain ⟨hI', _, hlt'⟩ := htr.1 q hq
      obtain ⟨pre', c', post', e', rfl⟩ := boundary_chunk hv hI' hlt'
      obtain ⟨a1, a2, a3⟩ := mem_calls hv hT e hx
      obtain ⟨b1, b2, -⟩ := mem_calls hv hT e' hy
      have hlt1 : fileEnd 0 pre < fileEnd 0 pre' → x < y := fun h => by have := chunk_order hv e e' h; omega
      have hlt2 : fileEnd 0 pre' < fileEnd 0 pre → y < x := fun h => by have := chunk_order hv e' e h; omega
      refine ⟨?_, ?_, ?_, ?_⟩
      · rcases Nat.lt_or_gt_of_ne hne with h | h
        · have := hlt1 h; omega
        · have := hlt2 h; omega
      · intro h
        have := ((a3 hc).2 (by rw [h]; simp)).1
        exact hlt1 (hless (this.trans h))
      · intro h
        have := ((a3 hc).2 (by rw [h]; simp)).1
        exact hlt2 (hgr (this.trans h))
      · intro h
        have := ((a3 hc).2 (by rw [h]; simp)).1
        exact heq (this.trans h)

/-- The last record of a kind tested, from the last chunk of the kind tested. -/
theorem lastWith_calls (hv : RSeek.Valid H parse recs cs F) (hT : ∀ k o, ord k = some o → T k = o) (Q : POrd → Bool)
    (hQ : Q .unordered = false) : ∀ (tr : List Nat), (∀ p ∈ tr, IsBoundary 0 cs p ∧ p < F.length ∧ ¬ chunkCancel recs cs ord p) →
    match lastWith (fun p => Q (chunkT recs cs T p)) tr with
    | none => lastWith (fun k => Q (T k)) (tr.flatMap (chunkCalls recs cs ord)) = none
    | some p => ∃ pre c post i, cs = pre ++ c :: post ∧ p = fileEnd 0 pre ∧
        firstIdx T (pre.flatMap recs).length (recs c).length = some i ∧
        lastWith (fun k => Q (T k)) (tr.flatMap (chunkCalls recs cs ord)) = some ((pre.flatMap recs).length + i) := by
  intro tr
  -- by induction from the end
  generalize hn : tr.length = n
  induction n generalizing tr with
  | zero => intro _; rw [List.length_eq_zero_iff] at hn; subst hn; simp [lastWith]
  | succ n ih =>
    intro hall
    rcases List.eq_nil_or_concat tr with rfl | ⟨tr', p, rfl⟩
    · simp at hn
    rw [List.concat_eq_append] at hn hall ⊢
    have ih := ih tr' (by simpa using hn) (fun q hq => hall q (by simp [hq]))
    obtain ⟨hI, hlt, hc⟩ := hall p (by simp)
    obtain ⟨pre, c, post, e, rfl⟩ := boundary_chunk hv hI hlt
    obtain ⟨L, h1, h2, h3, h4, h5, h6⟩ := calls_spec hv hT e
    rw [lastWith_snoc, List.flatMap_append, List.flatMap_singleton, lastWith_append]
    by_cases hq : Q (chunkT recs cs T (fileEnd 0 pre)) = true
    · rw [if_pos hq]
      obtain ⟨i, hi, hfi⟩ := h6 hc (fun h => by rw [h, hQ] at hq; cases hq)
      refine ⟨pre, c, post, i, e, rfl, hfi, ?_⟩
      have hne := (firstIdx_some hfi).2.1
      have hTi := (h5 hc i hi hne).1
      have : lastWith (fun k => Q (T k)) (chunkCalls recs cs ord (fileEnd 0 pre)) = some ((pre.flatMap recs).length + i) := by
        rw [h1, ← hi, List.range_succ, List.map_append, List.map_cons, List.map_nil, lastWith_snoc, ← hTi, if_pos hq]
      rw [this]; rfl
    · rw [if_neg hq]
      have : lastWith (fun k => Q (T k)) (chunkCalls recs cs ord (fileEnd 0 pre)) = none := by
        unfold lastWith
        rw [List.find?_eq_none]
        intro x hx
        rw [List.mem_reverse] at hx
        have hm := (mem_calls (T := T) hv hT e hx).2.2 hc
        by_cases hu : T x = .unordered
        · rw [hu, hQ]; simp
        · rw [(hm.2 hu).1] at hq; exact hq
      rw [this, Option.none_or]
      exact ih

/-- What `Search()` should do, for the records ordered by `T`, `test()` cancelling where `ord` is absent: `ks` are the records
tested, `r` the result, `k` the resulting place. -/
def Outcome (n : Nat) (T : Nat → POrd) (ord : Nat → Option POrd) (ks : List Nat) (r : Option POrd) (k : Nat) : Prop :=
  SearchTrace (fun _ => True) T 0 n ks ∧
  match r with
  | none => ∃ pre t, ks = pre ++ [t] ∧ ord t = none ∧ ∀ x ∈ pre, ord x ≠ none
  | some o => SearchContract (fun _ => True) T 0 n ⟨o, k⟩ ∧ (∀ x ∈ ks, ord x ≠ none) ∧
      lastWith (fun k => (T k).stops) ks = (if o.stops then some k else none)

theorem contract_greater {n k : Nat} (hT : OrderedTest (fun _ => True) T 0 n) (hk : k < n) (hg : T k = .greater)
    (h : ∀ q, q < k → T q ≠ .equivalent ∧ T q ≠ .greater) : SearchContract (fun _ => True) T 0 n ⟨.greater, k⟩ := by
  refine ⟨trivial, Nat.zero_le _, hk, hg, ?_, ?_⟩
  · intro q _ _ hq he
    have := (hT q k trivial trivial (by omega) hq (by omega) hk).2.1 he hg
    exact (h q this).1 he
  · intro q _ _ hq hg'
    apply Nat.le_of_not_lt
    intro hlt
    exact (h q hlt).2 hg'

/-- All records before the place found are not `equivalent` nor `greater`, given that this holds for the records of the
chunk of the last `less` record tested. -/
theorem no_stops (hv : RSeek.Valid H parse recs cs F)
    (hT : OrderedTest (fun _ => True) T 0 (cs.flatMap recs).length) {tr : List Nat} {r : SearchResult}
    (htr : SearchTrace (IsBoundary 0 cs) (chunkT recs cs T) 0 F.length tr)
    (hlast : SearchLast (IsBoundary 0 cs) (chunkT recs cs T) 0 tr r) (hne : r.ordering ≠ .equivalent)
    (hless : ∀ pre c post i j, cs = pre ++ c :: post →
      lastWith (fun p => chunkT recs cs T p == .less) tr = some (fileEnd 0 pre) →
      firstIdx T (pre.flatMap recs).length (recs c).length = some i → i < j → j < (recs c).length →
      (T ((pre.flatMap recs).length + j)).stops = false)
    {pre post : List Chunk} {c : Chunk} {i : Nat} (e : cs = pre ++ c :: post) (hi : i < (recs c).length)
    (hpos : fileEnd 0 pre < r.found ∨ (fileEnd 0 pre = r.found ∧
      ∀ j, j ≤ i → T ((pre.flatMap recs).length + j) = .unordered)) :
    (T ((pre.flatMap recs).length + i)).stops = false := by
  have hb : IsBoundary 0 cs (fileEnd 0 pre) := ⟨pre, _, e, rfl⟩
  rcases hpos with hpos | ⟨-, hpos⟩
  · have hl := hlast.2 hne
    have hun : chunkT recs cs T (fileEnd 0 pre) = .unordered → (T ((pre.flatMap recs).length + i)).stops = false := by
      intro h
      rcases chunkT_cases (T := T) hv e with ⟨i', hfi, hi', h1, h2, _⟩ | ⟨_, h1⟩
      · exact absurd (h1.symm.trans h) h2
      · rw [h1 i hi]; rfl
    cases hp : lastWith (fun p => chunkT recs cs T p == .less) tr with
    | none =>
      rw [hp] at hl
      exact hun (hl _ hb (Nat.zero_le _) hpos)
    | some p =>
      rw [hp] at hl
      simp only at hl
      obtain ⟨hmem, hTp⟩ := lastWith_some hp
      have hTp : chunkT recs cs T p = .less := by simpa using hTp
      obtain ⟨hI, _, hlt⟩ := htr.1 p hmem
      obtain ⟨pre', c', post', e', rfl⟩ := boundary_chunk hv hI hlt
      rcases chunkT_cases (T := T) hv e' with ⟨i', hfi, hi', h1, h2, h3⟩ | ⟨h1, _⟩
      · have hTl : T ((pre'.flatMap recs).length + i') = .less := h1.symm.trans hTp
        have t1 := chunk_le_total (recs := recs) e
        have t2 := chunk_le_total (recs := recs) e'
        -- records up to the last `less` record tested
        have hbefore : (pre.flatMap recs).length + i ≤ (pre'.flatMap recs).length + i' →
            (T ((pre.flatMap recs).length + i)).stops = false := by
          intro hle
          have hh := hT ((pre'.flatMap recs).length + i') ((pre.flatMap recs).length + i) trivial trivial (by omega) (by omega)
            (by omega) (by omega)
          cases ho : T ((pre.flatMap recs).length + i) with
          | less => rfl
          | unordered => rfl
          | equivalent => have := hh.1 hTl ho; omega
          | greater => have := hh.2.2 hTl ho; omega
        rcases Nat.lt_trichotomy (fileEnd 0 pre) (fileEnd 0 pre') with h | h | h
        · have := chunk_order hv e e' h
          exact hbefore (by omega)
        · obtain ⟨rfl, rfl⟩ := chunk_eq hv e e' h
          rcases Nat.lt_or_ge i' i with hii | hii
          · exact hless pre c post i' i e hp hfi hii hi
          · exact hbefore (by omega)
        · exact hun (hl _ hb h hpos)
      · rw [h1] at hTp; cases hTp
  · rw [hpos i (Nat.le_refl _)]; rfl

/-- The final position of a search which did not find anything `equivalent` in the chunk of the last `less` record. -/
theorem finish_outcome (hv : RSeek.Valid H parse recs cs F)
    (hord : OrderedTest (fun _ => True) T 0 (cs.flatMap recs).length) {tr : List Nat} {r : SearchResult}
    (htr : SearchTrace (IsBoundary 0 cs) (chunkT recs cs T) 0 F.length tr)
    (hcon : SearchContract (IsBoundary 0 cs) (chunkT recs cs T) 0 F.length r)
    (hlast : SearchLast (IsBoundary 0 cs) (chunkT recs cs T) 0 tr r)
    (hless : r.ordering ≠ .equivalent → ∀ pre c post i j, cs = pre ++ c :: post →
      lastWith (fun p => chunkT recs cs T p == .less) tr = some (fileEnd 0 pre) →
      firstIdx T (pre.flatMap recs).length (recs c).length = some i → i < j → j < (recs c).length →
      (T ((pre.flatMap recs).length + j)).stops = false)
    {s : RR.SearchSt} (hs : ∃ k, SeqSt H recs cs k F s.rr)
    (hg : s.greaterIndex = greaterOf recs cs T (lastWith (fun p => (chunkT recs cs T p).stops) tr)) :
    ∃ s' k, RR.searchFinish H parse recovery F s r.found s.greaterIndex r.ordering = some (some r.ordering, s') ∧
      SeqSt H recs cs k F s'.rr ∧ s'.calls = s.calls ∧
      SearchContract (fun _ => True) T 0 (cs.flatMap recs).length ⟨r.ordering, k⟩ ∧
      (r.ordering.stops = true → ∃ pre c post i, cs = pre ++ c :: post ∧
        lastWith (fun p => (chunkT recs cs T p).stops) tr = some (fileEnd 0 pre) ∧
        firstIdx T (pre.flatMap recs).length (recs c).length = some i ∧ k = (pre.flatMap recs).length + i) := by
  have hl := hv.file.toLaid
  have hls := hlast.1
  -- the chunk found
  have hfound : ∀ o : POrd, r.ordering = o → o = .equivalent ∨ o = .greater → IsBoundary 0 cs r.found → r.found < F.length →
      chunkT recs cs T r.found = o → ∃ pre c post i, cs = pre ++ c :: post ∧ r.found = fileEnd 0 pre ∧ i < (recs c).length ∧
        firstIdx T (pre.flatMap recs).length (recs c).length = some i ∧ s.greaterIndex = i ∧
        T ((pre.flatMap recs).length + i) = o ∧ (∀ j, j < i → T ((pre.flatMap recs).length + j) = .unordered) := by
    intro o ho hoo hI hlt hTo
    obtain ⟨pre, c, post, e, hfe⟩ := boundary_chunk hv hI hlt
    have hst : r.ordering.stops = true := by rw [ho]; rcases hoo with h | h <;> rw [h] <;> rfl
    rw [hst, if_pos rfl] at hls
    rcases chunkT_cases (T := T) hv e with ⟨i, hfi, hi, h1, h2, h3⟩ | ⟨h1, _⟩
    · refine ⟨pre, c, post, i, e, hfe, hi, hfi, ?_, ?_, h3⟩
      · rw [hg, hls, hfe]; simp only [greaterOf, info hv e, hfi, Option.getD_some]
      · rw [← h1, ← hfe, hTo]
    · rw [hfe, h1] at hTo
      rcases hoo with h | h <;> rw [h] at hTo <;> cases hTo
  cases ho : r.ordering with
  | equivalent =>
    unfold SearchContract at hcon
    rw [ho] at hcon
    obtain ⟨c1, _, c3, c4⟩ := hcon
    obtain ⟨pre, c, post, i, e, hfe, hi, hfi, hgi, hTi, _⟩ := hfound _ ho (Or.inl rfl) c1 c3 c4
    obtain ⟨s', f1, f2, f3⟩ := finish_spec (recovery := recovery) hv hs e (i := i) (Or.inr ⟨c, post, rfl, hi⟩) .equivalent
    have := chunk_le_total (recs := recs) e
    refine ⟨s', _, by rw [hfe, hgi]; exact f1, f2, f3, ⟨trivial, Nat.zero_le _, by show (pre.flatMap recs).length + i < _; omega, hTi⟩, fun _ => ⟨pre, c, post, i, e, ?_, hfi, rfl⟩⟩
    rw [hls, ho, ← hfe]; rfl
  | greater =>
    unfold SearchContract at hcon
    rw [ho] at hcon
    obtain ⟨c1, _, c3, c4, _⟩ := hcon
    obtain ⟨pre, c, post, i, e, hfe, hi, hfi, hgi, hTi, hbef⟩ := hfound _ ho (Or.inr rfl) c1 c3 c4
    obtain ⟨s', f1, f2, f3⟩ := finish_spec (recovery := recovery) hv hs e (i := i) (Or.inr ⟨c, post, rfl, hi⟩) .greater
    have htot := chunk_le_total (recs := recs) e
    refine ⟨s', _, by rw [hfe, hgi]; exact f1, f2, f3, ?_, fun _ => ⟨pre, c, post, i, e, ?_, hfi, rfl⟩⟩
    · refine contract_greater hord (by omega) hTi ?_
      intro q hq
      obtain ⟨pre', c', post', i', e', hi', rfl⟩ := record_chunk (recs := recs) cs q (by omega)
      have hns := no_stops hv hord htr hlast (by rw [ho]; simp) (hless (by rw [ho]; simp)) e' hi' (by
        rcases Nat.lt_trichotomy (fileEnd 0 pre') (fileEnd 0 pre) with h | h | h
        · exact Or.inl (by omega)
        · obtain ⟨rfl, rfl⟩ := chunk_eq hv e' e h
          exact Or.inr ⟨hfe.symm, fun j hj => hbef j (by omega)⟩
        · have := chunk_order hv e e' h; omega)
      constructor <;> intro h <;> rw [h] at hns <;> cases hns
    · rw [hls, ho, ← hfe]; rfl
  | less =>
    have hcon' := hcon
    unfold SearchContract at hcon
    rw [ho] at hcon
    obtain ⟨c1, ⟨p, p1, _, p3, p4⟩, c3⟩ := hcon
    have hg0 : s.greaterIndex = 0 := by rw [hg, hls, ho]; rfl
    have ec : cs = cs ++ [] := by simp
    obtain ⟨s', f1, f2, f3⟩ := finish_spec (recovery := recovery) hv hs ec (i := 0) (Or.inl rfl) .less
    rw [← hl.length, ← c1] at f1
    refine ⟨s', _, by rw [hg0]; exact f1, f2, f3, ⟨rfl, ?_, ?_⟩, by simp [POrd.stops]⟩
    · obtain ⟨pre, c, post, e, rfl⟩ := boundary_chunk hv p1 p3
      rcases chunkT_cases (T := T) hv e with ⟨i, hfi, hi, h1, h2, h3⟩ | ⟨h1, _⟩
      · have := chunk_le_total (recs := recs) e
        exact ⟨_, trivial, Nat.zero_le _, by omega, h1.symm.trans p4⟩
      · rw [h1] at p4; cases p4
    · intro q _ _ hq
      obtain ⟨pre', c', post', i', e', hi', rfl⟩ := record_chunk (recs := recs) cs q hq
      have hgt := (hl.chunkAt e').holds.gt
      have hle := (hl.chunkAt e').len
      have hns := no_stops hv hord htr hlast (by rw [ho]; simp) (hless (by rw [ho]; simp)) e' hi' (Or.inl (by omega))
      constructor <;> intro h <;> rw [h] at hns <;> cases hns
  | unordered =>
    unfold SearchContract at hcon
    rw [ho] at hcon
    obtain ⟨c1, c3⟩ := hcon
    have hg0 : s.greaterIndex = 0 := by rw [hg, hls, ho]; rfl
    have ec : cs = cs ++ [] := by simp
    obtain ⟨s', f1, f2, f3⟩ := finish_spec (recovery := recovery) hv hs ec (i := 0) (Or.inl rfl) .unordered
    rw [← hl.length, ← c1] at f1
    refine ⟨s', _, by rw [hg0]; exact f1, f2, f3, ⟨rfl, ?_⟩, by simp [POrd.stops]⟩
    intro q _ _ hq
    obtain ⟨pre', c', post', i', e', hi', rfl⟩ := record_chunk (recs := recs) cs q hq
    have hgt := (hl.chunkAt e').holds.gt
    have hle := (hl.chunkAt e').len
    have := c3 _ ⟨pre', _, e', rfl⟩ (Nat.zero_le _) (by omega)
    rcases chunkT_cases (T := T) hv e' with ⟨i, hfi, hi, h1, h2, h3⟩ | ⟨h1, h2⟩
    · exact absurd (h1.symm.trans this) h2
    · exact h2 i' hi'

/-- `Search()`. -/
theorem search_spec (hv : RSeek.Valid H parse recs cs F) (ht : TestOk H recs cs F test ord)
    (hT : ∀ k o, ord k = some o → T k = o) (hord : OrderedTest (fun _ => True) T 0 (cs.flatMap recs).length)
    {k0 : Nat} {s : RR} (hs : SeqSt H recs cs k0 F s) :
    ∃ r s' ks k, RR.searchImpl H parse recovery test F s = some (r, s') ∧ s'.calls = ks.map (posOf recs cs) ∧
      SeqSt H recs cs k F s'.rr ∧ Outcome (cs.flatMap recs).length T ord ks r k := by
  have hok := chunkSearcher_ok (recovery := recovery) hv ht hT
  have hcord := chunk_ordered hv hord
  have herr := SeqSt.err hs
  have hcerr : s.cr.err = none := by
    obtain ⟨done, rest, rs, i, e0, h0, hk⟩ := hs
    exact h0.cr.cerr
  have hs1 : SeqSt H recs cs k0 F { s with lastValid := false } := by
    obtain ⟨done, rest, rs, i, e0, h0, hk⟩ := hs
    exact ⟨done, rest, rs, i, e0, h0.setLast, hk⟩
  obtain ⟨r, s1, tr, hbs, ⟨⟨k1, hk1⟩, hcalls, hloc⟩, htr, hsome, hnone⟩ := binarySearch_spec hok hcord
    (s := ⟨{ s with lastValid := false }, none, 0, []⟩) ⟨⟨_, hs1⟩, by simp, fun _ => ⟨rfl, rfl⟩⟩
  unfold RR.searchImpl
  rw [if_neg (by simp [herr])]
  simp only
  rw [if_neg (by simp [hcerr]), hbs]
  cases r with
  | none =>
    simp only
    obtain ⟨trp, t, htre, hct, hncp⟩ := hnone rfl
    refine ⟨none, s1, _, k1, rfl, hcalls, hk1, ?_, ?_⟩
    · refine chunks_trace hv hT htr ?_
      rw [htre, List.pairwise_append]
      refine ⟨List.Pairwise.imp_of_mem (fun ha _ _ => hncp _ ha) (List.pairwise_of_forall (R := fun _ _ => True) (fun _ _ => trivial)), by simp, ?_⟩
      intro a ha b _
      exact hncp a ha
    · obtain ⟨hI, _, hlt⟩ := htr.1 t (by simp [htre])
      obtain ⟨pre, c, post, e, rfl⟩ := boundary_chunk hv hI hlt
      obtain ⟨k, c', i, h1, h2, h3, h4⟩ := hct
      rw [info hv e] at h1
      simp only [Option.some.injEq, Prod.mk.injEq] at h1
      obtain ⟨rfl, rfl⟩ := h1
      have hc2 : chunkCalls recs cs ord (fileEnd 0 pre) = (List.range i).map ((pre.flatMap recs).length + ·) ++ [(pre.flatMap recs).length + i] := by
        simp only [chunkCalls, info hv e, callLen_of_some h2 h4 (by rw [h3]; simp), List.range_succ, List.map_append, List.map_cons, List.map_nil]
      refine ⟨trp.flatMap (chunkCalls recs cs ord) ++ (List.range i).map ((pre.flatMap recs).length + ·), (pre.flatMap recs).length + i, ?_, h3, ?_⟩
      · rw [htre, List.flatMap_append, List.flatMap_singleton, hc2, List.append_assoc]
      · intro x hx
        rcases List.mem_append.1 hx with hx | hx
        · rw [List.mem_flatMap] at hx
          obtain ⟨p, hp, hx⟩ := hx
          obtain ⟨hI', _, hlt'⟩ := htr.1 p (by rw [htre]; simp [hp])
          obtain ⟨pre', c', post', e', rfl⟩ := boundary_chunk hv hI' hlt'
          exact ((mem_calls hv hT e' hx).2.2 (hncp _ hp)).1
        · rw [List.mem_map] at hx
          obtain ⟨j, hj, rfl⟩ := hx
          rw [h4 j (List.mem_range.1 hj)]; simp
  | some r =>
    simp only
    obtain ⟨hcon, hlast, hnc⟩ := hsome r rfl
    obtain ⟨hlf, hgi⟩ := hloc hnc
    have htr1 := chunks_trace (T := T) (ord := ord) hv hT htr
      (List.Pairwise.imp_of_mem (fun ha _ _ => hnc _ ha) (List.pairwise_of_forall (R := fun _ _ => True) (fun _ _ => trivial)))
    have hboun : ∀ p ∈ tr, IsBoundary 0 cs p ∧ p < F.length ∧ ¬ chunkCancel recs cs ord p :=
      fun p hp => ⟨(htr.1 p hp).1, (htr.1 p hp).2.2, hnc p hp⟩
    have hnone1 : ∀ x ∈ tr.flatMap (chunkCalls recs cs ord), ord x ≠ none := by
      intro x hx
      rw [List.mem_flatMap] at hx
      obtain ⟨p, hp, hx⟩ := hx
      obtain ⟨pre', c', post', e', rfl⟩ := boundary_chunk hv (hboun p hp).1 (hboun p hp).2.1
      exact ((mem_calls hv hT e' hx).2.2 (hnc _ hp)).1
    have hlstop := lastWith_calls (T := T) hv hT (fun o => o.stops) rfl tr hboun
    -- the result of a search which ends with the chunk found
    have hfin : ∀ (s2 : RR.SearchSt), (∃ k, SeqSt H recs cs k F s2.rr) →
        s2.greaterIndex = s1.greaterIndex →
        (r.ordering ≠ .equivalent → ∀ pre c post i j, cs = pre ++ c :: post →
          lastWith (fun p => chunkT recs cs T p == .less) tr = some (fileEnd 0 pre) →
          firstIdx T (pre.flatMap recs).length (recs c).length = some i → i < j → j < (recs c).length →
          (T ((pre.flatMap recs).length + j)).stops = false) →
        ∃ s' k, RR.searchFinish H parse recovery F s2 r.found s2.greaterIndex r.ordering = some (some r.ordering, s') ∧
          SeqSt H recs cs k F s'.rr ∧ s'.calls = s2.calls ∧
          SearchContract (fun _ => True) T 0 (cs.flatMap recs).length ⟨r.ordering, k⟩ ∧
          lastWith (fun k => (T k).stops) (tr.flatMap (chunkCalls recs cs ord)) = (if r.ordering.stops then some k else none) := by
      intro s2 h1 h2 h3
      obtain ⟨s', k, f1, f2, f3, f4, f5⟩ := finish_outcome (recovery := recovery) hv hord htr hcon hlast h3 h1 (h2.trans hgi)
      refine ⟨s', k, f1, f2, f3, f4, ?_⟩
      by_cases hst : r.ordering.stops = true
      · obtain ⟨pre, c, post, i, e, g1, g2, rfl⟩ := f5 hst
        rw [g1] at hlstop
        obtain ⟨pre', c', post', i', e', g1', g2', g3'⟩ := hlstop
        obtain ⟨rfl, rfl⟩ := chunk_eq hv e e' g1'
        rw [g2] at g2'
        injection g2' with g2'
        subst g2'
        rw [g3', if_pos hst]
      · rw [hlast.1, if_neg hst] at hlstop
        rw [if_neg hst]
        exact hlstop
    by_cases heq : r.ordering = .equivalent
    · rw [if_pos heq]
      obtain ⟨s', k, f1, f2, f3, f4, f5⟩ := hfin s1 ⟨k1, hk1⟩ rfl (fun h => absurd heq h)
      exact ⟨_, s', _, k, f1, f3.trans hcalls, f2, htr1, f4, hnone1, f5⟩
    · rw [if_neg heq]
      cases hp : lastWith (fun p => chunkT recs cs T p == .less) tr with
      | none =>
        rw [hp] at hlf
        simp only [lessOf] at hlf
        rw [hlf]
        obtain ⟨s', k, f1, f2, f3, f4, f5⟩ := hfin s1 ⟨k1, hk1⟩ rfl (fun _ pre c post i j _ h => by rw [hp] at h; cases h)
        exact ⟨_, s', _, k, f1, f3.trans hcalls, f2, htr1, f4, hnone1, f5⟩
      | some p =>
        obtain ⟨hmem, hTp⟩ := lastWith_some hp
        have hTp : chunkT recs cs T p = .less := by simpa using hTp
        obtain ⟨pre, c, post, e, rfl⟩ := boundary_chunk hv (hboun p hmem).1 (hboun p hmem).2.1
        rcases chunkT_cases (T := T) hv e with ⟨i, hfi, hi, h1, h2, h3⟩ | ⟨h1, _⟩
        case inr => rw [h1] at hTp; cases hTp
        have hTl : T ((pre.flatMap recs).length + i) = .less := h1.symm.trans hTp
        have htot := chunk_le_total (recs := recs) e
        rw [hp] at hlf
        simp only [lessOf, info hv e, hfi, Option.getD_some] at hlf
        rw [hlf]
        simp only
        have hord2 : OrderedTest (fun _ => True) (fun i => T ((pre.flatMap recs).length + i)) (i + 1) (recs c).length := by
          intro a b _ _ _ ha _ hb
          have := hord ((pre.flatMap recs).length + a) ((pre.flatMap recs).length + b) trivial trivial (by omega) (by omega) (by omega) (by omega)
          refine ⟨fun x y => ?_, fun x y => ?_, fun x y => ?_⟩
          · have := this.1 x y; omega
          · have := this.2.1 x y; omega
          · have := this.2.2 x y; omega
        obtain ⟨r2, s2, tr2, hbs2, ⟨⟨k2, hk2⟩, hcalls2, hlf2, hgi2⟩, htr2, hsome2, hnone2⟩ := binarySearch_spec
          (recordSearcher_ok (recovery := recovery) hv ht hT e i s1) hord2 (s := s1) ⟨⟨k1, hk1⟩, by simp, rfl, rfl⟩
        rw [hbs2]
        have hcalls' : s2.calls = (tr.flatMap (chunkCalls recs cs ord) ++ tr2.map ((pre.flatMap recs).length + ·)).map (posOf recs cs) := by
          rw [hcalls2, hcalls, List.map_append, List.map_map]; rfl
        -- all calls
        have htrall : SearchTrace (fun _ => True) T 0 (cs.flatMap recs).length
            (tr.flatMap (chunkCalls recs cs ord) ++ tr2.map ((pre.flatMap recs).length + ·)) := by
          refine ⟨?_, ?_⟩
          · intro t ht
            rcases List.mem_append.1 ht with ht | ht
            · exact htr1.1 t ht
            · rw [List.mem_map] at ht
              obtain ⟨j, hj, rfl⟩ := ht
              have := htr2.1 j hj
              exact ⟨trivial, Nat.zero_le _, by omega⟩
          · rw [List.pairwise_append]
            refine ⟨htr1.2, ?_, ?_⟩
            · rw [List.pairwise_map]
              refine htr2.2.imp ?_
              intro a b ⟨x1, x2, x3, x4⟩
              exact ⟨by omega, fun h => by have := x2 h; omega, fun h => by have := x3 h; omega, x4⟩
            · intro x hx y hy
              rw [List.mem_flatMap] at hx
              obtain ⟨q, hq, hx⟩ := hx
              rw [List.mem_map] at hy
              obtain ⟨j, hj, rfl⟩ := hy
              have hjr := htr2.1 j hj
              obtain ⟨pre', c', post', e', rfl⟩ := boundary_chunk hv (hboun q hq).1 (hboun q hq).2.1
              obtain ⟨m1, m2, m3⟩ := mem_calls (T := T) hv hT e' hx
              have m3 := m3 (hnc _ hq)
              have hxi : pre' = pre → c' = c → x ≤ (pre.flatMap recs).length + i := by
                rintro rfl rfl
                by_cases hu : T x = .unordered
                · -- not beyond the first record which is not unordered
                  obtain ⟨L, z1, z2, z3, z4, z5, z6⟩ := calls_spec (T := T) hv hT e'
                  obtain ⟨i', z7, z8⟩ := z6 (hnc _ hq) (by rw [hTp]; simp)
                  rw [hfi] at z8
                  injection z8 with z8
                  rw [z1, List.mem_map] at hx
                  obtain ⟨j', hj', rfl⟩ := hx
                  rw [List.mem_range] at hj'
                  show (pre'.flatMap recs).length + j' ≤ _
                  omega
                · obtain ⟨_, i', z1, z2⟩ := m3.2 hu
                  rw [hfi] at z1
                  injection z1 with z1
                  omega
              refine ⟨?_, ?_, ?_, ?_⟩
              · rcases Nat.lt_trichotomy (fileEnd 0 pre') (fileEnd 0 pre) with h | h | h
                · have := chunk_order hv e' e h; omega
                · obtain ⟨z1, z2⟩ := chunk_eq hv e' e h
                  have := hxi z1 z2
                  omega
                · have := chunk_order hv e e' h; omega
              · intro hxl
                have hql : chunkT recs cs T (fileEnd 0 pre') = .less := (m3.2 (by rw [hxl]; simp)).1.trans hxl
                obtain ⟨u, v, z1, _, z3⟩ := lastWith_split hp
                have hle : fileEnd 0 pre' ≤ fileEnd 0 pre := by
                  rw [z1] at hq
                  rcases List.mem_append.1 hq with hq | hq
                  · have hpw := htr.2
                    rw [z1, List.pairwise_append] at hpw
                    exact Nat.le_of_lt ((hpw.2.2 _ hq _ (List.mem_cons_self ..)).2.1 hql)
                  · rcases List.mem_cons.1 hq with hq | hq
                    · omega
                    · have := z3 _ hq
                      rw [hql] at this
                      simp at this
                rcases Nat.lt_or_eq_of_le hle with h | h
                · have := chunk_order hv e' e h; omega
                · obtain ⟨z1, z2⟩ := chunk_eq hv e' e h
                  have := hxi z1 z2
                  omega
              · intro hxg
                have hqg : chunkT recs cs T (fileEnd 0 pre') = .greater := (m3.2 (by rw [hxg]; simp)).1.trans hxg
                have := (hcord (fileEnd 0 pre) (fileEnd 0 pre') (hboun _ hmem).1 (hboun _ hq).1 (Nat.zero_le _) (hboun _ hmem).2.1
                  (Nat.zero_le _) (hboun _ hq).2.1).2.2 hTp hqg
                have := chunk_order hv e e' this
                omega
              · intro hxe
                have hqe : chunkT recs cs T (fileEnd 0 pre') = .equivalent := (m3.2 (by rw [hxe]; simp)).1.trans hxe
                have hI := (hboun _ hq).1
                have hlt := (hboun _ hq).2.1
                unfold SearchContract at hcon
                split at hcon
                · rename_i ho; exact heq ho
                · exact hcon.2.2.2.2.1 _ hI (Nat.zero_le _) hlt hqe
                · exact (hcon.2.2 _ hI (Nat.zero_le _) hlt).1 hqe
                · have := hcon.2 _ hI (Nat.zero_le _) hlt
                  rw [hqe] at this; cases this
        cases r2 with
        | none =>
          simp only
          obtain ⟨trp, t, z1, z2, z3⟩ := hnone2 rfl
          refine ⟨none, s2, _, k2, rfl, hcalls', hk2, htrall, tr.flatMap (chunkCalls recs cs ord) ++ trp.map ((pre.flatMap recs).length + ·), (pre.flatMap recs).length + t, ?_, z2, ?_⟩
          · rw [z1, List.map_append, List.append_assoc]; rfl
          · intro x hx
            rcases List.mem_append.1 hx with hx | hx
            · exact hnone1 x hx
            · rw [List.mem_map] at hx
              obtain ⟨j, hj, rfl⟩ := hx
              exact z3 j hj
        | some r2 =>
          simp only
          obtain ⟨hcon2, hlast2, hnc2⟩ := hsome2 r2 rfl
          have hnoneall : ∀ x ∈ tr.flatMap (chunkCalls recs cs ord) ++ tr2.map ((pre.flatMap recs).length + ·), ord x ≠ none := by
            intro x hx
            rcases List.mem_append.1 hx with hx | hx
            · exact hnone1 x hx
            · rw [List.mem_map] at hx
              obtain ⟨j, hj, rfl⟩ := hx
              exact hnc2 j hj
          have hl2 : lastWith (fun k => (T k).stops) (tr2.map ((pre.flatMap recs).length + ·)) =
              (if r2.ordering.stops then some ((pre.flatMap recs).length + r2.found) else none) := by
            rw [lastWith_map, hlast2.1]
            split <;> rfl
          by_cases hst : r2.ordering.stops = true
          · rw [if_pos hst]
            rw [if_pos hst] at hl2
            have hrange : r2.found < (recs c).length ∧ i + 1 ≤ r2.found ∧ T ((pre.flatMap recs).length + r2.found) = r2.ordering := by
              have hcon2' := hcon2
              unfold SearchContract at hcon2
              split at hcon2
              · rename_i ho; exact ⟨hcon2.2.2.1, hcon2.2.1, hcon2.2.2.2.trans ho.symm⟩
              · rename_i ho; exact ⟨hcon2.2.2.1, hcon2.2.1, hcon2.2.2.2.1.trans ho.symm⟩
              · rename_i ho; rw [ho] at hst; cases hst
              · rename_i ho; rw [ho] at hst; cases hst
            obtain ⟨s', f1, f2, f3⟩ := finish_spec (recovery := recovery) hv ⟨k2, hk2⟩ e (i := r2.found) (Or.inr ⟨c, post, rfl, hrange.1⟩) r2.ordering
            refine ⟨_, s', _, _, f1, f3.trans hcalls', f2, htrall, ?_, hnoneall, ?_⟩
            · cases ho : r2.ordering with
              | less => rw [ho] at hst; cases hst
              | unordered => rw [ho] at hst; cases hst
              | equivalent => exact ⟨trivial, Nat.zero_le _, by show (pre.flatMap recs).length + r2.found < _; omega, hrange.2.2.trans ho⟩
              | greater =>
                refine contract_greater hord (by omega) (hrange.2.2.trans ho) ?_
                intro q hq
                have hh := hord ((pre.flatMap recs).length + i) q trivial trivial (by omega) (by omega) (by omega) (by omega)
                rcases Nat.lt_or_ge ((pre.flatMap recs).length + i) q with h | h
                · unfold SearchContract at hcon2
                  rw [ho] at hcon2
                  obtain ⟨_, _, _, _, y5, y6⟩ := hcon2
                  have hqe : (pre.flatMap recs).length + (q - (pre.flatMap recs).length) = q := by omega
                  have y5 := y5 (q - (pre.flatMap recs).length) trivial (by omega) (by omega)
                  have y6 := y6 (q - (pre.flatMap recs).length) trivial (by omega) (by omega)
                  simp only [hqe] at y5 y6
                  exact ⟨y5, fun hg => by have := y6 hg; omega⟩
                · exact ⟨fun hx => by have := hh.1 hTl hx; omega, fun hx => by have := hh.2.2 hTl hx; omega⟩
            · rw [lastWith_append, hl2, if_pos hst]; rfl
          · rw [if_neg hst]
            rw [if_neg hst] at hl2
            obtain ⟨s', k, f1, f2, f3, f4, f5⟩ := hfin s2 ⟨k2, hk2⟩ hgi2 (by
              intro _ pre' c' post' i' j e' hp' hfi' hij hj
              rw [hp] at hp'
              injection hp' with hp'
              obtain ⟨rfl, rfl⟩ := chunk_eq hv e e' hp'
              rw [hfi] at hfi'
              injection hfi' with hfi'
              subst hfi'
              unfold SearchContract at hcon2
              split at hcon2
              · rename_i ho; rw [ho] at hst; exact absurd rfl hst
              · rename_i ho; rw [ho] at hst; exact absurd rfl hst
              · have := hcon2.2.2 j trivial (by omega) hj
                cases hx : T ((pre.flatMap recs).length + j) with
                | less => rfl
                | unordered => rfl
                | equivalent => exact absurd hx this.1
                | greater => exact absurd hx this.2
              · have hx : T ((pre.flatMap recs).length + j) = .unordered := hcon2.2 j trivial (by omega) hj
                rw [hx]; rfl)
            refine ⟨_, s', _, k, f1, f3.trans hcalls', f2, htrall, f4, hnoneall, ?_⟩
            rw [lastWith_append, hl2, Option.none_or]
            exact f5

/-- The test of `Search<Record>()`. -/
theorem compareTest_ok (hv : RSeek.Valid H parse recs cs F) (cmp : RecordPosition → Bytes → Option POrd) :
    TestOk H recs cs F (RR.compareTest H parse F cmp)
      (fun k => cmp (posOf recs cs k) ((cs.flatMap recs).getD k [])) := by
  intro pre c post i s e h hi
  obtain ⟨d', hd, hd'⟩ := h.dec.read (r := (recs c)[i]) (by simp [hi])
  have hcb : s.chunkBegin = fileEnd 0 pre := by
    rcases h.cur with ⟨_, h2⟩ | ⟨pre', c', h1, h2, _⟩
    · rw [h2] at hi; simp at hi
    · have := List.append_inj h1 (by have := congrArg List.length h1; simpa using this)
      rw [h2, this.1]
  have hrun : RR.compareTest H parse F cmp s =
      some (cmp ⟨fileEnd 0 pre, i⟩ (recs c)[i], { s with dec := d', lastValid := true }) := by
    unfold RR.compareTest RR.readRecord
    rw [RR.readRecordLoop]
    simp only [hd, RR.lastPos, hcb, hd'.index, Nat.add_sub_cancel]
  refine ⟨{ s with dec := d', lastValid := true }, (pre.flatMap recs).length + (i + 1), ?_, RSt.seqSt e ⟨h.cr, hd', h.err, h.rcv, h.skip, h.cur⟩, rfl⟩
  rw [hrun]
  simp only
  rw [posOf_at (recs := recs) e hi]
  have : (cs.flatMap recs).getD ((pre.flatMap recs).length + i) [] = (recs c)[i] := by
    rw [List.getD_eq_getElem?_getD, e, List.flatMap_append, List.getElem?_append_right (by omega), Nat.add_sub_cancel_left,
      List.flatMap_cons, List.getElem?_append_left hi, List.getElem?_eq_getElem hi]
    rfl
  rw [this]

end RSearch
end Riegeli

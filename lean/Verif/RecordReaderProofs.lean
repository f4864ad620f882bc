import Verif.FileProofs
import Verif.RecordSpec
/-!
# Sequential reading of records from a (growing) valid file
-/
namespace Riegeli
open CR

/-- The decoder holds records `rs` and is positioned before the `i`-th. -/
structure DecAt (rs : List Bytes) (i : Nat) (d : Dec) : Prop where
  limits : d.limits = limitsFrom 0 rs
  values : d.values = rs.flatten
  index : d.index = i
  le : i ≤ rs.length
  vpos : d.vpos = (rs.take i).flatten.length
  ok : d.ok = true

theorem limitsFrom_getElem? (acc : Nat) (rs : List Bytes) (i : Nat) (h : i < rs.length) :
    (limitsFrom acc rs)[i]? = some (acc + (rs.take (i + 1)).flatten.length) := by
  induction rs generalizing acc i with
  | nil => simp at h
  | cons r rs ih =>
    cases i with
    | zero => simp [limitsFrom]
    | succ i =>
      simp only [limitsFrom, List.getElem?_cons_succ]
      rw [ih _ _ (by simpa using h)]
      simp [Nat.add_assoc]

theorem DecAt.clear : DecAt [] 0 Dec.clear := ⟨rfl, rfl, rfl, Nat.le_refl _, rfl, rfl⟩

theorem DecAt.num {rs : List Bytes} {i : Nat} {d : Dec} (h : DecAt rs i d) : d.numRecords = rs.length := by
  rw [Dec.numRecords, h.limits, limitsFrom_length]

theorem DecAt.read {rs : List Bytes} {i : Nat} {d : Dec} (h : DecAt rs i d) {r : Bytes}
    (hr : rs[i]? = some r) :
    ∃ d', d.readRecord = (some r, d') ∧ DecAt rs (i + 1) d' := by
  have hlt : i < rs.length := by
    rw [List.getElem?_eq_some_iff] at hr; exact hr.1
  have hget : rs[i] = r := by
    rw [List.getElem?_eq_some_iff] at hr; exact hr.2
  unfold Dec.readRecord
  rw [if_neg (by rw [h.ok, h.num, h.index]; simp; omega)]
  have hlim : d.limits.getD d.index 0 = (rs.take (i + 1)).flatten.length := by
    rw [List.getD_eq_getElem?_getD, h.limits, h.index, limitsFrom_getElem? _ _ _ hlt]; simp
  have htk : rs.take (i + 1) = rs.take i ++ [r] := by
    rw [List.take_add_one, hr]; rfl
  simp only [hlim]
  refine ⟨{ d with vpos := (rs.take (i + 1)).flatten.length, index := d.index + 1 }, ?_, ?_⟩
  · congr 2
    rw [h.values, h.vpos, htk]
    have : rs.flatten = (rs.take i).flatten ++ r ++ (rs.drop (i + 1)).flatten := by
      conv => lhs; rw [← List.take_append_drop (i + 1) rs, List.flatten_append, htk]
      simp
    rw [this]
    have h2 : ((rs.take i ++ [r]).flatten.length) - (rs.take i).flatten.length = r.length := by
      simp
    rw [h2, slice_mid]
  · exact ⟨h.limits, h.values, by simp [h.index], by omega, rfl, h.ok⟩

theorem DecAt.read_none {rs : List Bytes} {i : Nat} {d : Dec} (h : DecAt rs i d)
    (hr : rs.length ≤ i) : d.readRecord = (none, d) := by
  unfold Dec.readRecord
  have := h.le
  rw [if_pos (by rw [h.num, h.index]; right; omega)]

theorem DecAt.set {rs : List Bytes} {i j : Nat} {d : Dec} (h : DecAt rs i d) :
    DecAt rs (min j rs.length) (d.setIndex j) := by
  have hn := h.num
  unfold Dec.setIndex
  refine ⟨h.limits, h.values, by simp [hn], by omega, ?_, h.ok⟩
  simp only [hn]
  by_cases hz : min j rs.length = 0
  · simp [hz]
  · rw [if_neg hz, List.getD_eq_getElem?_getD, h.limits, limitsFrom_getElem? _ _ _ (by omega)]
    simp only [Option.getD_some, Nat.zero_add]
    rw [show min j rs.length - 1 + 1 = min j rs.length by omega]

theorem DecAt.ofDecode {parse : Chunk → Option (List Nat × Bytes)} {c : Chunk} {rs : List Bytes}
    (h : DecodesTo parse c rs) : ∃ d, Dec.decode parse c = (true, d) ∧ DecAt rs 0 d := by
  unfold Dec.decode
  rw [h.1]
  exact ⟨_, rfl, ⟨rfl, rfl, rfl, Nat.zero_le _, rfl, rfl⟩⟩

/-! ## Complete chunks -/

theorem completeChunks_append {H : Bytes → UInt64} : ∀ {done rest : List Chunk} {pos n : Nat},
    BoundaryOk pos → ChunksLaid H pos done → fileEnd pos done ≤ n →
    completeChunks pos (done ++ rest) n = done ++ completeChunks (fileEnd pos done) rest n
  | [], _, _, _, _, _, _ => rfl
  | c :: done, rest, pos, n, hb, ⟨_, _, _, he, h⟩, hn => by
    have hs := endAt_spec hb he
    have h1 := h.boundary hs.1.1
    simp only [fileEnd] at hn
    simp only [List.cons_append, completeChunks, fileEnd]
    rw [if_pos (by omega), completeChunks_append hs.1.1 h hn]

/-! ## The invariant of sequential reading -/

/-- The reader has consumed the chunks `done` of `done ++ rest`; the decoder holds records `rs` and is
before the `i`-th; these are the records of the last chunk of `done` unless the decoder is clear. -/
structure RSt (H : Bytes → UInt64) (recs : Chunk → List Bytes) (f : Bytes) (done rest : List Chunk)
    (rs : List Bytes) (i : Nat) (s : RR) : Prop where
  cr : Reading H f (fileEnd 0 done) rest s.cr
  dec : DecAt rs i s.dec
  err : s.err = none
  rcv : s.rcv = .no
  skip : s.skipped = []
  cur : (s.chunkBegin = fileEnd 0 done ∧ rs = []) ∨
    ∃ pre c, done = pre ++ [c] ∧ s.chunkBegin = fileEnd 0 pre ∧ rs = recs c

theorem Reading.pos {H : Bytes → UInt64} {f : Bytes} {cb : Nat} {cs : List Chunk} {s : CR}
    (h : Reading H f cb cs s) : s.pos = cb := by
  cases cs with
  | nil => exact AtBoundary.pos h
  | cons c cs => exact Mid.pos h

theorem Reading.cerr {H : Bytes → UInt64} {f : Bytes} {cb : Nat} {cs : List Chunk} {s : CR}
    (h : Reading H f cb cs s) : s.err = none := by
  cases cs with
  | nil => exact AtBoundary.err h
  | cons c cs => exact Mid.err h

theorem Reading.ofBoundary {H : Bytes → UInt64} {f : Bytes} {done rest : List Chunk} {s : CR}
    (hlaid : ChunksLaid H 0 (done ++ rest)) (hsig : ∀ c ∈ (done ++ rest).head?, IsSignature c)
    (hp : f <+: fileBytes H 0 (done ++ rest)) (h : AtBoundary f (fileEnd 0 done) s) :
    Reading H f (fileEnd 0 done) rest s := by
  cases rest with
  | nil => exact h
  | cons c cs =>
    refine AtBoundary.mid h (chunkAt_of_laid hlaid ?_) hp
    intro hnil; subst hnil
    exact hsig c (by simp)

/-- Outcome of reading one chunk sequentially. -/
theorem seqReadChunk {H : Bytes → UInt64} {f : Bytes} {done rest : List Chunk} {s : CR}
    (hok : ChunksOk H 0 (done ++ rest)) (hsig : ∀ c ∈ (done ++ rest).head?, IsSignature c)
    (hp : f <+: fileBytes H 0 (done ++ rest)) (hr : Reading H f (fileEnd 0 done) rest s) :
    (∃ c cs s', rest = c :: cs ∧ c.endAt (fileEnd 0 done) ≤ f.length ∧
      s.readChunk H f = (some c, s') ∧ Reading H f (fileEnd 0 (done ++ [c])) cs s') ∨
    (∃ s', s.readChunk H f = (none, s') ∧ Reading H f (fileEnd 0 done) rest s' ∧
      completeChunks (fileEnd 0 done) rest f.length = [] ∧
      s'.truncated = decide (fileEnd 0 done < f.length)) := by
  have hlaid := hok.laid
  cases rest with
  | nil =>
    right
    have hlen := hlaid.length boundaryOk_zero
    have hb := (hlaid.boundary boundaryOk_zero).1
    simp only [List.append_nil] at *
    have ha : AtBoundary f (fileEnd 0 done) s := hr
    have hfl : f.length = fileEnd 0 done := by
      have h1 := hp.length_le
      have h2 := ha.hf
      rcases ha.src with h | ⟨_, h, _⟩ <;> omega
    rw [← hfl] at ha hb
    rw [readChunk_at_end ha hb]
    refine ⟨_, rfl, ?_, rfl, ?_⟩
    · show AtBoundary f (fileEnd 0 done) _
      rw [← hfl]
      exact ⟨ha.pos, ha.err, ha.rcv, ha.data, ha.hl, ha.bl, ha.hf, ha.src⟩
    · simp [hfl]
  | cons c cs =>
    have hc : ChunkAt H (fileBytes H 0 (done ++ c :: cs)) (fileEnd 0 done) c :=
      chunkAt_of_laid hlaid (by intro hnil; subst hnil; exact hsig c (by simp))
    have hwf : WFChunk H c := by
      rw [chunksOk_append] at hok
      exact hok.2.1
    rcases readChunk_spec hc hp hr with ⟨h1, h2, s', e, g⟩ | ⟨h1, h2, _⟩ | ⟨h1, s', e, hst⟩
    · left
      obtain ⟨g1, g2, g3, g4, g5, g6, g7, g8⟩ := g
      have hend : fileEnd 0 (done ++ [c]) = c.endAt (fileEnd 0 done) := by
        rw [fileEnd_append]; rfl
      refine ⟨c, cs, s', rfl, h1, e, ?_⟩
      have happ : done ++ c :: cs = (done ++ [c]) ++ cs := by simp
      rw [happ] at hlaid hsig hp
      apply Reading.ofBoundary hlaid hsig hp
      rw [hend]
      exact ⟨g1, g3, g4, g5, g6, g7, by omega, Or.inl g2⟩
    · exact absurd hwf.dataHash h2
    · right
      refine ⟨s', e, hst.mid, ?_, hst.trunc⟩
      simp only [completeChunks]
      rw [if_neg (by omega)]

section
variable {H : Bytes → UInt64} {parse : Chunk → Option (List Nat × Bytes)}
  {recovery : Option (CR.Region → Bool)} {recs : Chunk → List Bytes} {f : Bytes}

/-- Position of the record with index `i` in the current chunk. -/
theorem recordPositions_append (a b : List Chunk) (pos : Nat) :
    recordPositions recs pos (a ++ b) =
      recordPositions recs pos a ++ recordPositions recs (fileEnd pos a) b := by
  induction a generalizing pos with
  | nil => rfl
  | cons c a ih => simp [recordPositions, fileEnd, ih]

theorem recordPositions_length (a : List Chunk) (pos : Nat) :
    (recordPositions recs pos a).length = (a.flatMap recs).length := by
  induction a generalizing pos with
  | nil => rfl
  | cons c a ih => simp [recordPositions, ih]

/-- The main lemma: one `ReadRecord` call. -/
theorem readRecordLoop_spec :
    ∀ (rest done : List Chunk) (rs : List Bytes) (i : Nat) (s : RR),
    ChunksOk H 0 (done ++ rest) → (∀ c ∈ (done ++ rest).head?, IsSignature c) →
    f <+: fileBytes H 0 (done ++ rest) →
    (∀ c ∈ done ++ rest, DecodesTo parse c (recs c)) →
    RSt H recs f done rest rs i s →
    (∃ r done' rest' rs' i' s', s.readRecordLoop H parse recovery f = some (some r, s') ∧
      done ++ rest = done' ++ rest' ∧
      RSt H recs f done' rest' rs' (i' + 1) s' ∧ s'.lastValid = true ∧
      (rs.drop i ++ (completeChunks (fileEnd 0 done) rest f.length).flatMap recs)[0]? = some r ∧
      (done'.flatMap recs).length + (rs.length - i) = (done.flatMap recs).length + (rs'.length - i') ∧
      i' < rs'.length) ∨
    (∃ s', s.readRecordLoop H parse recovery f = some (none, s') ∧
      (∃ done' rest' : List Chunk, done ++ rest = done' ++ rest' ∧ RSt H recs f done' rest' [] 0 s' ∧
        s'.cr.truncated = decide (fileEnd 0 done' < f.length) ∧ fileEnd 0 done' ≤ f.length ∧
        completeChunks (fileEnd 0 done') rest' f.length = [] ∧
        done' = done ++ completeChunks (fileEnd 0 done) rest f.length ∧
        (done'.flatMap recs).length = (done.flatMap recs).length) ∧
      s'.lastValid = s.lastValid ∧
      rs.drop i ++ (completeChunks (fileEnd 0 done) rest f.length).flatMap recs = []) := by
  intro rest
  induction rest with
  | nil =>
    intro done rs i s hok hsig hp hdec hst
    by_cases hi : i < rs.length
    · left
      obtain ⟨d', e, hd⟩ := hst.dec.read (List.getElem?_eq_getElem hi)
      refine ⟨rs[i], done, [], rs, i, { s with dec := d', lastValid := true }, ?_, rfl,
        ⟨hst.cr, hd, hst.err, hst.rcv, hst.skip, hst.cur⟩, rfl, ?_, rfl, hi⟩
      · rw [RR.readRecordLoop, e]
      · simp [List.getElem?_append, hi, Nat.sub_pos_of_lt]
    · right
      rw [RR.readRecordLoop, hst.dec.read_none (by omega)]
      simp only
      rw [if_neg (by simp [hst.err]), if_neg (by simp [hst.dec.ok])]
      rcases seqReadChunk hok hsig hp hst.cr with ⟨c, cs, s', h, _⟩ | ⟨s', e, hr, hcc, htr⟩
      · simp at h
      · have herr := hr.cerr
        simp only [RR.readChunk, e, herr, ne_eq, not_true_eq_false, ↓reduceIte]
        have hrc : ∀ t : RR, t.rcv = .no →
            t.tryRecovery H recovery f = some (false, t) := by
          intro t ht
          unfold RR.tryRecovery RR.recover
          rw [ht]
          cases recovery <;> rfl
        rw [hrc { s with chunkBegin := s.cr.pos, cr := s', dec := Dec.clear } hst.rcv]
        have hpos := hst.cr.pos
        refine ⟨_, rfl, ⟨done, [], rfl, ⟨hr, DecAt.clear, hst.err, hst.rcv, hst.skip, ?_⟩, htr, ?_, hcc, ?_, rfl⟩, rfl, ?_⟩
        · left; exact ⟨hpos, rfl⟩
        · have h2 := hr
          have h3 : AtBoundary f (fileEnd 0 done) s' := hr
          have := h3.hf
          rcases h3.src with h | ⟨_, h, _⟩ <;> omega
        · rw [hcc]; simp
        · rw [hcc]; simp; omega
  | cons c rest ih =>
    intro done rs i s hok hsig hp hdec hst
    by_cases hi : i < rs.length
    · left
      obtain ⟨d', e, hd⟩ := hst.dec.read (List.getElem?_eq_getElem hi)
      refine ⟨rs[i], done, c :: rest, rs, i, { s with dec := d', lastValid := true }, ?_, rfl,
        ⟨hst.cr, hd, hst.err, hst.rcv, hst.skip, hst.cur⟩, rfl, ?_, rfl, hi⟩
      · rw [RR.readRecordLoop, e]
      · simp [List.getElem?_append, hi, Nat.sub_pos_of_lt]
    · rw [RR.readRecordLoop, hst.dec.read_none (by omega)]
      simp only
      rw [if_neg (by simp [hst.err]), if_neg (by simp [hst.dec.ok])]
      have hpos := hst.cr.pos
      rcases seqReadChunk hok hsig hp hst.cr with ⟨c', cs, s', h, hle, e, hr⟩ | ⟨s', e, hr, hcc, htr⟩
      · injection h with h1 h2
        subst h1 h2
        obtain ⟨d, ed, hd⟩ := DecAt.ofDecode (hdec c (by simp))
        simp only [RR.readChunk, e, ed]
        have happ : done ++ c :: rest = (done ++ [c]) ++ rest := by simp
        have hend : fileEnd 0 (done ++ [c]) = c.endAt (fileEnd 0 done) := by
          rw [fileEnd_append]; rfl
        have hccs : completeChunks (fileEnd 0 done) (c :: rest) f.length =
            c :: completeChunks (fileEnd 0 (done ++ [c])) rest f.length := by
          simp only [completeChunks, hend]; rw [if_pos hle]
        have hrs : rs.drop i = [] := by simp; omega
        have hlen : rs.length - i = 0 := by omega
        have hih := ih (done ++ [c]) (recs c) 0 { s with chunkBegin := s.cr.pos, cr := s', dec := d }
          (happ ▸ hok) (happ ▸ hsig) (happ ▸ hp) (happ ▸ hdec)
          ⟨hr, hd, hst.err, hst.rcv, hst.skip, Or.inr ⟨done, c, rfl, hpos, rfl⟩⟩
        rcases hih with ⟨r, done', rest', rs', i', s'', e2, hsp, h1, h2, h3, h4, h5⟩ |
          ⟨s'', e2, ⟨done', rest', hsp, h1, h2, h2', h2'', h2c, h3⟩, h4, h5⟩
        · left
          refine ⟨r, done', rest', rs', i', s'', e2, by rw [happ]; exact hsp, h1, h2, ?_, ?_, h5⟩
          · rw [hrs, hccs]; simpa using h3
          · rw [hlen]; simp at h4 ⊢; omega
        · right
          refine ⟨s'', e2, ⟨done', rest', by rw [happ]; exact hsp, h1, h2, h2', h2'', ?_, ?_⟩, h4, ?_⟩
          · rw [hccs, h2c]; simp
          · rw [h3]; simp at h5 ⊢; exact h5.1
          · rw [hrs, hccs]; simp at h5 ⊢; exact h5
      · right
        have herr := hr.cerr
        simp only [RR.readChunk, e, herr, ne_eq, not_true_eq_false, ↓reduceIte]
        have hrc : ∀ t : RR, t.rcv = .no →
            t.tryRecovery H recovery f = some (false, t) := by
          intro t ht
          unfold RR.tryRecovery RR.recover
          rw [ht]
          cases recovery <;> rfl
        rw [hrc { s with chunkBegin := s.cr.pos, cr := s', dec := Dec.clear } hst.rcv]
        refine ⟨_, rfl, ⟨done, c :: rest, rfl, ⟨hr, DecAt.clear, hst.err, hst.rcv, hst.skip, ?_⟩, htr, ?_, hcc, ?_, rfl⟩, rfl, ?_⟩
        · left; exact ⟨hpos, rfl⟩
        · have h3 : Mid H f (fileEnd 0 done) c s' := hr
          exact Nat.le_trans h3.lo h3.hf
        · rw [hcc]; simp
        · rw [hcc]; simp; omega

/-- The invariant between `ReadRecord` calls: `k` records have been returned. -/
def SeqSt (H : Bytes → UInt64) (recs : Chunk → List Bytes) (cs : List Chunk) (k : Nat) (f : Bytes)
    (s : RR) : Prop :=
  ∃ done rest rs i, cs = done ++ rest ∧ RSt H recs f done rest rs i s ∧
    (done.flatMap recs).length = k + (rs.length - i)

theorem RSt.mono {done rest : List Chunk} {rs : List Bytes} {i : Nat} {s : RR} {g : Bytes}
    (h : RSt H recs f done rest rs i s) (hp : f <+: g) : RSt H recs g done rest rs i s :=
  ⟨h.cr.mono hp, h.dec, h.err, h.rcv, h.skip, h.cur⟩

theorem RSt.setLast {done rest : List Chunk} {rs : List Bytes} {i : Nat} {s : RR} {b : Bool}
    (h : RSt H recs f done rest rs i s) : RSt H recs f done rest rs i { s with lastValid := b } :=
  ⟨h.cr, h.dec, h.err, h.rcv, h.skip, h.cur⟩

theorem Reading.le {cb : Nat} {cs : List Chunk} {s : CR} (h : Reading H f cb cs s) : cb ≤ f.length := by
  cases cs with
  | nil =>
    have h : AtBoundary f cb s := h
    have := h.hf
    rcases h.src with h | ⟨_, h, _⟩ <;> omega
  | cons c cs =>
    have h : Mid H f cb c s := h
    exact Nat.le_trans h.lo h.hf

/-- The records not yet returned from the chunks already consumed are those left in the decoder. -/
theorem RSt.drop {done rest : List Chunk} {rs : List Bytes} {i : Nat} {s : RR} {k : Nat}
    (h : RSt H recs f done rest rs i s) (hk : (done.flatMap recs).length = k + (rs.length - i)) :
    (done.flatMap recs).drop k = rs.drop i := by
  rcases h.cur with ⟨_, hrs⟩ | ⟨pre, c, hd, _, hrs⟩
  · subst hrs
    simp only [List.length_nil, Nat.zero_sub, Nat.add_zero] at hk
    rw [← hk]; simp
  · have hle := h.dec.le
    subst hd hrs
    simp only [List.flatMap_append, List.flatMap_cons, List.flatMap_nil, List.append_nil,
      List.length_append] at hk ⊢
    rw [show k = (pre.flatMap recs).length + i by omega, List.drop_append]
    simp

theorem SeqSt.init {cs : List Chunk} {hdr0 bh0 : Bytes} (hok : ChunksOk H 0 cs)
    (hsig : ∀ c ∈ cs.head?, IsSignature c) (h40 : hdr0.length = 40) (h24 : bh0.length = 24)
    (hp : f <+: fileBytes H 0 cs) : SeqSt H recs cs 0 f (RR.init (CR.init 0 hdr0 bh0)) := by
  refine ⟨[], cs, [], 0, rfl, ⟨?_, DecAt.clear, rfl, rfl, rfl, Or.inl ⟨rfl, rfl⟩⟩, rfl⟩
  have : AtBoundary f (fileEnd 0 []) (RR.init (CR.init 0 hdr0 bh0)).cr :=
    ⟨rfl, rfl, rfl, rfl, h40, h24, Nat.zero_le _, Or.inl rfl⟩
  exact Reading.ofBoundary (done := []) hok.laid hsig hp this

theorem recordPositions_at {pre post : List Chunk} {c : Chunk} {i : Nat} (hi : i < (recs c).length) :
    (recordPositions recs 0 (pre ++ c :: post))[(pre.flatMap recs).length + i]? =
      some ⟨fileEnd 0 pre, i⟩ := by
  rw [recordPositions_append, List.getElem?_append_right (by rw [recordPositions_length]; omega),
    recordPositions_length, Nat.add_sub_cancel_left]
  simp only [recordPositions]
  rw [List.getElem?_append_left (by simpa using hi)]
  simp [hi]

/-- One `ReadRecord` call on a prefix of a valid file. -/
theorem readRecord_seq {cs : List Chunk} {k : Nat} {s : RR} (hok : ChunksOk H 0 cs)
    (hsig : ∀ c ∈ cs.head?, IsSignature c) (hp : f <+: fileBytes H 0 cs)
    (hdec : ∀ c ∈ cs, DecodesTo parse c (recs c)) (hst : SeqSt H recs cs k f s) :
    (∃ r s' q, s.readRecord H parse recovery f = some (some r, s') ∧
      ((completeChunks 0 cs f.length).flatMap recs)[k]? = some r ∧
      (recordPositions recs 0 cs)[k]? = some q ∧ s'.lastPos = q ∧ s'.lastValid = true ∧
      SeqSt H recs cs (k + 1) f s') ∨
    (∃ s', s.readRecord H parse recovery f = some (none, s') ∧
      ((completeChunks 0 cs f.length).flatMap recs)[k]? = none ∧ SeqSt H recs cs k f s' ∧
      s'.lastValid = false ∧
      s'.pos = ⟨fileEnd 0 (completeChunks 0 cs f.length), 0⟩ ∧
      s'.cr.truncated = decide (fileEnd 0 (completeChunks 0 cs f.length) < f.length)) := by
  obtain ⟨done, rest, rs, i, rfl, hst, hk⟩ := hst
  have hle := hst.cr.le
  have hlaid := (chunksLaid_append 0 done rest).1 hok.laid
  have hcc := completeChunks_append (rest := rest) (n := f.length) boundaryOk_zero hlaid.1 hle
  have hdrop := hst.drop hk
  have hget : ((completeChunks 0 (done ++ rest) f.length).flatMap recs)[k]? =
      (rs.drop i ++ (completeChunks (fileEnd 0 done) rest f.length).flatMap recs)[0]? := by
    rw [hcc, List.flatMap_append, ← hdrop]
    have : k ≤ (done.flatMap recs).length := by omega
    rw [← List.drop_append_of_le_length this, List.getElem?_drop]; simp
  unfold RR.readRecord
  rcases readRecordLoop_spec (recovery := recovery) rest done rs i { s with lastValid := false } hok hsig hp hdec
    hst.setLast with
    ⟨r, done', rest', rs', i', s', e, hsp, h1, h2, h3, h4, h5⟩ |
    ⟨s', e, ⟨done', rest', hsp, h1, h2, h2', h2'', h2c, h3⟩, h4, h5⟩
  · left
    have hlen : (done'.flatMap recs).length = k + (rs'.length - i') := by omega
    refine ⟨r, s', s'.lastPos, e, by rw [hget]; exact h3, ?_, rfl, h2,
      ⟨done', rest', rs', i' + 1, hsp, h1, by omega⟩⟩
    rcases h1.cur with ⟨_, hn⟩ | ⟨pre, c, hd, hcb, hrs⟩
    · subst hn; simp at h5
    · subst hd hrs
      have hidx := h1.dec.index
      have hkk : k = (pre.flatMap recs).length + i' := by simp [-List.length_flatMap] at hlen; omega
      rw [hsp, hkk, List.append_assoc, List.singleton_append, recordPositions_at h5]
      simp [RR.lastPos, hcb, hidx]
  · right
    have hrs0 : rs.length - i = 0 := by
      have : rs.drop i = [] := (List.append_eq_nil_iff.1 h5).1
      have := congrArg List.length this
      simpa using this
    have hd' : completeChunks 0 (done ++ rest) f.length = done' := by rw [hcc, h2c]
    refine ⟨s', e, by rw [hget, h5]; rfl, ⟨done', rest', [], 0, hsp, h1, by simp [-List.length_flatMap]; omega⟩, h4, ?_, ?_⟩
    · have hn : s'.dec.index = 0 := h1.dec.index
      have hm : s'.dec.numRecords = 0 := h1.dec.num
      have hrcv := h1.rcv
      unfold RR.pos
      rw [if_neg (by simp [hn, hm, hrcv]), hd', h1.cr.pos]
    · rw [hd']; exact h2

theorem SeqSt.mono {cs : List Chunk} {k : Nat} {s : RR} {g : Bytes}
    (h : SeqSt H recs cs k f s) (hp : f <+: g) : SeqSt H recs cs k g s := by
  obtain ⟨d, r, rs, i, h1, h2, h3⟩ := h
  exact ⟨d, r, rs, i, h1, h2.mono hp, h3⟩

theorem numReads_le (recs : Chunk → List Bytes) : ∀ (cs : List Chunk) (pos n : Nat),
    ((completeChunks pos cs n).flatMap recs).length ≤ (cs.flatMap recs).length
  | [], _, _ => Nat.le_refl _
  | c :: cs, pos, n => by
    simp only [completeChunks]
    split
    · have := numReads_le recs cs (c.endAt pos) n
      simp [-List.length_flatMap]; omega
    · simp

/-- Any schedule of reads of a growing valid file. -/
theorem readSchedule_seq {cs : List Chunk} (hok : ChunksOk H 0 cs)
    (hsig : ∀ c ∈ cs.head?, IsSignature c) (hdec : ∀ c ∈ cs, DecodesTo parse c (recs c)) :
    ∀ (fs : List Bytes) (f : Bytes) (k : Nat) (s : RR), Growing (fileBytes H 0 cs) (f :: fs) →
    SeqSt H recs cs k f s →
    ∃ s' g k', readSchedule H parse recovery fs s = some (expectedReads recs cs k fs, s') ∧
      g = (f :: fs).getLast (by simp) ∧ SeqSt H recs cs k' g s'
  | [], f, k, s, _, h => ⟨s, f, k, rfl, rfl, h⟩
  | g :: fs, f, k, s, hg, h => by
    have hp : g <+: fileBytes H 0 cs := hg.2 g (by simp)
    have hfg : f <+: g := by
      have := hg.1; simp only [List.pairwise_cons] at this
      exact this.1 g (by simp)
    have hg' : Growing (fileBytes H 0 cs) (g :: fs) :=
      ⟨(List.pairwise_cons.1 hg.1).2, fun x hx => hg.2 x (by simp [hx])⟩
    have hpl := recordPositions_length (recs := recs) cs 0
    have hnr := numReads_le recs cs 0 g.length
    simp only [readSchedule, expectedReads]
    rcases readRecord_seq (recovery := recovery) hok hsig hp hdec (h.mono hfg) with
      ⟨r, s1, q, e, h1, h2, h3, _, h4⟩ | ⟨s1, e, h1, h4, _, _, _⟩
    · obtain ⟨s', l, k', e2, hl, h5⟩ := readSchedule_seq hok hsig hdec fs g (k + 1) s1 hg' h4
      rw [e]
      have hz : (((completeChunks 0 cs g.length).flatMap recs).zip (recordPositions recs 0 cs))[k]? =
          some (r, q) := by
        rw [List.getElem?_zip_eq_some]; exact ⟨h1, by rw [h2]⟩
      simp only [e2, hz, Option.map_some, h3]
      exact ⟨s', l, k', rfl, by rw [hl]; exact (List.getLast_cons (List.cons_ne_nil g fs)).symm, h5⟩
    · obtain ⟨s', l, k', e2, hl, h5⟩ := readSchedule_seq hok hsig hdec fs g k s1 hg' h4
      rw [e]
      have hz : (((completeChunks 0 cs g.length).flatMap recs).zip (recordPositions recs 0 cs))[k]? =
          none := by
        rw [List.getElem?_eq_none_iff] at h1 ⊢
        simp [-List.length_flatMap]; omega
      simp only [e2, hz, Option.map_none]
      exact ⟨s', l, k', rfl, by rw [hl]; exact (List.getLast_cons (List.cons_ne_nil g fs)).symm, h5⟩

/-- Appending one more read to a schedule. -/
theorem readSchedule_append (fs gs : List Bytes) (s : RR) :
    readSchedule H parse recovery (fs ++ gs) s =
      (readSchedule H parse recovery fs s).bind (fun p =>
        (readSchedule H parse recovery gs p.2).map (fun q => (p.1 ++ q.1, q.2))) := by
  induction fs generalizing s with
  | nil => simp [readSchedule]
  | cons f fs ih =>
    simp only [List.cons_append, readSchedule]
    cases s.readRecord H parse recovery f with
    | none => rfl
    | some p =>
      obtain ⟨r, s1⟩ := p
      simp only [ih]
      cases readSchedule H parse recovery fs s1 with
      | none => rfl
      | some p =>
        obtain ⟨rs, s2⟩ := p
        simp only [Option.bind_some]
        cases readSchedule H parse recovery gs s2 <;> simp

end
end Riegeli

import Verif.FileProofs
import Verif.ArbSeek
/-!
# Chunk level seeks on valid files

Specification (`IsBoundary`, `IsTarget`) and lemmas; the property theorems are in `Verif/Props/Seeking.lean`.
-/
namespace Riegeli
open CR
variable {H : Bytes → UInt64}

/-- Specification: `b` is a chunk boundary of the consecutive chunks `cs` beginning at `pos` (the beginning or the end
of a chunk). -/
def IsBoundary (pos : Nat) (cs : List Chunk) (b : Nat) : Prop := ∃ pre post, cs = pre ++ post ∧ b = fileEnd pos pre

/-- Specification: some chunk begins at `b` and has more than `p - b` records, so that `p` is the numeric position of
one of its records. -/
def ChunkHasPosition (pos : Nat) (cs : List Chunk) (p b : Nat) : Prop :=
  ∃ pre c post, cs = pre ++ c :: post ∧ b = fileEnd pos pre ∧ b ≤ p ∧ p < b + Hdr.numRecords c.header

/-- Specification: `b` is the nearest chunk boundary at or after `p`. -/
def NearestAfter (pos : Nat) (cs : List Chunk) (p b : Nat) : Prop :=
  IsBoundary pos cs b ∧ p ≤ b ∧ ∀ b', IsBoundary pos cs b' → p ≤ b' → b ≤ b'

/-- Specification: `b` is the nearest chunk boundary at or before `p`. -/
def NearestBefore (pos : Nat) (cs : List Chunk) (p b : Nat) : Prop :=
  IsBoundary pos cs b ∧ b ≤ p ∧ ∀ b', IsBoundary pos cs b' → b' ≤ p → b' ≤ b

/-- Specification: where `SeekToChunk...(p)` should go in the chunks `cs` beginning at `pos` (comments in
`records/chunk_reader.h:112-134`). -/
def IsTarget (pos : Nat) (cs : List Chunk) (which : Which) (p b : Nat) : Prop :=
  match which with
  | .after => NearestAfter pos cs p b
  | .before => NearestBefore pos cs p b
  | .containing => ChunkHasPosition pos cs p b ∨
      ((∀ b', ¬ ChunkHasPosition pos cs p b') ∧ NearestAfter pos cs p b)

theorem isBoundary_nil {pos b : Nat} : IsBoundary pos [] b ↔ b = pos := by
  constructor
  · rintro ⟨pre, post, h1, h2⟩
    have : pre = [] := by cases pre <;> simp_all
    subst this; exact h2
  · rintro rfl; exact ⟨[], [], rfl, rfl⟩

theorem isBoundary_cons {pos b : Nat} {c : Chunk} {cs : List Chunk} :
    IsBoundary pos (c :: cs) b ↔ b = pos ∨ IsBoundary (c.endAt pos) cs b := by
  constructor
  · rintro ⟨pre, post, h1, h2⟩
    cases pre with
    | nil => exact Or.inl h2
    | cons d pre =>
      simp only [List.cons_append, List.cons.injEq] at h1
      obtain ⟨rfl, h1⟩ := h1
      exact Or.inr ⟨pre, post, h1, h2⟩
  · rintro (rfl | ⟨pre, post, rfl, h2⟩)
    · exact ⟨[], _, rfl, rfl⟩
    · exact ⟨c :: pre, post, rfl, h2⟩

theorem chunkHasPosition_nil {pos p b : Nat} : ¬ ChunkHasPosition pos [] p b := by
  rintro ⟨pre, c, post, h1, -⟩
  simp at h1

theorem chunkHasPosition_cons {pos p b : Nat} {c : Chunk} {cs : List Chunk} :
    ChunkHasPosition pos (c :: cs) p b ↔
      (b = pos ∧ b ≤ p ∧ p < b + Hdr.numRecords c.header) ∨ ChunkHasPosition (c.endAt pos) cs p b := by
  constructor
  · rintro ⟨pre, d, post, h1, h2, h3⟩
    cases pre with
    | nil =>
      simp only [List.nil_append, List.cons.injEq] at h1
      obtain ⟨rfl, h1⟩ := h1
      exact Or.inl ⟨h2, h3⟩
    | cons d pre =>
      simp only [List.cons_append, List.cons.injEq] at h1
      obtain ⟨rfl, h1⟩ := h1
      exact Or.inr ⟨pre, _, post, h1, h2, h3⟩
  · rintro (⟨h1, h2⟩ | ⟨pre, d, post, rfl, h2⟩)
    · exact ⟨[], c, cs, rfl, h1, h2⟩
    · exact ⟨c :: pre, d, post, rfl, h2⟩

theorem ChunkHasPosition.isBoundary {pos p b : Nat} {cs : List Chunk} (h : ChunkHasPosition pos cs p b) :
    IsBoundary pos cs b := by
  obtain ⟨pre, c, post, h1, h2, -⟩ := h
  exact ⟨pre, c :: post, h1, h2⟩

theorem IsBoundary.ge : ∀ {cs : List Chunk} {pos b : Nat}, BoundaryOk pos → ChunksLaid H pos cs →
    IsBoundary pos cs b → pos ≤ b
  | cs, pos, b, hb, hl, ⟨pre, post, h1, h2⟩ => by
    subst h1 h2
    exact (((chunksLaid_append _ _ _).1 hl).1.boundary hb).2

namespace SeekP

/-- The search done by the loop of `SeekToChunk`, on the list of chunks. -/
def target (which : Which) (p : Nat) : Nat → List Chunk → Nat
  | pos, [] => pos
  | pos, c :: cs =>
    if p ≤ pos then pos
    else if which = .containing ∧ p < pos + Hdr.numRecords c.header then pos
    else if which = .before ∧ p < c.endAt pos then pos
    else target which p (c.endAt pos) cs

theorem target_le {which : Which} {p pos : Nat} {cs : List Chunk} (h : p ≤ pos) : target which p pos cs = pos := by
  cases cs with
  | nil => rfl
  | cons c cs => rw [target, if_pos h]

/-- The search finds what the specification says. -/
theorem target_spec {which : Which} {p : Nat} : ∀ (cs : List Chunk) (pos : Nat), BoundaryOk pos →
    ChunksLaid H pos cs → pos ≤ p → p ≤ fileEnd pos cs → IsTarget pos cs which p (target which p pos cs)
  | [], pos, _, _, h1, h2 => by
    have : p = pos := Nat.le_antisymm h2 h1
    subst this
    cases which
    · exact Or.inr ⟨fun b' => chunkHasPosition_nil, isBoundary_nil.2 rfl, Nat.le_refl _, fun _ _ h => h⟩
    · exact ⟨isBoundary_nil.2 rfl, Nat.le_refl _, fun _ _ h => h⟩
    · exact ⟨isBoundary_nil.2 rfl, Nat.le_refl _, fun _ _ h => h⟩
  | c :: cs, pos, hb, hl, h1, h2 => by
    obtain ⟨_, _, _, he, hr⟩ := hl
    have hs := endAt_spec hb he
    have hgt := hs.1.gt
    have hn := hs.1.2.2.2
    have hge : ∀ b, IsBoundary (c.endAt pos) cs b → c.endAt pos ≤ b := fun b h => h.ge hs.1.1 hr
    have hb0 : IsBoundary pos (c :: cs) pos := isBoundary_cons.2 (Or.inl rfl)
    rw [target]
    by_cases c1 : p ≤ pos
    · rw [if_pos c1]
      have : p = pos := Nat.le_antisymm c1 h1
      subst this
      cases which
      · by_cases h0 : Hdr.numRecords c.header = 0
        · right
          refine ⟨fun b' h => ?_, hb0, Nat.le_refl _, fun _ _ h => h⟩
          rcases chunkHasPosition_cons.1 h with ⟨h1, h2, h3⟩ | h
          · omega
          · have := hge _ h.isBoundary
            obtain ⟨_, _, _, _, _, h5, _⟩ := h
            omega
        · left
          exact chunkHasPosition_cons.2 (Or.inl ⟨rfl, Nat.le_refl _, by omega⟩)
      · exact ⟨hb0, Nat.le_refl _, fun _ _ h => h⟩
      · exact ⟨hb0, Nat.le_refl _, fun _ _ h => h⟩
    · rw [if_neg c1]
      by_cases c2 : which = .containing ∧ p < pos + Hdr.numRecords c.header
      · rw [if_pos c2]
        obtain ⟨rfl, c2⟩ := c2
        exact Or.inl (chunkHasPosition_cons.2 (Or.inl ⟨rfl, h1, c2⟩))
      · rw [if_neg c2]
        by_cases c3 : which = .before ∧ p < c.endAt pos
        · rw [if_pos c3]
          obtain ⟨rfl, c3⟩ := c3
          refine ⟨hb0, h1, fun b' h h' => ?_⟩
          rcases isBoundary_cons.1 h with h | h
          · omega
          · have := hge _ h; omega
        · rw [if_neg c3]
          by_cases c4 : c.endAt pos ≤ p
          · have ih := target_spec (which := which) cs _ hs.1.1 hr c4 h2
            cases which
            · rcases ih with ih | ⟨i1, i2, i3, i4⟩
              · exact Or.inl (chunkHasPosition_cons.2 (Or.inr ih))
              · right
                refine ⟨fun b' h => ?_, isBoundary_cons.2 (Or.inr i2), i3, fun b' h h' => ?_⟩
                · rcases chunkHasPosition_cons.1 h with ⟨h3, h4, h5⟩ | h
                  · subst h3; exact c2 ⟨rfl, h5⟩
                  · exact i1 _ h
                · rcases isBoundary_cons.1 h with h | h
                  · omega
                  · exact i4 _ h h'
            · obtain ⟨i2, i3, i4⟩ := ih
              refine ⟨isBoundary_cons.2 (Or.inr i2), i3, fun b' h h' => ?_⟩
              rcases isBoundary_cons.1 h with h | h
              · have := hge _ i2; omega
              · exact i4 _ h h'
            · obtain ⟨i2, i3, i4⟩ := ih
              refine ⟨isBoundary_cons.2 (Or.inr i2), i3, fun b' h h' => ?_⟩
              rcases isBoundary_cons.1 h with h | h
              · omega
              · exact i4 _ h h'
          · rw [target_le (by omega)]
            have hbe : IsBoundary pos (c :: cs) (c.endAt pos) :=
              isBoundary_cons.2 (Or.inr ⟨[], cs, rfl, rfl⟩)
            have hna : NearestAfter pos (c :: cs) p (c.endAt pos) := by
              refine ⟨hbe, by omega, fun b' h h' => ?_⟩
              rcases isBoundary_cons.1 h with h | h
              · omega
              · exact hge _ h
            cases which
            · right
              refine ⟨fun b' h => ?_, hna⟩
              rcases chunkHasPosition_cons.1 h with ⟨h3, h4, h5⟩ | h
              · subst h3; exact c2 ⟨rfl, h5⟩
              · have := hge _ h.isBoundary
                obtain ⟨_, _, _, _, _, h5, _⟩ := h
                omega
            · exact absurd ⟨rfl, by omega⟩ c3
            · exact hna

/-- Chunks which end at or before `p` are skipped by the search. -/
theorem target_skip {which : Which} {p : Nat} : ∀ (pre post : List Chunk) (pos : Nat), BoundaryOk pos →
    ChunksLaid H pos (pre ++ post) → fileEnd pos pre ≤ p →
    target which p pos (pre ++ post) = target which p (fileEnd pos pre) post
  | [], _, _, _, _, _ => rfl
  | c :: pre, post, pos, hb, hl, hp => by
    obtain ⟨_, _, _, he, hr⟩ := hl
    have hs := endAt_spec hb he
    have hle := hs.1.2.2.2
    have hgt := hs.1.gt
    have hl2 := ((chunksLaid_append _ _ _).1 hr).1
    have h2 := (hl2.boundary hs.1.1).2
    simp only [fileEnd] at hp
    rw [List.cons_append, target, if_neg (by omega), if_neg (by omega), if_neg (by omega)]
    exact target_skip pre post _ hs.1.1 hr hp

/-- Chunks which begin before `p` are skipped by the search for a chunk boundary at or after `p`. -/
theorem target_skip_after {p : Nat} (pre post : List Chunk) (c : Chunk) (hl : ChunksLaid H 0 (pre ++ c :: post))
    (hp : fileEnd 0 pre < p) :
    target .after p 0 (pre ++ c :: post) = target .after p (c.endAt (fileEnd 0 pre)) post := by
  rw [target_skip pre (c :: post) 0 boundaryOk_zero hl (by omega), target, if_neg (by omega), if_neg (by simp),
    if_neg (by simp)]

theorem fileEnd_le {pre post : List Chunk} (hl : ChunksLaid H 0 (pre ++ post)) :
    fileEnd 0 pre ≤ fileEnd 0 (pre ++ post) := by
  rw [fileEnd_append]
  have := (chunksLaid_append 0 pre post).1 hl
  exact (this.2.boundary (this.1.boundary boundaryOk_zero).1).2

/-- Every position inside the file is in some chunk. -/
theorem exists_chunk : ∀ (cs : List Chunk) (pos b : Nat), pos ≤ b → b < fileEnd pos cs →
    ∃ pre c post, cs = pre ++ c :: post ∧ fileEnd pos pre ≤ b ∧ b < c.endAt (fileEnd pos pre)
  | [], pos, b, h1, h2 => by simp only [fileEnd] at h2; omega
  | c :: cs, pos, b, h1, h2 => by
    by_cases h : b < c.endAt pos
    · exact ⟨[], c, cs, rfl, h1, h⟩
    · obtain ⟨pre, d, post, e1, e2, e3⟩ := exists_chunk cs (c.endAt pos) b (by omega) h2
      exact ⟨c :: pre, d, post, by simp [e1], e2, e3⟩

end SeekP

/-- A valid layout (data need not match the data hashes). -/
structure Laid (H : Bytes → UInt64) (cs : List Chunk) (F : Bytes) : Prop where
  laid : ChunksLaid H 0 cs
  sig : ∀ c ∈ cs.head?, IsSignature c
  bytes : F = fileBytes H 0 cs

theorem ValidFile.toLaid {cs : List Chunk} {F : Bytes} (h : ValidFile H cs F) : Laid H cs F :=
  ⟨h.ok.laid, h.sig, h.bytes⟩

namespace Laid
variable {cs : List Chunk} {F : Bytes}

theorem length (h : Laid H cs F) : F.length = fileEnd 0 cs := by
  rw [h.bytes, h.laid.length boundaryOk_zero]; omega

theorem chunkAt (h : Laid H cs F) {pre post : List Chunk} {c : Chunk} (e : cs = pre ++ c :: post) :
    ChunkAt H F (fileEnd 0 pre) c := by
  subst e
  rw [h.bytes]
  exact chunkAt_of_laid h.laid (fun h0 => h.sig c (by subst h0; simp))

theorem boundary (h : Laid H cs F) {pre post : List Chunk} (e : cs = pre ++ post) :
    BoundaryOk (fileEnd 0 pre) ∧ fileEnd 0 pre ≤ F.length := by
  subst e
  refine ⟨(((chunksLaid_append _ _ _).1 h.laid).1.boundary boundaryOk_zero).1, ?_⟩
  rw [h.length]; exact SeekP.fileEnd_le h.laid

theorem lt (h : Laid H cs F) : F.length < 2 ^ 64 := by
  rw [h.length]; exact h.laid.fileEnd_lt (by omega) boundaryOk_zero

end Laid

/-- The reader is at some chunk boundary of the file, possibly having read part of the chunk there. -/
def AtSome (H : Bytes → UInt64) (F : Bytes) (cs : List Chunk) (s : CR) : Prop :=
  ∃ pre post, cs = pre ++ post ∧ Reading H F (fileEnd 0 pre) post s

namespace SeekP
variable {cs : List Chunk} {F : Bytes} {s : CR}

theorem atBoundary_reading (hv : Laid H cs F) {pre post : List Chunk} (e : cs = pre ++ post)
    (h : AtBoundary F (fileEnd 0 pre) s) : Reading H F (fileEnd 0 pre) post s := by
  cases post with
  | nil => exact h
  | cons c post => exact h.mid (hv.chunkAt e) (List.prefix_refl _)

theorem usable_small {cb p : Nat} (h : p = cb ∨ (cb % 65536 = 0 ∧ cb < p ∧ p ≤ cb + 24)) : usable cb p = 0 := by
  rcases h with h | ⟨h1, h2, h3⟩
  · rw [h]; simp [usable]
  · have := usable_add_usableTo (show cb ≤ p by omega)
    unfold usableTo at this; omega

theorem AtBoundary.usable (h : AtBoundary F cb s) : Riegeli.usable cb s.srcPos = 0 := by
  apply usable_small
  rcases h.src with h | ⟨h1, h2, h3, _⟩
  · exact Or.inl h
  · exact Or.inr ⟨h1, h2, h3⟩

/-- The loop of `SeekToChunk` on a valid file. -/
theorem checkCurrentChunk_valid (hv : Laid H cs F) (which : Which) {p : Nat} (hp : p ≤ F.length) :
    ∀ (post pre : List Chunk) (s : CR), cs = pre ++ post → AtBoundary F (fileEnd 0 pre) s → s.truncated = false →
    ∃ s', s.checkCurrentChunk H F which p = some (true, s') ∧ AtSome H F cs s' ∧ s'.truncated = false ∧
      s'.pos = target which p (fileEnd 0 pre) post := by
  intro post
  induction post with
  | nil =>
    intro pre s e ha ht
    refine ⟨s, ?_, ⟨pre, [], e, ha⟩, ht, ha.pos⟩
    rw [Arb.checkCurrentChunk_eq, Arb.checkCurrentChunkF]
    rw [hv.length, e] at hp
    simp only [List.append_nil] at hp
    rw [if_pos (by rw [ha.pos]; exact hp)]
  | cons c post ih =>
    intro pre s e ha ht
    rw [Arb.checkCurrentChunk_eq, Arb.checkCurrentChunkF, ha.pos, target]
    by_cases c1 : p ≤ fileEnd 0 pre
    · rw [if_pos c1, if_pos c1]
      exact ⟨s, rfl, ⟨pre, _, e, atBoundary_reading hv e ha⟩, ht, ha.pos⟩
    rw [if_neg c1, if_neg c1]
    have hc := hv.chunkAt e
    have hgt := hc.holds.gt
    have hn := hc.holds.2.2.2
    have hle := hc.len
    have hlt := hc.lt
    rcases readChunkHeader_spec hc (List.prefix_refl _) (ha.mid hc (List.prefix_refl _)) ht
      (by rw [AtBoundary.usable ha]; omega) with ⟨s1, e1, hd, hu⟩ | ⟨s1, e1, hst⟩
    · rw [e1]
      have hpos := hd.mid.pos
      have hend : chunkEnd (Hdr.dataSize c.header) (Hdr.numRecords c.header) (fileEnd 0 pre) = c.endAt (fileEnd 0 pre) := rfl
      have hw : w64 (fileEnd 0 pre + Hdr.numRecords c.header) = fileEnd 0 pre + Hdr.numRecords c.header := by
        unfold w64; exact Nat.mod_eq_of_lt (by omega)
      simp only [hd.hdr, hpos, hend, hw]
      have hat : AtSome H F cs s1 := ⟨pre, _, e, hd.mid⟩
      by_cases c2 : which = .containing ∧ p < fileEnd 0 pre + Hdr.numRecords c.header
      · rw [if_pos c2, if_pos c2]
        exact ⟨s1, rfl, hat, hd.trunc, hpos⟩
      rw [if_neg c2, if_neg c2]
      by_cases c3 : which = .before ∧ p < c.endAt (fileEnd 0 pre)
      · rw [if_pos c3, if_pos c3]
        exact ⟨s1, rfl, hat, hd.trunc, hpos⟩
      rw [if_neg c3, if_neg c3]
      have hk : srcSeek F (c.endAt (fileEnd 0 pre)) = (true, c.endAt (fileEnd 0 pre)) := by
        unfold srcSeek; rw [if_pos hle]
      rw [hk]
      simp only [Bool.true_eq_false, ↓reduceIte]
      have hfe : fileEnd 0 (pre ++ [c]) = c.endAt (fileEnd 0 pre) := by rw [fileEnd_append]; rfl
      have := ih (pre ++ [c]) { s1 with pos := c.endAt (fileEnd 0 pre), srcPos := c.endAt (fileEnd 0 pre), hdr := c.header }
        (by simp [e]) (by
          rw [hfe]
          refine ⟨rfl, hd.mid.err, hd.mid.rcv, ?_, hc.hlen, hd.mid.bl, hle, Or.inl rfl⟩
          have := hd.mid.data
          rw [hu] at this
          simpa using this) hd.trunc
      rw [hfe] at this
      exact this
    · have := hst.short; omega

theorem seekToChunkFrom_valid (hv : Laid H cs F) (which : Which) {p : Nat} (hp : p ≤ F.length)
    {pre post : List Chunk} (e : cs = pre ++ post) (he : s.err = none) (hr : s.rcv = .no) (hd : s.data = [])
    (hh : s.hdr.length = 40) (hb : s.bh.length = 24) (ht : s.truncated = false) :
    ∃ s', s.seekToChunkFrom H F which p (fileEnd 0 pre) = some (true, s') ∧ AtSome H F cs s' ∧
      s'.truncated = false ∧ s'.pos = target which p (fileEnd 0 pre) post := by
  unfold seekToChunkFrom
  have hk : srcSeek F (fileEnd 0 pre) = (true, fileEnd 0 pre) := by
    unfold srcSeek; rw [if_pos (hv.boundary e).2]
  rw [hk]
  simp only [Bool.true_eq_false, ↓reduceIte]
  exact checkCurrentChunk_valid hv which hp post pre _ e
    ⟨rfl, he, hr, hd, hh, hb, (hv.boundary e).2, Or.inl rfl⟩ ht

/-- Reading a whole block header at a block boundary inside the file. -/
theorem readBlockHeader_at {f : Bytes} {b : Nat} {h : Bytes} (hb : b % 65536 = 0) (hl : b + 24 ≤ f.length)
    (hs : slice f b 24 = h) (hh : BH.storedHash h = BH.computedHash H h) (hsrc : s.srcPos = b)
    (hbl : s.bh.length = 24) :
    s.readBlockHeader H f = (true, { s with bh := h, srcPos := b + 24 }) := by
  have hhl : h.length = 24 := by rw [← hs, slice_length]; omega
  have hput : putAt s.bh (24 - 24) h = h := by
    unfold putAt
    rw [List.drop_of_length_le (by rw [hbl, hhl]; omega)]; simp
  have hrd : srcRead f b 24 = (true, h, b + 24) := by
    unfold srcRead; rw [if_pos hl, hs]
  unfold readBlockHeader
  simp only [hsrc, remainingInBlockHeader_eq, hb, Nat.sub_zero, hrd, hput, Bool.true_eq_false, ↓reduceIte, hh,
    ne_eq, not_true_eq_false]

theorem ChunkAt.blockHeader {cb b : Nat} {c : Chunk} (hc : ChunkAt H F cb c) (hb : b % 65536 = 0) (h1 : cb ≤ b)
    (h2 : b < c.endAt cb) : b + 24 < c.endAt cb ∧ slice F b 24 = mkBlockHeader H (b - cb) (c.endAt cb - b) := by
  have hbe := hc.holds.1
  have hlt : b + 24 < c.endAt cb := by unfold BoundaryOk at hbe; omega
  refine ⟨hlt, ?_⟩
  rw [hc.seg b 24 h1 (by omega), chunkSeg_blockHeader hb]

theorem seekToChunkFromBlock_valid (hv : Laid H cs F) (which : Which) {p : Nat} (hp : p ≤ F.length)
    (he : s.err = none) (hr : s.rcv = .no)
    (hh : s.hdr.length = 40) (hbl : s.bh.length = 24) (ht : s.truncated = false) :
    ∃ s', s.seekToChunkFromBlock H F which p = some (true, s') ∧ AtSome H F cs s' ∧
      s'.truncated = false ∧ s'.pos = target which p 0 cs := by
  unfold seekToChunkFromBlock
  generalize hb : roundDownToBlockBoundary p = b
  have hb0 : b % 65536 = 0 := by unfold roundDownToBlockBoundary at hb; omega
  have hbp : b ≤ p := by unfold roundDownToBlockBoundary at hb; omega
  have hk : srcSeek F b = (true, b) := by
    unfold srcSeek; rw [if_pos (by omega)]
  simp only [hk, Bool.true_eq_false, ↓reduceIte]
  by_cases hend : b = F.length
  · have hpb : p = b := by omega
    have hrd : srcRead F b 24 = (false, [], b) := by
      unfold srcRead; rw [if_neg (by omega)]; rw [hend]; simp
    have hput : putAt s.bh (24 - 24) [] = s.bh := by unfold putAt; simp
    have hrb : ({ s with pos := b, data := [], srcPos := b } : CR).readBlockHeader H F =
        (false, { s with pos := b, data := [], srcPos := b }) := by
      unfold readBlockHeader
      simp only [remainingInBlockHeader_eq, hb0, Nat.sub_zero, hrd, hput, ↓reduceIte, failReading]
      rw [if_neg (by omega)]
    rw [hrb]
    simp only [he, ne_eq, not_true_eq_false, ↓reduceIte, ht, hpb, Nat.le_refl, and_self]
    have hbe : b = fileEnd 0 cs := by rw [hend, hv.length]
    refine ⟨{ s with pos := b, data := [], srcPos := b }, ?_, ⟨cs, [], by simp, ?_⟩, ht, ?_⟩
    · cases s; simp_all
    · show AtBoundary _ _ _
      rw [← hbe]
      exact ⟨rfl, he, hr, rfl, hh, hbl, by simp only; omega, Or.inl rfl⟩
    · have := target_skip (H := H) (which := which) (p := p) cs [] 0 boundaryOk_zero (by simpa using hv.laid) (by omega)
      rw [List.append_nil, hpb] at this
      rw [this]; exact hbe
  · obtain ⟨pre, c, post, e, h1, h2⟩ := exists_chunk cs 0 b (by omega) (by rw [← hv.length]; omega)
    have hc := hv.chunkAt e
    obtain ⟨h3, h4⟩ := ChunkAt.blockHeader hc hb0 h1 h2
    have hlen := hc.len
    have hlt := hc.lt
    rw [readBlockHeader_at (s := { s with pos := b, data := [], srcPos := b }) hb0 (by omega) h4 (mkBlockHeader_stored _ _ _) rfl hbl]
    simp only
    rw [mkBlockHeader_prev H (by omega), mkBlockHeader_next H (by omega)]
    have hw : w64 (b + (c.endAt (fileEnd 0 pre) - b)) = c.endAt (fileEnd 0 pre) := by
      unfold w64; rw [Nat.mod_eq_of_lt (by omega)]; omega
    rw [hw]
    have hfe : fileEnd 0 (pre ++ [c]) = c.endAt (fileEnd 0 pre) := by rw [fileEnd_append]; rfl
    have hl : ChunksLaid H 0 (pre ++ c :: post) := e ▸ hv.laid
    have e' : cs = (pre ++ [c]) ++ post := by simp [e]
    have hl' : ChunksLaid H 0 ((pre ++ [c]) ++ post) := e' ▸ hv.laid
    have hT : target which p 0 cs = target which p (fileEnd 0 pre) (c :: post) := by
      rw [e]; exact target_skip pre _ 0 boundaryOk_zero hl (by omega)
    by_cases h0 : b - fileEnd 0 pre = 0
    · rw [if_pos h0, hT]
      have hbe : b = fileEnd 0 pre := by omega
      exact checkCurrentChunk_valid hv which hp (c :: post) pre _ e
        ⟨hbe, he, hr, rfl, hh, by simp, by show b + 24 ≤ _; omega, Or.inr ⟨by omega, by show _ < b + 24; omega, by show b + 24 ≤ _; omega, by
          rw [← hbe, show b + 24 - b = 24 by omega, h4, ← hbe]; exact List.take_of_length_le (Nat.le_of_eq (mkBlockHeader_length _ _ _))⟩⟩ ht
    rw [if_neg h0]
    by_cases h5 : which ≠ .after ∧ p < c.endAt (fileEnd 0 pre)
    · rw [if_pos h5, if_neg (by omega)]
      have : b - (b - fileEnd 0 pre) = fileEnd 0 pre := by omega
      rw [this, if_neg (by rw [(isPossibleChunkBoundary_iff _).2 (hv.boundary e).1]; simp), hT]
      exact seekToChunkFrom_valid hv which hp e he hr rfl hh (by simp) ht
    · rw [if_neg h5, if_neg (by rw [← hfe, (isPossibleChunkBoundary_iff _).2 (hv.boundary e').1]; simp)]
      have hT2 : target which p 0 cs = target which p (c.endAt (fileEnd 0 pre)) post := by
        by_cases ha : which = .after
        · subst ha
          rw [e]; exact target_skip_after pre post c hl (by omega)
        · have : c.endAt (fileEnd 0 pre) ≤ p := by
            apply Nat.le_of_not_lt; intro hlt; exact h5 ⟨ha, hlt⟩
          rw [e', target_skip (pre ++ [c]) post 0 boundaryOk_zero hl' (by omega), hfe]
      rw [hT2, ← hfe]
      exact seekToChunkFrom_valid hv which hp e' he hr rfl hh (by simp) ht

/-- `SeekToChunk` on a valid file, from any reader state at a chunk boundary. -/
theorem seekToChunk_valid (hv : Laid H cs F) (which : Which) {p : Nat} (hp : p ≤ F.length) (hs : AtSome H F cs s) :
    ∃ s', s.seekToChunk H F which p = some (true, s') ∧ AtSome H F cs s' ∧ IsTarget 0 cs which p s'.pos := by
  have hspec := target_spec (which := which) cs 0 boundaryOk_zero hv.laid (Nat.zero_le p) (by rw [← hv.length]; exact hp)
  obtain ⟨pre, post, e, hrd⟩ := hs
  have hbase : s.err = none ∧ s.rcv = .no ∧ s.hdr.length = 40 ∧ s.bh.length = 24 ∧ s.pos = fileEnd 0 pre := by
    unfold Reading at hrd
    split at hrd
    · exact ⟨hrd.err, hrd.rcv, hrd.hl, hrd.bl, hrd.pos⟩
    · exact ⟨hrd.err, hrd.rcv, hrd.hl, hrd.bl, hrd.pos⟩
  obtain ⟨b1, b2, b3, b4, b5⟩ := hbase
  unfold seekToChunk
  rw [if_neg (by simp [b1])]
  by_cases h0 : s.pos = p
  · rw [if_pos h0]
    refine ⟨s, rfl, ⟨pre, post, e, hrd⟩, ?_⟩
    have := target_skip (H := H) (which := which) (p := p) pre post 0 boundaryOk_zero (e ▸ hv.laid) (by omega)
    rw [← e, target_le (pos := fileEnd 0 pre) (by omega)] at this
    rw [b5, ← this]; exact hspec
  rw [if_neg h0]
  simp only
  by_cases hlt : s.pos < p
  · rw [if_pos hlt]
    cases post with
    | nil =>
      have : F.length = fileEnd 0 pre := by rw [hv.length, e, List.append_nil]
      omega
    | cons c post =>
      have hc := hv.chunkAt e
      have hgt := hc.holds.gt
      have hn := hc.holds.2.2.2
      have hle := hc.len
      have hl64 := hc.lt
      have hT : target which p 0 cs = target which p (fileEnd 0 pre) (c :: post) := by
        rw [e]; exact target_skip pre _ 0 boundaryOk_zero (e ▸ hv.laid) (by omega)
      have hm : Mid H F (fileEnd 0 pre) c { s with truncated := false } := Mid.clearTrunc hrd
      rcases pullChunkHeader_spec hc (List.prefix_refl _) hm with ⟨s1, e1, hm1, hh1, ht1, hu1⟩ | ⟨s1, e1, hst⟩
      · rw [e1]
        have hpos := hm1.pos
        have hend : chunkEnd (Hdr.dataSize c.header) (Hdr.numRecords c.header) (fileEnd 0 pre) = c.endAt (fileEnd 0 pre) := rfl
        have hw : w64 (fileEnd 0 pre + Hdr.numRecords c.header) = fileEnd 0 pre + Hdr.numRecords c.header := by
          unfold w64; exact Nat.mod_eq_of_lt (by omega)
        simp only [hh1, hpos, hend, hw]
        have hat : AtSome H F cs s1 := ⟨pre, _, e, hm1⟩
        rw [hT, target, if_neg (by omega)] at hspec
        by_cases c2 : which = .containing ∧ p < fileEnd 0 pre + Hdr.numRecords c.header
        · rw [if_pos c2] at *
          exact ⟨s1, rfl, hat, hpos ▸ hspec⟩
        rw [if_neg c2] at *
        by_cases c3 : which = .before ∧ p < c.endAt (fileEnd 0 pre)
        · rw [if_pos c3] at *
          exact ⟨s1, rfl, hat, hpos ▸ hspec⟩
        rw [if_neg c3] at *
        have hfe : fileEnd 0 (pre ++ [c]) = c.endAt (fileEnd 0 pre) := by rw [fileEnd_append]; rfl
        have e' : cs = (pre ++ [c]) ++ post := by simp [e]
        split
        · obtain ⟨s', g1, g2, g3, g4⟩ := seekToChunkFromBlock_valid hv which hp hm1.err hm1.rcv hm1.hl hm1.bl ht1
          rw [hT, target, if_neg (by omega), if_neg c2, if_neg c3] at g4
          exact ⟨s', g1, g2, g4 ▸ hspec⟩
        · obtain ⟨s', g1, g2, g3, g4⟩ := seekToChunkFrom_valid (s := { s1 with data := [], pos := fileEnd 0 pre, hdr := c.header }) hv which hp e'
            hm1.err hm1.rcv rfl hc.hlen hm1.bl ht1
          rw [hfe] at g1 g4
          exact ⟨s', g1, g2, g4 ▸ hspec⟩
      · have := hst.short; omega
  · rw [if_neg hlt]
    obtain ⟨s', g1, g2, g3, g4⟩ := seekToChunkFromBlock_valid (s := { s with truncated := false }) hv which hp b1 b2 b3 b4 rfl
    exact ⟨s', g1, g2, g4 ▸ hspec⟩

theorem fileEnd_inj : ∀ {pre post pre' post' : List Chunk} {pos : Nat}, BoundaryOk pos →
    ChunksLaid H pos (pre ++ post) → pre ++ post = pre' ++ post' → fileEnd pos pre = fileEnd pos pre' →
    pre = pre' ∧ post = post'
  | [], post, [], post', pos, _, _, h, _ => ⟨rfl, h⟩
  | [], post, d :: pre', post', pos, hb, hl, h, h' => by
    exfalso
    rw [h] at hl
    obtain ⟨_, _, _, he, hr⟩ := hl
    have hs := endAt_spec hb he
    have := hs.1.gt
    have := ((((chunksLaid_append _ _ _).1 hr).1).boundary hs.1.1).2
    simp only [fileEnd] at h'
    omega
  | c :: pre, post, [], post', pos, hb, hl, h, h' => by
    exfalso
    obtain ⟨_, _, _, he, hr⟩ := hl
    have hs := endAt_spec hb he
    have := hs.1.gt
    have := ((((chunksLaid_append _ _ _).1 hr).1).boundary hs.1.1).2
    simp only [fileEnd] at h'
    omega
  | c :: pre, post, d :: pre', post', pos, hb, hl, h, h' => by
    simp only [List.cons_append, List.cons.injEq] at h
    obtain ⟨rfl, h⟩ := h
    obtain ⟨_, _, _, he, hr⟩ := hl
    have hs := endAt_spec hb he
    obtain ⟨rfl, rfl⟩ := fileEnd_inj hs.1.1 hr h h'
    exact ⟨rfl, rfl⟩

/-- A reader at some boundary which is at position `fileEnd 0 pre`, is at the boundary after `pre`. -/
theorem AtSome.at (hv : Laid H cs F) {pre post : List Chunk} (e : cs = pre ++ post) (hs : AtSome H F cs s)
    (hp : s.pos = fileEnd 0 pre) : Reading H F (fileEnd 0 pre) post s := by
  obtain ⟨pre', post', e', hrd⟩ := hs
  have : s.pos = fileEnd 0 pre' := by
    unfold Reading at hrd
    split at hrd <;> exact hrd.pos
  obtain ⟨rfl, rfl⟩ := fileEnd_inj boundaryOk_zero (e ▸ hv.laid) (e ▸ e') (hp ▸ this)
  exact hrd

theorem AtSome.base (hs : AtSome H F cs s) :
    s.err = none ∧ s.rcv = .no ∧ s.hdr.length = 40 ∧ s.bh.length = 24 ∧ IsBoundary 0 cs s.pos := by
  obtain ⟨pre, post, e, hrd⟩ := hs
  unfold Reading at hrd
  split at hrd
  · exact ⟨hrd.err, hrd.rcv, hrd.hl, hrd.bl, ⟨pre, _, e, hrd.pos⟩⟩
  · exact ⟨hrd.err, hrd.rcv, hrd.hl, hrd.bl, ⟨pre, _, e, hrd.pos⟩⟩

/-- `Seek` to a chunk boundary of a valid file, from any reader state at a chunk boundary. -/
theorem seek_valid (hv : Laid H cs F) {pre post : List Chunk} (e : cs = pre ++ post) (hs : AtSome H F cs s) :
    ∃ s', s.seek F (fileEnd 0 pre) = (true, s') ∧ Reading H F (fileEnd 0 pre) post s' := by
  obtain ⟨b1, b2, b3, b4, -⟩ := AtSome.base hs
  unfold seek
  rw [if_neg (by simp [b1])]
  by_cases h0 : s.pos = fileEnd 0 pre
  · rw [if_pos h0]
    exact ⟨s, rfl, AtSome.at hv e hs h0⟩
  · rw [if_neg h0]
    have hb := hv.boundary e
    have hk : srcSeek F (fileEnd 0 pre) = (true, fileEnd 0 pre) := by
      unfold srcSeek; rw [if_pos hb.2]
    simp only [hk, Bool.true_eq_false, ↓reduceIte, (isPossibleChunkBoundary_iff _).2 hb.1]
    exact ⟨_, rfl, atBoundary_reading hv e ⟨rfl, b1, b2, rfl, b3, b4, hb.2, Or.inl rfl⟩⟩

end SeekP
end Riegeli

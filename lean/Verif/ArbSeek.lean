import Verif.ArbOps
/-!
# Recovery and seeking of the chunk reader on arbitrary file contents

Lemmas; the property theorems are in `Verif/Props`.
-/
namespace Riegeli
open CR
namespace Arb

variable {B : Prop} {H : Bytes → UInt64} {F f : Bytes} {s : CR}

/-- The body of `findChunk` with the recursive call abstracted. -/
def findChunkF (H : Bytes → UInt64) (f : Bytes) (regionBegin : Nat) (rec : CR → Option (Region × CR)) (s : CR) :
    Option (Region × CR) :=
  let s := { s with pos := w64 (s.pos + remainingInBlock s.pos) }
  let k := srcSeek f s.pos
  let s := { s with srcPos := k.2 }
  if k.1 = false then some (⟨regionBegin, s.srcPos⟩, s)
  else
    match s.readBlockHeader H f with
    | (false, s1) =>
      if s1.rcv ≠ .no then
        rec { s1 with rcv := .no, recPos := 0, err := none, data := [], pos := s1.recPos }
      else some (⟨regionBegin, s1.pos⟩, s1)
    | (true, s1) =>
      if BH.previousChunk s1.bh = 0 then some (⟨regionBegin, s1.pos⟩, s1)
      else
        let s2 := { s1 with pos := w64 (s1.pos + BH.nextChunk s1.bh) }
        if isPossibleChunkBoundary s2.pos = false then rec s2
        else
          let k := srcSeek f s2.pos
          let s3 := { s2 with srcPos := k.2 }
          if k.1 = false then some (⟨regionBegin, s3.srcPos⟩, s3)
          else some (⟨regionBegin, s3.pos⟩, s3)

theorem findChunk_eq (H : Bytes → UInt64) (f : Bytes) (rb : Nat) (s : CR) :
    findChunk H f rb s = findChunkF H f rb (findChunk H f rb) s := by
  rw [findChunk]; rfl

/-- State in which `findChunk` is entered. -/
structure FC (s : CR) : Prop where
  err : s.err = none
  rcv : s.rcv = .no
  data : s.data = []
  hl : s.hdr.length = 40
  bl : s.bh.length = 24

/-- A state after a successful recovery. -/
def Fine (B : Prop) (H : Bytes → UInt64) (F f : Bytes) (s : CR) : Prop := Good B H F f s ∨ Past f s

theorem findChunkF_arb (hp : f <+: F) (h63 : F.length < 2 ^ 63) (rb : Nat) (rec : CR → Option (Region × CR))
    (hs : FC s) :
    (∃ s', findChunkF H f rb rec s = some (⟨rb, min s'.pos f.length⟩, s') ∧ (Fine B H F f s') ∧
      (Past f s' → s'.srcPos = f.length) ∧
      (HonestBlocks H F → s.pos < 2 ^ 63 → s.pos + remainingInBlock s.pos ≤ s'.pos)) ∨
    (∃ s', findChunkF H f rb rec s = rec s' ∧ FC s' ∧
      (HonestBlocks H F → s.pos < 2 ^ 63 →
        s.pos + remainingInBlock s.pos < s'.pos ∧ s.pos ≤ f.length ∧ s'.pos < 2 ^ 63)) := by
  have hlen := hp.length_le
  unfold findChunkF
  simp only
  have hpw : s.pos < 2 ^ 63 → w64 (s.pos + remainingInBlock s.pos) = s.pos + remainingInBlock s.pos := by
    intro h
    have : remainingInBlock s.pos < 65536 := by rw [remainingInBlock_eq]; omega
    exact Nat.mod_eq_of_lt (by omega)
  have hblk : w64 (s.pos + remainingInBlock s.pos) % 65536 = 0 := by
    rw [remainingInBlock_eq]; unfold w64; omega
  have h64 : w64 (s.pos + remainingInBlock s.pos) < 2 ^ 64 := Nat.mod_lt _ (by omega)
  generalize w64 (s.pos + remainingInBlock s.pos) = p at *
  by_cases hle : p ≤ f.length
  · have hk : srcSeek f p = (true, p) := by unfold srcSeek; rw [if_pos hle]
    rw [hk]
    simp only [Bool.true_eq_false, ↓reduceIte]
    have hg : Good B H F f { s with pos := p, srcPos := p } :=
      Good.fresh hs.err hs.rcv rfl hle (fun _ => Or.inl hblk) hs.data hs.hl hs.bl
    have hgb : BhOk F { s with pos := p, srcPos := p } := by
      rcases hg.st with h | h
      · exact h.2
      · have := h.ge; simp [usable] at this
    rcases readBlockHeader_arb (H := H) hp hg.rd hgb (by simp only; omega) with
      ⟨s1, e1, r1, sc, ht, hs1, hbhv⟩ | ⟨s1, e1, r1, b1, sc, hs1, hlt⟩ |
      ⟨s1, e1, sc, her, hrc, hrp, hs1, hfl, hl, hbl⟩
    · rw [e1]
      simp only
      have hb0 : blk p = p := by unfold blk; omega
      simp only [hb0] at hs1 hbhv
      obtain ⟨hbh, hv⟩ := hbhv (Nat.le_refl _)
      have hpos1 : s1.pos = p := sc.pos
      have hf1 := r1.hf
      split
      · left
        refine ⟨s1, ?_, Or.inl ⟨r1, Or.inl ⟨⟨?_, ?_, ?_⟩, ?_⟩⟩, ?_, ?_⟩
        · rw [hpos1, Nat.min_eq_left (by omega)]
        · rw [hpos1, ← payload_length F, hs1, payload_blockHeader (by omega)]; simp
        · rw [sc.data]; exact hs.data
        · rw [hpos1, hs1, ← payload_length F, payload_blockHeader (by omega)]; simp
        · unfold BhOk
          rw [hs1, hpos1, hbh]
          have : blk (p + 24) = p := by unfold blk; omega
          rw [this]; intro _; rfl
        · intro hpast; have := hpast.lt; omega
        · intro _ h; have := hpw h; omega
      · have hnx : w64 (s1.pos + BH.nextChunk s1.bh) = w64 (p + BH.nextChunk (slice F p 24)) := by
          rw [hpos1, hbh]
        simp only [hnx]
        split
        · right
          refine ⟨_, rfl, ⟨r1.err, r1.rcv, by simp only; rw [sc.data]; exact hs.data, r1.hl, r1.bl⟩, ?_⟩
          intro hh hl
          obtain ⟨g1, g2⟩ := hh _ hv
          have := hpw hl
          simp only
          unfold w64
          rw [Nat.mod_eq_of_lt (by omega)]
          omega
        · rename_i hbd
          have hbd' : BoundaryOk (w64 (p + BH.nextChunk (slice F p 24))) := by
            rw [← isPossibleChunkBoundary_iff]
            simpa using hbd
          have hprog : HonestBlocks H F → s.pos < 2 ^ 63 →
              s.pos + remainingInBlock s.pos ≤ w64 (p + BH.nextChunk (slice F p 24)) := by
            intro hh hl
            obtain ⟨g1, g2⟩ := hh _ hv
            have := hpw hl
            unfold w64
            rw [Nat.mod_eq_of_lt (by omega)]
            omega
          have hn64 : w64 (p + BH.nextChunk (slice F p 24)) < 2 ^ 64 := Nat.mod_lt _ (by omega)
          generalize w64 (p + BH.nextChunk (slice F p 24)) = p2 at *
          left
          by_cases hle2 : p2 ≤ f.length
          · have hk2 : srcSeek f p2 = (true, p2) := by unfold srcSeek; rw [if_pos hle2]
            rw [hk2]
            simp only [Bool.true_eq_false, ↓reduceIte]
            refine ⟨{ s1 with pos := p2, srcPos := p2 }, ?_, Or.inl (Good.fresh r1.err r1.rcv rfl hle2 (fun _ => hbd')
              (by simp only; rw [sc.data]; exact hs.data) r1.hl r1.bl), ?_, hprog⟩
            · simp only; rw [Nat.min_eq_left hle2]
            · intro hpast; have := hpast.lt; simp only at this; omega
          · have hk2 : srcSeek f p2 = (false, f.length) := by unfold srcSeek; rw [if_neg hle2]
            rw [hk2]
            simp only [↓reduceIte]
            refine ⟨{ s1 with pos := p2, srcPos := f.length }, ?_, Or.inr ⟨r1.err, r1.rcv, by simp only; omega, Nat.le_refl _,
              by simp only; rw [sc.data]; exact hs.data, hn64, r1.hl, r1.bl⟩, fun _ => rfl, hprog⟩
            simp only; rw [Nat.min_eq_right (by omega)]
    · left
      rw [e1]
      simp only
      rw [if_neg (by rw [r1.rcv]; simp)]
      have hpos1 : s1.pos = p := sc.pos
      have hb0 : blk p = p := by unfold blk; omega
      simp only [hb0] at hlt
      have hz : payload F p f.length = [] := payload_blockHeader (by omega)
      refine ⟨s1, ?_, Or.inl ⟨r1, Or.inl ⟨⟨?_, ?_, ?_⟩, b1⟩⟩, ?_, ?_⟩
      · rw [hpos1, Nat.min_eq_left (by omega)]
      · rw [hpos1, ← payload_length F, hs1, hz]; simp
      · rw [sc.data]; exact hs.data
      · rw [hpos1, hs1, ← payload_length F, hz]; simp
      · intro hpast; exact hs1
      · intro _ h; have := hpw h; omega
    · right
      rw [e1]
      simp only
      rw [if_pos (by rw [hrc]; simp)]
      have hb0 : blk p = p := by unfold blk; omega
      simp only [hb0] at hrp hfl
      refine ⟨_, rfl, ⟨rfl, rfl, rfl, hl, hbl.1⟩, ?_⟩
      intro _ h
      have := hpw h
      simp only
      rw [hrp]
      omega
  · have hk : srcSeek f p = (false, f.length) := by unfold srcSeek; rw [if_neg hle]
    rw [hk]
    simp only [↓reduceIte]
    left
    refine ⟨{ s with pos := p, srcPos := f.length }, ?_, Or.inr ⟨hs.err, hs.rcv, by simp only; omega, Nat.le_refl _, hs.data, h64, hs.hl, hs.bl⟩,
      fun _ => rfl, ?_⟩
    · simp only; rw [Nat.min_eq_right (by omega)]
    · intro _ h; have := hpw h; simp only; omega

/-- If `findChunk` returns, the reader is in a good state. -/
theorem findChunk_arb (hp : f <+: F) (h63 : F.length < 2 ^ 63) (rb : Nat) (r : Region × CR) (hs : FC s)
    (h : findChunk H f rb s = some r) :
    Fine B H F f r.2 ∧ r.1 = ⟨rb, min r.2.pos f.length⟩ ∧ (Past f r.2 → r.2.srcPos = f.length) := by
  refine findChunk.partial_correctness H f rb
    (fun s r => FC s → Fine B H F f r.2 ∧ r.1 = ⟨rb, min r.2.pos f.length⟩ ∧ (Past f r.2 → r.2.srcPos = f.length))
    ?_ s r h hs
  intro rec ih s r hbody hs
  have hbody : findChunkF H f rb rec s = some r := hbody
  rcases findChunkF_arb (B := B) (H := H) hp h63 rb rec hs with ⟨s', e, h1, h2, _⟩ | ⟨s', e, h1, _⟩
  · rw [e] at hbody
    injection hbody with hbody
    subst hbody
    exact ⟨h1, rfl, h2⟩
  · rw [e] at hbody
    exact ih s' r hbody h1

/-- With honest block headers `findChunk` returns and goes forward. -/
theorem findChunk_total (hp : f <+: F) (h63 : F.length < 2 ^ 63) (hh : HonestBlocks H F) (rb : Nat) (hs : FC s)
    (hlt : s.pos < 2 ^ 63) :
    ∃ s', findChunk H f rb s = some (⟨rb, min s'.pos f.length⟩, s') ∧ Fine B H F f s' ∧
      (Past f s' → s'.srcPos = f.length) ∧ s.pos + remainingInBlock s.pos ≤ s'.pos := by
  induction hn : f.length + 1 - s.pos using Nat.strongRecOn generalizing s with
  | _ n ih =>
  subst hn
  rw [findChunk_eq]
  rcases findChunkF_arb (B := B) (H := H) hp h63 rb (findChunk H f rb) hs with ⟨s', e, h1, h2, h3⟩ | ⟨s', e, h1, h2⟩
  · exact ⟨s', e, h1, h2, h3 hh hlt⟩
  · obtain ⟨g1, g2, g3⟩ := h2 hh hlt
    obtain ⟨s'', e', a1, a2, a3⟩ := ih (f.length + 1 - s'.pos) (by omega) h1 g3 rfl
    exact ⟨s'', e.trans e', a1, a2, by omega⟩

/-- `Recover` after a failure, on arbitrary contents: if it returns, the reader is in a good state, and
the skipped region begins where the reader was and ends where it is now, or at the end of the file. -/
theorem recover_arb (hp : f <+: F) (h63 : F.length < 2 ^ 63) (hb : Bad B H F f s) {o : Option Region} {s' : CR}
    (h : s.recover H f = some (o, s')) :
    Fine B H F f s' ∧ o = some ⟨s.pos, min s'.pos f.length⟩ ∧ (Past f s' → s'.srcPos = f.length) := by
  unfold recover at h
  rw [if_neg hb.rcv] at h
  simp only at h
  have hfc : ∀ x, FC ({ s with rcv := .no, recPos := 0, err := none, data := [], pos := s.recPos, srcPos := x } : CR) :=
    fun x => ⟨rfl, rfl, rfl, hb.hl, hb.bl⟩
  split at h
  · rename_i hhave
    by_cases hle : s.recPos ≤ f.length
    · have hk : srcSeek f s.recPos = (true, s.recPos) := by unfold srcSeek; rw [if_pos hle]
      rw [hk] at h
      simp only [Bool.true_eq_false, ↓reduceIte] at h
      split at h
      · rw [Option.map_eq_some_iff] at h
        obtain ⟨r, h1, h2⟩ := h
        injection h2 with h2 h3
        subst h2 h3
        obtain ⟨a1, a2, a3⟩ := findChunk_arb (B := B) hp h63 _ _ (hfc _) h1
        exact ⟨a1, by rw [a2], a3⟩
      · rename_i hbd
        injection h with h
        injection h with h1 h2
        subst h1 h2
        refine ⟨Or.inl (Good.fresh rfl rfl rfl hle (fun _ => ?_) rfl hb.hl hb.bl), ?_, ?_⟩
        · rw [← isPossibleChunkBoundary_iff]; simpa using hbd
        · simp only; rw [Nat.min_eq_left hle]
        · intro hpast; have := hpast.lt; simp only at this; omega
    · have hk : srcSeek f s.recPos = (false, f.length) := by unfold srcSeek; rw [if_neg hle]
      rw [hk] at h
      simp only [↓reduceIte] at h
      injection h with h
      injection h with h1 h2
      subst h1 h2
      refine ⟨Or.inr ⟨rfl, rfl, by simp only; omega, Nat.le_refl _, rfl, hb.lt hhave, hb.hl, hb.bl⟩, ?_, fun _ => rfl⟩
      simp only; rw [Nat.min_eq_right (by omega)]
  · rw [Option.map_eq_some_iff] at h
    obtain ⟨r, h1, h2⟩ := h
    injection h2 with h2 h3
    subst h2 h3
    obtain ⟨a1, a2, a3⟩ := findChunk_arb (B := B) hp h63 _ _ (hfc s.srcPos) h1
    exact ⟨a1, by rw [a2], a3⟩

/-- With honest block headers `Recover` returns and goes strictly forward. -/
theorem recover_total (hp : f <+: F) (h63 : F.length < 2 ^ 63) (hB : B) (hh : HonestBlocks H F)
    (hb : Bad B H F f s) (hne : s.err ≠ some .exceedsSize) :
    ∃ r s', s.recover H f = some (some r, s') ∧ s.pos < s'.pos := by
  have hlen := hp.length_le
  have hfc : ∀ x, FC ({ s with rcv := .no, recPos := 0, err := none, data := [], pos := s.recPos, srcPos := x } : CR) :=
    fun x => ⟨rfl, rfl, rfl, hb.hl, hb.bl⟩
  unfold recover
  rw [if_neg hb.rcv]
  simp only
  split
  · rename_i hhave
    have hlt := hb.have_ hB hh hhave
    by_cases hle : s.recPos ≤ f.length
    · have hk : srcSeek f s.recPos = (true, s.recPos) := by unfold srcSeek; rw [if_pos hle]
      rw [hk]
      simp only [Bool.true_eq_false, ↓reduceIte]
      split
      · obtain ⟨s', e, a1, a2, a3⟩ := findChunk_total (B := B) hp h63 hh s.pos (hfc s.recPos) (by simp only; omega)
        rw [e]
        exact ⟨_, _, rfl, by simp only at a3 ⊢; omega⟩
      · exact ⟨_, _, rfl, hlt⟩
    · have hk : srcSeek f s.recPos = (false, f.length) := by unfold srcSeek; rw [if_neg hle]
      rw [hk]
      simp only [↓reduceIte]
      exact ⟨_, _, rfl, hlt⟩
  · rename_i hfind
    have hfind : s.rcv = .findChunk := by
      have h1 := hb.rcv
      revert hfind h1
      cases s.rcv <;> simp
    obtain ⟨h1, h2⟩ := hb.find hne hfind
    obtain ⟨s', e, a1, a2, a3⟩ := findChunk_total (B := B) hp h63 hh s.pos (hfc s.srcPos) (by simp only; omega)
    rw [e]
    exact ⟨_, _, rfl, by simp only at a3 ⊢; omega⟩

theorem seek_arb (hi : Inv B H F f s) (newPos : Nat) : Inv B H F f (s.seek f newPos).2 := by
  unfold seek
  split
  · exact hi
  · rename_i he
    split
    · exact hi
    · rename_i hnp
      simp only
      have hl : s.hdr.length = 40 := by
        rcases hi with h | h | h
        · exact h.rd.hl
        · exact h.hl
        · exact h.hl
      have hbl : s.bh.length = 24 := by
        rcases hi with h | h | h
        · exact h.rd.bl
        · exact h.bl
        · exact h.bl
      have hrc : s.rcv = .no := by
        rcases hi with h | h | h
        · exact h.rd.rcv
        · exact h.rcv
        · exact absurd h.err he
      have hen : s.err = none := by simpa using he
      by_cases hle : newPos ≤ f.length
      · have hk : srcSeek f newPos = (true, newPos) := by unfold srcSeek; rw [if_pos hle]
        rw [hk]
        simp only [Bool.true_eq_false, ↓reduceIte]
        split
        · rename_i hbd
          have hbd' : ¬ BoundaryOk newPos := by
            rw [← isPossibleChunkBoundary_iff, hbd]; simp
          right; right
          refine ⟨by simp [fail], by simp [fail], by simp [fail], hl, hbl, by simp [fail], ?_, ?_, ?_, ?_⟩
          · intro _; exact hle
          · intro h; simp [fail] at h
          · intro _ _ h; simp [fail] at h
          · intro _ _
            simp only [fail]
            refine ⟨hle, ?_⟩
            rw [remainingInBlock_eq]
            unfold BoundaryOk at hbd'
            omega
        · rename_i hbd
          left
          exact Good.fresh hen hrc rfl hle
            (fun _ => by rw [← isPossibleChunkBoundary_iff]; simpa using hbd) rfl hl hbl
      · have hk : srcSeek f newPos = (false, f.length) := by unfold srcSeek; rw [if_neg hle]
        rw [hk]
        simp only [↓reduceIte]
        right; right
        refine ⟨by simp [failSeeking, fail], by simp [failSeeking, fail], by simp [failSeeking, fail], hl, hbl, by simp [failSeeking, fail], ?_, ?_, ?_, ?_⟩
        · intro h; simp [failSeeking, fail] at h
        · intro h; simp [failSeeking, fail] at h
        · intro _ _ h; simp [failSeeking, fail] at h
        · intro h; simp [failSeeking, fail] at h

theorem bad_failSeeking (h1 : s.hdr.length = 40) (h2 : s.bh.length = 24) (h3 : s.srcPos ≤ f.length) :
    Bad B H F f s.failSeeking := by
  refine ⟨by simp [failSeeking, fail], by simp [failSeeking, fail], by simp [failSeeking, fail], h1, h2, ?_, ?_, ?_, ?_, ?_⟩
  · intro _; exact ⟨rfl, h3⟩
  · intro h; simp [failSeeking, fail] at h
  · intro h; simp [failSeeking, fail] at h
  · intro _ _ h; simp [failSeeking, fail] at h
  · intro h; simp [failSeeking, fail] at h

/-- The body of `checkCurrentChunk` with the recursive call abstracted. -/
def checkCurrentChunkF (H : Bytes → UInt64) (f : Bytes) (which : Which) (newPos : Nat)
    (rec : CR → Option (Bool × CR)) (s : CR) : Option (Bool × CR) :=
  if newPos ≤ s.pos then some (true, s)
  else
    match s.readChunkHeader H f with
    | (false, s1) =>
      if s1.err ≠ none then some (false, s1)
      else some (false, ({ s1 with truncated := false }).failSeeking)
    | (true, s1) =>
      if which = .containing ∧ newPos < w64 (s1.pos + Hdr.numRecords s1.hdr) then some (true, s1)
      else
        let ce := chunkEnd (Hdr.dataSize s1.hdr) (Hdr.numRecords s1.hdr) s1.pos
        if which = .before ∧ newPos < ce then some (true, s1)
        else
          let k := srcSeek f ce
          let s2 := { s1 with pos := ce, srcPos := k.2 }
          if k.1 = false then some (false, s2.failSeeking)
          else rec s2

theorem checkCurrentChunk_eq (H : Bytes → UInt64) (f : Bytes) (which : Which) (newPos : Nat) (s : CR) :
    s.checkCurrentChunk H f which newPos =
      checkCurrentChunkF H f which newPos (fun s => s.checkCurrentChunk H f which newPos) s := by
  rw [checkCurrentChunk]; rfl

/-- A reader at (or just after the block header at) the beginning of a chunk, with no header bytes read. -/
structure AtStart (F f : Bytes) (s : CR) : Prop where
  rd : Rd False f s
  bh : BhOk F s
  hdr : HdrPart F s

theorem AtStart.good (h : AtStart F f s) : Good False H F f s := ⟨h.rd, Or.inl ⟨h.hdr, h.bh⟩⟩

theorem AtStart.fresh (h1 : s.err = none) (h2 : s.rcv = .no) (h3 : s.srcPos = s.pos) (h4 : s.pos ≤ f.length)
    (h6 : s.data = []) (h7 : s.hdr.length = 40) (h8 : s.bh.length = 24) :
    AtStart F f s := by
  have hg : Good False (fun _ => 0) F f s := Good.fresh h1 h2 h3 h4 (by simp) h6 h7 h8
  rcases hg.st with ⟨a, b⟩ | h
  · exact ⟨hg.rd, b, a⟩
  · have := h.ge; rw [h3] at this; simp [usable] at this

theorem srcSeek_cases (f : Bytes) (p : Nat) :
    (p ≤ f.length ∧ srcSeek f p = (true, p)) ∨ (f.length < p ∧ srcSeek f p = (false, f.length)) := by
  unfold srcSeek
  by_cases h : p ≤ f.length
  · left; exact ⟨h, by rw [if_pos h]⟩
  · right; exact ⟨by omega, by rw [if_neg h]⟩

theorem checkCurrentChunk_arb (hp : f <+: F) (which : Which) (newPos : Nat) (r : Bool × CR)
    (hs : AtStart F f s) (h : s.checkCurrentChunk H f which newPos = some r) : Inv False H F f r.2 := by
  refine checkCurrentChunk.partial_correctness H f which newPos
    (fun s r => AtStart F f s → Inv False H F f r.2) ?_ s r h hs
  intro rec ih s r hbody hs
  have hbody : checkCurrentChunkF H f which newPos rec s = some r := hbody
  unfold checkCurrentChunkF at hbody
  split at hbody
  · injection hbody with hbody; subst hbody; exact Or.inl hs.good
  · rcases readChunkHeader_arb (H := H) hp hs.rd hs.bh hs.hdr with
      ⟨s1, e1, r1, d1, h1, h2, h3⟩ | ⟨s1, e1, r1, b1, h1, h2, h3⟩ | ⟨s1, e1, b1, h1, h2⟩
    · rw [e1] at hbody
      simp only at hbody
      split at hbody
      · injection hbody with hbody; subst hbody; exact Or.inl ⟨r1, Or.inr d1⟩
      · split at hbody
        · injection hbody with hbody; subst hbody; exact Or.inl ⟨r1, Or.inr d1⟩
        · rcases srcSeek_cases f (chunkEnd (Hdr.dataSize s1.hdr) (Hdr.numRecords s1.hdr) s1.pos) with
            ⟨hle, hk⟩ | ⟨hgt, hk⟩
          · rw [hk] at hbody
            simp only [Bool.true_eq_false, ↓reduceIte] at hbody
            exact ih _ _ hbody (AtStart.fresh r1.err r1.rcv rfl hle h2 r1.hl r1.bl)
          · rw [hk] at hbody
            simp only [↓reduceIte] at hbody
            injection hbody with hbody; subst hbody
            exact Or.inr (Or.inr (bad_failSeeking r1.hl r1.bl (Nat.le_refl _)))
    · rw [e1] at hbody
      simp only at hbody
      rw [if_neg (by simp [r1.err])] at hbody
      injection hbody with hbody; subst hbody
      exact Or.inr (Or.inr (bad_failSeeking r1.hl r1.bl (by simp only; rw [h3]; exact Nat.le_refl _)))
    · rw [e1] at hbody
      simp only at hbody
      rw [if_pos b1.err] at hbody
      injection hbody with hbody; subst hbody
      exact Or.inr (Or.inr b1)

theorem seekToChunkFrom_arb (hp : f <+: F) (which : Which) (newPos cb : Nat) (r : Bool × CR)
    (h1 : s.err = none) (h2 : s.rcv = .no) (h3 : s.data = []) (h4 : s.hdr.length = 40) (h5 : s.bh.length = 24)
    (h : s.seekToChunkFrom H f which newPos cb = some r) : Inv False H F f r.2 := by
  unfold seekToChunkFrom at h
  simp only at h
  rcases srcSeek_cases f cb with ⟨hle, hk⟩ | ⟨hgt, hk⟩
  · rw [hk] at h
    simp only [Bool.true_eq_false, ↓reduceIte] at h
    exact checkCurrentChunk_arb (s := { s with pos := cb, srcPos := cb }) hp which newPos r
      (AtStart.fresh h1 h2 rfl hle h3 h4 h5) h
  · rw [hk] at h
    simp only [↓reduceIte] at h
    injection h with h; subst h
    exact Or.inr (Or.inr (bad_failSeeking h4 h5 (Nat.le_refl _)))

theorem seekToChunkFromBlock_arb (hp : f <+: F) (which : Which) (newPos : Nat) (r : Bool × CR)
    (h1 : s.err = none) (h2 : s.rcv = .no) (h4 : s.hdr.length = 40) (h5 : s.bh.length = 24)
    (h : s.seekToChunkFromBlock H f which newPos = some r) : Inv False H F f r.2 := by
  unfold seekToChunkFromBlock at h
  simp only at h
  have hb0 : roundDownToBlockBoundary newPos % 65536 = 0 := by unfold roundDownToBlockBoundary; omega
  generalize hbb : roundDownToBlockBoundary newPos = b at *
  rcases srcSeek_cases f b with ⟨hle, hk⟩ | ⟨hgt, hk⟩
  · rw [hk] at h
    simp only [Bool.true_eq_false, ↓reduceIte] at h
    have hst : AtStart F f ({ s with pos := b, data := [], srcPos := b } : CR) :=
      AtStart.fresh h1 h2 rfl hle rfl h4 h5
    have hbk : blk b = b := by unfold blk; omega
    rcases readBlockHeader_arb (H := H) hp hst.rd hst.bh (by simp only; omega) with
      ⟨s1, e1, r1, sc, ht, hs1, hbhv⟩ | ⟨s1, e1, r1, b1, sc, hs1, hlt⟩ |
      ⟨s1, e1, sc, her, hrc, hrp, hs1, hfl, hl, hbl⟩
    · rw [e1] at h
      simp only at h
      simp only [hbk] at hs1 hbhv
      have hpos1 : s1.pos = b := sc.pos
      have hd1 : s1.data = [] := sc.data
      have hfl : s1.srcPos ≤ f.length := r1.hf
      have hz : payload F b (b + 24) = [] := payload_blockHeader (by omega)
      have hlow : b ≤ s1.srcPos := by omega
      have hbad : ∀ e, e ≠ .exceedsSize → e ≠ .diverged → Bad False H F f (s1.fail e .findChunk s1.srcPos) := by
        intro e he1 he2
        refine ⟨by simp [fail], by simp [fail, he2], by simp [fail], r1.hl, r1.bl, by simp [fail, he1], ?_, ?_, ?_, ?_⟩
        · intro _; simp only [fail]; omega
        · intro h; simp [fail] at h
        · intro _ _ h; simp [fail] at h
        · intro _ _; simp only [fail]; omega
      split at h
      · refine checkCurrentChunk_arb hp which newPos r ⟨r1, ?_, ⟨?_, hd1, ?_⟩⟩ h
        · unfold BhOk
          rw [hs1, hpos1, (hbhv (Nat.le_refl _)).1]
          have : blk (b + 24) = b := by unfold blk; omega
          rw [this]; intro _; rfl
        · rw [hpos1, hs1, ← payload_length F, hz]; simp
        · rw [hpos1, hs1, ← payload_length F, hz]; simp
      · split at h
        · split at h
          · injection h with h; subst h
            exact Or.inr (Or.inr (hbad _ (by simp) (by simp)))
          · split at h
            · injection h with h; subst h
              exact Or.inr (Or.inr (hbad _ (by simp) (by simp)))
            · exact seekToChunkFrom_arb hp which newPos _ r r1.err r1.rcv hd1 r1.hl r1.bl h
        · split at h
          · injection h with h; subst h
            exact Or.inr (Or.inr (hbad _ (by simp) (by simp)))
          · exact seekToChunkFrom_arb hp which newPos _ r r1.err r1.rcv hd1 r1.hl r1.bl h
    · rw [e1] at h
      simp only at h
      rw [if_neg (by simp [r1.err])] at h
      simp only [hbk] at hlt
      have hpos1 : s1.pos = b := sc.pos
      have hz : payload F b f.length = [] := payload_blockHeader (by omega)
      split at h
      · injection h with h; subst h
        refine Or.inl ⟨r1, Or.inl ⟨⟨?_, sc.data, ?_⟩, b1⟩⟩
        · rw [hpos1, hs1, ← payload_length F, hz]; simp
        · rw [hpos1, hs1, ← payload_length F, hz]; simp
      · injection h with h; subst h
        exact Or.inr (Or.inr (bad_failSeeking r1.hl r1.bl (by simp only; rw [hs1]; exact Nat.le_refl _)))
    · rw [e1] at h
      simp only at h
      rw [if_pos (by simp [her])] at h
      injection h with h; subst h
      have hpos1 : s1.pos = b := sc.pos
      simp only [hbk] at hfl hrp
      refine Or.inr (Or.inr ⟨by simp [her], by simp [her], by simp [hrc], hl, hbl.1, by simp [her], ?_, ?_, ?_, ?_⟩)
      · intro _; rw [hpos1]; omega
      · intro h; simp [hrc] at h
      · intro _ _ h; simp [hrc] at h
      · intro _ _; rw [hpos1, hrp]; omega
  · rw [hk] at h
    simp only [↓reduceIte] at h
    injection h with h; subst h
    exact Or.inr (Or.inr (bad_failSeeking h4 h5 (Nat.le_refl _)))

theorem Good.weaken (h : Good B H F f s) : Good False H F f s :=
  ⟨⟨h.rd.err, h.rd.rcv, h.rd.lo, h.rd.hf, by simp, h.rd.hl, h.rd.bl⟩, h.st⟩

theorem seekToChunk_arb (hp : f <+: F) (hi : Inv False H F f s) (which : Which) (newPos : Nat) (r : Bool × CR)
    (h : s.seekToChunk H f which newPos = some r) : Inv False H F f r.2 := by
  unfold seekToChunk at h
  split at h
  · injection h with h; subst h; exact hi
  · rename_i he
    split at h
    · injection h with h; subst h; exact hi
    · simp only at h
      have hi' : Good False H F f { s with truncated := false } ∨ Past f { s with truncated := false } := by
        rcases hi with hg | hg | hg
        · left
          refine ⟨⟨hg.rd.err, hg.rd.rcv, hg.rd.lo, hg.rd.hf, hg.rd.bnd, hg.rd.hl, hg.rd.bl⟩, ?_⟩
          rcases hg.st with ⟨a, b⟩ | d
          · exact Or.inl ⟨⟨a.lt, a.data, a.hdr⟩, b⟩
          · exact Or.inr ⟨⟨d.done.hash, d.done.sig⟩, d.ge, d.le, d.pre, d.part⟩
        · right
          exact ⟨hg.err, hg.rcv, hg.lt, hg.hf, hg.data, hg.p64, hg.hl, hg.bl⟩
        · exact absurd hg.err he
      have hl : s.hdr.length = 40 := by
        rcases hi' with h | h
        · exact h.rd.hl
        · exact h.hl
      have hbl : s.bh.length = 24 := by
        rcases hi' with h | h
        · exact h.rd.bl
        · exact h.bl
      have hrc : s.rcv = .no := by
        rcases hi' with h | h
        · exact h.rd.rcv
        · exact h.rcv
      have hen : s.err = none := by simpa using he
      split at h
      · rcases pullChunkHeader_arb (H := H) hp hi' with
          ⟨s1, e1, r1, d1, h1, hg⟩ | ⟨s1, e1, g1, h1, h2, h3⟩ | ⟨s1, e1, p1, h1, h2⟩ | ⟨s1, e1, b1, h1, h2⟩
        · rw [e1] at h
          simp only at h
          split at h
          · injection h with h; subst h; exact Or.inl ⟨r1, Or.inr d1⟩
          · split at h
            · injection h with h; subst h; exact Or.inl ⟨r1, Or.inr d1⟩
            · split at h
              · exact seekToChunkFromBlock_arb hp which newPos r r1.err r1.rcv r1.hl r1.bl h
              · exact seekToChunkFrom_arb (s := { s1 with data := [] }) hp which newPos _ r r1.err r1.rcv rfl r1.hl r1.bl h
        · rw [e1] at h
          simp only at h
          rw [if_neg (by simp [g1.rd.err])] at h
          injection h with h; subst h
          exact Or.inr (Or.inr (bad_failSeeking g1.rd.hl g1.rd.bl g1.rd.hf))
        · rw [e1] at h
          simp only at h
          rw [if_neg (by simp [p1.err])] at h
          injection h with h; subst h
          exact Or.inr (Or.inr (bad_failSeeking p1.hl p1.bl p1.hf))
        · rw [e1] at h
          simp only at h
          rw [if_pos b1.err] at h
          injection h with h; subst h
          exact Or.inr (Or.inr b1)
      · exact seekToChunkFromBlock_arb (s := { s with truncated := false }) hp which newPos r hen hrc hl hbl h

/-- The invariant is kept when the file grows. -/
theorem Inv.grow {f' : Bytes} (h : Inv B H F f s) (hg : f <+: f') : Inv B H F f' s := by
  have hl := hg.length_le
  rcases h with h | h | h
  · exact Or.inl ⟨⟨h.rd.err, h.rd.rcv, h.rd.lo, Nat.le_trans h.rd.hf hl, h.rd.bnd, h.rd.hl, h.rd.bl⟩, h.st⟩
  · exact Or.inr (Or.inl ⟨h.err, h.rcv, h.lt, Nat.le_trans h.hf hl, h.data, h.p64, h.hl, h.bl⟩)
  · exact Or.inr (Or.inr ⟨h.err, h.ndiv, h.rcv, h.hl, h.bl, fun a => ⟨(h.seek a).1, Nat.le_trans (h.seek a).2 hl⟩,
      fun a => Nat.le_trans (h.le a) hl, h.lt, h.have_,
      fun a b => ⟨Nat.le_trans (h.find a b).1 hl, (h.find a b).2⟩⟩)

theorem init_arb {p : Nat} {hdr0 bh0 : Bytes} (h1 : hdr0.length = 40) (h2 : bh0.length = 24) (hp : p ≤ f.length) :
    Inv B H F f (CR.init p hdr0 bh0) := by
  unfold CR.init
  split
  · rename_i hb
    exact Or.inl (Good.fresh rfl rfl rfl hp (fun _ => (isPossibleChunkBoundary_iff p).1 hb) rfl h1 h2)
  · rename_i hb
    have hb' : ¬ BoundaryOk p := fun h => hb ((isPossibleChunkBoundary_iff p).2 h)
    refine Or.inr (Or.inr ⟨by simp, by simp, by simp, h1, h2, by simp, fun _ => hp, by simp, by simp, ?_⟩)
    intro _ _
    refine ⟨hp, ?_⟩
    simp only
    rw [remainingInBlock_eq]
    unfold BoundaryOk at hb'
    omega

/-- `ReadChunk` keeps the invariant. -/
theorem readChunk_inv (hp : f <+: F) (h63 : F.length < 2 ^ 63) (hi : Inv B H F f s) :
    Inv B H F f (s.readChunk H f).2 ∧
    ∀ c, (s.readChunk H f).1 = some c → Delivered H F f c s.pos (s.readChunk H f).2.pos := by
  have hfail : s.err ≠ none → s.readChunk H f = (none, s) := by
    intro h
    unfold readChunk pullChunkHeader
    rw [if_pos h]
  rcases hi with hg | hg | hg
  · rcases readChunk_arb hp h63 (Or.inl hg) with ⟨c, s', e, a, b⟩ | ⟨s', e, a, _⟩ | ⟨s', e, a, _⟩ | ⟨s', e, a, _⟩
    · rw [e]; exact ⟨Or.inl a, fun c' h => by injection h with h; subst h; exact b⟩
    · rw [e]; exact ⟨Or.inl a, by simp⟩
    · rw [e]; exact ⟨Or.inr (Or.inl a), by simp⟩
    · rw [e]; exact ⟨Or.inr (Or.inr a), by simp⟩
  · rcases readChunk_arb (B := B) hp h63 (Or.inr hg) with ⟨c, s', e, a, b⟩ | ⟨s', e, a, _⟩ | ⟨s', e, a, _⟩ | ⟨s', e, a, _⟩
    · rw [e]; exact ⟨Or.inl a, fun c' h => by injection h with h; subst h; exact b⟩
    · rw [e]; exact ⟨Or.inl a, by simp⟩
    · rw [e]; exact ⟨Or.inr (Or.inl a), by simp⟩
    · rw [e]; exact ⟨Or.inr (Or.inr a), by simp⟩
  · rw [hfail hg.err]; exact ⟨Or.inr (Or.inr hg), by simp⟩

theorem pull_inv (hp : f <+: F) (hi : Inv B H F f s) : Inv B H F f (s.pullChunkHeader H f).2 := by
  have hmain : Good B H F f s ∨ Past f s → Inv B H F f (s.pullChunkHeader H f).2 := by
    intro h
    rcases pullChunkHeader_arb (H := H) hp h with
      ⟨s1, e1, r1, d1, _⟩ | ⟨s1, e1, g1, _⟩ | ⟨s1, e1, p1, _⟩ | ⟨s1, e1, b1, _⟩
    · rw [e1]; exact Or.inl ⟨r1, Or.inr d1⟩
    · rw [e1]; exact Or.inl g1
    · rw [e1]; exact Or.inr (Or.inl p1)
    · rw [e1]; exact Or.inr (Or.inr b1)
  rcases hi with hg | hg | hg
  · exact hmain (Or.inl hg)
  · exact hmain (Or.inr hg)
  · unfold pullChunkHeader
    rw [if_pos hg.err]
    exact Or.inr (Or.inr hg)

theorem recover_inv (hp : f <+: F) (h63 : F.length < 2 ^ 63) (hi : Inv B H F f s) {o : Option Region} {s' : CR}
    (h : s.recover H f = some (o, s')) : Inv B H F f s' := by
  have hno : s.rcv = .no → s' = s := by
    intro hn
    unfold recover at h
    rw [if_pos hn] at h
    injection h with h
    injection h with h1 h2
    exact h2.symm
  rcases hi with hg | hg | hg
  · rw [hno hg.rd.rcv]; exact Or.inl hg
  · rw [hno hg.rcv]; exact Or.inr (Or.inl hg)
  · rcases (recover_arb hp h63 hg h).1 with h | h
    · exact Or.inl h
    · exact Or.inr (Or.inl h)

end Arb
end Riegeli

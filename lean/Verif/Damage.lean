import Verif.DamageSpec
import Verif.RecordReaderProofs
import Verif.SeekProofs
import Verif.ArbSeek
/-!
# Reading damaged files with recovery: lemmas

The property theorems are in `Verif/Props/Damage.lean`.
-/
namespace Riegeli
open CR
namespace Dmg

variable {H : Bytes → UInt64} {F : Bytes} {s : CR}

/-- The bytes `[cb, ce)` of `F` are laid out as a chunk with payload `pl`. -/
structure SegAt (H : Bytes → UInt64) (F : Bytes) (cb ce : Nat) (pl : Bytes) : Prop where
  hb : BoundaryOk cb
  he : BoundaryOk ce
  gt : cb + 40 ≤ ce
  u : pl.length ≤ usable cb ce
  lt : ce < 2 ^ 64
  len : ce ≤ F.length
  seg : ∀ p n, cb ≤ p → p + n ≤ ce → slice F p n = chunkSeg H cb ce pl p (p + n)

/-- `F` from `pos` on consists of the damaged chunks `ds`. -/
def DLaid (H : Bytes → UInt64) (F : Bytes) : Nat → List (Chunk × Bytes) → Prop
  | pos, [] => pos = F.length
  | pos, d :: ds => WFChunk H d.1 ∧ (pos = 0 → IsSignature d.1) ∧ d.2.length = 40 + d.1.data.length ∧
      HoldsChunk (Hdr.dataSize d.1.header) (Hdr.numRecords d.1.header) pos (d.1.endAt pos) ∧
      SegAt H F pos (d.1.endAt pos) d.2 ∧ DLaid H F (d.1.endAt pos) ds

theorem foundPayload_eq (F : Bytes) (cb ce n : Nat) : foundPayload F cb ce n = (payload F cb ce).take (40 + n) := rfl

theorem payload_getElem? {F : Bytes} {a b p : Nat} (h1 : a ≤ p) (h2 : p < b) (h24 : 24 ≤ p % 65536) :
    (payload F a b)[usable a p]? = some (F.getD p 0) := by
  have e1 : payload F a b = payload F a p ++ payload F p b := payload_add h1 (by omega)
  have e2 : payload F p b = payload F p (p + 1) ++ payload F (p + 1) b := payload_add (by omega) (by omega)
  have e3 : payload F p (p + 1) = [F.getD p 0] := by
    unfold payload
    rw [show p + 1 - p = 1 by omega]
    simp [h24]
  rw [e1, e2, e3, List.getElem?_append_right (by rw [payload_length]; omega), payload_length, Nat.sub_self]
  rfl

theorem slice_one {F : Bytes} {p : Nat} {x : UInt8} (h : slice F p 1 = [x]) : F[p]? = some x := by
  have := congrArg (fun l => l[0]?) h
  simp only [slice_getElem?] at this
  rw [if_pos (by omega)] at this
  simpa using this

/-- The frame being the same, the found payload is laid out as a chunk. -/
theorem segAt_found {F F' : Bytes} {cb : Nat} {c : Chunk} (hc : ChunkAt H F cb c) (hl : F'.length = F.length)
    (hbh : ∀ p, p % 65536 < 24 → F'[p]? = F[p]?)
    (hpad : ∀ p, cb ≤ p → p < c.endAt cb → 40 + c.data.length ≤ usable cb p → F'[p]? = F[p]?) :
    (foundPayload F' cb (c.endAt cb) c.data.length).length = 40 + c.data.length ∧
    SegAt H F' cb (c.endAt cb) (foundPayload F' cb (c.endAt cb) c.data.length) := by
  have hlen := hc.len
  have hu : 40 + c.data.length ≤ usable cb (c.endAt cb) := by
    have := hc.holds.2.2.1
    rw [hc.dsize] at this; exact this
  have hpl : (foundPayload F' cb (c.endAt cb) c.data.length).length = 40 + c.data.length := by
    rw [foundPayload_eq, List.length_take, payload_length]; omega
  have hF : ∀ p, cb ≤ p → p < c.endAt cb →
      F[p]? = some (chunkByte H cb (c.endAt cb) (c.header ++ c.data) p) := by
    intro p h1 h2
    apply slice_one
    rw [hc.seg p 1 h1 (by omega)]
    simp [chunkSeg]
  refine ⟨hpl, hc.hb, hc.holds.1, hc.holds.gt, by omega, hc.lt, by omega, ?_⟩
  intro p n h1 h2
  apply List.ext_getElem?
  intro i
  rw [slice_getElem?, chunkSeg_getElem?, show p + n - p = n by omega]
  split
  · have hFi := hF (p + i) (by omega) (by omega)
    by_cases h24 : (p + i) % 65536 < 24
    · rw [hbh _ h24, hFi, chunkByte, chunkByte, if_pos h24, if_pos h24]
    · rw [chunkByte, if_neg h24]
      by_cases hpd : 40 + c.data.length ≤ usable cb (p + i)
      · rw [hpad _ (by omega) (by omega) hpd, hFi, chunkByte, if_neg h24, List.getD_eq_getElem?_getD,
          List.getD_eq_getElem?_getD, List.getElem?_eq_none (by rw [List.length_append, hc.hlen]; exact hpd),
          List.getElem?_eq_none (by rw [hpl]; exact hpd)]
      · have hg := payload_getElem? (F := F') (a := cb) (b := c.endAt cb) (p := p + i) (by omega) (by omega) (by omega)
        rw [List.getD_eq_getElem?_getD, foundPayload_eq, List.getElem?_take, if_pos (by omega), hg,
          List.getD_eq_getElem?_getD, List.getElem?_eq_getElem (by omega)]
        rfl
  · rfl

theorem dlaid_found {F F' : Bytes} {cs : List Chunk} (hv : ValidFile H cs F) (hf : SameFrame cs F F') :
    ∀ (post pre : List Chunk), cs = pre ++ post → DLaid H F' (fileEnd 0 pre) (found F' (fileEnd 0 pre) post)
  | [], pre, e => by
    rw [List.append_nil] at e
    show fileEnd 0 pre = F'.length
    rw [hf.length, hv.toLaid.length, e]
  | c :: post, pre, e => by
    have hc := hv.toLaid.chunkAt e
    have hend : fileEnd 0 (pre ++ [c]) = c.endAt (fileEnd 0 pre) := by rw [fileEnd_append]; rfl
    have ih := dlaid_found hv hf post (pre ++ [c]) (by rw [e]; simp)
    rw [hend] at ih
    have hw : WFChunk H c := by
      have := hv.ok
      rw [e, chunksOk_append] at this
      exact this.2.1
    obtain ⟨h1, h2⟩ := segAt_found hc hf.length hf.blockHeaders (hf.padding pre c post e)
    exact ⟨hw, hc.sig, h1, hc.holds, h2, ih⟩

theorem DLaid.end_eq : ∀ {ds : List (Chunk × Bytes)} {pos : Nat}, DLaid H F pos ds →
    fileEnd pos (ds.map Prod.fst) = F.length
  | [], _, h => h
  | _ :: ds, _, h => DLaid.end_eq (ds := ds) h.2.2.2.2.2

theorem DLaid.le : ∀ {ds : List (Chunk × Bytes)} {pos : Nat}, DLaid H F pos ds → pos ≤ F.length
  | [], _, h => Nat.le_of_eq h
  | _ :: _, _, h => Nat.le_trans h.2.2.2.1.2.1 (DLaid.le h.2.2.2.2.2)

theorem DLaid.suffix : ∀ {ds es : List (Chunk × Bytes)} {pos : Nat}, DLaid H F pos (ds ++ es) →
    DLaid H F (Riegeli.fileEnd pos (ds.map Prod.fst)) es
  | [], _, _, h => h
  | _ :: ds, _, _, h => DLaid.suffix (ds := ds) h.2.2.2.2.2

theorem SegAt.blockHeader {cb ce b : Nat} {pl : Bytes} (hc : SegAt H F cb ce pl) (hb : b % 65536 = 0)
    (h1 : cb ≤ b) (h2 : b < ce) : b + 24 < ce ∧ slice F b 24 = mkBlockHeader H (b - cb) (ce - b) := by
  have hbe := hc.he
  have hlt : b + 24 < ce := by unfold BoundaryOk at hbe; omega
  refine ⟨hlt, ?_⟩
  rw [hc.seg b 24 h1 (by omega), chunkSeg_blockHeader hb]

/-- A reader at the chunk boundary `pos`; if this is the end of the file, perhaps beyond it. -/
def At (F : Bytes) (pos : Nat) (s : CR) : Prop :=
  AtBoundary F pos s ∨ (pos = F.length ∧ s.err = none ∧ s.rcv = .no ∧ s.data = [] ∧ s.hdr.length = 40 ∧
    s.bh.length = 24 ∧ s.srcPos = F.length ∧ F.length < s.pos)

theorem at_end (hb : BoundaryOk F.length) (ha : At F F.length s) :
    ∃ s', s.readChunk H F = (none, s') ∧ At F F.length s' ∧ s'.err = none := by
  rcases ha with ha | ⟨_, h1, h2, h3, h4, h5, h6, h7⟩
  · rw [readChunk_at_end ha hb]
    exact ⟨_, rfl, Or.inl ⟨ha.pos, ha.err, ha.rcv, ha.data, ha.hl, ha.bl, ha.hf, ha.src⟩, ha.err⟩
  · refine ⟨{ s with truncated := false }, ?_, Or.inr ⟨rfl, h1, h2, h3, h4, h5, h6, h7⟩, h1⟩
    unfold readChunk pullChunkHeader
    rw [if_neg (by simp [h1])]
    simp only [h6, h7, ↓reduceIte, Nat.le_refl]

/-- Chunk with its original header, and the data which are there. -/
theorem chunkAt_of {pos : Nat} {d : Chunk × Bytes} {ds : List (Chunk × Bytes)} (h : DLaid H F pos (d :: ds))
    (hh : d.2.take 40 = d.1.header) : ChunkAt H F pos ⟨d.1.header, d.2.drop 40⟩ := by
  obtain ⟨hw, hsig, hl, hh', hs, _⟩ := h
  refine ⟨hw.headerLen, hw.headerHash, ?_, hs.hb, hh', hs.lt, hs.len, ?_, hsig⟩
  · show Hdr.dataSize d.1.header = (d.2.drop 40).length
    rw [hw.dataSize, List.length_drop, hl]; omega
  · intro p n h1 h2
    show _ = chunkSeg H pos (d.1.endAt pos) (d.1.header ++ d.2.drop 40) p (p + n)
    rw [← hh, List.take_append_drop]
    exact hs.seg p n h1 h2

theorem at_boundary {pos : Nat} (hlt : pos < F.length) (ha : At F pos s) : AtBoundary F pos s := by
  rcases ha with ha | ⟨h, _⟩
  · exact ha
  · omega

/-- Reading an intact chunk. -/
theorem read_intact {pos : Nat} {d : Chunk × Bytes} {ds : List (Chunk × Bytes)} (h : DLaid H F pos (d :: ds))
    (hi : Intact d) (ha : At F pos s) :
    ∃ s', s.readChunk H F = (some d.1, s') ∧ At F (d.1.endAt pos) s' ∧ s'.pos = d.1.endAt pos := by
  have hlen := h.1.headerLen
  have hc := chunkAt_of h (by rw [hi]; simp [hlen])
  have hgt := hc.holds.gt
  have hcl := hc.len
  have e : (⟨d.1.header, d.2.drop 40⟩ : Chunk) = d.1 := by
    rw [hi]
    simp [hlen]
  rw [e] at hc hgt hcl
  have hm := AtBoundary.mid (at_boundary (by omega) ha) hc (List.prefix_refl _)
  rcases readChunk_spec hc (List.prefix_refl _) hm with ⟨h1, h2, s', e, g⟩ | ⟨h1, h2, _⟩ | ⟨h1, _⟩
  · obtain ⟨g1, g2, g3, g4, g5, g6, g7, g8⟩ := g
    exact ⟨s', e, Or.inl ⟨g1, g3, g4, g5, g6, g7, by omega, Or.inl g2⟩, g1⟩
  · exact absurd h.1.dataHash h2
  · omega

/-- Reading a chunk with damaged data, and recovery. -/
theorem read_data {pos : Nat} {d : Chunk × Bytes} {ds : List (Chunk × Bytes)} (h : DLaid H F pos (d :: ds))
    (hi : DataDamaged H d) (ha : At F pos s) :
    ∃ s' s'', s.readChunk H F = (none, s') ∧ s'.err ≠ none ∧
      s'.recover H F = some (some ⟨pos, d.1.endAt pos⟩, s'') ∧ At F (d.1.endAt pos) s'' := by
  have hc := chunkAt_of h hi.2.1
  have hgt := hc.holds.gt
  have hcl := hc.len
  have hbe := hc.holds.1
  have hm := AtBoundary.mid (at_boundary (by omega) ha) hc (List.prefix_refl _)
  have he : (⟨d.1.header, d.2.drop 40⟩ : Chunk).endAt pos = d.1.endAt pos := rfl
  rw [he] at hcl hbe
  rcases readChunk_spec hc (List.prefix_refl _) hm with ⟨h1, h2, s', e, g⟩ | ⟨h1, h2, s', e, g⟩ | ⟨h1, _⟩
  · exact absurd h2 hi.2.2
  · obtain ⟨g1, g2, g3, g4, g5, g6, g7⟩ := g
    rw [he] at g4
    refine ⟨s', { s' with rcv := .no, recPos := 0, err := none, data := [], pos := d.1.endAt pos, srcPos := d.1.endAt pos },
      e, by simp [g2], ?_, Or.inl ?_⟩
    · unfold recover
      rw [if_neg (by simp [g3])]
      simp only [g3, g4, ↓reduceIte, g1]
      have hk : srcSeek F (d.1.endAt pos) = (true, d.1.endAt pos) := by
        unfold srcSeek; rw [if_pos hcl]
      simp only [hk, Bool.true_eq_false, ↓reduceIte]
      rw [if_neg (by rw [(isPossibleChunkBoundary_iff _).2 hbe]; simp)]
    · exact ⟨rfl, rfl, rfl, rfl, g5, g6, hcl, Or.inl rfl⟩
  · omega

theorem payload_step (F : Bytes) (p : Nat) :
    payload F p (p + 1) = if 24 ≤ p % 65536 then [F.getD p 0] else [] := by
  unfold payload
  rw [show p + 1 - p = 1 by omega]
  by_cases h : 24 ≤ p % 65536 <;> simp [h]

/-- The payload bytes of a chunk region. -/
theorem payload_seg {cb ce : Nat} {pl : Bytes} (hs : SegAt H F cb ce pl) : ∀ (n : Nat), cb + n ≤ ce →
    usable cb (cb + n) ≤ pl.length → payload F cb (cb + n) = pl.take (usable cb (cb + n))
  | 0, _, _ => by rw [Nat.add_zero, payload_self]; simp [usable]
  | n + 1, h, hu => by
    have hmono := usable_le (a := cb) (b := cb + n) (c := cb + (n + 1)) (by omega) (by omega)
    have ih := payload_seg hs n (by omega) (by omega)
    have hstep := payload_step F (cb + n)
    have hadd := payload_add (F := F) (a := cb) (b := cb + n) (c := cb + (n + 1)) (by omega) (by omega)
    have hlen := congrArg List.length hadd
    rw [List.length_append, payload_length, payload_length, show cb + (n + 1) = cb + n + 1 from rfl, hstep] at hlen
    rw [hadd, ih, show cb + (n + 1) = cb + n + 1 from rfl, hstep]
    by_cases h24 : 24 ≤ (cb + n) % 65536
    · rw [if_pos h24] at hlen ⊢
      simp only [List.length_singleton] at hlen
      have hlen' : usable cb (cb + n + 1) = usable cb (cb + n) + 1 := hlen
      have hsl := hs.seg (cb + n) 1 (by omega) (by omega)
      have hget : F.getD (cb + n) 0 = chunkByte H cb ce pl (cb + n) := by
        have h0 := congrArg (fun l => l[0]?) hsl
        simp only [slice_getElem?, chunkSeg_getElem?] at h0
        rw [if_pos (by omega), if_pos (by omega)] at h0
        simp only [Nat.add_zero] at h0
        rw [List.getD_eq_getElem?_getD, h0]; rfl
      rw [hlen', hget, chunkByte, if_neg (by omega)]
      have hu' : usable cb (cb + n) < pl.length := by
        have : usable cb (cb + (n + 1)) = usable cb (cb + n) + 1 := hlen
        omega
      rw [List.take_add_one, List.getElem?_eq_getElem hu', List.getD_eq_getElem?_getD,
        List.getElem?_eq_getElem hu']
      rfl
    · rw [if_neg h24] at hlen ⊢
      simp only [List.length_nil, Nat.add_zero] at hlen
      rw [List.append_nil, hlen]

/-- Reading a chunk with a damaged header fails; recovery starts after the header. -/
theorem read_header {pos : Nat} {d : Chunk × Bytes} {ds : List (Chunk × Bytes)} (h : DLaid H F pos (d :: ds))
    (hi : HeaderDamaged H d) (ha : At F pos s) :
    ∃ s', s.readChunk H F = (none, s') ∧ s'.err ≠ none ∧ s'.rcv = .findChunk ∧ s'.pos = pos ∧
      s'.hdr.length = 40 ∧ s'.bh.length = 24 ∧ pos < s'.recPos ∧ s'.recPos ≤ d.1.endAt pos ∧
      usable pos s'.recPos = 40 ∧ BoundaryOk s'.recPos := by
  obtain ⟨hw, hsig, hl, hh', hs, _⟩ := h
  have hlen := hs.len
  have hgt := hs.gt
  have hbnd := hs.hb
  have ha := at_boundary (by omega) ha
  have hu0 := SeekP.AtBoundary.usable ha
  have hpos := ha.pos
  have huend : 40 ≤ usable pos (d.1.endAt pos) := by have := hs.u; omega
  have hlo : pos ≤ s.srcPos := by rcases ha.src with h | ⟨_, h, _⟩ <;> omega
  let s0 : CR := { s with truncated := false }
  have hrd : Arb.Rd True F s0 :=
    ⟨ha.err, ha.rcv, by show s.pos ≤ s.srcPos; omega, ha.hf, fun _ => by show BoundaryOk s.pos; rw [hpos]; exact hbnd, ha.hl, ha.bl⟩
  have hbh : Arb.BhOk F s0 := by
    intro hb
    show s.bh.take (s.srcPos % 65536) = _
    have hb : s.pos ≤ Arb.blk s.srcPos := hb
    unfold Arb.blk at hb
    have e0 : Arb.blk s0.srcPos = s.srcPos - s.srcPos % 65536 := rfl
    have e1 : s0.srcPos % 65536 = s.srcPos % 65536 := rfl
    rw [e0, e1]
    rcases ha.src with h | ⟨h1, h2, h3, h4⟩
    · have : s.srcPos % 65536 = 0 := by omega
      rw [this]; simp
    · have e2 : s.srcPos - s.srcPos % 65536 = pos := by omega
      have e3 : s.srcPos % 65536 = s.srcPos - pos := by omega
      rw [e2, e3, h4]
      simp only [slice, List.take_take]
      congr 1; omega
  have hhp : Arb.HdrPart F s0 := by
    have e0 : usable s0.pos s0.srcPos = 0 := by show usable s.pos s.srcPos = 0; rw [hpos]; exact hu0
    refine ⟨by omega, ha.data, ?_⟩
    rw [e0]
    have : (payload F s0.pos s0.srcPos).length = 0 := by rw [payload_length, e0]
    rw [List.length_eq_zero_iff.1 this]; simp
  have hpull : s.pullChunkHeader H F = s0.readChunkHeader H F := by
    unfold pullChunkHeader
    rw [if_neg (by simp [ha.err])]
    simp only
    rw [if_neg (by omega), if_pos (by rw [distanceWithoutOverhead_eq (by omega), hpos, hu0]; omega)]
  rcases Arb.readChunkHeaderLoop_arb (H := H) (List.prefix_refl F) 3 s0 (by split <;> omega) hrd hbh hhp with
    ⟨s1, e1, r1, b1, hps, hd, hhd, ht, hbo⟩ | ⟨s1, e1, r1, b1, hps, hp1, hs1⟩ | ⟨s1, e1, _, _, hps, p, hp1, hp2, hp3, hp4⟩
  · have hps0 : s0.pos = pos := hpos
    rw [hps0] at hps hhd
    have hu1 : usable pos s1.srcPos = 40 := by
      rw [← payload_length F, ← hhd, r1.hl]
    have hlo1 := r1.lo
    rw [hps] at hlo1
    have hle1 : s1.srcPos ≤ d.1.endAt pos := by
      apply Classical.byContradiction
      intro hc
      have h1 := usable_add_usableTo (show pos ≤ s1.srcPos by omega)
      have h2 := usable_add_usableTo (show pos ≤ d.1.endAt pos by omega)
      have hbe := hs.he
      unfold usableTo BoundaryOk at *
      omega
    have hhdr : s1.hdr = d.2.take 40 := by
      have := payload_seg hs (s1.srcPos - pos) (by omega) (by rw [show pos + (s1.srcPos - pos) = s1.srcPos by omega, hu1]; omega)
      rw [show pos + (s1.srcPos - pos) = s1.srcPos by omega, hu1, ← hhd] at this
      exact this
    have hgt1 : pos < s1.srcPos := by
      apply Classical.byContradiction
      intro hc
      have : s1.srcPos = pos := by omega
      rw [this] at hu1; simp [usable] at hu1
    have hchk : s1.checkChunkHeader H = (false, s1.fail .headerHash .findChunk s1.srcPos) := by
      unfold checkChunkHeader
      rw [if_pos]
      rw [computedHash_eq H r1.hl, hhdr]
      exact fun hc => hi.2 hc.symm
    refine ⟨s1.fail .headerHash .findChunk s1.srcPos, ?_, by simp [fail], rfl, hps, r1.hl, r1.bl, hgt1, hle1, hu1, hbo⟩
    unfold readChunk
    rw [hpull]
    unfold readChunkHeader
    rw [e1]
    simp only [hchk]
  · exfalso
    have := hp1.lt
    have hps0 : s0.pos = pos := hpos
    rw [hps, hps0, hs1] at this
    have h2 := usable_le (a := pos) (b := d.1.endAt pos) (c := F.length) (by omega) hlen
    omega
  · exfalso
    have hps0 : s0.pos = pos := hpos
    rw [hps0] at hp3 hp4
    have hp1 : s.srcPos ≤ p := hp1
    have hpb : pos ≤ Arb.blk p := by
      unfold Arb.blk; unfold BoundaryOk at hbnd; omega
    have hplt : Arb.blk p < d.1.endAt pos := by
      apply Classical.byContradiction
      intro hc
      have := usable_le (a := pos) (b := d.1.endAt pos) (c := p) (by omega) (by unfold Arb.blk at hc; omega)
      omega
    have hbm : Arb.blk p % 65536 = 0 := by unfold Arb.blk; omega
    obtain ⟨g1, g2⟩ := hs.blockHeader hbm hpb hplt
    have hlt := hs.lt
    refine hp4 hpb ⟨⟨hbm, by omega, ?_⟩, ?_⟩
    · rw [g2]; exact (mkBlockHeader_stored H _ _).symm
    · rw [g2, mkBlockHeader_prev H (by omega), sub64_eq hpb (by omega)]

/-- A block boundary inside a chunk leads to the end of the chunk. -/
theorem findChunk_inside {rb pos b : Nat} {d : Chunk × Bytes} {ds : List (Chunk × Bytes)}
    (hl : DLaid H F pos (d :: ds)) (hlt : pos < b) (hbm : b % 65536 = 0) (hbe : b < d.1.endAt pos)
    (hs : Arb.FC s) (hb : s.pos + remainingInBlock s.pos = b) :
    ∃ s', findChunk H F rb s = some (⟨rb, d.1.endAt pos⟩, s') ∧ At F (d.1.endAt pos) s' := by
  obtain ⟨_, _, _, _, hseg, _⟩ := hl
  obtain ⟨g1, g2⟩ := hseg.blockHeader hbm (by omega) hbe
  have hl64 := hseg.lt
  have hlen := hseg.len
  refine ⟨{ s with pos := d.1.endAt pos, srcPos := d.1.endAt pos, bh := mkBlockHeader H (b - pos) (d.1.endAt pos - b) },
    ?_, Or.inl ⟨rfl, hs.err, hs.rcv, hs.data, hs.hl, by simp, hlen, Or.inl rfl⟩⟩
  rw [Arb.findChunk_eq]
  unfold Arb.findChunkF
  rw [hb, show w64 b = b from Nat.mod_eq_of_lt (by omega)]
  have hk : srcSeek F b = (true, b) := by unfold srcSeek; rw [if_pos (by omega)]
  simp only [hk, Bool.true_eq_false, ↓reduceIte]
  rw [SeekP.readBlockHeader_at (H := H) (s := { s with pos := b, srcPos := b }) hbm (by omega) g2
    (mkBlockHeader_stored H _ _) rfl hs.bl]
  simp only
  rw [mkBlockHeader_prev H (by omega), mkBlockHeader_next H (by omega), if_neg (by omega),
    show b + (d.1.endAt pos - b) = d.1.endAt pos by omega,
    show w64 (d.1.endAt pos) = d.1.endAt pos from Nat.mod_eq_of_lt hl64,
    if_neg (by rw [(isPossibleChunkBoundary_iff _).2 hseg.he]; simp)]
  have hk2 : srcSeek F (d.1.endAt pos) = (true, d.1.endAt pos) := by unfold srcSeek; rw [if_pos (by omega)]
  simp only [hk2, Bool.true_eq_false, ↓reduceIte]

/-- A block boundary which is a chunk boundary. -/
theorem findChunk_begin {rb b : Nat} {d : Chunk × Bytes} {ds : List (Chunk × Bytes)}
    (hl : DLaid H F b (d :: ds)) (hbm : b % 65536 = 0)
    (hs : Arb.FC s) (hb : s.pos + remainingInBlock s.pos = b) :
    ∃ s', findChunk H F rb s = some (⟨rb, b⟩, s') ∧ At F b s' := by
  obtain ⟨_, _, _, _, hseg, _⟩ := hl
  have hgt := hseg.gt
  obtain ⟨g1, g2⟩ := hseg.blockHeader hbm (Nat.le_refl _) (by omega)
  have hl64 := hseg.lt
  have hlen := hseg.len
  refine ⟨{ s with pos := b, srcPos := b + 24, bh := mkBlockHeader H (b - b) (d.1.endAt b - b) },
    ?_, Or.inl ⟨rfl, hs.err, hs.rcv, hs.data, hs.hl, by simp, by show b + 24 ≤ _; omega,
      Or.inr ⟨hbm, by show b < b + 24; omega, Nat.le_refl _, ?_⟩⟩⟩
  · rw [Arb.findChunk_eq]
    unfold Arb.findChunkF
    rw [hb, show w64 b = b from Nat.mod_eq_of_lt (by omega)]
    have hk : srcSeek F b = (true, b) := by unfold srcSeek; rw [if_pos (by omega)]
    simp only [hk, Bool.true_eq_false, ↓reduceIte]
    rw [SeekP.readBlockHeader_at (H := H) (s := { s with pos := b, srcPos := b }) hbm (by omega) g2
      (mkBlockHeader_stored H _ _) rfl hs.bl]
    simp only
    rw [mkBlockHeader_prev H (by omega), if_pos (by omega)]
  · show (mkBlockHeader H (b - b) (d.1.endAt b - b)).take (b + 24 - b) = slice F b (b + 24 - b)
    rw [show b + 24 - b = 24 by omega, g2, List.take_of_length_le (by simp)]

/-- A block boundary at or after the end of the file. -/
theorem findChunk_end {rb b : Nat} (hbm : b % 65536 = 0) (hge : F.length ≤ b) (h64 : b < 2 ^ 64)
    (hs : Arb.FC s) (hb : s.pos + remainingInBlock s.pos = b) :
    ∃ s', findChunk H F rb s = some (⟨rb, F.length⟩, s') ∧ At F F.length s' := by
  by_cases he : b = F.length
  · refine ⟨{ s with pos := b, srcPos := b }, ?_, Or.inl ⟨he, hs.err, hs.rcv, hs.data, hs.hl, hs.bl,
      by show b ≤ _; omega, Or.inl he⟩⟩
    rw [Arb.findChunk_eq]
    unfold Arb.findChunkF
    rw [hb, show w64 b = b from Nat.mod_eq_of_lt h64]
    have hk : srcSeek F b = (true, b) := by unfold srcSeek; rw [if_pos (by omega)]
    simp only [hk, Bool.true_eq_false, ↓reduceIte]
    have hr : srcRead F b 24 = (false, [], b) := by
      unfold srcRead
      rw [if_neg (by omega)]
      simp [slice, show F.length - b = 0 by omega, show max b F.length = b by omega]
    have hp : putAt s.bh 0 [] = s.bh := by simp [putAt]
    have hrb : ({ s with pos := b, srcPos := b } : CR).readBlockHeader H F = (false, { s with pos := b, srcPos := b }) := by
      unfold readBlockHeader
      simp only [remainingInBlockHeader_eq, hbm, Nat.sub_zero, hr, ↓reduceIte, Nat.sub_self, hp]
      unfold failReading
      simp
    rw [hrb]
    simp only [hs.rcv, ne_eq, not_true_eq_false, ↓reduceIte]
    rw [he]
  · refine ⟨{ s with pos := b, srcPos := F.length }, ?_, Or.inr ⟨rfl, hs.err, hs.rcv, hs.data, hs.hl, hs.bl, rfl,
      by show F.length < b; omega⟩⟩
    rw [Arb.findChunk_eq]
    unfold Arb.findChunkF
    rw [hb, show w64 b = b from Nat.mod_eq_of_lt h64]
    have hk : srcSeek F b = (false, F.length) := by unfold srcSeek; rw [if_neg (by omega)]
    simp only [hk, ↓reduceIte]

/-- Finding a chunk boundary after the damage. -/
theorem findChunk_spec {rb b : Nat} (hbm : b % 65536 = 0) (h64 : b < 2 ^ 64) (hs : Arb.FC s)
    (hb : s.pos + remainingInBlock s.pos = b) :
    ∀ (ds : List (Chunk × Bytes)) (d : Chunk × Bytes) (pos : Nat), DLaid H F pos (d :: ds) → pos < b →
    ∃ lost rest s', ds = lost ++ rest ∧
      findChunk H F rb s = some (⟨rb, fileEnd pos ((d :: lost).map Prod.fst)⟩, s') ∧
      At F (fileEnd pos ((d :: lost).map Prod.fst)) s' ∧
      (∀ l1 x l2, lost = l1 ++ x :: l2 → fileEnd pos ((d :: l1).map Prod.fst) < b) ∧
      (rest ≠ [] → b ≤ fileEnd pos ((d :: lost).map Prod.fst)) := by
  intro ds
  induction ds with
  | nil =>
    intro d pos hl hlt
    by_cases hin : b < d.1.endAt pos
    · obtain ⟨s', e, ha⟩ := findChunk_inside (rb := rb) hl hlt hbm hin hs hb
      exact ⟨[], [], s', rfl, e, ha, by simp, by simp⟩
    · have hend : d.1.endAt pos = F.length := hl.2.2.2.2.2
      obtain ⟨s', e, ha⟩ := findChunk_end (H := H) (F := F) (rb := rb) hbm (by omega) h64 hs hb
      refine ⟨[], [], s', rfl, ?_, ?_, by simp, by simp⟩
      · rw [e, ← hend]; rfl
      · rw [← hend] at ha; exact ha
  | cons d' ds ih =>
    intro d pos hl hlt
    by_cases hin : b < d.1.endAt pos
    · obtain ⟨s', e, ha⟩ := findChunk_inside (rb := rb) hl hlt hbm hin hs hb
      exact ⟨[], d' :: ds, s', rfl, e, ha, by simp, fun _ => Nat.le_of_lt hin⟩
    · by_cases heq : b = d.1.endAt pos
      · have hl' : DLaid H F b (d' :: ds) := by rw [heq]; exact hl.2.2.2.2.2
        obtain ⟨s', e, ha⟩ := findChunk_begin (rb := rb) hl' hbm hs hb
        refine ⟨[], d' :: ds, s', rfl, ?_, ?_, by simp, fun _ => Nat.le_of_eq heq⟩
        · rw [e, heq]; rfl
        · rw [heq] at ha; exact ha
      · obtain ⟨lost, rest, s', h1, h2, h3, h4, h5⟩ := ih d' (d.1.endAt pos) hl.2.2.2.2.2 (by omega)
        refine ⟨d' :: lost, rest, s', by rw [h1]; rfl, h2, h3, ?_, h5⟩
        intro l1 x l2 hl1
        cases l1 with
        | nil => show d.1.endAt pos < b; omega
        | cons y l1 =>
          injection hl1 with e1 e2
          subst e1
          exact h4 l1 x l2 e2

/-- Reading a chunk with a damaged header, and recovery. -/
theorem recover_header {pos b : Nat} {d : Chunk × Bytes} {ds : List (Chunk × Bytes)} (h : DLaid H F pos (d :: ds))
    (h63 : F.length < 2 ^ 63) (hi : HeaderDamaged H d) (hn : NextBlock pos b) (ha : At F pos s) :
    ∃ s' s'' lost rest, s.readChunk H F = (none, s') ∧ s'.err ≠ none ∧ ds = lost ++ rest ∧
      s'.recover H F = some (some ⟨pos, fileEnd pos ((d :: lost).map Prod.fst)⟩, s'') ∧
      At F (fileEnd pos ((d :: lost).map Prod.fst)) s'' ∧
      (∀ l1 x l2, lost = l1 ++ x :: l2 → fileEnd pos ((d :: l1).map Prod.fst) < b) ∧
      (rest ≠ [] → b ≤ fileEnd pos ((d :: lost).map Prod.fst)) := by
  obtain ⟨s', e, herr, hrcv, hp, hhl, hbl, hgt, hle, hu, hbo⟩ := read_header h hi ha
  have hlen := h.2.2.2.2.1.len
  obtain ⟨n1, n2, n3⟩ := hn
  have hb : s'.recPos + remainingInBlock s'.recPos = b := by
    have h1 := usable_add_usableTo (show pos ≤ s'.recPos by omega)
    have hpb : pos ≤ b := by
      apply Classical.byContradiction
      intro hc
      have : usable pos b = 0 := by unfold usable; rw [show b - pos = 0 by omega]; rfl
      omega
    have h2 := usable_add_usableTo hpb
    have h3 : pos ≤ b - 65536 → usableTo pos + usable pos (b - 65536) = usableTo (b - 65536) :=
      fun h => usable_add_usableTo h
    rw [remainingInBlock_eq]
    have hbnd := h.2.2.2.2.1.hb
    unfold usableTo BoundaryOk at *
    omega
  obtain ⟨lost, rest, s'', h1, h2, h3, h4, h5⟩ := findChunk_spec (H := H) (F := F) (rb := pos) (b := b)
    (s := { s' with rcv := .no, recPos := 0, err := none, data := [], pos := s'.recPos })
    n1 (by rw [← hb, remainingInBlock_eq]; omega) ⟨rfl, rfl, rfl, hhl, hbl⟩ hb ds d pos h
    (by rw [← hb]; omega)
  refine ⟨s', s'', lost, rest, e, herr, h1, ?_, h3, h4, h5⟩
  unfold recover
  rw [if_neg (by simp [hrcv])]
  simp only [hrcv, hp]
  rw [if_neg (by simp), h2]
  rfl

/-! ## Reading records -/

section
variable {parse : Chunk → Option (List Nat × Bytes)}

/-- A record reader which will show the events `ev`. -/
structure DSt (H : Bytes → UInt64) (parse : Chunk → Option (List Nat × Bytes)) (F : Bytes) (s : RR) (ev : List Event) :
    Prop where
  err : s.err = none
  rcv : s.rcv = .no
  ex : ∃ rs i pos ds ev', DecAt rs i s.dec ∧ At F pos s.cr ∧ DLaid H F pos ds ∧ Outcome H parse pos ds ev' ∧
    ev = (recordEvents s.chunkBegin rs).drop i ++ ev'

theorem recordEvents_getElem? (pos : Nat) (rs : List Bytes) (i : Nat) :
    (recordEvents pos rs)[i]? = rs[i]?.map (fun r => .record r ⟨pos, i⟩) := by
  simp only [recordEvents, List.getElem?_map, List.getElem?_zipIdx, Nat.zero_add, Option.map_map]
  rfl

theorem recordEvents_length (pos : Nat) (rs : List Bytes) : (recordEvents pos rs).length = rs.length := by
  simp [recordEvents]

theorem At.err {pos : Nat} {s : CR} (h : At F pos s) : s.err = none := by
  rcases h with h | h
  · exact h.err
  · exact h.2.1

theorem At.pos_eq {pos : Nat} {s : CR} (h : At F pos s) (hlt : pos < F.length) : s.pos = pos :=
  (at_boundary hlt h).pos

/-- How a region passed to the recovery function is seen. -/
def ofRegion (g : Region) : Event := .skipped g.begin g.end

/-- What one `ReadRecord` call does when `ev` are the events to come: all regions up to the next record are
passed to the recovery function, and the record is returned. -/
def OneRead (H : Bytes → UInt64) (parse : Chunk → Option (List Nat × Bytes)) (F : Bytes) (s : RR) (ev : List Event) : Prop :=
  (∃ (sk : List Region) (r : Bytes) (p : RecordPosition) (ev2 : List Event) (s' : RR),
    ev = sk.map ofRegion ++ .record r p :: ev2 ∧
    s.readRecordLoop H parse (some fun _ => true) F = some (some r, s') ∧ s'.skipped = sk.reverse ++ s.skipped ∧
    s'.lastPos = p ∧ DSt H parse F s' ev2) ∨
  (∃ (sk : List Region) (s' : RR), ev = sk.map ofRegion ∧
    s.readRecordLoop H parse (some fun _ => true) F = some (none, s') ∧ s'.skipped = sk.reverse ++ s.skipped ∧
    DSt H parse F s' [])

/-- If the loop goes on as from `t` with one more region skipped. -/
theorem OneRead.skip {s t : RR} {g : Region} {ev : List Event}
    (e : s.readRecordLoop H parse (some fun _ => true) F = t.readRecordLoop H parse (some fun _ => true) F)
    (hsk : t.skipped = g :: s.skipped) (h : OneRead H parse F t ev) : OneRead H parse F s (ofRegion g :: ev) := by
  rcases h with ⟨sk, r, p, ev2, s', h1, h2, h3, h4, h5⟩ | ⟨sk, s', h1, h2, h3, h4⟩
  · exact Or.inl ⟨g :: sk, r, p, ev2, s', by rw [h1]; rfl, by rw [e, h2], by rw [h3, hsk]; simp, h4, h5⟩
  · exact Or.inr ⟨g :: sk, s', by rw [h1]; rfl, by rw [e, h2], by rw [h3, hsk]; simp, h4⟩

theorem OneRead.same {s t : RR} {ev : List Event}
    (e : s.readRecordLoop H parse (some fun _ => true) F = t.readRecordLoop H parse (some fun _ => true) F)
    (hsk : t.skipped = s.skipped) (h : OneRead H parse F t ev) : OneRead H parse F s ev := by
  rcases h with ⟨sk, r, p, ev2, s', h1, h2, h3, h4, h5⟩ | ⟨sk, s', h1, h2, h3, h4⟩
  · exact Or.inl ⟨sk, r, p, ev2, s', h1, by rw [e, h2], by rw [h3, hsk], h4, h5⟩
  · exact Or.inr ⟨sk, s', h1, by rw [e, h2], by rw [h3, hsk], h4⟩

/-- A record of the current chunk. -/
theorem oneRead_now {pos : Nat} {ds : List (Chunk × Bytes)} {ev' : List Event} (ho : Outcome H parse pos ds ev')
    (hl : DLaid H F pos ds) {s : RR} {rs : List Bytes} {i : Nat} (he : s.err = none) (hr : s.rcv = .no)
    (hd : DecAt rs i s.dec) (ha : At F pos s.cr) (hi : i < rs.length) :
    OneRead H parse F s ((recordEvents s.chunkBegin rs).drop i ++ ev') := by
  obtain ⟨d', e, hd'⟩ := hd.read (List.getElem?_eq_getElem hi)
  have hev : (recordEvents s.chunkBegin rs).drop i =
      .record rs[i] ⟨s.chunkBegin, i⟩ :: (recordEvents s.chunkBegin rs).drop (i + 1) := by
    rw [List.drop_eq_getElem_cons (by rw [recordEvents_length]; exact hi)]
    have h2 := recordEvents_getElem? s.chunkBegin rs i
    rw [List.getElem?_eq_getElem (by rw [recordEvents_length]; exact hi), List.getElem?_eq_getElem hi] at h2
    simp only [Option.map_some, Option.some.injEq] at h2
    rw [h2]
  refine Or.inl ⟨[], rs[i], ⟨s.chunkBegin, i⟩, (recordEvents s.chunkBegin rs).drop (i + 1) ++ ev',
    { s with dec := d', lastValid := true }, by rw [hev]; rfl, ?_, rfl, ?_, he, hr, rs, i + 1, pos, ds, ev', hd', ha, hl, ho, rfl⟩
  · rw [RR.readRecordLoop, e]
  · show (⟨s.chunkBegin, d'.index - 1⟩ : RecordPosition) = _
    rw [hd'.index]; rfl

theorem split_unique {pos b : Nat} {d : Chunk × Bytes} : ∀ {l1 r1 l2 r2 : List (Chunk × Bytes)}, l1 ++ r1 = l2 ++ r2 →
    (∀ p x q, l1 = p ++ x :: q → fileEnd pos ((d :: p).map Prod.fst) < b) →
    (r1 ≠ [] → b ≤ fileEnd pos ((d :: l1).map Prod.fst)) →
    (∀ p x q, l2 = p ++ x :: q → fileEnd pos ((d :: p).map Prod.fst) < b) →
    (r2 ≠ [] → b ≤ fileEnd pos ((d :: l2).map Prod.fst)) → l1 = l2 ∧ r1 = r2 := by
  intro l1 r1 l2 r2 h a1 a2 c1 c2
  rcases List.append_eq_append_iff.1 h with ⟨a, e1, e2⟩ | ⟨a, e1, e2⟩
  · cases a with
    | nil => simp at e1 e2; exact ⟨e1.symm, e2⟩
    | cons x a =>
      have := a2 (by rw [e2]; simp)
      have := c1 l1 x a e1
      omega
  · cases a with
    | nil => simp at e1 e2; exact ⟨e1, e2.symm⟩
    | cons x a =>
      have := c2 (by rw [e2]; simp)
      have := a1 l2 x a e1
      omega

/-- The reader after skipping a region. -/
def skipTo (s : RR) (cr : CR) (g : Region) : RR :=
  ⟨cr, s.cr.pos, Dec.clear, none, .no, s.lastValid, g :: s.skipped⟩

/-- Reading a chunk fails and recovery skips `g`. -/
theorem loop_skip {s : RR} {rs : List Bytes} {i : Nat} (he : s.err = none)
    (hd : DecAt rs i s.dec) (hi : rs.length ≤ i) {s' s'' : CR} {g : Region}
    (h1 : s.cr.readChunk H F = (none, s')) (h2 : s'.err ≠ none) (h3 : s'.recover H F = some (some g, s'')) :
    s.readRecordLoop H parse (some fun _ => true) F =
      (skipTo s s'' g).readRecordLoop H parse (some fun _ => true) F := by
  conv => lhs; rw [RR.readRecordLoop]
  rw [hd.read_none hi]
  simp only
  rw [if_neg (by simp [he]), if_neg (by simp [hd.ok])]
  simp only [RR.readChunk, h1, if_pos h2, RR.tryRecovery, RR.recover, h3, skipTo]

/-- One `ReadRecord` call. -/
theorem readRecordLoop_events (h63 : F.length < 2 ^ 63) (hbl : BoundaryOk F.length) {pos : Nat} {ds : List (Chunk × Bytes)} {ev' : List Event}
    (ho : Outcome H parse pos ds ev') : DLaid H F pos ds → ∀ (s : RR) (rs : List Bytes) (i : Nat),
    s.err = none → s.rcv = .no → DecAt rs i s.dec → At F pos s.cr →
    OneRead H parse F s ((recordEvents s.chunkBegin rs).drop i ++ ev') := by
  induction ho with
  | done pos =>
    intro hl s rs i he hr hd ha
    by_cases hi : i < rs.length
    · exact oneRead_now (Outcome.done pos) hl he hr hd ha hi
    · have hpos : pos = F.length := hl
      have hdrop : (recordEvents s.chunkBegin rs).drop i = [] := by
        rw [List.drop_eq_nil_iff, recordEvents_length]; omega
      rw [hdrop, List.nil_append]
      obtain ⟨s', e, ha', he'⟩ := at_end (H := H) hbl (hpos ▸ ha)
      refine Or.inr ⟨[], { s with chunkBegin := s.cr.pos, cr := s', dec := Dec.clear }, rfl, ?_, rfl, he, hr, [], 0,
        F.length, [], [], DecAt.clear, ha', rfl, Outcome.done _, rfl⟩
      rw [RR.readRecordLoop, hd.read_none (by omega)]
      simp only
      rw [if_neg (by simp [he]), if_neg (by simp [hd.ok])]
      simp only [RR.readChunk, e, he', ne_eq, not_true_eq_false, ↓reduceIte, RR.tryRecovery, RR.recover, hr]
  | intact pos d ds rs' ev hi' hdec ho ih =>
    intro hl s rs i he hr hd ha
    by_cases hi : i < rs.length
    · exact oneRead_now (Outcome.intact pos d ds rs' ev hi' hdec ho) hl he hr hd ha hi
    · have hdrop : (recordEvents s.chunkBegin rs).drop i = [] := by
        rw [List.drop_eq_nil_iff, recordEvents_length]; omega
      rw [hdrop, List.nil_append]
      obtain ⟨s', e, ha', hsp⟩ := read_intact hl hi' ha
      obtain ⟨d', ed, hd'⟩ := DecAt.ofDecode hdec
      have hlt : pos < F.length := by have := hl.2.2.2.2.1.gt; have := hl.2.2.2.2.1.len; omega
      have hp := ha.pos_eq hlt
      have := ih hl.2.2.2.2.2 { s with chunkBegin := s.cr.pos, cr := s', dec := d' } rs' 0 he hr hd' ha'
      refine OneRead.same (t := { s with chunkBegin := s.cr.pos, cr := s', dec := d' }) ?_ rfl (by simpa [hp] using this)
      conv => lhs; rw [RR.readRecordLoop]
      rw [hd.read_none (by omega)]
      simp only
      rw [if_neg (by simp [he]), if_neg (by simp [hd.ok])]
      simp only [RR.readChunk, e, ed]
  | undecodable pos d ds ev hi' hdec ho ih =>
    intro hl s rs i he hr hd ha
    by_cases hi : i < rs.length
    · exact oneRead_now (Outcome.undecodable pos d ds ev hi' hdec ho) hl he hr hd ha hi
    · have hdrop : (recordEvents s.chunkBegin rs).drop i = [] := by
        rw [List.drop_eq_nil_iff, recordEvents_length]; omega
      rw [hdrop, List.nil_append]
      obtain ⟨s', e, ha', hsp⟩ := read_intact hl hi' ha
      have hlen := hl.2.2.2.2.1.len
      have hlt : pos < F.length := by have := hl.2.2.2.2.1.gt; omega
      have hp := ha.pos_eq hlt
      have hp' : w64 s'.pos = d.1.endAt pos := by
        rw [hsp]; exact Nat.mod_eq_of_lt (by omega)
      have := ih hl.2.2.2.2.2 (skipTo s s' ⟨pos, d.1.endAt pos⟩) [] 0 rfl rfl DecAt.clear ha'
      refine OneRead.skip (g := ⟨pos, d.1.endAt pos⟩) (t := (skipTo s s' ⟨pos, d.1.endAt pos⟩)) ?_ rfl (by simpa [recordEvents] using this)
      conv => lhs; rw [RR.readRecordLoop]
      rw [hd.read_none (by omega)]
      simp only
      rw [if_neg (by simp [he]), if_neg (by simp [hd.ok])]
      have hw : w64 s.cr.pos = pos := by rw [hp]; exact Nat.mod_eq_of_lt (by omega)
      simp only [RR.readChunk, e, Dec.decode, hdec, RR.tryRecovery, RR.recover, Nat.add_zero, hw]
      simp only [RR.pos, Dec.clear, Dec.numRecords, RecordPosition.numeric, List.length_nil, Nat.lt_irrefl, reduceCtorEq, or_self, ↓reduceIte, Nat.add_zero, hp', skipTo]
  | data pos d ds ev hi' ho ih =>
    intro hl s rs i he hr hd ha
    by_cases hi : i < rs.length
    · exact oneRead_now (Outcome.data pos d ds ev hi' ho) hl he hr hd ha hi
    · have hdrop : (recordEvents s.chunkBegin rs).drop i = [] := by
        rw [List.drop_eq_nil_iff, recordEvents_length]; omega
      rw [hdrop, List.nil_append]
      obtain ⟨s', s'', e, h1, h2, ha'⟩ := read_data hl hi' ha
      have := ih hl.2.2.2.2.2 (skipTo s s'' ⟨pos, d.1.endAt pos⟩) [] 0 rfl rfl DecAt.clear ha'
      exact OneRead.skip (g := ⟨pos, d.1.endAt pos⟩) (loop_skip he hd (by omega) e h1 h2) rfl (by simpa [recordEvents] using this)
  | header pos b d lost rest ev hi' hn h1 h2 ho ih =>
    intro hl s rs i he hr hd ha
    by_cases hi : i < rs.length
    · exact oneRead_now (Outcome.header pos b d lost rest ev hi' hn h1 h2 ho) hl he hr hd ha hi
    · have hdrop : (recordEvents s.chunkBegin rs).drop i = [] := by
        rw [List.drop_eq_nil_iff, recordEvents_length]; omega
      rw [hdrop, List.nil_append]
      have hsuf := DLaid.suffix (ds := d :: lost) hl
      obtain ⟨s', s'', lost', rest', e, g1, g2, g3, ha', g4, g5⟩ := recover_header hl h63 hi' hn ha
      obtain ⟨e1, e2⟩ := split_unique (pos := pos) (b := b) (d := d) g2 h1 h2 g4 g5
      subst e1 e2
      have := ih hsuf (skipTo s s'' ⟨pos, fileEnd pos ((d :: lost).map Prod.fst)⟩) [] 0 rfl rfl DecAt.clear ha'
      exact OneRead.skip (g := ⟨pos, fileEnd pos ((d :: lost).map Prod.fst)⟩) (loop_skip he hd (by omega) e g1 g3) rfl
        (by simpa [recordEvents] using this)

theorem takeRecords_skips (n : Nat) (sk : List Region) (ev : List Event) :
    takeRecords (n + 1) (sk.map ofRegion ++ ev) = sk.map ofRegion ++ takeRecords (n + 1) ev := by
  induction sk with
  | nil => rfl
  | cons g sk ih => simp only [List.map_cons, List.cons_append, ofRegion, takeRecords]; rw [← ih]

theorem readEvents_spec (h63 : F.length < 2 ^ 63) (hbl : BoundaryOk F.length) : ∀ (n : Nat) (s : RR) (ev : List Event),
    DSt H parse F s ev →
    ∃ s', readEvents H parse F n s = some (takeRecords n ev, s') ∧ s'.err = none
  | 0, s, ev, h => ⟨s, by simp [readEvents, takeRecords], h.err⟩
  | n + 1, s, ev, h => by
    obtain ⟨rs, i, pos, ds, ev', hd, ha, hl, ho, rfl⟩ := h.ex
    have h1 := readRecordLoop_events h63 hbl ho hl { s with lastValid := false } rs i h.err h.rcv hd ha
    rcases h1 with ⟨sk, r, p, ev2, s', g1, g2, g3, g4, g5⟩ | ⟨sk, s', g1, g2, g3, g4⟩
    · obtain ⟨s'', e, herr⟩ := readEvents_spec h63 hbl n s' ev2 g5
      refine ⟨s'', ?_, herr⟩
      unfold readEvents RR.readRecord
      rw [g2]
      have g1' : (recordEvents s.chunkBegin rs).drop i ++ ev' = sk.map ofRegion ++ Event.record r p :: ev2 := g1
      rw [g1', takeRecords_skips]
      have hsk : s'.skipped.take (s'.skipped.length - s.skipped.length) = sk.reverse := by
        rw [g3]; simp
      simp only [e, hsk, List.reverse_reverse, takeRecords, g4]
      rfl
    · refine ⟨s', ?_, g4.err⟩
      unfold readEvents RR.readRecord
      rw [g2]
      have g1' : (recordEvents s.chunkBegin rs).drop i ++ ev' = sk.map ofRegion := g1
      rw [g1']
      have hsk : s'.skipped.take (s'.skipped.length - s.skipped.length) = sk.reverse := by
        rw [g3]; simp
      simp only [hsk, List.reverse_reverse]
      have := takeRecords_skips n sk []
      simp only [List.append_nil] at this
      rw [this]
      simp only [takeRecords, List.append_nil]
      rfl

/-! ## There is always an outcome -/

theorem nextBlock_exists (pos : Nat) : ∃ b, NextBlock pos b := by
  have key : ∀ b, pos ≤ b → usable pos b = usableTo b - usableTo pos := fun b h => usable_eq h
  have zero : ∀ b, b ≤ pos → usable pos b = 0 := by
    intro b h; unfold usable; rw [show b - pos = 0 by omega]; rfl
  by_cases h : 40 ≤ usable pos ((pos / 65536 + 1) * 65536)
  · refine ⟨(pos / 65536 + 1) * 65536, by omega, h, ?_⟩
    rw [zero _ (by omega)]; omega
  · refine ⟨(pos / 65536 + 2) * 65536, by omega, ?_, ?_⟩
    · rw [key _ (by omega)]; unfold usableTo; omega
    · rw [show (pos / 65536 + 2) * 65536 - 65536 = (pos / 65536 + 1) * 65536 by omega]; omega

theorem split_exists (pos b : Nat) (d : Chunk × Bytes) : ∀ (ds : List (Chunk × Bytes)), ∃ lost rest, ds = lost ++ rest ∧
    (∀ p x q, lost = p ++ x :: q → fileEnd pos ((d :: p).map Prod.fst) < b) ∧
    (rest ≠ [] → b ≤ fileEnd pos ((d :: lost).map Prod.fst)) := by
  intro ds
  induction ds generalizing d pos with
  | nil => exact ⟨[], [], rfl, by simp, by simp⟩
  | cons d' ds ih =>
    by_cases h : b ≤ fileEnd pos ([d].map Prod.fst)
    · exact ⟨[], d' :: ds, rfl, by simp, fun _ => h⟩
    · obtain ⟨lost, rest, h1, h2, h3⟩ := ih (d.1.endAt pos) d'
      refine ⟨d' :: lost, rest, by rw [h1]; rfl, ?_, h3⟩
      intro p x q hp
      cases p with
      | nil => exact Nat.lt_of_not_le h
      | cons y p =>
        injection hp with e1 e2
        subst e1
        exact h2 p x q e2

theorem outcome_exists : ∀ (n : Nat) (ds : List (Chunk × Bytes)) (pos : Nat), ds.length ≤ n →
    (∀ d ∈ ds, (Intact d ∧ ((∃ rs, DecodesTo parse d.1 rs) ∨ parse d.1 = none)) ∨ DataDamaged H d ∨ HeaderDamaged H d) →
    ∃ ev, Outcome H parse pos ds ev
  | _, [], pos, _, _ => ⟨[], .done pos⟩
  | 0, _ :: _, _, h, _ => by simp at h
  | n + 1, d :: ds, pos, h, hd => by
    have hl : ds.length ≤ n := by simpa using h
    rcases hd d (by simp) with ⟨hi, ⟨rs, hr⟩ | hr⟩ | hi | hi
    · obtain ⟨ev, ho⟩ := outcome_exists n ds (d.1.endAt pos) hl (fun x hx => hd x (by simp [hx]))
      exact ⟨_, .intact pos d ds rs ev hi hr ho⟩
    · obtain ⟨ev, ho⟩ := outcome_exists n ds (d.1.endAt pos) hl (fun x hx => hd x (by simp [hx]))
      exact ⟨_, .undecodable pos d ds ev hi hr ho⟩
    · obtain ⟨ev, ho⟩ := outcome_exists n ds (d.1.endAt pos) hl (fun x hx => hd x (by simp [hx]))
      exact ⟨_, .data pos d ds ev hi ho⟩
    · obtain ⟨b, hb⟩ := nextBlock_exists pos
      obtain ⟨lost, rest, h1, h2, h3⟩ := split_exists pos b d ds
      have hrl : rest.length ≤ n := by
        have := congrArg List.length h1
        rw [List.length_append] at this; omega
      obtain ⟨ev, ho⟩ := outcome_exists n rest (fileEnd pos ((d :: lost).map Prod.fst)) hrl
        (fun x hx => hd x (by rw [h1]; simp [hx]))
      refine ⟨.skipped pos (fileEnd pos ((d :: lost).map Prod.fst)) :: ev, ?_⟩
      rw [h1]
      exact Outcome.header pos b d lost rest ev hi hb h2 h3 ho

/-! ## Damage to one chunk -/

theorem found_append (F' : Bytes) : ∀ (a b : List Chunk) (pos : Nat),
    found F' pos (a ++ b) = found F' pos a ++ found F' (fileEnd pos a) b
  | [], _, _ => rfl
  | c :: a, b, pos => by simp [found, fileEnd, found_append F' a b]

theorem found_fst (F' : Bytes) : ∀ (a : List Chunk) (pos : Nat), (found F' pos a).map Prod.fst = a
  | [], _ => rfl
  | c :: a, pos => by simp [found, found_fst F' a]

theorem payload_congr {F F' : Bytes} {a b : Nat} (h : ∀ p, a ≤ p → p < b → F'[p]? = F[p]?) :
    payload F' a b = payload F a b := by
  unfold payload
  apply List.map_congr_left
  intro p hp
  rw [List.mem_filter, List.mem_range'_1] at hp
  rw [List.getD_eq_getElem?_getD, List.getD_eq_getElem?_getD, h p hp.1.1 (by omega)]

theorem ChunkAt.segAt {F : Bytes} {cb : Nat} {c : Chunk} (hc : ChunkAt H F cb c) :
    SegAt H F cb (c.endAt cb) (c.header ++ c.data) := by
  refine ⟨hc.hb, hc.holds.1, hc.holds.gt, ?_, hc.lt, hc.len, hc.seg⟩
  have := hc.holds.2.2.1
  rw [hc.dsize] at this
  rw [List.length_append, hc.hlen]; exact this

/-- The position of the i-th payload byte. -/
theorem position_exists {cb ce i : Nat} (hle : cb ≤ ce) (hi : i < usable cb ce) :
    ∃ p, cb ≤ p ∧ p < ce ∧ 24 ≤ p % 65536 ∧ usable cb p = i := by
  have hgen : ∀ n, i < usable cb (cb + n) → ∃ p, cb ≤ p ∧ p < cb + n ∧ 24 ≤ p % 65536 ∧ usable cb p = i := by
    intro n
    induction n with
    | zero => intro h; simp [usable] at h
    | succ n ih =>
      intro h
      have hadd := congrArg List.length (payload_add (F := []) (a := cb) (b := cb + n) (c := cb + (n + 1)) (by omega) (by omega))
      rw [List.length_append, payload_length, payload_length, show cb + (n + 1) = cb + n + 1 from rfl, payload_step] at hadd
      by_cases hlt : i < usable cb (cb + n)
      · obtain ⟨p, q1, q2, q3, q4⟩ := ih hlt
        exact ⟨p, q1, by omega, q3, q4⟩
      · have h' : i < usable cb (cb + n + 1) := h
        by_cases h24 : 24 ≤ (cb + n) % 65536
        · rw [if_pos h24] at hadd
          simp only [List.length_singleton] at hadd
          exact ⟨cb + n, by omega, by omega, h24, by omega⟩
        · rw [if_neg h24] at hadd
          simp only [List.length_nil] at hadd
          omega
  obtain ⟨p, q1, q2, q3, q4⟩ := hgen (ce - cb) (by rw [show cb + (ce - cb) = ce by omega]; exact hi)
  exact ⟨p, q1, by omega, q3, q4⟩

theorem payload_take_congr {F F' : Bytes} {cb ce k : Nat} (hle : cb ≤ ce)
    (h : ∀ p, cb ≤ p → p < ce → 24 ≤ p % 65536 → usable cb p < k → F'[p]? = F[p]?) :
    (payload F' cb ce).take k = (payload F cb ce).take k := by
  apply List.ext_getElem?
  intro i
  rw [List.getElem?_take, List.getElem?_take]
  split
  · by_cases hi : i < usable cb ce
    · obtain ⟨p, q1, q2, q3, q4⟩ := position_exists hle hi
      have h1 := payload_getElem? (F := F) q1 q2 q3
      have h2 := payload_getElem? (F := F') q1 q2 q3
      rw [q4] at h1 h2
      rw [h1, h2, List.getD_eq_getElem?_getD, List.getD_eq_getElem?_getD, h p q1 q2 q3 (by omega)]
    · rw [List.getElem?_eq_none (by rw [payload_length]; omega), List.getElem?_eq_none (by rw [payload_length]; omega)]
  · rfl

/-- Only one chunk occupies a position. -/
theorem chunk_unique {cs pre post pre' post' : List Chunk} {c c' : Chunk} {p : Nat} (hl : ChunksLaid H 0 cs)
    (e : cs = pre ++ c :: post) (e' : cs = pre' ++ c' :: post')
    (h1 : fileEnd 0 pre ≤ p) (h2 : p < c.endAt (fileEnd 0 pre))
    (h1' : fileEnd 0 pre' ≤ p) (h2' : p < c'.endAt (fileEnd 0 pre')) : pre = pre' ∧ c = c' := by
  have hend : ∀ (x : List Chunk) (y : Chunk), fileEnd 0 (x ++ [y]) = y.endAt (fileEnd 0 x) := by
    intro x y; rw [fileEnd_append]; rfl
  have key : ∀ {pre post pre' post' : List Chunk} {c c' : Chunk}, cs = pre ++ c :: post → cs = pre' ++ c' :: post' →
      p < c.endAt (fileEnd 0 pre) → fileEnd 0 pre' ≤ p → ∀ a, pre' = pre ++ a → a = [] := by
    intro pre post pre' post' c c' e e' h2 h1' a ha
    cases a with
    | nil => rfl
    | cons x a =>
      exfalso
      have hx : x = c := by
        rw [e, ha] at e'
        simp at e'; exact e'.1.symm
      have hp : pre' = (pre ++ [c]) ++ a := by rw [ha, hx]; simp
      rw [e', hp, chunksLaid_append] at hl
      have := SeekP.fileEnd_le hl.1
      rw [← hp, hend] at this
      omega
  have e2 : pre ++ c :: post = pre' ++ c' :: post' := by rw [← e, e']
  have hpp : pre = pre' := by
    rcases List.append_eq_append_iff.1 e2 with ⟨a, e1, _⟩ | ⟨a, e1, _⟩
    · have := key e e' h2 h1' a e1
      rw [this, List.append_nil] at e1; exact e1.symm
    · have := key e' e h2' h1 a e1
      rw [this, List.append_nil] at e1; exact e1
  subst hpp
  simp at e2
  exact ⟨rfl, e2.1⟩

theorem found_original {F : Bytes} {cb : Nat} {c : Chunk} (hc : ChunkAt H F cb c) :
    foundPayload F cb (c.endAt cb) c.data.length = c.header ++ c.data := by
  have hgt := hc.holds.gt
  have hu := (ChunkAt.segAt hc).u
  have hl : (c.header ++ c.data).length = 40 + c.data.length := by rw [List.length_append, hc.hlen]
  obtain ⟨h1, h2⟩ := segAt_found (H := H) (F := F) (F' := F) hc rfl (fun _ _ => rfl) (fun _ _ _ _ => rfl)
  apply List.ext_getElem?
  intro i
  by_cases hi : i < 40 + c.data.length
  · rw [foundPayload_eq, List.getElem?_take, if_pos hi]
    obtain ⟨p, q1, q2, q3, q4⟩ := position_exists (cb := cb) (ce := c.endAt cb) (i := i) (by omega) (by omega)
    have hg := payload_getElem? (F := F) q1 q2 q3
    rw [q4] at hg
    rw [hg]
    have hF : F[p]? = some (chunkByte H cb (c.endAt cb) (c.header ++ c.data) p) := by
      apply slice_one
      rw [hc.seg p 1 q1 (by omega)]
      simp [chunkSeg]
    rw [List.getD_eq_getElem?_getD, hF, chunkByte, if_neg (by omega), q4, List.getD_eq_getElem?_getD,
      List.getElem?_eq_getElem (by omega)]
    rfl
  · rw [List.getElem?_eq_none (by omega), List.getElem?_eq_none (by omega)]

theorem outcome_append (recs : Chunk → List Bytes) {ds2 : List (Chunk × Bytes)} {ev : List Event} :
    ∀ (ds1 : List (Chunk × Bytes)) (pos : Nat),
    (∀ d ∈ ds1, Intact d ∧ DecodesTo parse d.1 (recs d.1)) →
    Outcome H parse (fileEnd pos (ds1.map Prod.fst)) ds2 ev →
    Outcome H parse pos (ds1 ++ ds2) (allRecords recs pos (ds1.map Prod.fst) ++ ev)
  | [], pos, _, h => h
  | d :: ds1, pos, hi, h => by
    have ih := outcome_append recs ds1 (d.1.endAt pos) (fun x hx => hi x (by simp [hx])) h
    have := hi d (by simp)
    simp only [List.map_cons, allRecords, List.append_assoc, List.cons_append]
    exact Outcome.intact pos d _ _ _ this.1 this.2 ih

end

end Dmg
end Riegeli

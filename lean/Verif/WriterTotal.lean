import Verif.RecordWriter
/-!
# The writer does not fail below the size limits

Used to show that the hypotheses of the round-trip theorems are met by every history of moderate total size.
-/
namespace Riegeli

/-- Assumption on the compression libraries: they do not blow up their input. -/
def Codec.Bounded (C : Codec) : Prop := ∀ t d, (C.compress t d).length ≤ 2 * d.length + 1000

/-- Padding options for which padding always works: none, a multiple of the block size, or a divisor of the block
size which is at least 64. -/
def SafePadding (p : Nat) : Prop := p ≤ 1 ∨ 65536 ∣ p ∨ (p ∣ 65536 ∧ 64 ≤ p)

/-- Upper bound for the space used by an operation. -/
def WOp.cost (finalPadding : Nat) : WOp → Nat
  | .write r => 4 * (r.length + 11) + 20000
  | .flush => 20000 + 2 * finalPadding

/-- Upper bound for the space used by a whole session beginning at position `pos`. -/
def sessionCost (o : WOpts) (pos : Nat) (ops : List WOp) : Nat :=
  pos + 20000 + 2 * o.initialPadding + 2 * o.finalPadding + 20000 +
  (match o.metadata with | none => 0 | some (d, _) => 2 * d.length) +
  (ops.map (WOp.cost o.finalPadding)).sum

/-- Multiples of a safe padding are possible chunk boundaries. -/
theorem safePadding_boundary {p e : Nat} (hs : 65536 ∣ p ∨ (p ∣ 65536 ∧ 64 ≤ p)) (h : p ∣ e) :
    e % 65536 = 0 ∨ 64 ≤ e % 65536 := by
  rcases hs with hs | ⟨hs, h64⟩
  · left; exact Nat.mod_eq_zero_of_dvd (Nat.dvd_trans hs h)
  · by_cases h0 : e % 65536 = 0
    · exact Or.inl h0
    · right
      have : p ∣ e % 65536 := (Nat.dvd_mod_iff hs).2 h
      have := Nat.le_of_dvd (by omega) this
      omega

theorem padTarget_exists {pos p : Nat} (h : 65536 ∣ p ∨ (p ∣ 65536 ∧ 64 ≤ p)) (hp : 1 < p) :
    ∃ e, PadTarget pos p e ∧ e ≤ pos + 2 * p := by
  have h40 : 40 ≤ p := by
    rcases h with h | h
    · have := Nat.le_of_dvd (by omega) h; omega
    · omega
  have hb := safePadding_boundary h (⟨pos / p + 2, rfl⟩ : p ∣ p * (pos / p + 2))
  have := Nat.div_add_mod pos p
  have := Nat.mod_lt pos (show p > 0 by omega)
  refine ⟨p * (pos / p + 2), ⟨⟨_, rfl⟩, ?_, ?_⟩, ?_⟩
  · unfold BoundaryOk; omega
  · rw [Nat.mul_add]; omega
  · rw [Nat.mul_add]; omega

/-- Room for the padding chunk. -/
theorem usable_block_end {pos e : Nat} (hb : BoundaryOk pos) (h0 : pos % 65536 ≠ 0 ∨ e % 65536 = 0)
    (h : e % 65536 = 0 ∨ 64 ≤ e % 65536) (hle : pos + 40 ≤ e) :
    40 ≤ usable pos e := by
  have := usable_add_usableTo (show pos ≤ e by omega)
  unfold BoundaryOk at hb
  unfold usableTo at this
  omega

theorem paddingToWrite_safe {H : Bytes → UInt64} {pos p : Nat} (hb : BoundaryOk pos) (hs : SafePadding p)
    (hlt : pos + 2 * p < 2 ^ 64) :
    paddingToWrite H pos p = .nothing ∨
    ∃ e, posAfterPadding pos p = some e ∧ e ≤ pos + 2 * p ∧ pos ≤ e ∧ BoundaryOk e ∧ 40 ≤ usable pos e ∧
      paddingToWrite H pos p = .chunk (paddingChunk H (usable pos e - 40)) := by
  by_cases hno : p ≤ 1 ∨ p ∣ pos
  · left
    unfold paddingToWrite
    rw [posAfterPadding_noop hno]; simp
  · right
    have h1 : 1 < p := by omega
    have h2 : ¬ p ∣ pos := fun h => hno (Or.inr h)
    have h3 : 65536 ∣ p ∨ (p ∣ 65536 ∧ 64 ≤ p) := by
      rcases hs with h | h
      · omega
      · exact h
    obtain ⟨e, ht, hle⟩ := padTarget_exists (pos := pos) h3 h1
    obtain ⟨y, y1, y2, y3, y4⟩ := posAfterPadding_spec h1 h2 (by omega) ht
    obtain ⟨t1, t2, t3⟩ := y2
    have hm := safePadding_boundary h3 t1
    have h0 : pos % 65536 ≠ 0 ∨ y % 65536 = 0 := by
      rcases h3 with h | h
      · exact Or.inr (Nat.mod_eq_zero_of_dvd (Nat.dvd_trans h t1))
      · exact Or.inl (fun h0 => h2 (Nat.dvd_trans h.1 (Nat.dvd_of_mod_eq_zero h0)))
    have hu := usable_block_end hb h0 hm t3
    refine ⟨y, y1, by omega, by omega, t2, hu, ?_⟩
    unfold paddingToWrite
    rw [y1]
    simp only
    rw [if_neg (by omega), distanceWithoutOverhead_eq (by omega), if_neg (by omega)]

theorem exactChunkEnd_le (d n cb : Nat) : exactChunkEnd d n cb ≤ cb + 2 * d + n + 300 := by
  unfold exactChunkEnd
  split <;> omega

theorem exactChunkEnd_least {d n cb e : Nat} (hb : BoundaryOk cb) (h : HoldsChunk d n cb e) :
    exactChunkEnd d n cb ≤ e := by
  obtain ⟨h1, h2, h3, h4⟩ := h
  have hR : (if (cb + n) % 65536 = 0 ∨ 24 < (cb + n) % 65536 then cb + n
      else cb + n + (25 - (cb + n) % 65536)) ≤ e := by
    unfold BoundaryOk at h1
    split <;> omega
  have hA : cb + (40 + d) + ((40 + d) + (cb + 65511) % 65536) / 65512 * 24 ≤ e := by
    generalize hA : cb + (40 + d) + ((40 + d) + (cb + 65511) % 65536) / 65512 * 24 = A
    obtain ⟨a1, a2, a3, a4⟩ := overheadFormula_spec (cb := cb) (len := 40 + d) hb (by omega) hA.symm
    have hUe := usable_add_usableTo h2
    apply Nat.le_of_not_lt; intro hc
    have : usableTo e ≤ usableTo (A - 1) := usableTo_mono (by omega)
    have : usableTo (A - 1) + 1 = usableTo A := by
      unfold usableTo; omega
    omega
  unfold exactChunkEnd
  exact Nat.max_le.2 ⟨hA, hR⟩

section
variable {σ : Type} {E : Encoder σ} {H : Bytes → UInt64} {o : WOpts}
  {parse : Chunk → Option (List Nat × Bytes)}

/-- An encoder which does not fail below the limits, and whose output is not much larger than the records. -/
structure Encoder.Total (E : Encoder σ) : Prop where
  add : ∀ rs s r, E.addAll E.empty rs = some s → rs.length < kMaxNumRecords →
    (rs ++ [r]).flatten.length < 2 ^ 63 → (E.add s r).isSome
  finish : ∀ rs s, E.addAll E.empty rs = some s → rs.flatten.length < 2 ^ 63 →
    ∃ data typ dec, E.finish s = some (data, typ, dec) ∧
      data.length ≤ 2 * (rs.map (fun r => r.length + 10)).sum + 3000

theorem putChunk_succeeds {w : RW σ} {data : Bytes} {typ : UInt8} {n dec : Nat} (hd : data.length < 2 ^ 64)
    (hn : n < 2 ^ 56) (hlt : w.pos + 2 * data.length + n + 300 < 2 ^ 64) :
    ∃ w', w.putChunk H (mkChunk H data typ n dec) = some w' := by
  have hx := exactChunkEnd_le (Hdr.dataSize (mkChunk H data typ n dec).header)
    (Hdr.numRecords (mkChunk H data typ n dec).header) w.pos
  have h1 : Hdr.dataSize (mkChunk H data typ n dec).header = data.length :=
    mkChunkHeader_dataSize _ _ _ _ _ hd
  have h2 : Hdr.numRecords (mkChunk H data typ n dec).header = n := mkChunkHeader_numRecords _ _ _ _ _ hn
  unfold RW.putChunk
  split
  · exact ⟨_, rfl⟩
  · omega

theorem putChunk_pos {w w' : RW σ} {data : Bytes} {typ : UInt8} {n dec : Nat} (hd : data.length < 2 ^ 64)
    (hn : n < 2 ^ 56) (hb : BoundaryOk w.pos)
    (h : w.putChunk H (mkChunk H data typ n dec) = some w') : w'.pos ≤ w.pos + 2 * data.length + n + 300 := by
  unfold RW.putChunk at h
  split at h
  · rename_i hlt
    have hh := exactChunkEnd_holds (d := Hdr.dataSize (mkChunk H data typ n dec).header)
      (n := Hdr.numRecords (mkChunk H data typ n dec).header) hb
    have hs := endAt_spec (c := mkChunk H data typ n dec) hb ⟨_, hlt, hh⟩
    rw [writeChunk_eq (mkChunk_wf H data typ n dec hd) hb hs.1] at h
    simp only [Option.some.injEq] at h
    subst h
    simp only
    have h1 := (chunkEnd_spec hb hlt hh).2
    have h2 := exactChunkEnd_le (Hdr.dataSize (mkChunk H data typ n dec).header)
      (Hdr.numRecords (mkChunk H data typ n dec).header) w.pos
    simp only [mkChunk] at h1 h2
    rw [mkChunkHeader_dataSize _ _ _ _ _ hd, mkChunkHeader_numRecords _ _ _ _ _ hn] at h1 h2
    unfold Chunk.endAt
    simp only [mkChunk]
    rw [mkChunkHeader_dataSize _ _ _ _ _ hd, mkChunkHeader_numRecords _ _ _ _ _ hn]
    omega
  · simp at h

theorem pad_succeeds {w : RW σ} {p : Nat} (hb : BoundaryOk w.pos) (hs : SafePadding p)
    (hlt : w.pos + 2 * p < 2 ^ 64) : ∃ w', w.pad H p = some w' ∧ w'.pos ≤ w.pos + 2 * p := by
  unfold RW.pad
  rcases paddingToWrite_safe (H := H) hb hs hlt with h | ⟨e, _, h2, h3, h4, h5, h6⟩
  · rw [h]; exact ⟨w, rfl, by omega⟩
  · rw [h6]
    simp only
    have hend := paddingChunk_end (H := H) hb (by omega) h4 h3 h5
    have hle : usable w.pos e ≤ e - w.pos := by
      unfold usable
      refine Nat.le_trans (List.length_filter_le _ _) ?_
      simp
    have hhold : HoldsChunk (Hdr.dataSize (paddingChunk H (usable w.pos e - 40)).header)
        (Hdr.numRecords (paddingChunk H (usable w.pos e - 40)).header) w.pos e := by
      rw [paddingChunk_numRecords, paddingChunk_dataSize _ (by omega)]; exact hend.1
    unfold RW.putChunk
    have hx : exactChunkEnd (Hdr.dataSize (paddingChunk H (usable w.pos e - 40)).header)
        (Hdr.numRecords (paddingChunk H (usable w.pos e - 40)).header) w.pos ≤ e := by
      rw [paddingChunk_numRecords, paddingChunk_dataSize _ (by omega)]
      exact exactChunkEnd_least hb hend.1
    have hy := Nat.lt_of_le_of_lt hx (show e < 2 ^ 64 by omega)
    split
    case isFalse hno => exact absurd hy hno
    have hwf : WFChunk H (paddingChunk H (usable w.pos e - 40)) := paddingChunk_wf (by omega)
    have hs := endAt_spec (c := paddingChunk H (usable w.pos e - 40)) hb ⟨e, by omega, hhold⟩
    rw [writeChunk_eq hwf hb hs.1]
    refine ⟨_, rfl, ?_⟩
    simp only
    rw [hend.2]; exact h2

/-- Space needed for records not yet written to the file. -/
def recCost (rs : List Bytes) : Nat := (rs.map (fun r => 4 * (r.length + 11))).sum

theorem recCost_bounds (rs : List Bytes) :
    rs.flatten.length ≤ recCost rs ∧ 44 * rs.length ≤ recCost rs ∧
    4 * (rs.map (fun r => r.length + 10)).sum + rs.length ≤ recCost rs := by
  unfold recCost
  induction rs with
  | nil => simp
  | cons r rs ih =>
    simp only [List.flatten_cons, List.length_append, List.length_cons, List.map_cons, List.sum_cons]
    omega

theorem closeChunk_succeeds (hE : E.Correct H parse) (hT : E.Total) {cs : List Chunk} {opened : List Bytes}
    {w : RW σ} (h : WInv E H parse cs opened w) (hlt : w.pos + recCost opened + 8000 < 2 ^ 58) :
    ∃ w', w.closeChunk E H = some w' ∧ w'.pos ≤ w.pos + recCost opened + 8000 := by
  obtain ⟨r1, r2, r3⟩ := recCost_bounds opened
  obtain ⟨data, typ, dec, f1, f2⟩ := hT.finish _ _ h.enc (by omega)
  have hn := (hE.num _ _ h.enc).1
  unfold RW.closeChunk
  rw [f1]
  simp only [hn]
  rw [if_pos (by omega)]
  obtain ⟨w', p1⟩ := putChunk_succeeds (H := H) (w := w) (data := data) (typ := typ) (n := opened.length)
    (dec := dec) (by omega) (by omega) (by omega)
  have p2 := putChunk_pos (by omega) (by omega) h.out.boundary p1
  rw [p1]
  exact ⟨_, rfl, by simp only; omega⟩

theorem finishChunk_succeeds (hE : E.Correct H parse) (hT : E.Total) (hs : SafePadding o.finalPadding)
    {cs : List Chunk} {opened : List Bytes} {w : RW σ} (h : WInv E H parse cs opened w)
    (hlt : w.pos + recCost opened + 8000 + 2 * o.finalPadding < 2 ^ 58) :
    ∃ w', w.finishChunk E H o = some w' ∧ w'.pos ≤ w.pos + recCost opened + 8000 + 2 * o.finalPadding := by
  unfold RW.finishChunk
  simp only
  by_cases hsf : w.soFar > 0
  · rw [if_pos hsf]
    have hi : WInv E H parse cs opened
        (if w.last = .valid then { w with last := .validAt (w.workerLastPos E) } else w) := by
      split
      · exact h.setLast _
      · exact h
    have hp : (if w.last = .valid then { w with last := .validAt (w.workerLastPos E) } else w).pos = w.pos := by
      split <;> rfl
    obtain ⟨w1, c1, c2⟩ := closeChunk_succeeds hE hT hi (by rw [hp]; omega)
    rw [hp] at c2
    obtain ⟨cs1, d1, _⟩ := closeChunk_spec hE hi c1
    rw [c1]
    simp only
    obtain ⟨w2, e1, e2⟩ := pad_succeeds (H := H) (w := { w1 with soFar := 0 }) d1.out.boundary hs
      (by simp only; omega)
    exact ⟨w2, e1, by simp only at e2; omega⟩
  · rw [if_neg hsf]
    simp only
    obtain ⟨w2, e1, e2⟩ := pad_succeeds (H := H) (w := w) h.out.boundary hs (by omega)
    exact ⟨w2, e1, by omega⟩

theorem recCost_snoc (rs : List Bytes) (r : Bytes) : recCost (rs ++ [r]) = recCost rs + 4 * (r.length + 11) := by
  simp [recCost]

theorem writeRecord_succeeds (hE : E.Correct H parse) (hT : E.Total)
    {cs : List Chunk} {opened : List Bytes} {w : RW σ} {r : Bytes} (h : WInv E H parse cs opened w)
    (hlt : w.pos + recCost opened + 4 * (r.length + 11) + 20000 < 2 ^ 58) :
    ∃ w' cs' opened', w.writeRecord E H o r = some w' ∧ WInv E H parse cs' opened' w' ∧
      w'.pos + recCost opened' ≤ w.pos + recCost opened + 4 * (r.length + 11) + 20000 := by
  -- the first step
  have step1 : ∃ w1 cs1 opened1, (if w.soFar + (r.length + 8) > o.desired ∧ w.soFar > 0 then
      match RW.closeChunk E H { w with last := .invalid } with
      | none => none
      | some w => some { w with soFar := 0 }
    else some { w with last := .invalid }) = some w1 ∧ WInv E H parse cs1 opened1 w1 ∧
      w1.pos + recCost opened1 ≤ w.pos + recCost opened + 8000 := by
    split
    · obtain ⟨w1, c1, c2⟩ := closeChunk_succeeds hE hT (h.setLast .invalid) (by simp only; omega)
      obtain ⟨cs1, d1, _⟩ := closeChunk_spec hE (h.setLast .invalid) c1
      rw [c1]
      exact ⟨_, cs1, [], rfl, d1, by simp only [recCost, List.map_nil, List.sum_nil] at *; omega⟩
    · exact ⟨_, cs, opened, rfl, h.setLast _, by simp only; omega⟩
  obtain ⟨w1, cs1, opened1, a1, a2, a3⟩ := step1
  obtain ⟨r1, r2, r3⟩ := recCost_bounds opened1
  obtain ⟨q1, q2, q3⟩ := recCost_bounds (opened1 ++ [r])
  rw [recCost_snoc] at q1 q2 q3
  have hadd := hT.add opened1 w1.enc r a2.enc (by unfold kMaxNumRecords; omega) (by omega)
  obtain ⟨enc, henc⟩ := Option.isSome_iff_exists.1 hadd
  unfold RW.writeRecord
  simp only
  split
  · rename_i heq
    exact absurd (a1.symm.trans heq) (by simp)
  rename_i w1' heq
  have hww := Option.some.inj (a1.symm.trans heq)
  subst hww
  simp only [henc]
  by_cases hcl : w1.soFar + (r.length + 8) + 8 > o.desired
  · rw [if_pos hcl]
    obtain ⟨i1, i2⟩ := addRecord_spec hE a2 henc w1.last
    have i3 := i1.setLast (.validAt ⟨fileEnd 0 cs1, opened1.length⟩)
    obtain ⟨w2, c1, c2⟩ := closeChunk_succeeds hE hT i3 (by simp only [recCost_snoc]; omega)
    obtain ⟨cs2, d1, _⟩ := closeChunk_spec hE i3 c1
    rw [i2, c1]
    refine ⟨_, cs2, [], rfl, d1, ?_⟩
    simp only [recCost_snoc] at c2
    simp only [recCost, List.map_nil, List.sum_nil] at *; omega
  · rw [if_neg hcl]
    obtain ⟨i1, i2⟩ := addRecord_spec hE a2 henc .valid
    exact ⟨_, cs1, opened1 ++ [r], rfl, i1, by simp only [recCost_snoc]; omega⟩

theorem run_succeeds (hE : E.Correct H parse) (hT : E.Total) (hpd : ∀ n, DecodesTo parse (paddingChunk H n) [])
    (hs : SafePadding o.finalPadding) (ops : List WOp) : ∀ {cs : List Chunk} {opened : List Bytes} {w : RW σ},
    WInv E H parse cs opened w →
    w.pos + recCost opened + (ops.map (WOp.cost o.finalPadding)).sum < 2 ^ 58 →
    ∃ log w' cs' opened', RW.run E H o ops w = some (log, w') ∧ WInv E H parse cs' opened' w' ∧
      w'.pos + recCost opened' ≤ w.pos + recCost opened + (ops.map (WOp.cost o.finalPadding)).sum := by
  induction ops with
  | nil => intro cs opened w h _; exact ⟨[], w, cs, opened, rfl, h, by omega⟩
  | cons op ops ih =>
    intro cs opened w h hlt
    simp only [List.map_cons, List.sum_cons] at hlt ⊢
    cases op with
    | write r =>
      simp only [WOp.cost] at hlt
      obtain ⟨w1, cs1, op1, a1, a2, a3⟩ := writeRecord_succeeds (o := o) (r := r) hE hT h (by omega)
      obtain ⟨log, w2, cs2, op2, b1, b2, b3⟩ := ih a2 (by omega)
      refine ⟨w1.lastPos E :: log, w2, cs2, op2, ?_, b2, by simp only [WOp.cost]; omega⟩
      simp only [RW.run, a1, b1]
    | flush =>
      simp only [WOp.cost] at hlt
      obtain ⟨w1, a1, a2⟩ := finishChunk_succeeds hE hT hs h (by omega)
      obtain ⟨cs1, a3, _⟩ := finishChunk_spec hE hpd h a1
      have a4 : WInv E H parse cs1 [] { w1 with flushed := w1.out.length } :=
        ⟨⟨a3.out.ok, a3.out.sig, a3.out.out, a3.out.pos, a3.out.dec⟩, a3.ne, a3.enc, a3.soFar⟩
      have h0 : recCost [] = 0 := rfl
      obtain ⟨log, w2, cs2, op2, b1, b2, b3⟩ := ih a4 (by simp only [h0]; omega)
      refine ⟨RW.lastPos E { w1 with flushed := w1.out.length } :: log, w2, cs2, op2, ?_, b2, by simp only [h0] at b3; simp only [WOp.cost]; omega⟩
      simp only [RW.run, RW.flush, a1, b1]

/-- A whole session on an empty destination succeeds if its total size is below `2^58`. -/
theorem session_succeeds (hE : E.Correct H parse) (hT : E.Total)
    (hpd : ∀ n, DecodesTo parse (paddingChunk H n) [])
    (hmd : ∀ data dec, DecodesTo parse (mkChunk H data kFileMetadata 0 dec) [])
    (hsg : DecodesTo parse (RW.signatureChunk H) [])
    (hs : SafePadding o.finalPadding) {ops : List WOp} (hlt : sessionCost o 0 ops < 2 ^ 58) :
    ∃ w0 log w1 w2, RW.init E H o [] = some w0 ∧ RW.run E H o ops w0 = some (log, w1) ∧
      w1.close E H o = some w2 := by
  unfold sessionCost at hlt
  have hinit : ∃ w0, RW.init E H o [] = some w0 ∧ w0.pos ≤ 20000 +
      (match o.metadata with | none => 0 | some (d, _) => 2 * d.length) := by
    unfold RW.init
    have hi : initPos ([] : Bytes).length = ([], 0) := by
      unfold initPos; rw [if_pos (by decide)]; rfl
    rw [hi]
    simp only [if_true, RW.putHeader, RW.signatureChunk]
    obtain ⟨w1, p1⟩ := putChunk_succeeds (H := H) (w := (⟨[] ++ [], 0, E.empty, 0, .invalid, 0⟩ : RW σ))
      (data := []) (typ := kFileSignature) (n := 0) (dec := 0) (by simp) (by omega) (by simp)
    have p2 := putChunk_pos (by simp) (by omega) boundaryOk_zero p1
    rw [p1]
    simp only [List.length_nil] at p2 ⊢
    cases hm : o.metadata with
    | none => exact ⟨w1, rfl, by simp only; omega⟩
    | some md =>
      obtain ⟨d, dec⟩ := md
      simp only [hm] at hlt ⊢
      rw [if_pos (by omega)]
      have hb1 : BoundaryOk w1.pos := by
        have h0 : OutIs H parse [] (⟨[] ++ [], 0, E.empty, 0, .invalid, 0⟩ : RW σ) :=
          ⟨trivial, by simp, rfl, rfl, by simp⟩
        have hsigs : IsSignature (RW.signatureChunk H) := by
          unfold IsSignature RW.signatureChunk
          simp only [mkChunk]
          refine ⟨?_, ?_, ?_, ?_⟩
          · rw [mkChunkHeader_dataSize _ _ _ _ _ (by simp)]; rfl
          · exact mkChunkHeader_chunkType _ _ _ _ _ (by omega)
          · exact mkChunkHeader_numRecords _ _ _ _ _ (by omega)
          · exact mkChunkHeader_decodedDataSize _ _ _ _ _ (by omega)
        exact (putChunk_spec h0 (mkChunk_wf H [] kFileSignature 0 0 (by simp)) hsg (fun _ => hsigs) p1).1.boundary
      obtain ⟨w2, q1⟩ := putChunk_succeeds (H := H) (w := w1) (data := d) (typ := kFileMetadata) (n := 0)
        (dec := dec) (by omega) (by omega) (by omega)
      have q2 := putChunk_pos (by omega) (by omega) hb1 q1
      exact ⟨w2, q1, by omega⟩
  obtain ⟨w0, a1, a2⟩ := hinit
  obtain ⟨cs0, b1, b2⟩ := init_empty_spec hmd hsg a1
  have h0 : recCost [] = 0 := rfl
  obtain ⟨log, w1, cs1, op1, c1, c2, c3⟩ := run_succeeds hE hT hpd hs ops b1.inv (by rw [h0]; omega)
  rw [h0] at c3
  obtain ⟨w2, d1, _⟩ := finishChunk_succeeds hE hT hs c2 (by omega)
  exact ⟨w0, log, w1, w2, a1, c1, d1⟩

end

/-- `SimpleEncoder` with a bounded compressor does not fail below the limits. -/
theorem simpleEncoder_total {C : Codec} (hB : C.Bounded) (t : UInt8) : (simpleEncoder C t).Total where
  add rs s r h hn hsz := by
    obtain ⟨h1, h2, rfl⟩ := simpleEncoder_addAll h
    simp only [simpleEncoder, SEnc.addRecord]
    rw [List.flatten_append, List.length_append, List.flatten_singleton] at hsz
    rw [if_neg (by omega), if_neg (by omega)]
    rfl
  finish rs s h hsz := by
    obtain ⟨h1, h2, rfl⟩ := simpleEncoder_addAll h
    refine ⟨_, _, _, rfl, ?_⟩
    have hs := sizes_length_le rs h2
    have hsum : (rs.map (fun r => r.length + 10)).sum = rs.flatten.length + 10 * rs.length := by
      clear h h1 h2 hsz hs
      induction rs with
      | nil => rfl
      | cons r rs ih =>
        simp only [List.map_cons, List.sum_cons, List.flatten_cons, List.length_append, List.length_cons, ih]
        omega
    rw [hsum]
    have hv : ∀ x, x < 2 ^ 64 → (writeVarint x).length ≤ 10 := fun x hx => maxLen_of_lt (w := 64) (by omega) hx
    unfold kMaxNumRecords at h1
    unfold SEnc.encode
    rw [encodeLengthPrefixed_eq (by simp only; omega)]
    simp only [List.length_append, List.length_singleton]
    have he : ∀ d : Bytes, d.length < 2 ^ 63 →
        (encodeCompressed C t d).length ≤ 2 * d.length + 1010 := by
      intro d hd
      unfold encodeCompressed
      split
      · rw [List.length_append]
        have := hv d.length (by omega)
        have := hB t d
        omega
      · omega
    have e1 := he (rs.flatMap (fun r => writeVarint r.length)) (by omega)
    have e2 := he rs.flatten hsz
    have e3 := hv (encodeCompressed C t (rs.flatMap (fun r => writeVarint r.length))).length (by omega)
    omega

end Riegeli

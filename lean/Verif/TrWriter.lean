import Verif.TrSafe
import Verif.RecordWriter
/-!
# Transposed chunks in files: `TransposeEncoder` as a `ChunkEncoder`, `TransposeDecoder` in `ChunkDecoder`
-/
namespace Riegeli.Tr

/-- `TransposeEncoder` as a `ChunkEncoder` (`transpose_encoder.cc:230-245`, `chunk_encoder.h`). -/
def transposeEncoder (C : Codec) (t : UInt8) (bucketSize : Nat) (O : HashOrder) : Encoder ESt where
  empty := ESt.empty
  add := ESt.addRecord
  num := ESt.numRecords
  finish s := (s.encode C t bucketSize O).map (fun data => (data, kTransposed, s.decodedDataSize))

/-- `TransposeDecoder` in `ChunkDecoder::Parse` (`chunk_decoder.cc:139-156`), with all fields included. -/
def tdecode (C : Codec) (data : Bytes) (n size : Nat) : Option (List Nat × Bytes) := (decode C [[]] data n size).bind id

/-- The chunks are of less than `2^29` bytes and records: other ones are not considered. -/
def capped (C : Codec) (t : UInt8) (bucketSize : Nat) (O : HashOrder) : Encoder ESt :=
  { transposeEncoder C t bucketSize O with
    finish := fun s => if s.decodedDataSize + s.numRecords < 2 ^ 29 then (transposeEncoder C t bucketSize O).finish s else none }

theorem addLoop_counts (s : ESt) (parent : Nat) (frames : List Frame) (groups : List Nat) (src : Bytes) :
    ∀ s', addLoop s parent frames groups src = some s' →
      s'.numRecords = s.numRecords ∧ s'.decodedDataSize = s.decodedDataSize := by
  fun_induction addLoop s parent frames groups src <;> intro s' h
  all_goals try (first | cases h; done)
  case case1 => cases h; exact ⟨rfl, rfl⟩
  all_goals
    rename_i ih
    exact ih s' h

theorem addRecord_counts {s s' : ESt} {r : Bytes} (h : s.addRecord r = some s') :
    s.numRecords ≠ kMaxNumRecords ∧ s'.numRecords = s.numRecords + 1 ∧ s'.decodedDataSize = s.decodedDataSize + r.length := by
  unfold ESt.addRecord at h
  split at h
  · cases h
  rename_i hn
  split at h
  · cases h
  simp only at h
  split at h
  · obtain ⟨h1, h2⟩ := addLoop_counts _ _ _ _ _ _ h
    exact ⟨hn, h1, h2⟩
  · cases h; exact ⟨hn, rfl, rfl⟩

theorem addAll_counts : ∀ (rs : List Bytes) {s s' : ESt}, s.addAll rs = some s' → s.numRecords ≤ kMaxNumRecords →
    s'.numRecords = s.numRecords + rs.length ∧ s'.decodedDataSize = s.decodedDataSize + rs.flatten.length ∧
    s'.numRecords ≤ kMaxNumRecords
  | [], s, s', h, hn => by cases h; simp [hn]
  | r :: rs, s, s', h, hn => by
    unfold ESt.addAll at h
    cases h1 : s.addRecord r with
    | none => rw [h1] at h; cases h
    | some s1 =>
      rw [h1] at h
      obtain ⟨a1, a2, a3⟩ := addRecord_counts h1
      obtain ⟨b1, b2, b3⟩ := addAll_counts rs h (by omega)
      simp only [List.length_cons, List.flatten_cons, List.length_append]
      exact ⟨by omega, by omega, b3⟩

theorem addAll_encoder (E : Encoder ESt) (h : E.add = ESt.addRecord) (rs : List Bytes) : ∀ s : ESt, E.addAll s rs = s.addAll rs := by
  induction rs with
  | nil => intro s; rfl
  | cons r rs ih =>
    intro s
    simp only [Encoder.addAll, ESt.addAll, h]
    congr 1
    funext s'
    exact ih s'

/-- The chunk made of a transposed encoding. -/
theorem transposed_decodesTo {C : Codec} {H : Bytes → UInt64} {rs : List Bytes} {data : Bytes} (hn : rs.length < 2 ^ 56)
    (hsz : rs.flatten.length < 2 ^ 64)
    (hd : decode C [[]] data rs.length rs.flatten.length = some (some (limitsFrom 0 rs, rs.flatten))) :
    DecodesTo (parseChunk C (tdecode C)) (mkChunk H data kTransposed rs.length rs.flatten.length) rs := by
  refine ⟨?_, ?_⟩
  · unfold parseChunk
    simp only [mkChunk, mkChunkHeader_chunkType H _ kTransposed _ _ hn,
      mkChunkHeader_numRecords H _ kTransposed _ _ hn, mkChunkHeader_decodedDataSize H _ kTransposed _ _ hsz]
    rw [if_neg (by decide), if_neg (by decide), if_neg (by decide), if_neg (by decide), if_pos trivial]
    unfold tdecode
    rw [hd]; rfl
  · simp only [mkChunk]; rw [mkChunkHeader_numRecords H _ kTransposed _ _ hn]

theorem capped_correct {C : Codec} (hC : C.Lawful) {t : UInt8} (ht : knownCompression t = true) (bucketSize : Nat)
    (O : HashOrder) (H : Bytes → UInt64) : (capped C t bucketSize O).Correct H (parseChunk C (tdecode C)) where
  num rs s h := by
    rw [addAll_encoder _ rfl] at h
    obtain ⟨h1, _, h3⟩ := addAll_counts rs h (Nat.zero_le _)
    rw [show ESt.numRecords (capped C t bucketSize O).empty = 0 from rfl, Nat.zero_add] at h1
    exact ⟨h1, by omega⟩
  finish rs s data typ dec h hf hd := by
    rw [addAll_encoder _ rfl] at h
    obtain ⟨h1, h2, h3⟩ := addAll_counts rs h (Nat.zero_le _)
    rw [show ESt.numRecords (capped C t bucketSize O).empty = 0 from rfl, Nat.zero_add] at h1
    rw [show ESt.decodedDataSize (capped C t bucketSize O).empty = 0 from rfl, Nat.zero_add] at h2
    simp only [capped] at hf
    split at hf
    · rename_i hlt
      obtain ⟨s', data', k1, k2, k3, k4, _, k5⟩ := decode_encode hC ht bucketSize O rs (by omega)
      rw [show (capped C t bucketSize O).empty = ESt.empty from rfl] at h
      rw [h] at k1
      cases k1
      simp only [transposeEncoder, k4, Option.map_some, Option.some.injEq, Prod.mk.injEq] at hf
      obtain ⟨rfl, rfl, rfl⟩ := hf
      rw [h2]
      exact transposed_decodesTo (by omega) (by omega) (k5 hd)
    · cases hf

/-! ## Sessions with small chunks -/

section
variable {C : Codec} {t : UInt8} {bucketSize : Nat} {O : HashOrder} {H : Bytes → UInt64} {o : WOpts}

/-- The open chunk is small. -/
def SmallChunk (B : Nat) (w : RW ESt) : Prop :=
  w.enc.decodedDataSize + 8 * w.enc.numRecords = w.soFar ∧ w.soFar ≤ B

theorem closeChunk_capped {B : Nat} (hB : B < 2 ^ 29) {w : RW ESt} (h : SmallChunk B w) :
    w.closeChunk (capped C t bucketSize O) H = w.closeChunk (transposeEncoder C t bucketSize O) H := by
  unfold RW.closeChunk
  have : (capped C t bucketSize O).finish w.enc = (transposeEncoder C t bucketSize O).finish w.enc := by
    simp only [capped]
    rw [if_pos (by obtain ⟨h1, h2⟩ := h; omega)]
  rw [this]
  rfl

theorem closeChunk_enc {w w' : RW ESt} (h : w.closeChunk (transposeEncoder C t bucketSize O) H = some w') : w'.enc = ESt.empty := by
  unfold RW.closeChunk at h
  split at h
  · cases h
  · split at h
    · split at h
      · cases h
      · cases h; rfl
    · cases h

theorem putChunk_keeps {w w' : RW ESt} {c : Chunk} (h : w.putChunk H c = some w') : w'.enc = w.enc ∧ w'.soFar = w.soFar := by
  unfold RW.putChunk at h
  split at h
  · cases h; exact ⟨rfl, rfl⟩
  · cases h

theorem pad_keeps {w w' : RW ESt} {p : Nat} (h : w.pad H p = some w') : w'.enc = w.enc ∧ w'.soFar = w.soFar := by
  unfold RW.pad at h
  split at h
  · cases h; exact ⟨rfl, rfl⟩
  · exact putChunk_keeps h
  · cases h
  · cases h

/-- The part of `writeRecord` which may close the previous chunk. -/
def closePart {σ : Type} (E : Encoder σ) (H : Bytes → UInt64) (c : Bool) (w : RW σ) : Option (RW σ) :=
  if c then
    match w.closeChunk E H with
    | none => none
    | some w => some { w with soFar := 0 }
  else some w

/-- The part of `writeRecord` which adds the record. -/
def addPart {σ : Type} (E : Encoder σ) (H : Bytes → UInt64) (o : WOpts) (r : Bytes) (w : RW σ) : Option (RW σ) :=
  let w := { w with soFar := w.soFar + (r.length + 8) }
  match E.add w.enc r with
  | none => none
  | some enc =>
    let w := { w with enc := enc }
    if w.soFar + 8 > o.desired then closePart E H true { w with last := .validAt (w.workerLastPos E) }
    else some { w with last := .valid }

theorem writeRecord_eq {σ : Type} (E : Encoder σ) (H : Bytes → UInt64) (o : WOpts) (r : Bytes) (w : RW σ) :
    w.writeRecord E H o r = (closePart E H (decide (w.soFar + (r.length + 8) > o.desired ∧ w.soFar > 0))
      { w with last := .invalid }).bind (addPart E H o r) := by
  unfold RW.writeRecord closePart
  simp only [decide_eq_true_eq]
  by_cases hc : w.soFar + (r.length + 8) > o.desired ∧ w.soFar > 0
  · simp only [if_pos hc]
    cases RW.closeChunk E H { w with last := .invalid } <;> rfl
  · simp only [if_neg hc]
    rfl

/-- The part of `finishChunk` before padding. -/
def finishPart {σ : Type} (E : Encoder σ) (w : RW σ) : RW σ :=
  if w.last = .valid then { w with last := .validAt (w.workerLastPos E) } else w

theorem finishChunk_eq {σ : Type} (E : Encoder σ) (H : Bytes → UInt64) (o : WOpts) (w : RW σ) :
    w.finishChunk E H o = (closePart E H (decide (w.soFar > 0)) (if w.soFar > 0 then finishPart E w else w)).bind
      (RW.pad H o.finalPadding) := by
  unfold RW.finishChunk closePart finishPart
  simp only [decide_eq_true_eq]
  by_cases hc : w.soFar > 0
  · simp only [if_pos hc]
    cases RW.closeChunk E H (if w.last = .valid then { w with last := .validAt (w.workerLastPos E) } else w) <;> rfl
  · simp only [if_neg hc]
    rfl

theorem closePart_capped {B : Nat} (hB : B < 2 ^ 29) {w : RW ESt} (h : SmallChunk B w) (c : Bool) :
    closePart (capped C t bucketSize O) H c w = closePart (transposeEncoder C t bucketSize O) H c w ∧
    ∀ w', closePart (transposeEncoder C t bucketSize O) H c w = some w' → SmallChunk B w' ∧ (c = true → w'.soFar = 0) ∧
      (c = false → w' = w) := by
  unfold closePart
  cases c with
  | false =>
    refine ⟨rfl, ?_⟩
    intro w' h'
    cases h'
    exact ⟨h, by simp, by simp⟩
  | true =>
    simp only [if_true]
    rw [closeChunk_capped hB h]
    refine ⟨rfl, ?_⟩
    intro w' h'
    split at h'
    · cases h'
    · rename_i w2 hw2
      cases h'
      have := closeChunk_enc hw2
      exact ⟨⟨by simp [this, ESt.empty], by simp⟩, by simp, by simp⟩

theorem writeRecord_capped {B : Nat} (hB : B < 2 ^ 29) (ho : o.desired ≤ B) {w : RW ESt} (h : SmallChunk B w) {r : Bytes}
    (hr : r.length + 8 ≤ B) :
    w.writeRecord (capped C t bucketSize O) H o r = w.writeRecord (transposeEncoder C t bucketSize O) H o r ∧
    ∀ w', w.writeRecord (transposeEncoder C t bucketSize O) H o r = some w' → SmallChunk B w' := by
  have key : ∀ w1 : RW ESt, SmallChunk B w1 → w1.soFar + (r.length + 8) ≤ B →
      addPart (capped C t bucketSize O) H o r w1 = addPart (transposeEncoder C t bucketSize O) H o r w1 ∧
      ∀ w', addPart (transposeEncoder C t bucketSize O) H o r w1 = some w' → SmallChunk B w' := by
    intro w1 hw1 hle
    unfold addPart
    simp only
    rw [show (capped C t bucketSize O).add = (transposeEncoder C t bucketSize O).add from rfl]
    cases hadd : (transposeEncoder C t bucketSize O).add w1.enc r with
    | none => exact ⟨rfl, fun w' h' => by cases h'⟩
    | some enc =>
      obtain ⟨_, a1, a2⟩ := addRecord_counts (s := w1.enc) (s' := enc) hadd
      obtain ⟨b1, b2⟩ := hw1
      simp only
      split
      · rw [show RW.workerLastPos (capped C t bucketSize O) = RW.workerLastPos (transposeEncoder C t bucketSize O) from rfl]
        refine ⟨(closePart_capped hB ⟨?_, ?_⟩ true).1, fun w' h' => ((closePart_capped hB ⟨?_, ?_⟩ true).2 w' h').1⟩ <;>
          simp only <;> omega
      · refine ⟨rfl, ?_⟩
        intro w' h'
        cases h'
        exact ⟨by simp only; omega, by simp only; omega⟩
  have h0 : SmallChunk B { w with last := .invalid } := h
  rw [writeRecord_eq, writeRecord_eq]
  obtain ⟨c1, c2⟩ := closePart_capped (C := C) (t := t) (bucketSize := bucketSize) (O := O) (H := H) hB h0
    (decide (w.soFar + (r.length + 8) > o.desired ∧ w.soFar > 0))
  rw [c1]
  cases hcl : closePart (transposeEncoder C t bucketSize O) H (decide (w.soFar + (r.length + 8) > o.desired ∧ w.soFar > 0))
      { w with last := .invalid } with
  | none => exact ⟨rfl, fun w' h' => by cases h'⟩
  | some w1 =>
    obtain ⟨d1, d2, d3⟩ := c2 w1 hcl
    simp only [Option.bind_some]
    apply key w1 d1
    by_cases hc : w.soFar + (r.length + 8) > o.desired ∧ w.soFar > 0
    · rw [d2 (by simpa using hc)]; omega
    · rw [d3 (by simp only [decide_eq_false_iff_not]; exact hc)]
      simp only
      obtain ⟨h1, h2⟩ := h
      omega

theorem finishChunk_capped {B : Nat} (hB : B < 2 ^ 29) {w : RW ESt} (h : SmallChunk B w) :
    w.finishChunk (capped C t bucketSize O) H o = w.finishChunk (transposeEncoder C t bucketSize O) H o ∧
    ∀ w', w.finishChunk (transposeEncoder C t bucketSize O) H o = some w' → SmallChunk B w' := by
  rw [finishChunk_eq, finishChunk_eq,
    show finishPart (capped C t bucketSize O) = finishPart (transposeEncoder C t bucketSize O) from rfl]
  obtain ⟨c1, c2⟩ := closePart_capped (C := C) (t := t) (bucketSize := bucketSize) (O := O) (H := H) hB
    (w := if w.soFar > 0 then finishPart (transposeEncoder C t bucketSize O) w else w)
    (by
      unfold finishPart
      split
      · split <;> exact h
      · exact h) (decide (w.soFar > 0))
  rw [c1]
  refine ⟨rfl, ?_⟩
  intro w' h'
  obtain ⟨w1, h1, h2⟩ := Option.bind_eq_some_iff.1 h'
  obtain ⟨d1, _, _⟩ := c2 w1 h1
  obtain ⟨k1, k2⟩ := pad_keeps h2
  exact ⟨by rw [k1, k2]; exact d1.1, by rw [k2]; exact d1.2⟩

/-- What `RW.run` does after an operation. -/
def contRun {σ : Type} (E : Encoder σ) (H : Bytes → UInt64) (o : WOpts) (ops : List WOp) (y : Option (RW σ)) :
    Option (List (Option RecordPosition) × RW σ) :=
  match y with
  | none => none
  | some w1 =>
    match RW.run E H o ops w1 with
    | none => none
    | some (ps, w2) => some (w1.lastPos E :: ps, w2)

theorem run_write {σ : Type} (E : Encoder σ) (H : Bytes → UInt64) (o : WOpts) (r : Bytes) (ops : List WOp) (w : RW σ) :
    RW.run E H o (.write r :: ops) w = contRun E H o ops (w.writeRecord E H o r) := rfl

theorem run_flush {σ : Type} (E : Encoder σ) (H : Bytes → UInt64) (o : WOpts) (ops : List WOp) (w : RW σ) :
    RW.run E H o (.flush :: ops) w = contRun E H o ops (w.flush E H o) := rfl

theorem run_capped {B : Nat} (hB : B < 2 ^ 29) (ho : o.desired ≤ B) : ∀ (ops : List WOp) {w : RW ESt}, SmallChunk B w →
    (∀ r ∈ WOp.records ops, r.length + 8 ≤ B) →
    RW.run (capped C t bucketSize O) H o ops w = RW.run (transposeEncoder C t bucketSize O) H o ops w ∧
    ∀ log w', RW.run (transposeEncoder C t bucketSize O) H o ops w = some (log, w') → SmallChunk B w'
  | [], w, h, _ => ⟨rfl, fun log w' h' => by cases h'; exact h⟩
  | op :: ops, w, h, hr => by
    have cont : ∀ y : Option (RW ESt), (∀ w', y = some w' → SmallChunk B w') → (∀ r ∈ WOp.records ops, r.length + 8 ≤ B) →
        contRun (capped C t bucketSize O) H o ops y = contRun (transposeEncoder C t bucketSize O) H o ops y ∧
        ∀ log w', contRun (transposeEncoder C t bucketSize O) H o ops y = some (log, w') → SmallChunk B w' := by
      intro y hy hr'
      cases y with
      | none => exact ⟨rfl, fun log w' h' => by cases h'⟩
      | some w1 =>
        obtain ⟨r1, r2⟩ := run_capped hB ho ops (hy w1 rfl) hr'
        simp only [contRun, r1]
        refine ⟨rfl, ?_⟩
        intro log w' h'
        split at h'
        · cases h'
        · rename_i hrun
          cases h'
          exact r2 _ _ hrun
    cases op with
    | write r =>
      obtain ⟨e1, e2⟩ := writeRecord_capped (C := C) (t := t) (bucketSize := bucketSize) (O := O) (H := H) hB ho h
        (hr r (by simp [WOp.records]))
      rw [run_write, run_write, e1]
      exact cont _ e2 (fun x hx => hr x (by simp [WOp.records, hx]))
    | flush =>
      obtain ⟨e1, e2⟩ := finishChunk_capped (C := C) (t := t) (bucketSize := bucketSize) (O := O) (H := H) (o := o) hB h
      have e3 : w.flush (capped C t bucketSize O) H o = w.flush (transposeEncoder C t bucketSize O) H o := by
        simp only [RW.flush, e1]
      rw [run_flush, run_flush, e3]
      refine cont _ ?_ (fun x hx => hr x (by simpa [WOp.records] using hx))
      intro w' h'
      simp only [RW.flush] at h'
      split at h'
      · cases h'
      · rename_i w1 hw1
        cases h'
        exact e2 w1 hw1

theorem init_capped {B : Nat} {contents : Bytes} {w : RW ESt}
    (h : RW.init (transposeEncoder C t bucketSize O) H o contents = some w) :
    RW.init (capped C t bucketSize O) H o contents = some w ∧ SmallChunk B w := by
  refine ⟨h, ?_⟩
  have hk : w.enc = ESt.empty ∧ w.soFar = 0 := by
    unfold RW.init at h
    simp only at h
    split at h
    · unfold RW.putHeader at h
      split at h
      · cases h
      · rename_i h1
        obtain ⟨a1, a2⟩ := putChunk_keeps h1
        split at h
        · cases h; exact ⟨a1, a2⟩
        · split at h
          · obtain ⟨b1, b2⟩ := putChunk_keeps h
            exact ⟨b1.trans a1, b2.trans a2⟩
          · cases h
    · exact pad_keeps h
  exact ⟨by rw [hk.1, hk.2]; rfl, by rw [hk.2]; omega⟩

end

end Riegeli.Tr

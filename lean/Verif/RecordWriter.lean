import Verif.ChunkDecoder
import Verif.FileProofs
import Verif.RecordReaderProofs
/-!
# Model of `riegeli/records/record_writer.cc` with `parallelism == 0` (`SerialWorker`), over
`DefaultChunkWriter`

`none` means that the operation fails (the writer is no longer `ok()`), or does not return because
of padding (see `PadResult`). The destination never fails, except that a file whose next chunk would
end at or after `2^64` makes writing fail (`bytes/writer.h`, `FailOverflow()`).
-/
namespace Riegeli

/-- Where the chunk should end, in unbounded arithmetic; only used to detect overflow of positions. -/
def exactChunkEnd (d n cb : Nat) : Nat :=
  max (cb + (40 + d) + ((40 + d) + (cb + 65511) % 65536) / 65512 * 24)
    (if (cb + n) % 65536 = 0 ∨ 24 < (cb + n) % 65536 then cb + n else cb + n + (25 - (cb + n) % 65536))

/-- Options of `RecordWriterBase` which matter here (`record_writer.h:70-420`). `metadata` is the result of
`EncodeMetadata` (`record_writer.cc:314-340`): encoded data and decoded data size. -/
structure WOpts where
  effectiveChunkSize : Nat
  initialPadding : Nat
  finalPadding : Nat
  metadata : Option (Bytes × Nat)

/-- `desired_chunk_size_` (`record_writer.cc:877-878`). -/
def WOpts.desired (o : WOpts) : Nat := min o.effectiveChunkSize (kMaxNumRecords * 8)

/-- `last_record_` (`record_writer.h:655-667`). -/
inductive Last
  | invalid | valid | validAt (p : RecordPosition)
deriving DecidableEq, Repr

/-- `RecordWriterBase` (`record_writer.h:655-669`) with its `SerialWorker`, `ChunkWriter` and destination. -/
structure RW (σ : Type) where
  /-- contents of the destination -/
  out : Bytes
  /-- `chunk_writer_->pos()` -/
  pos : Nat
  /-- `chunk_encoder_` -/
  enc : σ
  /-- `chunk_size_so_far_` -/
  soFar : Nat
  last : Last
  /-- ghost: size of the destination at the last flush -/
  flushed : Nat

namespace RW
variable {σ : Type} (E : Encoder σ) (H : Bytes → UInt64) (o : WOpts)

/-- `chunk_writer_->WriteChunk(chunk)` (`chunk_writer.cc:85-110`). -/
def putChunk (c : Chunk) (w : RW σ) : Option (RW σ) :=
  if exactChunkEnd (Hdr.dataSize c.header) (Hdr.numRecords c.header) w.pos < 2 ^ 64 then
    let r := writeChunk H w.pos c
    some { w with out := w.out ++ r.1, pos := r.2 }
  else none

/-- `SerialWorker::WritePadding` (`record_writer.cc:462-468`). -/
def pad (padding : Nat) (w : RW σ) : Option (RW σ) :=
  match paddingToWrite H w.pos padding with
  | .nothing => some w
  | .chunk c => w.putChunk H c
  | .diverges => none
  | .underflow => none

/-- `EncodeSignature` (`record_writer.cc:310-312`). -/
def signatureChunk : Chunk := mkChunk H [] kFileSignature 0 0

/-- `WriteSignature`, `WriteMetadata` (`record_writer.cc:428-450`). -/
def putHeader (w : RW σ) : Option (RW σ) :=
  match w.putChunk H (signatureChunk H) with
  | none => none
  | some w =>
    match o.metadata with
    | none => some w
    | some (data, dec) => if data.length < 2 ^ 64 then w.putChunk H (mkChunk H data kFileMetadata 0 dec) else none

/-- Constructing a `RecordWriter` over a destination with the given contents, positioned at the end
(`record_writer.cc:873-889`, `record_writer.cc:263-270`, `chunk_writer.cc:65-75`). -/
def init (contents : Bytes) : Option (RW σ) :=
  let (zeros, pos) := initPos contents.length
  let w : RW σ := ⟨contents ++ zeros, pos, E.empty, 0, .invalid, 0⟩
  if pos = 0 then w.putHeader H o else w.pad H o.initialPadding

/-- `SerialWorker::CloseChunk` (`record_writer.cc:452-460`) with `EncodeChunk` (`record_writer.cc:363-380`), followed
by `OpenChunk()` (`record_writer.cc:389`). -/
def closeChunk (w : RW σ) : Option (RW σ) :=
  match E.finish w.enc with
  | none => none
  | some (data, typ, dec) =>
    if data.length < 2 ^ 64 then
      match w.putChunk H (mkChunk H data typ (E.num w.enc) dec) with
      | none => none
      | some w => some { w with enc := E.empty }
    else none

/-- `SerialWorker::LastPos` (`record_writer.cc:486-492`). -/
def workerLastPos (w : RW σ) : RecordPosition := ⟨w.pos, E.num w.enc - 1⟩

/-- `RecordWriterBase::WriteRecordImpl` (`record_writer.cc:970-1005`). Record sizes in memory are below `2^63` and
`desired_chunk_size_` below `2^59`, hence `chunk_size_so_far_ + added_size` does not overflow and is written in
unbounded arithmetic. -/
def writeRecord (r : Bytes) (w : RW σ) : Option (RW σ) :=
  let w := { w with last := .invalid }
  let addedSize := r.length + 8
  let w? : Option (RW σ) :=
    if w.soFar + addedSize > o.desired ∧ w.soFar > 0 then
      match w.closeChunk E H with
      | none => none
      | some w => some { w with soFar := 0 }
    else some w
  match w? with
  | none => none
  | some w =>
    let w := { w with soFar := w.soFar + addedSize }
    match E.add w.enc r with
    | none => none
    | some enc =>
      let w := { w with enc := enc }
      if w.soFar + 8 > o.desired then
        let w := { w with last := .validAt (w.workerLastPos E) }
        match w.closeChunk E H with
        | none => none
        | some w => some { w with soFar := 0 }
      else some { w with last := .valid }

/-- The common part of `Done()` (`record_writer.cc:891-912`), `Flush()` and `FutureFlush()`
(`record_writer.cc:1007-1069`): closes the chunk if it is not empty and pads to the final boundary. -/
def finishChunk (w : RW σ) : Option (RW σ) :=
  let w? : Option (RW σ) :=
    if w.soFar > 0 then
      let w := if w.last = .valid then { w with last := .validAt (w.workerLastPos E) } else w
      match w.closeChunk E H with
      | none => none
      | some w => some { w with soFar := 0 }
    else some w
  match w? with
  | none => none
  | some w => w.pad H o.finalPadding

/-- `RecordWriterBase::Flush` (`record_writer.cc:1007-1030`). -/
def flush (w : RW σ) : Option (RW σ) :=
  match w.finishChunk E H o with
  | none => none
  | some w => some { w with flushed := w.out.length }

/-- `RecordWriterBase::Done` (`record_writer.cc:891-912`). -/
def close (w : RW σ) : Option (RW σ) := w.finishChunk E H o

/-- `RecordWriterBase::LastPos` (`record_writer.cc:1071-1083`), defined if `last_record_is_valid()`. -/
def lastPos (w : RW σ) : Option RecordPosition :=
  match w.last with
  | .invalid => none
  | .valid => some (w.workerLastPos E)
  | .validAt p => some p

/-- `RecordWriterBase::Pos` (`record_writer.cc:1085-1088`, `record_writer.cc:494-496`). -/
def position (w : RW σ) : RecordPosition := ⟨w.pos, E.num w.enc⟩

end RW

/-- An operation on an open writer. -/
inductive WOp
  | write (r : Bytes)
  | flush
deriving DecidableEq, Repr

/-- The records written by a sequence of operations. -/
def WOp.records : List WOp → List Bytes
  | [] => []
  | .write r :: ops => r :: WOp.records ops
  | .flush :: ops => WOp.records ops

/-- Runs operations, logging `LastPos()` as observed after each operation (if valid). -/
def RW.run {σ : Type} (E : Encoder σ) (H : Bytes → UInt64) (o : WOpts) :
    List WOp → RW σ → Option (List (Option RecordPosition) × RW σ)
  | [], w => some ([], w)
  | op :: ops, w =>
    match (match op with | .write r => w.writeRecord E H o r | .flush => w.flush E H o) with
    | none => none
    | some w1 =>
      match RW.run E H o ops w1 with
      | none => none
      | some (ps, w2) => some (w1.lastPos E :: ps, w2)

/-- The records into which a chunk decodes. -/
def splitLimits : Nat → List Nat → Bytes → List Bytes
  | _, [], _ => []
  | acc, l :: ls, v => v.take (l - acc) :: splitLimits l ls (v.drop (l - acc))

/-- The records of a chunk, according to the decoder. -/
def recordsOf (parse : Chunk → Option (List Nat × Bytes)) (c : Chunk) : List Bytes :=
  match parse c with
  | none => []
  | some (limits, values) => splitLimits 0 limits values

/-! ## Proofs -/

theorem splitLimits_limitsFrom (rs : List Bytes) : ∀ acc, splitLimits acc (limitsFrom acc rs) rs.flatten = rs := by
  induction rs with
  | nil => intro acc; rfl
  | cons r rs ih =>
    intro acc
    simp only [limitsFrom, splitLimits, List.flatten_cons]
    rw [show acc + r.length - acc = r.length by omega, List.take_left' rfl, List.drop_left' rfl, ih]

theorem recordsOf_eq {parse : Chunk → Option (List Nat × Bytes)} {c : Chunk} {rs : List Bytes}
    (h : DecodesTo parse c rs) : recordsOf parse c = rs := by
  unfold recordsOf; rw [h.1]; exact splitLimits_limitsFrom rs 0

theorem exactChunkEnd_holds {d n cb : Nat} (hb : BoundaryOk cb) :
    HoldsChunk d n cb (exactChunkEnd d n cb) := by
  unfold exactChunkEnd
  generalize hA : cb + (40 + d) + ((40 + d) + (cb + 65511) % 65536) / 65512 * 24 = A
  obtain ⟨a1, a2, a3, a4⟩ := overheadFormula_spec (cb := cb) (len := 40 + d) hb (by omega) hA.symm
  generalize hR : (if (cb + n) % 65536 = 0 ∨ 24 < (cb + n) % 65536 then cb + n
    else cb + n + (25 - (cb + n) % 65536)) = R
  have hR1 : BoundaryOk R ∧ cb + n ≤ R := by
    unfold BoundaryOk
    split at hR <;> omega
  have hm : max A R = A ∨ max A R = R := by omega
  have hu := usable_add_usableTo (a := cb) (b := max A R) (by omega)
  have := usableTo_mono (a := A) (b := max A R) (by omega)
  refine ⟨?_, by omega, by omega, by omega⟩
  rcases hm with h | h <;> rw [h]
  · exact a2
  · exact hR1.1

section
variable {σ : Type} {E : Encoder σ} {H : Bytes → UInt64} {o : WOpts}
  {parse : Chunk → Option (List Nat × Bytes)}

/-- The destination contains the chunks `cs`. -/
structure OutIs (H : Bytes → UInt64) (parse : Chunk → Option (List Nat × Bytes)) (cs : List Chunk)
    (w : RW σ) : Prop where
  ok : ChunksOk H 0 cs
  sig : ∀ c ∈ cs.head?, IsSignature c
  out : w.out = fileBytes H 0 cs
  pos : w.pos = fileEnd 0 cs
  dec : ∀ c ∈ cs, DecodesTo parse c (recordsOf parse c)

theorem OutIs.boundary {cs : List Chunk} {w : RW σ} (h : OutIs H parse cs w) : BoundaryOk w.pos := by
  rw [h.pos]; exact (h.ok.laid.boundary boundaryOk_zero).1

theorem putChunk_spec {cs : List Chunk} {w w' : RW σ} {c : Chunk} {rs : List Bytes} (h : OutIs H parse cs w)
    (hc : WFChunk H c) (hd : DecodesTo parse c rs) (hsig : cs = [] → IsSignature c)
    (hw : w.putChunk H c = some w') :
    OutIs H parse (cs ++ [c]) w' ∧ w'.enc = w.enc ∧ w'.soFar = w.soFar ∧ w'.last = w.last ∧
      w'.flushed = w.flushed ∧ w.out <+: w'.out := by
  unfold RW.putChunk at hw
  split at hw
  · rename_i hlt
    have hh := exactChunkEnd_holds (d := Hdr.dataSize c.header) (n := Hdr.numRecords c.header) h.boundary
    have hs := endAt_spec (c := c) h.boundary ⟨_, hlt, hh⟩
    rw [writeChunk_eq hc h.boundary hs.1] at hw
    simp only [Option.some.injEq] at hw
    subst hw
    have hok : ChunksOk H 0 (cs ++ [c]) := by
      rw [chunksOk_append]
      exact ⟨h.ok, hc, by rw [← h.pos]; exact ⟨_, hlt, hh⟩, trivial⟩
    refine ⟨⟨hok, ?_, ?_, ?_, ?_⟩, rfl, rfl, rfl, rfl, ?_⟩
    · cases cs with
      | nil => intro x hx; simp at hx; subst hx; exact hsig rfl
      | cons y cs => exact h.sig
    · simp only; rw [h.out, fileBytes_append, ← h.pos]; simp [fileBytes]
    · simp only; rw [fileEnd_append, ← h.pos]; simp [fileEnd]
    · intro x hx
      rcases List.mem_append.1 hx with hx | hx
      · exact h.dec x hx
      · simp at hx; subst hx; rw [recordsOf_eq hd]; exact hd
    · simp only; exact List.prefix_append _ _
  · simp at hw

theorem padEndLoop_lt {padding x y : Nat} (hx : x < 2 ^ 64) (h : padEndLoop padding x = some y) :
    y < 2 ^ 64 := by
  refine padEndLoop.partial_correctness (padding := padding) (fun x y => x < 2 ^ 64 → y < 2 ^ 64) ?_ x y h hx
  intro loop ih x y hxy hx
  split at hxy
  · simp only [Option.some.injEq] at hxy; omega
  · exact ih _ _ hxy (Nat.mod_lt _ (by omega))

theorem posAfterPadding_lt {pos padding y : Nat} (hx : pos < 2 ^ 64) (h : posAfterPadding pos padding = some y) :
    y < 2 ^ 64 := by
  unfold posAfterPadding at h
  split at h
  · simp only [Option.some.injEq] at h; omega
  simp only at h
  split at h
  · simp only [Option.some.injEq] at h; omega
  split at h
  · simp at h
  · exact padEndLoop_lt (Nat.mod_lt _ (by omega)) h

theorem paddingToWrite_wf {pos padding : Nat} {c : Chunk} (hx : pos < 2 ^ 64)
    (h : paddingToWrite H pos padding = .chunk c) :
    ∃ n, n < 2 ^ 64 ∧ c = paddingChunk H n := by
  unfold paddingToWrite at h
  split at h
  · simp at h
  rename_i y hy
  have hlt := posAfterPadding_lt hx hy
  simp only at h
  split at h
  · simp at h
  split at h
  · simp at h
  · simp only [PadResult.chunk.injEq] at h
    refine ⟨_, ?_, h.symm⟩
    have : distanceWithoutOverhead pos y ≤ y := by unfold distanceWithoutOverhead; omega
    omega

/-- Writing padding appends chunks without records. -/
theorem pad_spec (hpd : ∀ n, DecodesTo parse (paddingChunk H n) []) {cs : List Chunk} {w w' : RW σ}
    {padding : Nat} (h : OutIs H parse cs w)
    (hne : cs ≠ []) (hw : w.pad H padding = some w') :
    ∃ cs', OutIs H parse (cs ++ cs') w' ∧ cs'.flatMap (recordsOf parse) = [] ∧ w'.enc = w.enc ∧
      w'.soFar = w.soFar ∧ w'.last = w.last ∧ w'.flushed = w.flushed ∧ w.out <+: w'.out := by
  unfold RW.pad at hw
  split at hw
  · simp only [Option.some.injEq] at hw
    subst hw
    exact ⟨[], by simpa using h, rfl, rfl, rfl, rfl, rfl, List.prefix_refl _⟩
  · rename_i c hc
    obtain ⟨n, hn, rfl⟩ := paddingToWrite_wf (by rw [h.pos]; exact h.ok.laid.fileEnd_lt (by omega) boundaryOk_zero) hc
    have := putChunk_spec h (paddingChunk_wf hn) (hpd n) (fun h => absurd h hne) hw
    refine ⟨[paddingChunk H n], this.1, ?_, this.2⟩
    simp [recordsOf_eq (hpd n)]
  · simp at hw
  · simp at hw

theorem Encoder.addAll_snoc {s s' : σ} {rs : List Bytes} {r : Bytes} (h : E.addAll s rs = some s') :
    E.addAll s (rs ++ [r]) = E.add s' r := by
  induction rs generalizing s with
  | nil =>
    simp only [Encoder.addAll, Option.some.injEq] at h
    subst h
    simp only [List.nil_append, Encoder.addAll]
    cases E.add s r <;> rfl
  | cons x rs ih =>
    simp only [Encoder.addAll, List.cons_append] at h ⊢
    cases hx : E.add s x with
    | none => simp [hx] at h
    | some s1 =>
      rw [hx, Option.bind_some] at h
      rw [Option.bind_some]; exact ih h

/-- Positions of all records: those of written chunks and those which are in the chunk being built. -/
def allPos (parse : Chunk → Option (List Nat × Bytes)) (cs : List Chunk) (opened : List Bytes) :
    List RecordPosition :=
  recordPositions (recordsOf parse) 0 cs ++ (List.range opened.length).map (fun i => ⟨fileEnd 0 cs, i⟩)

/-- Invariant of an open writer: `cs` has been written, the records `opened` are in the chunk being built. -/
structure WInv (E : Encoder σ) (H : Bytes → UInt64) (parse : Chunk → Option (List Nat × Bytes))
    (cs : List Chunk) (opened : List Bytes) (w : RW σ) : Prop where
  out : OutIs H parse cs w
  ne : cs ≠ []
  enc : E.addAll E.empty opened = some w.enc
  soFar : w.soFar = (opened.map (fun r => r.length + 8)).sum

theorem WInv.opened_nil {cs : List Chunk} {opened : List Bytes} {w : RW σ} (h : WInv E H parse cs opened w) :
    ¬ w.soFar > 0 ↔ opened = [] := by
  rw [h.soFar]
  cases opened with
  | nil => simp
  | cons r rs => simp

theorem closeChunk_spec (hE : E.Correct H parse) {cs : List Chunk} {opened : List Bytes} {w w' : RW σ}
    (h : WInv E H parse cs opened w) (hw : w.closeChunk E H = some w') :
    ∃ cs', WInv E H parse cs' [] { w' with soFar := 0 } ∧ cs <+: cs' ∧
      cs'.flatMap (recordsOf parse) = cs.flatMap (recordsOf parse) ++ opened ∧
      allPos parse cs' [] = allPos parse cs opened ∧ w'.last = w.last ∧ w'.flushed = w.flushed ∧
      w.out <+: w'.out := by
  unfold RW.closeChunk at hw
  split at hw
  · simp at hw
  rename_i data typ dec hf
  split at hw
  · rename_i hlt
    have hnum := (hE.num _ _ h.enc).1
    rw [hnum] at hw
    split at hw
    · simp at hw
    rename_i w1 hp
    simp only [Option.some.injEq] at hw
    subst hw
    have hd := hE.finish _ _ _ _ _ h.enc hf hlt
    obtain ⟨h1, h2, h3, h4, h5, h6⟩ := putChunk_spec h.out (mkChunk_wf H data typ _ dec hlt) hd
      (fun e => absurd e h.ne) hp
    refine ⟨cs ++ [mkChunk H data typ opened.length dec], ⟨⟨h1.ok, h1.sig, h1.out, h1.pos, h1.dec⟩, ?_, ?_, ?_⟩,
      List.prefix_append _ _, ?_, ?_, h4, h5, h6⟩
    · simp
    · rfl
    · rfl
    · simp [recordsOf_eq hd]
    · unfold allPos
      rw [recordPositions_append]
      simp [recordPositions, recordsOf_eq hd]
  · simp at hw

theorem WInv.setLast {cs : List Chunk} {opened : List Bytes} {w : RW σ} (h : WInv E H parse cs opened w)
    (l : Last) : WInv E H parse cs opened { w with last := l } :=
  ⟨⟨h.out.ok, h.out.sig, h.out.out, h.out.pos, h.out.dec⟩, h.ne, h.enc, h.soFar⟩

theorem allPos_snoc (cs : List Chunk) (opened : List Bytes) (r : Bytes) :
    allPos parse cs (opened ++ [r]) = allPos parse cs opened ++ [⟨fileEnd 0 cs, opened.length⟩] := by
  unfold allPos
  simp [List.range_succ]

/-- Adding a record to the open chunk. -/
theorem addRecord_spec (hE : E.Correct H parse) {cs : List Chunk} {opened : List Bytes} {w : RW σ}
    (h : WInv E H parse cs opened w) {r : Bytes} {enc : σ} (ha : E.add w.enc r = some enc) (l : Last) :
    WInv E H parse cs (opened ++ [r]) { w with soFar := w.soFar + (r.length + 8), enc := enc, last := l } ∧
    RW.workerLastPos E { w with soFar := w.soFar + (r.length + 8), enc := enc, last := l } =
      ⟨fileEnd 0 cs, opened.length⟩ := by
  have henc : E.addAll E.empty (opened ++ [r]) = some enc := by rw [Encoder.addAll_snoc h.enc, ha]
  refine ⟨⟨⟨h.out.ok, h.out.sig, h.out.out, h.out.pos, h.out.dec⟩, h.ne, henc, ?_⟩, ?_⟩
  · simp [h.soFar]
  · unfold RW.workerLastPos
    simp only [h.out.pos, (hE.num _ _ henc).1, List.length_append, List.length_singleton,
      Nat.add_sub_cancel]

theorem writeRecord_spec (hE : E.Correct H parse) {cs : List Chunk} {opened : List Bytes} {w w' : RW σ}
    {r : Bytes} (h : WInv E H parse cs opened w) (hw : w.writeRecord E H o r = some w') :
    ∃ cs' opened' p, WInv E H parse cs' opened' w' ∧ cs <+: cs' ∧
      cs'.flatMap (recordsOf parse) ++ opened' = cs.flatMap (recordsOf parse) ++ opened ++ [r] ∧
      allPos parse cs' opened' = allPos parse cs opened ++ [p] ∧ w'.lastPos E = some p ∧
      (w'.last = .valid → opened' ≠ []) ∧ w'.flushed = w.flushed ∧ w.out <+: w'.out := by
  unfold RW.writeRecord at hw
  simp only at hw
  -- first step: possibly closing the chunk
  have step1 : ∀ w1, (if w.soFar + (r.length + 8) > o.desired ∧ w.soFar > 0 then
      match RW.closeChunk E H { w with last := .invalid } with
      | none => none
      | some w => some { w with soFar := 0 }
    else some { w with last := .invalid }) = some w1 →
    ∃ cs1 opened1, WInv E H parse cs1 opened1 w1 ∧ cs <+: cs1 ∧
      cs1.flatMap (recordsOf parse) ++ opened1 = cs.flatMap (recordsOf parse) ++ opened ∧
      allPos parse cs1 opened1 = allPos parse cs opened ∧ w1.flushed = w.flushed ∧ w.out <+: w1.out := by
    intro w1 hw1
    split at hw1
    · split at hw1
      · simp at hw1
      rename_i w2 hc
      simp only [Option.some.injEq] at hw1
      subst hw1
      obtain ⟨cs', a1, a2, a3, a4, a5, a6, a7⟩ := closeChunk_spec hE (h.setLast .invalid) hc
      exact ⟨cs', [], a1, a2, by simpa using a3, a4, a6, a7⟩
    · simp only [Option.some.injEq] at hw1
      subst hw1
      exact ⟨cs, opened, h.setLast .invalid, List.prefix_refl _, rfl, rfl, rfl, List.prefix_refl _⟩
  split at hw
  · simp at hw
  rename_i w1 hw1
  obtain ⟨cs1, opened1, b1, b2, b3, b4, b5, b6⟩ := step1 w1 hw1
  split at hw
  · simp at hw
  rename_i enc ha
  split at hw
  · -- the chunk is closed immediately
    split at hw
    · simp at hw
    rename_i w2 hc
    simp only [Option.some.injEq] at hw
    subst hw
    obtain ⟨i1, i2⟩ := addRecord_spec hE b1 ha w1.last
    obtain ⟨cs', a1, a2, a3, a4, a5, a6, a7⟩ := closeChunk_spec hE (i1.setLast _) hc
    refine ⟨cs', [], ⟨fileEnd 0 cs1, opened1.length⟩, a1, List.IsPrefix.trans b2 a2, ?_, ?_, ?_,
      fun e => by simp [a5] at e, ?_, ?_⟩
    · rw [a3, List.append_nil, ← List.append_assoc, b3]
    · rw [a4, allPos_snoc, b4]
    · unfold RW.lastPos
      simp only [a5]
      congr 1
    · rw [← b5]; exact a6
    · exact List.IsPrefix.trans b6 a7
  · simp only [Option.some.injEq] at hw
    subst hw
    obtain ⟨i1, i2⟩ := addRecord_spec hE b1 ha .valid
    refine ⟨cs1, opened1 ++ [r], ⟨fileEnd 0 cs1, opened1.length⟩, i1, b2, ?_, ?_, ?_, by simp, b5, b6⟩
    · rw [← List.append_assoc, b3]
    · rw [allPos_snoc, b4]
    · unfold RW.lastPos
      simp only
      congr 1

theorem finishChunk_spec (hE : E.Correct H parse) (hpd : ∀ n, DecodesTo parse (paddingChunk H n) [])
    {cs : List Chunk} {opened : List Bytes} {w w' : RW σ}
    (h : WInv E H parse cs opened w) (hw : w.finishChunk E H o = some w') :
    ∃ cs', WInv E H parse cs' [] w' ∧ cs <+: cs' ∧
      cs'.flatMap (recordsOf parse) = cs.flatMap (recordsOf parse) ++ opened ∧
      allPos parse cs' [] = allPos parse cs opened ∧
      ((w.last = .valid → opened ≠ []) → w'.lastPos E = w.lastPos E ∧ w'.last ≠ .valid) ∧
      w'.flushed = w.flushed ∧ w.out <+: w'.out := by
  unfold RW.finishChunk at hw
  simp only at hw
  have step1 : ∀ w1, (if w.soFar > 0 then
      match RW.closeChunk E H (if w.last = .valid then { w with last := .validAt (w.workerLastPos E) } else w) with
      | none => none
      | some w => some { w with soFar := 0 }
    else some w) = some w1 →
    ∃ cs1, WInv E H parse cs1 [] w1 ∧ cs <+: cs1 ∧
      cs1.flatMap (recordsOf parse) = cs.flatMap (recordsOf parse) ++ opened ∧
      allPos parse cs1 [] = allPos parse cs opened ∧
      ((w.last = .valid → opened ≠ []) → w1.lastPos E = w.lastPos E ∧ w1.last ≠ .valid) ∧
      w1.flushed = w.flushed ∧ w.out <+: w1.out := by
    intro w1 hw1
    split at hw1
    · split at hw1
      · simp at hw1
      rename_i w2 hc
      simp only [Option.some.injEq] at hw1
      subst hw1
      have hi : WInv E H parse cs opened
          (if w.last = .valid then { w with last := .validAt (w.workerLastPos E) } else w) := by
        split
        · exact h.setLast _
        · exact h
      obtain ⟨cs', a1, a2, a3, a4, a5, a6, a7⟩ := closeChunk_spec hE hi hc
      refine ⟨cs', a1, a2, a3, a4, ?_, ?_, ?_⟩
      · intro _
        unfold RW.lastPos
        simp only [a5]
        cases hl : w.last <;> simp [hl]
      · rw [a6]; split <;> rfl
      · refine List.IsPrefix.trans ?_ a7
        split <;> exact List.prefix_refl _
    · simp only [Option.some.injEq] at hw1
      subst hw1
      rename_i hs
      have ho := h.opened_nil.1 hs
      subst ho
      refine ⟨cs, h, List.prefix_refl _, by simp, rfl, ?_, rfl, List.prefix_refl _⟩
      intro hv
      refine ⟨rfl, fun e => hv e rfl⟩
  split at hw
  · simp at hw
  rename_i w1 hw1
  obtain ⟨cs1, b1, b2, b3, b4, b5, b6, b7⟩ := step1 w1 hw1
  obtain ⟨cs', c1, c2, c3, c4, c5, c6, c7⟩ := pad_spec hpd b1.out b1.ne hw
  have hp : recordPositions (recordsOf parse) (fileEnd 0 cs1) cs' = [] := by
    apply List.length_eq_zero_iff.1
    rw [recordPositions_length, c2]; rfl
  refine ⟨cs1 ++ cs', ⟨c1, by simp [b1.ne], by rw [c3]; exact b1.enc, by rw [c4]; exact b1.soFar⟩,
    List.IsPrefix.trans b2 (List.prefix_append _ _), ?_, ?_, ?_, by rw [c6, b6], List.IsPrefix.trans b7 c7⟩
  · rw [List.flatMap_append, c2, List.append_nil, b3]
  · rw [← b4]
    unfold allPos
    rw [recordPositions_append, hp]; simp
  · intro hv
    obtain ⟨d1, d2⟩ := b5 hv
    refine ⟨?_, by rw [c5]; exact d2⟩
    rw [← d1]
    unfold RW.lastPos
    rw [c5]
    cases hl : w1.last with
    | invalid => rfl
    | valid => exact absurd hl d2
    | validAt p => rfl

/-- Specification: what `LastPos()` should report after each operation, if the records written have positions `ps`
and `k` of them were written before: the position of the most recent record, if any. -/
def expectedLastPos (ps : List RecordPosition) : Nat → List WOp → List (Option RecordPosition)
  | _, [] => []
  | k, .write _ :: ops => ps[k]? :: expectedLastPos ps (k + 1) ops
  | k, .flush :: ops => (if k = 0 then none else ps[k - 1]?) :: expectedLastPos ps k ops

/-- State of a writer which had `base` records in the file when it was opened and wrote `k` more. -/
structure WRun (E : Encoder σ) (H : Bytes → UInt64) (parse : Chunk → Option (List Nat × Bytes)) (base k : Nat)
    (cs : List Chunk) (opened : List Bytes) (w : RW σ) : Prop where
  inv : WInv E H parse cs opened w
  valid : w.last = .valid → opened ≠ []
  len : (allPos parse cs opened).length = base + k
  last : w.lastPos E = if k = 0 then none else (allPos parse cs opened)[base + k - 1]?
  flushed : w.flushed ≤ w.out.length

theorem allPos_length (cs : List Chunk) (opened : List Bytes) :
    (allPos parse cs opened).length = (cs.flatMap (recordsOf parse) ++ opened).length := by
  unfold allPos
  rw [List.length_append, recordPositions_length, List.length_append]; simp

theorem run_spec (hE : E.Correct H parse) (hpd : ∀ n, DecodesTo parse (paddingChunk H n) []) {base : Nat}
    (ops : List WOp) : ∀ {k : Nat} {cs : List Chunk} {opened : List Bytes} {w w' : RW σ}
    {log : List (Option RecordPosition)},
    WRun E H parse base k cs opened w → RW.run E H o ops w = some (log, w') →
    ∃ cs' opened', WRun E H parse base (k + (WOp.records ops).length) cs' opened' w' ∧ cs <+: cs' ∧
      cs'.flatMap (recordsOf parse) ++ opened' =
        cs.flatMap (recordsOf parse) ++ opened ++ WOp.records ops ∧
      allPos parse cs opened <+: allPos parse cs' opened' ∧
      log = expectedLastPos ((allPos parse cs' opened').drop base) k ops ∧
      w.flushed ≤ w'.flushed ∧ w.out <+: w'.out := by
  induction ops with
  | nil =>
    intro k cs opened w w' log h hr
    simp only [RW.run, Option.some.injEq, Prod.mk.injEq] at hr
    obtain ⟨rfl, rfl⟩ := hr
    exact ⟨cs, opened, h, List.prefix_refl _, by simp [WOp.records], List.prefix_refl _, rfl, Nat.le_refl _,
      List.prefix_refl _⟩
  | cons op ops ih =>
    intro k cs opened w w' log h hr
    simp only [RW.run] at hr
    cases op with
    | write r =>
      simp only at hr
      split at hr
      · simp at hr
      rename_i w1 hw1
      obtain ⟨cs1, op1, p, a1, a2, a3, a4, a5, a6, a7, a8⟩ := writeRecord_spec hE h.inv hw1
      split at hr
      · simp at hr
      rename_i log2 w2 hr2
      simp only [Option.some.injEq, Prod.mk.injEq] at hr
      obtain ⟨rfl, rfl⟩ := hr
      have hl := h.len
      have hrun : WRun E H parse base (k + 1) cs1 op1 w1 := by
        refine ⟨a1, a6, by rw [a4]; simp [hl]; omega, ?_, ?_⟩
        · rw [if_neg (by omega), a5, a4, show base + (k + 1) - 1 = (allPos parse cs opened).length by omega]
          simp
        · rw [a7]; exact Nat.le_trans h.flushed a8.length_le
      obtain ⟨cs', op', b1, b2, b3, b4, b5, b6, b7⟩ := ih hrun hr2
      refine ⟨cs', op', ?_, List.IsPrefix.trans a2 b2, ?_, ?_, ?_, by rw [← a7]; exact b6,
        List.IsPrefix.trans a8 b7⟩
      · simp only [WOp.records, List.length_cons]
        rw [show k + ((WOp.records ops).length + 1) = k + 1 + (WOp.records ops).length by omega]
        exact b1
      · rw [b3, a3]; simp [WOp.records]
      · rw [a4] at b4; exact List.IsPrefix.trans (List.prefix_append _ _) b4
      · simp only [expectedLastPos]
        rw [b5, a5]
        congr 1
        rw [a4] at b4
        obtain ⟨t, ht⟩ := b4
        rw [← ht, List.getElem?_drop, List.getElem?_append_left (by simp [hl]),
          show base + k = (allPos parse cs opened).length by omega]
        simp
    | flush =>
      simp only at hr
      split at hr
      · simp at hr
      rename_i w1 hw1
      unfold RW.flush at hw1
      split at hw1
      · simp at hw1
      rename_i w0 hw0
      simp only [Option.some.injEq] at hw1
      subst hw1
      obtain ⟨cs1, a1, a2, a3, a4, a5, a6, a7⟩ := finishChunk_spec hE hpd h.inv hw0
      split at hr
      · simp at hr
      rename_i log2 w2 hr2
      simp only [Option.some.injEq, Prod.mk.injEq] at hr
      obtain ⟨rfl, rfl⟩ := hr
      obtain ⟨e1, e2⟩ := a5 h.valid
      have hlast : RW.lastPos E { w0 with flushed := w0.out.length } = w0.lastPos E := rfl
      have hrun : WRun E H parse base k cs1 [] { w0 with flushed := w0.out.length } := by
        refine ⟨⟨⟨a1.out.ok, a1.out.sig, a1.out.out, a1.out.pos, a1.out.dec⟩, a1.ne, a1.enc, a1.soFar⟩,
          fun e => absurd e e2, by rw [a4]; exact h.len, ?_, Nat.le_refl _⟩
        rw [hlast, e1, a4]; exact h.last
      obtain ⟨cs', op', b1, b2, b3, b4, b5, b6, b7⟩ := ih hrun hr2
      refine ⟨cs', op', b1, List.IsPrefix.trans a2 b2, ?_, ?_, ?_, ?_, List.IsPrefix.trans a7 b7⟩
      · rw [b3, List.append_nil, a3]; simp [WOp.records]
      · rw [← a4]; exact b4
      · simp only [expectedLastPos]
        rw [b5, hlast, e1, h.last]
        congr 1
        split
        · rfl
        · rw [a4] at b4
          obtain ⟨t, ht⟩ := b4
          have hl := h.len
          rw [← ht, List.getElem?_drop, List.getElem?_append_left (by omega),
            show base + (k - 1) = base + k - 1 by omega]
      · have h1 : w.flushed ≤ w0.out.length := Nat.le_trans h.flushed a7.length_le
        exact Nat.le_trans h1 b6

/-- Opening a writer on an empty destination. -/
theorem init_empty_spec
    (hmd : ∀ data dec, DecodesTo parse (mkChunk H data kFileMetadata 0 dec) [])
    (hsg : DecodesTo parse (RW.signatureChunk H) []) {w : RW σ}
    (hw : RW.init E H o [] = some w) :
    ∃ cs, WRun E H parse 0 0 cs [] w ∧ cs.flatMap (recordsOf parse) = [] := by
  unfold RW.init at hw
  have hi : initPos ([] : Bytes).length = ([], 0) := by
    unfold initPos; rw [if_pos (by decide)]; rfl
  rw [hi] at hw
  simp only [if_true] at hw
  have h0 : OutIs H parse [] (⟨[] ++ [], 0, E.empty, 0, .invalid, 0⟩ : RW σ) :=
    ⟨trivial, by simp, rfl, rfl, by simp⟩
  have hsigs : IsSignature (RW.signatureChunk H) := by
    unfold IsSignature RW.signatureChunk
    simp only [mkChunk]
    refine ⟨?_, ?_, ?_, ?_⟩
    · rw [mkChunkHeader_dataSize _ _ _ _ _ (by simp)]; rfl
    · exact mkChunkHeader_chunkType _ _ _ _ _ (by omega)
    · exact mkChunkHeader_numRecords _ _ _ _ _ (by omega)
    · exact mkChunkHeader_decodedDataSize _ _ _ _ _ (by omega)
  unfold RW.putHeader at hw
  split at hw
  · simp at hw
  rename_i w1 hw1
  obtain ⟨a1, a2, a3, a4, a5, a6⟩ := putChunk_spec h0 (mkChunk_wf H [] kFileSignature 0 0 (by simp)) hsg
    (fun _ => hsigs) hw1
  have hsr : recordsOf parse (mkChunk H [] kFileSignature 0 0) = [] := recordsOf_eq hsg
  have fin : ∀ (cs : List Chunk) (w : RW σ), OutIs H parse cs w → cs ≠ [] → w.enc = E.empty → w.soFar = 0 →
      w.last = .invalid → w.flushed = 0 → cs.flatMap (recordsOf parse) = [] → WRun E H parse 0 0 cs [] w := by
    intro cs w b1 b2 b3 b4 b5 b6 b7
    refine ⟨⟨b1, b2, by rw [b3]; rfl, by rw [b4]; rfl⟩, by simp [b5], ?_, ?_, by omega⟩
    · rw [allPos_length, b7]; rfl
    · unfold RW.lastPos; rw [b5]; rfl
  split at hw
  · simp only [Option.some.injEq] at hw
    subst hw
    refine ⟨_, fin _ _ a1 (by simp) a2 a3 a4 a5 ?_, ?_⟩ <;> simp [hsr]
  · rename_i data dec hm
    split at hw
    · rename_i hlt
      obtain ⟨b1, b2, b3, b4, b5, b6⟩ := putChunk_spec a1 (mkChunk_wf H data kFileMetadata 0 dec hlt) (hmd data dec)
        (by simp) hw
      refine ⟨_, fin _ _ b1 (by simp) (by rw [b2, a2]) (by rw [b3, a3]) (by rw [b4, a4]) (by rw [b5, a5]) ?_, ?_⟩ <;>
        simp [hsr, recordsOf_eq (hmd data dec)]
    · simp at hw

/-- Opening a writer at the end of a valid file. -/
theorem init_append_spec (hpd : ∀ n, DecodesTo parse (paddingChunk H n) []) {w : RW σ}
    {cs : List Chunk} {F : Bytes} (hne : cs ≠ []) (hv : ValidFile H cs F)
    (hdec : ∀ c ∈ cs, DecodesTo parse c (recordsOf parse c)) (hw : RW.init E H o F = some w) :
    ∃ cs', WRun E H parse (cs.flatMap (recordsOf parse)).length 0 cs' [] w ∧ cs <+: cs' ∧ F <+: w.out ∧
      cs'.flatMap (recordsOf parse) = cs.flatMap (recordsOf parse) := by
  have hb := hv.ok.laid.boundary boundaryOk_zero
  have hlen : F.length = fileEnd 0 cs := by rw [hv.bytes, hv.ok.laid.length boundaryOk_zero]; omega
  have hpos : 0 < fileEnd 0 cs := by
    cases cs with
    | nil => exact absurd rfl hne
    | cons c cs =>
      have h2 := hv.ok.laid
      obtain ⟨_, _, _, he, h3⟩ := h2
      have hs := endAt_spec boundaryOk_zero he
      have := hs.1.gt
      have := (h3.boundary hs.1.1).2
      simp only [fileEnd]; omega
  unfold RW.init at hw
  have hi : initPos F.length = ([], F.length) := by
    unfold initPos; rw [if_pos (by rw [isPossibleChunkBoundary_iff, hlen]; exact hb.1)]
  rw [hi] at hw
  simp only [List.append_nil] at hw
  rw [if_neg (by omega)] at hw
  have h0 : OutIs H parse cs (⟨F, F.length, E.empty, 0, .invalid, 0⟩ : RW σ) :=
    ⟨hv.ok, hv.sig, hv.bytes, hlen, hdec⟩
  obtain ⟨cs', c1, c2, c3, c4, c5, c6, c7⟩ := pad_spec hpd h0 hne hw
  refine ⟨cs ++ cs', ⟨⟨c1, by simp [hne], by rw [c3]; rfl, by rw [c4]; rfl⟩, ?_, ?_, ?_, by simp [c6]⟩,
    List.prefix_append _ _, c7, by rw [List.flatMap_append, c2, List.append_nil]⟩
  · rw [c5]; simp
  · rw [allPos_length, List.flatMap_append, c2]; simp
  · unfold RW.lastPos; rw [c5]; rfl

end
end Riegeli

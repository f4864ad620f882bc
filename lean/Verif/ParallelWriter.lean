import Verif.ParallelLive
import Verif.RecordWriter
/-!
# `RecordWriter` with `parallelism > 0`

Methods of `RecordWriterBase` (`record_writer.cc:873-1088`) as programs over the parallel worker, and a
`DefaultChunkWriter` as the chunk writer.
-/
namespace Riegeli.Par
open Riegeli

/-- `DefaultChunkWriter` with its destination. -/
structure Dest where
  /-- contents of the destination -/
  out : Bytes
  /-- `chunk_writer_->pos()` -/
  pos : Nat
  /-- ghost: size of the destination at the last flush -/
  flushed : Nat
deriving DecidableEq, Repr

/-- `DefaultChunkWriterBase::WriteChunk` (`chunk_writer.cc:85-110`), as in `RW.putChunk`. -/
def destWrite (H : Bytes → UInt64) (c : Chunk) (w : Dest) : Dest × Bool :=
  if exactChunkEnd (Hdr.dataSize c.header) (Hdr.numRecords c.header) w.pos < 2 ^ 64 then
    let r := writeChunk H w.pos c
    ({ w with out := w.out ++ r.1, pos := r.2 }, true)
  else (w, false)

/-- `DefaultChunkWriterBase` (`chunk_writer.cc:65-200`). A `WritePadding` which would not return (see `PadResult`) is
made to fail. -/
def destCW (H : Bytes → UInt64) : CW Dest where
  pos := Dest.pos
  write := destWrite H
  pad p w :=
    match paddingToWrite H w.pos p with
    | .nothing => (w, true)
    | .chunk c => destWrite H c w
    | .diverges => (w, false)
    | .underflow => (w, false)
  flush w := ({ w with flushed := w.out.length }, true)

/-- A client of `RecordWriter`: a sequential program which may choose what to do next depending on the results of the
calls. Futures are represented by handles, numbered in the order of creation. -/
inductive Client (α : Type)
  /-- `WriteRecord(r)` -/
  | write (r : Bytes) (k : Bool → Client α)
  /-- `Flush()` -/
  | flush (k : Bool → Client α)
  /-- `FutureFlush()` -/
  | futureFlush (k : Nat → Client α)
  /-- `get()` of a future returned by `FutureFlush()` -/
  | getFlush (h : Nat) (k : Bool → Client α)
  /-- `LastPos()` if `last_record_is_valid()` -/
  | lastPos (k : Option Nat → Client α)
  /-- `Pos()` -/
  | pos (k : Nat → Client α)
  /-- `get()` of a position -/
  | getPos (h : Nat) (k : RecordPosition → Client α)
  /-- `Close()`; `a` is what the client has computed -/
  | close (a : α)

/-- `last_record_` with a future position. -/
inductive LastF
  | invalid | valid | validAt (h idx : Nat)
deriving DecidableEq

/-- `RecordWriterBase` without its worker, with the encoder (which only the client thread accesses until
`CloseChunk()` passes it to a task), and with the futures which the client has got: of positions (handle of the
beginning of the chunk, index of the record) and of flushes (`none` if it was failed from the beginning). -/
structure CL (σ : Type) where
  enc : σ
  soFar : Nat
  last : LastF
  tab : List (Nat × Nat)
  ftab : List (Option Nat)
  /-- `!ok()` -/
  failed : Bool

section
variable {σ α : Type} (E : Encoder σ) (H : Bytes → UInt64) (o : WOpts)

/-- What `EncodeChunk` (`record_writer.cc:363-380`) yields. -/
def encodeChunk (enc : σ) : Option Chunk :=
  match E.finish enc with
  | none => none
  | some (data, typ, dec) => if data.length < 2 ^ 64 then some (mkChunk H data typ (E.num enc) dec) else none

/-- `worker_->CloseChunk()` (`record_writer.cc:731-752`), and if it succeeded then `worker_->OpenChunk()`. -/
def closeChunkP (st : CL σ) (k : Bool → CL σ → Prog α) : Prog α :=
  .chunk (.records (encodeChunk E H st.enc)) (fun b => if b then k true { st with enc := E.empty } else k false st)

/-- `FailWithoutAnnotation(worker_->status())`, return false. -/
def failP (st : CL σ) (k : Bool → CL σ → Prog α) : Prog α := k false { st with failed := true }

/-- `RecordWriterBase::WriteRecordImpl` (`record_writer.cc:986-1004`) from `chunk_size_so_far_ += added_size` on. -/
def addRecordP (r : Bytes) (st : CL σ) (k : Bool → CL σ → Prog α) : Prog α :=
  let st := { st with soFar := st.soFar + (r.length + 8) }
  -- `worker_->AddRecord()`
  .ok (fun b =>
    if b then
      match E.add st.enc r with
      | none => .fail (failP st k)
      | some enc =>
        let st := { st with enc := enc }
        if st.soFar + 8 > o.desired then
          .chunkBegin (fun h =>
            closeChunkP E H { st with last := .validAt h (E.num st.enc - 1) } (fun b st =>
              if b then k true { st with soFar := 0 } else failP st k))
        else k true { st with last := .valid }
    else failP st k)

/-- `RecordWriterBase::WriteRecord` (`record_writer.cc:937-1005`). -/
def writeRecordP (r : Bytes) (st : CL σ) (k : Bool → CL σ → Prog α) : Prog α :=
  if st.failed then k false st
  else
    let st := { st with last := .invalid }
    if st.soFar + (r.length + 8) > o.desired ∧ st.soFar > 0 then
      closeChunkP E H st (fun b st => if b then addRecordP E H o r { st with soFar := 0 } k else failP st k)
    else addRecordP E H o r st k

/-- The common beginning of `Flush`, `FutureFlush`, `Done`: closes the chunk if it is not empty. -/
def closeNonemptyP (st : CL σ) (k : Bool → CL σ → Prog α) : Prog α :=
  if st.soFar > 0 then
    if st.last = .valid then
      .chunkBegin (fun h => closeChunkP E H { st with last := .validAt h (E.num st.enc - 1) } k)
    else closeChunkP E H st k
  else k true st

/-- `RecordWriterBase::Flush` (`record_writer.cc:1007-1030`), for flush types for which the chunk writer is flushed. -/
def flushP (st : CL σ) (k : Bool → CL σ → Prog α) : Prog α :=
  if st.failed then k false st
  else
    closeNonemptyP E H st (fun b st =>
      if b then
        .pad o.finalPadding (fun b =>
          if b then .futureFlush (fun h => .getFlush h (fun b => if b then k true { st with soFar := 0 } else failP st k))
          else failP st k)
      else failP st k)

/-- `RecordWriterBase::FutureFlush` (`record_writer.cc:1032-1069`). -/
def futureFlushP (st : CL σ) (k : Option Nat → CL σ → Prog α) : Prog α :=
  if st.failed then k none st
  else
    closeNonemptyP E H st (fun b st =>
      if b then
        .pad o.finalPadding (fun b =>
          if b then .futureFlush (fun h => k (some h) { st with soFar := 0 }) else k none { st with failed := true })
      else k none { st with failed := true })

/-- `RecordWriterBase::Done` (`record_writer.cc:891-912`). Results of `CloseChunk()` and `MaybePadToFinalBoundary()` do
not matter: if they are false then `worker_->Close()` returns false. -/
def closeP (st : CL σ) (a : α) : Prog α :=
  closeNonemptyP E H st (fun _ _ => .pad o.finalPadding (fun _ => .close a))

/-- The calls of methods of the worker which the client leads to. -/
def Client.prog : Client α → CL σ → Prog α
  | .write r k, st => writeRecordP E H o r st (fun b st => (k b).prog st)
  | .flush k, st => flushP E H o st (fun b st => (k b).prog st)
  | .futureFlush k, st =>
    futureFlushP E H o st (fun h st => (k st.ftab.length).prog { st with ftab := st.ftab ++ [h] })
  | .getFlush i k, st =>
    match st.ftab[i]? with
    | some (some h) => .getFlush h (fun b => (k b).prog st)
    | _ => (k false).prog st
  | .lastPos k, st =>
    match st.last with
    | .invalid => (k none).prog st
    | .valid => .chunkBegin (fun h =>
        (k (some st.tab.length)).prog { st with tab := st.tab ++ [(h, E.num st.enc - 1)] })
    | .validAt h idx => (k (some st.tab.length)).prog { st with tab := st.tab ++ [(h, idx)] }
  | .pos k, st => .chunkBegin (fun h => (k st.tab.length).prog { st with tab := st.tab ++ [(h, E.num st.enc)] })
  | .getPos i k, st =>
    match st.tab[i]? with
    | some (h, idx) => .getPos h (fun p => (k ⟨p, idx⟩).prog st)
    | none => (k ⟨0, 0⟩).prog st
  | .close a, st => closeP E H o st a

/-- Constructing the writer (`record_writer.cc:263-270`, `record_writer.cc:873-889`), then running the client; `pos` is the
initial position of the chunk writer. -/
def Client.start (c : Client α) (pos : Nat) : Prog α :=
  let st : CL σ := ⟨E.empty, 0, .invalid, [], [], false⟩
  -- `worker_->status()` is checked after construction
  let run : Prog α := .ok (fun b => c.prog E H o (if b then st else { st with failed := true }))
  if pos = 0 then
    .chunk (.now (RW.signatureChunk H)) (fun b =>
      if b then
        match o.metadata with
        | none => run
        | some (data, dec) =>
          .chunk (.metadata (if data.length < 2 ^ 64 then some (mkChunk H data kFileMetadata 0 dec) else none))
            (fun _ => run)
      else run)
  else .pad o.initialPadding (fun _ => run)

/-- The same client with a serial writer (`parallelism == 0`), in terms of the model of `RecordWriter.lean`; `tab` are the
positions which the client has asked for, `nf` is the number of futures returned by `FutureFlush()`. `none` if anything
fails. -/
def Client.serial : Client α → RW σ → List RecordPosition → Nat → Option (RW σ × α)
  | .write r k, w, tab, nf =>
    match w.writeRecord E H o r with
    | none => none
    | some w => (k true).serial w tab nf
  | .flush k, w, tab, nf =>
    match w.flush E H o with
    | none => none
    | some w => (k true).serial w tab nf
  | .futureFlush k, w, tab, nf =>
    match w.flush E H o with
    | none => none
    | some w => (k nf).serial w tab (nf + 1)
  | .getFlush i k, w, tab, nf => (k (decide (i < nf))).serial w tab nf
  | .lastPos k, w, tab, nf =>
    match w.lastPos E with
    | none => (k none).serial w tab nf
    | some p => (k (some tab.length)).serial w (tab ++ [p]) nf
  | .pos k, w, tab, nf => (k tab.length).serial w (tab ++ [w.position E]) nf
  | .getPos i k, w, tab, nf => (k ((tab[i]?).getD ⟨0, 0⟩)).serial w tab nf
  | .close a, w, _, _ =>
    match w.close E H o with
    | none => none
    | some w => some (w, a)

end

/-! ## The chunk writer is lawful -/

theorem padEndLoop_boundary {padding x y : Nat} (h : padEndLoop padding x = some y) : BoundaryOk y := by
  refine padEndLoop.partial_correctness (padding := padding) (fun x y => BoundaryOk y) ?_ x y h
  intro loop ih x y hxy
  split at hxy
  · rename_i hb
    simp only [Option.some.injEq] at hxy
    subst hxy
    exact (isPossibleChunkBoundary_iff _).1 hb
  · exact ih _ _ hxy

variable {H : Bytes → UInt64}

theorem destWrite_ok {c : Chunk} {w w' : Dest} (hb : BoundaryOk w.pos) (hc : WFChunk H c)
    (h : destWrite H c w = (w', true)) :
    BoundaryOk w'.pos ∧ w'.pos < 2 ^ 64 ∧
      w'.pos = chunkEnd (Hdr.dataSize c.header) (Hdr.numRecords c.header) w.pos := by
  unfold destWrite at h
  split at h
  · rename_i hlt
    have hh := exactChunkEnd_holds (d := Hdr.dataSize c.header) (n := Hdr.numRecords c.header) hb
    have hs := endAt_spec (c := c) hb ⟨_, hlt, hh⟩
    rw [writeChunk_eq hc hb hs.1] at h
    simp only [Prod.mk.injEq, and_true] at h
    subst h
    exact ⟨hs.1.1, hs.2, rfl⟩
  · simp at h

theorem posAfterPadding_boundary {pos padding y : Nat} (hb : BoundaryOk pos) (h : posAfterPadding pos padding = some y) :
    BoundaryOk y := by
  unfold posAfterPadding at h
  split at h
  · cases h; exact hb
  simp only at h
  split at h
  · cases h; exact hb
  split at h
  · cases h
  · exact padEndLoop_boundary h

/-- The default chunk writer moves exactly as positions are computed by the parallel worker, for every padding. -/
theorem destCW_lawful (H : Bytes → UInt64) :
    (destCW H).Lawful (fun w => BoundaryOk w.pos ∧ w.pos < 2 ^ 64) (WFChunk H) (fun _ => True) where
  write c w w' hI hc h := by
    have := destWrite_ok hI.1 hc h
    exact ⟨⟨this.1, this.2.1⟩, this.2.2⟩
  pad p w w' hI _ h := by
    simp only [destCW] at h
    split at h
    · rename_i hp
      simp only [Prod.mk.injEq, and_true] at h
      subst h
      refine ⟨hI, ?_⟩
      unfold paddingToWrite at hp
      split at hp
      · cases hp
      · rename_i y hy
        simp only at hp
        split at hp
        · rename_i he; rw [he] at hy; exact hy
        · split at hp <;> cases hp
    · rename_i c hp
      have hwf : ∃ n, n < 2 ^ 64 ∧ c = paddingChunk H n := paddingToWrite_wf hI.2 hp
      obtain ⟨n, hn, hc⟩ := hwf
      have hk := destWrite_ok hI.1 (hc ▸ paddingChunk_wf hn) h
      refine ⟨⟨hk.1, hk.2.1⟩, ?_⟩
      unfold paddingToWrite at hp
      split at hp
      · cases hp
      · rename_i y hy
        have hby := posAfterPadding_boundary hI.1 hy
        have hly := posAfterPadding_lt hI.2 hy
        simp only at hp
        split at hp
        · cases hp
        · split at hp
          · cases hp
          · rename_i hd
            have hle : w.pos ≤ y := by
              apply Nat.le_of_not_lt
              intro hlt
              apply hd
              unfold distanceWithoutOverhead
              omega
            rw [distanceWithoutOverhead_eq hle] at hd hp
            obtain ⟨_, h2⟩ := paddingChunk_end (H := H) hI.1 hly hby hle (by omega)
            have hc2 : paddingChunk H (usable w.pos y - 40) = c := PadResult.chunk.inj hp
            have hpos : w'.pos = c.endAt w.pos := hk.2.2
            rw [hc2] at h2
            exact hy.trans (by rw [← h2, ← hpos]; rfl)
    · cases h
    · cases h
  flush w w' hI h := by
    simp only [destCW, Prod.mk.injEq, and_true] at h
    subst h
    exact ⟨hI, rfl⟩

/-! ## The chunks of a client are well formed -/

section
variable {σ α : Type} {E : Encoder σ} {o : WOpts}

/-- Chunks which a source yields are well formed. -/
abbrev GoodSrc (H : Bytes → UInt64) (src : Src) : Prop := ∀ c, src.result = some c → WFChunk H c

theorem encodeChunk_wf {enc : σ} {c : Chunk} (h : encodeChunk E H enc = some c) : WFChunk H c := by
  unfold encodeChunk at h
  split at h
  · cases h
  split at h
  · rename_i hd
    cases h; exact mkChunk_wf _ _ _ _ _ hd
  · cases h

section
variable {G : Src → Prop} {Q : Nat → Prop}

theorem closeChunkP_all (hG : ∀ enc : σ, G (.records (encodeChunk E H enc))) {st : CL σ} {k : Bool → CL σ → Prog α} (hk : ∀ b st, Prog.All G Q (k b st)) :
    Prog.All G Q (closeChunkP E H st k) := by
  refine ⟨hG _, fun b => ?_⟩
  cases b
  · exact hk _ _
  · exact hk _ _

theorem addRecordP_all (hG : ∀ enc : σ, G (.records (encodeChunk E H enc))) {r : Bytes} {st : CL σ} {k : Bool → CL σ → Prog α} (hk : ∀ b st, Prog.All G Q (k b st)) :
    Prog.All G Q (addRecordP E H o r st k) := by
  intro b
  simp only
  split
  · split
    · exact hk _ _
    · split
      · intro h
        apply closeChunkP_all hG
        intro b st
        simp only [failP]
        split <;> exact hk _ _
      · exact hk _ _
  · exact hk _ _

theorem writeRecordP_all (hG : ∀ enc : σ, G (.records (encodeChunk E H enc))) {r : Bytes} {st : CL σ} {k : Bool → CL σ → Prog α} (hk : ∀ b st, Prog.All G Q (k b st)) :
    Prog.All G Q (writeRecordP E H o r st k) := by
  unfold writeRecordP
  split
  · exact hk _ _
  · simp only
    split
    · apply closeChunkP_all hG
      intro b st
      simp only [failP]
      split
      · exact addRecordP_all hG hk
      · exact hk _ _
    · exact addRecordP_all hG hk

theorem closeNonemptyP_all (hG : ∀ enc : σ, G (.records (encodeChunk E H enc))) {st : CL σ} {k : Bool → CL σ → Prog α} (hk : ∀ b st, Prog.All G Q (k b st)) :
    Prog.All G Q (closeNonemptyP E H st k) := by
  unfold closeNonemptyP
  split
  · split
    · intro h; exact closeChunkP_all hG hk
    · exact closeChunkP_all hG hk
  · exact hk _ _

theorem flushP_all (hG : ∀ enc : σ, G (.records (encodeChunk E H enc))) (hQ : Q o.finalPadding) {st : CL σ} {k : Bool → CL σ → Prog α} (hk : ∀ b st, Prog.All G Q (k b st)) :
    Prog.All G Q (flushP E H o st k) := by
  unfold flushP
  split
  · exact hk _ _
  · apply closeNonemptyP_all hG
    intro b st
    simp only [failP]
    split
    · refine ⟨hQ, fun b => ?_⟩
      simp only
      split
      · intro h b
        simp only
        split <;> exact hk _ _
      · exact hk _ _
    · exact hk _ _

theorem futureFlushP_all (hG : ∀ enc : σ, G (.records (encodeChunk E H enc))) (hQ : Q o.finalPadding) {st : CL σ} {k : Option Nat → CL σ → Prog α} (hk : ∀ b st, Prog.All G Q (k b st)) :
    Prog.All G Q (futureFlushP E H o st k) := by
  unfold futureFlushP
  split
  · exact hk _ _
  · apply closeNonemptyP_all hG
    intro b st
    split
    · refine ⟨hQ, fun b => ?_⟩
      simp only
      split
      · intro h; exact hk _ _
      · exact hk _ _
    · exact hk _ _

theorem client_all (hG : ∀ enc : σ, G (.records (encodeChunk E H enc))) (hQ : Q o.finalPadding) (c : Client α) : ∀ st : CL σ, Prog.All G Q (c.prog E H o st) := by
  induction c with
  | write r k ih => intro st; exact writeRecordP_all hG (fun b st => ih b st)
  | flush k ih => intro st; exact flushP_all hG hQ (fun b st => ih b st)
  | futureFlush k ih => intro st; exact futureFlushP_all hG hQ (fun b st => ih _ _)
  | getFlush i k ih =>
    intro st
    simp only [Client.prog]
    split
    · intro b; exact ih _ _
    · exact ih _ _
  | lastPos k ih =>
    intro st
    simp only [Client.prog]
    split
    · exact ih _ _
    · intro h; exact ih _ _
    · exact ih _ _
  | pos k ih => intro st h; exact ih _ _
  | getPos i k ih =>
    intro st
    simp only [Client.prog]
    split
    · intro p; exact ih _ _
    · exact ih _ _
  | close a =>
    intro st
    simp only [Client.prog, closeP]
    apply closeNonemptyP_all hG
    intro b st
    exact ⟨hQ, fun _ => trivial⟩

theorem start_allG (hG : ∀ enc : σ, G (.records (encodeChunk E H enc))) (hQ : Q o.finalPadding) (hQ' : Q o.initialPadding)
    (hsig : G (.now (RW.signatureChunk H))) (hmeta : ∀ data dec, o.metadata = some (data, dec) →
      G (.metadata (if data.length < 2 ^ 64 then some (mkChunk H data kFileMetadata 0 dec) else none)))
    (c : Client α) (pos : Nat) : Prog.All G Q (c.start E H o pos) := by
  have hrun : ∀ st : CL σ, Prog.All G Q (Prog.ok (fun b => c.prog E H o (if b then st else { st with failed := true }))) :=
    fun st b => client_all hG hQ c _
  unfold Client.start
  simp only
  split
  · refine ⟨hsig, fun b => ?_⟩
    · cases b
      · exact hrun _
      · dsimp only
        rw [if_pos rfl]
        split
        · exact hrun _
        · rename_i data dec hm
          exact ⟨hmeta data dec hm, fun _ => hrun _⟩
  · exact ⟨hQ', fun _ => hrun _⟩

end

theorem start_all (c : Client α) (pos : Nat) : (c.start E H o pos).All (GoodSrc H) (fun _ => True) := by
  refine start_allG (fun enc c hc => encodeChunk_wf hc) trivial trivial ?_ ?_ c pos
  · intro c hc; cases hc; exact mkChunk_wf _ _ _ _ _ (by simp)
  · intro data dec _ c hc
    simp only [Src.result] at hc
    split at hc
    · cases hc; exact mkChunk_wf _ _ _ _ _ (by assumption)
    · cases hc

end

/-! ## The serial worker is the writer of `RecordWriter.lean` -/

/-- Whenever the encoder `E'` of the serial worker succeeds, the encoder `E` of the parallel worker does the same. -/
structure EncSim {σ σ' : Type} (E : Encoder σ) (E' : Encoder σ') (R : σ → σ' → Prop) : Prop where
  empty : R E.empty E'.empty
  add : ∀ a b b' r, R a b → E'.add b r = some b' → ∃ a', E.add a r = some a' ∧ R a' b'
  num : ∀ a b, R a b → E.num a = E'.num b
  finish : ∀ a b x, R a b → E'.finish b = some x → E.finish a = some x

section
variable {σ σ' α : Type} {E : Encoder σ} {E' : Encoder σ'} {R : σ → σ' → Prop} {o : WOpts}

/-- `last_record_` of both. -/
def LastRel (snaps : List Nat) : LastF → Last → Prop
  | .invalid, .invalid => True
  | .valid, .valid => True
  | .validAt h idx, .validAt p => snaps[h]? = some p.chunkBegin ∧ idx = p.recordIndex
  | _, _ => False

theorem LastRel.mono {snaps : List Nat} {x : Nat} : ∀ {l : LastF} {l' : Last}, LastRel snaps l l' →
    LastRel (snaps ++ [x]) l l'
  | .invalid, .invalid, _ => trivial
  | .valid, .valid, _ => trivial
  | .validAt _ _, .validAt _, h => ⟨getElem?_snoc h.1, h.2⟩
  | .invalid, .valid, h => h.elim
  | .invalid, .validAt _, h => h.elim
  | .valid, .invalid, h => h.elim
  | .valid, .validAt _, h => h.elim
  | .validAt _ _, .invalid, h => h.elim
  | .validAt _ _, .valid, h => h.elim

/-- Correspondence of the serial worker together with the rest of `RecordWriterBase` and the writer of
`RecordWriter.lean`. -/
structure WRel (R : σ → σ' → Prop) (s : Ser Dest) (st : CL σ) (w : RW σ') (tab : List RecordPosition) (nf : Nat) : Prop where
  cw : s.cw = ⟨w.out, w.pos, w.flushed⟩
  enc : R st.enc w.enc
  soFar : st.soFar = w.soFar
  last : LastRel s.snaps st.last w.last
  tabLen : st.tab.length = tab.length
  tab : ∀ (i h idx : Nat), st.tab[i]? = some (h, idx) → ∃ p, s.snaps[h]? = some p ∧ tab[i]? = some ⟨p, idx⟩
  ftabLen : st.ftab.length = nf
  ftab : ∀ (i : Nat) (x : Option Nat), st.ftab[i]? = some x → ∃ h, x = some h ∧ h < s.flushes.length
  ok : st.failed = false

theorem putChunk_serial {c : Chunk} {s : Ser Dest} {st : CL σ} {w w' : RW σ'} {tab : List RecordPosition} {nf : Nat}
    (h : WRel R s st w tab nf) (hw : w.putChunk H c = some w') :
    ∃ d, (destCW H).write c s.cw = (d, true) ∧ WRel R { s with cw := d } st w' tab nf := by
  unfold RW.putChunk at hw
  split at hw
  · rename_i hlt
    simp only [Option.some.injEq] at hw
    refine ⟨⟨w'.out, w'.pos, w'.flushed⟩, ?_, ?_⟩
    · subst hw
      simp only [destCW, destWrite, h.cw]
      rw [if_pos hlt]
    · subst hw
      exact ⟨rfl, h.enc, h.soFar, h.last, h.tabLen, h.tab, h.ftabLen, h.ftab, h.ok⟩
  · cases hw

theorem pad_serial {padding : Nat} {s : Ser Dest} {st : CL σ} {w w' : RW σ'} {tab : List RecordPosition} {nf : Nat}
    (h : WRel R s st w tab nf) (hw : w.pad H padding = some w') :
    ∃ d, (destCW H).pad padding s.cw = (d, true) ∧ WRel R { s with cw := d } st w' tab nf := by
  unfold RW.pad at hw
  split at hw
  · rename_i hp
    simp only [Option.some.injEq] at hw
    subst hw
    refine ⟨s.cw, ?_, h⟩
    simp only [destCW, h.cw, hp]
  · rename_i c hp
    obtain ⟨d, h1, h2⟩ := putChunk_serial h hw
    refine ⟨d, ?_, h2⟩
    rw [show (destCW H).pad padding s.cw = (destCW H).write c s.cw by
      simp only [destCW, h.cw, hp]]
    exact h1
  · cases hw
  · cases hw

theorem closeChunk_serial (hE : EncSim E E' R) {s : Ser Dest} {st : CL σ} {w w' : RW σ'} {tab : List RecordPosition}
    {nf : Nat} {k : Bool → CL σ → Prog α} (h : WRel R s st w tab nf) (hw : w.closeChunk E' H = some w') :
    ∃ d, (closeChunkP E H st k).serial (destCW H) s =
        (k true { st with enc := E.empty }).serial (destCW H) { s with cw := d } ∧
      WRel R { s with cw := d } { st with enc := E.empty } w' tab nf := by
  unfold RW.closeChunk at hw
  split at hw
  · cases hw
  rename_i data typ dec hfin
  split at hw
  rotate_left
  · cases hw
  rename_i hlen
  split at hw
  · cases hw
  rename_i w1 hput
  simp only [Option.some.injEq] at hw
  subst hw
  obtain ⟨d, h1, h2⟩ := putChunk_serial h hput
  refine ⟨d, ?_, ?_⟩
  · have he : encodeChunk E H st.enc = some (mkChunk H data typ (E'.num w.enc) dec) := by
      unfold encodeChunk
      rw [hE.finish _ _ _ h.enc hfin]
      simp only
      rw [if_pos hlen, hE.num _ _ h.enc]
    simp only [closeChunkP, Prog.serial, Src.result, he, h1]
    rfl
  · exact ⟨h2.cw, hE.empty, h2.soFar, h2.last, h2.tabLen, h2.tab, h2.ftabLen, h2.ftab, h2.ok⟩

/-- `ChunkBegin()` of the serial worker. -/
theorem WRel.snap {s : Ser Dest} {st : CL σ} {w : RW σ'} {tab : List RecordPosition} {nf : Nat}
    (h : WRel R s st w tab nf) (x : Nat) : WRel R { s with snaps := s.snaps ++ [x] } st w tab nf :=
  ⟨h.cw, h.enc, h.soFar, h.last.mono, h.tabLen, fun i hh idx hi => by
    obtain ⟨p, h1, h2⟩ := h.tab i hh idx hi
    exact ⟨p, getElem?_snoc h1, h2⟩, h.ftabLen, h.ftab, h.ok⟩

/-- `last_record_ = LastRecordIsValidAt{worker_->LastPos()}`. -/
theorem WRel.lastAt (hE : EncSim E E' R) {s : Ser Dest} {st : CL σ} {w : RW σ'} {tab : List RecordPosition} {nf : Nat}
    (h : WRel R s st w tab nf) : WRel R { s with snaps := s.snaps ++ [(destCW H).pos s.cw] }
      { st with last := .validAt s.snaps.length (E.num st.enc - 1) } { w with last := .validAt (w.workerLastPos E') } tab nf := by
  have h1 := h.snap ((destCW H).pos s.cw)
  refine ⟨h1.cw, h1.enc, h1.soFar, ?_, h1.tabLen, h1.tab, h1.ftabLen, h1.ftab, h1.ok⟩
  simp only [LastRel, RW.workerLastPos]
  refine ⟨?_, by rw [hE.num _ _ h.enc]⟩
  simp [destCW, h.cw]

theorem WRel.setLast {s : Ser Dest} {st : CL σ} {w : RW σ'} {tab : List RecordPosition} {nf : Nat}
    (h : WRel R s st w tab nf) {l : LastF} {l' : Last} (hl : LastRel s.snaps l l') :
    WRel R s { st with last := l } { w with last := l' } tab nf :=
  ⟨h.cw, h.enc, h.soFar, hl, h.tabLen, h.tab, h.ftabLen, h.ftab, h.ok⟩

theorem WRel.setSoFar {s : Ser Dest} {st : CL σ} {w : RW σ'} {tab : List RecordPosition} {nf : Nat}
    (h : WRel R s st w tab nf) (n : Nat) : WRel R s { st with soFar := n } { w with soFar := n } tab nf :=
  ⟨h.cw, h.enc, rfl, h.last, h.tabLen, h.tab, h.ftabLen, h.ftab, h.ok⟩

theorem WRel.setEnc {s : Ser Dest} {st : CL σ} {w : RW σ'} {tab : List RecordPosition} {nf : Nat}
    (h : WRel R s st w tab nf) {a : σ} {b : σ'} (hr : R a b) : WRel R s { st with enc := a } { w with enc := b } tab nf :=
  ⟨h.cw, hr, h.soFar, h.last, h.tabLen, h.tab, h.ftabLen, h.ftab, h.ok⟩

theorem addRecord_serial (hE : EncSim E E' R) {r : Bytes} {s : Ser Dest} {st : CL σ} {w w' : RW σ'}
    {tab : List RecordPosition} {nf : Nat} {k : Bool → CL σ → Prog α} (h : WRel R s st w tab nf)
    (hw : (match E'.add w.enc r with
      | none => none
      | some enc =>
        let w := { w with soFar := w.soFar + (r.length + 8) }
        let w := { w with enc := enc }
        if w.soFar + 8 > o.desired then
          let w := { w with last := .validAt (w.workerLastPos E') }
          match w.closeChunk E' H with
          | none => none
          | some w => some { w with soFar := 0 }
        else some { w with last := .valid }) = some w') :
    ∃ s' st', (addRecordP E H o r st k).serial (destCW H) s = (k true st').serial (destCW H) s' ∧
      WRel R s' st' w' tab nf := by
  split at hw
  · cases hw
  rename_i enc' hadd
  obtain ⟨enc, h1, h2⟩ := hE.add _ _ _ _ h.enc hadd
  have h3 := (h.setSoFar (w.soFar + (r.length + 8))).setEnc h2
  unfold addRecordP
  simp only [Prog.serial, ↓reduceIte, h1, h.soFar]
  dsimp only at hw h3
  split at hw
  · rename_i hd
    rw [if_pos hd]
    have h4 := h3.lastAt (H := H) hE
    split at hw
    · cases hw
    rename_i w2 hcl
    simp only [Option.some.injEq] at hw
    subst hw
    simp only [Prog.serial]
    obtain ⟨d, h5, h6⟩ := closeChunk_serial (α := α) hE (k := fun b st =>
      if b then k true { st with soFar := 0 } else failP st k) h4 hcl
    refine ⟨_, _, ?_, h6.setSoFar 0⟩
    exact h5
  · rename_i hd
    rw [if_neg hd]
    simp only [Option.some.injEq] at hw
    subst hw
    exact ⟨_, _, rfl, h3.setLast (l := .valid) trivial⟩

theorem writeRecord_serial (hE : EncSim E E' R) {r : Bytes} {s : Ser Dest} {st : CL σ} {w w' : RW σ'}
    {tab : List RecordPosition} {nf : Nat} {k : Bool → CL σ → Prog α} (h : WRel R s st w tab nf)
    (hw : w.writeRecord E' H o r = some w') :
    ∃ s' st', (writeRecordP E H o r st k).serial (destCW H) s = (k true st').serial (destCW H) s' ∧
      WRel R s' st' w' tab nf := by
  unfold RW.writeRecord at hw
  unfold writeRecordP
  rw [if_neg (by rw [h.ok]; simp)]
  have h1 := h.setLast (l := .invalid) (l' := .invalid) trivial
  dsimp only at hw ⊢
  simp only [h.soFar]
  by_cases hc : w.soFar + (r.length + 8) > o.desired ∧ w.soFar > 0
  · rw [if_pos hc] at hw ⊢
    split at hw
    · cases hw
    rename_i w1 hw1
    split at hw1
    · cases hw1
    rename_i w2 hcl
    simp only [Option.some.injEq] at hw1
    subst hw1
    obtain ⟨d, h2, h3⟩ := closeChunk_serial (α := α) hE (k := fun b st =>
      if b then addRecordP E H o r { st with soFar := 0 } k else failP st k) h1 hcl
    have h4 := h3.setSoFar 0
    obtain ⟨s', st', h5, h6⟩ := addRecord_serial (k := k) hE h4 hw
    refine ⟨s', st', ?_, h6⟩
    rw [← h5]
    simp only [h.soFar] at h2
    exact h2
  · rw [if_neg hc] at hw ⊢
    dsimp only at hw
    obtain ⟨s', st', h5, h6⟩ := addRecord_serial (k := k) hE h1 hw
    refine ⟨s', st', ?_, h6⟩
    rw [← h5]
    simp only [h.soFar]

/-- The part of `finishChunk` before padding. -/
theorem closeNonempty_serial (hE : EncSim E E' R) {s : Ser Dest} {st : CL σ} {w w' : RW σ'}
    {tab : List RecordPosition} {nf : Nat} {k : Bool → CL σ → Prog α} (h : WRel R s st w tab nf)
    (hw : (if w.soFar > 0 then
      let w := if w.last = .valid then { w with last := .validAt (w.workerLastPos E') } else w
      match w.closeChunk E' H with
      | none => none
      | some w => some { w with soFar := 0 }
    else some w) = some w') :
    ∃ s' st', (closeNonemptyP E H st k).serial (destCW H) s = (k true st').serial (destCW H) s' ∧
      WRel R s' { st' with soFar := 0 } w' tab nf := by
  unfold closeNonemptyP
  split at hw
  · rename_i hpos
    rw [if_pos (by rw [h.soFar]; exact hpos)]
    have hlast := h.last
    by_cases hl : w.last = .valid
    · have hl2 : st.last = .valid := by
        rw [hl] at hlast
        cases hx : st.last <;> rw [hx] at hlast <;> first | rfl | exact hlast.elim
      rw [if_pos hl2]
      simp only [hl, ↓reduceIte] at hw
      split at hw
      · cases hw
      rename_i w2 hcl
      simp only [Option.some.injEq] at hw
      subst hw
      obtain ⟨d, h2, h3⟩ := closeChunk_serial (α := α) hE (k := k) (h.lastAt (H := H) hE) hcl
      exact ⟨_, _, h2, h3.setSoFar 0⟩
    · have hl2 : ¬ st.last = .valid := by
        intro hx
        rw [hx] at hlast
        cases hy : w.last <;> rw [hy] at hlast <;> first | exact hl hy | exact hlast.elim
      rw [if_neg hl2]
      simp only [hl, ↓reduceIte] at hw
      split at hw
      · cases hw
      rename_i w2 hcl
      simp only [Option.some.injEq] at hw
      subst hw
      obtain ⟨d, h2, h3⟩ := closeChunk_serial (α := α) hE (k := k) h hcl
      exact ⟨_, _, h2, h3.setSoFar 0⟩
  · rename_i hpos
    rw [if_neg (by rw [h.soFar]; exact hpos)]
    simp only [Option.some.injEq] at hw
    subst hw
    refine ⟨s, st, rfl, ?_⟩
    have : st.soFar = 0 := by rw [h.soFar]; omega
    exact ⟨h.cw, h.enc, by rw [← h.soFar]; exact this.symm, h.last, h.tabLen, h.tab, h.ftabLen, h.ftab, h.ok⟩

theorem finish_serial (hE : EncSim E E' R) {s : Ser Dest} {st : CL σ} {w w' : RW σ'}
    {tab : List RecordPosition} {nf : Nat} {k : Bool → CL σ → Prog α} (h : WRel R s st w tab nf)
    (hw : w.finishChunk E' H o = some w') :
    ∃ s' st' d, (closeNonemptyP E H st k).serial (destCW H) s = (k true st').serial (destCW H) s' ∧
      (destCW H).pad o.finalPadding s'.cw = (d, true) ∧
      WRel R { s' with cw := d } { st' with soFar := 0 } w' tab nf := by
  unfold RW.finishChunk at hw
  dsimp only at hw
  split at hw
  · cases hw
  rename_i w1 hw1
  obtain ⟨s', st', h1, h2⟩ := closeNonempty_serial (k := k) hE h hw1
  obtain ⟨d, h3, h4⟩ := pad_serial h2 hw
  exact ⟨s', st', d, h1, h3, h4⟩

/-- Flushing the chunk writer. -/
theorem WRel.flush {s : Ser Dest} {st : CL σ} {w : RW σ'} {tab : List RecordPosition} {nf : Nat}
    (h : WRel R s st w tab nf) :
    WRel R { cw := ((destCW H).flush s.cw).1, snaps := s.snaps, flushes := s.flushes ++ [((destCW H).flush s.cw).1] } st
      { w with flushed := w.out.length } tab nf := by
  refine ⟨?_, h.enc, h.soFar, h.last, h.tabLen, h.tab, h.ftabLen, ?_, h.ok⟩
  · simp only [destCW, h.cw]
  · intro i x hx
    obtain ⟨hh, h1, h2⟩ := h.ftab i x hx
    exact ⟨hh, h1, by simp only [List.length_append]; omega⟩

theorem destCW_flush (d : Dest) : (destCW H).flush d = (((destCW H).flush d).1, true) := rfl

/-- **The serial worker of the parallel model is the serial writer**: a client which succeeds with the serial writer runs
the same with the serial worker. -/
theorem client_serial (hE : EncSim E E' R) (c : Client α) : ∀ {s : Ser Dest} {st : CL σ} {w w' : RW σ'}
    {tab : List RecordPosition} {nf : Nat} {a : α}, WRel R s st w tab nf → c.serial E' H o w tab nf = some (w', a) →
    ∃ s', (c.prog E H o st).serial (destCW H) s = some (s', a) ∧ s'.cw = ⟨w'.out, w'.pos, w'.flushed⟩ := by
  induction c with
  | write r k ih =>
    intro s st w w' tab nf a h hc
    simp only [Client.serial] at hc
    split at hc
    · cases hc
    rename_i w1 hw1
    obtain ⟨s', st', h1, h2⟩ := writeRecord_serial (k := fun b st => (k b).prog E H o st) hE h hw1
    simp only [Client.prog, h1]
    exact ih _ h2 hc
  | flush k ih =>
    intro s st w w' tab nf a h hc
    simp only [Client.serial] at hc
    split at hc
    · cases hc
    rename_i w1 hw1
    unfold RW.flush at hw1
    split at hw1
    · cases hw1
    rename_i w2 hw2
    simp only [Option.some.injEq] at hw1
    subst hw1
    simp only [Client.prog, flushP]
    rw [if_neg (by rw [h.ok]; simp)]
    obtain ⟨s', st', d, h1, h2, h3⟩ := finish_serial hE h hw2
    rw [h1]
    simp only [↓reduceIte, Prog.serial, h2]
    rw [destCW_flush]
    simp only [List.length_append, List.length_singleton]
    rw [if_pos (by simp)]
    exact ih _ (h3.flush (H := H)) hc
  | futureFlush k ih =>
    intro s st w w' tab nf a h hc
    simp only [Client.serial] at hc
    split at hc
    · cases hc
    rename_i w1 hw1
    unfold RW.flush at hw1
    split at hw1
    · cases hw1
    rename_i w2 hw2
    simp only [Option.some.injEq] at hw1
    subst hw1
    simp only [Client.prog, futureFlushP]
    rw [if_neg (by rw [h.ok]; simp)]
    obtain ⟨s', st', d, h1, h2, h3⟩ := finish_serial hE h hw2
    rw [h1]
    simp only [↓reduceIte, Prog.serial, h2]
    rw [destCW_flush]
    have h4 := h3.flush (H := H)
    have hl : st'.ftab.length = nf := h4.ftabLen
    simp only [hl]
    refine ih _ ⟨h4.cw, h4.enc, h4.soFar, h4.last, h4.tabLen, h4.tab, ?_, ?_, h4.ok⟩ hc
    · simp [hl]
    · intro i x hx
      dsimp only at hx
      rcases Nat.lt_or_ge i st'.ftab.length with hlt | hge
      · rw [List.getElem?_append_left hlt] at hx
        exact h4.ftab i x hx
      · rw [List.getElem?_append_right hge] at hx
        have := List.mem_singleton.1 (List.mem_of_getElem? hx)
        exact ⟨_, this, by simp⟩
  | getFlush i k ih =>
    intro s st w w' tab nf a h hc
    simp only [Client.serial] at hc
    simp only [Client.prog]
    by_cases hi : i < nf
    · have hlt : i < st.ftab.length := by rw [h.ftabLen]; exact hi
      obtain ⟨hh, h1, h2⟩ := h.ftab i _ (List.getElem?_eq_getElem hlt)
      rw [List.getElem?_eq_getElem hlt, h1]
      simp only [Prog.serial]
      rw [show decide (hh < s.flushes.length) = decide (i < nf) by simp [h2, hi]]
      exact ih _ h hc
    · have hge : st.ftab[i]? = none := by rw [List.getElem?_eq_none_iff, h.ftabLen]; omega
      rw [hge]
      rw [show decide (i < nf) = false by simp [hi]] at hc
      exact ih _ h hc
  | lastPos k ih =>
    intro s st w w' tab nf a h hc
    simp only [Client.serial] at hc
    simp only [Client.prog]
    have hlast := h.last
    cases hx : st.last with
    | invalid =>
      cases hy : w.last <;> rw [hx, hy] at hlast <;> try exact hlast.elim
      simp only [RW.lastPos, hy] at hc
      exact ih _ h hc
    | valid =>
      cases hy : w.last <;> rw [hx, hy] at hlast <;> try exact hlast.elim
      simp only [RW.lastPos, hy] at hc
      simp only [Prog.serial]
      have h1 := h.snap ((destCW H).pos s.cw)
      rw [h.tabLen]
      refine ih _ ⟨h1.cw, h1.enc, h1.soFar, by rw [hy]; trivial, by simp [h.tabLen], ?_, h1.ftabLen, h1.ftab, h1.ok⟩ hc
      intro i hh idx hi
      dsimp only at hi ⊢
      rcases Nat.lt_or_ge i st.tab.length with hlt | hge
      · rw [List.getElem?_append_left hlt] at hi
        obtain ⟨p, h2, h3⟩ := h1.tab i hh idx hi
        exact ⟨p, h2, getElem?_snoc h3⟩
      · rw [List.getElem?_append_right hge] at hi
        have he := List.mem_singleton.1 (List.mem_of_getElem? hi)
        have := (List.getElem?_eq_some_iff.1 hi).1
        simp only [List.length_singleton] at this
        simp only [Prod.mk.injEq] at he
        obtain ⟨rfl, rfl⟩ := he
        refine ⟨(destCW H).pos s.cw, by simp, ?_⟩
        rw [show i = tab.length by rw [← h.tabLen]; omega]
        simp [RW.workerLastPos, destCW, h.cw, hE.num _ _ h.enc]
    | validAt h0 idx0 =>
      cases hy : w.last <;> rw [hx, hy] at hlast <;> try exact hlast.elim
      rename_i p0
      simp only [RW.lastPos, hy] at hc
      dsimp only
      rw [h.tabLen]
      refine ih _ ⟨h.cw, h.enc, h.soFar, by rw [hx, hy] at *; exact hlast, by simp [h.tabLen], ?_, h.ftabLen, h.ftab, h.ok⟩ hc
      intro i hh idx hi
      dsimp only at hi ⊢
      rcases Nat.lt_or_ge i st.tab.length with hlt | hge
      · rw [List.getElem?_append_left hlt] at hi
        obtain ⟨p, h2, h3⟩ := h.tab i hh idx hi
        exact ⟨p, h2, getElem?_snoc h3⟩
      · rw [List.getElem?_append_right hge] at hi
        have he := List.mem_singleton.1 (List.mem_of_getElem? hi)
        have := (List.getElem?_eq_some_iff.1 hi).1
        simp only [List.length_singleton] at this
        simp only [Prod.mk.injEq] at he
        obtain ⟨rfl, rfl⟩ := he
        refine ⟨p0.chunkBegin, hlast.1, ?_⟩
        rw [show i = tab.length by rw [← h.tabLen]; omega, hlast.2]
        simp
  | pos k ih =>
    intro s st w w' tab nf a h hc
    simp only [Client.serial] at hc
    simp only [Client.prog, Prog.serial]
    have h1 := h.snap ((destCW H).pos s.cw)
    rw [h.tabLen]
    refine ih _ ⟨h1.cw, h1.enc, h1.soFar, h1.last, by simp [h.tabLen], ?_, h1.ftabLen, h1.ftab, h1.ok⟩ hc
    intro i hh idx hi
    dsimp only at hi ⊢
    rcases Nat.lt_or_ge i st.tab.length with hlt | hge
    · rw [List.getElem?_append_left hlt] at hi
      obtain ⟨p, h2, h3⟩ := h1.tab i hh idx hi
      exact ⟨p, h2, getElem?_snoc h3⟩
    · rw [List.getElem?_append_right hge] at hi
      have he := List.mem_singleton.1 (List.mem_of_getElem? hi)
      have := (List.getElem?_eq_some_iff.1 hi).1
      simp only [List.length_singleton] at this
      simp only [Prod.mk.injEq] at he
      obtain ⟨rfl, rfl⟩ := he
      refine ⟨(destCW H).pos s.cw, by simp, ?_⟩
      rw [show i = tab.length by rw [← h.tabLen]; omega]
      simp [RW.position, destCW, h.cw, hE.num _ _ h.enc]
  | getPos i k ih =>
    intro s st w w' tab nf a h hc
    simp only [Client.serial] at hc
    simp only [Client.prog]
    cases hi : st.tab[i]? with
    | none =>
      have : tab[i]? = none := by
        rw [List.getElem?_eq_none_iff] at hi ⊢; rw [← h.tabLen]; exact hi
      rw [this] at hc
      exact ih _ h hc
    | some x =>
      obtain ⟨hh, idx⟩ := x
      obtain ⟨p, h1, h2⟩ := h.tab i hh idx hi
      rw [h2] at hc
      simp only [Prog.serial, h1]
      exact ih _ h hc
  | close a0 =>
    intro s st w w' tab nf a h hc
    simp only [Client.serial, RW.close] at hc
    split at hc
    · cases hc
    rename_i w1 hw1
    simp only [Option.some.injEq, Prod.mk.injEq] at hc
    obtain ⟨rfl, rfl⟩ := hc
    simp only [Client.prog, closeP]
    obtain ⟨s', st', d, h1, h2, h3⟩ := finish_serial hE h hw1
    rw [h1]
    simp only [Prog.serial, h2]
    exact ⟨_, rfl, h3.cw⟩

/-- The same including construction of the writer over a destination with the given contents. -/
theorem start_serial (hE : EncSim E E' R) (c : Client α) {contents : Bytes} {w0 w' : RW σ'} {a : α}
    (h0 : RW.init E' H o contents = some w0) (hc : c.serial E' H o w0 [] 0 = some (w', a)) :
    ∃ s', (c.start E H o (initPos contents.length).2).serial (destCW H)
        ⟨⟨contents ++ (initPos contents.length).1, (initPos contents.length).2, 0⟩, [], []⟩ = some (s', a) ∧
      s'.cw = ⟨w'.out, w'.pos, w'.flushed⟩ := by
  unfold RW.init at h0
  dsimp only at h0
  have hrel : WRel R ⟨⟨contents ++ (initPos contents.length).1, (initPos contents.length).2, 0⟩, [], []⟩
      (⟨E.empty, 0, .invalid, [], [], false⟩ : CL σ)
      (⟨contents ++ (initPos contents.length).1, (initPos contents.length).2, E'.empty, 0, .invalid, 0⟩ : RW σ') [] 0 :=
    ⟨rfl, hE.empty, rfl, trivial, rfl, by simp, rfl, by simp, rfl⟩
  have hrun : ∀ {s : Ser Dest}, WRel R s (⟨E.empty, 0, .invalid, [], [], false⟩ : CL σ) w0 [] 0 →
      ∃ s', (Prog.ok (fun b => c.prog E H o (if b then (⟨E.empty, 0, .invalid, [], [], false⟩ : CL σ) else
        { (⟨E.empty, 0, .invalid, [], [], false⟩ : CL σ) with failed := true }))).serial (destCW H) s = some (s', a) ∧
        s'.cw = ⟨w'.out, w'.pos, w'.flushed⟩ := by
    intro s h
    exact client_serial hE c h hc
  unfold Client.start
  dsimp only
  split at h0
  · rename_i hz
    rw [if_pos hz]
    unfold RW.putHeader at h0
    split at h0
    · cases h0
    rename_i w1 hw1
    obtain ⟨d, h1, h2⟩ := putChunk_serial hrel hw1
    simp only [Prog.serial, Src.result, h1, ↓reduceIte]
    split at h0
    · rename_i hm
      simp only [Option.some.injEq] at h0
      subst h0
      simp only [hm]
      exact hrun h2
    · rename_i data dec hm
      split at h0
      · rename_i hlen
        obtain ⟨d2, h3, h4⟩ := putChunk_serial h2 h0
        simp only [hm, Prog.serial, Src.result, hlen, ↓reduceIte]
        simp only at h3
        rw [h3]
        exact hrun h4
      · cases h0
  · rename_i hz
    rw [if_neg hz]
    obtain ⟨d, h1, h2⟩ := pad_serial hrel h0
    simp only [Prog.serial, h1]
    exact hrun h2

end

end Riegeli.Par

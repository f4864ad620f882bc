import Verif.Props.Writing
import Verif.Props.Writers
/-!
# C42: records written through an `FdWriter` survive crashes

The bytes which `RecordWriter` produces (`RW.out`) are written to a file by an `FdWriter`, divided into any calls of any functions which
write. `calls` are the calls made until the crash. The process may crash between any two system calls: the file then has the contents
which it had at that time. If the machine crashes, the file keeps at least the contents which it had at the last successful `fsync()`,
and of the data appended later it keeps any first part (`AfterMachineCrash`).
-/
namespace Riegeli.Wtr
namespace FdW
variable {os : WOs} {o : Rdr.BufOpts} {junk : Nat → Nat → UInt8} {d : Bytes}

section
variable {p : WPhys FdW}

theorem seekInternal_durable (q : Nat) : (seekInternal os q p).2.dst.durable = p.dst.durable := by
  unfold seekInternal; split; rfl; split <;> rfl

theorem sizeStatus_durable : (sizeStatus os p).2.dst.durable = p.dst.durable := by
  unfold sizeStatus; split; rfl; dsimp only; split <;> rfl

theorem randomAccess_durable : (randomAccess os p).2.dst.durable = p.dst.durable := by
  unfold randomAccess
  split
  · rfl
  · split
    · rfl
    · dsimp only
      split <;> exact sizeStatus_durable

theorem supportsReadMode_durable : (supportsReadMode os p).2.dst.durable = p.dst.durable := by
  unfold supportsReadMode
  split
  · rfl
  · split
    · rfl
    · dsimp only
      split <;> exact sizeStatus_durable

theorem writeMode_durable : (writeMode os p).2.dst.durable = p.dst.durable := by
  unfold writeMode
  split
  · rfl
  · dsimp only
    split
    · rfl
    · exact seekInternal_durable _

theorem writeLoop_durable (fuel : Nat) (bs : Bytes) : (writeLoop os fuel bs p).2.dst.durable = p.dst.durable := by
  induction fuel generalizing bs p with
  | zero => rfl
  | succ fuel ih =>
    unfold writeLoop
    split
    · rfl
    · dsimp only
      split
      · rfl
      · exact ih _

theorem writeInternal_durable (bs : Bytes) : (writeInternal os bs p).2.dst.durable = p.dst.durable := by
  unfold writeInternal
  dsimp only
  split
  · exact writeMode_durable
  · split
    · exact writeMode_durable
    · exact (writeLoop_durable _ _).trans writeMode_durable

theorem flushBehind_durable (bs : Bytes) : (flushBehind os bs p).2.dst.durable = p.dst.durable := by
  unfold flushBehind
  dsimp only
  split
  · exact writeMode_durable
  · unfold BDst.defaultFlush
    split
    · exact writeMode_durable
    · split
      · exact writeMode_durable
      · exact (writeInternal_durable _).trans writeMode_durable

theorem truncateInternal_durable (n : Nat) : (truncateInternal os n p).2.dst.durable = p.dst.durable := by
  unfold truncateInternal; split <;> rfl

end

theorem keeps_durable (os : WOs) (o : Rdr.BufOpts) (junk : Nat → Nat → UInt8) (d : Bytes) :
    (dst os o junk).Keeps (fun p => p.dst.durable = d) where
  fail _ h := h
  writeInternal _ _ h := (writeInternal_durable _).trans h
  flushBehind _ _ _ h := (flushBehind_durable _).trans h
  doneBehind _ _ h := (flushBehind_durable _).trans h
  seekBehind q p h := by
    show (seekBehind os q p).2.dst.durable = d
    rw [← h, ← randomAccess_durable (os := os) (p := p)]
    unfold seekBehind
    dsimp only
    split
    · unfold unsupported; split <;> rfl
    · split
      · rfl
      · split
        · split
          · rfl
          · split <;> exact seekInternal_durable _
        · exact seekInternal_durable _
  sizeBehind p h := by
    show (sizeBehind os p).2.dst.durable = d
    rw [← h, ← randomAccess_durable (os := os) (p := p)]
    unfold sizeBehind
    dsimp only
    split
    · unfold unsupported; split <;> rfl
    · split
      · rfl
      · split <;> rfl
  truncateBehind n p h := by
    show (truncateBehind os n p).2.dst.durable = d
    rw [← h]
    unfold truncateBehind
    dsimp only
    split
    · rfl
    · split
      · split
        · rfl
        · split
          · exact seekInternal_durable _
          · split
            · exact truncateInternal_durable _
            · exact (seekInternal_durable _).trans (truncateInternal_durable _)
      · split
        · exact truncateInternal_durable _
        · exact (seekInternal_durable _).trans (truncateInternal_durable _)
  readModeBehind q p h := by
    show (readModeBehind os q p).2.dst.durable = d
    rw [← h, ← supportsReadMode_durable (os := os) (p := p)]
    unfold readModeBehind
    dsimp only
    split
    · unfold unsupported; split <;> rfl
    · split <;> rfl
  randomAccess p h := randomAccess_durable.trans h

theorem extend_durable (n size : Nat) {p : WPhys FdW} : (extend os n size p).2.dst.durable = p.dst.durable := by
  have h1 : (if p.startPos < size then truncateInternal os p.startPos p else (true, p)).2.dst.durable = p.dst.durable := by
    split
    · exact truncateInternal_durable _
    · rfl
  unfold extend
  dsimp only
  revert h1
  generalize (if p.startPos < size then truncateInternal os p.startPos p else (true, p)) = r
  intro h1
  split
  · exact h1
  · split
    · exact (truncateInternal_durable _).trans h1
    · exact (seekInternal_durable _).trans ((truncateInternal_durable _).trans h1)

theorem fillSlow_durable (n : Nat) (c : UInt8) (b : BW FdW) (h : b.phys.dst.durable = d) :
    (fillSlow os (dst os o junk) n c b).2.phys.dst.durable = d := by
  have K := keeps_durable os o junk d
  have h1 := BW.randomAccess_keeps K h
  unfold fillSlow
  dsimp only
  split
  · exact BW.fillSlow_keeps K _ _ h
  · split
    · exact BW.fillSlow_keeps K _ _ h1
    · have h2 := BW.sizeImpl_keeps K h1
      split
      · exact h2
      · split
        · exact BW.fail_keeps K h2
        · split
          · exact BW.fillSlow_keeps K _ _ h2
          · rw [BW.after_phys]; exact (extend_durable _ _).trans h2

/-- What is durable changes only by becoming equal to the contents of the file. -/
theorem run_durable (op : WOp) (b : BW FdW) :
    (op.run (ops os o junk) b).2.phys.dst.durable = b.phys.dst.durable ∨
    (op.run (ops os o junk) b).2.phys.dst.durable = (op.run (ops os o junk) b).2.phys.dst.content := by
  have K := keeps_durable os o junk b.phys.dst.durable
  by_cases hf : ∃ t, op = .flush t
  · obtain ⟨t, rfl⟩ := hf
    have h1 := BW.flushImpl_keeps K t (b := b) rfl
    show (flushImpl os (dst os o junk) t b).2.phys.dst.durable = _ ∨ (flushImpl os (dst os o junk) t b).2.phys.dst.durable =
      (flushImpl os (dst os o junk) t b).2.phys.dst.content
    unfold flushImpl
    dsimp only
    split
    · exact .inl h1
    · split
      · split
        · rw [BW.after_phys]; exact .inl h1
        · rw [BW.after_phys]; exact .inr rfl
      · exact .inl h1
  · refine .inl ?_
    have hrun : (op.run (ops os o junk) b) = op.run { BW.ops (dst os o junk) with fillSlow := fillSlow os (dst os o junk), flushImpl := fun _ b => (true, b) } b := by
      have hfr : ∀ (fs : List Bytes) (b : BW FdW), (ops os o junk).writeFragments fs b = WriterOps.writeFragments
          { BW.ops (dst os o junk) with fillSlow := fillSlow os (dst os o junk), flushImpl := fun _ b => (true, b) } fs b := by
        intro fs
        induction fs with
        | nil => intro b; rfl
        | cons f fs ih => intro b; unfold WriterOps.writeFragments; dsimp only; rw [ih]; rfl
      cases op with
      | writeChain fs =>
        show WriterOps.writeChain _ fs b = WriterOps.writeChain _ fs b
        unfold WriterOps.writeChain
        rw [hfr]; rfl
      | flush t => exact absurd ⟨t, rfl⟩ hf
      | _ => rfl
    rw [hrun]
    exact BW.run_keeps K (fun n c b h => fillSlow_durable n c b h) (fun _ _ h => h) op (b := b) rfl

/-- Appending: what was durable stays durable, and what is durable is a first part of the file. -/
theorem appends_durable {cfg : FdCfg} (hs : cfg.stream = false) {l : List WOp} {b : BW FdW} {X : Bytes} (h : BWInv (dst os o junk) (FdInv os cfg) b)
    (hop : ∀ op ∈ l, op.Appends = true) (hp : b.phys.ok = true → b.pos = (b.view cfg.dest).length ∧ b.phys.dst.content <+: b.view cfg.dest)
    (hx : X <+: b.phys.dst.durable) (hd : b.phys.dst.durable <+: b.phys.dst.content) :
    X <+: (WOp.runAll (ops os o junk) l b).2.phys.dst.durable ∧
    (WOp.runAll (ops os o junk) l b).2.phys.dst.durable <+: (WOp.runAll (ops os o junk) l b).2.phys.dst.content := by
  have hdest : ∀ d : FdW, cfg.dest d = d.content := fun d => by unfold FdCfg.dest; rw [hs]; rfl
  have L := FdW.lawful os cfg o junk
  induction l generalizing b with
  | nil => exact ⟨hx, hd⟩
  | cons op l ih =>
    have hop1 := hop op (List.mem_cons_self ..)
    have hal : op.Allowed (ops os o junk) b := by cases op <;> first | trivial | cases hop1
    obtain ⟨r1, r2, r3, r4⟩ := L.run h hal
    have hgrow : b.phys.dst.content <+: (op.run (ops os o junk) b).2.phys.dst.content ∧
        ((op.run (ops os o junk) b).2.phys.ok = true → (op.run (ops os o junk) b).2.pos = ((op.run (ops os o junk) b).2.view cfg.dest).length ∧
          (op.run (ops os o junk) b).2.phys.dst.content <+: (op.run (ops os o junk) b).2.view cfg.dest) := by
      cases hb : b.phys.ok with
      | false =>
        obtain ⟨m1, m2⟩ := r3 hb
        rw [hdest, hdest] at m2
        refine ⟨by rw [m2]; exact List.prefix_refl _, fun hc => ?_⟩
        rw [show (op.run (ops os o junk) b).2.phys.ok = false from m1] at hc; cases hc
      | true =>
        obtain ⟨p1, p2⟩ := hp hb
        have a := L.appends (ops := [op]) h (fun x hx => hop x (by rw [List.mem_singleton.mp hx]; exact List.mem_cons_self ..)) p1 (by rw [hdest]; exact p2)
        have a' := L.appends_ok (ops := [op]) h (fun x hx => hop x (by rw [List.mem_singleton.mp hx]; exact List.mem_cons_self ..)) p1
        have e : WOp.runAll (ops os o junk) [op] b = ([(op.run (ops os o junk) b).1], (op.run (ops os o junk) b).2) := rfl
        rw [e, hdest, hdest] at a
        rw [e] at a'
        refine ⟨a.1, fun hc => ?_⟩
        obtain ⟨q1, q2⟩ := a' hc
        refine ⟨q2.trans (congrArg List.length q1.symm), ?_⟩
        exact q1.symm ▸ a.2
    have hd' : X <+: (op.run (ops os o junk) b).2.phys.dst.durable ∧
        (op.run (ops os o junk) b).2.phys.dst.durable <+: (op.run (ops os o junk) b).2.phys.dst.content := by
      rcases run_durable (os := os) (o := o) (junk := junk) op b with e | e
      · rw [e]; exact ⟨hx, hd.trans hgrow.1⟩
      · rw [e]; exact ⟨hx.trans (hd.trans hgrow.1), List.prefix_refl _⟩
    exact ih r1 (fun op h => hop op (List.mem_cons_of_mem _ h)) hgrow.2 hd'.1 hd'.2

end FdW
end Riegeli.Wtr

namespace Riegeli.Props
open Riegeli Riegeli.CR

/-- The file `f` found after a crash of the machine, when `content` had been written and `durable` had been synchronized. -/
def AfterMachineCrash (d : Wtr.FdW) (f : Bytes) : Prop := d.durable <+: f ∧ f <+: d.content

section
variable {os : Wtr.WOs} {bo : Rdr.BufOpts} {junk : Nat → Nat → UInt8} {po : Rdr.FdPos} {opened : Bool} {content : Bytes} {pos : Nat}

/-- Initially everything in the file is durable. -/
theorem init_durable : (Wtr.FdW.init os po opened content pos).phys.dst.durable = content := by
  unfold Wtr.FdW.init
  dsimp only
  split
  · rfl
  · cases po <;> dsimp only
    · split <;> first | rfl | (split <;> rfl)
    · split <;> rfl
    · split <;> first | rfl | (split <;> rfl)

/-- **C42**, for any data. Writing at the end of a file: if `Flush(FlushType::kFromMachine)` succeeds after `pre`, then after any further
calls, even if they fail, and after a crash of the machine, the file has all data of `pre`, followed by a first part of further data. -/
theorem C42_flushed_bytes {pre post : List Wtr.WOp} (hs : Wtr.FdW.isStream os po = false) (he : Wtr.FdW.startPos os content pos po = content.length)
    (hpre : ∀ op ∈ pre, op.Appends = true) (hpost : ∀ op ∈ post, op.Appends = true)
    (hf : ((fdRun os bo junk po opened content pos (pre ++ [.flush .fromMachine])).1.getLast? = some true))
    {f : Bytes} (hc : AfterMachineCrash (fdRun os bo junk po opened content pos (pre ++ [.flush .fromMachine] ++ post)).2.phys.dst f) :
    content ++ pre.flatMap Wtr.WOp.bytes <+: f ∧ f <+: content ++ (pre ++ post).flatMap Wtr.WOp.bytes := by
  have hrun : ∀ (a b : List Wtr.WOp) (s : Wtr.BW Wtr.FdW), Wtr.WOp.runAll (Wtr.FdW.ops os bo junk) (a ++ b) s =
      ((Wtr.WOp.runAll (Wtr.FdW.ops os bo junk) a s).1 ++ (Wtr.WOp.runAll (Wtr.FdW.ops os bo junk) b (Wtr.WOp.runAll (Wtr.FdW.ops os bo junk) a s).2).1,
        (Wtr.WOp.runAll (Wtr.FdW.ops os bo junk) b (Wtr.WOp.runAll (Wtr.FdW.ops os bo junk) a s).2).2) := by
    intro a b
    induction a with
    | nil => intro s; rfl
    | cons x a ih => intro s; simp [Wtr.WOp.runAll, ih]
  obtain ⟨h1, h2, h3, h4, h5⟩ := Wtr.FdW.init_spec os bo junk po opened content pos
  have L := Wtr.FdW.lawful os ⟨Wtr.FdW.isStream os po, Wtr.FdW.startPos os content pos po, content, pos⟩ bo junk
  have hal := Wtr.WOp.allAllowed (W := Wtr.FdW.ops os bo junk) pre (Wtr.FdW.init os po opened content pos) hpre
  have hpf : ∀ op ∈ pre ++ [Wtr.WOp.flush .fromMachine], op.Appends = true := fun op h => by
    rcases List.mem_append.mp h with h | h
    · exact hpre op h
    · rw [List.mem_singleton.mp h]; rfl
  have half := Wtr.WOp.allAllowed (W := Wtr.FdW.ops os bo junk) _ (Wtr.FdW.init os po opened content pos) hpf
  have hflush : (Wtr.FdW.flushImpl os (Wtr.FdW.dst os bo junk) .fromMachine (fdRun os bo junk po opened content pos pre).2).1 = true := by
    unfold fdRun at hf
    rw [hrun] at hf
    simpa [Wtr.WOp.runAll, Wtr.WOp.run, Wtr.FdW.ops, fdRun] using hf
  -- after the flush
  have hfl := C40_flush (bo := bo) (junk := junk) (opened := opened) hal hs .fromMachine hflush
  have hlen : (fdRun os bo junk po opened content pos pre).1.length = pre.length := Wtr.WOp.runAll_length _ _
  rw [he, Wtr.WOp.replay_appends _ _ _ hlen hpre] at hfl
  have hst : (fdRun os bo junk po opened content pos (pre ++ [.flush .fromMachine])).2 =
      (Wtr.FdW.flushImpl os (Wtr.FdW.dst os bo junk) .fromMachine (fdRun os bo junk po opened content pos pre).2).2 := by
    unfold fdRun; rw [hrun]; rfl
  rw [← hst] at hfl
  have hdur := hfl.2 rfl
  have hcon := hfl.1
  have hinv := (L.runAll h1 half).1
  have hd : ∀ d : Wtr.FdW, Wtr.FdCfg.dest ⟨Wtr.FdW.isStream os po, Wtr.FdW.startPos os content pos po, content, pos⟩ d = d.content := fun d => by
    unfold Wtr.FdCfg.dest; dsimp only; rw [hs]; rfl
  have hv := h2.view (dest := Wtr.FdCfg.dest ⟨Wtr.FdW.isStream os po, Wtr.FdW.startPos os content pos po, content, pos⟩)
  rw [hd, h3] at hv
  have hst2 : (fdRun os bo junk po opened content pos (pre ++ [.flush .fromMachine] ++ post)).2 =
      (Wtr.WOp.runAll (Wtr.FdW.ops os bo junk) post (fdRun os bo junk po opened content pos (pre ++ [.flush .fromMachine])).2).2 := by
    unfold fdRun; rw [hrun]
  have hd2 := Wtr.FdW.appends_durable (X := content ++ pre.flatMap Wtr.WOp.bytes) (l := post) hs hinv hpost (fun hb => by
    have hi := fd_init_ok half hb
    have hp : (Wtr.FdW.ops os bo junk).pos (Wtr.FdW.init os po opened content pos) = (Wtr.BW.view _ (Wtr.FdW.init os po opened content pos)).length :=
      ((h2.pos).trans ((h5 hi).trans he)).trans (congrArg List.length hv.symm)
    obtain ⟨a1, a2⟩ := L.appends_ok h1 hpf hp hb
    rw [hv] at a1 a2
    refine ⟨a2.trans (congrArg List.length a1.symm), ?_⟩
    have := C40_appending (bo := bo) (junk := junk) (opened := opened) hs he hpf
    exact a1.symm ▸ this.2.1) (by rw [show (Wtr.WOp.runAll (Wtr.FdW.ops os bo junk) (pre ++ [.flush .fromMachine]) (Wtr.FdW.init os po opened content pos)).2.phys.dst.durable = _ from hdur]; exact List.prefix_refl _)
      (by
        show (fdRun os bo junk po opened content pos (pre ++ [.flush .fromMachine])).2.phys.dst.durable <+: (fdRun os bo junk po opened content pos (pre ++ [.flush .fromMachine])).2.phys.dst.content
        rw [hdur, hcon]; exact List.prefix_refl _)
  obtain ⟨c1, c2⟩ := hc
  have hall : ∀ op ∈ pre ++ [Wtr.WOp.flush .fromMachine] ++ post, Wtr.WOp.Appends op = true := fun op h => by
    rcases List.mem_append.mp h with h | h
    · exact hpf op h
    · exact hpost op h
  have happ := (C40_appending (bo := bo) (junk := junk) (opened := opened) hs he hall).2.1
  have hbytes : (pre ++ [Wtr.WOp.flush .fromMachine] ++ post).flatMap Wtr.WOp.bytes = (pre ++ post).flatMap Wtr.WOp.bytes := by
    rw [List.flatMap_append, List.flatMap_append, List.flatMap_append]
    show _ ++ (_ ++ []) ++ _ = _
    simp [Wtr.WOp.bytes]
  rw [hbytes] at happ
  rw [hst2] at c1
  exact ⟨hd2.1.trans c1, c2.trans happ⟩

end

/-! ## Records -/

section
variable {σ : Type} {E : Encoder σ} {H : Bytes → UInt64} {o : WOpts} {C : Codec}
  {tdec : Bytes → Nat → Nat → Option (List Nat × Bytes)} {recovery : Option (CR.Region → Bool)}

/-- A `RecordWriter` to an empty destination, after the calls `ops`, and possibly after `Close()`: it has produced `out`. -/
def Wrote (E : Encoder σ) (H : Bytes → UInt64) (o : WOpts) (ops : List WOp) (out : Bytes) : Prop :=
  ∃ w0 log w, RW.init E H o [] = some w0 ∧ RW.run E H o ops w0 = some (log, w) ∧
    (w.out = out ∨ ∃ w', w.close E H o = some w' ∧ w'.out = out)

/-- Reading the file `f` with a new `RecordReader` returns the records `got`, then any number of times the end, without failing. -/
def Reads (H : Bytes → UInt64) (C : Codec) (tdec : Bytes → Nat → Nat → Option (List Nat × Bytes)) (recovery : Option (CR.Region → Bool))
    (f : Bytes) (got : List Bytes) : Prop :=
  ∀ (hdr0 bh0 : Bytes), hdr0.length = 40 → bh0.length = 24 → ∀ m : Nat, ∃ results s,
    readSchedule H (parseChunk C tdec) recovery (List.replicate (got.length + (m + 1)) f) (newReader hdr0 bh0) = some (results, s) ∧
    results.map (Option.map Prod.fst) = got.map some ++ List.replicate (m + 1) none ∧ s.err = none

theorem Wrote.chunks (hE : E.Correct H (parseChunk C tdec)) {ops : List WOp} {out : Bytes} (h : Wrote E H o ops out) :
    ∃ (w : RW σ) (cs : List Chunk), OutIs H (parseChunk C tdec) cs w ∧ w.out = out ∧ cs.flatMap (recordsOf (parseChunk C tdec)) <+: WOp.records ops := by
  obtain ⟨w0, log, w, hi, hr, h⟩ := h
  obtain ⟨cs0, a1, a2⟩ := init_empty_spec metadata_decodes signature_decodes hi
  obtain ⟨cs1, op1, b1, b2, b3, b4, b5, b6, b7⟩ := run_spec hE paddingChunk_decodes ops a1 hr
  rw [a2, List.nil_append, List.nil_append] at b3
  rcases h with rfl | ⟨w', hc, rfl⟩
  · exact ⟨w, cs1, b1.inv.out, rfl, op1, b3⟩
  · obtain ⟨cs2, c1, c2, c3, c4, _⟩ := finishChunk_spec hE paddingChunk_decodes b1.inv hc
    rw [b3] at c3
    exact ⟨w', cs2, c1.out, rfl, by rw [c3]; exact List.prefix_refl _⟩

/-- Any first part of what a `RecordWriter` produced can be read, and has first records. -/
theorem Wrote.prefix (hE : E.Correct H (parseChunk C tdec)) {ops : List WOp} {out f : Bytes} (h : Wrote E H o ops out) (hf : f <+: out) :
    ∃ got, got <+: WOp.records ops ∧ Reads H C tdec recovery f got := by
  obtain ⟨w, cs, h1, rfl, h3⟩ := h.chunks hE
  have hfe : f = w.out.take f.length := (List.prefix_iff_eq_take.mp hf)
  have hn : f.length ≤ w.out.length := hf.length_le
  generalize f.length = n at hfe hn
  subst hfe
  refine ⟨(completeChunks 0 cs n).flatMap (recordsOf (parseChunk C tdec)), ?_, fun hdr0 bh0 h40 h24 m => ?_⟩
  · obtain ⟨t, ht⟩ := completeChunks_isPrefix cs 0 n
    refine List.IsPrefix.trans ⟨t.flatMap (recordsOf (parseChunk C tdec)), ?_⟩ h3
    rw [← List.flatMap_append, ht]
  · obtain ⟨s, e1, e2, _⟩ := C02_truncated_file (recovery := recovery) h1.valid h1.dec h40 h24 hn m
    refine ⟨_, s, e1, ?_, e2⟩
    rw [List.map_append, List.map_map, List.map_replicate]
    congr 1
    have : (Option.map Prod.fst ∘ some : Bytes × RecordPosition → Option Bytes) = some ∘ Prod.fst := rfl
    rw [this, ← List.map_map, List.map_fst_zip]
    rw [recordPositions_length]
    exact numReads_le (recordsOf (parseChunk C tdec)) cs 0 n

variable {os : Wtr.WOs} {bo : Rdr.BufOpts} {junk : Nat → Nat → UInt8} {po : Rdr.FdPos} {opened : Bool} {pos : Nat}

/-- **C42.** A process which writes records to an empty file crashes, or writing fails, at any point: the file can be read without a failure, and it
has the first ones of the records written. (A crash between two system calls is a case of an operating system where all further calls
fail.) -/
theorem C42_process_crash (hE : E.Correct H (parseChunk C tdec)) {ops : List WOp} {out : Bytes} (hw : Wrote E H o ops out)
    {calls : List Wtr.WOp} (hcalls : ∀ op ∈ calls, op.Appends = true) (hb : calls.flatMap Wtr.WOp.bytes <+: out)
    (hs : Wtr.FdW.isStream os po = false) (he : Wtr.FdW.startPos os [] pos po = 0) :
    ∃ got, got <+: WOp.records ops ∧ Reads H C tdec recovery (fdRun os bo junk po opened [] pos calls).2.phys.dst.content got := by
  have h := (C40_appending (bo := bo) (junk := junk) (opened := opened) hs he hcalls).2.1
  rw [List.nil_append] at h
  exact hw.prefix hE (h.trans hb)

/-- **C42.** If `Flush(FlushType::kFromMachine)` of the `RecordWriter` and of the `FdWriter` succeeded after writing `pre`, then after a crash of the
machine, at any later point and even if further writing failed, the file can be read without a failure and it has at least all the records of
`pre`, and the first ones of further records. -/
theorem C42_machine_crash (hE : E.Correct H (parseChunk C tdec)) {pre post : List WOp} {w0 w1 w2 : RW σ}
    {log1 log2 : List (Option RecordPosition)} (hi : RW.init E H o [] = some w0)
    (hr1 : RW.run E H o (pre ++ [.flush]) w0 = some (log1, w1)) (hr2 : RW.run E H o post w1 = some (log2, w2))
    {calls1 calls2 : List Wtr.WOp} (hc1 : ∀ op ∈ calls1, op.Appends = true) (hc2 : ∀ op ∈ calls2, op.Appends = true)
    (hb1 : calls1.flatMap Wtr.WOp.bytes = w1.out) (hb2 : (calls1 ++ calls2).flatMap Wtr.WOp.bytes <+: w2.out)
    (hs : Wtr.FdW.isStream os po = false) (he : Wtr.FdW.startPos os [] pos po = 0)
    (hf : (fdRun os bo junk po opened [] pos (calls1 ++ [.flush .fromMachine])).1.getLast? = some true)
    {f : Bytes} (hc : AfterMachineCrash (fdRun os bo junk po opened [] pos (calls1 ++ [.flush .fromMachine] ++ calls2)).2.phys.dst f) :
    ∃ got, WOp.records pre <+: got ∧ got <+: WOp.records (pre ++ post) ∧ Reads H C tdec recovery f got := by
  obtain ⟨g1, g2⟩ := C42_flushed_bytes hs he hc1 hc2 hf hc
  rw [List.nil_append] at g1 g2
  have g3 := g2.trans hb2
  rw [hb1] at g1
  have hfe : f = w2.out.take f.length := (List.prefix_iff_eq_take.mp g3)
  have hn : f.length ≤ w2.out.length := g3.length_le
  have hn1 : w1.out.length ≤ f.length := g1.length_le
  generalize f.length = n at hfe hn hn1
  subst hfe
  obtain ⟨got, e1, e2, e3⟩ := flush_is_durable (recovery := recovery) hE hi hr1 hr2 hn1 hn
  exact ⟨got, e1, e2, fun hdr0 bh0 h40 h24 m => e3 h40 h24 m⟩

/-- **C42.** If `Close()` of the `RecordWriter` and of the `FdWriter` succeeded, then the file has exactly the records written. -/
theorem C42_close (hE : E.Correct H (parseChunk C tdec)) {ops : List WOp} {w0 w1 w2 : RW σ}
    {log : List (Option RecordPosition)} (hi : RW.init E H o [] = some w0) (hr : RW.run E H o ops w0 = some (log, w1))
    (hc : w1.close E H o = some w2)
    {calls : List Wtr.WOp} (hcalls : ∀ op ∈ calls, op.Appends = true) (hb : calls.flatMap Wtr.WOp.bytes = w2.out)
    (hs : Wtr.FdW.isStream os po = false) (he : Wtr.FdW.startPos os [] pos po = 0) :
    let d := (fdRun os bo junk po opened [] pos calls).2.done (Wtr.FdW.dst os bo junk)
    d.ok = true → Reads H C tdec recovery d.dst.content (WOp.records ops) := by
  intro d hd
  have h := (C40_appending (bo := bo) (junk := junk) (opened := opened) hs he hcalls).2.2 hd
  rw [List.nil_append, hb] at h
  intro hdr0 bh0 h40 h24 m
  obtain ⟨ps, s, h1, h2, h3, h4, h5, h6⟩ := C01_C16_any_encoder (recovery := recovery) hE hi hr hc h40 h24 m
  rw [show d.dst.content = w2.out from h]
  refine ⟨_, s, h2, ?_, h3⟩
  rw [List.map_append, List.map_map, List.map_replicate]
  congr 1
  have : (Option.map Prod.fst ∘ some : Bytes × RecordPosition → Option Bytes) = some ∘ Prod.fst := rfl
  rw [this, ← List.map_map, List.map_fst_zip (by omega)]

end

/-! ## A concrete case -/

/-- Options of a `RecordWriter`: no padding. -/
def exOpts : WOpts := ⟨100, 1, 1, none⟩

/-- An encoder without compression. -/
def exEnc : Encoder SEnc := simpleEncoder storeCodec kNone

/-- The hypotheses of C42 are met: a record is written and flushed, another record is written and flushed only to the `FdWriter`, and only a part of it
to the file. -/
example : ∃ w0 log1 w1 log2 w2 f,
    RW.init exEnc (fun _ => 7) exOpts [] = some w0 ∧ RW.run exEnc (fun _ => 7) exOpts ([.write [1, 2, 3]] ++ [.flush]) w0 = some (log1, w1) ∧
    RW.run exEnc (fun _ => 7) exOpts [.write [4], .flush] w1 = some (log2, w2) ∧
    (([Wtr.WOp.write w1.out] : List Wtr.WOp).flatMap Wtr.WOp.bytes = w1.out) ∧
    (([Wtr.WOp.write w1.out] ++ [Wtr.WOp.write ((w2.out.drop w1.out.length).take 30)] : List Wtr.WOp).flatMap Wtr.WOp.bytes <+: w2.out) ∧
    Wtr.FdW.isStream exWos .current = false ∧ Wtr.FdW.startPos exWos [] 0 .current = 0 ∧
    (fdRun exWos ⟨4, 16⟩ (fun _ _ => 255) .current true [] 0 ([.write w1.out] ++ [.flush .fromMachine])).1.getLast? = some true ∧
    AfterMachineCrash (fdRun exWos ⟨4, 16⟩ (fun _ _ => 255) .current true [] 0
      ([.write w1.out] ++ [.flush .fromMachine] ++ [.write ((w2.out.drop w1.out.length).take 30)])).2.phys.dst f ∧
    w1.out.length < f.length ∧ f.length < w2.out.length := by
  let run1 (w1 : RW SEnc) := fdRun exWos ⟨4, 16⟩ (fun _ _ => 255) .current true [] 0 ([.write w1.out] ++ [.flush .fromMachine])
  let run2 (w1 w2 : RW SEnc) := fdRun exWos ⟨4, 16⟩ (fun _ _ => 255) .current true [] 0
      ([.write w1.out] ++ [.flush .fromMachine] ++ [.write ((w2.out.drop w1.out.length).take 30)])
  have h : (match RW.init exEnc (fun _ => 7) exOpts [] with
      | none => false
      | some w0 => match RW.run exEnc (fun _ => 7) exOpts ([.write [1, 2, 3]] ++ [.flush]) w0 with
        | none => false
        | some (_, w1) => match RW.run exEnc (fun _ => 7) exOpts [.write [4], .flush] w1 with
          | none => false
          | some (_, w2) => decide (w1.out.length < w2.out.length ∧ (run1 w1).1.getLast? = some true ∧
            (run2 w1 w2).2.phys.dst.durable <+: (run2 w1 w2).2.phys.dst.content ∧
            (([Wtr.WOp.write w1.out] ++ [Wtr.WOp.write ((w2.out.drop w1.out.length).take 30)] : List Wtr.WOp).flatMap Wtr.WOp.bytes <+: w2.out) ∧
            w1.out.length < (run2 w1 w2).2.phys.dst.content.length ∧ (run2 w1 w2).2.phys.dst.content.length < w2.out.length)) = true := by
    decide +kernel
  split at h
  · cases h
  rename_i w0 h0
  split at h
  · cases h
  rename_i log1 w1 h1
  split at h
  · cases h
  rename_i log2 w2 h2
  obtain ⟨g1, g2, g3, g4, g5, g6⟩ := of_decide_eq_true h
  exact ⟨w0, log1, w1, log2, w2, (run2 w1 w2).2.phys.dst.content, h0, h1, h2, by simp [Wtr.WOp.bytes], g4, rfl, rfl, g2, ⟨g3, List.prefix_refl _⟩, g5, g6⟩

end Riegeli.Props

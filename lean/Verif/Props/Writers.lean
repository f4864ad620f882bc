import Verif.FdWriterProofs
import Verif.Props.Buffered
/-!
# C39, C40, C41: `BufferedWriter`, `FdWriter` and `ByteFill::Blocks`

The specification of a writer is a pair: contents and a position. `WOp.after` in `Verif/Writer.lean` says how a call changes it,
`WOp.Possible` says which results are possible, `WOp.replay` and `WOp.AllPossible` do the same for a sequence of calls. `overlay` is what `pwrite()` does to the
contents of a file, `resize` is what `ftruncate()` does.

`S.Lawful dest T PInv` says that `S` is a class derived from `BufferedWriter` whose virtual functions do what `buffered_writer.h` asks for,
for a destination with the contents `dest`. `WOs` is an arbitrary operating system: each `write()` may write any part of the data, and
any call may fail.
-/
namespace Riegeli.Props
open Riegeli Wtr

/-- A new `BufferedWriter`: the buffer is empty. -/
def newWriter {τ : Type} (p : WPhys τ) : BW τ := ⟨p, [], 0, 0, ⟨p.startPos, 0, none⟩, 0⟩

section
variable {τ : Type} {S : BDst τ} {dest : τ → Bytes} {T : Prop} {PInv : WPhys τ → Prop} {p : WPhys τ}

theorem newWriter_inv (hp : PInv p) : BWInv S PInv (newWriter p) := BW.Empty.inv ⟨rfl, rfl, rfl⟩ hp (fun _ => Nat.le_refl _)

theorem newWriter_abs : (BW.ops S).abs (BW.view dest) (newWriter p) = (dest p.dst, p.startPos) := by
  have h : BW.Empty (newWriter p) := ⟨rfl, rfl, rfl⟩
  unfold WriterOps.abs
  rw [h.view]
  show (_, (newWriter p).pos) = _
  rw [h.pos]; rfl

/-- **C39.** In any history of calls of a `BufferedWriter` which did not fail, all results are as for a writer of a sequence of bytes, the position is
right, and contents of the destination, when flushed, will be those of this sequence, whatever the buffer sizes, whatever memory the
buffers have, and whatever the derived class does within its contract. -/
theorem C39_history (L : S.Lawful dest T PInv) (hp : PInv p) (ops : List WOp) (hal : WOp.AllAllowed (BW.ops S) ops (newWriter p)) :
    let r := WOp.runAll (BW.ops S) ops (newWriter p)
    r.2.phys.ok = true →
      (r.2.view dest, r.2.pos) = WOp.replay ops r.1 (dest p.dst, p.startPos) ∧ WOp.AllPossible ops r.1 (dest p.dst, p.startPos) := by
  have := ((BW.lawful L).runAll (newWriter_inv hp) hal).2.1
  rw [newWriter_abs] at this
  exact this

/-- **C39.** A successful `Flush()` makes the destination have exactly the contents of the specification. -/
theorem C39_flush (L : S.Lawful dest T PInv) (hp : PInv p) (ops : List WOp) (hal : WOp.AllAllowed (BW.ops S) ops (newWriter p)) (t : FlushType) :
    let r := WOp.runAll (BW.ops S) ops (newWriter p)
    let f := r.2.flushImpl S t
    f.1 = true → dest f.2.phys.dst = (WOp.replay ops r.1 (dest p.dst, p.startPos)).1 ∧
      f.2.pos = (WOp.replay ops r.1 (dest p.dst, p.startPos)).2 := by
  intro r f hf
  obtain ⟨h1, h2, h3⟩ := (BW.lawful L).runAll (newWriter_inv hp) hal
  rw [newWriter_abs] at h2
  obtain ⟨f1, f2⟩ := BW.flushImpl_spec L h1 t
  obtain ⟨g1, g2, g3⟩ := f2 hf
  have := (h2 g1).1
  rw [← this]
  exact ⟨g2, (f1.2.1 hf).2.1⟩

/-- **C39.** A successful `Close()` makes the destination have exactly the contents of the specification, and leaves the destination at the
position of the writer. It is successful only if the writer did not fail. -/
theorem C39_close (L : S.Lawful dest T PInv) (hp : PInv p) (ops : List WOp) (hal : WOp.AllAllowed (BW.ops S) ops (newWriter p)) :
    let r := WOp.runAll (BW.ops S) ops (newWriter p)
    (r.2.done S).ok = true → r.2.phys.ok = true ∧ dest (r.2.done S).dst = (WOp.replay ops r.1 (dest p.dst, p.startPos)).1 ∧
      (r.2.done S).startPos = (WOp.replay ops r.1 (dest p.dst, p.startPos)).2 := by
  intro r hc
  obtain ⟨h1, h2, h3⟩ := (BW.lawful L).runAll (newWriter_inv hp) hal
  rw [newWriter_abs] at h2
  obtain ⟨d1, d2, d3, d4⟩ := BW.done_spec L h1
  obtain ⟨g1, g2, g3⟩ := d2 hc
  have := (h2 g1).1
  rw [← this]
  exact ⟨g1, g2, g3⟩

/-- **C39.** `Size()` is the length of the contents of the specification. -/
theorem C39_size (L : S.Lawful dest T PInv) (hp : PInv p) (ops : List WOp) (hal : WOp.AllAllowed (BW.ops S) ops (newWriter p)) (n : Nat) :
    let r := WOp.runAll (BW.ops S) ops (newWriter p)
    (r.2.sizeImpl S).1 = some n → n = (WOp.replay ops r.1 (dest p.dst, p.startPos)).1.length := by
  intro r hc
  obtain ⟨h1, h2, h3⟩ := (BW.lawful L).runAll (newWriter_inv hp) hal
  rw [newWriter_abs] at h2
  obtain ⟨g1, g2, g3, g4, g5, g6⟩ := (BW.sizeImpl_spec L h1).2.1 n hc
  rw [← (h2 g4).1]
  exact g1

/-- **C39.** A failed writer stays failed, and does not change the destination any more, also in `Close()`. -/
theorem C39_failed_stays_failed (L : S.Lawful dest T PInv) (hp : PInv p) (ops ops' : List WOp)
    (hal : WOp.AllAllowed (BW.ops S) ops (newWriter p)) (hal' : WOp.AllAllowed (BW.ops S) ops' (WOp.runAll (BW.ops S) ops (newWriter p)).2)
    (hf : (WOp.runAll (BW.ops S) ops (newWriter p)).2.phys.ok = false) :
    let b := (WOp.runAll (BW.ops S) ops (newWriter p)).2
    let b' := (WOp.runAll (BW.ops S) ops' b).2
    b'.phys.ok = false ∧ dest b'.phys.dst = dest b.phys.dst ∧ (b'.done S).ok = false ∧ dest (b'.done S).dst = dest b.phys.dst := by
  intro b b'
  obtain ⟨h1, h2, h3⟩ := (BW.lawful L).runAll (newWriter_inv hp) hal
  obtain ⟨k1, k2, k3⟩ := (BW.lawful L).runAll h1 hal'
  obtain ⟨l1, l2⟩ := k3 hf
  obtain ⟨d1, d2, d3, d4⟩ := BW.done_spec L k1
  obtain ⟨e1, e2⟩ := d3 l1
  exact ⟨l1, l2, e1, e2.trans l2⟩

/-- **C39.** At any point of any history, whether calls succeeded or not, each byte of the destination is one which it had in the
beginning, or one which the specification had at the same position after some of the calls. -/
theorem C39_only_written (L : S.Lawful dest T PInv) (hp : PInv p) (ops : List WOp) (hal : WOp.AllAllowed (BW.ops S) ops (newWriter p)) (i : Nat) (x : UInt8) :
    let r := WOp.runAll (BW.ops S) ops (newWriter p)
    (dest r.2.phys.dst)[i]? = some x → (dest p.dst)[i]? = some x ∨ ∃ k y, k ≤ ops.length ∧
      (WOp.replay (ops.take k) (r.1.take (k - 1) ++ [y]) (dest p.dst, p.startPos)).1[i]? = some x := by
  intro r hx
  have := (BW.lawful L).only_written (newWriter_inv hp) hal hx
  rw [newWriter_abs] at this
  exact this

/-- **C39.** Crash safety of appending: if a writer is created at the end of the destination, and neither `Seek()` nor `Truncate()` are
called, then at any point, even if writing failed, the destination has its initial contents followed by a part of the data from their
beginning. The same after `Close()`. -/
theorem C39_appending (L : S.Lawful dest T PInv) (hp : PInv p) (he : p.startPos = (dest p.dst).length) (ops : List WOp)
    (hop : ∀ op ∈ ops, op.Appends = true) :
    let b := (WOp.runAll (BW.ops S) ops (newWriter p)).2
    (∃ k, dest b.phys.dst = dest p.dst ++ (ops.flatMap WOp.bytes).take k) ∧
    ∃ k, dest (b.done S).dst = dest p.dst ++ (ops.flatMap WOp.bytes).take k := by
  intro b
  have of_prefix : ∀ c : Bytes, dest p.dst <+: c → c <+: dest p.dst ++ ops.flatMap WOp.bytes →
      ∃ k, c = dest p.dst ++ (ops.flatMap WOp.bytes).take k := fun c h1 h2 => by
    obtain ⟨t, rfl⟩ := h1
    rw [List.prefix_append_right_inj] at h2
    obtain ⟨u, hu⟩ := h2
    exact ⟨t.length, by rw [← hu, List.take_left]⟩
  have hv : (newWriter p).view dest = dest p.dst := BW.Empty.view ⟨rfl, rfl, rfl⟩
  have h0 := newWriter_inv (S := S) hp
  have hpos : (BW.ops S).pos (newWriter p) = (BW.view dest (newWriter p)).length := by
    rw [hv, ← he]; exact BW.Empty.pos (b := newWriter p) ⟨rfl, rfl, rfl⟩
  obtain ⟨a1, a2⟩ := (BW.lawful L).appends h0 hop hpos (by rw [hv]; exact List.prefix_refl _)
  rw [hv] at a2
  refine ⟨of_prefix _ a1 a2, ?_⟩
  obtain ⟨h1, h2, h3⟩ := (BW.lawful L).runAll h0 (WOp.allAllowed ops _ hop)
  obtain ⟨d1, d2, d3, d4⟩ := BW.done_spec L h1
  cases ho : b.phys.ok with
  | false =>
    have := (d3 ho).2
    rw [show dest (b.done S).dst = _ from this]
    exact of_prefix _ a1 a2
  | true =>
    have e1 := ((BW.lawful L).appends_ok h0 hop hpos ho).1
    rw [hv] at e1
    have e1 : b.view dest = dest p.dst ++ ops.flatMap WOp.bytes := e1
    have d4 : Mixed 0 0 (dest b.phys.dst) (b.view dest) (b.view dest) (dest (b.done S).dst) := d4
    have d4 := d4.wider (b.view dest).length (b.view dest).length (Nat.le_refl 0)
    rw [show Mixed (b.view dest).length (b.view dest).length (dest b.phys.dst) (b.view dest) (b.view dest) (dest (b.done S).dst) ↔
      Mixed (b.view dest).length (b.view dest).length (dest b.phys.dst) (b.view dest) (b.view dest ++ []) (dest (b.done S).dst) by rw [List.append_nil]] at d4
    obtain ⟨m1, m2⟩ := d4.prefix (by rw [e1]; exact a2)
    rw [List.append_nil, e1] at m2
    exact of_prefix _ (a1.trans m1) m2

end

/-! ## `FdWriter` -/

/-- What the destination of a new `FdWriter` is for the specification: the file, or, if the writer only sends data (to a pipe, or with
`set_assumed_pos()`), as many unspecified bytes as the position says, here zeros. -/
def fdContents (os : WOs) (po : Rdr.FdPos) (content : Bytes) (pos : Nat) : Bytes :=
  if FdW.isStream os po then List.replicate (FdW.startPos os content pos po) 0 else content

section
variable (os : WOs) (bo : Rdr.BufOpts) (junk : Nat → Nat → UInt8) (po : Rdr.FdPos) (opened : Bool) (content : Bytes) (pos : Nat)

theorem fd_abs (ho : (FdW.init os po opened content pos).phys.ok = true) :
    (FdW.ops os bo junk).abs (BW.view (FdCfg.dest ⟨FdW.isStream os po, FdW.startPos os content pos po, content, pos⟩)) (FdW.init os po opened content pos) =
    (fdContents os po content pos, FdW.startPos os content pos po) := by
  obtain ⟨h1, h2, h3, h4, h5⟩ := FdW.init_spec os bo junk po opened content pos
  have hp : (FdW.ops os bo junk).pos (FdW.init os po opened content pos) = (FdW.init os po opened content pos).pos := rfl
  unfold WriterOps.abs
  rw [h2.view, hp, h2.pos, h5 ho]
  unfold FdCfg.dest fdContents
  dsimp only
  rw [h3, h4, List.append_nil]

/-- The state after calls. -/
def fdRun (ops : List WOp) : List Bool × BW FdW := WOp.runAll (FdW.ops os bo junk) ops (FdW.init os po opened content pos)

variable {os bo junk po opened content pos}
variable {ops : List WOp}

theorem fd_init_ok (h : WOp.AllAllowed (FdW.ops os bo junk) ops (FdW.init os po opened content pos))
    (ho : (fdRun os bo junk po opened content pos ops).2.phys.ok = true) : (FdW.init os po opened content pos).phys.ok = true := by
  obtain ⟨h1, -⟩ := FdW.init_spec os bo junk po opened content pos
  cases hb : (FdW.init os po opened content pos).phys.ok with
  | true => rfl
  | false =>
    have := (((FdW.lawful os _ bo junk).runAll h1 h).2.2 hb).1
    rw [show (fdRun os bo junk po opened content pos ops).2.phys.ok = false from this] at ho
    cases ho

/-- **C40.** Initially `FdWriter` is at the position asked for by the options, unless it failed: at the position of the file
descriptor, or at the end of the file if it was opened with `O_APPEND`. Opening does not change the file. -/
theorem C40_initial_position :
    (FdW.init os po opened content pos).phys.dst.content = content ∧
    ((FdW.init os po opened content pos).phys.ok = true → (FdW.init os po opened content pos).pos = FdW.startPos os content pos po) := by
  obtain ⟨h1, h2, h3, h4, h5⟩ := FdW.init_spec os (o := ⟨0, 0⟩) (junk := fun _ _ => 0) po opened content pos
  exact ⟨h3, fun ho => by rw [h2.pos, h5 ho]⟩

/-- **C40.** In any history of calls of an `FdWriter` which did not fail, all results are as for a writer of a sequence of bytes which has
initially the contents of the file, and the position is right, however `write()` divides the data. -/
theorem C40_history (hal : WOp.AllAllowed (FdW.ops os bo junk) ops (FdW.init os po opened content pos)) :
    let r := fdRun os bo junk po opened content pos ops
    r.2.phys.ok = true →
      r.2.pos = (WOp.replay ops r.1 (fdContents os po content pos, FdW.startPos os content pos po)).2 ∧
      WOp.AllPossible ops r.1 (fdContents os po content pos, FdW.startPos os content pos po) := by
  intro r ho
  have hi := fd_init_ok hal ho
  obtain ⟨h1, -⟩ := FdW.init_spec os bo junk po opened content pos
  obtain ⟨e1, e2⟩ := ((FdW.lawful os _ bo junk).runAll h1 hal).2.1 ho
  rw [fd_abs os bo junk po opened content pos hi] at e1 e2
  exact ⟨congrArg Prod.snd e1, e2⟩

/-- **C40.** A successful `Close()` of an `FdWriter` of a file: the file has exactly the contents of the specification, the file descriptor is at the
position of the writer unless an independent position or `O_APPEND` is used. -/
theorem C40_close (hal : WOp.AllAllowed (FdW.ops os bo junk) ops (FdW.init os po opened content pos)) (hs : FdW.isStream os po = false) :
    let r := fdRun os bo junk po opened content pos ops
    let d := r.2.done (FdW.dst os bo junk)
    let spec := WOp.replay ops r.1 (content, FdW.startPos os content pos po)
    d.ok = true → r.2.phys.ok = true ∧ d.dst.content = spec.1 ∧ r.2.pos = spec.2 ∧
      (os.append = false → d.dst.indep = false → d.dst.filePos = spec.2) := by
  intro r d spec hc
  obtain ⟨h1, -⟩ := FdW.init_spec os bo junk po opened content pos
  have h2 := (FdW.lawful os _ bo junk).runAll h1 hal
  obtain ⟨d1, d2, d3, d4⟩ := BW.done_spec (FdW.dst_lawful os _ bo junk) h2.1
  obtain ⟨g1, g2, g3⟩ := d2 hc
  have hi := fd_init_ok hal g1
  have e1 := (h2.2.1 g1).1
  rw [fd_abs os bo junk po opened content pos hi] at e1
  have hcon : fdContents os po content pos = content := by unfold fdContents; rw [hs]; rfl
  rw [hcon] at e1
  have e2 : r.2.pos = spec.2 := congrArg Prod.snd e1
  have e3 : r.2.view _ = spec.1 := congrArg Prod.fst e1
  unfold FdCfg.dest at g2 e3
  dsimp only at g2 e3
  rw [hs] at g2 e3
  refine ⟨g1, g2.trans e3, e2, fun ha hin => ?_⟩
  rw [← e2]
  exact FdW.done_filePos h2.1 hc hs hin ha

/-- **C40.** After a successful `Flush()` of an `FdWriter` of a file the file has exactly the contents of the specification; with
`FlushType::kFromMachine` these contents are durable: they were in the file when `fsync()` was called. -/
theorem C40_flush (hal : WOp.AllAllowed (FdW.ops os bo junk) ops (FdW.init os po opened content pos)) (hs : FdW.isStream os po = false) (t : FlushType) :
    let r := fdRun os bo junk po opened content pos ops
    let f := FdW.flushImpl os (FdW.dst os bo junk) t r.2
    let spec := WOp.replay ops r.1 (content, FdW.startPos os content pos po)
    f.1 = true → f.2.phys.dst.content = spec.1 ∧ (t = .fromMachine → f.2.phys.dst.durable = spec.1) := by
  intro r f spec hc
  obtain ⟨h1, -⟩ := FdW.init_spec os bo junk po opened content pos
  have h2 := (FdW.lawful os _ bo junk).runAll h1 hal
  obtain ⟨f1, f2⟩ := FdW.flushImpl_spec h2.1 t
  obtain ⟨g1, g2, g3⟩ := f2 hc
  have hi := fd_init_ok hal g1
  have e1 := (h2.2.1 g1).1
  rw [fd_abs os bo junk po opened content pos hi] at e1
  have hcon : fdContents os po content pos = content := by unfold fdContents; rw [hs]; rfl
  rw [hcon] at e1
  have e3 : r.2.view _ = spec.1 := congrArg Prod.fst e1
  unfold FdCfg.dest at g2 e3
  dsimp only at g2 e3
  rw [hs] at g2 e3
  have g4 : f.2.phys.dst.content = spec.1 := g2.trans e3
  exact ⟨g4, fun ht => (g3 ht).trans g4⟩

/-- **C40.** `Size()` is the length of the contents of the specification. -/
theorem C40_size (hal : WOp.AllAllowed (FdW.ops os bo junk) ops (FdW.init os po opened content pos)) (n : Nat) :
    let r := fdRun os bo junk po opened content pos ops
    (r.2.sizeImpl (FdW.dst os bo junk)).1 = some n →
      n = (WOp.replay ops r.1 (fdContents os po content pos, FdW.startPos os content pos po)).1.length := by
  intro r hc
  obtain ⟨h1, -⟩ := FdW.init_spec os bo junk po opened content pos
  have h2 := (FdW.lawful os _ bo junk).runAll h1 hal
  obtain ⟨g1, g2, g3, g4, g5, g6⟩ := (BW.sizeImpl_spec (FdW.dst_lawful os _ bo junk) h2.1).2.1 n hc
  have hi := fd_init_ok hal g4
  have e1 := (h2.2.1 g4).1
  rw [fd_abs os bo junk po opened content pos hi] at e1
  rw [g1]
  exact congrArg (fun x => x.1.length) e1

/-- **C40.** A failed writer stays failed, and does not change the destination any more. -/
theorem C40_failed_stays_failed (ops' : List WOp)
    (hal : WOp.AllAllowed (FdW.ops os bo junk) ops (FdW.init os po opened content pos))
    (hal' : WOp.AllAllowed (FdW.ops os bo junk) ops' (fdRun os bo junk po opened content pos ops).2) (hs : FdW.isStream os po = false)
    (hf : (fdRun os bo junk po opened content pos ops).2.phys.ok = false) :
    let b := (fdRun os bo junk po opened content pos ops).2
    let b' := (WOp.runAll (FdW.ops os bo junk) ops' b).2
    b'.phys.ok = false ∧ b'.phys.dst.content = b.phys.dst.content ∧ (b'.done (FdW.dst os bo junk)).ok = false ∧
      (b'.done (FdW.dst os bo junk)).dst.content = b.phys.dst.content := by
  intro b b'
  obtain ⟨h1, -⟩ := FdW.init_spec os bo junk po opened content pos
  have h2 := (FdW.lawful os _ bo junk).runAll h1 hal
  obtain ⟨k1, k2, k3⟩ := (FdW.lawful os _ bo junk).runAll h2.1 hal'
  obtain ⟨l1, l2⟩ := k3 hf
  obtain ⟨d1, d2, d3, d4⟩ := BW.done_spec (FdW.dst_lawful os _ bo junk) k1
  obtain ⟨m1, m2⟩ := d3 l1
  unfold FdCfg.dest at l2 m2
  dsimp only at l2 m2
  rw [hs] at l2 m2
  exact ⟨l1, l2, m1, m2.trans l2⟩

/-- **C40.** Writing to a file at its end, in particular appending with `O_APPEND` or writing to an empty file: at any point, even if
writing failed, the file has its initial contents followed by a part of the data from their beginning. -/
theorem C40_appending (hs : FdW.isStream os po = false) (he : FdW.startPos os content pos po = content.length) (hop : ∀ op ∈ ops, op.Appends = true) :
    let b := (fdRun os bo junk po opened content pos ops).2
    content <+: b.phys.dst.content ∧ b.phys.dst.content <+: content ++ ops.flatMap WOp.bytes ∧
    ((b.done (FdW.dst os bo junk)).ok = true → (b.done (FdW.dst os bo junk)).dst.content = content ++ ops.flatMap WOp.bytes) := by
  intro b
  obtain ⟨h1, h2, h3, h4, h5⟩ := FdW.init_spec os bo junk po opened content pos
  have hv := h2.view (dest := FdCfg.dest ⟨FdW.isStream os po, FdW.startPos os content pos po, content, pos⟩)
  have hd : ∀ d : FdW, FdCfg.dest ⟨FdW.isStream os po, FdW.startPos os content pos po, content, pos⟩ d = d.content := fun d => by
    unfold FdCfg.dest; dsimp only; rw [hs]; rfl
  rw [hd, h3] at hv
  have hal := WOp.allAllowed (W := FdW.ops os bo junk) ops (FdW.init os po opened content pos) hop
  have L := FdW.lawful os ⟨FdW.isStream os po, FdW.startPos os content pos po, content, pos⟩ bo junk
  cases hi : (FdW.init os po opened content pos).phys.ok with
  | false =>
    obtain ⟨l1, l2, l3⟩ := L.runAll h1 hal
    obtain ⟨m1, m2⟩ := l3 hi
    rw [hd, hd, h3] at m2
    have m2 : b.phys.dst.content = content := m2
    rw [m2]
    refine ⟨List.prefix_refl _, List.prefix_append _ _, fun hc => ?_⟩
    have := ((BW.done_spec (FdW.dst_lawful os _ bo junk) l1).2.1 hc).1
    rw [show (WOp.runAll (FdW.ops os bo junk) ops (FdW.init os po opened content pos)).2.phys.ok = false from m1] at this; cases this
  | true =>
    have hp : (FdW.ops os bo junk).pos (FdW.init os po opened content pos) = content.length :=
      (h2.pos).trans ((h5 hi).trans he)
    have hp' : (FdW.ops os bo junk).pos (FdW.init os po opened content pos) = (BW.view _ (FdW.init os po opened content pos)).length :=
      hp.trans (congrArg List.length hv.symm)
    obtain ⟨a1, a2⟩ := L.appends h1 hop hp' (by rw [hv, hd, h3]; exact List.prefix_refl _)
    rw [hd, hd, h3] at a1
    rw [hv, hd] at a2
    refine ⟨a1, a2, fun hc => ?_⟩
    obtain ⟨d1, d2, d3, d4⟩ := BW.done_spec (FdW.dst_lawful os _ bo junk) (L.runAll h1 hal).1
    obtain ⟨g1, g2, g3⟩ := d2 hc
    have e1 := (L.appends_ok h1 hop hp' g1).1
    rw [hv] at e1
    rw [hd] at g2
    exact g2.trans e1

/-- **C40.** Sending data to a file descriptor which does not support `lseek()`, or with `set_assumed_pos()`: at any point, what was
sent is a part of the data from their beginning, and a successful `Close()` means that all data were sent, each byte once. -/
theorem C40_sending (hs : FdW.isStream os po = true) (hop : ∀ op ∈ ops, op.Appends = true) :
    let b := (fdRun os bo junk po opened content pos ops).2
    let d := b.done (FdW.dst os bo junk)
    (∃ k, b.phys.dst.content = sink os content pos ((ops.flatMap WOp.bytes).take k)) ∧
    (d.ok = true → d.dst.content = sink os content pos (ops.flatMap WOp.bytes)) := by
  intro b d
  obtain ⟨h1, h2, h3, h4, h5⟩ := FdW.init_spec os bo junk po opened content pos
  have hd : ∀ d : FdW, FdCfg.dest ⟨FdW.isStream os po, FdW.startPos os content pos po, content, pos⟩ d =
      List.replicate (FdW.startPos os content pos po) 0 ++ d.sent := fun d => by
    unfold FdCfg.dest; dsimp only; rw [hs]; rfl
  have hv := h2.view (dest := FdCfg.dest ⟨FdW.isStream os po, FdW.startPos os content pos po, content, pos⟩)
  rw [hd, h4, List.append_nil] at hv
  have hal := WOp.allAllowed (W := FdW.ops os bo junk) ops (FdW.init os po opened content pos) hop
  have L := FdW.lawful os ⟨FdW.isStream os po, FdW.startPos os content pos po, content, pos⟩ bo junk
  obtain ⟨l1, l2, l3⟩ := L.runAll h1 hal
  have hb : b.phys.dst.content = sink os content pos b.phys.dst.sent := (l1.phys.stream hs).2.1
  obtain ⟨d1, d2, d3, d4⟩ := BW.done_spec (FdW.dst_lawful os _ bo junk) l1
  have hd' : d.dst.content = sink os content pos d.dst.sent := (d1.stream hs).2.1
  rw [hb, hd']
  cases hi : (FdW.init os po opened content pos).phys.ok with
  | false =>
    obtain ⟨m1, m2⟩ := l3 hi
    rw [hd, hd, h4, List.append_nil] at m2
    have m2 : List.replicate (FdW.startPos os content pos po) 0 ++ b.phys.dst.sent = List.replicate (FdW.startPos os content pos po) 0 := m2
    have m3 : b.phys.dst.sent = [] := by
      have := congrArg List.length m2
      rw [List.length_append] at this
      exact List.length_eq_zero_iff.mp (by omega)
    refine ⟨⟨0, by rw [m3]; rfl⟩, fun hc => ?_⟩
    have := (d2 hc).1
    rw [show (WOp.runAll (FdW.ops os bo junk) ops (FdW.init os po opened content pos)).2.phys.ok = false from m1] at this; cases this
  | true =>
    have hp : (FdW.ops os bo junk).pos (FdW.init os po opened content pos) = (List.replicate (FdW.startPos os content pos po) (0 : UInt8)).length := by
      rw [List.length_replicate]; exact (h2.pos).trans (h5 hi)
    have hp' := hp
    rw [← hv] at hp'
    obtain ⟨a1, a2⟩ := L.appends h1 hop hp' (by rw [hv, hd, h4, List.append_nil]; exact List.prefix_refl _)
    rw [hv, hd, List.prefix_append_right_inj] at a2
    obtain ⟨u, hu⟩ := a2
    refine ⟨⟨b.phys.dst.sent.length, ?_⟩, fun hc => ?_⟩
    · rw [← hu]
      show sink os content pos b.phys.dst.sent = sink os content pos ((b.phys.dst.sent ++ u).take b.phys.dst.sent.length)
      rw [List.take_left]
    · obtain ⟨g1, g2, g3⟩ := d2 hc
      have e1 := (L.appends_ok h1 hop hp' g1).1
      rw [hv] at e1
      rw [hd] at g2
      have : d.dst.sent = ops.flatMap WOp.bytes := List.append_cancel_left (g2.trans e1)
      rw [this]

/-- **C40.** With `set_independent_pos()` the position of the file descriptor is never changed. -/
theorem C40_independent_pos (a : Nat) (hi : (FdW.init os (.independent a) opened content pos).phys.ok = true) :
    let b := (fdRun os bo junk (.independent a) opened content pos ops).2
    b.phys.dst.filePos = pos ∧ (b.done (FdW.dst os bo junk)).dst.filePos = pos := by
  intro b
  have h0 : FdW.Indep pos (FdW.init os (.independent a) opened content pos).phys := by
    unfold FdW.init at hi ⊢
    dsimp only at hi ⊢
    split at hi
    · cases hi
    · split at hi
      · cases hi
      · split at hi
        · cases hi
        · rw [if_neg ‹_›, if_neg ‹_›, if_neg ‹_›]
          exact ⟨rfl, rfl, (fun h => by cases h), rfl⟩
  have h1 := FdW.runAll_indep (os := os) (o := bo) (junk := junk) ops h0
  exact ⟨h1.2.2.2, (BW.done_keeps (FdW.keeps_indep os bo junk pos) h1).2.2.2⟩

/-- **C40, C38.** Writing a file and reading it: after a successful `Close()` of an `FdWriter` to an empty file, at any point of any
history of an `FdReader` of the file every function does what it should for a reader of the data which were written. -/
theorem C40_C38_round_trip (hs : FdW.isStream os po = false) (he : FdW.startPos os [] pos po = 0) (hop : ∀ op ∈ ops, op.Appends = true)
    (hc : ((fdRun os bo junk po opened [] pos ops).2.done (FdW.dst os bo junk)).ok = true) (hlen : (ops.flatMap WOp.bytes).length < 2 ^ 63)
    {ros : Rdr.Os} (hcon : ros.content = ((fdRun os bo junk po opened [] pos ops).2.done (FdW.dst os bo junk)).dst.content)
    (hsk : ros.seekable = true) (hsize : ros.endPos = some ros.content.length ∧ ros.statSize = ros.content.length)
    {rbo : Rdr.BufOpts} {room : Nat → Nat → Bool} {push : Nat → Nat} {growing : Bool} {rb : Rdr.BR Rdr.Fd}
    (h : FdReach ros rbo room push .current growing 0 rb) (op : Rdr.ROp) :
    op.Meets (Rdr.BR.ops (Rdr.Fd.src ros rbo room push)) (ops.flatMap WOp.bytes) True rb := by
  have h1 := (C40_appending (bo := bo) (junk := junk) (opened := opened) hs he hop).2.2 hc
  rw [List.nil_append] at h1
  have h2 : ros.content = ops.flatMap WOp.bytes := hcon.trans h1
  rw [h2] at hsize
  have hr : Rdr.Fd.Reads ros .current 0 (ops.flatMap WOp.bytes) := by
    unfold Rdr.Fd.Reads
    dsimp only
    rw [if_neg (by rw [hsk]; simp)]
    exact ⟨h2.symm, Nat.zero_le _, .inr (.inl ⟨hsize.1, hsize.2⟩)⟩
  exact (C38_reads_the_file hr (by omega) h op).1

end

/-! ## `ByteFill` -/

/-- **C41.** The blocks of a `ByteFill` of any size have together as many bytes as it has, all equal to its byte; no block is empty, and no
block is longer than the memory which the blocks share. -/
theorem C41_blocks (n : Nat) (c : UInt8) :
    (Fill.make n c).toList.flatten = List.replicate n c ∧ ∀ x ∈ (Fill.make n c).toList, x ≠ [] ∧ x.length ≤ (Fill.make n c).memory :=
  Fill.toList_spec n c

/-- Finding 28: this is false after moving the `ByteFill::Blocks`, if there is more than one block. -/
theorem C41_fails_after_moving : ∃ n c, (Fill.make n c).moved.toList.flatten ≠ List.replicate n c :=
  ⟨70000, 0, fun h => by
    have h1 : (Fill.make 70000 0).moved.toList.flatten.length = 4464 := by
      show ((Fill.make 70000 0).moved.iterate (1 + 1)).flatten.length = 4464
      rw [Fill.flatten_iterate, List.length_replicate]; decide
    rw [h, List.length_replicate] at h1
    cases h1⟩

/-! ## Concrete cases -/

/-- A system where `write()` writes 3 bytes at a time. -/
def exWos : WOs where
  append := false
  rdwr := true
  seekable := true
  seekEnd := true
  write _ := some 2
  succeeds _ := true
  readPos _ := 0

/-- The state after calls of an `FdWriter` with buffers of 4 to 16 bytes, for a file with 6 bytes, with the file descriptor at the given position. -/
def exRun (os : WOs) (po : Rdr.FdPos) (pos : Nat) (ops : List WOp) : List Bool × BW FdW :=
  fdRun os ⟨4, 16⟩ (fun _ _ => 255) po true [10, 11, 12, 13, 14, 15] pos ops

/-- Calls which write across the end of the file, seek back within the buffer and before it, truncate, and seek past the end. -/
def exCalls : List WOp :=
  [.write [1, 2, 3], .seek 5, .writeChar 4, .fill 3 9, .seek 1, .writeChain [[5], [6]], .size, .truncate 7, .seek 20, .push 2 0, .writeChar 7]

/-- The hypotheses of C40 are met. -/
example :
    WOp.AllAllowed (FdW.ops exWos ⟨4, 16⟩ fun _ _ => 255) exCalls (FdW.init exWos .current true [10, 11, 12, 13, 14, 15] 2) := by
  unfold exCalls
  repeat' constructor
  all_goals first | trivial | decide +kernel

/-- Calls with various results have the effects of the specification. -/
example :
    let r := exRun exWos .current 2 exCalls
    r.1 = [true, true, true, true, true, true, true, true, false, true, true] ∧
    WOp.replay exCalls r.1 ([10, 11, 12, 13, 14, 15], 2) = ([10, 5, 6, 2, 3, 4, 9, 7], 8) ∧
    (r.2.done (FdW.dst exWos ⟨4, 16⟩ fun _ _ => 255)).ok = true ∧
    (r.2.done (FdW.dst exWos ⟨4, 16⟩ fun _ _ => 255)).dst.content = [10, 5, 6, 2, 3, 4, 9, 7] ∧
    (r.2.done (FdW.dst exWos ⟨4, 16⟩ fun _ _ => 255)).dst.filePos = 8 := by decide +kernel

/-- A system where the fourth `write()` fails: 7 of the bytes are in the file. -/
example :
    let os := { exWos with append := true, write := fun t => if t = 3 then none else some 2 }
    let r := exRun os .current 0 [.write [1, 2, 3, 4], .write [5, 6, 7, 8, 9, 10, 11, 12, 13, 14, 15, 16, 17, 18, 19, 20], .flush .fromObject]
    FdW.isStream os .current = false ∧ FdW.startPos os [10, 11, 12, 13, 14, 15] 0 .current = 6 ∧
    r.2.phys.ok = false ∧ r.2.phys.dst.content = [10, 11, 12, 13, 14, 15, 1, 2, 3, 4, 5, 6, 7] := by decide +kernel

/-- A pipe. -/
example :
    let os := { exWos with seekable := false, seekEnd := false }
    let r := exRun os .current 0 [.write [1, 2, 3], .fill 5 7, .seek 3, .write [4]]
    FdW.isStream os .current = true ∧ r.1 = [true, true, false, false] ∧ r.2.phys.ok = false ∧
    r.2.phys.dst.content = [10, 11, 12, 13, 14, 15, 1, 2, 3, 7, 7, 7, 7, 7] := by decide +kernel

/-- The contract of classes derived from `BufferedWriter` is met, and its invariant holds initially. -/
example : ∃ cfg : FdCfg, (FdW.dst exWos ⟨4, 16⟩ fun _ _ => 255).Lawful cfg.dest (cfg.stream = false) (FdInv exWos cfg) ∧
    FdInv exWos cfg (FdW.init exWos .current true [10, 11, 12] 2).phys :=
  ⟨_, FdW.dst_lawful exWos _ ⟨4, 16⟩ _, (FdW.init_spec exWos ⟨4, 16⟩ (fun _ _ => 255) .current true [10, 11, 12] 2).1.phys⟩

/-- Durability: after `Flush(FlushType::kFromMachine)`. -/
example :
    let r := exRun exWos (.independent 4) 1 [.write [1, 2, 3], .flush .fromMachine, .write [4]]
    r.1 = [true, true, true] ∧ r.2.phys.dst.durable = [10, 11, 12, 13, 1, 2, 3] ∧ r.2.phys.dst.filePos = 1 := by decide +kernel

/-! ## Findings -/

/-- Finding 26: if `Fail()` is called by the user of a writer which was moved back within its buffer, then `Seek()` of the failed writer
succeeds, and leaves `cursor()` past `limit()`. -/
theorem C39_seek_after_Fail :
    let b := (exRun exWos .current 0 [.write [1, 2, 3], .seek 1]).2.fail
    let r := b.seekSlow (FdW.dst exWos ⟨4, 16⟩ fun _ _ => 255) 2
    b.phys.ok = false ∧ r.1 = true ∧ r.2.mem.length < r.2.cur := by decide +kernel

/-- Finding 27: `Truncate()` does not check `SupportsTruncate()`: with `set_assumed_pos()` the file is truncated at a position unrelated to
that of the writer. Here 1 byte was written at the position 2 of the file, assumed to be 0, and truncating at the end of the written data
destroys them. -/
theorem C40_truncate_with_assumed_pos :
    let r := exRun exWos (.assumed 0) 2 [.write [1], .flush .fromObject]
    let t := r.2.truncateImpl (FdW.dst exWos ⟨4, 16⟩ fun _ _ => 255) 0
    r.2.phys.dst.content = [10, 11, 1, 13, 14, 15] ∧ t.2.phys.dst.content = [] := by decide +kernel

/-- Finding 29: for a file descriptor positioned past the end of the file, `Truncate()` to a size between the end and the position extends
the file, and succeeds, although it should fail. -/
theorem C40_truncate_extends :
    let r := exRun exWos .current 10 [.truncate 8]
    r.1 = [true] ∧ r.2.phys.dst.content = [10, 11, 12, 13, 14, 15, 0, 0] := by decide +kernel

end Riegeli.Props

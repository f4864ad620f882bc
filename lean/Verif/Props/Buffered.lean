import Verif.FdReaderProofs
import Verif.FragReader
import Verif.Props.Limiting
/-!
# C37, C38: `BufferedReader` and `FdReader`

`S.Lawful D E PInv` says that `S` is a class derived from `BufferedReader` whose virtual functions do what `buffered_reader.h` asks for,
for a source with the data `D` (`E`: the end of `D` is a clean end). `Os` is an arbitrary operating system: it may divide the data
into any pieces, and any call may fail.
-/
namespace Riegeli.Props
open Riegeli Rdr

/-- Histories of a `BufferedReader`: it is created with an empty buffer, then public functions are called in any order. -/
inductive BufReach {τ : Type} (S : BSrc τ) (PInv : Phys τ → Prop) : BR τ → Prop where
  | init {p : Phys τ} (z : Sizer) : PInv p → BufReach S PInv ⟨p, [], 0, z, 0⟩
  | op {b} (op : ROp) : BufReach S PInv b → BufReach S PInv (op.run (BR.ops S) b)
  | sync {b} : BufReach S PInv b → BufReach S PInv (b.syncImpl S).2
  | setReadAllHint {b} (hint : Bool) : BufReach S PInv b → BufReach S PInv (b.setReadAllHint hint)

section
variable {τ : Type} {S : BSrc τ} {D : Bytes} {E : Prop} {PInv : Phys τ → Prop} {b : BR τ}

theorem BufReach.binv (L : S.Lawful D E PInv) (hD : D.length < 2 ^ 64 - 1) (h : BufReach S PInv b) : BInv D PInv b := by
  induction h with
  | init z hp => exact ⟨hp, Nat.le_refl _, Nat.zero_le _, (slice_zero _ _).symm⟩
  | op op _ ih => exact (op.meets (BR.lawful L) hD ih).1
  | sync _ ih => exact (BR.syncImpl_spec L ih).1
  | setReadAllHint _ _ ih => exact ⟨ih.phys, ih.idx, ih.len, ih.data⟩

/-- **C37.** At any point of any history of a `BufferedReader`, every function does what it should for a reader of the data of the
source, whatever the buffer sizes, and whatever the derived class does within its contract. A failed reader stays failed. -/
theorem C37_reads_the_data_of_the_source (L : S.Lawful D E PInv) (hD : D.length < 2 ^ 64 - 1) (h : BufReach S PInv b) (op : ROp) :
    op.Meets (BR.ops S) D E b ∧ (b.phys.ok = false → (op.run (BR.ops S) b).phys.ok = false) :=
  (op.meets (BR.lawful L) hD (h.binv L hD)).2

/-- **C37.** `Sync()` keeps the position unless the reader fails, and if the source supports random access, then it leaves the source at
this position. -/
theorem C37_sync (L : S.Lawful D E PInv) (hD : D.length < 2 ^ 64 - 1) (h : BufReach S PInv b) :
    ((b.syncImpl S).1 = true → (b.syncImpl S).2.pos = b.pos ∧
      (S.randomAccess b.phys = true → (b.syncImpl S).2.phys.limitPos = b.pos)) ∧
    ((b.syncImpl S).1 = false → (b.syncImpl S).2.phys.ok = false) ∧ (b.phys.ok = false → (b.syncImpl S).2.phys.ok = false) :=
  (BR.syncImpl_spec L (h.binv L hD)).2

/-- **C37.** `Close()` leaves the source at the position of the reader if the source supports random access, unless the reader failed;
otherwise it does not touch the source. -/
theorem C37_close (L : S.Lawful D E PInv) (hD : D.length < 2 ^ 64 - 1) (h : BufReach S PInv b) :
    (S.randomAccess b.phys = true → (b.done S).ok = true → (b.done S).limitPos = b.pos) ∧
    (S.randomAccess b.phys = false → b.done S = b.phys) ∧ (b.phys.ok = false → (b.done S).ok = false) :=
  (BR.done_spec L (h.binv L hD)).2

end

/-- Histories of an `FdReader`: it is created over a file descriptor at the position `pos`, then public functions are called in any
order. `room` and `push` stand for the memory allocated. -/
inductive FdReach (os : Os) (bo : BufOpts) (room : Nat → Nat → Bool) (push : Nat → Nat) (o : FdPos) (growing : Bool) (pos : Nat) :
    BR Fd → Prop where
  | init : FdReach os bo room push o growing pos (Fd.init os (Fd.src os bo room push) o growing pos)
  | op {b} (op : ROp) : FdReach os bo room push o growing pos b →
      FdReach os bo room push o growing pos (op.run (BR.ops (Fd.src os bo room push)) b)
  | sync {b} : FdReach os bo room push o growing pos b →
      FdReach os bo room push o growing pos (b.syncImpl (Fd.src os bo room push)).2
  | setReadAllHint {b} (hint : Bool) : FdReach os bo room push o growing pos b →
      FdReach os bo room push o growing pos (b.setReadAllHint hint)

section
variable {os : Os} {bo : BufOpts} {room : Nat → Nat → Bool} {push : Nat → Nat} {o : FdPos} {growing : Bool} {pos : Nat} {D : Bytes}
  {b : BR Fd}

theorem FdReach.binv (hr : Fd.Reads os o pos D) (hD : D.length < 2 ^ 64 - 1) (h : FdReach os bo room push o growing pos b) :
    ∃ ra, BInv D (FInv os D ⟨Fd.isIndep o, ra, Fd.startPos os o pos, pos⟩) b ∧
      (b.phys.ok = true → (ra = true ↔ Fd.isIndep o = true ∨ (o = .current ∧ os.seekable = true ∧ os.endPos = some D.length))) := by
  induction h with
  | init =>
    obtain ⟨ra, h1, h2⟩ := Fd.init_spec os bo room push o growing pos hr
    exact ⟨ra, h1, fun ho => (h2 ho).2⟩
  | @op b op _ ih =>
    obtain ⟨ra, h1, h2⟩ := ih
    obtain ⟨m1, m2, m3⟩ := op.meets (BR.lawful (Fd.src_lawful os bo room push D _)) hD h1
    refine ⟨ra, m1, fun ho => h2 ?_⟩
    cases hb : b.phys.ok with
    | true => rfl
    | false => rw [show (op.run _ b).phys.ok = false from m3 hb] at ho; cases ho
  | @sync b _ ih =>
    obtain ⟨ra, h1, h2⟩ := ih
    obtain ⟨m1, m2, m3, m4⟩ := BR.syncImpl_spec (Fd.src_lawful os bo room push D _) h1
    refine ⟨ra, m1, fun ho => h2 ?_⟩
    cases hb : b.phys.ok with
    | true => rfl
    | false => rw [m4 hb] at ho; cases ho
  | setReadAllHint _ _ ih =>
    obtain ⟨ra, h1, h2⟩ := ih
    exact ⟨ra, ⟨h1.phys, h1.idx, h1.len, h1.data⟩, h2⟩

/-- **C38.** Initially `FdReader` is at the position asked for by the options, unless it failed. -/
theorem C38_initial_position (hr : Fd.Reads os o pos D) :
    (Fd.init os (Fd.src os bo room push) o growing pos).phys.ok = true →
    (Fd.init os (Fd.src os bo room push) o growing pos).pos = Fd.startPos os o pos := by
  obtain ⟨ra, h1, h2⟩ := Fd.init_spec os bo room push o growing pos hr
  exact fun ho => (h2 ho).1

/-- **C38.** At any point of any history of an `FdReader`, every function does what it should for a reader of the data of the file, which
end where the file ends; in particular, the reader claims that the data end only at the end of the file. A failed reader stays failed. -/
theorem C38_reads_the_file (hr : Fd.Reads os o pos D) (hD : D.length < 2 ^ 64 - 1) (h : FdReach os bo room push o growing pos b) (op : ROp) :
    op.Meets (BR.ops (Fd.src os bo room push)) D True b ∧
    (b.phys.ok = false → (op.run (BR.ops (Fd.src os bo room push)) b).phys.ok = false) := by
  obtain ⟨ra, h1, -⟩ := h.binv hr hD
  exact (op.meets (BR.lawful (Fd.src_lawful os bo room push D _)) hD h1).2

/-- **C38.** A successful `Close()` of an `FdReader` of a regular file leaves the file descriptor at the position of the reader, however much was
read ahead. -/
theorem C38_close_leaves_the_descriptor_at_the_position (hr : Fd.Reads os .current pos D) (hs : os.seekable = true) (he : os.endPos = some D.length)
    (hD : D.length < 2 ^ 64 - 1) (h : FdReach os bo room push .current growing pos b)
    (hc : (b.done (Fd.src os bo room push)).ok = true) : (b.done (Fd.src os bo room push)).src.filePos = b.pos := by
  obtain ⟨ra, h1, h2⟩ := h.binv hr hD
  obtain ⟨d1, d2, d3, d4⟩ := BR.done_spec (Fd.src_lawful os bo room push D _) h1
  have ho : b.phys.ok = true := by
    cases hb : b.phys.ok with
    | true => rfl
    | false => rw [d4 hb] at hc; cases hc
  have hra := (h2 ho).2 (.inr ⟨rfl, hs, he⟩)
  subst hra
  have h3 := d2 (h1.phys.const.2) hc
  have h4 := d1.off hc rfl
  have h5 : Fd.startPos os .current pos = pos := by unfold Fd.startPos; rw [hs]; rfl
  rw [h5] at h4
  have h4 : (b.done (Fd.src os bo room push)).src.filePos + pos = (b.done (Fd.src os bo room push)).limitPos + pos := h4
  omega

/-- **C38.** The same for a successful `Sync()`. -/
theorem C38_sync_leaves_the_descriptor_at_the_position (hr : Fd.Reads os .current pos D) (hs : os.seekable = true) (he : os.endPos = some D.length)
    (hD : D.length < 2 ^ 64 - 1) (h : FdReach os bo room push .current growing pos b)
    (hc : (b.syncImpl (Fd.src os bo room push)).1 = true) (ho' : (b.syncImpl (Fd.src os bo room push)).2.phys.ok = true) :
    (b.syncImpl (Fd.src os bo room push)).2.phys.src.filePos = b.pos ∧ (b.syncImpl (Fd.src os bo room push)).2.pos = b.pos := by
  obtain ⟨ra, h1, h2⟩ := h.binv hr hD
  obtain ⟨d1, d2, d3, d4⟩ := BR.syncImpl_spec (Fd.src_lawful os bo room push D _) h1
  have ho : b.phys.ok = true := by
    cases hb : b.phys.ok with
    | true => rfl
    | false => rw [d4 hb] at ho'; cases ho'
  have hra := (h2 ho).2 (.inr ⟨rfl, hs, he⟩)
  subst hra
  obtain ⟨h3, h3'⟩ := d2 hc
  have h3' := h3' h1.phys.const.2
  have h4 := d1.phys.off ho' rfl
  have h5 : Fd.startPos os .current pos = pos := by unfold Fd.startPos; rw [hs]; rfl
  rw [h5] at h4
  have h4 : (b.syncImpl (Fd.src os bo room push)).2.phys.src.filePos + pos = (b.syncImpl (Fd.src os bo room push)).2.phys.limitPos + pos := h4
  exact ⟨by omega, h3⟩

/-- **C38.** An `FdReader` created over the same file descriptor after another one was closed continues where the other one stopped. -/
theorem C38_readers_in_sequence (hr : Fd.Reads os .current pos D) (hs : os.seekable = true) (he : os.endPos = some D.length)
    (hD : D.length < 2 ^ 64 - 1) (h : FdReach os bo room push .current growing pos b) (hc : (b.done (Fd.src os bo room push)).ok = true)
    (bo' : BufOpts) (room' : Nat → Nat → Bool) (push' : Nat → Nat) (growing' : Bool) :
    let b' := Fd.init os (Fd.src os bo' room' push') .current growing' (b.done (Fd.src os bo room push)).src.filePos
    Fd.Reads os .current (b.done (Fd.src os bo room push)).src.filePos D ∧ (b'.phys.ok = true → b'.pos = b.pos) := by
  dsimp only
  have hp := C38_close_leaves_the_descriptor_at_the_position hr hs he hD h hc
  rw [hp]
  obtain ⟨ra, h1, -⟩ := h.binv hr hD
  have hpa := BR.pos_avail h1
  have hlim := h1.phys.lim
  have hr' : Fd.Reads os .current b.pos D := by
    unfold Fd.Reads at hr ⊢
    dsimp only at hr ⊢
    rw [if_neg (by rw [hs]; simp)] at hr ⊢
    refine ⟨hr.1, by omega, ?_⟩
    rcases hr.2.2 with h3 | h3 | ⟨h3, h4, h5⟩
    · exact .inl h3
    · exact .inr (.inl h3)
    · have h6 := he.symm.trans h3
      injection h6 with h6
      omega
  refine ⟨hr', fun ho => ?_⟩
  rw [C38_initial_position hr' ho]
  unfold Fd.startPos; rw [hs]; rfl

/-- **C38.** With `set_independent_pos()` the position of the file descriptor is never changed. -/
theorem C38_independent_pos (a : Nat) (hr : Fd.Reads os (.independent a) pos D) (hD : D.length < 2 ^ 64 - 1)
    (h : FdReach os bo room push (.independent a) growing pos b) :
    b.phys.src.filePos = pos ∧ (b.done (Fd.src os bo room push)).src.filePos = pos := by
  obtain ⟨ra, h1, -⟩ := h.binv hr hD
  exact ⟨h1.phys.indep rfl, (BR.done_spec (Fd.src_lawful os bo room push D _) h1).1.indep rfl⟩

/-- **C38.** If the file descriptor does not support `lseek()`, then the bytes taken from it are exactly those read to the destinations
and those in the buffer: nothing is skipped, and `Close()` takes nothing more. -/
theorem C38_not_seekable (hr : Fd.Reads os .current pos D) (hs : os.seekable = false) (hD : D.length < 2 ^ 64 - 1)
    (h : FdReach os bo room push .current growing pos b) (ho : b.phys.ok = true) :
    b.phys.src.filePos = pos + b.pos + b.avail ∧ b.done (Fd.src os bo room push) = b.phys := by
  obtain ⟨ra, h1, h2⟩ := h.binv hr hD
  have hra : ra = false := by
    cases ra with
    | false => rfl
    | true => have := (h2 ho).1 rfl; rw [hs] at this; simp [Fd.isIndep] at this
  subst hra
  have hpa := BR.pos_avail h1
  have h4 := h1.phys.off ho rfl
  have h5 : Fd.startPos os .current pos = 0 := by unfold Fd.startPos; rw [hs]; rfl
  rw [h5] at h4
  have h4 : b.phys.src.filePos + 0 = b.phys.limitPos + pos := h4
  exact ⟨by omega, (BR.done_spec (Fd.src_lawful os bo room push D _) h1).2.2.1 h1.phys.const.2⟩

/-- **C38, C31.** A `LimitingReader` over an `FdReader` reads the data of the file up to the limit. -/
theorem C38_limited {scs : List LR.Scope} {l : LR (BR Fd)} {c : FdCfg} (hD : D.length < kMaxPosition)
    (h : LimReach (BR.ops (Fd.src os bo room push)) (BInv D (FInv os D c)) scs l) (op : ROp) :
    op.Meets (LR.ops (BR.ops (Fd.src os bo room push))) (D.take l.maxPos) (l.maxPos ≤ D.length ∨ (True ∧ l.exact = false)) l :=
  (C31_reads_the_data_up_to_the_limit (BR.lawful (Fd.src_lawful os bo room push D c)) hD h op).1

end

/-! ## Concrete cases -/

/-- A file of 20 bytes on a system where `read()` reads 3 bytes at a time. -/
def exFile : Os where
  content := (List.range 20).map UInt8.ofNat
  seekable := true
  endPos := some 20
  statSize := 20
  read _ := some 2
  succeeds _ := true
  fdDest := false
  copyRange _ := none

/-- `FdReader` with buffers of 4 to 16 bytes. -/
def exFd (os : Os) : BSrc Fd := Fd.src os ⟨4, 16⟩ (fun _ _ => false) id

/-- The hypotheses of the theorems are met, with the file descriptor at the position 2. -/
example : Fd.Reads exFile .current 2 exFile.content := ⟨rfl, by decide, .inr (.inl ⟨rfl, rfl⟩)⟩

/-- Reading 5 bytes at the position 2, then 2 more: more data were read ahead, but `Close()` moves the file descriptor back to 9. -/
example :
    let b := Fd.init exFile (exFd exFile) .current false 2
    let r := (BR.ops (exFd exFile)).read .chars 5 b
    let r' := (BR.ops (exFd exFile)).read .blocks 2 r.2.2
    FdReach exFile ⟨4, 16⟩ (fun _ _ => false) id .current false 2 r'.2.2 ∧ b.pos = 2 ∧ r.1 = true ∧ r.2.1 = [2, 3, 4, 5, 6] ∧
    r'.1 = true ∧ r'.2.1 = [7, 8] ∧ r'.2.2.pos = 9 ∧ r'.2.2.phys.src.filePos ≠ 9 ∧
    (r'.2.2.done (exFd exFile)).ok = true ∧ (r'.2.2.done (exFd exFile)).src.filePos = 9 := by
  refine ⟨.op (.read .blocks 2) (.op (.read .chars 5) .init), ?_⟩
  decide +kernel

/-- Reading past the end reads the rest; `Size()` is the size of the file, and seeking past the end leaves the reader at the end. -/
example :
    let b := Fd.init exFile (exFd exFile) .current false 17
    let r := (BR.ops (exFd exFile)).read .chars 9 b
    let q := (BR.ops (exFd exFile)).seek 30 b
    r.1 = false ∧ r.2.1 = [17, 18, 19] ∧ r.2.2.phys.ok = true ∧ (r.2.2.sizeImpl (exFd exFile)).1 = some 20 ∧
    q.1 = false ∧ q.2.pos = 20 ∧ q.2.phys.ok = true := by decide +kernel

/-- A file which does not support `lseek()`, and whose third `read()` fails. -/
def exPipe : Os := { exFile with seekable := false, endPos := none, read := fun t => if t = 3 then none else some 2 }

example : Fd.Reads exPipe .current 0 exPipe.content := rfl

/-- Reading fails after 6 bytes, and they are read. -/
example :
    let b := Fd.init exPipe (exFd exPipe) .current false 0
    let r := (BR.ops (exFd exPipe)).read .blocks 9 b
    FdReach exPipe ⟨4, 16⟩ (fun _ _ => false) id .current false 0 r.2.2 ∧
    r.1 = false ∧ r.2.1 = [0, 1, 2, 3, 4, 5] ∧ r.2.2.phys.ok = false ∧ r.2.2.phys.src.filePos = 6 := by
  refine ⟨.op (.read .blocks 9) .init, ?_⟩
  decide +kernel

/-- The contract of classes derived from `BufferedReader` is met, and its invariant holds initially. -/
example : ∃ c, (exFd exFile).Lawful exFile.content True (FInv exFile exFile.content c) ∧
    FInv exFile exFile.content c (Fd.init exFile (exFd exFile) .current false 2).phys := by
  obtain ⟨ra, h, -⟩ := Fd.init_spec exFile ⟨4, 16⟩ (fun _ _ => false) id .current false 2
    (D := exFile.content) ⟨rfl, by decide, .inr (.inl ⟨rfl, rfl⟩)⟩
  exact ⟨_, Fd.src_lawful exFile ⟨4, 16⟩ _ id exFile.content _, h.phys⟩

/-- A file whose size is claimed to be 0, as in `/proc`, although it has data. -/
def exProc : Os := { exFile with endPos := some 0, statSize := 0 }

/-- With the position 0 the data are read: `FdReader` recognizes the claim as false by reading. -/
example :
    let b := Fd.init exProc (exFd exProc) .current false 0
    let r := (BR.ops (exFd exProc)).read .chars 5 b
    Fd.Reads exProc .current 0 exProc.content ∧ r.1 = true ∧ r.2.1 = [0, 1, 2, 3, 4] := by
  refine ⟨⟨rfl, by decide, .inr (.inr ⟨rfl, rfl, by decide⟩)⟩, ?_⟩
  decide +kernel

/-- Finding 24: with another position the claim is believed: nothing is read, and the reader claims that the file ended cleanly, although
`read()` would read data. -/
theorem C38_fails_with_unknown_size :
    let b := Fd.init exProc (exFd exProc) .current false 2
    let r := (BR.ops (exFd exProc)).read .chars 5 b
    b.pos = 2 ∧ r.1 = false ∧ r.2.1 = [] ∧ r.2.2.phys.ok = true ∧ exProc.content.drop 2 ≠ [] := by decide +kernel

/-- Finding 25: after reading ahead, a failed `Seek()` backward moves the position forward. Here `lseek()` fails after opening. -/
theorem C37_failed_seek_moves_forward :
    let os := { exFile with succeeds := fun t => decide (t < 6) }
    let b := Fd.init os (exFd os) .current false 2
    let r := (BR.ops (exFd os)).read .chars 6 b
    let r' := (BR.ops (exFd os)).read .chars 1 r.2.2
    let q := (BR.ops (exFd os)).seek 0 r'.2.2
    r'.1 = true ∧ r'.2.2.pos = 9 ∧ q.1 = false ∧ q.2.phys.ok = false ∧ 9 < q.2.pos := by decide +kernel

end Riegeli.Props

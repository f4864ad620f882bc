import Verif.ArrayWriterProofs
/-!
# C62: `ArrayWriter`

The specification of a writer is a pair: contents and a position. `WOp.after` in `Verif/Writer.lean` says how a call changes it, `WOp.Possible` says which
results are possible, `WOp.replay` and `WOp.AllPossible` do the same for a sequence of calls. `arr` is the array being written to, `d` are its contents
before writing, `written` is the size of `written()`.

`room` are arbitrary sizes of scratch memory.
-/
namespace Riegeli.Props
open Riegeli Wtr

section
variable (room : Nat → Nat → Nat → Nat) (d : Bytes) (os : List WOp)

/-- **C62.** In any history of calls of an `ArrayWriter` which did not fail, all results are as for a writer of a sequence of bytes, and `pos()` is right,
whether data were written to the array or to scratch. -/
theorem C62_history :
    let r := (AW.init d).callAll room os
    r.2.ok = true → r.2.pos = (WOp.replay os r.1 ([], 0)).2 ∧ WOp.AllPossible os r.1 ([], 0) := by
  intro r ho
  obtain ⟨a1, a2, a3⟩ := AW.callAll_spec (room := room) (os := os) (AW.init_inv d)
  rw [AW.init_view] at a3
  obtain ⟨-, b1, b2⟩ := a3 ho
  exact ⟨by rw [← b1], b2⟩

/-- **C62.** In any history, including after a failure, the array keeps its size: nothing is written outside of it. -/
theorem C62_in_bounds : ((AW.init d).callAll room os).2.arr.length = d.length :=
  (AW.callAll_spec (room := room) (os := os) (AW.init_inv d)).2.1

/-- **C62.** If `Flush()` or `Close()` succeeds then `written()`, a prefix of the array, has exactly the contents of the specification; the array has the
same size as before. -/
theorem C62_flush :
    let r := (AW.init d).callAll room os
    let f := r.2.flushImpl
    f.1 = true → f.2.arr.take f.2.written = (WOp.replay os r.1 ([], 0)).1 ∧ f.2.written = (WOp.replay os r.1 ([], 0)).1.length ∧
      f.2.arr.length = d.length ∧ f.2.written ≤ d.length ∧ f.2.pos = (WOp.replay os r.1 ([], 0)).2 := by
  intro r f hf
  obtain ⟨a1, a2, a3⟩ := AW.callAll_spec (room := room) (os := os) (AW.init_inv d)
  rw [AW.init_view] at a3
  obtain ⟨⟨b1, b2, -, -⟩, b5, -⟩ := AW.flushImpl_spec (t := .fromObject) a1
  obtain ⟨c1, c2, c3, c4, c5, -⟩ := b5 hf
  obtain ⟨-, e, -⟩ := a3 c1
  rw [← e]
  exact ⟨c3, c4, b2.trans a2, (b2.trans a2) ▸ b1.written, c5⟩

/-- **C62.** Failures happen only when data do not fit in the array: if the writer did not fail before a call and fails in it, then the contents which the
specification says before the call, with what the call writes, are longer than the array. -/
theorem C62_fails_only_when_full (op : WOp) :
    let r := (AW.init d).callAll room os
    let a := WOp.replay os r.1 ([], 0)
    r.2.ok = true → ((AW.ops room).call op r.2).2.ok = false → d.length < (overlay a.1 a.2 op.bytes).length := by
  intro r a ho hf
  obtain ⟨a1, a2, a3⟩ := AW.callAll_spec (room := room) (os := os) (AW.init_inv d)
  rw [AW.init_view] at a3
  obtain ⟨-, e, -⟩ := a3 ho
  have h1 := (AW.call_spec (room := room) (op := op) a1).2.2.2 ho hf
  show d.length < (overlay (WOp.replay os r.1 ([], 0)).1 (WOp.replay os r.1 ([], 0)).2 op.bytes).length
  rw [← e]
  have h2 : ((AW.init d).callAll room os).2.arr.length = d.length := a2
  rwa [h2] at h1

/-- **C62.** A writer which did not fail and whose data fit in the array can be flushed and closed; and conversely. -/
theorem C62_flush_iff :
    let r := (AW.init d).callAll room os
    r.2.ok = true → (r.2.flushImpl.1 = true ↔ (WOp.replay os r.1 ([], 0)).1.length ≤ d.length) := by
  intro r ho
  obtain ⟨a1, a2, a3⟩ := AW.callAll_spec (room := room) (os := os) (AW.init_inv d)
  refine ⟨fun hf => ?_, fun hl => ?_⟩
  · obtain ⟨-, b2, -, b4, -⟩ := C62_flush room d os hf
    rw [← b2]
    exact b4
  · cases hk : r.2.flushImpl.2.ok with
    | true => exact (AW.flushImpl_spec (t := .fromObject) a1).2.2 hk
    | false =>
      have := C62_fails_only_when_full room d os (.flush .fromObject) ho hk
      have e : (WOp.flush .fromObject).bytes = [] := rfl
      rw [e, overlay_nil] at this
      exact (Nat.not_le_of_lt this hl).elim

/-- **C62.** Once the writer failed, it stays failed, and `Flush()` and `Close()` return false: data which were lost are never reported as written. -/
theorem C62_failures_are_kept (os' : List WOp) :
    let r := (AW.init d).callAll room os
    r.2.ok = false → (r.2.callAll room os').2.ok = false ∧ (r.2.callAll room os').2.flushImpl.1 = false := by
  intro r ho
  obtain ⟨a1, a2, a3⟩ := AW.callAll_spec (room := room) (os := os) (AW.init_inv d)
  obtain ⟨b1, b2, b3⟩ := AW.callAll_spec (room := room) (os := os') a1
  have h1 : (r.2.callAll room os').2.ok = false := by
    cases hk : (r.2.callAll room os').2.ok with
    | false => rfl
    | true => exact (Bool.false_ne_true (ho.symm.trans (b3 hk).1)).elim
  refine ⟨h1, ?_⟩
  cases hf : (r.2.callAll room os').2.flushImpl.1 with
  | false => rfl
  | true => exact (Bool.false_ne_true (h1.symm.trans ((AW.flushImpl_spec (t := .fromObject) b1).2.1 hf).1)).elim

/-- **C62.** After `Push(n)` returned true, at least `n` bytes are available, and the contents and the position did not change. -/
theorem C62_push (n rec : Nat) :
    let r := (AW.init d).callAll room os
    let p := (AW.ops room).push n rec r.2
    (p.1 = true → n ≤ p.2.avail) ∧ (p.2.ok = true → p.1 = true ∧ p.2.pos = r.2.pos) := by
  intro r p
  obtain ⟨a1, a2, a3⟩ := AW.callAll_spec (room := room) (os := os) (AW.init_inv d)
  obtain ⟨b1, b2⟩ := AW.push_spec (room := room) (n := n) (rec := rec) a1
  exact ⟨b2, fun hk => ⟨(b1.2.2.1 hk).2.1, (b1.2.2.1 hk).2.2.2⟩⟩

/-- **C62.** `Size()` is the length of the contents of the specification. -/
theorem C62_size (n : Nat) :
    let r := (AW.init d).callAll room os
    r.2.sizeImpl.1 = some n → n = (WOp.replay os r.1 ([], 0)).1.length := by
  intro r hn
  obtain ⟨a1, a2, a3⟩ := AW.callAll_spec (room := room) (os := os) (AW.init_inv d)
  rw [AW.init_view] at a3
  obtain ⟨b1, b2⟩ := (AW.sizeImpl_spec a1).2 n hn
  rw [b2, ← (a3 b1).2.1]

/-- **C62.** The reader returned by `ReadMode()` reads exactly the contents of the specification. -/
theorem C62_read_mode :
    let r := (AW.init d).callAll room os
    r.2.readModeImpl.1 = true → r.2.readModeImpl.2.seen = (WOp.replay os r.1 ([], 0)).1 := by
  intro r hn
  obtain ⟨a1, a2, a3⟩ := AW.callAll_spec (room := room) (os := os) (AW.init_inv d)
  rw [AW.init_view] at a3
  obtain ⟨b1, b2⟩ := (AW.readModeImpl_spec (q := 0) a1).2 hn
  rw [b2, ← (a3 b1).2.1]

/-- **C62.** What does not hold: "`Push()` returns true only if the writer is OK" (`writer.h:132-134`). After a failure which left no scratch, `Push(1)` returns
true and gives a buffer, and `Write(char)` returns true; the data are lost. -/
theorem C62_failed_writer_accepts_data (b : UInt8) (s : AW) (ho : s.ok = false) (hs : s.scratch = none) :
    ((AW.ops room).push 1 0 s).1 = true ∧ 0 < ((AW.ops room).push 1 0 s).2.avail ∧ ((AW.ops room).writeChar b s).1 = true ∧
    ((AW.ops room).writeChar b s).2.ok = false := by
  have ha : s.avail = 0 := by unfold AW.avail; rw [hs]; dsimp only; rw [if_neg (by rw [ho]; nofun)]
  have e : (AW.ops room).push 1 0 s = (true, s.force room) := by
    unfold WriterOps.push
    rw [if_neg (by show ¬ 1 ≤ s.avail; omega)]
    show s.pushSlow room 1 0 = _
    unfold AW.pushSlow
    dsimp only
    rw [AW.sync_true hs]
    rw [if_neg nofun, if_neg (fun h => by rw [hs] at h; cases h.1), if_pos rfl]
  unfold WriterOps.writeChar
  rw [e]
  refine ⟨rfl, ?_, ?_, ?_⟩
  · show 0 < max 1 (room s.tick 1 0) - 0
    omega
  · rfl
  · exact ho

end

/-! ## Examples -/

/-- Scratch memory of 4 bytes. -/
def exRoom : Nat → Nat → Nat → Nat := fun _ _ _ => 4

/-- Pushing more than is left to the end of the array uses scratch; what is written to it is copied to the array. Seeking back and overwriting. -/
example :
    let r := (AW.init [9, 9, 9, 9, 9, 9]).callAll exRoom [.write [1, 2, 3], .push 5 0, .writeChar 4, .writeChain [[5], [6]], .seek 1, .writeChar 7]
    r.1 = [true, true, true, true, true, true] ∧ r.2.ok = true ∧ r.2.flushImpl.1 = true ∧ r.2.flushImpl.2.arr = [1, 7, 3, 4, 5, 6] ∧
      r.2.flushImpl.2.written = 6 ∧ r.2.pos = 2 := by decide +kernel

/-- Scratch is used. -/
example : ((AW.init [9, 9, 9, 9, 9, 9]).callAll exRoom [.write [1, 2, 3], .push 5 0, .writeChar 4]).2.scratch = some ([4], 5) := by decide +kernel

/-- Data which do not fit: `Write()` of a character succeeds but `Close()` fails. -/
example :
    let r := (AW.init [9, 9]).callAll exRoom [.write [1, 2], .writeChar 3]
    r.1 = [true, true] ∧ r.2.ok = true ∧ r.2.pos = 3 ∧ r.2.flushImpl.1 = false ∧ r.2.flushImpl.2.arr = [1, 2] := by decide +kernel

/-- `written()` is shorter than the array; the rest of the array is as before. -/
example :
    let r := (AW.init [9, 9, 9, 9]).callAll exRoom [.write [1, 2, 3], .truncate 2, .truncate 3, .flush .fromProcess]
    r.1 = [true, true, false, true] ∧ r.2.arr.take r.2.written = [1, 2] ∧ r.2.arr = [1, 2, 3, 9] := by decide +kernel

/-- A reachable failed writer without scratch, as in `C62_failed_writer_accepts_data`. -/
example :
    let r := (AW.init [9, 9]).callAll exRoom [.write [1, 2, 3]]
    r.1 = [false] ∧ r.2.ok = false ∧ r.2.scratch = none ∧ (r.2.callAll exRoom [.writeChar 4, .flush .fromObject]).1 = [true, false] := by decide +kernel

/-- `Write(ByteFill)` over the end of the array begins scratch again while scratch is used, which its precondition forbids: pointers to the array are lost. -/
example :
    let r := (AW.init [9, 9]).callAll exRoom [.fill 7 1]
    r.1 = [true] ∧ r.2.ok = true ∧ r.2.older = [1, 1, 1, 1] ∧ r.2.scratch = some ([1], 4) ∧ r.2.flushImpl.1 = false := by decide +kernel

end Riegeli.Props

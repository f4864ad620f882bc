import Verif.ChainWriterProofs
/-!
# C58: `ChainWriter`

The specification of a writer is a pair: contents and a position. `WOp.after` in `Verif/Writer.lean` says how a call changes it, `WOp.Possible` says which
results are possible, `WOp.replay` and `WOp.AllPossible` do the same for a sequence of calls. `dest` is the chain being written to, with everything
which is in it.

`SCfg` are arbitrary decisions about allocation, and arbitrary contents of memory which was not written.
-/
namespace Riegeli.Props
open Riegeli Wtr

/-- Contents and position of a new writer to the chain `d`. -/
def newChain (d : Bytes) (append : Bool) : Bytes × Nat := if append then (d, d.length) else ([], 0)

theorem newChain_eq (d : Bytes) (append : Bool) : ((CW.init d append).view, (CW.init d append).pos) = newChain d append := by
  obtain ⟨a1, a2, a3, a4⟩ := CW.init_spec d append
  rw [a2, a3]
  cases append <;> rfl

section
variable (G : SCfg) (d : Bytes) (append : Bool) (ops : List WOp)

/-- **C58.** In any history of calls of a `ChainWriter` which did not fail, all results are as for a writer of a sequence of bytes, and `pos()` is right,
wherever the data after the current position are kept. -/
theorem C58_history :
    let r := (CW.ops G).callAll ops (CW.init d append)
    r.2.ok = true → r.2.pos = (WOp.replay ops r.1 (newChain d append)).2 ∧ WOp.AllPossible ops r.1 (newChain d append) := by
  intro r ho
  obtain ⟨a1, a2, a3⟩ := (CW.lawful (G := G)).callAll (ops := ops) (CW.init_spec d append).1
  have a2 := a2 ho
  rw [show ((CW.init d append).view, (CW.ops G).pos (CW.init d append)) = newChain d append from newChain_eq d append] at a2
  obtain ⟨b1, b2⟩ := a2
  exact ⟨by rw [← b1]; rfl, b2⟩

/-- **C58.** After a successful `Flush()` the chain has exactly the contents of the specification, without any unused space and with the data which follow the
current position, and the position does not change. -/
theorem C58_flush :
    let r := (CW.ops G).callAll ops (CW.init d append)
    let f := r.2.flushImpl
    f.1 = true → f.2.dest = (WOp.replay ops r.1 (newChain d append)).1 ∧ f.2.pos = (WOp.replay ops r.1 (newChain d append)).2 := by
  intro r f hf
  obtain ⟨a1, a2, a3⟩ := (CW.lawful (G := G)).callAll (ops := ops) (CW.init_spec d append).1
  obtain ⟨b1, b2⟩ := CW.flushImpl_spec (G := G) a1
  obtain ⟨c1, c2, c3⟩ := b2 hf
  have e := (a2 c1).1
  rw [show ((CW.init d append).view, (CW.ops G).pos (CW.init d append)) = newChain d append from newChain_eq d append] at e
  refine ⟨c3.trans (by rw [← e]), ?_⟩
  rw [← e]
  exact (b1.2.1 hf).2.1

/-- **C58.** If the writer did not fail then `Flush()` succeeds, and after `Close()` the chain has exactly the contents of the specification. -/
theorem C58_close :
    let r := (CW.ops G).callAll ops (CW.init d append)
    r.2.ok = true → r.2.flushImpl.1 = true ∧ r.2.close.ok = true ∧ r.2.close.dest = (WOp.replay ops r.1 (newChain d append)).1 := by
  intro r ho
  obtain ⟨a1, a2, a3⟩ := (CW.lawful (G := G)).callAll (ops := ops) (CW.init_spec d append).1
  have hf : r.2.flushImpl.1 = true := (CW.total (G := G)).flushImpl .fromObject r.2 a1 ho
  have e := ((CW.flushImpl_spec (G := G) a1).1.2.1 hf).2.2
  exact ⟨hf, e.trans ho, (C58_flush G d append ops hf).1⟩

/-- **C58.** `Size()` is the length of the contents of the specification. -/
theorem C58_size :
    let r := (CW.ops G).callAll ops (CW.init d append)
    r.2.ok = true → r.2.sizeImpl.1 = some (WOp.replay ops r.1 (newChain d append)).1.length := by
  intro r ho
  obtain ⟨a1, a2, a3⟩ := (CW.lawful (G := G)).callAll (ops := ops) (CW.init_spec d append).1
  have e := (a2 ho).1
  rw [show ((CW.init d append).view, (CW.ops G).pos (CW.init d append)) = newChain d append from newChain_eq d append] at e
  rw [(a1.view_length ho).1, ← e]

/-- **C58.** The reader returned by `ReadMode()` reads exactly the contents of the specification. -/
theorem C58_read_mode (q : Nat) :
    let r := (CW.ops G).callAll ops (CW.init d append)
    let m := r.2.readModeImpl q
    r.2.ok = true → m.1 = true ∧ m.2.dest = (WOp.replay ops r.1 (newChain d append)).1 := by
  intro r m ho
  have h := C58_close G d append ops ho
  exact ⟨h.1, h.2.2⟩

/-- **C58.** In any history the buffer given to the caller lies at the end of the chain, and it begins at `pos()`; a buffer and an appended tail are never
both present, nor are a separated tail and an appended tail: the assertions hold. -/
theorem C58_in_bounds :
    let s := ((CW.ops G).callAll ops (CW.init d append)).2
    s.ok = true → s.cur ≤ s.lim ∧ s.limitPos ≤ s.dest.length ∧ (0 < s.lim → s.limitPos = s.dest.length) ∧
      (s.limitPos < s.dest.length → s.lim = 0 ∧ s.tail = []) := by
  intro s ho
  obtain ⟨a1, a2, a3⟩ := (CW.lawful (G := G)).callAll (ops := ops) (CW.init_spec d append).1
  have h1 : s.limitPos ≤ s.dest.length := a1.room ho
  have h2 : s.limitPos < s.dest.length → s.lim = 0 ∧ s.tail = [] := fun h => a1.tail ho (CW.hasTail_iff.2 h)
  refine ⟨a1.cur, h1, fun h => ?_, h2⟩
  by_cases h' : s.limitPos < s.dest.length
  · have := (h2 h').1
    omega
  · omega

/-- **C58.** A `ChainWriter` fails only if a call needs a position which does not fit in 64 bits. -/
theorem C58_fails_only_on_overflow (op : WOp) :
    let s := ((CW.ops G).callAll ops (CW.init d append)).2
    s.ok = true → ((CW.ops G).call op s).2.ok = false → 2 ^ 64 - 1 < s.pos + op.needs := by
  intro s ho hf
  obtain ⟨a1, a2, a3⟩ := (CW.lawful (G := G)).callAll (ops := ops) (CW.init_spec d append).1
  refine Nat.lt_of_not_le (fun hk => ?_)
  exact Bool.false_ne_true (hf.symm.trans ((CW.lawful (G := G)).call_ok CW.total a1 op ho hk))

end

/-- **C58.** `ChainWriter` is a class meeting the contract of `Writer`: theorems about `Writer` classes with a destination which is any `Writer` hold for it. -/
theorem C58_is_a_writer (G : SCfg) : (CW.ops G).toWriterOps.Lawful CW.view CW.seen CW.Inv := CW.lawful.base

/-! ## Examples -/

/-- Blocks of 4 bytes; unused memory is filled with FF. -/
def exChain : SCfg := ⟨fun _ c _ => c + c / 2, fun _ _ _ _ => 4, fun _ _ => 255⟩

/-- Data are overwritten after seeking back, then written after seeking forward to the end. -/
example :
    let r := (CW.ops exChain).callAll [.write [4, 5], .write [6, 7, 8], .seek 2, .writeChain [[9], [10]], .seek 8, .writeChar 11] (CW.init [1, 2, 3] true)
    r.1 = [true, true, true, true, true, true] ∧ r.2.close.dest = [1, 2, 9, 10, 5, 6, 7, 8, 11] ∧ r.2.pos = 9 ∧ r.2.ok = true := by
  decide +kernel

/-- Data are overwritten in a buffer while the tail is separated; after `Flush()` the tail is appended, and more data are overwritten. -/
example :
    let r := (CW.ops exChain).callAll [.write [4, 5], .seek 1, .writeChar 9] (CW.init [1, 2, 3] true)
    r.2.dest = [1, 9, 255, 255, 255] ∧ r.2.tail = [2, 3, 4, 5] ∧ r.2.cur = 1 ∧ r.2.flushImpl.2.dest = [1, 9, 3, 4, 5] ∧ r.2.flushImpl.2.hasTail = true ∧
      ((CW.ops exChain).callAll [.write [7, 8], .flush .fromObject, .size] r.2.flushImpl.2).2.dest = [1, 9, 7, 8, 5] := by decide +kernel

/-- Truncating in the tail, then past the end, which fails without changing anything. -/
example :
    let r := (CW.ops exChain).callAll [.write [4, 5], .seek 1, .truncate 4, .truncate 9, .fill 2 1, .seek 9] (CW.init [1, 2, 3] true)
    r.1 = [true, true, true, false, true, false] ∧ r.2.close.dest = [1, 2, 3, 4, 1, 1] := by decide +kernel

/-- The contents can be too large. -/
example : ((CW.ops exChain).call (.push (2 ^ 64 - 1) 0) (CW.init [1] true)).2.ok = false := by decide +kernel

end Riegeli.Props

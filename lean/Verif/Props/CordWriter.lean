import Verif.CordWriterProofs
import Verif.LimitingWriterProofs
/-!
# C59: `CordWriter`

The specification of a writer is a pair: contents and a position. `WOp.after` in `Verif/Writer.lean` says how a call changes it, `WOp.Possible` says which
results are possible, `WOp.replay` and `WOp.AllPossible` do the same for a sequence of calls. `dest` is the cord being written to, with everything
which is in it.

`SCfg` are arbitrary decisions about allocation, and arbitrary contents of memory which was not written.
-/
namespace Riegeli.Props
open Riegeli Wtr

/-- Contents and position of a new writer to the cord `d`. -/
def newCord (d : Bytes) (append : Bool) : Bytes × Nat := if append then (d, d.length) else ([], 0)

theorem newCord_eq (G : SCfg) (d : Bytes) (append : Bool) (k room : Nat) (hd : d.length ≤ kMaxSize) :
    ((CdW.init G d append k room).view, (CdW.init G d append k room).pos) = newCord d append := by
  obtain ⟨a1, a2, a3, a4⟩ := CdW.init_spec (G := G) d append k room hd
  rw [a2, a3]
  cases append <;> rfl

section
variable (G : SCfg) (mb : Nat) (d : Bytes) (append : Bool) (k room : Nat) (hd : d.length ≤ kMaxSize) (ops : List WOp)
include hd

/-- **C59.** In any history of calls of a `CordWriter` which did not fail, all results are as for a writer of a sequence of bytes, and `pos()` is right,
wherever the data after the current position are kept. -/
theorem C59_history :
    let r := (CdW.ops G mb).callAll ops (CdW.init G d append k room)
    r.2.ok = true → r.2.pos = (WOp.replay ops r.1 (newCord d append)).2 ∧ WOp.AllPossible ops r.1 (newCord d append) := by
  intro r ho
  obtain ⟨a1, a2, a3⟩ := (CdW.lawful (G := G) (minBlock := mb)).callAll (ops := ops) (CdW.init_spec (G := G) d append k room hd).1
  have a2 := a2 ho
  rw [show ((CdW.init G d append k room).view, (CdW.ops G mb).pos (CdW.init G d append k room)) = newCord d append from newCord_eq G d append k room hd] at a2
  obtain ⟨b1, b2⟩ := a2
  exact ⟨by rw [← b1]; rfl, b2⟩

/-- **C59.** After a successful `Flush()` the cord has exactly the contents of the specification, without any unused space and with the data which follow the
current position, and the position does not change. -/
theorem C59_flush :
    let r := (CdW.ops G mb).callAll ops (CdW.init G d append k room)
    let f := r.2.flushImpl
    f.1 = true → f.2.dest = (WOp.replay ops r.1 (newCord d append)).1 ∧ f.2.pos = (WOp.replay ops r.1 (newCord d append)).2 := by
  intro r f hf
  obtain ⟨a1, a2, a3⟩ := (CdW.lawful (G := G) (minBlock := mb)).callAll (ops := ops) (CdW.init_spec (G := G) d append k room hd).1
  obtain ⟨b1, b2, -⟩ := CdW.flushImpl_spec (G := G) (minBlock := mb) a1
  obtain ⟨c1, c2, c3⟩ := b2 hf
  have e := (a2 c1).1
  rw [show ((CdW.init G d append k room).view, (CdW.ops G mb).pos (CdW.init G d append k room)) = newCord d append from newCord_eq G d append k room hd] at e
  refine ⟨c3.trans (by rw [← e]), ?_⟩
  rw [← e]
  exact (b1.2.1 hf).2.1

/-- **C59.** If the writer did not fail then `Flush()` succeeds, and after `Close()` the cord has exactly the contents of the specification. -/
theorem C59_close :
    let r := (CdW.ops G mb).callAll ops (CdW.init G d append k room)
    r.2.ok = true → r.2.flushImpl.1 = true ∧ r.2.close.ok = true ∧ r.2.close.dest = (WOp.replay ops r.1 (newCord d append)).1 := by
  intro r ho
  obtain ⟨a1, a2, a3⟩ := (CdW.lawful (G := G) (minBlock := mb)).callAll (ops := ops) (CdW.init_spec (G := G) d append k room hd).1
  have hf : r.2.flushImpl.1 = true := (CdW.total (G := G) (minBlock := mb)).flushImpl .fromObject r.2 a1 ho
  have e := ((CdW.flushImpl_spec (G := G) (minBlock := mb) a1).1.2.1 hf).2.2
  exact ⟨hf, e.trans ho, (C59_flush G mb d append k room hd ops hf).1⟩

/-- **C59.** `Size()` is the length of the contents of the specification. -/
theorem C59_size :
    let r := (CdW.ops G mb).callAll ops (CdW.init G d append k room)
    r.2.ok = true → r.2.sizeImpl.1 = some (WOp.replay ops r.1 (newCord d append)).1.length := by
  intro r ho
  obtain ⟨a1, a2, a3⟩ := (CdW.lawful (G := G) (minBlock := mb)).callAll (ops := ops) (CdW.init_spec (G := G) d append k room hd).1
  have e := (a2 ho).1
  rw [show ((CdW.init G d append k room).view, (CdW.ops G mb).pos (CdW.init G d append k room)) = newCord d append from newCord_eq G d append k room hd] at e
  rw [(a1.view_length ho).1, ← e]

/-- **C59.** The reader returned by `ReadMode()` reads exactly the contents of the specification. -/
theorem C59_read_mode (q : Nat) :
    let r := (CdW.ops G mb).callAll ops (CdW.init G d append k room)
    let m := r.2.readModeImpl q
    r.2.ok = true → m.1 = true ∧ m.2.dest = (WOp.replay ops r.1 (newCord d append)).1 := by
  intro r m ho
  have h := C59_close G mb d append k room hd ops ho
  exact ⟨h.1, h.2.2⟩

/-- **C59.** In any history the current position lies in the buffer, which ends at a position which fits in 64 bits; a buffer and an appended tail are never both
present, nor are a separated tail and an appended tail: the assertions hold. -/
theorem C59_in_bounds :
    let s := ((CdW.ops G mb).callAll ops (CdW.init G d append k room)).2
    s.ok = true → s.cur ≤ s.buf.length ∧ s.startPos ≤ s.dest.length ∧ s.pos + s.avail ≤ 2 ^ 64 - 1 ∧
      (s.startPos < s.dest.length → s.buf = [] ∧ s.tail = []) := by
  intro s ho
  obtain ⟨a1, a2, a3⟩ := (CdW.lawful (G := G) (minBlock := mb)).callAll (ops := ops) (CdW.init_spec (G := G) d append k room hd).1
  have h1 : s.cur ≤ s.buf.length := a1.cur
  have h2 : s.startPos + s.buf.length ≤ 2 ^ 64 - 1 := a1.fit ho
  refine ⟨h1, a1.room ho, ?_, fun h => a1.tail ho (CdW.hasTail_iff.2 h)⟩
  unfold CdW.pos CdW.avail
  omega

/-- **C59.** A `CordWriter` fails only if a call needs a position which does not fit in 64 bits. -/
theorem C59_fails_only_on_overflow (op : WOp) :
    let s := ((CdW.ops G mb).callAll ops (CdW.init G d append k room)).2
    s.ok = true → ((CdW.ops G mb).call op s).2.ok = false → 2 ^ 64 - 1 < s.pos + op.needs := by
  intro s ho hf
  obtain ⟨a1, a2, a3⟩ := (CdW.lawful (G := G) (minBlock := mb)).callAll (ops := ops) (CdW.init_spec (G := G) d append k room hd).1
  refine Nat.lt_of_not_le (fun hk => ?_)
  exact Bool.false_ne_true (hf.symm.trans ((CdW.lawful (G := G) (minBlock := mb)).call_ok CdW.total a1 op ho hk))

end

/-! ## `SetWriteSizeHint(std::nullopt)` -/

theorem cord_keeps (G : SCfg) (mb : Nat) : ({ (CdW.ops G mb).toWriterOps with setHint := fun _ s => s } : WriterOps CdW).Keeps (fun s => s.ub = false) := by
  have hput : ∀ bs (s : CdW), s.ub = false → (s.put bs).ub = false := fun _ _ h => h
  have hsync : ∀ s : CdW, s.ub = false → s.sync.ub = false := fun s h => by unfold CdW.sync; split <;> exact h
  have hpush : ∀ n rec (s : CdW), s.ub = false → (s.pushSlow G mb n rec).2.ub = false := fun n rec s h => by
    unfold CdW.pushSlow
    split
    · exact h
    · dsimp only
      split
      · exact h
      · obtain ⟨t, et, ht⟩ : ∃ t, t = (if s.hasTail then s.extractTail else s) ∧ t.ub = false := ⟨_, rfl, by split <;> exact h⟩
        rw [← et]
        split
        · exact ht
        · show (if mb ≤ t.cur then t.sync else t).ub = false
          split
          · exact hsync _ ht
          · exact ht
  have href : ∀ bs (s : CdW), s.ub = false → (s.refCore bs).2.ub = false := fun bs s h => by
    unfold CdW.refCore
    split
    · exact h
    · dsimp only
      split <;> exact hsync _ h
  have hwrite : ∀ fuel bs (s : CdW), s.ub = false → ((CdW.core G mb).defaultWriteSlow fuel bs s).2.ub = false := by
    intro fuel
    induction fuel with
    | zero => exact fun bs s h => h
    | succ fuel ih =>
      intro bs s h
      unfold WriterOps.defaultWriteSlow
      dsimp only
      split
      · exact hpush _ _ _ (hput _ _ h)
      · split
        · exact ih _ _ (hpush _ _ _ (hput _ _ h))
        · exact hput _ _ (hpush _ _ _ (hput _ _ h))
  have hfill : ∀ fuel n b (s : CdW), s.ub = false → ((CdW.core G mb).defaultFillSlow fuel n b s).2.ub = false := by
    intro fuel
    induction fuel with
    | zero => exact fun n b s h => h
    | succ fuel ih =>
      intro n b s h
      unfold WriterOps.defaultFillSlow WriterOps.push
      dsimp only
      split
      · split
        · split
          · exact hput _ _ h
          · exact ih _ _ _ (hput _ _ h)
        · split
          · exact hpush _ _ _ (hput _ _ h)
          · exact ih _ _ _ (hpush _ _ _ (hput _ _ h))
      · exact hput _ _ h
  have hflush : ∀ s : CdW, s.ub = false → s.flushImpl.2.ub = false := fun s h => by
    unfold CdW.flushImpl
    split
    · exact h
    · split
      · exact h
      · exact hsync _ h
  refine ⟨hput, hpush, fun bs s h => hwrite _ _ _ h, fun n b s h => ?_, fun _ => hflush, fun q s h => ?_, fun s h => ?_, fun n s h => ?_, fun _ => hflush, fun s h => h,
    fun _ s h => h⟩
  · show (s.fillSlow G mb n b).2.ub = false
    unfold CdW.fillSlow
    split
    · exact hfill _ _ _ _ h
    · exact href _ _ h
  · show (s.seekSlow q).2.ub = false
    unfold CdW.seekSlow
    split
    · exact h
    · split
      · split <;> exact h
      · split
        · split
          · exact h
          · dsimp only
            split <;> exact hsync _ h
        · exact hsync _ h
  · show s.sizeImpl.2.ub = false
    unfold CdW.sizeImpl
    split
    · exact h
    · split <;> exact h
  · show (s.truncateImpl n).2.ub = false
    unfold CdW.truncateImpl
    split
    · exact h
    · split
      · split <;> exact h
      · split
        · split
          · exact h
          · dsimp only
            split <;> exact hsync _ h
        · dsimp only
          split <;> exact h

theorem cord_call_ub (G : SCfg) (mb : Nat) (op : WOp) (hop : op ≠ .setWriteSizeHint none) (s : CdW) (h : s.ub = false) :
    ((CdW.ops G mb).call op s).2.ub = false := by
  have K := cord_keeps G mb
  have href : ∀ fs, ((CdW.ops G mb).writeRef fs s).2.ub = false := by
    intro fs
    unfold RefOps.writeRef
    split
    · exact K.put _ _ h
    · show (s.refSlow G mb fs).2.ub = false
      unfold CdW.refSlow
      split
      · have e : (CdW.mid G mb).writeFragments fs s = ({ (CdW.ops G mb).toWriterOps with setHint := fun _ s => s } : WriterOps CdW).writeFragments fs s :=
          LW.writeFragments_congr (W₁ := CdW.mid G mb) (W₂ := ({ (CdW.ops G mb).toWriterOps with setHint := fun _ s => s } : WriterOps CdW)) (fun _ _ => rfl) fs s
        rw [e]
        exact K.writeFragments fs s h
      · unfold CdW.refCore
        split
        · exact h
        · have hsync : s.sync.ub = false := by unfold CdW.sync; split <;> exact h
          dsimp only
          split <;> exact hsync
  cases op with
  | writeExternal bs => exact href [bs]
  | writeChain fs => exact href fs
  | setWriteSizeHint n =>
    show (s.setHint G n).ub = false
    unfold CdW.setHint
    split
    · exact h
    · cases n with
      | none => exact (hop rfl).elim
      | some n => exact h
  | push n rec => exact K.run (.push n rec) s h
  | writeChar b => exact K.run (.writeChar b) s h
  | write bs => exact K.run (.write bs) s h
  | fill n b => exact K.run (.fill n b) s h
  | flush t => exact K.run (.flush t) s h
  | seek q => exact K.run (.seek q) s h
  | size => exact K.run .size s h
  | truncate n => exact K.run (.truncate n) s h
  | readMode q => exact K.run (.readMode q) s h
  | supportsRandomAccess => exact K.run .supportsRandomAccess s h

/-- **C59.** Undefined behavior occurs only in `SetWriteSizeHint(std::nullopt)`. -/
theorem C59_no_undefined_behavior (G : SCfg) (mb : Nat) (d : Bytes) (append : Bool) (k room : Nat) (ops : List WOp) (hops : .setWriteSizeHint none ∉ ops) :
    ((CdW.ops G mb).callAll ops (CdW.init G d append k room)).2.ub = false := by
  have h0 : (CdW.init G d append k room).ub = false := by cases append <;> rfl
  generalize CdW.init G d append k room = s at *
  induction ops generalizing s with
  | nil => exact h0
  | cons op ops ih =>
    refine ih (fun h => hops (List.mem_cons_of_mem _ h)) _ (cord_call_ub G mb op (fun h => hops (h ▸ List.mem_cons_self)) s h0)

/-- It does occur there, whenever a size hint is set (finding 41): the code compares the hint with the old hint instead of with `std::nullopt`. -/
theorem C59_clearing_the_hint_is_undefined (G : SCfg) (s : CdW) (h : s.hint ≠ none) : (s.setHint G none).ub = true := by
  unfold CdW.setHint
  rw [if_neg (fun h' => h h'.symm)]

/-- The same hint given again clears it (finding 41). -/
theorem C59_same_hint_is_cleared (G : SCfg) (s : CdW) (n : Nat) (h : s.hint = some n) : (s.setHint G (some n)).hint = none := by
  unfold CdW.setHint
  rw [if_pos h.symm]

/-- **C59.** `CordWriter` is a class meeting the contract of `Writer`: theorems about `Writer` classes with a destination which is any `Writer` hold for it. -/
theorem C59_is_a_writer (G : SCfg) (mb : Nat) : (CdW.ops G mb).toWriterOps.Lawful CdW.view CdW.seen CdW.Inv := CdW.lawful.base

/-! ## Examples -/

/-- The initial capacity is 3; then blocks have at least 6 bytes; unused memory is filled with FF. -/
def exCord : SCfg := ⟨fun _ _ _ => 3, fun _ _ _ _ => 6, fun _ _ => 255⟩

/-- Data are overwritten after seeking back, then written after seeking forward to the end. The last 2 bytes of the destination were moved to the buffer. -/
example :
    let r := (CdW.ops exCord 4).callAll [.write [4, 5], .write [6, 7, 8], .seek 2, .writeChain [[9], [10]], .seek 8, .writeChar 11] (CdW.init exCord [1, 2, 3] true 2 1)
    r.1 = [true, true, true, true, true, true] ∧ r.2.close.dest = [1, 2, 9, 10, 5, 6, 7, 8, 11] ∧ r.2.pos = 9 ∧ r.2.ok = true := by
  decide +kernel

/-- Data are overwritten in a buffer while the tail is separated; after `Flush()` the tail is appended, and more data are overwritten. -/
example :
    let r := (CdW.ops exCord 4).callAll [.write [4, 5], .seek 1, .writeChar 9] (CdW.init exCord [1, 2, 3] true 2 1)
    r.2.dest = [1] ∧ r.2.buf = [9, 255, 255, 255, 255, 255] ∧ r.2.tail = [2, 3, 4, 5] ∧ r.2.cur = 1 ∧ r.2.flushImpl.2.dest = [1, 9, 3, 4, 5] ∧
      r.2.flushImpl.2.hasTail = true ∧
      ((CdW.ops exCord 4).callAll [.write [7, 8], .flush .fromObject, .size] r.2.flushImpl.2).2.dest = [1, 9, 7, 8, 5] := by decide +kernel

/-- Truncating in the tail, then past the end, which fails without changing anything. -/
example :
    let r := (CdW.ops exCord 4).callAll [.write [4, 5], .seek 1, .truncate 4, .truncate 9, .fill 20 1, .seek 99] (CdW.init exCord [1, 2, 3] true 0 0)
    r.1 = [true, true, true, false, true, false] ∧ r.2.close.dest = [1, 2, 3, 4] ++ List.replicate 20 1 := by decide +kernel

/-- A long reference is appended without a buffer; the initial capacity of the buffer is used. -/
example :
    let r := (CdW.ops exCord 4).callAll [.write [4, 5], .writeExternal (List.replicate 600 1)] (CdW.init exCord [1, 2, 3] false 0 0)
    ((CdW.ops exCord 4).callAll [.write [4, 5]] (CdW.init exCord [1, 2, 3] false 0 0)).2.buf = [4, 5, 255] ∧ r.2.buf = [] ∧
      r.2.close.dest = [4, 5] ++ List.replicate 600 1 := by decide +kernel

/-- The contents can be too large. -/
example : ((CdW.ops exCord 4).call (.push (2 ^ 64 - 1) 0) (CdW.init exCord [1] true 0 0)).2.ok = false := by decide +kernel

/-- A history with undefined behavior. -/
example : ((CdW.ops exCord 4).callAll [.setWriteSizeHint (some 100), .write [1], .setWriteSizeHint none] (CdW.init exCord [] false 0 0)).2.ub = true := by
  decide +kernel

end Riegeli.Props

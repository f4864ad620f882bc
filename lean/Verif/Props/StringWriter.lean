import Verif.StringWriterProofs
/-!
# C57: `StringWriter`

The specification of a writer is a pair: contents and a position. `WOp.after` in `Verif/Writer.lean` says how a call changes it, `WOp.Possible` says which
results are possible, `WOp.replay` and `WOp.AllPossible` do the same for a sequence of calls. `str` is the string being written to, with everything
which is in it.

`SCfg` are arbitrary decisions about allocation, and arbitrary contents of memory which was not written.
-/
namespace Riegeli.Props
open Riegeli Wtr

/-- Contents and position of a new writer to the string `d`. -/
def newString (d : Bytes) (append : Bool) : Bytes × Nat := if append then (d, d.length) else ([], 0)

/-- How many bytes after `pos()` the call needs. -/
def needs : WOp → Nat
  | .push n _ => n
  | op => op.bytes.length

theorem newString_eq {d : Bytes} {cap : Nat} (hc : d.length ≤ cap) (append : Bool) :
    ((SW.init d cap append).view, (SW.init d cap append).pos) = newString d append := by
  obtain ⟨a1, a2, a3, a4⟩ := SW.init_spec hc append
  rw [a2, a3]
  cases append <;> rfl

section
variable (G : SCfg) {d : Bytes} {cap : Nat} (hc : d.length ≤ cap) (append : Bool) (ops : List WOp)
include hc

/-- **C57.** In any history of calls of a `StringWriter` which did not fail, all results are as for a writer of a sequence of bytes, and `pos()` is right,
whether data were written to the string or to the secondary buffer. -/
theorem C57_history :
    let r := (SW.init d cap append).callAll G ops
    r.2.ok = true → r.2.pos = (WOp.replay ops r.1 (newString d append)).2 ∧ WOp.AllPossible ops r.1 (newString d append) := by
  intro r ho
  obtain ⟨a1, a2, a3⟩ := SW.callAll_spec (G := G) (ops := ops) (SW.init_spec hc append).1
  rw [newString_eq hc] at a2
  obtain ⟨b1, b2⟩ := a2 ho
  exact ⟨by rw [← b1], b2⟩

/-- **C57.** After a successful `Flush()` the string has exactly the contents of the specification, without any unused space, and the position does not change. -/
theorem C57_flush :
    let r := (SW.init d cap append).callAll G ops
    let f := r.2.flushImpl G
    f.1 = true → f.2.str = (WOp.replay ops r.1 (newString d append)).1 ∧ f.2.pos = (WOp.replay ops r.1 (newString d append)).2 := by
  intro r f hf
  obtain ⟨a1, a2, a3⟩ := SW.callAll_spec (G := G) (ops := ops) (SW.init_spec hc append).1
  rw [newString_eq hc] at a2
  obtain ⟨b1, b2⟩ := SW.flushImpl_spec (G := G) a1
  obtain ⟨c1, c2, c3⟩ := b2 hf
  have e := (a2 c1).1
  refine ⟨c3.trans (by rw [← e]), ?_⟩
  rw [← e]
  exact (b1.2.1 hf).2.1

/-- **C57.** If the writer did not fail then `Flush()` succeeds, and after `Close()` the string has exactly the contents of the specification. -/
theorem C57_close :
    let r := (SW.init d cap append).callAll G ops
    r.2.ok = true → (r.2.flushImpl G).1 = true ∧ (r.2.close G).ok = true ∧ (r.2.close G).str = (WOp.replay ops r.1 (newString d append)).1 := by
  intro r ho
  have hf : (r.2.flushImpl G).1 = true := by
    unfold SW.flushImpl
    rw [if_neg (by rw [ho]; nofun)]
  obtain ⟨a1, a2, a3⟩ := SW.callAll_spec (G := G) (ops := ops) (SW.init_spec hc append).1
  have e := ((SW.flushImpl_spec (G := G) a1).1.2.1 hf).2.2
  exact ⟨hf, e.trans ho, (C57_flush G hc append ops hf).1⟩

/-- **C57.** `Size()` is the length of the contents of the specification. -/
theorem C57_size :
    let r := (SW.init d cap append).callAll G ops
    r.2.ok = true → r.2.sizeImpl.1 = some (WOp.replay ops r.1 (newString d append)).1.length := by
  intro r ho
  obtain ⟨a1, a2, a3⟩ := SW.callAll_spec (G := G) (ops := ops) (SW.init_spec hc append).1
  rw [newString_eq hc] at a2
  unfold SW.sizeImpl
  rw [if_neg (by rw [ho]; nofun), ← a1.view_length ho, ← (a2 ho).1]

/-- **C57.** The reader returned by `ReadMode()` reads exactly the contents of the specification. -/
theorem C57_read_mode (q : Nat) :
    let r := (SW.init d cap append).callAll G ops
    let m := r.2.readModeImpl G q
    r.2.ok = true → m.1 = true ∧ m.2.seen = (WOp.replay ops r.1 (newString d append)).1 := by
  intro r m ho
  have hm : m.1 = true := by
    show (r.2.readModeImpl G q).1 = true
    unfold SW.readModeImpl
    rw [if_neg (by rw [ho]; nofun)]
  obtain ⟨a1, a2, a3⟩ := SW.callAll_spec (G := G) (ops := ops) (SW.init_spec hc append).1
  rw [newString_eq hc] at a2
  refine ⟨hm, ?_⟩
  rw [← (a2 ho).1]
  exact ((SW.readModeImpl_spec (G := G) (q := q) a1).2 hm).2

/-- **C57.** In any history the buffer given to the caller lies within the memory of the string or of the secondary buffer, and it begins where the data
end or are overwritten; the assertions that the string did not change unexpectedly hold. -/
theorem C57_in_bounds :
    let s := ((SW.init d cap append).callAll G ops).2
    s.ok = true → s.cur ≤ s.lim ∧ s.str.length ≤ s.cap ∧ s.limitPos - s.sec.length ≤ s.str.length ∧
      (s.sec = [] → s.pos + s.avail ≤ s.str.length) ∧ (s.sec ≠ [] → s.lim ≤ s.sec.length) := by
  intro s ho
  obtain ⟨a1, a2, a3⟩ := SW.callAll_spec (G := G) (ops := ops) (SW.init_spec hc append).1
  refine ⟨a1.cur, a1.cap ho, a1.room ho, fun hs => ?_, fun hs => (a1.secd ho hs).1⟩
  have h1 := a1.room ho
  have h2 := a1.cur
  have h1 : s.limitPos - s.sec.length ≤ s.str.length := h1
  have h2 : s.cur ≤ s.lim := h2
  rw [hs] at h1
  simp only [List.length_nil] at h1
  unfold SW.limitPos at h1
  unfold SW.pos SW.avail
  omega

end

section
variable (G : SCfg)

theorem pushSlow_true {s : SW} {n rec : Nat} (ho : s.ok = true) (hk : s.pos + n ≤ kMaxSize) : (s.pushSlow G n rec).1 = true := by
  unfold SW.pushSlow
  rw [if_neg (by rw [ho]; nofun), if_neg (by omega)]
  split
  · dsimp only
    generalize (if s.pos = 0 ∨ s.pos < s.written then s.reserve G (min (s.pos + max n rec) kMaxSize) else s) = t
    split
    · assumption
    · rfl
  · rfl

theorem writeSlow_true {s : SW} {bs : Bytes} (ho : s.ok = true) (hk : s.pos + bs.length ≤ kMaxSize) : (s.writeSlow G bs).1 = true := by
  unfold SW.writeSlow
  rw [if_neg (by rw [ho]; nofun), if_neg (by omega)]
  split
  · dsimp only
    generalize (if s.pos = 0 then s.reserve G (s.pos + bs.length) else s) = t
    split <;> rfl
  · rfl

theorem refSlow_true {s : SW} {bs : Bytes} (ho : s.ok = true) (hk : s.pos + bs.length ≤ kMaxSize) : (s.refSlow G bs).1 = true := by
  unfold SW.refSlow
  rw [if_neg (by rw [ho]; nofun), if_neg (by omega)]
  split
  · split <;> rfl
  · rfl

theorem string_call_ok {s : SW} (h : s.Inv) (op : WOp) (ho : s.ok = true) (hk : s.pos + needs op ≤ kMaxSize) : (s.call G op).2.ok = true := by
  have L := SW.lawful (G := G)
  cases op with
  | push n rec =>
    have h1 := (L.push (n := n) (rec := rec) h).1
    refine (h1.2.1 ?_).2.2.trans ho
    unfold WriterOps.push
    split
    · rfl
    · exact pushSlow_true G ho hk
  | writeChar b =>
    have h1 := (L.writeChar (b := b) h).1
    refine (h1.2.1 ?_).2.2.trans ho
    have : ((SW.ops G).push 1 0 s).1 = true := by
      unfold WriterOps.push
      split
      · rfl
      · exact pushSlow_true G ho hk
    unfold WriterOps.writeChar
    dsimp only
    rw [if_neg (by rw [this]; nofun)]
  | write bs =>
    have h1 := (L.write (bs := bs) h).1
    refine (h1.2.1 ?_).2.2.trans ho
    unfold WriterOps.write
    split
    · rfl
    · exact writeSlow_true G ho hk
  | writeExternal bs =>
    have h1 := SW.writeRef_spec (G := G) (bs := bs) h
    refine (h1.2.1 ?_).2.2.trans ho
    unfold SW.writeRef
    split
    · rfl
    · exact refSlow_true G ho hk
  | writeChain fs =>
    have h1 := SW.writeRef_spec (G := G) (bs := fs.flatten) h
    refine (h1.2.1 ?_).2.2.trans ho
    unfold SW.writeRef
    split
    · rfl
    · exact refSlow_true G ho hk
  | fill n b =>
    have h1 := (L.fill (n := n) (b := b) h).1
    refine (h1.2.1 ?_).2.2.trans ho
    unfold WriterOps.fill
    split
    · rfl
    · exact refSlow_true G ho hk
  | flush t =>
    have h1 := (SW.flushImpl_spec (G := G) h).1
    refine (h1.2.1 ?_).2.2.trans ho
    unfold SW.flushImpl
    rw [if_neg (by rw [ho]; nofun)]
  | seek q =>
    show ((SW.ops G).seek q s).2.ok = true
    unfold WriterOps.seek
    split
    · exact ho
    · exact (SW.seekSlow_spec (G := G) (q := q) h).2.2.1.trans ho
  | size =>
    show (s.sizeImpl).2.ok = true
    unfold SW.sizeImpl
    split <;> exact ho
  | truncate n => exact (SW.truncateImpl_spec (n := n) h).2.1.trans ho
  | readMode q =>
    have h1 := (SW.readModeImpl_spec (G := G) (q := q) h).1
    refine (h1.2.1 ?_).2.2.trans ho
    unfold SW.readModeImpl
    rw [if_neg (by rw [ho]; nofun)]
  | supportsRandomAccess => exact ho
  | setWriteSizeHint n => exact (SW.setHint_spec (G := G) (n := n) h).2.2.2.1.trans ho

variable {d : Bytes} {cap : Nat} (hc : d.length ≤ cap) (append : Bool) (ops : List WOp)
include hc

/-- **C57.** A `StringWriter` fails only if a call needs a position which does not fit in 64 bits. -/
theorem C57_fails_only_on_overflow (op : WOp) :
    let s := ((SW.init d cap append).callAll G ops).2
    s.ok = true → (s.call G op).2.ok = false → 2 ^ 64 - 1 < s.pos + needs op := by
  intro s ho hf
  obtain ⟨a1, a2, a3⟩ := SW.callAll_spec (G := G) (ops := ops) (SW.init_spec hc append).1
  refine Nat.lt_of_not_le (fun hk => ?_)
  exact Bool.false_ne_true (hf.symm.trans (string_call_ok G a1 op ho hk))

end

/-- **C57.** `StringWriter` is a class meeting the contract of `Writer`: theorems about `Writer` classes with a destination which is any `Writer` hold for it. -/
theorem C57_is_a_writer (G : SCfg) : (SW.ops G).Lawful SW.view SW.seen SW.Inv := SW.lawful

/-! ## Examples -/

/-- Capacity grows by a half; blocks of 4 bytes; unused memory is filled with FF. -/
def exString : SCfg := ⟨fun _ c _ => c + c / 2, fun _ _ _ _ => 4, fun _ _ => 255⟩

/-- Writing over the capacity goes to the secondary buffer; then data are overwritten after seeking back. -/
example :
    let r := (SW.init [1, 2, 3] 6 true).callAll exString [.write [4, 5], .write [6, 7, 8], .seek 2, .writeChain [[9], [10]], .seek 8, .writeChar 11]
    r.1 = [true, true, true, true, true, true] ∧ (r.2.close exString).str = [1, 2, 9, 10, 5, 6, 7, 8, 11] ∧ r.2.pos = 9 ∧ r.2.ok = true := by
  decide +kernel

/-- The secondary buffer is used. -/
example :
    let r := (SW.init [1, 2, 3] 6 true).callAll exString [.write [4, 5], .write [6, 7, 8]]
    r.2.sec = [7, 8, 255, 255, 255, 255] ∧ r.2.str = [1, 2, 3, 4, 5, 6] ∧ r.2.ok = true := by decide +kernel

/-- Truncating in the secondary buffer, then past the end, which fails without changing anything. -/
example :
    let r := (SW.init [1, 2, 3] 6 true).callAll exString [.write [4, 5], .write [6, 7, 8], .truncate 7, .truncate 9, .fill 2 1]
    r.1 = [true, true, true, false, true] ∧ (r.2.close exString).str = [1, 2, 3, 4, 5, 6, 7, 1, 1] := by decide +kernel

/-- Old contents are lost without `append`; unused space is not visible after `Flush()`. -/
example :
    let r := (SW.init [1, 2, 3] 6 false).callAll exString [.push 5 10, .writeExternal [7]]
    r.2.str = [1, 2, 3, 255, 255, 255, 255, 255, 255, 255].set 0 7 ∧ (r.2.flushImpl exString).2.str = [7] := by decide +kernel

end Riegeli.Props

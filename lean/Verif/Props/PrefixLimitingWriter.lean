import Verif.PrefixLimitingWriterProofs
import Verif.Props.LimitingWriter
/-!
# C64: `PrefixLimitingWriter`

The specification is that of a writer of a sequence of bytes (`WOp.replay`), which has initially the contents of the destination without the first
`base_pos` bytes. The destination is any class of writers which meets the contract of `Writer` (`WriterOps.Lawful`); `view d` is what `d` presents,
`dest d` is what it has stored.
-/
namespace Riegeli.Props
open Riegeli Wtr

/-- The results and the state after calls of a `PrefixLimitingWriter` of the destination `d`. -/
def plRun {σ : Type} (W : WriterOps σ) (d : σ) (basePos : Option Nat) (owns : Bool) (ops : List WOp) : List Bool × PLW σ :=
  WOp.runAll (PLW.ops W) ops (PLW.init W d basePos owns)

/-- The destination is valid, and the base position is not past its current position (`prefix_limiting_writer.h:57-58`) nor past the end of its
contents. -/
structure Based {σ : Type} (W : WriterOps σ) (view : σ → Bytes) (Inv : σ → Prop) (d : σ) (b : Nat) : Prop where
  inv : Inv d
  pos : b ≤ W.pos d
  size : b ≤ (view d).length

section
variable {σ : Type} {W : WriterOps σ} {view dest : σ → Bytes} {Inv : σ → Prop} {d : σ} {basePos : Option Nat} {owns : Bool} {ops : List WOp}

variable (L : W.Lawful view dest Inv) (hq : W.QuietRandomAccess Inv) (hd : Based W view Inv d (basePos.getD (W.pos d)))
  (hal : WOp.AllAllowed (PLW.ops W) ops (PLW.init W d basePos owns))
include L hq hd hal

theorem pl_all :
    PLW.PInv W view dest Inv ((view d).take (basePos.getD (W.pos d))) (dest d) (plRun W d basePos owns ops).2 ∧
    ((plRun W d basePos owns ops).2.ok = true →
      (PLW.viewOf W view (plRun W d basePos owns ops).2, (plRun W d basePos owns ops).2.pos) =
        WOp.replay ops (plRun W d basePos owns ops).1 ((view d).drop (basePos.getD (W.pos d)), W.pos d - basePos.getD (W.pos d)) ∧
      WOp.AllPossible ops (plRun W d basePos owns ops).1 ((view d).drop (basePos.getD (W.pos d)), W.pos d - basePos.getD (W.pos d))) ∧
    ((plRun W d basePos owns ops).2.ok = true → W.ok d = true) := by
  have i1 := PLW.init_inv (dest := dest) (owns := owns) hd.inv hd.pos hd.size
  obtain ⟨r1, r2, r3⟩ := (PLW.lawful L hq).runAll i1 hal
  have e : (PLW.ops W).abs (PLW.viewOf W view) (PLW.init W d basePos owns) =
      ((view d).drop (basePos.getD (W.pos d)), W.pos d - basePos.getD (W.pos d)) := by
    show ((overlay (view d) (W.pos d) []).drop _, _) = _
    rw [overlay_nil]; rfl
  refine ⟨r1, fun ho => ?_, fun ho => ?_⟩
  · have := r2 ho
    rw [e] at this
    exact this
  · cases hk : W.ok d with
    | true => rfl
    | false => exact (Bool.false_ne_true ((r3 hk).1.symm.trans ho)).elim

/-- **C64.** In any history of calls of a `PrefixLimitingWriter` which did not fail, all results are as for a writer of a sequence of bytes which has
initially the contents of the destination from the base position on, and positions are relative to the base position. -/
theorem C64_history :
    let r := plRun W d basePos owns ops
    let b := basePos.getD (W.pos d)
    r.2.ok = true → r.2.pos = (WOp.replay ops r.1 ((view d).drop b, W.pos d - b)).2 ∧ WOp.AllPossible ops r.1 ((view d).drop b, W.pos d - b) := by
  intro r b ho
  obtain ⟨-, a2, -⟩ := pl_all L hq hd hal
  obtain ⟨b2, b3⟩ := a2 ho
  exact ⟨congrArg Prod.snd b2, b3⟩

/-- **C64.** A successful `Flush()` leaves the destination with its data before the base position unchanged, followed by the contents of the
specification, and with the position of the specification past the base position; they are also stored, unless `FlushType::kFromObject` is used. -/
theorem C64_flush (t : FlushType) :
    let r := plRun W d basePos owns ops
    let b := basePos.getD (W.pos d)
    let f := r.2.flushImpl W t
    let spec := WOp.replay ops r.1 ((view d).drop b, W.pos d - b)
    f.1 = true → view f.2.dst = (view d).take b ++ spec.1 ∧ W.pos f.2.dst = b + spec.2 ∧
      (t ≠ .fromObject → dest f.2.dst = (view d).take b ++ spec.1) := by
  intro r b f spec hf
  obtain ⟨a1, a2, -⟩ := pl_all L hq hd hal
  obtain ⟨-, f2⟩ := PLW.flushImpl_spec L (t := t) a1
  obtain ⟨g1, g2, g3, g4⟩ := f2 hf
  obtain ⟨b2, -⟩ := a2 g1
  have e1 := congrArg Prod.fst b2
  have e2 := congrArg Prod.snd b2
  dsimp only at e1 e2
  have hl : ((view d).take b).length = b := by rw [List.length_take]; exact Nat.min_eq_left hd.size
  rw [show ((view d).take (basePos.getD (W.pos d))).length = basePos.getD (W.pos d) from hl, e2] at g3
  rw [e1] at g2 g4
  exact ⟨g2, g3, g4⟩

/-- **C64.** A successful `Close()` leaves the destination in the same way. -/
theorem C64_close :
    let r := plRun W d basePos owns ops
    let b := basePos.getD (W.pos d)
    let c := r.2.done W
    let spec := WOp.replay ops r.1 ((view d).drop b, W.pos d - b)
    c.ok = true → W.ok c.dst = true ∧ view c.dst = (view d).take b ++ spec.1 ∧ W.pos c.dst = b + spec.2 ∧ c.pos = spec.2 := by
  intro r b c spec hc
  obtain ⟨a1, a2, -⟩ := pl_all L hq hd hal
  have e : c = if r.2.ok then { r.2 with dst := r.2.sync W, pend := [], start := r.2.pos } else r.2 := rfl
  cases ho : r.2.ok with
  | false => rw [ho] at e; rw [e] at hc; exact (Bool.false_ne_true (ho.symm.trans hc)).elim
  | true =>
    rw [ho, if_pos rfl] at e
    obtain ⟨s1, s2, s3, s4, s5⟩ := PLW.sync_spec L a1 ho
    obtain ⟨b2, -⟩ := a2 ho
    have e1 := congrArg Prod.fst b2
    have e2 := congrArg Prod.snd b2
    dsimp only at e1 e2
    have hl : ((view d).take b).length = b := by rw [List.length_take]; exact Nat.min_eq_left hd.size
    rw [show ((view d).take (basePos.getD (W.pos d))).length = basePos.getD (W.pos d) from hl, e2] at s3
    rw [e1] at s2
    rw [e]
    exact ⟨s4, s2, s3, e2⟩

/-- **C64.** `Size()` which succeeds gives the size without the data before the base position, and changes nothing. -/
theorem C64_size :
    let r := plRun W d basePos owns ops
    let b := basePos.getD (W.pos d)
    let spec := WOp.replay ops r.1 ((view d).drop b, W.pos d - b)
    ∀ n, (r.2.sizeImpl W).1 = some n → n = spec.1.length ∧ (r.2.sizeImpl W).2.pos = spec.2 := by
  intro r b spec n hn
  obtain ⟨a1, a2, -⟩ := pl_all L hq hd hal
  obtain ⟨-, s2, -⟩ := PLW.sizeImpl_spec L a1
  obtain ⟨j1, j2, j3, j4, j5⟩ := s2 n hn
  obtain ⟨b2, -⟩ := a2 j4
  have e1 := congrArg Prod.fst b2
  have e2 := congrArg Prod.snd b2
  dsimp only at e1 e2
  rw [e1] at j1
  exact ⟨j1, j3.trans e2⟩

/-- **C64.** When `ReadMode()` succeeds, the destination has stored its data before the base position unchanged, followed by the contents of the specification,
so that the reader, which skips the data before the base position, reads what was written. -/
theorem C64_read_mode (q : Nat) :
    let r := plRun W d basePos owns ops
    let b := basePos.getD (W.pos d)
    let spec := WOp.replay ops r.1 ((view d).drop b, W.pos d - b)
    (r.2.readModeImpl W q).1 = true → dest (r.2.readModeImpl W q).2.dst = (view d).take b ++ spec.1 := by
  intro r b spec ht
  obtain ⟨a1, a2, -⟩ := pl_all L hq hd hal
  obtain ⟨-, s2⟩ := PLW.readModeImpl_spec L (q := q) a1
  obtain ⟨j1, j2⟩ := s2 ht
  have e1 := congrArg Prod.fst (a2 j1).1
  dsimp only at e1
  rw [e1] at j2
  exact j2

/-- **C64.** Whatever is called and whatever fails, the stored data before the base position never change, except that data which the destination presented
in the beginning may become stored. -/
theorem C64_never_touches_the_prefix :
    let r := plRun W d basePos owns ops
    ∀ i, i < basePos.getD (W.pos d) → (dest r.2.dst)[i]? = (dest d)[i]? ∨ (dest r.2.dst)[i]? = (view d)[i]? := by
  intro r i hi
  obtain ⟨a1, -, -⟩ := pl_all L hq hd hal
  have hl : ((view d).take (basePos.getD (W.pos d))).length = basePos.getD (W.pos d) := by rw [List.length_take]; exact Nat.min_eq_left hd.size
  have := a1.old i (by rw [hl]; exact hi)
  rw [List.getElem?_take, if_pos hi] at this
  exact this

/-- **C64.** A `PrefixLimitingWriter` fails only if its destination fails, and the destination is never found before the base position. -/
theorem C64_fails_only_with_the_destination :
    let r := plRun W d basePos owns ops
    r.2.ok = W.ok r.2.dst ∧ r.2.broken = false := by
  intro r
  obtain ⟨a1, -, -⟩ := pl_all L hq hd hal
  refine ⟨?_, a1.unbroken⟩
  cases ho : r.2.ok with
  | true => exact (a1.isOk ho).1.symm
  | false => exact (a1.failed ho).2.symm

omit hd hal in
/-- **C64.** A `PrefixLimitingWriter` meets the contract of `Writer`, hence it can be the destination of other writers, to which their theorems then apply. -/
theorem C64_is_a_writer (P D0 : Bytes) : (PLW.ops W).Lawful (PLW.viewOf W view) (PLW.destOf dest) (PLW.PInv W view dest Inv P D0) :=
  PLW.lawful L hq

omit hd hal in
/-- **C64.** What asks for random access is also quiet, so that `PrefixLimitingWriter`s and `LimitingWriter`s can be stacked. -/
theorem C64_quiet (P D0 : Bytes) : (PLW.ops W).QuietRandomAccess (PLW.PInv W view dest Inv P D0) := by
  intro l h
  obtain ⟨q1, q2, q3⟩ := hq _ h.dst
  refine ⟨rfl, ?_, fun bs _ => rfl⟩
  show (if l.ok then W.avail (W.randomAccess l.dst).2 - l.pend.length else 0) = if l.ok then W.avail l.dst - l.pend.length else 0
  rw [q2]

end

/-! ## Concrete cases -/

/-- The hypotheses of C64 are met, with the destination as in `Verif/Props/LimitingWriter.lean` and the base position 1. -/
example : exOps.Lawful (BW.view exCfg.dest) (fun b => exCfg.dest b.phys.dst) (BWInv (FdW.dst exWos ⟨4, 16⟩ fun _ _ => 255) (FdInv exWos exCfg)) ∧
    exOps.QuietRandomAccess (BWInv (FdW.dst exWos ⟨4, 16⟩ fun _ _ => 255) (FdInv exWos exCfg)) ∧
    Based exOps (BW.view exCfg.dest) (BWInv (FdW.dst exWos ⟨4, 16⟩ fun _ _ => 255) (FdInv exWos exCfg)) exDst ((some 1).getD (exOps.pos exDst)) :=
  ⟨FdW.lawful _ _ _ _, fd_quiet (fun _ => rfl) _ _ _,
    ⟨(FdW.init_spec exWos ⟨4, 16⟩ (fun _ _ => 255) .current true [10, 11, 12, 13, 14, 15] 2).1, by decide +kernel, by decide +kernel⟩⟩

/-- Calls: writing, seeking to the base position, past the end, truncating, filling. -/
def exPrefixed : List WOp :=
  [.write [1, 2, 3], .seek 0, .writeChar 4, .size, .truncate 4, .seek 9, .setWriteSizeHint (some 5), .fill 5 7, .flush .fromObject]

example : WOp.AllAllowed (PLW.ops exOps) exPrefixed (PLW.init exOps exDst (some 1) true) := by
  unfold exPrefixed
  repeat' constructor
  all_goals first | trivial | decide +kernel

example :
    let r := plRun exOps exDst (some 1) true exPrefixed
    r.1 = [true, true, true, true, true, false, true, true, true] ∧ r.2.ok = true ∧ r.2.pos = 9 ∧
    WOp.replay exPrefixed r.1 ([11, 12, 13, 14, 15], 1) = ([4, 1, 2, 3, 7, 7, 7, 7, 7], 9) ∧ (r.2.sizeImpl exOps).1 = some 9 ∧
    (r.2.done exOps).ok = true ∧
    (BW.done (FdW.dst exWos ⟨4, 16⟩ fun _ _ => 255) (r.2.done exOps).dst).dst.content = [10, 4, 1, 2, 3, 7, 7, 7, 7, 7] := by decide +kernel

/-! ## Findings -/

/-- Finding 48: if the base position is past the end of the file, then a failed `Seek()` leaves the destination before the base position, and the
assertion of `MakeBuffer()` fails. -/
theorem C64_base_past_the_end :
    let r := plRun exOps (FdW.init exWos .current true [10] 4) none true [.seek 1]
    r.1 = [false] ∧ r.2.ok = true ∧ r.2.broken = true ∧ exOps.pos r.2.dst = 1 := by decide +kernel

end Riegeli.Props

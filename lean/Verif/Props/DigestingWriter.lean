import Verif.DigestingWriterProofs
import Verif.Props.LimitingWriter
/-!
# C55: `DigestingWriter`

What was digested is compared with the data of all calls, `ops.flatMap WOp.bytes`. The destination is any class of writers which meets the
contract of `Writer` (`WriterOps.Lawful`); `view d` is what `d` presents, `dest d` is what it has stored. The digester is any one: `accepts x bs` says
whether it succeeds to digest `bs` after `x`.
-/
namespace Riegeli.Props
open Riegeli Wtr

/-- The call is `SetWriteSizeHint()`. -/
def isHint : WOp → Bool
  | .setWriteSizeHint _ => true
  | _ => false

/-- Histories of a `DigestingWriter` of the destination `d`: public functions of `Writer` and `Digest()` are called in any order; `SetWriteSizeHint()` is not
called for a failed writer (see finding 39). The bytes are the data passed to all these calls. -/
inductive DigReach {σ : Type} (W : WriterOps σ) (accepts : Bytes → Bytes → Bool) (d : σ) (owns : Bool) : Bytes → DW σ → Prop where
  | init : DigReach W accepts d owns [] (DW.init W d true owns)
  | op {A l} (op : WOp) : DigReach W accepts d owns A l → (isHint op = true → l.ok = true) →
      DigReach W accepts d owns (A ++ op.bytes) (op.run (DW.ops W accepts) l).2
  | digest {A l} : DigReach W accepts d owns A l → DigReach W accepts d owns A (l.digest W accepts).2

section
variable {σ : Type} {W : WriterOps σ} {view dest : σ → Bytes} {Inv : σ → Prop} {accepts : Bytes → Bytes → Bool} {d : σ} {owns : Bool} {A : Bytes}
  {l : DW σ}

theorem dig_run_eq {op : WOp} {l : DW σ} (h : isHint op = true → l.ok = true) : op.run (DW.ops W accepts) l = op.run (DW.opsOk W accepts) l := by
  cases op with
  | writeChain fs =>
    show (DW.ops W accepts).writeChain fs l = (DW.opsOk W accepts).writeChain fs l
    unfold WriterOps.writeChain
    rw [LW.writeFragments_congr (W₁ := DW.ops W accepts) (W₂ := DW.opsOk W accepts) fun _ _ => rfl]
    rfl
  | setWriteSizeHint n =>
    show (true, l.setHint W accepts n) = (true, if l.ok then l.setHint W accepts n else l)
    rw [if_pos (h rfl)]
  | _ => rfl

theorem dig_init (h : Inv d) : DW.DInv W Inv (DW.init W d true owns) ∧ (DW.init W d true owns).ok = W.ok d ∧
    DW.viewOf W view (DW.init W d true owns) = view d ∧ (DW.init W d true owns).pos = W.pos d := by
  have e : (DW.init W d true owns).ok = W.ok d := by simp [DW.init]
  refine ⟨⟨h, fun hf => ⟨rfl, ?_⟩, fun ho => ⟨ho, ?_, rfl, Nat.zero_le _⟩⟩, e, overlay_nil _ _, rfl⟩
  · exact hf
  · rw [e] at ho; exact ho

variable (L : W.Lawful view dest Inv)
include L

theorem dig_step {op : WOp} {l : DW σ} (h : DW.DInv W Inv l) :
    let r := op.run (DW.opsOk W accepts) l
    DW.DInv W Inv r.2 ∧ DW.DigPost op.bytes l r.2 ∧
    (r.2.ok = true → DW.viewOf W view r.2 = overlay (DW.viewOf W view l) l.pos op.bytes ∧ r.2.pos = l.pos + op.bytes.length ∧
      (op ≠ .supportsRandomAccess → r.1 = true)) ∧
    (l.ok = false → r.2.ok = false ∧ dest r.2.dst = dest l.dst) := by
  intro r
  have hd := DW.dig_run (accepts := accepts) L (op := op) h
  by_cases hal : op.Allowed (DW.opsOk W accepts) l
  · obtain ⟨a1, a2, a3, a4⟩ := (DW.lawful (accepts := accepts) L).run h hal
    refine ⟨a1, hd, fun ho => ?_, a3⟩
    obtain ⟨b1, b2⟩ := a2 ho
    have key : ∀ x : Bytes × Nat, op.after r.1 (DW.viewOf W view l, l.pos) = x → DW.viewOf W view r.2 = x.1 ∧ r.2.pos = x.2 := by
      rintro x rfl
      exact ⟨congrArg Prod.fst b1, congrArg Prod.snd b1⟩
    have app : op.Appends = true → op.after r.1 (DW.viewOf W view l, l.pos) = (overlay (DW.viewOf W view l) l.pos op.bytes, l.pos + op.bytes.length) ∧
        (op ≠ .supportsRandomAccess → r.1 = true) := by
      intro hap
      cases op with
      | seek q => cases hap
      | truncate n => cases hap
      | supportsRandomAccess => exact ⟨rfl, fun h => absurd rfl h⟩
      | _ => exact ⟨rfl, fun _ => b2⟩
    cases hap : op.Appends with
    | true =>
      obtain ⟨c1, c2⟩ := app hap
      obtain ⟨c3, c4⟩ := key _ c1
      exact ⟨c3, c4, c2⟩
    | false =>
      cases op with
      | seek q =>
        have e : r = (DW.opsOk W accepts).seek q l := rfl
        unfold WriterOps.seek at e
        by_cases hq : q = (DW.opsOk W accepts).pos l
        · rw [if_pos hq] at e
          rw [e]
          exact ⟨(overlay_nil _ _).symm, rfl, fun _ => rfl⟩
        · rw [if_neg hq] at e
          rw [e] at ho
          exact (Bool.false_ne_true ((DW.fail_spec (accepts := accepts) L h).2.1.symm.trans ho)).elim
      | truncate n => exact (Bool.false_ne_true hal).elim
      | _ => cases hap
  · cases op with
    | truncate n =>
      obtain ⟨a1, a2, a3, a4, a5⟩ := DW.fail_spec (accepts := accepts) L h
      exact ⟨a1, hd, fun ho => (Bool.false_ne_true (a2.symm.trans ho)).elim, fun _ => ⟨a2, a3⟩⟩
    | _ => exact absurd trivial hal

theorem dig_digest (h : DW.DInv W Inv l) :
    let q := l.digest W accepts
    DW.DInv W Inv q.2 ∧ q.1 = q.2.digested ∧ DW.DigPost [] l q.2 ∧ dest q.2.dst = dest l.dst ∧
    (q.2.ok = true → q.1 = l.digested ++ l.pend ∧ DW.viewOf W view q.2 = DW.viewOf W view l ∧ q.2.pos = l.pos) := by
  intro q
  cases hr : l.ok with
  | false =>
    have : q.2 = l := by
      show (l.sync W accepts).2 = l
      unfold DW.sync
      rw [if_pos (h.failed hr).1]
    refine ⟨by rw [this]; exact h, rfl, by rw [this]; exact DW.DigPost.refl, by rw [this], fun ho => ?_⟩
    rw [this, hr] at ho; cases ho
  | true =>
    rcases DW.sync_cases (accepts := accepts) L h hr with ⟨s1, s2⟩ | s1
    · have hpos : q.2.pos = l.pos := by
        show (l.sync W accepts).2.base + (l.sync W accepts).2.pend.length = _
        rw [s2.base, s2.pend]; rfl
      have hv : DW.viewOf W view q.2 = DW.viewOf W view l := by
        show overlay (view (l.sync W accepts).2.dst) _ (l.sync W accepts).2.pend = _
        rw [s2.pend, overlay_nil]; exact s2.view
      refine ⟨⟨s2.inv, fun hf => (Bool.false_ne_true (hf.symm.trans s2.ok)).elim, fun _ => ⟨s2.live, s2.dstOk, s2.base.trans s2.pos.symm, ?_⟩⟩, rfl,
        ⟨?_, fun _ => ⟨hr, ?_⟩, fun hf => (Bool.false_ne_true (hf.symm.trans hr)).elim⟩, s2.dest, fun _ => ⟨s2.digested, hv, hpos⟩⟩
      · show (l.sync W accepts).2.pend.length ≤ _
        rw [s2.pend]; exact Nat.zero_le _
      · show (l.sync W accepts).2.digested <+: _
        rw [s2.digested, List.append_nil]; exact List.prefix_refl _
      · show (l.sync W accepts).2.digested ++ (l.sync W accepts).2.pend = _
        rw [s2.pend, s2.digested]
    · have e : q.2 = l.digFailed := congrArg Prod.snd s1
      rw [e]
      refine ⟨DW.digFailed_inv h, ?_, DW.digFailed_dig _ hr, rfl, fun ho => (Bool.false_ne_true ho).elim⟩
      show q.2.digested = _
      rw [e]

theorem dig_all (hi : Inv d) (h : DigReach W accepts d owns A l) :
    DW.DInv W Inv l ∧ l.digested <+: A ∧
    (l.ok = true → W.ok d = true ∧ l.digested ++ l.pend = A ∧ DW.viewOf W view l = overlay (view d) (W.pos d) A ∧
      l.pos = W.pos d + A.length) := by
  induction h with
  | init =>
    obtain ⟨i1, i2, i3, i4⟩ := dig_init (W := W) (view := view) (owns := owns) hi
    exact ⟨i1, List.prefix_refl _, fun ho => ⟨i2.symm.trans ho, rfl, by rw [i3, overlay_nil], i4⟩⟩
  | @op A l op _ hh ih =>
    obtain ⟨b1, b2, b3⟩ := ih
    obtain ⟨a1, ⟨a2, a3, a4⟩, a5, a6⟩ := dig_step (accepts := accepts) L (op := op) b1
    rw [dig_run_eq hh]
    refine ⟨a1, ?_, fun ho => ?_⟩
    · cases hl : l.ok with
      | true => rw [(b3 hl).2.1] at a2; exact a2
      | false => rw [a4 hl]; exact b2.trans (List.prefix_append _ _)
    · obtain ⟨e1, e2⟩ := a3 ho
      obtain ⟨c1, c2, c3, c4⟩ := b3 e1
      obtain ⟨d1, d2, -⟩ := a5 ho
      rw [c2] at e2
      rw [c3, c4, overlay_append] at d1
      rw [c4] at d2
      exact ⟨c1, e2, d1, by rw [d2, List.length_append]; omega⟩
  | @digest A l _ ih =>
    obtain ⟨b1, b2, b3⟩ := ih
    obtain ⟨a1, a2, ⟨a3, a4, a5⟩, a6, a7⟩ := dig_digest (accepts := accepts) L b1
    refine ⟨a1, ?_, fun ho => ?_⟩
    · cases hl : l.ok with
      | true => rw [List.append_nil, (b3 hl).2.1] at a3; exact a3
      | false => rw [a5 hl]; exact b2
    · obtain ⟨e1, e2⟩ := a4 ho
      obtain ⟨c1, c2, c3, c4⟩ := b3 e1
      obtain ⟨-, d2, d3⟩ := a7 ho
      rw [List.append_nil, c2] at e2
      exact ⟨c1, e2, d2.trans c3, d3.trans c4⟩

variable (hi : Inv d) (h : DigReach W accepts d owns A l)
include hi h

/-- **C55.** As long as a `DigestingWriter` does not fail, its position counts the bytes written, and all calls succeed (except for asking about random
access, which is not supported). -/
theorem C55_history : (l.ok = true → l.pos = W.pos d + A.length) ∧
    ∀ op : WOp, (isHint op = true → l.ok = true) → op ≠ WOp.supportsRandomAccess → (op.run (DW.ops W accepts) l).2.ok = true →
      (op.run (DW.ops W accepts) l).1 = true := by
  obtain ⟨a1, -, a3⟩ := dig_all L hi h
  refine ⟨fun ho => (a3 ho).2.2.2, fun op hh hne ho => ?_⟩
  rw [dig_run_eq hh] at ho ⊢
  exact ((dig_step (accepts := accepts) L (op := op) a1).2.2.1 ho).2.2 hne

/-- **C55.** At any point `Digest()` gives the digest of exactly what was written so far, in this order, provided that the writer is not failed
afterwards. -/
theorem C55_digest :
    let q := l.digest W accepts
    q.2.ok = true → q.1 = A ∧ q.2.pos = l.pos ∧ l.ok = true := by
  intro q ho
  obtain ⟨a1, -, a3⟩ := dig_all L hi h
  obtain ⟨b1, b2, ⟨b3, b4, b5⟩, b6, b7⟩ := dig_digest (accepts := accepts) L a1
  obtain ⟨c1, c2, c3⟩ := b7 ho
  exact ⟨c1.trans (a3 (b4 ho).1).2.1, c3, (b4 ho).1⟩

/-- **C55.** A successful `Flush()` leaves the destination with everything which was written, and everything which was written is digested; it is also
stored, unless `FlushType::kFromObject` is used. -/
theorem C55_flush (t : FlushType) :
    let f := l.flushImpl W accepts t
    let c := overlay (view d) (W.pos d) A
    f.1 = true → f.2.digested = A ∧ view f.2.dst = c ∧ W.pos f.2.dst = W.pos d + A.length ∧ (t ≠ .fromObject → dest f.2.dst = c) := by
  intro f c hf
  obtain ⟨a1, -, a3⟩ := dig_all L hi h
  obtain ⟨-, -, f3⟩ := DW.flushImpl_spec (accepts := accepts) L (t := t) a1
  obtain ⟨g1, g2, g3, g4, g5⟩ := f3 hf
  obtain ⟨b1, b2, b3, b4⟩ := a3 g1
  exact ⟨g4.trans b2, g2.trans b3, g3.trans b4, fun ht => (g5 ht).trans b3⟩

/-- **C55.** A successful `Close()` leaves the destination with everything which was written, and everything which was written is digested. -/
theorem C55_close :
    let c := l.done W accepts
    c.ok = true → l.ok = true ∧ W.ok c.dst = true ∧ c.digested = A ∧ view c.dst = overlay (view d) (W.pos d) A ∧
      W.pos c.dst = W.pos d + A.length := by
  intro c hc
  obtain ⟨a1, -, a3⟩ := dig_all L hi h
  have e : c = if l.ok then (l.sync W accepts).2 else l := rfl
  cases hr : l.ok with
  | false => rw [hr] at e; rw [e] at hc; exact (Bool.false_ne_true (hr.symm.trans hc)).elim
  | true =>
    rw [hr, if_pos rfl] at e
    obtain ⟨b1, b2, b3, b4⟩ := a3 hr
    rcases DW.sync_cases (accepts := accepts) L a1 hr with ⟨s1, s2⟩ | s1
    · rw [e]
      exact ⟨rfl, s2.dstOk, s2.digested.trans b2, s2.view.trans b3, s2.pos.trans b4⟩
    · rw [e, show (l.sync W accepts).2 = _ from congrArg Prod.snd s1] at hc; cases hc

/-- **C55.** Whatever fails, nothing else is ever digested than what was written, from the beginning, without gaps and repetitions. -/
theorem C55_never_digests_anything_else :
    l.digested <+: A ∧ (l.digest W accepts).1 <+: A ∧ (l.done W accepts).digested <+: A := by
  obtain ⟨-, a2, -⟩ := dig_all L hi h
  obtain ⟨-, b2, -⟩ := dig_all L hi (DigReach.digest h)
  refine ⟨a2, b2, ?_⟩
  show (if l.ok then (l.sync W accepts).2 else l).digested <+: _
  split
  · exact b2
  · exact a2

/-- **C55.** `Seek()` to another position, `Size()` and `Truncate()` are not supported and make the writer fail; but data written before are neither lost nor
left out from the digest, unless the digester failed. -/
theorem C55_unsupported (op : WOp) (hop : (∃ q, op = .seek q ∧ q ≠ l.pos) ∨ op = .size ∨ ∃ n, op = .truncate n) (ho : l.ok = true) :
    let u := op.run (DW.ops W accepts) l
    u.1 = false ∧ u.2.ok = false ∧ (u.2.digOk = true → u.2.digested = A ∧
      view u.2.dst = overlay (view d) (W.pos d) A ∧ W.pos u.2.dst = W.pos d + A.length) := by
  intro u
  obtain ⟨a1, a2, a3⟩ := dig_all L hi h
  obtain ⟨b1, b2, b3, b4⟩ := a3 ho
  obtain ⟨f1, f2, f3, f4, f5⟩ := DW.fail_spec (accepts := accepts) L a1
  have e : u = (false, l.fail W accepts) := by
    rcases hop with ⟨q, rfl, hq⟩ | rfl | ⟨n, rfl⟩
    · show (DW.ops W accepts).seek q _ = _
      unfold WriterOps.seek
      rw [if_neg (show ¬ q = (DW.ops W accepts).pos l from hq)]; rfl
    · rfl
    · rfl
  rw [e]
  refine ⟨rfl, f2, fun hd => ?_⟩
  obtain ⟨g1, g2, g3⟩ := f5 ho hd
  exact ⟨g1.trans b2, g2.trans b3, g3.trans b4⟩

omit h in
/-- **C55.** Crash safety of appending: if the destination is at its end, then at any point, even if something failed, what it has stored is its initial
contents followed by a part, from the beginning, of what was written. -/
theorem C55_appending (hp : W.pos d = (view d).length) (hd : dest d <+: view d) (h : DigReach W accepts d owns A l) :
    dest d <+: dest l.dst ∧ dest l.dst <+: view d ++ A := by
  induction h with
  | init => exact ⟨List.prefix_refl _, by rw [List.append_nil]; exact hd⟩
  | @op A l op h hh ih =>
    obtain ⟨b1, b2, b3⟩ := dig_all L hi h
    rw [dig_run_eq hh]
    have weak : dest d <+: dest l.dst ∧ dest l.dst <+: view d ++ (A ++ op.bytes) :=
      ⟨ih.1, ih.2.trans (by rw [← List.append_assoc]; exact List.prefix_append _ _)⟩
    have same : dest (op.run (DW.opsOk W accepts) l).2.dst = dest l.dst →
        dest d <+: dest (op.run (DW.opsOk W accepts) l).2.dst ∧ dest (op.run (DW.opsOk W accepts) l).2.dst <+: view d ++ (A ++ op.bytes) :=
      fun e => by rw [e]; exact weak
    cases hl : l.ok with
    | false => exact same ((dig_step (accepts := accepts) L (op := op) b1).2.2.2 hl).2
    | true =>
      obtain ⟨c1, c2, c3, c4⟩ := b3 hl
      cases hap : op.Appends with
      | true =>
        have hv : DW.viewOf W view l = view d ++ A := by rw [c3, hp, overlay_end]
        have := (DW.lawful (accepts := accepts) L).appends (ops := [op]) b1 (fun o ho => by rw [List.mem_singleton.mp ho]; exact hap)
          (by rw [hv, List.length_append, ← hp]; exact c4) (by rw [hv]; exact ih.2)
        rw [hv] at this
        obtain ⟨t1, t2⟩ := this
        refine ⟨ih.1.trans t1, ?_⟩
        simpa [WOp.runAll, List.append_assoc] using t2
      | false =>
        have hf := (DW.fail_spec (accepts := accepts) L b1).2.2.1
        refine same ?_
        cases op with
        | seek q =>
          show dest ((DW.opsOk W accepts).seek q l).2.dst = _
          unfold WriterOps.seek
          split
          · rfl
          · exact hf
        | truncate n => exact hf
        | _ => cases hap
  | @digest A l h ih =>
    obtain ⟨b1, -⟩ := dig_all L hi h
    rw [(dig_digest (accepts := accepts) L b1).2.2.2.1]
    exact ih

end

/-! ## Concrete cases -/

/-- A digester which never fails. -/
def exDig : Bytes → Bytes → Bool := fun _ _ => true

/-- Calls with data in the buffer and directly to the destination. -/
def exDigOps : List WOp := [.write [1, 2], .push 3 0, .writeChar 3, .fill 20 7, .seek 25, .setWriteSizeHint (some 5), .writeChain [[4], [5, 6]]]

/-- The results and the state after calls of a `DigestingWriter`. -/
def digRun {σ : Type} (W : WriterOps σ) (accepts : Bytes → Bytes → Bool) (d : σ) (owns : Bool) (ops : List WOp) : List Bool × DW σ :=
  WOp.runAll (DW.ops W accepts) ops (DW.init W d true owns)

/-- The hypotheses of C55 are met, with the destination as in `Verif/Props/LimitingWriter.lean`. -/
example : exOps.Lawful (BW.view exCfg.dest) (fun b => exCfg.dest b.phys.dst) (BWInv (FdW.dst exWos ⟨4, 16⟩ fun _ _ => 255) (FdInv exWos exCfg)) ∧
    BWInv (FdW.dst exWos ⟨4, 16⟩ fun _ _ => 255) (FdInv exWos exCfg) exDst ∧
    DigReach exOps exDig exDst true (exDigOps.flatMap WOp.bytes) (digRun exOps exDig exDst true exDigOps).2 := by
  refine ⟨FdW.lawful _ _ _ _, (FdW.init_spec exWos ⟨4, 16⟩ (fun _ _ => 255) .current true [10, 11, 12, 13, 14, 15] 2).1, ?_⟩
  exact (((((((DigReach.init.op (.write [1, 2]) (by decide +kernel)).op (.push 3 0) (by decide +kernel)).op (.writeChar 3) (by decide +kernel)).op
    (.fill 20 7) (by decide +kernel)).op (.seek 25) (by decide +kernel)).op (.setWriteSizeHint (some 5)) (by decide +kernel)).op
    (.writeChain [[4], [5, 6]]) (by decide +kernel))

example :
    let r := digRun exOps exDig exDst true exDigOps
    r.1 = [true, true, true, true, true, true, true] ∧ r.2.ok = true ∧ r.2.pos = 28 ∧ r.2.pend = [5, 6] ∧
    (r.2.digest exOps exDig).1 = [1, 2, 3] ++ List.replicate 20 7 ++ [4, 5, 6] ∧ (r.2.done exOps exDig).ok = true ∧
    (BW.done (FdW.dst exWos ⟨4, 16⟩ fun _ _ => 255) (r.2.done exOps exDig).dst).dst.content =
      [10, 11, 1, 2, 3] ++ List.replicate 20 7 ++ [4, 5, 6] := by decide +kernel

/-! ## Findings -/

/-- Finding 39: `SetWriteSizeHint()` gives a failed writer the buffer of the destination again, so that `Write()` returns `true`. -/
theorem C55_hint_after_failure :
    let r := digRun exOps exDig exDst true [.push 3 0, .write [1, 2], .size, .write [3], .setWriteSizeHint (some 1), .write [4]]
    r.1 = [true, true, false, false, true, true] ∧ r.2.ok = false ∧ r.2.pos = 5 := by decide +kernel

/-- Finding 39: if the digester fails while data are in the buffer, then the assertion of `SyncBuffer()` fails. -/
theorem C55_assertion_when_digester_fails :
    let r := digRun exOps (fun x _ => x == []) exDst true [.push 3 0, .write [1, 2], .write (List.replicate 20 3)]
    r.1 = [true, true, false] ∧ r.2.broken = true := by decide +kernel

end Riegeli.Props

import Verif.PositionShiftingWriterProofs
import Verif.Props.PrefixLimitingWriter
import Verif.Props.DigestingWriter
/-!
# C65: `PositionShiftingWriter`

The specification is that of a writer of a sequence of bytes (`WOp.replay`), which has initially the contents of the destination preceded by `b` zeros, where
`b` is the base position: these zeros stand for positions which do not exist. The destination is any class of writers which meets the contract of
`Writer` (`WriterOps.Lawful`); `view d` is what `d` presents, `dest d` is what it has stored.
-/
namespace Riegeli.Props
open Riegeli Wtr

/-- The results and the state after calls of a `PositionShiftingWriter` of the destination `d`. -/
def psRun {σ : Type} (W : WriterOps σ) (kMax : Nat) (d : σ) (b : Nat) (owns : Bool) (ops : List WOp) : List Bool × PSW σ :=
  WOp.runAll (PSW.ops W kMax) ops (PSW.init W kMax d b owns)

section
variable {σ : Type} {W : WriterOps σ} {view dest : σ → Bytes} {Inv : σ → Prop} {kMax : Nat} {d : σ} {b : Nat} {owns : Bool} {ops : List WOp}

theorem ps_make_dead {n : Nat} {d : σ} {l : PSW σ} (h : l.ok = false) : (l.make W kMax n d).2.ok = false := by
  unfold PSW.make PSW.dead
  dsimp only
  repeat' split
  all_goals first | rfl | exact h

/-- A failed writer stays failed. -/
theorem ps_keeps : (PSW.ops W kMax).Keeps (fun l => l.ok = false) := by
  have hthr : ∀ (l : PSW σ) n f, l.ok = false → (l.through W kMax n f).2.ok = false := fun l n f h => by unfold PSW.through; rw [if_pos h]; exact h
  refine ⟨fun bs s h => h, fun n rec s h => hthr _ _ _ h, fun bs s h => hthr _ _ _ h, fun n b s h => hthr _ _ _ h, fun t s h => ?_, fun q s h => ?_,
    fun s h => ?_, fun n s h => ?_, fun q s h => hthr _ _ _ h, fun s h => h, fun n s h => ?_⟩
  · show (s.flushImpl W kMax t).2.ok = false
    unfold PSW.flushImpl; split <;> exact hthr _ _ _ h
  · show (s.seekSlow W kMax q).2.ok = false
    unfold PSW.seekSlow; rw [if_pos h]; exact h
  · show (s.sizeImpl W kMax).2.ok = false
    unfold PSW.sizeImpl; rw [if_pos h]; exact h
  · show (s.truncateImpl W kMax n).2.ok = false
    unfold PSW.truncateImpl; rw [if_pos h]; exact h
  · show (s.setHint W kMax n).ok = false
    unfold PSW.setHint; split
    · exact ps_make_dead h
    · exact h

theorem ps_run_eq {op : WOp} {l : PSW σ} (h : isHint op = true → l.ok = true) : op.run (PSW.ops W kMax) l = op.run (PSW.opsOk W kMax) l := by
  cases op with
  | writeChain fs =>
    show (PSW.ops W kMax).writeChain fs l = (PSW.opsOk W kMax).writeChain fs l
    unfold WriterOps.writeChain
    rw [LW.writeFragments_congr (W₁ := PSW.ops W kMax) (W₂ := PSW.opsOk W kMax) fun _ _ => rfl]
    rfl
  | setWriteSizeHint n =>
    show (true, l.setHint W kMax n) = (true, if l.ok then l.setHint W kMax n else l)
    rw [if_pos (h rfl)]
  | _ => rfl

theorem ps_run_ok {op : WOp} {l : PSW σ} (h : (op.run (PSW.ops W kMax) l).2.ok = true) : l.ok = true := by
  cases ho : l.ok with
  | true => rfl
  | false => exact (Bool.false_ne_true ((ps_keeps.run op l ho).symm.trans h)).elim

theorem ps_runAll_eq {ops : List WOp} {l : PSW σ} (h : (WOp.runAll (PSW.ops W kMax) ops l).2.ok = true) (hal : WOp.AllAllowed (PSW.ops W kMax) ops l) :
    l.ok = true ∧ WOp.runAll (PSW.ops W kMax) ops l = WOp.runAll (PSW.opsOk W kMax) ops l ∧ WOp.AllAllowed (PSW.opsOk W kMax) ops l := by
  induction ops generalizing l with
  | nil => exact ⟨h, rfl, trivial⟩
  | cons op ops ih =>
    obtain ⟨h1, h2⟩ := hal
    obtain ⟨i1, i2, i3⟩ := ih (l := (op.run (PSW.ops W kMax) l).2) h h2
    have ho := ps_run_ok i1
    have e := ps_run_eq (W := W) (kMax := kMax) (op := op) (l := l) fun _ => ho
    rw [e] at i2 i3
    refine ⟨ho, ?_, ?_, i3⟩
    · unfold WOp.runAll
      dsimp only
      rw [e, i2]
    · cases op <;> first | exact h1 | trivial

variable (L : W.Lawful view dest Inv) (hq : W.QuietRandomAccess Inv) (hi : Inv d) (hb : b ≤ kMax)
include L hq hi hb

theorem ps_all (hal : WOp.AllAllowed (PSW.ops W kMax) ops (PSW.init W kMax d b owns)) (ho : (psRun W kMax d b owns ops).2.ok = true) :
    PSW.SInv W Inv kMax b (psRun W kMax d b owns ops).2 ∧
    (PSW.viewOf W view b (psRun W kMax d b owns ops).2, (psRun W kMax d b owns ops).2.pos) =
      WOp.replay ops (psRun W kMax d b owns ops).1 (List.replicate b 0 ++ view d, b + W.pos d) ∧
    WOp.AllPossible ops (psRun W kMax d b owns ops).1 (List.replicate b 0 ++ view d, b + W.pos d) := by
  obtain ⟨e1, e2, e3⟩ := ps_runAll_eq ho hal
  obtain ⟨i1, i2, i3, i4, -⟩ := PSW.init_spec (W := W) (owns := owns) hi hb
  obtain ⟨r1, r2, -⟩ := (PSW.lawful L hq).runAll i1 e3
  rw [← e2] at r1 r2
  have e : (PSW.opsOk W kMax).abs (PSW.viewOf W view b) (PSW.init W kMax d b owns) = (List.replicate b 0 ++ view d, b + W.pos d) := by
    show (List.replicate b 0 ++ overlay _ _ _, PSW.pos _) = _
    rw [i2, i3, overlay_nil, i4 e1]
  have := r2 ho
  rw [e] at this
  exact ⟨r1, this⟩

variable (hal : WOp.AllAllowed (PSW.ops W kMax) ops (PSW.init W kMax d b owns))
include hal

/-- **C65.** In any history of calls of a `PositionShiftingWriter` which did not fail, all results are as for a writer of a sequence of bytes where the contents of
the destination begin at the base position; the position does not overflow. -/
theorem C65_history :
    let r := psRun W kMax d b owns ops
    let init := (List.replicate b (0 : UInt8) ++ view d, b + W.pos d)
    r.2.ok = true → r.2.pos = (WOp.replay ops r.1 init).2 ∧ WOp.AllPossible ops r.1 init ∧ b ≤ r.2.pos ∧ r.2.pos + r.2.avail ≤ kMax := by
  intro r init ho
  obtain ⟨a1, a2, a3⟩ := ps_all L hq hi hb hal ho
  obtain ⟨o1, o2, o3, o4, o5⟩ := a1.isOk ho
  refine ⟨congrArg Prod.snd a2, a3, ?_, ?_⟩
  · show b ≤ r.2.start + r.2.pend.length
    rw [show r.2.start = _ from o2]; omega
  · show r.2.start + r.2.pend.length + (r.2.lim - r.2.pend.length) ≤ kMax
    have h3 : r.2.pend.length ≤ r.2.lim := o3
    have h5 : r.2.start + r.2.lim ≤ kMax := o5
    omega

/-- **C65.** A successful `Flush()` leaves the destination with exactly the contents of the specification from the base position on, and with its position shifted
back; nothing was written before the base position. The contents are also stored, unless `FlushType::kFromObject` is used. -/
theorem C65_flush (t : FlushType) :
    let r := psRun W kMax d b owns ops
    let f := r.2.flushImpl W kMax t
    let spec := WOp.replay ops r.1 (List.replicate b 0 ++ view d, b + W.pos d)
    f.1 = true → spec.1 = List.replicate b 0 ++ view f.2.dst ∧ spec.2 = b + W.pos f.2.dst ∧
      (t ≠ .fromObject → spec.1 = List.replicate b 0 ++ dest f.2.dst) := by
  intro r f spec hf
  have ho : r.2.ok = true := by
    cases ho : r.2.ok with
    | true => rfl
    | false =>
      have e : f = (false, r.2) := by
        show r.2.flushImpl W kMax t = _
        unfold PSW.flushImpl PSW.through
        split <;> rw [if_pos ho]
      rw [e] at hf; cases hf
  obtain ⟨a1, a2, -⟩ := ps_all L hq hi hb hal ho
  obtain ⟨-, f2⟩ := PSW.flushImpl_spec L (t := t) a1
  obtain ⟨g1, g2, g3, g4⟩ := f2 hf
  have e1 := congrArg Prod.fst a2
  have e2 := congrArg Prod.snd a2
  dsimp only at e1 e2
  exact ⟨e1.symm.trans g2.symm, e2.symm.trans g3.symm, fun ht => e1.symm.trans (g4 ht).symm⟩

/-- **C65.** A successful `Close()` leaves the destination in the same way. -/
theorem C65_close :
    let r := psRun W kMax d b owns ops
    let c := r.2.done W
    let spec := WOp.replay ops r.1 (List.replicate b 0 ++ view d, b + W.pos d)
    c.ok = true → W.ok c.dst = true ∧ spec.1 = List.replicate b 0 ++ view c.dst ∧ spec.2 = b + W.pos c.dst ∧ c.pos = spec.2 := by
  intro r c spec hc
  have e : c = if r.2.ok then { r.2 with dst := r.2.sync W, pend := [], start := r.2.pos } else r.2 := rfl
  cases ho : r.2.ok with
  | false => rw [ho] at e; rw [e] at hc; exact (Bool.false_ne_true (ho.symm.trans hc)).elim
  | true =>
    rw [ho, if_pos rfl] at e
    obtain ⟨a1, a2, -⟩ := ps_all L hq hi hb hal ho
    obtain ⟨s1, s2, s3, s4, s5⟩ := PSW.sync_spec L a1 ho
    have e1 := congrArg Prod.fst a2
    have e2 := congrArg Prod.snd a2
    dsimp only at e1 e2
    rw [e]
    exact ⟨s4, e1.symm.trans s2.symm, e2.symm.trans s3.symm, e2⟩

/-- **C65.** `Size()` which succeeds gives the size of the destination shifted by the base position, which does not overflow, and changes nothing. -/
theorem C65_size :
    let r := psRun W kMax d b owns ops
    let spec := WOp.replay ops r.1 (List.replicate b 0 ++ view d, b + W.pos d)
    ∀ n, (r.2.sizeImpl W kMax).1 = some n → n = spec.1.length ∧ n ≤ kMax ∧ (r.2.sizeImpl W kMax).2.pos = spec.2 := by
  intro r spec n hn
  have ho : r.2.ok = true := by
    cases ho : r.2.ok with
    | true => rfl
    | false =>
      have e : r.2.sizeImpl W kMax = (none, r.2) := by unfold PSW.sizeImpl; rw [if_pos ho]
      rw [e] at hn; cases hn
  obtain ⟨a1, a2, -⟩ := ps_all L hq hi hb hal ho
  obtain ⟨-, s2, -, -, -, s6⟩ := PSW.sizeImpl_spec L a1
  obtain ⟨j1, j2, j3, j4, j5⟩ := s2 n hn
  have e1 := congrArg Prod.fst a2
  have e2 := congrArg Prod.snd a2
  dsimp only at e1 e2
  rw [e1] at j1
  exact ⟨j1, s6 n hn, j3.trans e2⟩

/-- **C65.** When `ReadMode()` returns a reader, the destination has stored exactly the contents of the specification from the base position on. -/
theorem C65_read_mode (q : Nat) :
    let r := psRun W kMax d b owns ops
    let spec := WOp.replay ops r.1 (List.replicate b 0 ++ view d, b + W.pos d)
    (r.2.readModeImpl W kMax q).1 = true → spec.1 = List.replicate b 0 ++ dest (r.2.readModeImpl W kMax q).2.dst := by
  intro r spec ht
  have ho : r.2.ok = true := by
    cases ho : r.2.ok with
    | true => rfl
    | false =>
      have e : r.2.readModeImpl W kMax q = (false, r.2) := by unfold PSW.readModeImpl PSW.through; rw [if_pos ho]
      rw [e] at ht; cases ht
  obtain ⟨a1, a2, -⟩ := ps_all L hq hi hb hal ho
  obtain ⟨-, s2⟩ := PSW.readModeImpl_spec L (q := q) a1
  have e1 := congrArg Prod.fst a2
  dsimp only at e1
  exact e1.symm.trans (s2 ht).2.symm

/-- How many bytes after the current position the call asks for, without writing them. -/
def psNeeds : WOp → Nat
  | .push n _ => n
  | .writeChar _ => 1
  | _ => 0

/-- Why a call which made the writer fail could do that. -/
def PsReason (W : WriterOps σ) (kMax b size : Nat) (op : WOp) (d : σ) : Prop :=
  W.ok d = false ∨ kMax < b + W.pos d + psNeeds op ∨ (∃ q, q < b ∧ (op = .seek q ∨ op = .truncate q)) ∨ (op = .size ∧ kMax < size)

omit L hq hi hb hal in
theorem ps_through_reason {n : Nat} {f : σ → Bool × σ} {l : PSW σ} (h : PSW.SInv W Inv kMax b l) (ho : l.ok = true)
    (hf : (l.through W kMax n f).2.ok = false) : W.ok (l.through W kMax n f).2.dst = false ∨ kMax < b + W.pos (l.through W kMax n f).2.dst + n := by
  rw [PSW.through_eq ho] at hf ⊢
  dsimp only at hf ⊢
  rw [PSW.make_ok ho] at hf
  rw [PSW.make_same.1]
  rcases (PSW.make_false ho hf).2 with h1 | h1
  · exact .inl h1
  · rw [h.base] at h1
    have := h.fits
    exact .inr (by omega)

omit hq hi hb hal in
theorem ps_reason {l : PSW σ} (h : PSW.SInv W Inv kMax b l) (ho : l.ok = true) (op : WOp) (hf : (op.run (PSW.opsOk W kMax) l).2.ok = false) :
    PsReason W kMax b (PSW.viewOf W view b l).length op (op.run (PSW.opsOk W kMax) l).2.dst := by
  have thr : ∀ (l : PSW σ) (f : σ → Bool × σ) (op : WOp) (size : Nat), PSW.SInv W Inv kMax b l → l.ok = true → (l.through W kMax 0 f).2.ok = false →
      PsReason W kMax b size op (l.through W kMax 0 f).2.dst := by
    intro l f op size h ho hf
    rcases ps_through_reason h ho hf with h1 | h1
    · exact .inl h1
    · exact .inr (.inl (by omega))
  have ok : ∀ {s : PSW σ}, s = l → s.ok = false → False := fun e hf => by rw [e, ho] at hf; cases hf
  have write : ∀ (bs : Bytes) (l : PSW σ) (op : WOp) (size : Nat), PSW.SInv W Inv kMax b l → l.ok = true →
      ((PSW.opsOk W kMax).write bs l).2.ok = false → PsReason W kMax b size op ((PSW.opsOk W kMax).write bs l).2.dst := by
    intro bs l op size h ho hf
    unfold WriterOps.write at hf ⊢
    split at hf
    · exact (Bool.false_ne_true (Eq.trans (Eq.symm hf) ho)).elim
    · rename_i hc
      rw [if_neg hc]; exact thr _ _ _ _ h ho hf
  have push : ∀ (n rec : Nat), ((PSW.opsOk W kMax).push n rec l).2.ok = false →
      W.ok ((PSW.opsOk W kMax).push n rec l).2.dst = false ∨ kMax < b + W.pos ((PSW.opsOk W kMax).push n rec l).2.dst + n := by
    intro n rec hf
    unfold WriterOps.push at hf ⊢
    split at hf
    · exact (Bool.false_ne_true (Eq.trans (Eq.symm hf) ho)).elim
    · rename_i hc
      rw [if_neg hc]; exact ps_through_reason h ho hf
  cases op with
  | push n rec =>
    rcases push n rec hf with h1 | h1
    · exact .inl h1
    · exact .inr (.inl h1)
  | writeChar x =>
    have hf : ((PSW.opsOk W kMax).writeChar x l).2.ok = false := hf
    show PsReason W kMax b _ _ ((PSW.opsOk W kMax).writeChar x l).2.dst
    unfold WriterOps.writeChar at hf ⊢
    dsimp only at hf ⊢
    have key : ((PSW.opsOk W kMax).push 1 0 l).2.ok = false → PsReason W kMax b (PSW.viewOf W view b l).length (.writeChar x) ((PSW.opsOk W kMax).push 1 0 l).2.dst := by
      intro hf
      rcases push 1 0 hf with h1 | h1
      · exact .inl h1
      · exact .inr (.inl h1)
    split at hf
    · rename_i hc; rw [if_pos hc]; exact key hf
    · rename_i hc; rw [if_neg hc]; exact key hf
  | write bs => exact write _ _ _ _ h ho hf
  | writeExternal bs =>
    have hf : ((PSW.opsOk W kMax).writeExternal bs l).2.ok = false := hf
    show PsReason W kMax b _ _ ((PSW.opsOk W kMax).writeExternal bs l).2.dst
    unfold WriterOps.writeExternal at hf ⊢
    split at hf
    · exact (Bool.false_ne_true (Eq.trans (Eq.symm hf) ho)).elim
    · rename_i hc; rw [if_neg hc]; exact write _ _ _ _ h ho hf
  | writeChain fs =>
    replace hf : ((PSW.opsOk W kMax).writeChain fs l).2.ok = false := hf
    show PsReason W kMax b _ (.writeChain fs) ((PSW.opsOk W kMax).writeChain fs l).2.dst
    generalize WOp.writeChain fs = op
    generalize (PSW.viewOf W view b l).length = size
    unfold WriterOps.writeChain at hf ⊢
    split at hf
    · exact (Bool.false_ne_true (Eq.trans (Eq.symm hf) ho)).elim
    · rename_i hc; rw [if_neg hc]
      clear hc push ok
      induction fs generalizing l with
      | nil => exact (Bool.false_ne_true (Eq.trans (Eq.symm hf) ho)).elim
      | cons x fs ih =>
        unfold WriterOps.writeFragments at hf ⊢
        dsimp only at hf ⊢
        split at hf
        · rename_i hc; rw [if_pos hc]; exact write _ _ _ _ h ho hf
        · rename_i hc; rw [if_neg hc]
          have hw : WritePost (PSW.opsOk W kMax) (PSW.viewOf W view b) (PSW.destOf dest b) (PSW.SInv W Inv kMax b) x l ((PSW.opsOk W kMax).write x l) := by
            unfold WriterOps.write
            split
            · rename_i hx
              obtain ⟨p1, p2, p3, p4⟩ := PSW.put_spec (view := view) h hx
              exact ⟨p1, fun _ => ⟨p2, p3, rfl⟩, fun h => (Bool.false_ne_true h.symm).elim, fun h => ⟨h, rfl⟩, Mixed.old _ _ _ _ _⟩
            · exact (PSW.through_post L h (n := 0) (f := W.write x) fun s hs => (L.write hs).1).1
          exact ih hw.1 (((hw.2.1 ((Bool.not_eq_false _).mp hc)).2.2).trans ho) hf
  | fill n x =>
    have hf : ((PSW.opsOk W kMax).fill n x l).2.ok = false := hf
    show PsReason W kMax b _ _ ((PSW.opsOk W kMax).fill n x l).2.dst
    unfold WriterOps.fill at hf ⊢
    split at hf
    · exact (Bool.false_ne_true (Eq.trans (Eq.symm hf) ho)).elim
    · rename_i hc; rw [if_neg hc]; exact thr _ _ _ _ h ho hf
  | flush t =>
    have hf : (l.flushImpl W kMax t).2.ok = false := hf
    show PsReason W kMax b _ _ (l.flushImpl W kMax t).2.dst
    unfold PSW.flushImpl at hf ⊢
    cases t <;> cases hw : l.owns <;> simp only [hw] at hf ⊢ <;> exact thr _ _ _ _ h ho hf
  | seek q =>
    have hf : ((PSW.opsOk W kMax).seek q l).2.ok = false := hf
    show PsReason W kMax b _ _ ((PSW.opsOk W kMax).seek q l).2.dst
    by_cases hqb : q < b
    · exact .inr (.inr (.inl ⟨q, hqb, .inl rfl⟩))
    · unfold WriterOps.seek at hf ⊢
      split at hf
      · exact (Bool.false_ne_true (Eq.trans (Eq.symm hf) ho)).elim
      · rename_i hc; rw [if_neg hc]
        have e : (PSW.opsOk W kMax).seekSlow q l = l.through W kMax 0 (W.seek (q - l.basePos)) := by
          show l.seekSlow W kMax q = _
          unfold PSW.seekSlow; rw [if_neg (by simp [ho]), if_neg (by rw [h.base]; exact hqb)]
        rw [e] at hf ⊢
        exact thr _ _ _ _ h ho hf
  | size =>
    have hf : (l.sizeImpl W kMax).2.ok = false := hf
    show PsReason W kMax b _ _ (l.sizeImpl W kMax).2.dst
    obtain ⟨s1, s2, s3, s4, s5⟩ := PSW.sync_spec L h ho
    obtain ⟨k1, k2, k3, k4, k5⟩ := L.sizeImpl _ s1
    have hlen : (PSW.viewOf W view b l).length = b + (view (l.sync W)).length := by rw [← s2, List.length_append, List.length_replicate]
    unfold PSW.sizeImpl at hf ⊢
    rw [if_neg (by simp [ho])] at hf ⊢
    dsimp only at hf ⊢
    have mo := PSW.make_ok (W := W) (kMax := kMax) (n := 0) (d := (W.sizeImpl (l.sync W)).2) ho
    have ms := (PSW.make_same (W := W) (kMax := kMax) (n := 0) (d := (W.sizeImpl (l.sync W)).2) (l := l)).1
    cases hx : (l.make W kMax 0 (W.sizeImpl (l.sync W)).2).1 with
    | false =>
      rw [hx] at hf
      have key : PsReason W kMax b (PSW.viewOf W view b l).length .size (l.make W kMax 0 (W.sizeImpl (l.sync W)).2).2.dst := by
        rw [ms]
        rcases (PSW.make_false ho hx).2 with h1 | h1
        · exact .inl h1
        · rw [h.base] at h1
          have := h.fits
          exact .inr (.inl (by omega))
      exact key
    | true =>
      rw [hx] at hf
      cases ht : (W.sizeImpl (l.sync W)).1 with
      | none =>
        rw [ht] at hf
        exact (Bool.false_ne_true ((hf.symm.trans mo).trans hx)).elim
      | some n =>
        rw [ht] at hf
        dsimp only at hf ⊢
        obtain ⟨j1, -⟩ := k2 n ht
        split at hf
        · rename_i hc
          rw [h.base] at hc
          exact .inr (.inr (.inr ⟨rfl, by omega⟩))
        · exact (Bool.false_ne_true ((hf.symm.trans mo).trans hx)).elim
  | truncate n =>
    have hf : (l.truncateImpl W kMax n).2.ok = false := hf
    show PsReason W kMax b _ _ (l.truncateImpl W kMax n).2.dst
    by_cases hqb : n < b
    · exact .inr (.inr (.inl ⟨n, hqb, .inr rfl⟩))
    · have e : l.truncateImpl W kMax n = l.through W kMax 0 (W.truncateImpl (n - l.basePos)) := by
        unfold PSW.truncateImpl; rw [if_neg (by simp [ho]), if_neg (by rw [h.base]; exact hqb)]
      rw [e] at hf ⊢
      exact thr _ _ _ _ h ho hf
  | readMode q => exact thr _ _ _ _ h ho hf
  | supportsRandomAccess => exact (Bool.false_ne_true (Eq.trans (Eq.symm hf) ho)).elim
  | setWriteSizeHint n =>
    have hf : (if l.ok then l.setHint W kMax n else l).ok = false := hf
    show PsReason W kMax b _ _ (if l.ok then l.setHint W kMax n else l).dst
    rw [if_pos ho] at hf ⊢
    unfold PSW.setHint at hf ⊢
    split at hf
    · rename_i hw
      rw [if_pos hw]
      rw [PSW.make_ok ho] at hf
      rw [PSW.make_same.1]
      rcases (PSW.make_false ho hf).2 with h1 | h1
      · exact .inl h1
      · have hb' := h.base
        have := h.fits
        exact .inr (.inl (by omega))
    · exact (Bool.false_ne_true (Eq.trans (Eq.symm hf) ho)).elim

/-- **C65.** A call makes a `PositionShiftingWriter` fail only if the destination failed, the position overflowed, or the call seeks or truncates before the base
position, or asks for a size which overflows. -/
theorem C65_fails_only_with_a_reason (op : WOp) :
    let r := psRun W kMax d b owns ops
    let s := op.run (PSW.ops W kMax) r.2
    r.2.ok = true → s.2.ok = false →
      W.ok s.2.dst = false ∨ kMax < b + W.pos s.2.dst + psNeeds op ∨ (∃ q, q < b ∧ (op = .seek q ∨ op = .truncate q)) ∨
      (op = .size ∧ kMax < (WOp.replay ops r.1 (List.replicate b 0 ++ view d, b + W.pos d)).1.length) := by
  intro r s ho hf
  obtain ⟨a1, a2, -⟩ := ps_all L hq hi hb hal ho
  have e : s = op.run (PSW.opsOk W kMax) r.2 := ps_run_eq fun _ => ho
  rw [e] at hf ⊢
  have := ps_reason L a1 ho op hf
  have e1 := congrArg Prod.fst a2
  dsimp only at e1
  rw [e1] at this
  exact this

/-- **C65.** Seeking or truncating before the base position fails, and leaves the destination with everything which was written. -/
theorem C65_before_the_base (q : Nat) (hqb : q < b) (op : WOp) (hop : op = .seek q ∨ op = .truncate q) :
    let r := psRun W kMax d b owns ops
    let s := op.run (PSW.ops W kMax) r.2
    let spec := WOp.replay ops r.1 (List.replicate b 0 ++ view d, b + W.pos d)
    r.2.ok = true → s.1 = false ∧ s.2.ok = false ∧ spec.1 = List.replicate b 0 ++ view s.2.dst ∧ spec.2 = b + W.pos s.2.dst := by
  intro r s spec ho
  obtain ⟨a1, a2, -⟩ := ps_all L hq hi hb hal ho
  obtain ⟨s1, s2, s3, s4, s5⟩ := PSW.sync_spec L a1 ho
  obtain ⟨f1, f2, f3, f4⟩ := PSW.fail_spec L a1 ho
  have hge : b ≤ r.2.pos := by rw [show r.2.pos = _ from s3.symm]; omega
  have e : s = (false, r.2.fail W kMax) := by
    rcases hop with rfl | rfl
    · show (PSW.ops W kMax).seek q r.2 = _
      unfold WriterOps.seek
      rw [if_neg (show ¬ q = (PSW.ops W kMax).pos r.2 from (by omega : ¬ q = r.2.pos))]
      show r.2.seekSlow W kMax q = _
      unfold PSW.seekSlow; rw [if_neg (by simp [ho]), if_pos (by rw [a1.base]; exact hqb)]
    · show r.2.truncateImpl W kMax q = _
      unfold PSW.truncateImpl; rw [if_neg (by simp [ho]), if_pos (by rw [a1.base]; exact hqb)]
  have e1 := congrArg Prod.fst a2
  have e2 := congrArg Prod.snd a2
  dsimp only at e1 e2
  rw [e]
  dsimp only
  rw [f3]
  exact ⟨rfl, f2, e1.symm.trans s2.symm, e2.symm.trans s3.symm⟩

omit hi hb hal in
/-- **C65.** A `PositionShiftingWriter` meets the contract of `Writer`, provided that `SetWriteSizeHint()` is not called when it failed. -/
theorem C65_is_a_writer : (PSW.opsOk W kMax).Lawful (PSW.viewOf W view b) (PSW.destOf dest b) (PSW.SInv W Inv kMax b) := PSW.lawful L hq

end

/-- **C65.** A `PositionShiftingWriter` of a `PrefixLimitingWriter` with the same base position has the positions of the original destination, and writes like
a writer to it whose data before the base position are hidden: after closing both, these data are unchanged, and are followed by the contents of the
specification. -/
theorem C65_over_a_prefix {σ : Type} {W : WriterOps σ} {view dest : σ → Bytes} {Inv : σ → Prop} {kMax : Nat} {d : σ} {b : Nat} {owns po : Bool} {ops : List WOp}
    (L : W.Lawful view dest Inv) (hq : W.QuietRandomAccess Inv) (hd : Based W view Inv d b) (hb : b ≤ kMax)
    (hal : WOp.AllAllowed (PSW.ops (PLW.ops W) kMax) ops (PSW.init (PLW.ops W) kMax (PLW.init W d (some b) po) b owns)) :
    let r := psRun (PLW.ops W) kMax (PLW.init W d (some b) po) b owns ops
    let init := (List.replicate b (0 : UInt8) ++ (view d).drop b, W.pos d)
    let spec := WOp.replay ops r.1 init
    let c := r.2.done (PLW.ops W)
    let e := c.dst.done W
    c.ok = true → WOp.AllPossible ops r.1 init ∧ c.pos = spec.2 ∧ e.ok = true ∧ view e.dst = (view d).take b ++ spec.1.drop b ∧ W.pos e.dst = spec.2 := by
  intro r init spec c e hc
  have hi := PLW.init_inv (W := W) (view := view) (dest := dest) (basePos := some b) (owns := po) hd.inv hd.pos hd.size
  have L' := PLW.lawful (P := (view d).take b) (D0 := dest d) L hq
  have hq' := C64_quiet (view := view) (dest := dest) L hq ((view d).take b) (dest d)
  have ei : (List.replicate b (0 : UInt8) ++ PLW.viewOf W view (PLW.init W d (some b) po), b + (PLW.ops W).pos (PLW.init W d (some b) po)) = init := by
    have h1 : PLW.viewOf W view (PLW.init W d (some b) po) = (view d).drop b := by
      show (overlay (view d) (W.pos d) []).drop b = _
      rw [overlay_nil]
    have h2 : b + (PLW.ops W).pos (PLW.init W d (some b) po) = W.pos d := by
      show b + (W.pos d - b + 0) = W.pos d
      have := hd.pos
      omega
    rw [h1, h2]
  have ho : r.2.ok = true := by
    cases ho : r.2.ok with
    | true => rfl
    | false =>
      have e : c = r.2 := by show r.2.done (PLW.ops W) = _; unfold PSW.done; rw [ho]; rfl
      rw [e] at hc
      exact ho.symm.trans hc
  have k1 := C65_close (view := PLW.viewOf W view) (dest := PLW.destOf dest) L' hq' hi hb hal hc
  have k2 := C65_history (view := PLW.viewOf W view) (dest := PLW.destOf dest) L' hq' hi hb hal ho
  obtain ⟨a1, -, -⟩ := ps_all L' hq' hi hb hal ho
  obtain ⟨s1, -, -, -, -⟩ := PSW.sync_spec L' a1 ho
  rw [ei] at k1 k2
  obtain ⟨m1, m2, m3, m4⟩ := k1
  obtain ⟨-, n2, -⟩ := k2
  have ec : c.dst = r.2.sync (PLW.ops W) := by show (r.2.done (PLW.ops W)).dst = _; unfold PSW.done; rw [if_pos ho]
  have hp : PLW.PInv W view dest Inv ((view d).take b) (dest d) c.dst := by rw [ec]; exact s1
  have hk : c.dst.ok = true := m1
  obtain ⟨t1, t2, t3, t4, t5⟩ := PLW.sync_spec L hp hk
  have ee : e = { c.dst with dst := c.dst.sync W, pend := [], start := c.dst.pos } := by show c.dst.done W = _; unfold PLW.done; rw [if_pos hk]
  have hl : ((view d).take b).length = b := by rw [List.length_take]; exact Nat.min_eq_left hd.size
  have hdrop : spec.1.drop b = PLW.viewOf W view c.dst := by
    rw [show spec.1 = _ from m2]
    have := List.drop_left (l₁ := List.replicate b (0 : UInt8)) (l₂ := PLW.viewOf W view c.dst)
    rwa [List.length_replicate] at this
  refine ⟨n2, m4, ?_, ?_, ?_⟩
  · rw [ee]; exact hk
  · rw [ee, hdrop]; exact t2
  · rw [ee]
    refine Eq.trans t3 ?_
    rw [hl]
    exact m3.symm

/-! ## Concrete cases -/

/-- The hypotheses of C65 are met, with the destination as in `Verif/Props/LimitingWriter.lean`. -/
example : exOps.Lawful (BW.view exCfg.dest) (fun b => exCfg.dest b.phys.dst) (BWInv (FdW.dst exWos ⟨4, 16⟩ fun _ _ => 255) (FdInv exWos exCfg)) ∧
    exOps.QuietRandomAccess (BWInv (FdW.dst exWos ⟨4, 16⟩ fun _ _ => 255) (FdInv exWos exCfg)) ∧
    BWInv (FdW.dst exWos ⟨4, 16⟩ fun _ _ => 255) (FdInv exWos exCfg) exDst ∧ 1000 ≤ 2 ^ 64 - 1 :=
  ⟨FdW.lawful _ _ _ _, fd_quiet (fun _ => rfl) _ _ _,
    (FdW.init_spec exWos ⟨4, 16⟩ (fun _ _ => 255) .current true [10, 11, 12, 13, 14, 15] 2).1, by decide⟩

/-- Calls: writing, seeking to the base position, past the end, truncating, filling. -/
def exShifted : List WOp :=
  [.write [1, 2, 3], .seek 1000, .writeChar 4, .size, .truncate 1005, .seek 1009, .setWriteSizeHint (some 5), .fill 5 7, .flush .fromObject]

example : WOp.AllAllowed (PSW.ops exOps (2 ^ 64 - 1)) exShifted (PSW.init exOps (2 ^ 64 - 1) exDst 1000 true) := by
  unfold exShifted
  repeat' constructor
  all_goals first | trivial | decide +kernel

example :
    let r := psRun exOps (2 ^ 64 - 1) exDst 1000 true exShifted
    r.1 = [true, true, true, true, true, false, true, true, true] ∧ r.2.ok = true ∧ r.2.pos = 1010 ∧ (r.2.sizeImpl exOps (2 ^ 64 - 1)).1 = some 1010 ∧
    (r.2.done exOps).ok = true ∧
    (BW.done (FdW.dst exWos ⟨4, 16⟩ fun _ _ => 255) (r.2.done exOps).dst).dst.content = [4, 11, 1, 2, 3, 7, 7, 7, 7, 7] := by decide +kernel

/-- Overflow of the position, and seeking before the base position. -/
example :
    let r := psRun exOps 1009 exDst 1000 true [.push 3 0, .write [1, 2, 3], .push 5 0, .write [4]]
    r.1 = [true, true, false, false] ∧ r.2.ok = false ∧ exOps.ok r.2.dst = true ∧ exOps.pos r.2.dst = 5 ∧
    (psRun exOps 1009 exDst 1000 true [.write [1, 2, 3], .push 4 0, .write [4]]).1 = [true, true, true] ∧
    (psRun exOps 1009 exDst 1000 true [.write [1, 2, 3], .seek 999, .write [4]]).1 = [true, false, false] := by decide +kernel

/-- The hypotheses of `C65_over_a_prefix` are met; the two bytes before the base position stay. -/
example :
    Based exOps (BW.view exCfg.dest) (BWInv (FdW.dst exWos ⟨4, 16⟩ fun _ _ => 255) (FdInv exWos exCfg)) exDst 2 ∧
    (let r := psRun (PLW.ops exOps) (2 ^ 64 - 1) (PLW.init exOps exDst (some 2) true) 2 true [.write [1, 2, 3], .seek 2, .writeChar 4, .truncate 4, .seek 9, .seek 1]
     r.1 = [true, true, true, true, false, false]) ∧
    (let r := psRun (PLW.ops exOps) (2 ^ 64 - 1) (PLW.init exOps exDst (some 2) true) 2 true [.write [1, 2, 3], .seek 2, .writeChar 4, .truncate 4, .seek 9]
     (r.2.done (PLW.ops exOps)).ok = true ∧ r.2.pos = 4 ∧
     BW.view exCfg.dest ((r.2.done (PLW.ops exOps)).dst.done exOps).dst = [10, 11, 4, 2]) :=
  ⟨⟨(FdW.init_spec exWos ⟨4, 16⟩ (fun _ _ => 255) .current true [10, 11, 12, 13, 14, 15] 2).1, by decide +kernel, by decide +kernel⟩,
    by decide +kernel, by decide +kernel⟩

/-! ## Findings -/

/-- Finding 49: `SetWriteSizeHint()` gives a failed writer the buffer of the destination again, so that `Write()` returns `true` after `Seek()` failed. -/
theorem C65_hint_after_failure :
    let r := psRun exOps (2 ^ 64 - 1) exDst 1000 true [.push 3 0, .write [1], .seek 5, .write [2], .setWriteSizeHint (some 1), .write [3]]
    r.1 = [true, true, false, false, true, true] ∧ r.2.ok = false ∧ r.2.pos = 1004 := by decide +kernel

end Riegeli.Props

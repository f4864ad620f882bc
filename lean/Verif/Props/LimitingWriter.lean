import Verif.LimitingWriterProofs
import Verif.Props.Writers
/-!
# C52: `LimitingWriter`

The specification of a writer is the same as for C39 (`WOp.after`, `WOp.Possible`, `WOp.replay` in `Verif/Writer.lean`). The destination is any
class of writers which meets the contract of `Writer` (`WriterOps.Lawful`); `view d` is what `d` presents, `dest d` is what it has stored.
-/
namespace Riegeli.Props
open Riegeli Wtr

/-- A destination which is positioned within its contents, which are within the limit. -/
structure Fits {σ : Type} (W : WriterOps σ) (view dest : σ → Bytes) (Inv : σ → Prop) (d : σ) (maxPos : Nat) : Prop where
  inv : Inv d
  pos : W.pos d ≤ (view d).length
  view : (view d).length ≤ maxPos
  dest : (dest d).length ≤ maxPos

/-- The results and the state after calls of a `LimitingWriter` of the destination `d`. -/
def lwRun {σ : Type} (W : WriterOps σ) (d : σ) (maxPos : Nat) (exact owns : Bool) (ops : List WOp) : List Bool × LW σ :=
  WOp.runAll (LW.ops W) ops (LW.init W d maxPos exact owns)

section
variable {σ : Type} {W : WriterOps σ} {view dest : σ → Bytes} {Inv : σ → Prop} {d : σ} {maxPos : Nat} {exact owns : Bool} {ops : List WOp}

theorem lw_init (L : W.Lawful view dest Inv) (h : Fits W view dest Inv d maxPos) :
    LW.LInv W view dest Inv true (LW.init W d maxPos exact owns) ∧
    ((LW.init W d maxPos exact owns).ok = true →
      (LW.ops W).abs (LW.viewOf W view) (LW.init W d maxPos exact owns) = (view d, W.pos d)) ∧
    dest (LW.init W d maxPos exact owns).dst = dest d := by
  have key : ∀ d', Inv d' → (W.ok d' = true → view d' = view d ∧ W.pos d' = W.pos d) → dest d' = dest d →
      LW.LInv W view dest Inv true ⟨d', [], W.pos d', maxPos, exact, owns, W.ok d', false⟩ ∧
      (W.ok d' = true → (LW.ops W).abs (LW.viewOf W view) ⟨d', [], W.pos d', maxPos, exact, owns, W.ok d', false⟩ = (view d, W.pos d)) ∧
      dest d' = dest d := by
    intro d' i1 i2 i3
    refine ⟨⟨i1, fun _ => rfl, fun ho => ?_, fun _ => ⟨?_, fun ho => ?_⟩⟩, fun ho => ?_, i3⟩
    · have := (i2 ho).2
      exact ⟨ho, rfl, Nat.zero_le _, by rw [this]; exact Nat.le_trans h.pos h.view⟩
    · show (dest d').length ≤ maxPos
      rw [i3]; exact h.dest
    · show W.pos d' ≤ (view d').length ∧ (view d').length ≤ maxPos
      rw [(i2 ho).1, (i2 ho).2]; exact ⟨h.pos, h.view⟩
    · show (overlay (view d') (W.pos d') [], W.pos d') = _
      rw [overlay_nil, (i2 ho).1, (i2 ho).2]
  unfold LW.init
  dsimp only
  split
  · obtain ⟨s1, s2, s3, s4⟩ := L.setHint (some (maxPos - W.pos d)) d h.inv
    exact key _ s1 s2 s4
  · exact key d h.inv (fun _ => ⟨rfl, rfl⟩) rfl

theorem lw_done (l : LW σ) : (l.done W).dst = (if l.ok then (l.sync W).2 else l).dst ∧
    ((l.done W).ok = true → (if l.ok then (l.sync W).2 else l).ok = true ∧
      ¬((if l.ok then (l.sync W).2 else l).exact = true ∧ (if l.ok then (l.sync W).2 else l).pos < (if l.ok then (l.sync W).2 else l).maxPos)) := by
  unfold LW.done
  dsimp only
  generalize (if l.ok then (l.sync W).2 else l) = l'
  by_cases h : l'.exact = true ∧ l'.pos < l'.maxPos
  · rw [if_pos h]; exact ⟨rfl, fun h => (Bool.false_ne_true h).elim⟩
  · rw [if_neg h]; exact ⟨rfl, fun ho => ⟨ho, h⟩⟩

theorem lw_options (ops : List WOp) : (lwRun W d maxPos exact owns ops).2.maxPos = maxPos ∧ (lwRun W d maxPos exact owns ops).2.exact = exact ∧
    (lwRun W d maxPos exact owns ops).2.owns = owns :=
  (LW.keeps maxPos exact owns).runAll ops _ ⟨rfl, rfl, rfl⟩

variable (L : W.Lawful view dest Inv) (hq : W.QuietRandomAccess Inv) (hd : Fits W view dest Inv d maxPos)
  (hal : WOp.AllAllowed (LW.ops W) ops (LW.init W d maxPos exact owns))
include L hq hd hal

theorem lw_all :
    LW.LInv W view dest Inv true (lwRun W d maxPos exact owns ops).2 ∧
    ((lwRun W d maxPos exact owns ops).2.ok = true → (LW.init W d maxPos exact owns).ok = true ∧
      (LW.viewOf W view (lwRun W d maxPos exact owns ops).2, (lwRun W d maxPos exact owns ops).2.pos) =
        WOp.replay ops (lwRun W d maxPos exact owns ops).1 (view d, W.pos d) ∧
      WOp.AllPossible ops (lwRun W d maxPos exact owns ops).1 (view d, W.pos d)) := by
  obtain ⟨i1, i2, i3⟩ := lw_init (exact := exact) (owns := owns) L hd
  obtain ⟨r1, r2, r3⟩ := (LW.lawful L hq).runAll i1 hal
  refine ⟨r1, fun ho => ?_⟩
  have hi : (LW.init W d maxPos exact owns).ok = true := by
    cases hi : (LW.init W d maxPos exact owns).ok with
    | true => rfl
    | false =>
      have := (r3 hi).1
      exact (Bool.false_ne_true (this.symm.trans ho)).elim
  have := r2 ho
  rw [i2 hi] at this
  exact ⟨hi, this⟩

/-- **C52.** In any history of calls of a `LimitingWriter` which did not fail, all results are as for a writer of a sequence of bytes which has
initially the contents of the destination, and the position is right. -/
theorem C52_history :
    let r := lwRun W d maxPos exact owns ops
    r.2.ok = true → r.2.pos = (WOp.replay ops r.1 (view d, W.pos d)).2 ∧ WOp.AllPossible ops r.1 (view d, W.pos d) := by
  intro r ho
  obtain ⟨-, a2⟩ := lw_all L hq hd hal
  obtain ⟨-, b2, b3⟩ := a2 ho
  exact ⟨congrArg Prod.snd b2, b3⟩

/-- **C52.** A successful `Flush()` leaves the destination with the contents and the position of the specification, within the limit; they are
also stored, unless `FlushType::kFromObject` is used. -/
theorem C52_flush (t : FlushType) :
    let r := lwRun W d maxPos exact owns ops
    let f := r.2.flushImpl W t
    let spec := WOp.replay ops r.1 (view d, W.pos d)
    f.1 = true → view f.2.dst = spec.1 ∧ W.pos f.2.dst = spec.2 ∧ spec.1.length ≤ maxPos ∧ (t ≠ .fromObject → dest f.2.dst = spec.1) := by
  intro r f spec hf
  obtain ⟨a1, a2⟩ := lw_all L hq hd hal
  obtain ⟨f1, f2⟩ := LW.flushImpl_spec L (t := t) a1
  obtain ⟨g1, g2, g3, g4, g5, g6⟩ := f2 hf
  obtain ⟨-, b2, b3⟩ := a2 g1
  have e1 : LW.viewOf W view r.2 = spec.1 := congrArg Prod.fst b2
  have e2 : r.2.pos = spec.2 := congrArg Prod.snd b2
  have := ((LW.sync_spec L a1 g1 g2).2.2.2.2.2.2 rfl).2
  rw [(lw_options ops).1, show LW.viewOf W view _ = spec.1 from e1] at this
  exact ⟨g3.trans e1, g4.trans e2, this, fun ht => (g6 ht).trans e1⟩

/-- **C52.** A successful `Close()` leaves the destination with the contents and the position of the specification, within the limit, and exactly
at the limit if this was asked for. -/
theorem C52_close :
    let r := lwRun W d maxPos exact owns ops
    let c := r.2.done W
    let spec := WOp.replay ops r.1 (view d, W.pos d)
    c.ok = true → r.2.ok = true ∧ W.ok c.dst = true ∧ view c.dst = spec.1 ∧ W.pos c.dst = spec.2 ∧ spec.1.length ≤ maxPos ∧ spec.2 ≤ maxPos ∧
      (exact = true → spec.2 = maxPos) := by
  intro r c spec hc
  obtain ⟨a1, a2⟩ := lw_all L hq hd hal
  obtain ⟨k1, k2, k3⟩ := lw_options (W := W) (d := d) (maxPos := maxPos) (exact := exact) (owns := owns) ops
  obtain ⟨h1, h2⟩ := lw_done (W := W) r.2
  obtain ⟨h2, h3⟩ := h2 hc
  cases ho : r.2.ok with
  | false =>
    rw [ho] at h2
    exact (Bool.false_ne_true (ho.symm.trans h2)).elim
  | true =>
    rw [ho, if_pos rfl] at h1 h2 h3
    by_cases hm : r.2.maxPos < r.2.pos
    · have := (LW.sync_over L a1 ho hm).2.1
      exact (Bool.false_ne_true (this.symm.trans h2)).elim
    · have hm := Nat.le_of_not_lt hm
      obtain ⟨s1, s2, s3, s4, s5, s6, s7⟩ := LW.sync_spec L a1 ho hm
      obtain ⟨-, b2, b3⟩ := a2 ho
      have e1 : LW.viewOf W view r.2 = spec.1 := congrArg Prod.fst b2
      have e2 : r.2.pos = spec.2 := congrArg Prod.snd b2
      have e3 : (r.2.sync W).2 = { r.2 with dst := W.put r.2.pend r.2.dst, pend := [], base := r.2.pos } := by rw [show r.2.sync W = _ from s1]
      have hp : (r.2.sync W).2.pos = r.2.pos := by rw [e3]; simp [LW.pos]
      have hx : (r.2.sync W).2.exact = exact := by rw [e3]; exact k2
      have hxm : (r.2.sync W).2.maxPos = maxPos := by rw [e3]; exact k1
      rw [hp, hx, hxm] at h3
      have e4 : c.dst = W.put r.2.pend r.2.dst := by rw [show c.dst = _ from h1, e3]
      have hs := s7 rfl
      have hle : r.2.pos ≤ maxPos := k1 ▸ hm
      rw [e4]
      refine ⟨rfl, s5, s3.trans e1, s4.trans e2, ?_, ?_, fun hx => ?_⟩
      · rw [← e1, ← k1]; exact hs.2
      · rw [← e2]; exact hle
      · rw [← e2]
        exact Nat.le_antisymm hle (Nat.le_of_not_lt fun hn => h3 ⟨hx, hn⟩)

/-- **C52.** What the destination has stored is never longer than the limit, at any point of any history, whether calls succeeded or not; `Close()` does not
change it before it closes the destination. -/
theorem C52_never_past_the_limit :
    let r := lwRun W d maxPos exact owns ops
    (dest r.2.dst).length ≤ maxPos ∧ dest (r.2.done W).dst = dest r.2.dst := by
  intro r
  obtain ⟨a1, -⟩ := lw_all L hq hd hal
  have h1 := (a1.short rfl).1
  rw [(lw_options ops).1] at h1
  refine ⟨h1, ?_⟩
  rw [show (r.2.done W).dst = _ from (lw_done r.2).1]
  cases ho : r.2.ok with
  | false => rfl
  | true =>
    show dest (r.2.sync W).2.dst = _
    by_cases hm : r.2.maxPos < r.2.pos
    · exact (LW.sync_over L a1 ho hm).2.2.2.1
    · obtain ⟨s1, s2, s3, s4, s5, s6, s7⟩ := LW.sync_spec L a1 ho (Nat.le_of_not_lt hm)
      rw [show r.2.sync W = _ from s1]
      exact s6

/-- **C52.** If a `LimitingWriter` failed although its destination did not, then some call tried to write past the limit, and the destination has
everything up to the limit, including a part of the data of this call. -/
theorem C52_limit (hi : W.ok d = true) (hx : (owns && exact) = false ∨ ∀ n, W.ok (W.setHint n d) = true) :
    let r := lwRun W d maxPos exact owns ops
    r.2.ok = false → W.ok r.2.dst = true → ∃ k op, ops[k]? = some op ∧
      let a := WOp.replay (ops.take k) (r.1.take k) (view d, W.pos d)
      maxPos < a.2 + op.bytes.length ∧ view r.2.dst = (overlay a.1 a.2 op.bytes).take maxPos := by
  intro r hf hk
  obtain ⟨i1, i2, i3⟩ := lw_init (exact := exact) (owns := owns) L hd
  have ho : (LW.init W d maxPos exact owns).ok = true := by
    unfold LW.init
    dsimp only
    rcases hx with hx | hx
    · rw [hx]; exact hi
    · split
      · exact hx _
      · exact hi
  have := LW.over_runAll L hq i1 hal ho hf hk
  have e := i2 ho
  have e : (LW.viewOf W view (LW.init W d maxPos exact owns), (LW.init W d maxPos exact owns).pos) = (view d, W.pos d) := e
  rw [e] at this
  exact this

/-- **C52.** A failed `LimitingWriter` stays failed, and changes neither what the destination has stored nor, unless it fails, what it presents. -/
theorem C52_failed_stays_failed (ops' : List WOp) (hal' : WOp.AllAllowed (LW.ops W) ops' (lwRun W d maxPos exact owns ops).2)
    (hf : (lwRun W d maxPos exact owns ops).2.ok = false) :
    let l := (lwRun W d maxPos exact owns ops).2
    let l' := (WOp.runAll (LW.ops W) ops' l).2
    l'.ok = false ∧ (l'.done W).ok = false ∧ dest l'.dst = dest l.dst ∧ (W.ok l'.dst = true → view l'.dst = view l.dst) := by
  intro l l'
  obtain ⟨a1, -⟩ := lw_all L hq hd hal
  obtain ⟨r1, r2, r3⟩ := (LW.lawful L hq).runAll a1 hal'
  obtain ⟨s1, s2⟩ := r3 hf
  refine ⟨s1, ?_, s2, fun hk => ?_⟩
  · have s1 : l'.ok = false := s1
    cases hc : (l'.done W).ok with
    | false => rfl
    | true =>
      have := ((lw_done (W := W) l').2 hc).1
      rw [s1] at this
      exact (Bool.false_ne_true (s1.symm.trans this)).elim
  · have : ∀ (ops : List WOp) (l : LW σ), LW.LInv W view dest Inv true l → l.ok = false → WOp.AllAllowed (LW.ops W) ops l →
        W.ok (WOp.runAll (LW.ops W) ops l).2.dst = true → W.ok l.dst = true ∧ view (WOp.runAll (LW.ops W) ops l).2.dst = view l.dst := by
      intro ops
      induction ops with
      | nil => exact fun l _ _ _ hd => ⟨hd, rfl⟩
      | cons op ops ih =>
        intro l h' ho' ha hd
        obtain ⟨f1, f2⟩ := LW.failed_run L hq (op := op) h' ho'
        obtain ⟨j1, j2⟩ := ih _ ((LW.lawful L hq).run h' ha.1).1 f1 ha.2 hd
        obtain ⟨j3, j4⟩ := f2 j1
        exact ⟨j3, j2.trans j4⟩
    exact (this ops' l a1 hf hal' hk).2

/-- **C52.** `set_max_pos()` with a limit not before the contents: it may be used to raise the limit after some calls, or to lower it to what is
still within it; afterwards the new limit applies to the continued history. -/
theorem C52_set_max_pos (n : Nat) (ops' : List WOp)
    (hal' : WOp.AllAllowed (LW.ops W) ops' ((lwRun W d maxPos exact owns ops).2.setMaxPos n))
    (ho : (lwRun W d maxPos exact owns ops).2.ok = true)
    (hn : (WOp.replay ops (lwRun W d maxPos exact owns ops).1 (view d, W.pos d)).1.length ≤ n ∧ (dest (lwRun W d maxPos exact owns ops).2.dst).length ≤ n ∧
      (view (lwRun W d maxPos exact owns ops).2.dst).length ≤ n) :
    let r := lwRun W d maxPos exact owns ops
    let r' := WOp.runAll (LW.ops W) ops' (r.2.setMaxPos n)
    (dest r'.2.dst).length ≤ n ∧
    (r'.2.ok = true → r'.2.pos = (WOp.replay ops' r'.1 (WOp.replay ops r.1 (view d, W.pos d))).2 ∧
      WOp.AllPossible ops' r'.1 (WOp.replay ops r.1 (view d, W.pos d))) ∧
    ((r'.2.flushImpl W .fromProcess).1 = true → dest (r'.2.flushImpl W .fromProcess).2.dst =
      (WOp.replay ops' r'.1 (WOp.replay ops r.1 (view d, W.pos d))).1) := by
  intro r r'
  obtain ⟨a1, a2⟩ := lw_all L hq hd hal
  obtain ⟨-, b2, b3⟩ := a2 ho
  have e1 : LW.viewOf W view r.2 = _ := congrArg Prod.fst b2
  have hin : LW.LInv W view dest Inv true (r.2.setMaxPos n) := by
    refine ⟨a1.dst, a1.failed, fun ho => ?_, fun _ => ⟨hn.2.1, fun ho => ⟨((a1.short rfl).2 ho).1, ?_⟩⟩⟩
    · obtain ⟨o1, o2, o3, o4⟩ := a1.isOk ho
      refine ⟨o1, o2, o3, ?_⟩
      show W.pos r.2.dst ≤ n
      exact Nat.le_trans ((a1.short rfl).2 ho).1 hn.2.2
    · exact hn.2.2
  obtain ⟨r1, r2, -⟩ := (LW.lawful L hq).runAll hin hal'
  have hk : r'.2.maxPos = n := ((LW.keeps (W := W) n r.2.exact r.2.owns).runAll ops' (r.2.setMaxPos n) ⟨rfl, rfl, rfl⟩).1
  have eabs : (LW.ops W).abs (LW.viewOf W view) (r.2.setMaxPos n) = WOp.replay ops r.1 (view d, W.pos d) := b2
  rw [eabs] at r2
  refine ⟨?_, fun ho' => ?_, fun hf => ?_⟩
  · have := (r1.short rfl).1
    rw [show (WOp.runAll (LW.ops W) ops' (r.2.setMaxPos n)).2.maxPos = n from hk] at this
    exact this
  · obtain ⟨c1, c2⟩ := r2 ho'
    exact ⟨congrArg Prod.snd c1, c2⟩
  · obtain ⟨f1, f2⟩ := LW.flushImpl_spec L (t := .fromProcess) r1
    obtain ⟨g1, g2, g3, g4, g5, g6⟩ := f2 hf
    obtain ⟨c1, c2⟩ := r2 g1
    exact (g6 (by intro h; cases h)).trans (congrArg Prod.fst c1)

end

section
variable {σ : Type} {W : WriterOps σ} {view dest : σ → Bytes} {Inv : σ → Prop} {d : σ} {maxPos : Nat} {exact owns : Bool} {ops : List WOp}

/-- **C52.** Appending: if the destination is positioned at its end, and neither `Seek()` nor `Truncate()` are called, then after exceeding the limit the
destination has its initial contents and the data of all calls, cut at the limit. -/
theorem C52_appending (L : W.Lawful view dest Inv) (hq : W.QuietRandomAccess Inv) (hd : Fits W view dest Inv d maxPos)
    (he : W.pos d = (view d).length) (hop : ∀ op ∈ ops, op.Appends = true) (hi : W.ok d = true)
    (hx : (owns && exact) = false ∨ ∀ n, W.ok (W.setHint n d) = true) :
    let r := lwRun W d maxPos exact owns ops
    W.ok (r.2.done W).dst = true → view (r.2.done W).dst = (view d ++ ops.flatMap WOp.bytes).take maxPos := by
  intro r hk
  have hal := WOp.allAllowed (W := LW.ops W) ops (LW.init W d maxPos exact owns) hop
  obtain ⟨a1, a2⟩ := lw_all L hq hd hal
  have hmax : r.2.maxPos = maxPos := (lw_options ops).1
  have hdst : (r.2.done W).dst = (if r.2.ok then (r.2.sync W).2 else r.2).dst := (lw_done r.2).1
  rw [hdst] at hk ⊢
  cases ho : r.2.ok with
  | false =>
    rw [ho] at hk
    obtain ⟨k, op, h1, h2, h3⟩ := C52_limit L hq hd hal hi hx ho hk
    have hl : (r.1.take k).length = (ops.take k).length := by
      rw [List.length_take, List.length_take, show r.1.length = ops.length from WOp.runAll_length ops _]
    have e := WOp.replay_appends (ops.take k) (r.1.take k) (view d) hl fun o h => hop o (List.mem_of_mem_take h)
    rw [he] at h2 h3
    rw [show WOp.replay (ops.take k) ((lwRun W d maxPos exact owns ops).1.take k) (view d, (view d).length) = _ from e] at h2 h3
    dsimp only at h2 h3
    rw [overlay_end] at h3
    have hk' : k < ops.length := by
      cases Nat.lt_or_ge k ops.length with
      | inl h => exact h
      | inr h => rw [List.getElem?_eq_none h] at h1; cases h1
    have hsplit : ops = ops.take k ++ op :: ops.drop (k + 1) := by
      have : ops[k] = op := by rw [List.getElem?_eq_getElem hk'] at h1; injection h1
      rw [← this, List.getElem_cons_drop, List.take_append_drop]
    have hall : view d ++ ops.flatMap WOp.bytes =
        (view d ++ (ops.take k).flatMap WOp.bytes ++ op.bytes) ++ (ops.drop (k + 1)).flatMap WOp.bytes := by
      conv => lhs; rw [hsplit, List.flatMap_append, List.flatMap_cons]
      simp only [List.append_assoc]
    show view r.2.dst = _
    rw [hall, List.take_append_of_le_length (by rw [List.length_append]; omega)]
    exact h3
  | true =>
    rw [ho] at hk
    obtain ⟨-, b2, b3⟩ := a2 ho
    have hl : r.1.length = ops.length := WOp.runAll_length ops _
    have e := WOp.replay_appends ops r.1 (view d) hl hop
    rw [he] at b2
    have b2 := b2.trans e
    have e1 : LW.viewOf W view r.2 = view d ++ ops.flatMap WOp.bytes := congrArg Prod.fst b2
    have e2 : r.2.pos = (view d ++ ops.flatMap WOp.bytes).length := congrArg Prod.snd b2
    show view (r.2.sync W).2.dst = _
    by_cases hm : r.2.maxPos < r.2.pos
    · obtain ⟨s1, s2, s3, s4, s5, s6, s7⟩ := LW.sync_over L a1 ho hm
      obtain ⟨o1, o2, o3, o4⟩ := a1.isOk ho
      obtain ⟨u2, u3⟩ := (a1.short rfl).2 ho
      have hp : r.2.pos = W.pos r.2.dst + r.2.pend.length := by unfold LW.pos; rw [o2]
      have := overlay_take (bs := r.2.pend) u2 u3 (by rw [← hp]; exact hm)
      rw [← e1]
      rw [hmax] at this
      refine Eq.trans ?_ this
      rw [show view (r.2.sync W).2.dst = _ from s6, hmax]
    · have hm := Nat.le_of_not_lt hm
      obtain ⟨s1, s2, s3, s4, s5, s6, s7⟩ := LW.sync_spec L a1 ho hm
      rw [show r.2.sync W = _ from s1]
      show view (W.put _ _) = _
      rw [s3, e1, List.take_of_length_le (by rw [← e2, ← hmax]; exact hm)]

end

/-! ## Concrete cases -/

/-- `SupportsRandomAccess()` of `FdWriter` is quiet if system calls succeed. -/
theorem fd_quiet {os : WOs} (ho : ∀ t, os.succeeds t = true) (cfg : FdCfg) (bo : Rdr.BufOpts) (junk : Nat → Nat → UInt8) :
    (FdW.ops os bo junk).QuietRandomAccess (BWInv (FdW.dst os bo junk) (FdInv os cfg)) := by
  intro b hb
  have hok : ∀ p : WPhys FdW, (FdW.randomAccess os p).2.ok = p.ok := by
    intro p
    unfold FdW.randomAccess
    split
    · rfl
    · split
      · rfl
      · unfold FdW.sizeStatus
        simp only [ho]
        split <;> rfl
  refine ⟨?_, ?_, fun bs _ => rfl⟩
  · show (BW.randomAccess (FdW.dst os bo junk) b).2.phys.ok = b.phys.ok
    unfold BW.randomAccess BW.after
    dsimp only
    split <;> exact hok _
  · show (BW.randomAccess (FdW.dst os bo junk) b).2.avail = b.avail
    unfold BW.randomAccess BW.after
    dsimp only
    cases hb' : b.phys.ok with
    | true => rw [show ((FdW.dst os bo junk).randomAccess b.phys).2.ok = true from (hok _).trans hb']; rfl
    | false =>
      rw [show ((FdW.dst os bo junk).randomAccess b.phys).2.ok = false from (hok _).trans hb']
      exact ((FdW.lawful os cfg bo junk).avail b hb hb').symm

/-- An `FdWriter` of a file with 6 bytes at the position 2, with small buffers. -/
def exDst : BW FdW := FdW.init exWos .current true [10, 11, 12, 13, 14, 15] 2

/-- Its class. -/
abbrev exOps : WriterOps (BW FdW) := FdW.ops exWos ⟨4, 16⟩ fun _ _ => 255

/-- Its contents. -/
abbrev exCfg : FdCfg := ⟨FdW.isStream exWos .current, FdW.startPos exWos [10, 11, 12, 13, 14, 15] 2 .current, [10, 11, 12, 13, 14, 15], 2⟩

/-- The hypotheses of C52 are met, with the limit 10. -/
example : exOps.Lawful (BW.view exCfg.dest) (fun b => exCfg.dest b.phys.dst) (BWInv (FdW.dst exWos ⟨4, 16⟩ fun _ _ => 255) (FdInv exWos exCfg)) ∧
    exOps.QuietRandomAccess (BWInv (FdW.dst exWos ⟨4, 16⟩ fun _ _ => 255) (FdInv exWos exCfg)) ∧
    Fits exOps (BW.view exCfg.dest) (fun b => exCfg.dest b.phys.dst) (BWInv (FdW.dst exWos ⟨4, 16⟩ fun _ _ => 255) (FdInv exWos exCfg)) exDst 10 ∧
    exOps.ok exDst = true :=
  ⟨FdW.lawful _ _ _ _, fd_quiet (fun _ => rfl) _ _ _,
    ⟨(FdW.init_spec exWos ⟨4, 16⟩ (fun _ _ => 255) .current true [10, 11, 12, 13, 14, 15] 2).1, by decide +kernel, by decide +kernel, by decide +kernel⟩,
    by decide +kernel⟩

/-- Calls within the limit 10: writing, seeking back, seeking past the end, filling up to the limit exactly. -/
def exLimited : List WOp :=
  [.write [1, 2, 3], .seek 1, .writeChar 4, .size, .truncate 5, .seek 9, .fill 5 7, .flush .fromObject]

example : WOp.AllAllowed (LW.ops exOps) exLimited (LW.init exOps exDst 10 true true) := by
  unfold exLimited
  repeat' constructor
  all_goals first | trivial | decide +kernel

example :
    let r := lwRun exOps exDst 10 true true exLimited
    r.1 = [true, true, true, true, true, false, true, true] ∧ r.2.ok = true ∧
    WOp.replay exLimited r.1 ([10, 11, 12, 13, 14, 15], 2) = ([10, 4, 1, 2, 3, 7, 7, 7, 7, 7], 10) ∧
    (r.2.done exOps).ok = true ∧ (BW.done (FdW.dst exWos ⟨4, 16⟩ fun _ _ => 255) (r.2.done exOps).dst).dst.content = [10, 4, 1, 2, 3, 7, 7, 7, 7, 7] := by
  decide +kernel

/-- Exceeding the limit: with the buffer having room past the limit, writing succeeds, and the limit is discovered later. -/
example :
    let ops : List WOp := [.write [1, 2], .push 12 0, .writeChar 3, .write [4, 5, 6, 7], .write [8, 9], .flush .fromProcess, .write [0]]
    let r := lwRun exOps exDst 10 false true ops
    r.1 = [true, true, true, true, true, false, false] ∧ r.2.ok = false ∧ exOps.ok r.2.dst = true ∧
    (BW.done (FdW.dst exWos ⟨4, 16⟩ fun _ _ => 255) r.2.dst).dst.content = [10, 11, 1, 2, 3, 4, 5, 6, 7, 8] := by decide +kernel

/-- Not reaching the limit when it should be reached exactly. -/
example : ((lwRun exOps exDst 10 true false [.write [1, 2, 3]]).2.done exOps).ok = false ∧
    ((lwRun exOps exDst 10 false false [.write [1, 2, 3]]).2.done exOps).ok = true := by decide +kernel

/-! ## Findings -/

/-- Finding 36: `SetWriteSizeHint()` on a writer which failed because the limit was exceeded sets the cursor of the destination to null. -/
theorem C52_hint_after_exceeding :
    let r := lwRun exOps exDst 10 false true [.write [0, 1, 2, 3, 4, 5, 6, 7, 8, 9], .setWriteSizeHint (some 5)]
    r.2.ok = false ∧ r.2.broken = true := by decide +kernel

end Riegeli.Props

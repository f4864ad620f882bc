import Verif.ParallelWriter
import Verif.ParallelConv
/-!
# `RecordWriter` with `parallelism > 0`: the converse

A client which fails with the serial writer fails with the serial worker.
-/
namespace Riegeli.Par
open Riegeli

theorem encSim_refl {σ : Type} (E : Encoder σ) : EncSim E E Eq :=
  ⟨rfl, fun a b b' r h1 h2 => ⟨b', h1 ▸ h2, rfl⟩, fun a b h => by rw [h], fun a b x h1 h2 => h1 ▸ h2⟩

section
variable {σ α : Type} {E : Encoder σ} {H : Bytes → UInt64} {o : WOpts}

theorem putChunk_none {c : Chunk} {s : Ser Dest} {st : CL σ} {w : RW σ} {tab : List RecordPosition} {nf : Nat}
    (h : WRel Eq s st w tab nf) (hw : w.putChunk H c = none) : ∃ d, (destCW H).write c s.cw = (d, false) := by
  unfold RW.putChunk at hw
  split at hw
  · cases hw
  · rename_i hlt
    simp only [destCW, destWrite, h.cw]
    rw [if_neg hlt]
    exact ⟨_, rfl⟩

theorem pad_none {padding : Nat} {s : Ser Dest} {st : CL σ} {w : RW σ} {tab : List RecordPosition} {nf : Nat}
    (h : WRel Eq s st w tab nf) (hw : w.pad H padding = none) : ∃ d, (destCW H).pad padding s.cw = (d, false) := by
  unfold RW.pad at hw
  split at hw
  · cases hw
  · rename_i c hp
    obtain ⟨d, h1⟩ := putChunk_none h hw
    refine ⟨d, ?_⟩
    rw [show (destCW H).pad padding s.cw = (destCW H).write c s.cw by simp only [destCW, h.cw, hp]]
    exact h1
  · rename_i hp; simp only [destCW, h.cw, hp]; exact ⟨_, rfl⟩
  · rename_i hp; simp only [destCW, h.cw, hp]; exact ⟨_, rfl⟩

theorem closeChunk_none {s : Ser Dest} {st : CL σ} {w : RW σ} {tab : List RecordPosition}
    {nf : Nat} {k : Bool → CL σ → Prog α} (h : WRel Eq s st w tab nf) (hw : w.closeChunk E H = none) :
    (closeChunkP E H st k).serial (destCW H) s = none := by
  unfold RW.closeChunk at hw
  rw [← h.enc] at hw
  simp only [closeChunkP, Prog.serial, Src.result, encodeChunk]
  split at hw
  · rename_i hf; rw [hf]
  rename_i data typ dec hf
  rw [hf]
  split at hw
  · rename_i hlen
    simp only [hlen, ↓reduceIte]
    split at hw
    · rename_i hput
      obtain ⟨d, h1⟩ := putChunk_none h hput
      rw [h1]
    · cases hw
  · rename_i hlen
    simp only [hlen, ↓reduceIte]

theorem addRecord_none {r : Bytes} {s : Ser Dest} {st : CL σ} {w : RW σ}
    {tab : List RecordPosition} {nf : Nat} {k : Bool → CL σ → Prog α} (h : WRel Eq s st w tab nf)
    (hw : (match E.add w.enc r with
      | none => none
      | some enc =>
        let w := { w with soFar := w.soFar + (r.length + 8) }
        let w := { w with enc := enc }
        if w.soFar + 8 > o.desired then
          let w := { w with last := .validAt (w.workerLastPos E) }
          match w.closeChunk E H with
          | none => none
          | some w => some { w with soFar := 0 }
        else some { w with last := .valid }) = none) :
    (addRecordP E H o r st k).serial (destCW H) s = none := by
  unfold addRecordP
  split at hw
  · rename_i hadd
    simp only [Prog.serial, ↓reduceIte, h.enc, hadd]
  rename_i enc hadd
  have h3 := (h.setSoFar (w.soFar + (r.length + 8))).setEnc (rfl : enc = enc)
  simp only [Prog.serial, ↓reduceIte, h.enc, hadd, h.soFar]
  dsimp only at hw h3
  split at hw
  · rename_i hd
    rw [if_pos hd]
    have h4 := h3.lastAt (H := H) (encSim_refl E)
    split at hw
    · rename_i hcl
      simp only [Prog.serial]
      exact closeChunk_none h4 hcl
    · cases hw
  · cases hw

theorem writeRecord_none {r : Bytes} {s : Ser Dest} {st : CL σ} {w : RW σ}
    {tab : List RecordPosition} {nf : Nat} {k : Bool → CL σ → Prog α} (h : WRel Eq s st w tab nf)
    (hw : w.writeRecord E H o r = none) : (writeRecordP E H o r st k).serial (destCW H) s = none := by
  unfold RW.writeRecord at hw
  unfold writeRecordP
  rw [if_neg (by rw [h.ok]; simp)]
  have h1 := h.setLast (l := .invalid) (l' := .invalid) trivial
  dsimp only at hw ⊢
  by_cases hc : w.soFar + (r.length + 8) > o.desired ∧ w.soFar > 0
  · rw [if_pos hc] at hw
    rw [if_pos (by rw [h.soFar]; exact hc)]
    cases hcl : RW.closeChunk E H { w with last := .invalid } with
    | none => exact closeChunk_none h1 hcl
    | some w2 =>
      rw [hcl] at hw
      obtain ⟨d, h2, h3⟩ := closeChunk_serial (α := α) (encSim_refl E) (k := fun b st =>
        if b then addRecordP E H o r { st with soFar := 0 } k else failP st k) h1 hcl
      rw [h2]
      simp only [↓reduceIte]
      exact addRecord_none (h3.setSoFar 0) hw
  · rw [if_neg hc] at hw
    rw [if_neg (by rw [h.soFar]; exact hc)]
    exact addRecord_none h1 hw

theorem closeNonempty_none {s : Ser Dest} {st : CL σ} {w : RW σ}
    {tab : List RecordPosition} {nf : Nat} {k : Bool → CL σ → Prog α} (h : WRel Eq s st w tab nf)
    (hw : (if w.soFar > 0 then
      let w := if w.last = .valid then { w with last := .validAt (w.workerLastPos E) } else w
      match w.closeChunk E H with
      | none => none
      | some w => some { w with soFar := 0 }
    else some w) = none) :
    (closeNonemptyP E H st k).serial (destCW H) s = none := by
  unfold closeNonemptyP
  split at hw
  · rename_i hpos
    rw [if_pos (by rw [h.soFar]; exact hpos)]
    have hlast := h.last
    by_cases hl : w.last = .valid
    · have hl2 : st.last = .valid := by
        rw [hl] at hlast
        cases hx : st.last <;> rw [hx] at hlast <;> first | rfl | exact hlast.elim
      rw [if_pos hl2]
      simp only [hl, ↓reduceIte] at hw
      split at hw
      · rename_i hcl
        simp only [Prog.serial]
        exact closeChunk_none (h.lastAt (H := H) (encSim_refl E)) hcl
      · cases hw
    · have hl2 : ¬ st.last = .valid := by
        intro hx
        rw [hx] at hlast
        cases hy : w.last <;> rw [hy] at hlast <;> first | exact hl hy | exact hlast.elim
      rw [if_neg hl2]
      simp only [hl, ↓reduceIte] at hw
      split at hw
      · rename_i hcl
        exact closeChunk_none h hcl
      · cases hw
  · cases hw

theorem finish_none {s : Ser Dest} {st : CL σ} {w : RW σ}
    {tab : List RecordPosition} {nf : Nat} {k : Bool → CL σ → Prog α} (h : WRel Eq s st w tab nf)
    (hw : w.finishChunk E H o = none) :
    (closeNonemptyP E H st k).serial (destCW H) s = none ∨
    ∃ s' st' d, (closeNonemptyP E H st k).serial (destCW H) s = (k true st').serial (destCW H) s' ∧
      (destCW H).pad o.finalPadding s'.cw = (d, false) := by
  unfold RW.finishChunk at hw
  dsimp only at hw
  split at hw
  · rename_i hw1
    exact .inl (closeNonempty_none h hw1)
  · rename_i w1 hw1
    obtain ⟨s', st', h1, h2⟩ := closeNonempty_serial (k := k) (encSim_refl E) h hw1
    obtain ⟨d, h3⟩ := pad_none h2 hw
    exact .inr ⟨s', st', d, h1, h3⟩

theorem client_none (c : Client α) : ∀ {s : Ser Dest} {st : CL σ} {w : RW σ}
    {tab : List RecordPosition} {nf : Nat}, WRel Eq s st w tab nf → c.serial E H o w tab nf = none →
    (c.prog E H o st).serial (destCW H) s = none := by
  induction c with
  | write r k ih =>
    intro s st w tab nf h hc
    simp only [Client.serial] at hc
    simp only [Client.prog]
    split at hc
    · rename_i hw1
      exact writeRecord_none h hw1
    · rename_i w1 hw1
      obtain ⟨s', st', h1, h2⟩ := writeRecord_serial (k := fun b st => (k b).prog E H o st) (encSim_refl E) h hw1
      rw [h1]
      exact ih _ h2 hc
  | flush k ih =>
    intro s st w tab nf h hc
    simp only [Client.serial, RW.flush] at hc
    simp only [Client.prog, flushP]
    rw [if_neg (by rw [h.ok]; simp)]
    cases hw2 : RW.finishChunk E H o w with
    | none =>
      rcases finish_none h hw2 with h1 | ⟨s', st', d, h1, h2⟩
      · exact h1
      · rw [h1]; simp only [↓reduceIte, Prog.serial, h2]
    | some w2 =>
      rw [hw2] at hc
      obtain ⟨s', st', d, h1, h2, h3⟩ := finish_serial (encSim_refl E) h hw2
      rw [h1]
      simp only [↓reduceIte, Prog.serial, h2]
      rw [destCW_flush]
      simp only [List.length_append, List.length_singleton]
      rw [if_pos (by simp)]
      exact ih _ (h3.flush (H := H)) hc
  | futureFlush k ih =>
    intro s st w tab nf h hc
    simp only [Client.serial, RW.flush] at hc
    simp only [Client.prog, futureFlushP]
    rw [if_neg (by rw [h.ok]; simp)]
    cases hw2 : RW.finishChunk E H o w with
    | none =>
      rcases finish_none h hw2 with h1 | ⟨s', st', d, h1, h2⟩
      · exact h1
      · rw [h1]; simp only [↓reduceIte, Prog.serial, h2]
    | some w2 =>
      rw [hw2] at hc
      obtain ⟨s', st', d, h1, h2, h3⟩ := finish_serial (encSim_refl E) h hw2
      rw [h1]
      simp only [↓reduceIte, Prog.serial, h2]
      rw [destCW_flush]
      have h4 := h3.flush (H := H)
      have hl : st'.ftab.length = nf := h4.ftabLen
      simp only [hl]
      refine ih _ ⟨h4.cw, h4.enc, h4.soFar, h4.last, h4.tabLen, h4.tab, ?_, ?_, h4.ok⟩ hc
      · simp [hl]
      · intro i x hx
        dsimp only at hx
        rcases Nat.lt_or_ge i st'.ftab.length with hlt | hge
        · rw [List.getElem?_append_left hlt] at hx
          exact h4.ftab i x hx
        · rw [List.getElem?_append_right hge] at hx
          have := List.mem_singleton.1 (List.mem_of_getElem? hx)
          exact ⟨_, this, by simp⟩
  | getFlush i k ih =>
    intro s st w tab nf h hc
    simp only [Client.serial] at hc
    simp only [Client.prog]
    by_cases hi : i < nf
    · have hlt : i < st.ftab.length := by rw [h.ftabLen]; exact hi
      obtain ⟨hh, h1, h2⟩ := h.ftab i _ (List.getElem?_eq_getElem hlt)
      rw [List.getElem?_eq_getElem hlt, h1]
      simp only [Prog.serial]
      rw [show decide (hh < s.flushes.length) = decide (i < nf) by simp [h2, hi]]
      exact ih _ h hc
    · have hge : st.ftab[i]? = none := by rw [List.getElem?_eq_none_iff, h.ftabLen]; omega
      rw [hge]
      rw [show decide (i < nf) = false by simp [hi]] at hc
      exact ih _ h hc
  | lastPos k ih =>
    intro s st w tab nf h hc
    simp only [Client.serial] at hc
    simp only [Client.prog]
    have hlast := h.last
    cases hx : st.last with
    | invalid =>
      cases hy : w.last <;> rw [hx, hy] at hlast <;> try exact hlast.elim
      simp only [RW.lastPos, hy] at hc
      exact ih _ h hc
    | valid =>
      cases hy : w.last <;> rw [hx, hy] at hlast <;> try exact hlast.elim
      simp only [RW.lastPos, hy] at hc
      simp only [Prog.serial]
      have h1 := h.snap ((destCW H).pos s.cw)
      rw [h.tabLen]
      refine ih _ ⟨h1.cw, h1.enc, h1.soFar, by rw [hy]; trivial, by simp [h.tabLen], ?_, h1.ftabLen, h1.ftab, h1.ok⟩ hc
      intro i hh idx hi
      dsimp only at hi ⊢
      rcases Nat.lt_or_ge i st.tab.length with hlt | hge
      · rw [List.getElem?_append_left hlt] at hi
        obtain ⟨p, h2, h3⟩ := h1.tab i hh idx hi
        exact ⟨p, h2, getElem?_snoc h3⟩
      · rw [List.getElem?_append_right hge] at hi
        have he := List.mem_singleton.1 (List.mem_of_getElem? hi)
        have := (List.getElem?_eq_some_iff.1 hi).1
        simp only [List.length_singleton] at this
        simp only [Prod.mk.injEq] at he
        obtain ⟨rfl, rfl⟩ := he
        refine ⟨(destCW H).pos s.cw, by simp, ?_⟩
        rw [show i = tab.length by rw [← h.tabLen]; omega]
        simp [RW.workerLastPos, destCW, h.cw, h.enc]
    | validAt h0 idx0 =>
      cases hy : w.last <;> rw [hx, hy] at hlast <;> try exact hlast.elim
      rename_i p0
      simp only [RW.lastPos, hy] at hc
      dsimp only
      rw [h.tabLen]
      refine ih _ ⟨h.cw, h.enc, h.soFar, by rw [hx, hy] at *; exact hlast, by simp [h.tabLen], ?_, h.ftabLen, h.ftab, h.ok⟩ hc
      intro i hh idx hi
      dsimp only at hi ⊢
      rcases Nat.lt_or_ge i st.tab.length with hlt | hge
      · rw [List.getElem?_append_left hlt] at hi
        obtain ⟨p, h2, h3⟩ := h.tab i hh idx hi
        exact ⟨p, h2, getElem?_snoc h3⟩
      · rw [List.getElem?_append_right hge] at hi
        have he := List.mem_singleton.1 (List.mem_of_getElem? hi)
        have := (List.getElem?_eq_some_iff.1 hi).1
        simp only [List.length_singleton] at this
        simp only [Prod.mk.injEq] at he
        obtain ⟨rfl, rfl⟩ := he
        refine ⟨p0.chunkBegin, hlast.1, ?_⟩
        rw [show i = tab.length by rw [← h.tabLen]; omega, hlast.2]
        simp
  | pos k ih =>
    intro s st w tab nf h hc
    simp only [Client.serial] at hc
    simp only [Client.prog, Prog.serial]
    have h1 := h.snap ((destCW H).pos s.cw)
    rw [h.tabLen]
    refine ih _ ⟨h1.cw, h1.enc, h1.soFar, h1.last, by simp [h.tabLen], ?_, h1.ftabLen, h1.ftab, h1.ok⟩ hc
    intro i hh idx hi
    dsimp only at hi ⊢
    rcases Nat.lt_or_ge i st.tab.length with hlt | hge
    · rw [List.getElem?_append_left hlt] at hi
      obtain ⟨p, h2, h3⟩ := h1.tab i hh idx hi
      exact ⟨p, h2, getElem?_snoc h3⟩
    · rw [List.getElem?_append_right hge] at hi
      have he := List.mem_singleton.1 (List.mem_of_getElem? hi)
      have := (List.getElem?_eq_some_iff.1 hi).1
      simp only [List.length_singleton] at this
      simp only [Prod.mk.injEq] at he
      obtain ⟨rfl, rfl⟩ := he
      refine ⟨(destCW H).pos s.cw, by simp, ?_⟩
      rw [show i = tab.length by rw [← h.tabLen]; omega]
      simp [RW.position, destCW, h.cw, h.enc]
  | getPos i k ih =>
    intro s st w tab nf h hc
    simp only [Client.serial] at hc
    simp only [Client.prog]
    cases hi : st.tab[i]? with
    | none =>
      have : tab[i]? = none := by
        rw [List.getElem?_eq_none_iff] at hi ⊢; rw [← h.tabLen]; exact hi
      rw [this] at hc
      exact ih _ h hc
    | some x =>
      obtain ⟨hh, idx⟩ := x
      obtain ⟨p, h1, h2⟩ := h.tab i hh idx hi
      rw [h2] at hc
      simp only [Prog.serial, h1]
      exact ih _ h hc
  | close a0 =>
    intro s st w tab nf h hc
    simp only [Client.serial, RW.close] at hc
    simp only [Client.prog, closeP]
    split at hc
    · rename_i hw2
      rcases finish_none h hw2 with h1 | ⟨s', st', d, h1, h2⟩
      · exact h1
      · rw [h1]; simp only [Prog.serial, h2]
    · cases hc

/-- Success with the serial worker is success with the serial writer. -/
theorem start_some (c : Client α) {contents : Bytes} {f : Ser Dest × α}
    (hs : (c.start E H o (initPos contents.length).2).serial (destCW H)
        ⟨⟨contents ++ (initPos contents.length).1, (initPos contents.length).2, 0⟩, [], []⟩ = some f) :
    ∃ w0 w', RW.init E H o contents = some w0 ∧ c.serial E H o w0 [] 0 = some (w', f.2) ∧
      f.1.cw = ⟨w'.out, w'.pos, w'.flushed⟩ := by
  have hrel : WRel Eq ⟨⟨contents ++ (initPos contents.length).1, (initPos contents.length).2, 0⟩, [], []⟩
      (⟨E.empty, 0, .invalid, [], [], false⟩ : CL σ)
      (⟨contents ++ (initPos contents.length).1, (initPos contents.length).2, E.empty, 0, .invalid, 0⟩ : RW σ) [] 0 :=
    ⟨rfl, rfl, rfl, trivial, rfl, by simp, rfl, by simp, rfl⟩
  cases h0 : RW.init E H o contents with
  | none =>
    exfalso
    unfold RW.init at h0
    unfold Client.start at hs
    dsimp only at h0 hs
    split at h0
    · rename_i hz
      rw [if_pos hz] at hs
      unfold RW.putHeader at h0
      split at h0
      · rename_i hput
        obtain ⟨d, h1⟩ := putChunk_none hrel hput
        simp only [Prog.serial, Src.result, h1] at hs
        cases hs
      · rename_i w1 hput
        obtain ⟨d, h1, h2⟩ := putChunk_serial hrel hput
        simp only [Prog.serial, Src.result, h1, ↓reduceIte] at hs
        split at h0
        · cases h0
        · rename_i data dec hm
          simp only [hm, Prog.serial, Src.result] at hs
          split at h0
          · rename_i hlen
            obtain ⟨d2, h3⟩ := putChunk_none h2 h0
            simp only [hlen, ↓reduceIte] at hs
            simp only at h3
            rw [h3] at hs
            cases hs
          · rename_i hlen
            simp only [hlen, ↓reduceIte] at hs
            cases hs
    · rename_i hz
      rw [if_neg hz] at hs
      obtain ⟨d, h1⟩ := pad_none hrel h0
      simp only [Prog.serial, h1] at hs
      cases hs
  | some w0 =>
    cases hc : c.serial E H o w0 [] 0 with
    | some x =>
      obtain ⟨w', a⟩ := x
      obtain ⟨s', h1, h2⟩ := start_serial (encSim_refl E) c h0 hc
      rw [h1] at hs
      cases hs
      exact ⟨w0, w', rfl, hc, h2⟩
    | none =>
      exfalso
      have hrun : ∀ {s : Ser Dest}, WRel Eq s (⟨E.empty, 0, .invalid, [], [], false⟩ : CL σ) w0 [] 0 →
          (Prog.ok (fun b => c.prog E H o (if b then (⟨E.empty, 0, .invalid, [], [], false⟩ : CL σ) else
            { (⟨E.empty, 0, .invalid, [], [], false⟩ : CL σ) with failed := true }))).serial (destCW H) s = none := by
        intro s h
        exact client_none c h hc
      unfold RW.init at h0
      unfold Client.start at hs
      dsimp only at h0 hs
      split at h0
      · rename_i hz
        rw [if_pos hz] at hs
        unfold RW.putHeader at h0
        split at h0
        · cases h0
        rename_i w1 hw1
        obtain ⟨d, h1, h2⟩ := putChunk_serial hrel hw1
        simp only [Prog.serial, Src.result, h1, ↓reduceIte] at hs
        split at h0
        · rename_i hm
          simp only [Option.some.injEq] at h0
          subst h0
          simp only [hm] at hs
          rw [hrun h2] at hs; cases hs
        · rename_i data dec hm
          split at h0
          · rename_i hlen
            obtain ⟨d2, h3, h4⟩ := putChunk_serial h2 h0
            simp only [hm, Prog.serial, Src.result, hlen, ↓reduceIte] at hs
            simp only at h3
            rw [h3] at hs
            dsimp only at hs
            have := hrun h4
            simp only [Prog.serial, ↓reduceIte] at this
            rw [this] at hs; cases hs
          · cases h0
      · rename_i hz
        rw [if_neg hz] at hs
        obtain ⟨d, h1, h2⟩ := pad_serial hrel h0
        simp only [Prog.serial, h1, if_true] at hs
        have := hrun h2
        simp only [Prog.serial, ↓reduceIte] at this
        rw [this] at hs; cases hs

end
end Riegeli.Par

import Verif.ParallelSim
/-!
# `ParallelWorker` against `SerialWorker`: the converse

As long as the worker is ok and no request will fail, the program has gone the same way as with the serial worker,
whether or not it is going to succeed.
-/
namespace Riegeli.Par
variable {κ α : Type} {W : CW κ} {par : Nat} {junk : Chunk}

/-- The rest of the program leads to `f`. -/
def RestE (W : CW κ) (f : Option (Ser κ × α)) (σ : Ser κ) : Pc α → Prop
  | .run p => p.serial W σ = f
  | .enqChunk src k => (Prog.chunk src k).serial W σ = f
  | .schedule _ _ _ k => (k true).serial W σ = f
  | .enqPad p k => (Prog.pad p k).serial W σ = f
  | .waitAnnotate _ _ => True
  | .setFail _ => True
  | .waitDone a => f = some (σ, a)
  | .closed a _ => f = some (σ, a)

/-- Like `Sim`, for any result of the serial worker. -/
structure SimE (W : CW κ) (w0 : κ) (f : Option (Ser κ × α)) (σ : Ser κ) (s : St κ α) : Prop where
  exec : execAll W w0 s.hist = (σ.cw, true)
  rest : RestE W f σ s.pc
  flen : s.flushes.length = σ.flushes.length
  fval : ∀ n i : Nat, s.hist[n]? = some (.flush i) → σ.flushes[i]? = some (execAll W w0 (s.hist.take (n + 1))).1
  slen : s.snaps.length = σ.snaps.length
  sval : ∀ (h pos : Nat) (acts : List Act), s.snaps[h]? = some (pos, acts) →
    ∃ p, σ.snaps[h]? = some p ∧ foldActs pos acts = some p

theorem SimE.init {w0 : κ} {f : Option (Ser κ × α)} {p : Prog α} (hf : p.serial W ⟨w0, [], []⟩ = f) :
    SimE W w0 f ⟨w0, [], []⟩ (St.init W w0 p) :=
  ⟨rfl, hf, rfl, by simp [St.init], rfl, by simp [St.init]⟩

theorem SimE.of_eq {w0 : κ} {f : Option (Ser κ × α)} {σ : Ser κ} {s s' : St κ α} (h : SimE W w0 f σ s) (h1 : s'.hist = s.hist)
    (h3 : RestE W f σ s'.pc) (h4 : s'.flushes.length = s.flushes.length)
    (h5 : s'.snaps = s.snaps) : SimE W w0 f σ s' :=
  ⟨h1 ▸ h.exec, h3, h4 ▸ h.flen, h1 ▸ h.fval, h5 ▸ h.slen, h5 ▸ h.sval⟩

/-- Enqueuing a request: the serial worker executes it. -/
theorem SimE.enq {w0 : κ} {f : Option (Ser κ × α)} {σ : Ser κ} {s s' : St κ α} {r : Req} {w' : κ} (h : SimE W w0 f σ s)
    (h1 : s'.hist = s.hist ++ [r]) (hx : Req.exec W (σ.cw, true) r = (w', true)) (hr : ∀ i, r ≠ .flush i)
    (h3 : RestE W f { σ with cw := w' } s'.pc)
    (h4 : s'.flushes.length = s.flushes.length)
    (h5 : s'.snaps = s.snaps) : SimE W w0 f { σ with cw := w' } s' := by
  refine ⟨?_, h3, h4 ▸ h.flen, ?_, h5 ▸ h.slen, h5 ▸ h.sval⟩
  · rw [h1, execAll_snoc, h.exec, hx]
  · intro n i hn
    rw [h1] at hn ⊢
    rcases Nat.lt_or_ge n s.hist.length with hlt | hge
    · rw [List.getElem?_append_left hlt] at hn
      rw [List.take_append_of_le_length hlt]
      exact h.fval n i hn
    · rw [List.getElem?_append_right hge] at hn
      cases hj : n - s.hist.length with
      | zero => rw [hj] at hn; simp at hn; exact absurd hn (hr i)
      | succ j => rw [hj] at hn; simp at hn

theorem SimE.step {I : κ → Prop} {G : Chunk → Prop} {Q : Nat → Prop} (hW : W.Lawful I G Q) {w0 : κ} (hI : I w0)
    {f : Option (Ser κ × α)} {σ : Ser κ} {s s' : St κ α} (hi : Inv W w0 s)
    (hp : ProgInv (fun src => ∀ c, src.result = some c → G c) Q s) (h : SimE W w0 f σ s)
    (hok : s.ok = true) (hs : Step W par junk s s') : (execAll W w0 s'.hist).2 = false ∨ s'.ok = false ∨ ∃ σ', SimE W w0 f σ' s' := by
  cases hs with
  | writer hs =>
    obtain ⟨h1, h2, h3, h4, h5⟩ := writer_same hs
    exact .inr (.inr ⟨σ, h.of_eq h2 (h1 ▸ h.rest) h5 h3⟩)
  | task hs =>
    obtain ⟨h1, h2, h3, h4, h5 | h5⟩ := task_same hs
    · exact .inr (.inr ⟨σ, h.of_eq h5 (h1 ▸ h.rest) (by rw [h4]) h2⟩)
    · exact .inr (.inr ⟨_, h.enq h5 (w' := σ.cw) rfl (by simp) (h1 ▸ h.rest) (by rw [h4]) h2⟩)
  | client hs =>
    have hr := h.rest
    cases hs with
    | @chunk src k hpc =>
      rw [hpc] at hr
      exact .inr (.inr ⟨σ, h.of_eq rfl (by simp only [hok, if_true]; exact hr) rfl rfl⟩)
    | @enqChunk src k hpc hcap =>
      rw [hpc] at hr
      simp only [RestE, Prog.serial] at hr
      cases hsr : src.result with
      | none => exact .inl (by simp [St.enqueue, hsr, execAll_snoc, h.exec, Req.exec])
      | some c =>
        simp only [hsr] at hr
        split at hr
        · rename_i w hw
          refine .inr (.inr ⟨_, h.enq (r := .chunk s.chunks.length (some c)) (w' := w) (by simp [St.enqueue]) ?_ (by simp) ?_ rfl rfl⟩)
          · simpa [Req.exec] using hw
          · cases src <;> exact hr
        · rename_i w hw
          exact .inl (by simp [St.enqueue, hsr, execAll_snoc, h.exec, Req.exec, hw])
    | @schedule id check res k hpc =>
      rw [hpc] at hr
      exact .inr (.inr ⟨σ, h.of_eq rfl hr rfl rfl⟩)
    | @pad p k hpc =>
      rw [hpc] at hr
      exact .inr (.inr ⟨σ, h.of_eq rfl (by simp only [hok, if_true]; exact hr) rfl rfl⟩)
    | @enqPad p k hpc hcap =>
      rw [hpc] at hr
      simp only [RestE, Prog.serial] at hr
      split at hr
      · rename_i w hw
        exact .inr (.inr ⟨_, h.enq (r := .pad p) (w' := w) rfl (by simpa [Req.exec] using hw) (by simp) hr rfl rfl⟩)
      · rename_i w hw
        exact .inl (by simp [St.enqueue, execAll_snoc, h.exec, Req.exec, hw])
    | @futureFlush k hpc hcap =>
      rw [hpc] at hr
      simp only [RestE, Prog.serial] at hr
      split at hr
      · rename_i w hw
        have hx : execAll W w0 (s.hist ++ [Req.flush s.flushes.length]) = (w, true) := by
          rw [execAll_snoc, h.exec]; simpa [Req.exec] using hw
        refine .inr (.inr ⟨⟨w, σ.snaps, σ.flushes ++ [w]⟩, hx, ?_, ?_, ?_, h.slen, h.sval⟩)
        · simp only [RestE, St.enqueue]; rw [h.flen]; exact hr
        · simp [h.flen]
        · intro n i hn
          simp only [St.enqueue] at hn ⊢
          rcases Nat.lt_or_ge n s.hist.length with hlt | hge
          · rw [List.getElem?_append_left hlt] at hn
            rw [List.take_append_of_le_length hlt]
            exact getElem?_snoc (h.fval n i hn)
          · rw [List.getElem?_append_right hge] at hn
            cases hj : n - s.hist.length with
            | zero =>
              rw [hj] at hn
              simp only [List.getElem?_cons_zero, Option.some.injEq, Req.flush.injEq] at hn
              subst hn
              have : n = s.hist.length := by omega
              subst this
              rw [List.take_of_length_le (by simp), hx, h.flen]; simp
            | succ j => rw [hj] at hn; simp at hn
      · rename_i w hw
        exact .inl (by simp [St.enqueue, execAll_snoc, h.exec, Req.exec, hw])
    | @getFlush i k b w hpc hb =>
      rw [hpc] at hr
      have hb1 : b = true := by
        cases b with
        | true => rfl
        | false => rw [hi.notFlushed i w hb] at hok; cases hok
      have hlt : i < σ.flushes.length := by
        rw [← h.flen]; exact (List.getElem?_eq_some_iff.1 hb).1
      simp only [RestE, Prog.serial, hlt, decide_true] at hr
      exact .inr (.inr ⟨σ, h.of_eq rfl (by rw [hb1]; exact hr) rfl rfl⟩)
    | @getNoFlush i k hpc hb =>
      rw [hpc] at hr
      have hlt : ¬ i < σ.flushes.length := by
        rw [← h.flen]; simpa using hb
      simp only [RestE, Prog.serial, hlt, decide_false] at hr
      exact .inr (.inr ⟨σ, h.of_eq rfl hr rfl rfl⟩)
    | @chunkBegin k hpc =>
      rw [hpc] at hr
      simp only [RestE, Prog.serial] at hr
      refine .inr (.inr ⟨⟨σ.cw, σ.snaps ++ [W.pos σ.cw], σ.flushes⟩, h.exec, ?_, h.flen, h.fval, ?_, ?_⟩)
      · simp only [RestE]; rw [h.slen]; exact hr
      · simp [h.slen]
      · intro i pos acts hi'
        simp only at hi'
        rcases Nat.lt_or_ge i s.snaps.length with hlt | hge
        · rw [List.getElem?_append_left hlt] at hi'
          obtain ⟨p, h1, h2⟩ := h.sval i pos acts hi'
          exact ⟨p, getElem?_snoc h1, h2⟩
        · rw [List.getElem?_append_right hge] at hi'
          cases hj : i - s.snaps.length with
          | succ j => rw [hj] at hi'; simp at hi'
          | zero =>
            rw [hj] at hi'
            simp only [List.getElem?_cons_zero, Option.some.injEq, Prod.mk.injEq] at hi'
            obtain ⟨rfl, rfl⟩ := hi'
            refine ⟨W.pos σ.cw, ?_, ?_⟩
            · rw [show i = σ.snaps.length by rw [← h.slen]; omega]; simp
            · rw [hi.posBefore hok]
              have hfull := h.exec
              rw [← List.take_append_drop s.handled s.hist, execAll_append] at hfull
              cases hpre : execAll W w0 (s.hist.take s.handled) with
              | mk wp okp =>
                rw [hpre] at hfull
                have hokp : okp = true := by
                  cases okp with
                  | true => rfl
                  | false => rw [foldl_exec_false] at hfull; simp at hfull
                subst hokp
                have hGa : ∀ id c, Req.chunk id (some c) ∈ s.hist → G c := by
                  intro id c hm
                  obtain ⟨src, h1, h2⟩ := hp.chunk id (some c) hm
                  exact h1 c h2
                have hIp := (foldActs_exec hW (s.hist.take s.handled)
                  (fun id c hm => hGa id c (List.mem_of_mem_take hm))
                  (fun p hm => hp.pad p (List.mem_of_mem_take hm)) w0 wp hI hpre).1
                have := (foldActs_exec hW (s.hist.drop s.handled)
                  (fun id c hm => hGa id c (List.mem_of_mem_drop hm))
                  (fun p hm => hp.pad p (List.mem_of_mem_drop hm)) wp σ.cw hIp hfull).2
                rw [hi.queue]; exact this
    | @getPos i k p hpc hb =>
      rw [hpc] at hr
      simp only [RestE, Prog.serial] at hr
      unfold St.position at hb
      cases hsn : s.snaps[i]? with
      | none => simp [hsn] at hb
      | some x =>
        obtain ⟨pos, acts⟩ := x
        simp only [hsn] at hb
        obtain ⟨q, h1, h2⟩ := h.sval i pos acts hsn
        have : p = q := by
          refine resolve_eq acts ?_ pos p q hb h2
          intro id res hm
          obtain ⟨r, h3, h4⟩ := hp.snaps pos acts (List.mem_of_getElem? hsn) _ hm
          cases r <;> simp only [Req.act, Option.some.injEq, Act.chunk.injEq, reduceCtorEq] at h4
          obtain ⟨rfl, rfl⟩ := h4
          obtain ⟨st, h5, h6⟩ := hi.chunks _ _ h3
          exact ⟨st, h5, hok ▸ h6⟩
        subst this
        rw [h1] at hr
        exact .inr (.inr ⟨σ, h.of_eq rfl hr rfl rfl⟩)
    | @getNoPos i k hpc hb =>
      rw [hpc] at hr
      simp only [RestE, Prog.serial] at hr
      have : σ.snaps[i]? = none := by
        rw [List.getElem?_eq_none_iff] at hb ⊢
        rw [← h.slen]; exact hb
      rw [this] at hr
      exact .inr (.inr ⟨σ, h.of_eq rfl hr rfl rfl⟩)
    | @ok k hpc =>
      rw [hpc] at hr
      exact .inr (.inr ⟨σ, h.of_eq rfl (by simp only [hok]; exact hr) rfl rfl⟩)
    | @fail k hpc hcap => exact .inr (.inr ⟨_, h.enq (r := .annotate s.annots.length) (w' := σ.cw) rfl rfl (by simp) trivial rfl rfl⟩)
    | @answer a k hpc ha => exact .inr (.inr ⟨σ, h.of_eq rfl trivial rfl rfl⟩)
    | @setFail k hpc => exact .inr (.inl rfl)
    | @close a hpc =>
      rw [hpc] at hr
      simp only [RestE, Prog.serial, Option.some.injEq] at hr
      exact .inr (.inr ⟨_, h.enq (r := .done) (w' := σ.cw) rfl rfl (by simp) hr.symm rfl rfl⟩)
    | @closed a hpc hd =>
      rw [hpc] at hr
      exact .inr (.inr ⟨σ, h.of_eq rfl hr rfl rfl⟩)


theorem step_hist {s s' : St κ α} (hs : Step W par junk s s') : s.hist <+: s'.hist := by
  cases hs with
  | writer hs => rw [(writer_same hs).2.1]; exact List.prefix_refl _
  | task hs =>
    rcases (task_same hs).2.2.2.2 with h | h <;> rw [h]
    · exact List.prefix_refl _
    · exact List.prefix_append _ _
  | client hs => cases hs <;> first | exact List.prefix_refl _ | exact List.prefix_append _ _

theorem step_ok {s s' : St κ α} (hs : Step W par junk s s') (h : s.ok = false) : s'.ok = false := by
  cases hs with
  | writer hs => cases hs <;> first | exact h | rfl | (simp only [respond_ok]; exact h)
  | task hs => cases hs <;> first | exact h | rfl
  | client hs => cases hs <;> first | exact h | rfl

/-- Either the worker fails, or it is going to fail, or everything has gone as with the serial worker. -/
theorem SimE.reach {I : κ → Prop} {G : Chunk → Prop} {Q : Nat → Prop} (hW : W.Lawful I G Q) {w0 : κ} (hI : I w0)
    {p : Prog α} (hp : p.All (fun src => ∀ c, src.result = some c → G c) Q) {s : St κ α}
    (h : Reach W par junk (St.init W w0 p) s) :
    (execAll W w0 s.hist).2 = false ∨ s.ok = false ∨ ∃ σ, SimE W w0 (p.serial W ⟨w0, [], []⟩) σ s := by
  induction h with
  | refl => exact .inr (.inr ⟨_, SimE.init rfl⟩)
  | @step s s' hr hs ih =>
    rcases ih with h1 | h1 | ⟨σ, h1⟩
    · left
      obtain ⟨t, ht⟩ := step_hist hs
      cases hx : (execAll W w0 s'.hist).2 with
      | false => rfl
      | true => rw [← ht] at hx; rw [execAll_append_true hx] at h1; cases h1
    · exact .inr (.inl (step_ok hs h1))
    · cases hok : s.ok with
      | false => exact .inr (.inl (step_ok hs hok))
      | true => exact h1.step hW hI (Inv.reach hr) (ProgInv.reach hp hr) hok hs

end Riegeli.Par

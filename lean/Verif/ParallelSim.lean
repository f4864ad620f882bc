import Verif.ParallelProofs
/-!
# `ParallelWorker` against `SerialWorker`: simulation, progress, termination
-/
namespace Riegeli.Par
variable {κ α : Type} {W : CW κ} {par : Nat} {junk : Chunk}

/-! ## Properties of the program which hold for what it leaves to be done -/

/-- `Prog.All` for the rest of the program. -/
def Pc.All (G : Src → Prop) (Q : Nat → Prop) : Pc α → Prop
  | .run p => p.All G Q
  | .enqChunk src k => G src ∧ ∀ b, (k b).All G Q
  | .schedule _ _ _ k => ∀ b, (k b).All G Q
  | .enqPad p k => Q p ∧ ∀ b, (k b).All G Q
  | .waitAnnotate _ k => k.All G Q
  | .setFail k => k.All G Q
  | .waitDone _ => True
  | .closed _ _ => True

/-- Requests come from the program. -/
structure ProgInv (G : Src → Prop) (Q : Nat → Prop) (s : St κ α) : Prop where
  pc : s.pc.All G Q
  chunk : ∀ id res, Req.chunk id res ∈ s.hist → ∃ src, G src ∧ src.result = res
  pad : ∀ p, Req.pad p ∈ s.hist → Q p
  snaps : ∀ pos acts, (pos, acts) ∈ s.snaps → ∀ a ∈ acts, ∃ r ∈ s.hist, r.act = some a

theorem ProgInv.of_eq {G : Src → Prop} {Q : Nat → Prop} {s s' : St κ α} (h : ProgInv G Q s) (h1 : s'.pc = s.pc)
    (h2 : s'.hist = s.hist) (h3 : s'.snaps = s.snaps) : ProgInv G Q s' :=
  ⟨h1 ▸ h.pc, h2 ▸ h.chunk, h2 ▸ h.pad, h2 ▸ h3 ▸ h.snaps⟩

theorem ProgInv.enq {G : Src → Prop} {Q : Nat → Prop} {s s' : St κ α} {r : Req} (h : ProgInv G Q s) (h1 : s'.pc.All G Q)
    (h2 : s'.hist = s.hist ++ [r]) (h3 : s'.snaps = s.snaps)
    (hc : ∀ id res, r = .chunk id res → ∃ src, G src ∧ src.result = res) (hp : ∀ p, r = .pad p → Q p) : ProgInv G Q s' := by
  refine ⟨h1, ?_, ?_, ?_⟩
  · intro id res hm
    rw [h2] at hm
    rcases List.mem_append.1 hm with hm | hm
    · exact h.chunk id res hm
    · exact hc id res (List.mem_singleton.1 hm).symm
  · intro p hm
    rw [h2] at hm
    rcases List.mem_append.1 hm with hm | hm
    · exact h.pad p hm
    · exact hp p (List.mem_singleton.1 hm).symm
  · intro pos acts hm a ha
    rw [h3] at hm
    obtain ⟨r, h4, h5⟩ := h.snaps pos acts hm a ha
    exact ⟨r, by rw [h2]; exact List.mem_append_left _ h4, h5⟩

theorem writer_same {s s' : St κ α} (hs : WStep W s s') : s'.pc = s.pc ∧ s'.hist = s.hist ∧ s'.snaps = s.snaps ∧
    s'.clientFailed = s.clientFailed ∧ s'.flushes.length = s.flushes.length := by
  cases hs <;> simp [respond_flushes_length]

theorem task_same {s s' : St κ α} (hs : TStep par junk s s') : s'.pc = s.pc ∧ s'.snaps = s.snaps ∧
    s'.clientFailed = s.clientFailed ∧ s'.flushes = s.flushes ∧
    (s'.hist = s.hist ∨ s'.hist = s.hist ++ [.annotate s.annots.length]) := by
  cases hs <;> simp [St.enqueue]

theorem ProgInv.step {w0 : κ} {G : Src → Prop} {Q : Nat → Prop} {s s' : St κ α} (hi : Inv W w0 s) (h : ProgInv G Q s)
    (hs : Step W par junk s s') : ProgInv G Q s' := by
  cases hs with
  | writer hs =>
    obtain ⟨h1, h2, h3, _⟩ := writer_same hs
    exact h.of_eq h1 h2 h3
  | task hs =>
    obtain ⟨h1, h2, h3, h4, h5 | h5⟩ := task_same hs
    · exact h.of_eq h1 h5 h2
    · exact h.enq (h1 ▸ h.pc) h5 h2 (by simp) (by simp)
  | client hs =>
    have hpc := h.pc
    cases hs with
    | @chunk src k hp =>
      rw [hp] at hpc
      exact ⟨by simp only; split <;> first | exact hpc | exact hpc.2 _, h.chunk, h.pad, h.snaps⟩
    | @enqChunk src k hp hcap =>
      rw [hp] at hpc
      refine h.enq (r := .chunk s.chunks.length src.result) ?_ rfl rfl ?_ (by simp)
      · cases src <;> first | exact hpc.2 _ | exact hpc.2
      · intro id res he
        simp only [Req.chunk.injEq] at he
        exact ⟨src, hpc.1, he.2⟩
    | @schedule id check res k hp =>
      rw [hp] at hpc
      exact ⟨hpc _, h.chunk, h.pad, h.snaps⟩
    | @pad p k hp =>
      rw [hp] at hpc
      exact ⟨by simp only; split <;> first | exact hpc | exact hpc.2 _, h.chunk, h.pad, h.snaps⟩
    | @enqPad p k hp hcap =>
      rw [hp] at hpc
      exact h.enq (r := .pad p) (hpc.2 _) rfl rfl (by simp) (by intro q hq; cases hq; exact hpc.1)
    | @futureFlush k hp hcap =>
      rw [hp] at hpc
      exact h.enq (r := .flush s.flushes.length) (hpc _) rfl rfl (by simp) (by simp)
    | @getFlush i k b w hp hb => rw [hp] at hpc; exact ⟨hpc _, h.chunk, h.pad, h.snaps⟩
    | @getNoFlush i k hp hb => rw [hp] at hpc; exact ⟨hpc _, h.chunk, h.pad, h.snaps⟩
    | @chunkBegin k hp =>
      rw [hp] at hpc
      refine ⟨hpc _, h.chunk, h.pad, ?_⟩
      intro pos acts hm a ha
      simp only [List.mem_append, List.mem_singleton, Prod.mk.injEq] at hm
      rcases hm with hm | ⟨rfl, rfl⟩
      · exact h.snaps pos acts hm a ha
      · rw [List.mem_filterMap] at ha
        obtain ⟨r, h1, h2⟩ := ha
        rw [hi.queue] at h1
        exact ⟨r, List.mem_of_mem_drop h1, h2⟩
    | @getPos i k p hp hb => rw [hp] at hpc; exact ⟨hpc _, h.chunk, h.pad, h.snaps⟩
    | @getNoPos i k hp hb => rw [hp] at hpc; exact ⟨hpc _, h.chunk, h.pad, h.snaps⟩
    | @ok k hp => rw [hp] at hpc; exact ⟨hpc _, h.chunk, h.pad, h.snaps⟩
    | @fail k hp hcap =>
      rw [hp] at hpc
      exact h.enq (r := .annotate s.annots.length) hpc rfl rfl (by simp) (by simp)
    | @answer a k hp ha => rw [hp] at hpc; exact ⟨hpc, h.chunk, h.pad, h.snaps⟩
    | @setFail k hp => rw [hp] at hpc; exact ⟨hpc, h.chunk, h.pad, h.snaps⟩
    | @close a hp => exact h.enq (r := .done) trivial rfl rfl (by simp) (by simp)
    | @closed a hp hd => exact ⟨trivial, h.chunk, h.pad, h.snaps⟩

theorem ProgInv.reach {w0 : κ} {G : Src → Prop} {Q : Nat → Prop} {p : Prog α} {s : St κ α} (hp : p.All G Q)
    (h : Reach W par junk (St.init W w0 p) s) : ProgInv G Q s := by
  induction h with
  | refl => exact ⟨hp, by simp [St.init], by simp [St.init], by simp [St.init]⟩
  | step hr hs ih => exact ih.step (Inv.reach hr) hs

/-! ## Positions -/

/-- Where the actions lead, if every chunk is the intended one. -/
def foldActs : Nat → List Act → Option Nat
  | pos, [] => some pos
  | _, .chunk _ none :: _ => none
  | pos, .chunk _ (some c) :: acts => foldActs (chunkEnd (Hdr.dataSize c.header) (Hdr.numRecords c.header) pos) acts
  | pos, .pad p :: acts =>
    match posAfterPadding pos p with
    | none => none
    | some pos => foldActs pos acts

/-- What the positions reported by the parallel worker rely on ("Matches `ChunkWriter::PosAfterWriteChunk()`",
`record_position.cc:124`): a chunk writer in a state satisfying `I`, given chunks satisfying `G` and paddings satisfying
`Q`, moves as `ChunkEnd` and `PosAfterPadding` tell. -/
structure CW.Lawful (W : CW κ) (I : κ → Prop) (G : Chunk → Prop) (Q : Nat → Prop) : Prop where
  write : ∀ c w w', I w → G c → W.write c w = (w', true) →
    I w' ∧ W.pos w' = chunkEnd (Hdr.dataSize c.header) (Hdr.numRecords c.header) (W.pos w)
  pad : ∀ p w w', I w → Q p → W.pad p w = (w', true) → I w' ∧ posAfterPadding (W.pos w) p = some (W.pos w')
  flush : ∀ w w', I w → W.flush w = (w', true) → I w' ∧ W.pos w' = W.pos w

theorem foldActs_exec {I : κ → Prop} {G : Chunk → Prop} {Q : Nat → Prop} (hW : W.Lawful I G Q) (rs : List Req)
    (hG : ∀ id c, Req.chunk id (some c) ∈ rs → G c) (hQ : ∀ p, Req.pad p ∈ rs → Q p) :
    ∀ w w', I w → rs.foldl (Req.exec W) (w, true) = (w', true) →
      I w' ∧ foldActs (W.pos w) (rs.filterMap Req.act) = some (W.pos w') := by
  induction rs with
  | nil =>
    intro w w' hI h
    simp only [List.foldl_nil, Prod.mk.injEq, and_true] at h
    subst h; exact ⟨hI, rfl⟩
  | cons r rs ih =>
    intro w w' hI h
    have ih := ih (fun id c hm => hG id c (List.mem_cons_of_mem _ hm)) (fun p hm => hQ p (List.mem_cons_of_mem _ hm))
    rw [List.foldl_cons] at h
    cases hx : Req.exec W (w, true) r with
    | mk w1 ok =>
      rw [hx] at h
      cases ok with
      | false => rw [foldl_exec_false] at h; simp at h
      | true =>
        simp only [Req.exec, ↓reduceIte] at hx
        cases r with
        | chunk id res =>
          cases res with
          | none => simp at hx
          | some c =>
            obtain ⟨h1, h2⟩ := hW.write c w w1 hI (hG id c (by simp)) hx
            obtain ⟨h3, h4⟩ := ih w1 w' h1 h
            refine ⟨h3, ?_⟩
            simp only [List.filterMap_cons, Req.act, foldActs]
            rw [← h2]; exact h4
        | pad p =>
          obtain ⟨h1, h2⟩ := hW.pad p w w1 hI (hQ p (by simp)) hx
          obtain ⟨h3, h4⟩ := ih w1 w' h1 h
          refine ⟨h3, ?_⟩
          simp only [List.filterMap_cons, Req.act, foldActs]
          rw [h2]; exact h4
        | flush i =>
          obtain ⟨h1, h2⟩ := hW.flush w w1 hI hx
          obtain ⟨h3, h4⟩ := ih w1 w' h1 h
          refine ⟨h3, ?_⟩
          simp only [List.filterMap_cons, Req.act]
          rw [← h2]; exact h4
        | annotate a =>
          simp only [Prod.mk.injEq, and_true] at hx
          subst hx
          rw [List.filterMap_cons_none rfl]; exact ih w w' hI h
        | done =>
          simp only [Prod.mk.injEq, and_true] at hx
          subst hx
          rw [List.filterMap_cons_none rfl]; exact ih w w' hI h

/-- As long as the worker is ok, resolving a position gives where the intended chunks lead. -/
theorem resolve_eq {chunks : List CSt} (acts : List Act)
    (h : ∀ id res, Act.chunk id res ∈ acts → ∃ st, chunks[id]? = some st ∧ Match true res st) :
    ∀ pos p q, resolve chunks pos acts = some p → foldActs pos acts = some q → p = q := by
  induction acts with
  | nil => intro pos p q h1 h2; simp only [resolve, foldActs, Option.some.injEq] at h1 h2; omega
  | cons a acts ih =>
    have ih := ih (fun id res hm => h id res (List.mem_cons_of_mem _ hm))
    intro pos p q h1 h2
    cases a with
    | chunk id res =>
      obtain ⟨st, h3, h4⟩ := h id res (by simp)
      cases res with
      | none => simp [foldActs] at h2
      | some c =>
        simp only [resolve, h3, Option.bind_some] at h1
        simp only [foldActs] at h2
        cases st with
        | headerSet c' =>
          simp only [Match, Option.some.injEq, Bool.true_eq_false, or_false] at h4
          subst h4
          exact ih _ p q h1 h2
        | ready c' =>
          simp only [Match, Option.some.injEq, Bool.true_eq_false, or_false] at h4
          subst h4
          exact ih _ p q h1 h2
        | _ => simp [CSt.header] at h1
    | pad x =>
      simp only [resolve, foldActs] at h1 h2
      cases hx : posAfterPadding pos x with
      | none => simp [hx] at h1
      | some y => simp only [hx] at h1 h2; exact ih _ p q h1 h2

/-! ## Simulation -/

/-- The rest of the program leads to `f`. -/
def Rest (W : CW κ) (f : Ser κ × α) (σ : Ser κ) : Pc α → Prop
  | .run p => p.serial W σ = some f
  | .enqChunk src k => (Prog.chunk src k).serial W σ = some f
  | .schedule _ _ _ k => (k true).serial W σ = some f
  | .enqPad p k => (Prog.pad p k).serial W σ = some f
  | .waitAnnotate _ _ => False
  | .setFail _ => False
  | .waitDone a => f = (σ, a)
  | .closed a _ => f = (σ, a)

/-- The serial worker with which the state corresponds: the one which has executed all requests made so far. -/
structure Sim (W : CW κ) (w0 : κ) (f : Ser κ × α) (σ : Ser κ) (s : St κ α) : Prop where
  exec : execAll W w0 s.hist = (σ.cw, true)
  nofail : s.clientFailed = false
  rest : Rest W f σ s.pc
  flen : s.flushes.length = σ.flushes.length
  fval : ∀ n i : Nat, s.hist[n]? = some (.flush i) → σ.flushes[i]? = some (execAll W w0 (s.hist.take (n + 1))).1
  slen : s.snaps.length = σ.snaps.length
  sval : ∀ (h pos : Nat) (acts : List Act), s.snaps[h]? = some (pos, acts) →
    ∃ p, σ.snaps[h]? = some p ∧ foldActs pos acts = some p

theorem Sim.ok {w0 : κ} {f : Ser κ × α} {σ : Ser κ} {s : St κ α} (hi : Inv W w0 s) (h : Sim W w0 f σ s) : s.ok = true := by
  cases ho : s.ok with
  | true => rfl
  | false =>
    rcases hi.failed ho with h1 | h1
    · rw [h.nofail] at h1; cases h1
    · rw [h.exec] at h1; cases h1

theorem Sim.init {w0 : κ} {f : Ser κ × α} {p : Prog α} (hf : p.serial W ⟨w0, [], []⟩ = some f) :
    Sim W w0 f ⟨w0, [], []⟩ (St.init W w0 p) :=
  ⟨rfl, rfl, hf, rfl, by simp [St.init], rfl, by simp [St.init]⟩

theorem Sim.of_eq {w0 : κ} {f : Ser κ × α} {σ : Ser κ} {s s' : St κ α} (h : Sim W w0 f σ s) (h1 : s'.hist = s.hist)
    (h2 : s'.clientFailed = s.clientFailed) (h3 : Rest W f σ s'.pc) (h4 : s'.flushes.length = s.flushes.length)
    (h5 : s'.snaps = s.snaps) : Sim W w0 f σ s' :=
  ⟨h1 ▸ h.exec, h2 ▸ h.nofail, h3, h4 ▸ h.flen, h1 ▸ h.fval, h5 ▸ h.slen, h5 ▸ h.sval⟩

/-- Enqueuing a request: the serial worker executes it. -/
theorem Sim.enq {w0 : κ} {f : Ser κ × α} {σ : Ser κ} {s s' : St κ α} {r : Req} {w' : κ} (h : Sim W w0 f σ s)
    (h1 : s'.hist = s.hist ++ [r]) (hx : Req.exec W (σ.cw, true) r = (w', true)) (hr : ∀ i, r ≠ .flush i)
    (h2 : s'.clientFailed = s.clientFailed) (h3 : Rest W f { σ with cw := w' } s'.pc)
    (h4 : s'.flushes.length = s.flushes.length)
    (h5 : s'.snaps = s.snaps) : Sim W w0 f { σ with cw := w' } s' := by
  refine ⟨?_, h2 ▸ h.nofail, h3, h4 ▸ h.flen, ?_, h5 ▸ h.slen, h5 ▸ h.sval⟩
  · rw [h1, execAll_snoc, h.exec, hx]
  · intro n i hn
    rw [h1] at hn ⊢
    rcases Nat.lt_or_ge n s.hist.length with hlt | hge
    · rw [List.getElem?_append_left hlt] at hn
      rw [List.take_append_of_le_length hlt]
      exact h.fval n i hn
    · rw [List.getElem?_append_right hge] at hn
      cases hj : n - s.hist.length with
      | zero => rw [hj] at hn; simp at hn; exact absurd hn (hr i)
      | succ j => rw [hj] at hn; simp at hn

theorem Sim.step {I : κ → Prop} {G : Chunk → Prop} {Q : Nat → Prop} (hW : W.Lawful I G Q) {w0 : κ} (hI : I w0)
    {f : Ser κ × α} {σ : Ser κ} {s s' : St κ α} (hi : Inv W w0 s)
    (hp : ProgInv (fun src => ∀ c, src.result = some c → G c) Q s) (h : Sim W w0 f σ s)
    (hs : Step W par junk s s') : ∃ σ', Sim W w0 f σ' s' := by
  have hok := h.ok hi
  cases hs with
  | writer hs =>
    obtain ⟨h1, h2, h3, h4, h5⟩ := writer_same hs
    exact ⟨σ, h.of_eq h2 h4 (h1 ▸ h.rest) h5 h3⟩
  | task hs =>
    obtain ⟨h1, h2, h3, h4, h5 | h5⟩ := task_same hs
    · exact ⟨σ, h.of_eq h5 h3 (h1 ▸ h.rest) (by rw [h4]) h2⟩
    · exact ⟨_, h.enq h5 (w' := σ.cw) rfl (by simp) h3 (h1 ▸ h.rest) (by rw [h4]) h2⟩
  | client hs =>
    have hr := h.rest
    cases hs with
    | @chunk src k hpc =>
      rw [hpc] at hr
      exact ⟨σ, h.of_eq rfl rfl (by simp only [hok, if_true]; exact hr) rfl rfl⟩
    | @enqChunk src k hpc hcap =>
      rw [hpc] at hr
      simp only [Rest, Prog.serial] at hr
      cases hsr : src.result with
      | none => simp [hsr] at hr
      | some c =>
        simp only [hsr] at hr
        split at hr
        · rename_i w hw
          refine ⟨_, h.enq (r := .chunk s.chunks.length (some c)) (w' := w) (by simp [St.enqueue]) ?_ (by simp) rfl ?_ rfl rfl⟩
          · simpa [Req.exec] using hw
          · cases src <;> exact hr
        · cases hr
    | @schedule id check res k hpc =>
      rw [hpc] at hr
      exact ⟨σ, h.of_eq rfl rfl hr rfl rfl⟩
    | @pad p k hpc =>
      rw [hpc] at hr
      exact ⟨σ, h.of_eq rfl rfl (by simp only [hok, if_true]; exact hr) rfl rfl⟩
    | @enqPad p k hpc hcap =>
      rw [hpc] at hr
      simp only [Rest, Prog.serial] at hr
      split at hr
      · rename_i w hw
        exact ⟨_, h.enq (r := .pad p) (w' := w) rfl (by simpa [Req.exec] using hw) (by simp) rfl hr rfl rfl⟩
      · cases hr
    | @futureFlush k hpc hcap =>
      rw [hpc] at hr
      simp only [Rest, Prog.serial] at hr
      split at hr
      · rename_i w hw
        have hx : execAll W w0 (s.hist ++ [Req.flush s.flushes.length]) = (w, true) := by
          rw [execAll_snoc, h.exec]; simpa [Req.exec] using hw
        refine ⟨⟨w, σ.snaps, σ.flushes ++ [w]⟩, hx, h.nofail, ?_, ?_, ?_, h.slen, h.sval⟩
        · simp only [Rest, St.enqueue]; rw [h.flen]; exact hr
        · simp [h.flen]
        · intro n i hn
          simp only [St.enqueue] at hn ⊢
          rcases Nat.lt_or_ge n s.hist.length with hlt | hge
          · rw [List.getElem?_append_left hlt] at hn
            rw [List.take_append_of_le_length hlt]
            exact getElem?_snoc (h.fval n i hn)
          · rw [List.getElem?_append_right hge] at hn
            cases hj : n - s.hist.length with
            | zero =>
              rw [hj] at hn
              simp only [List.getElem?_cons_zero, Option.some.injEq, Req.flush.injEq] at hn
              subst hn
              have : n = s.hist.length := by omega
              subst this
              rw [List.take_of_length_le (by simp), hx, h.flen]; simp
            | succ j => rw [hj] at hn; simp at hn
      · cases hr
    | @getFlush i k b w hpc hb =>
      rw [hpc] at hr
      have hb1 : b = true := by
        cases b with
        | true => rfl
        | false => rw [hi.notFlushed i w hb] at hok; cases hok
      have hlt : i < σ.flushes.length := by
        rw [← h.flen]; exact (List.getElem?_eq_some_iff.1 hb).1
      simp only [Rest, Prog.serial, hlt, decide_true] at hr
      exact ⟨σ, h.of_eq rfl rfl (by rw [hb1]; exact hr) rfl rfl⟩
    | @getNoFlush i k hpc hb =>
      rw [hpc] at hr
      have hlt : ¬ i < σ.flushes.length := by
        rw [← h.flen]; simpa using hb
      simp only [Rest, Prog.serial, hlt, decide_false] at hr
      exact ⟨σ, h.of_eq rfl rfl hr rfl rfl⟩
    | @chunkBegin k hpc =>
      rw [hpc] at hr
      simp only [Rest, Prog.serial] at hr
      refine ⟨⟨σ.cw, σ.snaps ++ [W.pos σ.cw], σ.flushes⟩, h.exec, h.nofail, ?_, h.flen, h.fval, ?_, ?_⟩
      · simp only [Rest]; rw [h.slen]; exact hr
      · simp [h.slen]
      · intro i pos acts hi'
        simp only at hi'
        rcases Nat.lt_or_ge i s.snaps.length with hlt | hge
        · rw [List.getElem?_append_left hlt] at hi'
          obtain ⟨p, h1, h2⟩ := h.sval i pos acts hi'
          exact ⟨p, getElem?_snoc h1, h2⟩
        · rw [List.getElem?_append_right hge] at hi'
          cases hj : i - s.snaps.length with
          | succ j => rw [hj] at hi'; simp at hi'
          | zero =>
            rw [hj] at hi'
            simp only [List.getElem?_cons_zero, Option.some.injEq, Prod.mk.injEq] at hi'
            obtain ⟨rfl, rfl⟩ := hi'
            refine ⟨W.pos σ.cw, ?_, ?_⟩
            · rw [show i = σ.snaps.length by rw [← h.slen]; omega]; simp
            · rw [hi.posBefore hok]
              have hfull := h.exec
              rw [← List.take_append_drop s.handled s.hist, execAll_append] at hfull
              cases hpre : execAll W w0 (s.hist.take s.handled) with
              | mk wp okp =>
                rw [hpre] at hfull
                have hokp : okp = true := by
                  cases okp with
                  | true => rfl
                  | false => rw [foldl_exec_false] at hfull; simp at hfull
                subst hokp
                have hGa : ∀ id c, Req.chunk id (some c) ∈ s.hist → G c := by
                  intro id c hm
                  obtain ⟨src, h1, h2⟩ := hp.chunk id (some c) hm
                  exact h1 c h2
                have hIp := (foldActs_exec hW (s.hist.take s.handled)
                  (fun id c hm => hGa id c (List.mem_of_mem_take hm))
                  (fun p hm => hp.pad p (List.mem_of_mem_take hm)) w0 wp hI hpre).1
                have := (foldActs_exec hW (s.hist.drop s.handled)
                  (fun id c hm => hGa id c (List.mem_of_mem_drop hm))
                  (fun p hm => hp.pad p (List.mem_of_mem_drop hm)) wp σ.cw hIp hfull).2
                rw [hi.queue]; exact this
    | @getPos i k p hpc hb =>
      rw [hpc] at hr
      simp only [Rest, Prog.serial] at hr
      unfold St.position at hb
      cases hsn : s.snaps[i]? with
      | none => simp [hsn] at hb
      | some x =>
        obtain ⟨pos, acts⟩ := x
        simp only [hsn] at hb
        obtain ⟨q, h1, h2⟩ := h.sval i pos acts hsn
        have : p = q := by
          refine resolve_eq acts ?_ pos p q hb h2
          intro id res hm
          obtain ⟨r, h3, h4⟩ := hp.snaps pos acts (List.mem_of_getElem? hsn) _ hm
          cases r <;> simp only [Req.act, Option.some.injEq, Act.chunk.injEq, reduceCtorEq] at h4
          obtain ⟨rfl, rfl⟩ := h4
          obtain ⟨st, h5, h6⟩ := hi.chunks _ _ h3
          exact ⟨st, h5, hok ▸ h6⟩
        subst this
        rw [h1] at hr
        exact ⟨σ, h.of_eq rfl rfl hr rfl rfl⟩
    | @getNoPos i k hpc hb =>
      rw [hpc] at hr
      simp only [Rest, Prog.serial] at hr
      have : σ.snaps[i]? = none := by
        rw [List.getElem?_eq_none_iff] at hb ⊢
        rw [← h.slen]; exact hb
      rw [this] at hr
      exact ⟨σ, h.of_eq rfl rfl hr rfl rfl⟩
    | @ok k hpc =>
      rw [hpc] at hr
      exact ⟨σ, h.of_eq rfl rfl (by simp only [hok]; exact hr) rfl rfl⟩
    | @fail k hpc hcap => rw [hpc] at hr; cases hr
    | @answer a k hpc ha => rw [hpc] at hr; cases hr
    | @setFail k hpc => rw [hpc] at hr; cases hr
    | @close a hpc =>
      rw [hpc] at hr
      simp only [Rest, Prog.serial, Option.some.injEq] at hr
      exact ⟨_, h.enq (r := .done) (w' := σ.cw) rfl rfl (by simp) rfl hr.symm rfl rfl⟩
    | @closed a hpc hd =>
      rw [hpc] at hr
      exact ⟨σ, h.of_eq rfl rfl hr rfl rfl⟩

theorem Sim.reach {I : κ → Prop} {G : Chunk → Prop} {Q : Nat → Prop} (hW : W.Lawful I G Q) {w0 : κ} (hI : I w0)
    {p : Prog α} (hp : p.All (fun src => ∀ c, src.result = some c → G c) Q)
    {f : Ser κ × α} (hf : p.serial W ⟨w0, [], []⟩ = some f) {s : St κ α}
    (h : Reach W par junk (St.init W w0 p) s) : ∃ σ, Sim W w0 f σ s := by
  induction h with
  | refl => exact ⟨_, Sim.init hf⟩
  | step hr hs ih =>
    obtain ⟨σ, ih⟩ := ih
    exact ih.step hW hI (Inv.reach hr) (ProgInv.reach hp hr) hs

theorem serial_mono (p : Prog α) : ∀ {σ : Ser κ} {f : Ser κ × α}, p.serial W σ = some f →
    σ.snaps <+: f.1.snaps ∧ σ.flushes <+: f.1.flushes := by
  induction p with
  | chunk src k ih =>
    intro σ f h
    simp only [Prog.serial] at h
    split at h
    · cases h
    split at h
    · have := ih _ h
      exact this
    · cases h
  | pad p k ih =>
    intro σ f h
    simp only [Prog.serial] at h
    split at h
    · have := ih _ h
      exact this
    · cases h
  | futureFlush k ih =>
    intro σ f h
    simp only [Prog.serial] at h
    split at h
    · have := ih _ h
      exact ⟨this.1, (List.prefix_append _ _).trans this.2⟩
    · cases h
  | getFlush i k ih => intro σ f h; exact ih _ h
  | chunkBegin k ih =>
    intro σ f h
    have := ih _ h
    exact ⟨(List.prefix_append _ _).trans this.1, this.2⟩
  | getPos i k ih => intro σ f h; exact ih _ h
  | ok k ih => intro σ f h; exact ih _ h
  | fail k ih => intro σ f h; cases h
  | close a => intro σ f h; simp only [Prog.serial, Option.some.injEq] at h; subst h; exact ⟨List.prefix_refl _, List.prefix_refl _⟩

theorem Rest.mono {f : Ser κ × α} {σ : Ser κ} : ∀ {pc : Pc α}, Rest W f σ pc →
    σ.snaps <+: f.1.snaps ∧ σ.flushes <+: f.1.flushes
  | .run _, h => serial_mono _ h
  | .enqChunk _ _, h => serial_mono _ h
  | .schedule _ _ _ _, h => serial_mono _ h
  | .enqPad _ _, h => serial_mono _ h
  | .waitAnnotate _ _, h => h.elim
  | .setFail _, h => h.elim
  | .waitDone _, h => by cases h; exact ⟨List.prefix_refl _, List.prefix_refl _⟩
  | .closed _ _, h => by cases h; exact ⟨List.prefix_refl _, List.prefix_refl _⟩

end Riegeli.Par

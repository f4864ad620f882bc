import Verif.ParallelLive
/-!
# `ParallelWorker` when encoding a chunk fails

The task which encodes the chunk calls `Fail()`, hence `AnnotateStatus()`, which sends a request to the chunk writer thread
and waits for the response. But the chunk writer thread handles requests in order, and it waits for the very chunk.
-/
namespace Riegeli.Par
variable {κ α : Type} {W : CW κ} {par : Nat} {junk : Chunk}

/-- The program, run over a chunk writer in the state `w`, reaches a chunk whose encoding fails, without anything failing
earlier. -/
def Prog.Doomed (W : CW κ) : Prog α → κ → Prop
  | .chunk src k, w =>
    match src.result with
    | none => True
    | some c => ∃ w', W.write c w = (w', true) ∧ (k true).Doomed W w'
  | .pad p k, w => ∃ w', W.pad p w = (w', true) ∧ (k true).Doomed W w'
  | .futureFlush k, w => ∃ w', W.flush w = (w', true) ∧ ∀ h, (k h).Doomed W w'
  | .getFlush _ k, w => ∀ b, (k b).Doomed W w
  | .chunkBegin k, w => ∀ h, (k h).Doomed W w
  | .getPos _ k, w => ∀ p, (k p).Doomed W w
  | .ok k, w => (k true).Doomed W w
  | .fail _, _ => False
  | .close _, _ => False

/-- `Prog.Doomed` for the rest of the program. -/
def Pc.Doomed (W : CW κ) : Pc α → κ → Prop
  | .run p, w => p.Doomed W w
  | .enqChunk src k, w => (Prog.chunk src k).Doomed W w
  | .schedule _ _ _ k, w => (k true).Doomed W w
  | .enqPad p k, w => (Prog.pad p k).Doomed W w
  | .waitAnnotate _ _, _ => False
  | .setFail _, _ => False
  | .waitDone _, _ => False
  | .closed _ _, _ => False

/-- Invariant of schedules of a doomed program. -/
structure Doom (W : CW κ) (w0 : κ) (s : St κ α) : Prop where
  ok : s.ok = true
  wpc : s.wpc ≠ .failing
  chunk : ∀ id : Nat, s.chunks[id]? ≠ some .failing
  annots : ∀ a : Nat, s.annots[a]? ≠ some true
  setFail : ∀ k, s.pc ≠ .setFail k
  order : ∀ n a : Nat, s.hist[n]? = some (.annotate a) → ∃ m, m < n ∧ ∃ id, s.hist[m]? = some (.chunk id none)
  doom : (∃ pre id post, s.hist = pre ++ Req.chunk id none :: post ∧ (execAll W w0 pre).2 = true) ∨
    ∃ w, execAll W w0 s.hist = (w, true) ∧ s.pc.Doomed W w

theorem Doom.init {w0 : κ} {p : Prog α} (h : p.Doomed W w0) : Doom W w0 (St.init W w0 p) :=
  ⟨rfl, by simp [St.init], by simp [St.init], by simp [St.init], by simp [St.init], by simp [St.init],
    .inr ⟨w0, rfl, h⟩⟩

/-- A chunk whose encoding fails is never ready. -/
theorem Doom.notReady {w0 : κ} {s : St κ α} (hi : Inv W w0 s) (h : Doom W w0 s) {n id : Nat}
    (hn : s.hist[n]? = some (.chunk id none)) : ¬ (n < s.handled ∨ n = s.handled ∧ s.wpc.obtained) := by
  intro ho
  obtain ⟨c, hc⟩ := hi.ready n id none hn ho
  obtain ⟨st, h1, h2⟩ := hi.chunks id none (List.mem_of_getElem? hn)
  rw [hc] at h1; cases h1
  rcases h2 with h2 | h2
  · cases h2
  · rw [h.ok] at h2; cases h2

/-- The chunk writer does not fail. -/
theorem Doom.noFail {w0 : κ} {s : St κ α} (hi : Inv W w0 s) (h : Doom W w0 s) (ho : s.wpc.obtained) :
    (execAll W w0 (s.hist.take (s.handled + 1))).2 = true := by
  rcases h.doom with ⟨pre, id, post, h1, h2⟩ | ⟨w, h1, _⟩
  · have hn : s.hist[pre.length]? = some (.chunk id none) := by rw [h1]; simp
    have h3 := h.notReady hi hn
    have hlt : s.handled < pre.length := by
      apply Nat.lt_of_not_le; intro hle
      rcases Nat.lt_or_eq_of_le hle with h4 | h4
      · exact h3 (.inl h4)
      · exact h3 (.inr ⟨h4, ho⟩)
    have h4 : s.hist.take (s.handled + 1) = pre.take (s.handled + 1) := by
      rw [h1, List.take_append_of_le_length (by omega)]
    rw [h4]
    have h5 : (execAll W w0 (pre.take (s.handled + 1) ++ pre.drop (s.handled + 1))).2 = true := by
      rw [List.take_append_drop]; exact h2
    exact execAll_append_true h5
  · have h5 : (execAll W w0 (s.hist.take (s.handled + 1) ++ s.hist.drop (s.handled + 1))).2 = true := by
      rw [List.take_append_drop, h1]
    exact execAll_append_true h5

/-- Steps which enqueue nothing and change nothing important. -/
theorem Doom.same {w0 : κ} {s s' : St κ α} (h : Doom W w0 s) (h1 : s'.ok = s.ok) (h2 : s'.wpc ≠ .failing)
    (h3 : ∀ id : Nat, s'.chunks[id]? ≠ some .failing) (h4 : s'.annots = s.annots) (h5 : ∀ k, s'.pc ≠ .setFail k)
    (h6 : s'.hist = s.hist) (h7 : ∀ w, s.pc.Doomed W w → s'.pc.Doomed W w) : Doom W w0 s' :=
  ⟨h1 ▸ h.ok, h2, h3, h4 ▸ h.annots, h5, h6 ▸ h.order, by
    rw [h6]
    rcases h.doom with h8 | ⟨w, h8, h9⟩
    · exact .inl h8
    · exact .inr ⟨w, h8, h7 w h9⟩⟩

theorem getElem?_snoc_cases {β : Type} {l : List β} {x y : β} {n : Nat} (h : (l ++ [x])[n]? = some y) :
    l[n]? = some y ∨ n = l.length ∧ y = x := by
  rcases Nat.lt_or_ge n l.length with hlt | hge
  · rw [List.getElem?_append_left hlt] at h; exact .inl h
  · have h1 := (List.getElem?_eq_some_iff.1 h).1
    simp only [List.length_append, List.length_singleton] at h1
    rw [List.getElem?_append_right hge] at h
    exact .inr ⟨by omega, List.mem_singleton.1 (List.mem_of_getElem? h)⟩

/-- Enqueuing. -/
theorem Doom.enq {w0 : κ} {s s' : St κ α} {r : Req} (h : Doom W w0 s) (h1 : s'.ok = s.ok) (h2 : s'.wpc = s.wpc)
    (h3 : ∀ id : Nat, s'.chunks[id]? ≠ some .failing) (h4 : s'.annots = s.annots ∨ s'.annots = s.annots ++ [false])
    (h5 : ∀ k, s'.pc ≠ .setFail k) (h6 : s'.hist = s.hist ++ [r])
    (h7 : ∀ w, execAll W w0 s.hist = (w, true) → s.pc.Doomed W w → (∃ id, r = .chunk id none) ∨
      ∃ w', Req.exec W (w, true) r = (w', true) ∧ s'.pc.Doomed W w')
    (h8 : ∀ a, r = .annotate a → ∃ m : Nat, ∃ id, s.hist[m]? = some (.chunk id none)) : Doom W w0 s' := by
  refine ⟨h1 ▸ h.ok, h2 ▸ h.wpc, h3, ?_, h5, ?_, ?_⟩
  · intro a ha
    rcases h4 with h4 | h4 <;> rw [h4] at ha
    · exact h.annots a ha
    · rcases getElem?_snoc_cases ha with h9 | ⟨_, h9⟩
      · exact h.annots a h9
      · cases h9
  · intro n a hn
    rw [h6] at hn
    rcases getElem?_snoc_cases hn with h9 | ⟨h9, h10⟩
    · obtain ⟨m, h11, id, h12⟩ := h.order n a h9
      exact ⟨m, h11, id, by rw [h6]; exact getElem?_snoc h12⟩
    · obtain ⟨m, id, h11⟩ := h8 a h10.symm
      exact ⟨m, by rw [h9]; exact (List.getElem?_eq_some_iff.1 h11).1, id, by rw [h6]; exact getElem?_snoc h11⟩
  · rcases h.doom with ⟨pre, id, post, h9, h10⟩ | ⟨w, h9, h10⟩
    · exact .inl ⟨pre, id, post ++ [r], by rw [h6, h9]; simp, h10⟩
    · rcases h7 w h9 h10 with ⟨id, h11⟩ | ⟨w', h11, h12⟩
      · exact .inl ⟨s.hist, id, [], by rw [h6, h11], by rw [h9]⟩
      · exact .inr ⟨w', by rw [h6, execAll_snoc, h9, h11], h12⟩

theorem set_ne_failing {l : List CSt} (h : ∀ j : Nat, l[j]? ≠ some .failing) {i : Nat} {x : CSt} (hx : x ≠ .failing) :
    ∀ j : Nat, (l.set i x)[j]? ≠ some .failing := by
  intro j hj
  rw [List.getElem?_set] at hj
  split at hj
  · split at hj
    · exact hx (Option.some.inj hj)
    · cases hj
  · exact h j hj

theorem Doom.step {w0 : κ} {s s' : St κ α} (hi : Inv W w0 s) (h : Doom W w0 s) (hs : Step W par junk s s')
    (hi' : Inv W w0 s') : Doom W w0 s' := by
  cases hs with
  | writer hs =>
    cases hs with
    | take hw hq => exact h.same rfl (by simp) h.chunk rfl h.setFail rfl (fun _ h => h)
    | done hw hq => exact h.same rfl (by simp) h.chunk rfl h.setFail rfl (fun _ h => h)
    | @annotate a q hw hq =>
      exfalso
      have hf := (take_succ_of_drop (hq ▸ hi.queue).symm).2.1
      obtain ⟨m, h1, id, h2⟩ := h.order _ a hf
      exact h.notReady hi h2 (.inl h1)
    | chunk hw hq hc => exact h.same rfl (by simp only; split <;> simp) h.chunk rfl h.setFail rfl (fun _ h => h)
    | pad hw hq => exact h.same rfl (by simp only; split <;> simp) h.chunk rfl h.setFail rfl (fun _ h => h)
    | flushOk hw hq ho => exact h.same rfl (by simp) h.chunk rfl h.setFail rfl (fun _ h => h)
    | flushFail hw hq ho => rw [h.ok] at ho; cases ho
    | @act r q w hw hq hp =>
      exact h.same (by simp) (by simp) (by simpa using h.chunk) (by simp) (by simpa using h.setFail) (by simp)
        (by simp)
    | @actFail r q w hw hq hp =>
      exfalso
      have h1 : (execAll W w0 (s.hist.take (s.handled + 1))).2 = true := h.noFail hi (by rw [hw]; trivial)
      have h2 := hi'.cw
      simp only [CwInv] at h2
      rw [h2] at h1; cases h1
    | fail hw hq => exact absurd hw h.wpc
    | fin hw hq => exact h.same rfl (by simp) h.chunk rfl h.setFail rfl (fun _ h => h)
  | task hs =>
    cases hs with
    | @skip id res hx ho => rw [h.ok] at ho; cases ho
    | @encode id check c hx ho =>
      exact h.same rfl h.wpc (set_ne_failing h.chunk (by simp)) rfl h.setFail rfl (fun _ h => h)
    | @encodeFail id check hx ho =>
      exact h.same rfl h.wpc (set_ne_failing h.chunk (by simp)) rfl h.setFail rfl (fun _ h => h)
    | @annotate id hx hcap =>
      refine h.enq (r := .annotate s.annots.length) rfl rfl (set_ne_failing h.chunk (by simp)) (.inr rfl) h.setFail rfl
        (fun w hw hd => .inr ⟨w, rfl, hd⟩) ?_
      intro a _
      obtain ⟨res, h1⟩ := hi.chunkReq id _ hx
      obtain ⟨st, h2, h3⟩ := hi.chunks id res h1
      rw [hx] at h2; cases h2
      obtain ⟨m, hm⟩ := List.getElem?_of_mem h1
      have h3 : res = none := h3
      exact ⟨m, id, by rw [hm, h3]⟩
    | @answer id a hx ha => exact absurd ha (h.annots a)
    | @fail id hx => exact absurd hx (h.chunk id)
    | @header id c hx => exact h.same rfl h.wpc (set_ne_failing h.chunk (by simp)) rfl h.setFail rfl (fun _ h => h)
    | @chunk id c hx => exact h.same rfl h.wpc (set_ne_failing h.chunk (by simp)) rfl h.setFail rfl (fun _ h => h)
  | client hs =>
    cases hs with
    | @chunk src k hp =>
      refine h.same rfl h.wpc h.chunk rfl ?_ rfl ?_
      · intro k'; simp only [h.ok, ↓reduceIte]; simp
      · intro w hd; simp only [h.ok, ↓reduceIte]; rw [hp] at hd; exact hd
    | @enqChunk src k hp hcap =>
      refine h.enq (r := .chunk s.chunks.length src.result) rfl rfl ?_ (.inl rfl) ?_ rfl ?_ (by simp)
      · intro id hid
        rcases getElem?_snoc_cases hid with h1 | ⟨_, h1⟩
        · exact h.chunk id h1
        · cases src <;> simp [Src.enqueued] at h1
      · intro k'; cases src <;> simp [Src.enqueued]
      · intro w hw hd
        rw [hp] at hd
        simp only [Pc.Doomed, Prog.Doomed] at hd
        cases hr : src.result with
        | none => exact .inl ⟨_, rfl⟩
        | some c =>
          rw [hr] at hd
          obtain ⟨w', h1, h2⟩ := hd
          refine .inr ⟨w', by simp only [Req.exec, ↓reduceIte]; exact h1, ?_⟩
          cases src <;> exact h2
    | @schedule id check res k hp =>
      refine h.same rfl h.wpc (set_ne_failing h.chunk (by simp)) rfl (by simp) rfl ?_
      intro w hd; rw [hp] at hd; exact hd
    | @pad p k hp =>
      refine h.same rfl h.wpc h.chunk rfl ?_ rfl ?_
      · intro k'; simp only [h.ok, ↓reduceIte]; simp
      · intro w hd; simp only [h.ok, ↓reduceIte]; rw [hp] at hd; exact hd
    | @enqPad p k hp hcap =>
      refine h.enq (r := .pad p) rfl rfl h.chunk (.inl rfl) (by simp) rfl ?_ (by simp)
      intro w hw hd
      rw [hp] at hd
      obtain ⟨w', h1, h2⟩ := hd
      exact .inr ⟨w', by simp only [Req.exec, ↓reduceIte]; exact h1, h2⟩
    | @futureFlush k hp hcap =>
      refine h.enq (r := .flush s.flushes.length) rfl rfl h.chunk (.inl rfl) (by simp) rfl ?_ (by simp)
      intro w hw hd
      rw [hp] at hd
      obtain ⟨w', h1, h2⟩ := hd
      exact .inr ⟨w', by simp only [Req.exec, ↓reduceIte]; exact h1, h2 _⟩
    | @getFlush i k b w hp hb =>
      exact h.same rfl h.wpc h.chunk rfl (by simp) rfl (fun w hd => by rw [hp] at hd; exact hd _)
    | @getNoFlush i k hp hb =>
      exact h.same rfl h.wpc h.chunk rfl (by simp) rfl (fun w hd => by rw [hp] at hd; exact hd _)
    | @chunkBegin k hp =>
      exact h.same rfl h.wpc h.chunk rfl (by simp) rfl (fun w hd => by rw [hp] at hd; exact hd _)
    | @getPos i k p hp hb =>
      exact h.same rfl h.wpc h.chunk rfl (by simp) rfl (fun w hd => by rw [hp] at hd; exact hd _)
    | @getNoPos i k hp hb =>
      exact h.same rfl h.wpc h.chunk rfl (by simp) rfl (fun w hd => by rw [hp] at hd; exact hd _)
    | @ok k hp =>
      refine h.same rfl h.wpc h.chunk rfl (by simp) rfl (fun w hd => ?_)
      rw [hp] at hd
      have : s.ok = true := h.ok
      simp only [this]; exact hd
    | @fail k hp hcap =>
      refine h.enq (r := .annotate s.annots.length) rfl rfl h.chunk (.inr rfl) (by simp) rfl ?_ ?_
      · intro w hw hd; rw [hp] at hd; exact hd.elim
      · intro a _
        rcases h.doom with ⟨pre, id, post, h1, _⟩ | ⟨w, _, hd⟩
        · exact ⟨pre.length, id, by rw [h1]; simp⟩
        · rw [hp] at hd; exact hd.elim
    | @answer a k hp ha => exact absurd ha (h.annots a)
    | @setFail k hp => exact absurd hp (h.setFail k)
    | @close a hp =>
      refine h.enq (r := .done) rfl rfl h.chunk (.inl rfl) (by simp) rfl ?_ (by simp)
      intro w hw hd; rw [hp] at hd; exact hd.elim
    | @closed a hp hd =>
      refine h.same rfl h.wpc h.chunk rfl (by simp) rfl (fun w hd => ?_)
      rw [hp] at hd; exact hd.elim

theorem Doom.reach {w0 : κ} {p : Prog α} {s : St κ α} (hp : p.Doomed W w0)
    (hr : Reach W par junk (St.init W w0 p) s) : Doom W w0 s := by
  induction hr with
  | refl => exact Doom.init hp
  | step hr hs ih => exact ih.step (Inv.reach hr) hs (Inv.reach (.step hr hs))

/-- `Close()` of a doomed program does not return. -/
theorem doomed_not_closed {w0 : κ} {p : Prog α} {s : St κ α} (hp : p.Doomed W w0)
    (hr : Reach W par junk (St.init W w0 p) s) (a : α) (b : Bool) : s.pc ≠ .closed a b := by
  intro hc
  have h := Doom.reach hp hr
  have hi := Inv.reach hr
  have hex := hi.exited.1 (hi.closed a b hc).1
  rcases h.doom with ⟨pre, id, post, h1, _⟩ | ⟨w, _, hd⟩
  · have hm : Req.chunk id none ∈ s.hist := by rw [h1]; simp
    obtain ⟨st, h2, h3⟩ := hi.chunks id none hm
    obtain ⟨c, rfl⟩ := hi.exited_ready hex h2
    rcases h3 with h3 | h3
    · cases h3
    · rw [h.ok] at h3; cases h3
  · rw [hc] at hd; exact hd

/-- The serial worker fails (and returns) instead. -/
theorem doomed_serial (p : Prog α) : ∀ {σ : Ser κ}, p.Doomed W σ.cw → p.serial W σ = none := by
  induction p with
  | chunk src k ih =>
    intro σ h
    simp only [Prog.Doomed, Prog.serial] at h ⊢
    split
    · rfl
    · rename_i c hc
      rw [hc] at h
      obtain ⟨w', h1, h2⟩ := h
      rw [h1]
      exact ih true (σ := { σ with cw := w' }) h2
  | pad p k ih =>
    intro σ h
    obtain ⟨w', h1, h2⟩ := h
    simp only [Prog.serial, h1]
    exact ih true (σ := { σ with cw := w' }) h2
  | futureFlush k ih =>
    intro σ h
    obtain ⟨w', h1, h2⟩ := h
    simp only [Prog.serial, h1]
    exact ih _ (σ := { σ with cw := w', flushes := σ.flushes ++ [w'] }) (h2 _)
  | getFlush i k ih => intro σ h; exact ih _ (h _)
  | chunkBegin k ih => intro σ h; exact ih _ (σ := { σ with snaps := σ.snaps ++ [W.pos σ.cw] }) (h _)
  | getPos i k ih => intro σ h; exact ih _ (h _)
  | ok k ih => intro σ h; exact ih _ h
  | fail k ih => intro σ h; exact h.elim
  | close a => intro σ h; exact h.elim

end Riegeli.Par

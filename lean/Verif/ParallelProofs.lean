import Verif.Parallel
/-!
# Proofs about `ParallelWorker`: invariants of every schedule
-/
namespace Riegeli.Par
variable {κ α : Type} {W : CW κ} {par : Nat} {junk : Chunk}

@[simp] theorem respond_cw (s : St κ α) (r : Req) (b : Bool) (w : κ) : (s.respond r b w).cw = s.cw := by cases r <;> rfl
@[simp] theorem respond_ok (s : St κ α) (r : Req) (b : Bool) (w : κ) : (s.respond r b w).ok = s.ok := by cases r <;> rfl
@[simp] theorem respond_queue (s : St κ α) (r : Req) (b : Bool) (w : κ) : (s.respond r b w).queue = s.queue := by cases r <;> rfl
@[simp] theorem respond_posBefore (s : St κ α) (r : Req) (b : Bool) (w : κ) : (s.respond r b w).posBefore = s.posBefore := by cases r <;> rfl
@[simp] theorem respond_chunks (s : St κ α) (r : Req) (b : Bool) (w : κ) : (s.respond r b w).chunks = s.chunks := by cases r <;> rfl
@[simp] theorem respond_annots (s : St κ α) (r : Req) (b : Bool) (w : κ) : (s.respond r b w).annots = s.annots := by cases r <;> rfl
@[simp] theorem respond_snaps (s : St κ α) (r : Req) (b : Bool) (w : κ) : (s.respond r b w).snaps = s.snaps := by cases r <;> rfl
@[simp] theorem respond_doneSet (s : St κ α) (r : Req) (b : Bool) (w : κ) : (s.respond r b w).doneSet = s.doneSet := by cases r <;> rfl
@[simp] theorem respond_wpc (s : St κ α) (r : Req) (b : Bool) (w : κ) : (s.respond r b w).wpc = s.wpc := by cases r <;> rfl
@[simp] theorem respond_pc (s : St κ α) (r : Req) (b : Bool) (w : κ) : (s.respond r b w).pc = s.pc := by cases r <;> rfl
@[simp] theorem respond_hist (s : St κ α) (r : Req) (b : Bool) (w : κ) : (s.respond r b w).hist = s.hist := by cases r <;> rfl
@[simp] theorem respond_handled (s : St κ α) (r : Req) (b : Bool) (w : κ) : (s.respond r b w).handled = s.handled := by cases r <;> rfl
@[simp] theorem respond_clientFailed (s : St κ α) (r : Req) (b : Bool) (w : κ) :
    (s.respond r b w).clientFailed = s.clientFailed := by cases r <;> rfl

theorem respond_flushes (s : St κ α) (r : Req) (b : Bool) (w : κ) {i : Nat} {b' : Bool} {w' : κ}
    (h : (s.respond r b w).flushes[i]? = some (some (b', w'))) :
    (r = .flush i ∧ b' = b ∧ w' = w) ∨ s.flushes[i]? = some (some (b', w')) := by
  cases r with
  | flush j =>
    simp only [St.respond, List.getElem?_set] at h
    split at h
    · rename_i hij
      subst hij
      split at h
      · simp only [Option.some.injEq, Prod.mk.injEq] at h
        exact .inl ⟨rfl, h.1.symm, h.2.symm⟩
      · cases h
    · exact .inr h
  | _ => exact .inr h

theorem respond_flushes_length (s : St κ α) (r : Req) (b : Bool) (w : κ) :
    (s.respond r b w).flushes.length = s.flushes.length := by
  cases r <;> simp [St.respond]

/-! ## Sequential execution -/

theorem exec_false (w : κ) (r : Req) : Req.exec W (w, false) r = (w, false) := by simp [Req.exec]

theorem foldl_exec_false (rs : List Req) (w : κ) : rs.foldl (Req.exec W) (w, false) = (w, false) := by
  induction rs with
  | nil => rfl
  | cons r rs ih => rw [List.foldl_cons, exec_false, ih]

theorem execAll_append (w : κ) (a b : List Req) :
    execAll W w (a ++ b) = b.foldl (Req.exec W) (execAll W w a) := by simp [execAll]

theorem execAll_snoc (w : κ) (a : List Req) (r : Req) :
    execAll W w (a ++ [r]) = Req.exec W (execAll W w a) r := by simp [execAll]

theorem execAll_append_true {w : κ} {a b : List Req} (h : (execAll W w (a ++ b)).2 = true) :
    (execAll W w a).2 = true := by
  rw [execAll_append] at h
  cases hx : (execAll W w a) with
  | mk x ok =>
    cases ok with
    | true => rfl
    | false => rw [hx, foldl_exec_false] at h; exact h

theorem execAll_take_false {w : κ} {a : List Req} {n : Nat} (h : (execAll W w (a.take n)).2 = false) :
    (execAll W w a).2 = false := by
  by_cases h' : (execAll W w a).2 = true
  · rw [← List.take_append_drop n a] at h'
    rw [execAll_append_true h'] at h; cases h
  · simpa using h'

theorem execAll_none {w : κ} {a : List Req} {id : Nat} (h : Req.chunk id none ∈ a) : (execAll W w a).2 = false := by
  obtain ⟨p, q, rfl⟩ := List.append_of_mem h
  by_cases h' : (execAll W w (p ++ Req.chunk id none :: q)).2 = true
  · rw [show p ++ Req.chunk id none :: q = (p ++ [Req.chunk id none]) ++ q by simp] at h'
    have := execAll_append_true h'
    rw [execAll_snoc] at this
    unfold Req.exec at this
    split at this
    · cases this
    · rename_i hn; exact absurd this hn
  · simpa using h'

theorem take_succ_of_drop {l : List Req} {n : Nat} {r : Req} {q : List Req} (h : l.drop n = r :: q) :
    l.take (n + 1) = l.take n ++ [r] ∧ l[n]? = some r ∧ n < l.length ∧ l.drop (n + 1) = q := by
  have hlt : n < l.length := by
    apply Nat.lt_of_not_le; intro hle
    rw [List.drop_eq_nil_of_le hle] at h; cases h
  rw [List.drop_eq_getElem_cons hlt] at h
  simp only [List.cons.injEq] at h
  refine ⟨?_, ?_, hlt, h.2⟩
  · rw [List.take_succ, List.getElem?_eq_getElem hlt, h.1]; rfl
  · rw [List.getElem?_eq_getElem hlt, h.1]

/-! ## The invariant -/

/-- What the state of an encoding task tells about the chunk. -/
def Match (ok : Bool) (res : Option Chunk) : CSt → Prop
  | .unscheduled => True
  | .start _ r => r = res
  | .annotating => res = none
  | .waiting _ => res = none
  | .failing => res = none
  | .encoded c => res = some c ∨ ok = false
  | .headerSet c => res = some c ∨ ok = false
  | .ready c => res = some c ∨ ok = false

theorem Match.mono {ok ok' : Bool} {res : Option Chunk} {st : CSt} (h : Match ok res st) (ho : ok = false → ok' = false) :
    Match ok' res st := by
  cases st <;> simp only [Match] at h ⊢ <;> first | exact h | exact h.imp id ho

/-- The requests from `done` on: after it there are only requests of failing encoders. -/
def DoneLast (hist : List Req) : Prop :=
  ∃ pre post, hist = pre ++ Req.done :: post ∧ Req.done ∉ pre ∧ ∀ r ∈ post, ∃ a, r = Req.annotate a

/-- Whether the client has sent `DoneRequest`. -/
def Pc.closing : Pc α → Prop
  | .waitDone _ => True
  | .closed _ _ => True
  | _ => False

/-- What the chunk writer has done so far. -/
def CwInv (W : CW κ) (w0 : κ) (s : St κ α) : Prop :=
  match s.wpc with
  | .act => execAll W w0 (s.hist.take s.handled) = (s.cw, true) ∧
      ∀ id res q, s.queue = .chunk id res :: q → ∃ c, s.chunks[id]? = some (.ready c) ∧ res = some c
  | .failing => execAll W w0 (s.hist.take (s.handled + 1)) = (s.cw, false)
  | .fin => ∃ n, n ≤ s.handled + 1 ∧ (execAll W w0 (s.hist.take n)).1 = s.cw ∧
      (s.ok = true → execAll W w0 (s.hist.take (s.handled + 1)) = (s.cw, true))
  | _ => ∃ n, n ≤ s.handled ∧ (execAll W w0 (s.hist.take n)).1 = s.cw ∧
      (s.ok = true → execAll W w0 (s.hist.take s.handled) = (s.cw, true))

/-- Whether the writer thread has obtained the chunk of the front request. -/
def WPc.obtained : WPc → Prop
  | .act => True
  | .failing => True
  | .fin => True
  | _ => False

/-- Invariant of every schedule. -/
structure Inv (W : CW κ) (w0 : κ) (s : St κ α) : Prop where
  queue : s.queue = s.hist.drop s.handled
  le : s.handled ≤ s.hist.length
  busy : s.wpc ≠ .idle → s.queue ≠ []
  chunks : ∀ (id : Nat) (res : Option Chunk), Req.chunk id res ∈ s.hist → ∃ st, s.chunks[id]? = some st ∧ Match s.ok res st
  chunkReq : ∀ (id : Nat) (st : CSt), s.chunks[id]? = some st → ∃ res, Req.chunk id res ∈ s.hist
  ready : ∀ (n id : Nat) (res : Option Chunk), s.hist[n]? = some (.chunk id res) →
    n < s.handled ∨ n = s.handled ∧ s.wpc.obtained → ∃ c, s.chunks[id]? = some (.ready c)
  sched : ∀ (id : Nat) (check : Bool) (res : Option Chunk) (k : Bool → Prog α), s.pc = .schedule id check res k →
    s.chunks[id]? = some .unscheduled ∧ ∀ res', Req.chunk id res' ∈ s.hist → res' = res
  cw : CwInv W w0 s
  posBefore : s.ok = true → s.posBefore = W.pos (execAll W w0 (s.hist.take s.handled)).1
  failed : s.ok = false → s.clientFailed = true ∨ (execAll W w0 s.hist).2 = false
  failing : (∃ a k, s.pc = .waitAnnotate a k) ∨ (∃ k, s.pc = .setFail k) → s.clientFailed = true
  flushReq : ∀ i, Req.flush i ∈ s.hist → i < s.flushes.length
  flushed : ∀ (i : Nat) (w : κ), s.flushes[i]? = some (some (true, w)) → ∃ n : Nat, s.hist[n]? = some (.flush i) ∧
    execAll W w0 (s.hist.take (n + 1)) = (w, true)
  notFlushed : ∀ (i : Nat) (w : κ), s.flushes[i]? = some (some (false, w)) → s.ok = false
  notClosing : ¬ s.pc.closing → Req.done ∉ s.hist ∧ s.doneSet = false
  closing : s.pc.closing → DoneLast s.hist
  exited : s.doneSet = true ↔ s.wpc = .exited
  exitedQ : s.wpc = .exited → ∃ q, s.queue = .done :: q
  closed : ∀ a b, s.pc = .closed a b → s.doneSet = true ∧ b = s.ok

/-- When the writer thread has exited all chunks are ready. -/
theorem Inv.exited_ready {w0 : κ} {s : St κ α} (h : Inv W w0 s) (he : s.wpc = .exited) {id : Nat} {st : CSt}
    (hst : s.chunks[id]? = some st) : ∃ c, st = .ready c := by
  obtain ⟨res, hr⟩ := h.chunkReq id st hst
  obtain ⟨q, hq⟩ := h.exitedQ he
  have hqd := h.queue; rw [hq] at hqd
  obtain ⟨e1, e2, e3, e4⟩ := take_succ_of_drop hqd.symm
  have hcl : s.pc.closing := by
    by_cases hc : s.pc.closing
    · exact hc
    · exact absurd (List.mem_of_getElem? e2) (h.notClosing hc).1
  obtain ⟨pre, post, e, h1, h2⟩ := h.closing hcl
  have hn : s.handled = pre.length := by
    rw [e] at e2
    rcases Nat.lt_trichotomy s.handled pre.length with hlt | heq | hgt
    · rw [List.getElem?_append_left hlt] at e2
      exact absurd (List.mem_of_getElem? e2) h1
    · exact heq
    · rw [List.getElem?_append_right (by omega)] at e2
      rw [show s.handled - pre.length = (s.handled - pre.length - 1) + 1 by omega, List.getElem?_cons_succ] at e2
      obtain ⟨a, ha⟩ := h2 _ (List.mem_of_getElem? e2)
      cases ha
  obtain ⟨n, hn2⟩ := List.getElem?_of_mem hr
  have hlt : n < s.handled := by
    rw [e] at hn2
    rcases Nat.lt_trichotomy n pre.length with hlt | heq | hgt
    · omega
    · subst heq; simp at hn2
    · rw [List.getElem?_append_right (by omega)] at hn2
      rw [show n - pre.length = (n - pre.length - 1) + 1 by omega, List.getElem?_cons_succ] at hn2
      obtain ⟨a, ha⟩ := h2 _ (List.mem_of_getElem? hn2)
      cases ha
  obtain ⟨c, hc⟩ := h.ready n id res hn2 (.inl hlt)
  rw [hst] at hc
  exact ⟨c, Option.some.inj hc⟩

theorem Inv.handled_le {w0 : κ} {s : St κ α} (h : Inv W w0 s) (hb : s.queue ≠ []) : s.handled < s.hist.length := by
  apply Nat.lt_of_not_le; intro hle
  rw [h.queue, List.drop_eq_nil_of_le hle] at hb; exact hb rfl

theorem Inv.init (w0 : κ) (p : Prog α) : Inv W w0 (St.init W w0 p) where
  queue := rfl
  le := Nat.le_refl _
  ready n id res h := by simp [St.init] at h
  busy h := absurd rfl h
  chunks id res h := by simp [St.init] at h
  chunkReq id st h := by simp [St.init] at h
  sched id check res k h := by simp [St.init] at h
  cw := ⟨0, Nat.le_refl _, rfl, fun _ => rfl⟩
  posBefore _ := rfl
  failed h := by simp [St.init] at h
  failing h := by simp [St.init] at h
  flushReq i h := by simp [St.init] at h
  flushed i w h := by simp [St.init] at h
  notFlushed i w h := by simp [St.init] at h
  notClosing _ := ⟨by simp [St.init], rfl⟩
  closing h := by simp [St.init, Pc.closing] at h
  exited := by simp [St.init]
  exitedQ h := by simp [St.init] at h
  closed a b h := by simp [St.init] at h

theorem Inv.ready' {w0 : κ} {s : St κ α} (h : Inv W w0 s) (x : WPc)
    (hx : x.obtained → s.wpc.obtained ∨
      ∀ (id : Nat) (res : Option Chunk), s.hist[s.handled]? = some (.chunk id res) → ∃ c, s.chunks[id]? = some (.ready c)) :
    ∀ (n id : Nat) (res : Option Chunk), s.hist[n]? = some (.chunk id res) →
    n < s.handled ∨ n = s.handled ∧ x.obtained → ∃ c, s.chunks[id]? = some (.ready c) := by
  intro n id res hn hor
  rcases hor with hor | ⟨rfl, hor⟩
  · exact h.ready n id res hn (.inl hor)
  · rcases hx hor with h1 | h1
    · exact h.ready _ id res hn (.inr ⟨rfl, h1⟩)
    · exact h1 id res hn

/-- The writer thread preserves the invariant. -/
theorem Inv.writer {w0 : κ} {s s' : St κ α} (h : Inv W w0 s) (hs : WStep W s s') : Inv W w0 s' := by
  cases hs with
  | take hw hq =>
    have hc := h.cw
    simp only [CwInv, hw] at hc
    exact { h with
      ready := h.ready' _ (fun h => by cases h)
      busy := fun _ => hq
      cw := by simp only [CwInv]; exact hc
      exited := by
        have := h.exited
        simp only [hw] at this
        simp only [this]
        simp
      exitedQ := fun h => by simp at h
      queue := h.queue }
  | @done q hw hq =>
    have hc := h.cw
    simp only [CwInv, hw] at hc
    exact { h with
      ready := h.ready' _ (fun h => by cases h)
      busy := fun _ => by simp [hq]
      cw := by simp only [CwInv]; exact hc
      notClosing := fun hn => by
        have := (h.notClosing hn).1
        refine absurd ?_ this
        have hm : Req.done ∈ s.queue := by rw [hq]; simp
        rw [h.queue] at hm
        exact List.mem_of_mem_drop hm
      exited := by simp
      exitedQ := fun _ => ⟨q, hq⟩
      closed := fun a b hp => ⟨rfl, (h.closed a b hp).2⟩
      queue := h.queue }
  | @annotate a q hw hq =>
    have hc := h.cw
    simp only [CwInv, hw] at hc
    have hqd := h.queue; rw [hq] at hqd
    obtain ⟨e1, e2, e3, e4⟩ := take_succ_of_drop hqd.symm
    exact { h with
      ready := h.ready' _ (fun _ => .inr (fun id res he => by
        rw [(take_succ_of_drop (hq ▸ h.queue).symm).2.1] at he; cases he))
      busy := fun _ => by simp [hq]
      cw := by
        simp only [CwInv]
        obtain ⟨n, h1, h2, h3⟩ := hc
        refine ⟨n, by omega, h2, fun ho => ?_⟩
        rw [e1, execAll_snoc, h3 ho]; rfl
      exited := by
        have := h.exited; simp only [hw] at this; simp only [this]; simp
      exitedQ := fun h => by simp at h
      queue := h.queue }
  | @chunk id res c q hw hq hcc =>
    have hc := h.cw
    simp only [CwInv, hw] at hc
    obtain ⟨n, h1, h2, h3⟩ := hc
    have hm : Req.chunk id res ∈ s.hist := by
      have hm : Req.chunk id res ∈ s.queue := by rw [hq]; simp
      rw [h.queue] at hm; exact List.mem_of_mem_drop hm
    have hmt := h.chunks id res hm
    exact { h with
      ready := h.ready' _ (fun _ => .inr (fun id' res' he => by
        rw [(take_succ_of_drop (hq ▸ h.queue).symm).2.1] at he; cases he; exact ⟨c, hcc⟩))
      busy := fun _ => by simp [hq]
      cw := by
        by_cases ho : s.ok = true
        · simp only [CwInv, if_pos ho]
          refine ⟨h3 ho, fun id' res' q' hq' => ?_⟩
          rw [hq] at hq'
          simp only [List.cons.injEq, Req.chunk.injEq] at hq'
          obtain ⟨⟨rfl, rfl⟩, rfl⟩ := hq'
          refine ⟨c, hcc, ?_⟩
          obtain ⟨st, e1, e2⟩ := hmt
          rw [hcc] at e1
          simp only [Option.some.injEq] at e1
          subst e1
          simp only [Match, ho] at e2
          simpa using e2
        · simp only [CwInv, if_neg ho]
          exact ⟨n, by omega, h2, fun h => absurd h ho⟩
      exited := by
        have := h.exited; simp only [hw] at this; simp only [this]
        split <;> simp
      exitedQ := fun h => by simp only at h; split at h <;> cases h
      queue := h.queue }
  | @pad p q hw hq =>
    have hc := h.cw
    simp only [CwInv, hw] at hc
    obtain ⟨n, h1, h2, h3⟩ := hc
    exact { h with
      ready := h.ready' _ (fun _ => .inr (fun id res he => by
        rw [(take_succ_of_drop (hq ▸ h.queue).symm).2.1] at he; cases he))
      busy := fun _ => by simp [hq]
      cw := by
        by_cases ho : s.ok = true
        · simp only [CwInv, if_pos ho]
          refine ⟨h3 ho, fun id' res' q' hq' => ?_⟩
          rw [hq] at hq'; simp at hq'
        · simp only [CwInv, if_neg ho]
          exact ⟨n, by omega, h2, fun h => absurd h ho⟩
      exited := by
        have := h.exited; simp only [hw] at this; simp only [this]
        split <;> simp
      exitedQ := fun h => by simp only at h; split at h <;> cases h
      queue := h.queue }
  | @flushOk i q hw hq ho =>
    have hc := h.cw
    simp only [CwInv, hw] at hc
    obtain ⟨n, h1, h2, h3⟩ := hc
    exact { h with
      ready := h.ready' _ (fun _ => .inr (fun id res he => by
        rw [(take_succ_of_drop (hq ▸ h.queue).symm).2.1] at he; cases he))
      busy := fun _ => by simp [hq]
      cw := by
        simp only [CwInv]
        refine ⟨h3 ho, fun id' res' q' hq' => ?_⟩
        rw [hq] at hq'; simp at hq'
      exited := by
        have := h.exited; simp only [hw] at this; simp only [this]; simp
      exitedQ := fun h => by simp at h
      queue := h.queue }
  | @flushFail i q hw hq ho =>
    have hc := h.cw
    simp only [CwInv, hw] at hc
    obtain ⟨n, h1, h2, h3⟩ := hc
    exact {
      queue := by simpa using h.queue
      le := by simpa using h.le
      ready := by
        simp only [respond_hist, respond_chunks, respond_handled]
        exact h.ready' _ (fun _ => .inr (fun id res he => by
          rw [(take_succ_of_drop (hq ▸ h.queue).symm).2.1] at he; cases he))
      busy := fun _ => by simp [hq]
      chunks := by simpa using h.chunks
      chunkReq := by simpa using h.chunkReq
      sched := by simpa using h.sched
      cw := by
        simp only [CwInv, respond_hist, respond_handled, respond_cw, respond_ok]
        exact ⟨n, by omega, h2, fun h => by rw [ho] at h; cases h⟩
      posBefore := by simpa using h.posBefore
      failed := by simpa using h.failed
      failing := by simpa using h.failing
      flushReq := by
        intro j hj
        simp only [respond_hist] at hj
        rw [show ({ s.respond (.flush i) false s.cw with wpc := .fin } : St κ α).flushes.length = s.flushes.length from
          respond_flushes_length s (.flush i) false s.cw]
        exact h.flushReq j hj
      flushed := by
        intro j w hj
        simp only [respond_hist]
        rcases respond_flushes s _ _ _ hj with ⟨_, h2, _⟩ | h2
        · cases h2
        · exact h.flushed j w h2
      notFlushed := by
        intro j w hj
        simpa using ho
      notClosing := by simpa using h.notClosing
      closing := by simpa using h.closing
      exited := by
        have := h.exited; simp only [hw] at this
        simp only [respond_doneSet, this]; simp
      exitedQ := fun h => by simp at h
      closed := by simpa using h.closed }
  | @act r q w hw hq hp =>
    have hc := h.cw
    simp only [CwInv, hw] at hc
    have hqd := h.queue; rw [hq] at hqd
    obtain ⟨e1, e2, e3, e4⟩ := take_succ_of_drop hqd.symm
    have hx : execAll W w0 (s.hist.take (s.handled + 1)) = (w, true) := by
      rw [e1, execAll_snoc, hc.1]
      cases r with
      | chunk id res =>
        obtain ⟨c, h1, h2⟩ := hc.2 id res q hq
        subst h2
        simp only [perform, h1] at hp
        simpa [Req.exec] using hp
      | pad p => simpa [Req.exec, perform] using hp
      | flush i => simpa [Req.exec, perform] using hp
      | annotate a => simpa [Req.exec, perform] using hp
      | done => simpa [Req.exec, perform] using hp
    exact {
      queue := by simpa using h.queue
      le := by simpa using h.le
      ready := by
        simp only [respond_hist, respond_chunks, respond_handled]
        exact h.ready' _ (fun _ => .inl (by rw [hw]; trivial))
      busy := fun _ => by simp [hq]
      chunks := by simpa using h.chunks
      chunkReq := by simpa using h.chunkReq
      sched := by simpa using h.sched
      cw := by
        simp only [CwInv, respond_hist, respond_handled, respond_ok]
        exact ⟨_, Nat.le_refl _, by rw [hx], fun _ => hx⟩
      posBefore := by simpa using h.posBefore
      failed := by simpa using h.failed
      failing := by simpa using h.failing
      flushReq := by
        intro j hj
        simp only [respond_hist] at hj
        show j < (s.respond r true w).flushes.length
        rw [respond_flushes_length]
        exact h.flushReq j hj
      flushed := by
        intro j w' hj
        simp only [respond_hist]
        rcases respond_flushes s _ _ _ hj with ⟨rfl, _, rfl⟩ | h2
        · exact ⟨s.handled, e2, hx⟩
        · exact h.flushed j w' h2
      notFlushed := by
        intro j w' hj
        rcases respond_flushes s _ _ _ hj with ⟨_, h2, _⟩ | h2
        · cases h2
        · simpa using h.notFlushed j w' h2
      notClosing := by simpa using h.notClosing
      closing := by simpa using h.closing
      exited := by
        have := h.exited; simp only [hw] at this
        simp only [respond_doneSet, this]; simp
      exitedQ := fun h => by simp at h
      closed := by simpa using h.closed }
  | @actFail r q w hw hq hp =>
    have hc := h.cw
    simp only [CwInv, hw] at hc
    have hqd := h.queue; rw [hq] at hqd
    obtain ⟨e1, e2, e3, e4⟩ := take_succ_of_drop hqd.symm
    have hx : execAll W w0 (s.hist.take (s.handled + 1)) = (w, false) := by
      rw [e1, execAll_snoc, hc.1]
      cases r with
      | chunk id res =>
        obtain ⟨c, h1, h2⟩ := hc.2 id res q hq
        subst h2
        simp only [perform, h1] at hp
        simpa [Req.exec] using hp
      | pad p => simpa [Req.exec, perform] using hp
      | flush i => simpa [Req.exec, perform] using hp
      | annotate a => simp [perform] at hp
      | done => simp [perform] at hp
    exact { h with
      ready := h.ready' _ (fun _ => .inl (by rw [hw]; trivial))
      busy := fun _ => by simp [hq]
      cw := by simp only [CwInv]; exact hx
      exited := by
        have := h.exited; simp only [hw] at this; simp only [this]; simp
      exitedQ := fun h => by simp at h
      queue := h.queue }
  | @fail r q hw hq =>
    have hc := h.cw
    simp only [CwInv, hw] at hc
    exact {
      queue := by simpa using h.queue
      le := by simpa using h.le
      ready := by
        simp only [respond_hist, respond_chunks, respond_handled]
        exact h.ready' _ (fun _ => .inl (by rw [hw]; trivial))
      busy := fun _ => by simp [hq]
      chunks := by
        intro id res hm
        simp only [respond_hist] at hm
        obtain ⟨st, h1, h2⟩ := h.chunks id res hm
        exact ⟨st, by simpa using h1, h2.mono (fun _ => rfl)⟩
      chunkReq := by simpa using h.chunkReq
      sched := by simpa using h.sched
      cw := by
        simp only [CwInv, respond_hist, respond_handled, respond_cw]
        exact ⟨_, Nat.le_refl _, by rw [hc], fun h => by cases h⟩
      posBefore := fun h => by cases h
      failed := by
        intro _
        simp only [respond_hist, respond_clientFailed]
        exact .inr (execAll_take_false (n := s.handled + 1) (by rw [hc]))
      failing := by simpa using h.failing
      flushReq := by
        intro j hj
        simp only [respond_hist] at hj
        show j < (s.respond r false s.cw).flushes.length
        rw [respond_flushes_length]
        exact h.flushReq j hj
      flushed := by
        intro j w' hj
        simp only [respond_hist]
        rcases respond_flushes s _ _ _ hj with ⟨_, h2, _⟩ | h2
        · cases h2
        · exact h.flushed j w' h2
      notFlushed := fun _ _ _ => rfl
      notClosing := by simpa using h.notClosing
      closing := by simpa using h.closing
      exited := by
        have := h.exited; simp only [hw] at this
        simp only [respond_doneSet, this]; simp
      exitedQ := fun h => by simp at h
      closed := by
        intro a b hp
        simp only [respond_pc] at hp
        have := (h.closed a b hp).1
        have := h.exited.1 this
        rw [hw] at this; cases this }
  | @fin r q hw hq =>
    have hc := h.cw
    simp only [CwInv, hw] at hc
    obtain ⟨n, h1, h2, h3⟩ := hc
    have hqd := h.queue; rw [hq] at hqd
    obtain ⟨e1, e2, e3, e4⟩ := take_succ_of_drop hqd.symm
    exact { h with
      queue := e4.symm
      le := e3
      ready := fun n id res hn hor => by
        refine h.ready n id res hn ?_
        rcases hor with hor | hor
        · rcases Nat.lt_or_ge n s.handled with h1 | h1
          · exact .inl h1
          · refine .inr ⟨?_, by rw [hw]; trivial⟩
            have hor : n < s.handled + 1 := hor
            omega
        · exact hor.2.elim
      busy := fun h => absurd rfl h
      cw := by simp only [CwInv]; exact ⟨n, h1, h2, h3⟩
      posBefore := fun ho => by simp only; rw [h3 ho]
      exited := by
        have := h.exited; simp only [hw] at this; simp only [this]; simp
      exitedQ := fun h => by simp at h }

theorem DoneLast.snoc_annotate {hist : List Req} (h : DoneLast hist) (a : Nat) : DoneLast (hist ++ [.annotate a]) := by
  obtain ⟨pre, post, e, h1, h2⟩ := h
  refine ⟨pre, post ++ [.annotate a], by rw [e]; simp, h1, ?_⟩
  intro r hr
  rcases List.mem_append.1 hr with hr | hr
  · exact h2 r hr
  · simp only [List.mem_singleton] at hr; exact ⟨a, hr⟩

theorem getElem?_set_ne' {l : List CSt} {i j : Nat} {a : CSt} {x y : CSt} (hi : l[i]? = some x) (hj : l[j]? = some y)
    (hne : x ≠ y) : (l.set i a)[j]? = some y := by
  rw [List.getElem?_set_ne]
  · exact hj
  · intro h; subst h; rw [hi] at hj; exact hne (Option.some.inj hj)

/-- Changing the state of one chunk. -/
theorem Inv.setChunk {w0 : κ} {s : St κ α} (h : Inv W w0 s) {id : Nat} {x y : CSt} (hx : s.chunks[id]? = some x)
    (hxu : x ≠ .unscheduled) (hxr : ∀ c, x ≠ .ready c) {ok' : Bool} (hok : s.ok = false → ok' = false)
    (hfail : ok' = false → s.ok = false ∨ ∃ id, Req.chunk id none ∈ s.hist)
    (hy : ∀ res, Match s.ok res x → Match ok' res y) :
    Inv W w0 { s with ok := ok', chunks := s.chunks.set id y } where
  queue := h.queue
  le := h.le
  ready := fun n id' res hn hor => by
    obtain ⟨c, hc⟩ := h.ready n id' res hn hor
    exact ⟨c, getElem?_set_ne' hx hc (hxr c)⟩
  busy := h.busy
  chunks := by
    intro id' res hm
    obtain ⟨st, h1, h2⟩ := h.chunks id' res hm
    by_cases hi : id = id'
    · subst hi
      rw [hx] at h1
      simp only [Option.some.injEq] at h1
      subst h1
      refine ⟨y, ?_, hy res h2⟩
      have : id < s.chunks.length := by
        rcases Nat.lt_or_ge id s.chunks.length with h | h
        · exact h
        · rw [List.getElem?_eq_none h] at hx; cases hx
      simp [this]
    · exact ⟨st, by simp [List.getElem?_set, hi, h1], h2.mono hok⟩
  chunkReq := by
    intro id' st hst
    simp only [List.getElem?_set] at hst
    split at hst
    · rename_i hi; subst hi; exact h.chunkReq id x hx
    · exact h.chunkReq id' st hst
  sched := by
    intro id' check res k hp
    obtain ⟨h1, h2⟩ := h.sched id' check res k hp
    exact ⟨getElem?_set_ne' hx h1 hxu, h2⟩
  cw := by
    have hc := h.cw
    have hok2 : ok' = true → s.ok = true := by
      intro h
      cases ho : s.ok with
      | true => rfl
      | false => rw [hok ho] at h; exact h
    unfold CwInv at hc ⊢
    cases hw : s.wpc with
    | act =>
      simp only [hw] at hc ⊢
      refine ⟨hc.1, fun id' res q hq => ?_⟩
      obtain ⟨c, h1, h2⟩ := hc.2 id' res q hq
      exact ⟨c, getElem?_set_ne' hx h1 (hxr c), h2⟩
    | failing => simp only [hw] at hc ⊢; exact hc
    | fin =>
      simp only [hw] at hc ⊢
      obtain ⟨n, h1, h2, h3⟩ := hc
      exact ⟨n, h1, h2, fun h => h3 (hok2 h)⟩
    | idle =>
      simp only [hw] at hc ⊢
      obtain ⟨n, h1, h2, h3⟩ := hc
      exact ⟨n, h1, h2, fun h => h3 (hok2 h)⟩
    | check =>
      simp only [hw] at hc ⊢
      obtain ⟨n, h1, h2, h3⟩ := hc
      exact ⟨n, h1, h2, fun h => h3 (hok2 h)⟩
    | exited =>
      simp only [hw] at hc ⊢
      obtain ⟨n, h1, h2, h3⟩ := hc
      exact ⟨n, h1, h2, fun h => h3 (hok2 h)⟩
  posBefore := by
    intro ho
    simp only at ho
    cases ho' : s.ok with
    | true => exact h.posBefore ho'
    | false => rw [hok ho'] at ho; cases ho
  failed := by
    intro ho
    rcases hfail ho with h1 | ⟨i, h1⟩
    · exact h.failed h1
    · exact .inr (execAll_none h1)
  failing := h.failing
  flushReq := h.flushReq
  flushed := h.flushed
  notFlushed := fun i w hi => hok (h.notFlushed i w hi)
  notClosing := h.notClosing
  closing := h.closing
  exited := h.exited
  exitedQ := h.exitedQ
  closed := by
    intro a b hp
    obtain ⟨h1, h2⟩ := h.closed a b hp
    obtain ⟨c, hc⟩ := h.exited_ready (h.exited.1 h1) hx
    exact absurd hc (hxr c)

/-- Enqueuing a request which is not `DoneRequest`, together with allocating promises. -/
theorem Inv.enq {w0 : κ} {s s' : St κ α} (h : Inv W w0 s) (r : Req) (hr : r ≠ .done)
    (hann : (∃ a, r = .annotate a) ∨ ¬ s.pc.closing)
    (hcw : s'.cw = s.cw) (hok : s'.ok = s.ok) (hq : s'.queue = s.queue ++ [r]) (hpb : s'.posBefore = s.posBefore)
    (hds : s'.doneSet = s.doneSet) (hw : s'.wpc = s.wpc) (hh : s'.hist = s.hist ++ [r])
    (hn : s'.handled = s.handled)
    (hch : ∀ (id : Nat) (st : CSt), s.chunks[id]? = some st → ∃ st', s'.chunks[id]? = some st' ∧
      ∀ res, Match s.ok res st → Match s.ok res st')
    (hrd : ∀ (id : Nat) (c : Chunk), s.chunks[id]? = some (.ready c) → s'.chunks[id]? = some (.ready c))
    (hch2 : ∀ (id : Nat) (st : CSt), s'.chunks[id]? = some st → (∃ st', s.chunks[id]? = some st') ∨ ∃ res, r = .chunk id res)
    (hr1 : ∀ (id : Nat) (res : Option Chunk), r = .chunk id res → ∃ st, s'.chunks[id]? = some st ∧ Match s.ok res st)
    (hsc : ∀ (id : Nat) (check : Bool) (res : Option Chunk) (k : Bool → Prog α), s'.pc = .schedule id check res k → s'.chunks[id]? = some .unscheduled ∧
      (s.pc = .schedule id check res k ∧ (∀ res', r ≠ .chunk id res') ∨
       (r = .chunk id res ∧ s.chunks[id]? = none)))
    (hcf : s.clientFailed = true → s'.clientFailed = true)
    (hfail : (∃ a k, s'.pc = .waitAnnotate a k) ∨ (∃ k, s'.pc = .setFail k) → s'.clientFailed = true)
    (hfl : ∀ i : Nat, (∃ o, s'.flushes[i]? = some (some o)) → s'.flushes[i]? = s.flushes[i]?)
    (hfl2 : s.flushes.length ≤ s'.flushes.length) (hfl3 : ∀ i, r = .flush i → i < s'.flushes.length)
    (hpc : s'.pc.closing ↔ s.pc.closing) (hpc2 : ∀ a b, s'.pc = .closed a b → s.pc = .closed a b) :
    Inv W w0 s' := by
  have hmem : ∀ x, x ∈ s'.hist → x ∈ s.hist ∨ x = r := by
    intro x hx; rw [hh] at hx; simpa using hx
  have htake : s'.hist.take s'.handled = s.hist.take s.handled := by
    rw [hh, hn, List.take_append_of_le_length h.le]
  have hget : ∀ (n : Nat) x, s.hist[n]? = some x → s'.hist[n]? = some x := by
    intro n x hx
    rw [hh, List.getElem?_append_left]
    · exact hx
    · exact (List.getElem?_eq_some_iff.1 hx).1
  have hlen : s.handled < s.hist.length → s'.hist.take (s'.handled + 1) = s.hist.take (s.handled + 1) := by
    intro hlt
    rw [hh, hn, List.take_append_of_le_length (by omega)]
  have hleg : ∀ m, m ≤ s.hist.length → s'.hist.take m = s.hist.take m := by
    intro m hm
    rw [hh, List.take_append_of_le_length hm]
  constructor
  case queue => rw [hq, h.queue, hh, hn, List.drop_append_of_le_length h.le]
  case le => rw [hh, hn, List.length_append]; exact Nat.le_trans h.le (by omega)
  case ready =>
    intro n id res hx hor
    have hlt : n < s.hist.length ∨ s.wpc.obtained ∧ n = s.handled := by
      rw [hn, hw] at hor
      rcases hor with h1 | h1
      · exact .inl (Nat.lt_of_lt_of_le h1 h.le)
      · exact .inr ⟨h1.2, h1.1⟩
    have hlt : n < s.hist.length := by
      rcases hlt with h1 | ⟨h1, rfl⟩
      · exact h1
      · apply h.handled_le (h.busy ?_)
        intro he; rw [he] at h1; exact h1
    rw [hh, List.getElem?_append_left hlt] at hx
    obtain ⟨c, hc⟩ := h.ready n id res hx (by rw [hn, hw] at hor; exact hor)
    exact ⟨c, hrd id c hc⟩
  case busy => intro he; rw [hq]; simp
  case chunks =>
    intro id res hm
    rcases hmem _ hm with hm | hm
    · obtain ⟨st, h1, h2⟩ := h.chunks id res hm
      obtain ⟨st', h3, h4⟩ := hch id st h1
      exact ⟨st', h3, by rw [hok]; exact h4 res h2⟩
    · rw [hok]; exact hr1 id res hm.symm
  case chunkReq =>
    intro id st hst
    rcases hch2 id st hst with ⟨st', h1⟩ | ⟨res, rfl⟩
    · obtain ⟨res, h2⟩ := h.chunkReq id st' h1
      exact ⟨res, by rw [hh]; exact List.mem_append_left _ h2⟩
    · exact ⟨res, by rw [hh]; simp⟩
  case sched =>
    intro id check res k hp
    obtain ⟨h1, h2⟩ := hsc id check res k hp
    refine ⟨h1, fun res' hm => ?_⟩
    rcases h2 with ⟨h3, h4⟩ | ⟨rfl, h4⟩
    · rcases hmem _ hm with hm | hm
      · exact (h.sched id check res k h3).2 res' hm
      · exact absurd hm.symm (h4 res')
    · rcases hmem _ hm with hm | hm
      · obtain ⟨st, h5, _⟩ := h.chunks id res' hm
        rw [h4] at h5; cases h5
      · cases hm; rfl
  case cw =>
    have hc := h.cw
    have hb := h.busy
    unfold CwInv at hc ⊢
    rw [hw]
    cases hwp : s.wpc with
    | act =>
      rw [hwp] at hb
      have hlt := h.handled_le (hb (by simp))
      simp only [hwp] at hc ⊢
      rw [htake, hcw]
      refine ⟨hc.1, fun id res q hqq => ?_⟩
      rw [hq] at hqq
      cases hqs : s.queue with
      | nil => exact absurd hqs (hb (by simp))
      | cons x xs =>
        rw [hqs] at hqq
        simp only [List.cons_append, List.cons.injEq] at hqq
        obtain ⟨rfl, _⟩ := hqq
        obtain ⟨c, h1, h2⟩ := hc.2 id res xs hqs
        exact ⟨c, hrd id c h1, h2⟩
    | failing =>
      rw [hwp] at hb
      have hlt := h.handled_le (hb (by simp))
      simp only [hwp] at hc ⊢
      rw [hlen hlt, hcw]; exact hc
    | fin =>
      rw [hwp] at hb
      have hlt := h.handled_le (hb (by simp))
      simp only [hwp] at hc ⊢
      obtain ⟨n, h1, h2, h3⟩ := hc
      refine ⟨n, by rw [hn]; exact h1, ?_, ?_⟩
      · rw [hleg n (by omega), hcw]; exact h2
      · rw [hok, hlen hlt, hcw]; exact h3
    | idle =>
      simp only [hwp] at hc ⊢
      obtain ⟨n, h1, h2, h3⟩ := hc
      have := h.le
      refine ⟨n, by rw [hn]; exact h1, ?_, ?_⟩
      · rw [hleg n (by omega), hcw]; exact h2
      · rw [hok, htake, hcw]; exact h3
    | check =>
      simp only [hwp] at hc ⊢
      obtain ⟨n, h1, h2, h3⟩ := hc
      have := h.le
      refine ⟨n, by rw [hn]; exact h1, ?_, ?_⟩
      · rw [hleg n (by omega), hcw]; exact h2
      · rw [hok, htake, hcw]; exact h3
    | exited =>
      simp only [hwp] at hc ⊢
      obtain ⟨n, h1, h2, h3⟩ := hc
      have := h.le
      refine ⟨n, by rw [hn]; exact h1, ?_, ?_⟩
      · rw [hleg n (by omega), hcw]; exact h2
      · rw [hok, htake, hcw]; exact h3
  case posBefore => rw [hok, hpb, htake]; exact h.posBefore
  case failed =>
    rw [hok]; intro ho
    rcases h.failed ho with h1 | h1
    · exact .inl (hcf h1)
    · refine .inr ?_
      apply execAll_take_false (n := s.hist.length)
      rw [hleg _ (Nat.le_refl _), List.take_length]; exact h1
  case failing => exact hfail
  case flushReq =>
    intro i hi
    rcases hmem _ hi with hi | hi
    · exact Nat.lt_of_lt_of_le (h.flushReq i hi) hfl2
    · exact hfl3 i hi.symm
  case flushed =>
    intro i w hi
    rw [hfl i ⟨_, hi⟩] at hi
    obtain ⟨n, h1, h2⟩ := h.flushed i w hi
    refine ⟨n, hget n _ h1, ?_⟩
    rw [hleg]
    · exact h2
    · exact (List.getElem?_eq_some_iff.1 h1).1
  case notFlushed =>
    intro i w hi
    rw [hfl i ⟨_, hi⟩] at hi
    rw [hok]; exact h.notFlushed i w hi
  case notClosing =>
    intro hc
    obtain ⟨h1, h2⟩ := h.notClosing (fun h => hc (hpc.2 h))
    refine ⟨fun hm => ?_, by rw [hds]; exact h2⟩
    rcases hmem _ hm with hm | hm
    · exact h1 hm
    · exact hr hm.symm
  case closing =>
    intro hc
    have hc := hpc.1 hc
    rcases hann with ⟨a, rfl⟩ | h1
    · rw [hh]; exact (h.closing hc).snoc_annotate a
    · exact absurd hc h1
  case exited => rw [hds, hw]; exact h.exited
  case exitedQ =>
    rw [hw, hq]; intro he
    obtain ⟨q, h1⟩ := h.exitedQ he
    exact ⟨q ++ [r], by rw [h1]; rfl⟩
  case closed =>
    intro a b hp
    rw [hds, hok]; exact h.closed a b (hpc2 a b hp)

/-- Encoding tasks preserve the invariant. -/
theorem Inv.task {w0 : κ} {s s' : St κ α} (h : Inv W w0 s) (hs : TStep par junk s s') : Inv W w0 s' := by
  cases hs with
  | @skip id res hx ho =>
    exact h.setChunk (ok' := s.ok) hx (by simp) (by simp) (fun h => h) (fun h => .inl h) (fun r _ => .inr ho)
  | @encode id check c hx ho =>
    exact h.setChunk (ok' := s.ok) hx (by simp) (by simp) (fun h => h) (fun h => .inl h) (fun r hm => .inl hm.symm)
  | @encodeFail id check hx ho =>
    exact h.setChunk (ok' := s.ok) hx (by simp) (by simp) (fun h => h) (fun h => .inl h) (fun r hm => hm.symm)
  | @annotate id hx hcap =>
    have hlt : id < s.chunks.length := (List.getElem?_eq_some_iff.1 hx).1
    refine h.enq (.annotate s.annots.length) (by simp) (.inl ⟨_, rfl⟩) rfl rfl rfl rfl rfl rfl rfl rfl ?_ ?_ ?_ (by simp) ?_
      (fun h => h) h.failing (fun _ _ => rfl) (Nat.le_refl _) (by simp) Iff.rfl (fun _ _ h => h)
    · intro id' st hst
      by_cases hi : id = id'
      · subst hi
        rw [hx] at hst
        cases hst
        exact ⟨.waiting s.annots.length, by simp [hlt], fun res hm => hm⟩
      · exact ⟨st, by simp [hi, hst], fun _ h => h⟩
    · intro id' c hc
      exact getElem?_set_ne' hx hc (by simp)
    · intro id' st hst
      simp only [List.getElem?_set] at hst
      split at hst
      · rename_i hi; subst hi; exact .inl ⟨_, hx⟩
      · exact .inl ⟨st, hst⟩
    · intro id' check res k hp
      exact ⟨getElem?_set_ne' hx (h.sched id' check res k hp).1 (by simp), .inl ⟨hp, by simp⟩⟩
  | @answer id a hx ha =>
    exact h.setChunk (ok' := s.ok) hx (by simp) (by simp) (fun h => h) (fun h => .inl h) (fun r hm => hm)
  | @fail id hx =>
    obtain ⟨res, hr⟩ := h.chunkReq id _ hx
    obtain ⟨st, h1, h2⟩ := h.chunks id res hr
    rw [hx] at h1
    cases h1
    cases h2
    exact h.setChunk (ok' := false) hx (by simp) (by simp) (fun _ => rfl) (fun _ => .inr ⟨id, hr⟩) (fun r _ => .inr rfl)
  | @header id c hx =>
    exact h.setChunk (ok' := s.ok) hx (by simp) (by simp) (fun h => h) (fun h => .inl h) (fun r hm => hm)
  | @chunk id c hx =>
    exact h.setChunk (ok' := s.ok) hx (by simp) (by simp) (fun h => h) (fun h => .inl h) (fun r hm => hm)

/-- The client moves on without closing, failing or scheduling. -/
theorem Inv.setPc {w0 : κ} {s : St κ α} (h : Inv W w0 s) {pc' : Pc α} (snaps' : List (Nat × List Act))
    (h1 : ∀ id check res k, pc' ≠ .schedule id check res k)
    (h2 : (∃ a k, pc' = .waitAnnotate a k) ∨ (∃ k, pc' = .setFail k) → s.clientFailed = true)
    (h3 : ¬ pc'.closing) (h4 : ¬ s.pc.closing) : Inv W w0 { s with snaps := snaps', pc := pc' } where
  queue := h.queue
  le := h.le
  busy := h.busy
  chunks := h.chunks
  chunkReq := h.chunkReq
  ready := h.ready
  sched := fun id check res k hp => absurd hp (h1 id check res k)
  cw := h.cw
  posBefore := h.posBefore
  failed := h.failed
  failing := h2
  flushReq := h.flushReq
  flushed := h.flushed
  notFlushed := h.notFlushed
  notClosing := fun _ => h.notClosing h4
  closing := fun hc => absurd hc h3
  exited := h.exited
  exitedQ := h.exitedQ
  closed := fun a b hp => absurd (by simp only at hp; rw [hp]; trivial) h3

theorem getElem?_snoc {β : Type} {l : List β} {x y : β} {i : Nat} (h : l[i]? = some y) : (l ++ [x])[i]? = some y := by
  rw [List.getElem?_append_left]
  · exact h
  · exact (List.getElem?_eq_some_iff.1 h).1

/-- The client preserves the invariant. -/
theorem Inv.client {w0 : κ} {s s' : St κ α} (h : Inv W w0 s) (hs : CStep par s s') : Inv W w0 s' := by
  cases hs with
  | @chunk src k hp =>
    apply h.setPc s.snaps <;> (try split) <;> simp [Pc.closing, hp]
  | @enqChunk src k hp hcap =>
    have hfresh : s.chunks[s.chunks.length]? = none := by simp
    refine h.enq (.chunk s.chunks.length src.result) (by simp) (.inr (by simp [hp, Pc.closing])) rfl rfl rfl rfl rfl rfl rfl rfl
      ?_ ?_ ?_ ?_ ?_ (fun h => h) ?_ (fun _ _ => rfl) (Nat.le_refl _) (by simp) ?_ ?_
    · intro id st hst; exact ⟨st, getElem?_snoc hst, fun _ h => h⟩
    · intro id c hc; exact getElem?_snoc hc
    · intro id st hst
      simp only at hst
      rcases Nat.lt_or_ge id s.chunks.length with hlt | hge
      · rw [List.getElem?_append_left hlt] at hst; exact .inl ⟨st, hst⟩
      · have := (List.getElem?_eq_some_iff.1 hst).1
        simp at this
        have : id = s.chunks.length := by omega
        subst this; exact .inr ⟨_, rfl⟩
    · intro id res he
      simp only [Req.chunk.injEq] at he
      obtain ⟨rfl, rfl⟩ := he
      refine ⟨(src.enqueued s.chunks.length k).1, by simp, ?_⟩
      cases src <;> simp [Src.enqueued, Match, Src.result]
    · intro id check res k' hpc
      cases src <;> simp only [Src.enqueued, reduceCtorEq, Pc.schedule.injEq] at hpc
      · obtain ⟨rfl, rfl, rfl, _⟩ := hpc
        exact ⟨by simp [Src.enqueued], .inr ⟨rfl, hfresh⟩⟩
      · obtain ⟨rfl, rfl, rfl, _⟩ := hpc
        exact ⟨by simp [Src.enqueued], .inr ⟨rfl, hfresh⟩⟩
    · intro hpc
      exfalso
      cases src <;> simp [Src.enqueued] at hpc
    · cases src <;> simp [Src.enqueued, hp, Pc.closing]
    · intro a b hpc
      exfalso
      cases src <;> simp [Src.enqueued] at hpc
  | @schedule id check res k hp =>
    obtain ⟨hu, hr⟩ := h.sched id check res k hp
    have hlt : id < s.chunks.length := (List.getElem?_eq_some_iff.1 hu).1
    exact {
      queue := h.queue
      le := h.le
      busy := h.busy
      chunks := by
        intro id' res' hm
        obtain ⟨st, h1, h2⟩ := h.chunks id' res' hm
        by_cases hi : id = id'
        · subst hi
          exact ⟨.start check res, by simp [hlt], (hr res' hm).symm⟩
        · exact ⟨st, by simp [hi, h1], h2⟩
      chunkReq := by
        intro id' st hst
        simp only [List.getElem?_set] at hst
        split at hst
        · rename_i hi; subst hi; exact h.chunkReq id _ hu
        · exact h.chunkReq id' st hst
      ready := by
        intro n id' res' hn hor
        obtain ⟨c, hc⟩ := h.ready n id' res' hn hor
        exact ⟨c, getElem?_set_ne' hu hc (by simp)⟩
      sched := by intro id' check' res' k' hp'; simp at hp'
      cw := by
        have hc := h.cw
        unfold CwInv at hc ⊢
        cases hw : s.wpc with
        | act =>
          simp only [hw] at hc ⊢
          refine ⟨hc.1, fun id' res' q hq => ?_⟩
          obtain ⟨c, h1, h2⟩ := hc.2 id' res' q hq
          exact ⟨c, getElem?_set_ne' hu h1 (by simp), h2⟩
        | _ => simp only [hw] at hc ⊢; exact hc
      posBefore := h.posBefore
      failed := h.failed
      failing := by simp
      flushReq := h.flushReq
      flushed := h.flushed
      notFlushed := h.notFlushed
      notClosing := fun _ => h.notClosing (by simp [hp, Pc.closing])
      closing := by simp [Pc.closing]
      exited := h.exited
      exitedQ := h.exitedQ
      closed := by simp }
  | @pad p k hp =>
    apply h.setPc s.snaps <;> (try split) <;> simp [Pc.closing, hp]
  | @enqPad p k hp hcap =>
    exact h.enq (.pad p) (by simp) (.inr (by simp [hp, Pc.closing])) rfl rfl rfl rfl rfl rfl rfl rfl
      (fun id st h => ⟨st, h, fun _ h => h⟩) (fun _ _ h => h) (fun _ st h => .inl ⟨st, h⟩) (by simp) (by simp) (fun h => h)
      (by simp) (fun _ _ => rfl) (Nat.le_refl _) (by simp) (by simp [hp, Pc.closing]) (by simp)
  | @futureFlush k hp hcap =>
    refine h.enq (.flush s.flushes.length) (by simp) (.inr (by simp [hp, Pc.closing])) rfl rfl rfl rfl rfl rfl rfl rfl
      (fun id st h => ⟨st, h, fun _ h => h⟩) (fun _ _ h => h) (fun _ st h => .inl ⟨st, h⟩) (by simp) (by simp) (fun h => h)
      (by simp) ?_ (by simp) ?_ (by simp [hp, Pc.closing]) (by simp)
    · intro i ⟨o, ho⟩
      simp only at ho ⊢
      rcases Nat.lt_or_ge i s.flushes.length with hlt | hge
      · rw [List.getElem?_append_left hlt]
      · rw [List.getElem?_append_right hge] at ho
        cases hi : i - s.flushes.length with
        | zero => rw [hi] at ho; simp at ho
        | succ j => rw [hi] at ho; simp at ho
    · intro i hi; simp only [Req.flush.injEq] at hi; subst hi; simp
  | @getFlush i k b w hp hb =>
    apply h.setPc s.snaps <;> simp [Pc.closing, hp]
  | @getNoFlush i k hp hb =>
    apply h.setPc s.snaps <;> simp [Pc.closing, hp]
  | @chunkBegin k hp =>
    apply h.setPc <;> simp [Pc.closing, hp]
  | @getPos i k p hp hb =>
    apply h.setPc s.snaps <;> simp [Pc.closing, hp]
  | @getNoPos i k hp hb =>
    apply h.setPc s.snaps <;> simp [Pc.closing, hp]
  | @ok k hp =>
    apply h.setPc s.snaps <;> simp [Pc.closing, hp]
  | @fail k hp hcap =>
    exact h.enq (.annotate s.annots.length) (by simp) (.inl ⟨_, rfl⟩) rfl rfl rfl rfl rfl rfl rfl rfl
      (fun id st h => ⟨st, h, fun _ h => h⟩) (fun _ _ h => h) (fun _ st h => .inl ⟨st, h⟩) (by simp) (by simp) (fun _ => rfl)
      (fun _ => rfl) (fun _ _ => rfl) (Nat.le_refl _) (by simp) (by simp [hp, Pc.closing]) (by simp)
  | @answer a k hp ha =>
    have := h.failing (.inl ⟨a, k, hp⟩)
    apply h.setPc s.snaps <;> simp [Pc.closing, hp, this]
  | @setFail k hp =>
    have hf := h.failing (.inr ⟨k, hp⟩)
    exact {
      queue := h.queue
      le := h.le
      busy := h.busy
      chunks := by
        intro id res hm
        obtain ⟨st, h1, h2⟩ := h.chunks id res hm
        exact ⟨st, h1, h2.mono (fun _ => rfl)⟩
      chunkReq := h.chunkReq
      ready := h.ready
      sched := by simp
      cw := by
        have hc := h.cw
        unfold CwInv at hc ⊢
        cases hw : s.wpc with
        | act => simp only [hw] at hc ⊢; exact hc
        | failing => simp only [hw] at hc ⊢; exact hc
        | _ =>
          simp only [hw] at hc ⊢
          obtain ⟨n, h1, h2, h3⟩ := hc
          exact ⟨n, h1, h2, by simp⟩
      posBefore := by simp
      failed := fun _ => .inl hf
      failing := by simp
      flushReq := h.flushReq
      flushed := h.flushed
      notFlushed := fun _ _ _ => rfl
      notClosing := fun _ => h.notClosing (by simp [hp, Pc.closing])
      closing := by simp [Pc.closing]
      exited := h.exited
      exitedQ := h.exitedQ
      closed := by simp }
  | @close a hp =>
    have hnc := h.notClosing (by simp [hp, Pc.closing])
    have h1 : Inv W w0 { s with pc := .waitDone a, hist := s.hist ++ [.done], queue := s.queue ++ [.done] } := by
      have hleg : ∀ m, m ≤ s.hist.length → (s.hist ++ [Req.done]).take m = s.hist.take m := by
        intro m hm
        rw [List.take_append_of_le_length hm]
      have hmem : ∀ x, x ∈ s.hist ++ [Req.done] → x ∈ s.hist ∨ x = .done := by
        intro x hx; simpa using hx
      have hle := h.le
      exact {
        queue := by simp only; rw [h.queue, List.drop_append_of_le_length h.le]
        le := by simp only [List.length_append]; omega
        busy := by simp
        chunks := by
          intro id res hm
          rcases hmem _ hm with hm | hm
          · exact h.chunks id res hm
          · cases hm
        chunkReq := by
          intro id st hst
          obtain ⟨res, hr⟩ := h.chunkReq id st hst
          exact ⟨res, List.mem_append_left _ hr⟩
        ready := by
          intro n id res hn hor
          have hlt : n < s.hist.length := by
            rcases Nat.lt_or_ge n s.hist.length with h1 | h1
            · exact h1
            · simp only at hn
              rw [List.getElem?_append_right h1] at hn
              cases hj : n - s.hist.length with
              | zero => rw [hj] at hn; simp at hn
              | succ j => rw [hj] at hn; simp at hn
          simp only at hn
          rw [List.getElem?_append_left hlt] at hn
          exact h.ready n id res hn hor
        sched := by simp
        cw := by
          have hc := h.cw
          have hb := h.busy
          unfold CwInv at hc ⊢
          cases hw : s.wpc with
          | act =>
            rw [hw] at hb
            simp only [hw] at hc ⊢
            rw [hleg _ hle]
            refine ⟨hc.1, fun id res q hqq => ?_⟩
            cases hqs : s.queue with
            | nil => exact absurd hqs (hb (by simp))
            | cons x xs =>
              rw [hqs] at hqq
              simp only [List.cons_append, List.cons.injEq] at hqq
              obtain ⟨rfl, _⟩ := hqq
              exact hc.2 id res xs hqs
          | failing =>
            rw [hw] at hb
            have hlt := h.handled_le (hb (by simp))
            simp only [hw] at hc ⊢
            rw [hleg _ hlt]; exact hc
          | fin =>
            rw [hw] at hb
            have hlt := h.handled_le (hb (by simp))
            simp only [hw] at hc ⊢
            obtain ⟨n, h1, h2, h3⟩ := hc
            rw [hleg _ hlt]
            exact ⟨n, h1, by rw [hleg _ (by omega)]; exact h2, h3⟩
          | _ =>
            simp only [hw] at hc ⊢
            obtain ⟨n, h1, h2, h3⟩ := hc
            rw [hleg _ hle]
            exact ⟨n, h1, by rw [hleg _ (by omega)]; exact h2, h3⟩
        posBefore := by simp only; rw [hleg _ hle]; exact h.posBefore
        failed := by
          intro ho
          rcases h.failed ho with h1 | h1
          · exact .inl h1
          · exact .inr (execAll_take_false (n := s.hist.length) (by
              simp only; rw [hleg _ (Nat.le_refl _), List.take_length]; exact h1))
        failing := by simp
        flushReq := by
          intro i hi
          rcases hmem _ hi with hi | hi
          · exact h.flushReq i hi
          · cases hi
        flushed := by
          intro i w hi
          obtain ⟨n, h1, h2⟩ := h.flushed i w hi
          exact ⟨n, getElem?_snoc h1, by simp only; rw [hleg _ (List.getElem?_eq_some_iff.1 h1).1]; exact h2⟩
        notFlushed := h.notFlushed
        notClosing := fun hn => absurd trivial hn
        closing := fun _ => ⟨s.hist, [], rfl, hnc.1, by simp⟩
        exited := h.exited
        exitedQ := by
          intro he
          obtain ⟨q, h1⟩ := h.exitedQ he
          exact ⟨q ++ [.done], by simp only; rw [h1]; rfl⟩
        closed := by simp }
    exact h1
  | @closed a hp hd =>
    have hdl := h.closing (by rw [hp]; trivial)
    exact {
      queue := h.queue
      le := h.le
      busy := h.busy
      chunks := h.chunks
      chunkReq := h.chunkReq
      ready := h.ready
      sched := by simp
      cw := h.cw
      posBefore := h.posBefore
      failed := h.failed
      failing := by simp
      flushReq := h.flushReq
      flushed := h.flushed
      notFlushed := h.notFlushed
      notClosing := fun hn => absurd trivial hn
      closing := fun _ => hdl
      exited := h.exited
      exitedQ := h.exitedQ
      closed := fun a' b he => by
        simp only [Pc.closed.injEq] at he
        exact ⟨hd, he.2.symm⟩ }

theorem Inv.step {w0 : κ} {s s' : St κ α} (h : Inv W w0 s) (hs : Step W par junk s s') : Inv W w0 s' := by
  cases hs with
  | writer hs => exact h.writer hs
  | task hs => exact h.task hs
  | client hs => exact h.client hs

theorem Inv.reach {w0 : κ} {p : Prog α} {s : St κ α} (h : Reach W par junk (St.init W w0 p) s) : Inv W w0 s := by
  induction h with
  | refl => exact Inv.init w0 p
  | step _ hs ih => exact ih.step hs

end Riegeli.Par

import Verif.ParallelWriterConv
import Verif.ParallelDoom
import Verif.Props.Writing
import Verif.Props.Chunks
/-!
# C17, C34: `RecordWriter` with `parallelism > 0`

`Par.Reach W par junk (St.init W w0 p) s`: some schedule of the client thread, the chunk writer thread and the encoder
threads leads to the state `s`. The specification is `Prog.serial` and `Client.serial`: the same sequence of calls with
`parallelism == 0`, and `execAll`: executing requests one after another.
-/
namespace Riegeli.Props
open Riegeli Riegeli.Par

section
variable {κ α : Type} {W : CW κ} {par : Nat} {junk : Chunk}

theorem prefix_getElem? {β : Type} {l l' : List β} (h : l <+: l') {i : Nat} {x : β} (hi : l[i]? = some x) :
    l'[i]? = some x := by
  obtain ⟨t, rfl⟩ := h
  rw [List.getElem?_append_left (List.getElem?_eq_some_iff.1 hi).1]; exact hi

/-- **C17** (worker). If the program run with the serial worker succeeds, with the result `f`, then in every state which
any schedule of the parallel worker leads to: the worker has not failed; a position which a future already yields is the
one which the serial worker returned; a flush which has finished succeeded, with the chunk writer in the same state in
which the serial worker flushed it; and when `Close()` has returned, it returned true, the program computed the same
value, the destination is the same, and all futures have been fulfilled. -/
theorem C17_worker_every_schedule {I : κ → Prop} {G : Chunk → Prop} {Q : Nat → Prop} (hW : W.Lawful I G Q) {w0 : κ}
    (hI : I w0) {p : Prog α} (hp : p.All (fun src => ∀ c, src.result = some c → G c) Q) {f : Ser κ × α}
    (hf : p.serial W ⟨w0, [], []⟩ = some f) {s : St κ α} (hr : Par.Reach W par junk (St.init W w0 p) s) :
    s.ok = true ∧
    (∀ h pos, s.position h = some pos → f.1.snaps[h]? = some pos) ∧
    (∀ (i : Nat) b w, s.flushes[i]? = some (some (b, w)) → b = true ∧ f.1.flushes[i]? = some w) ∧
    (∀ a b, s.pc = .closed a b → a = f.2 ∧ b = true ∧ s.cw = f.1.cw ∧
      (∀ h : Nat, h < f.1.snaps.length → s.position h = f.1.snaps[h]?)) := by
  obtain ⟨σ, hs⟩ := Sim.reach hW hI hp hf hr
  have hi := Inv.reach hr
  have hg := ProgInv.reach hp hr
  have hok := hs.ok hi
  have hpos : ∀ h pos, s.position h = some pos → f.1.snaps[h]? = some pos := by
    intro h pos hh
    unfold St.position at hh
    split at hh
    · cases hh
    · rename_i q acts hsn
      obtain ⟨y, h1, h2⟩ := hs.sval h q acts hsn
      have : pos = y := by
        refine resolve_eq acts ?_ q pos y hh h2
        intro id res hm
        obtain ⟨r, h3, h4⟩ := hg.snaps q acts (List.mem_of_getElem? hsn) _ hm
        cases r <;> simp only [Req.act, Option.some.injEq, Act.chunk.injEq, reduceCtorEq] at h4
        obtain ⟨rfl, rfl⟩ := h4
        have := hi.chunks _ _ h3
        rw [hok] at this; exact this
      subst this
      exact prefix_getElem? hs.rest.mono.1 h1
  refine ⟨hok, hpos, ?_, ?_⟩
  · intro i b w hb
    cases b with
    | false => rw [hi.notFlushed i w hb] at hok; cases hok
    | true =>
      obtain ⟨n, h1, h2⟩ := hi.flushed i w hb
      have h3 := hs.fval n i h1
      rw [h2] at h3
      exact ⟨rfl, prefix_getElem? hs.rest.mono.2 h3⟩
  · intro a b hc
    obtain ⟨h1, h2⟩ := hi.closed a b hc
    have hrest := hs.rest
    rw [hc] at hrest
    simp only [Rest] at hrest
    subst hrest
    have hex := hi.exited.1 h1
    have hcw := hi.cw
    unfold CwInv at hcw
    rw [hex] at hcw
    obtain ⟨n, _, _, h3⟩ := hcw
    have h3 := h3 hok
    -- everything which matters has been handled
    obtain ⟨q, hq⟩ := hi.exitedQ hex
    have hqd := hi.queue; rw [hq] at hqd
    have h4 := hs.exec
    rw [← List.take_append_drop s.handled s.hist, execAll_append, h3, ← hqd] at h4
    have hall : ∀ r ∈ Req.done :: q, r = .done ∨ ∃ a, r = .annotate a := by
      obtain ⟨pre, post, e, e1, e2⟩ := hi.closing (by rw [hc]; trivial)
      intro r hm
      rcases List.mem_cons.1 hm with rfl | hm
      · exact .inl rfl
      · have h5 : s.hist[s.handled]? = some .done := (take_succ_of_drop hqd.symm).2.1
        have hge : pre.length ≤ s.handled := by
          apply Nat.le_of_not_lt; intro hlt
          rw [e, List.getElem?_append_left hlt] at h5
          exact e1 (List.mem_of_getElem? h5)
        rw [e, List.drop_append] at hqd
        rw [List.drop_eq_nil_of_le hge, List.nil_append] at hqd
        have hm2 : r ∈ (Req.done :: post).drop (s.handled - pre.length) := by rw [← hqd]; exact List.mem_cons_of_mem _ hm
        rcases List.mem_cons.1 (List.mem_of_mem_drop hm2) with h6 | h6
        · exact .inl h6
        · exact .inr (e2 r h6)
    have hcw2 : s.cw = σ.cw := by
      have : ∀ l : List Req, (∀ r ∈ l, r = .done ∨ ∃ a, r = .annotate a) →
          ∀ x, l.foldl (Req.exec W) (x, true) = (x, true) := by
        intro l
        induction l with
        | nil => intro _ x; rfl
        | cons r l ih =>
          intro hl x
          rw [List.foldl_cons]
          rcases hl r (by simp) with rfl | ⟨a, rfl⟩ <;> exact ih (fun r hm => hl r (List.mem_cons_of_mem _ hm)) x
      rw [this _ hall] at h4
      exact (Prod.mk.inj h4).1
    refine ⟨rfl, by rw [h2, hok], hcw2, ?_⟩
    intro h hlt
    have hlt' : h < s.snaps.length := by rw [hs.slen]; exact hlt
    obtain ⟨y, hy⟩ := hs.position_all hi hg (fun id res hm => by
      obtain ⟨st, h5, _⟩ := hi.chunks id res hm
      obtain ⟨c, rfl⟩ := hi.exited_ready hex h5
      exact ⟨c, h5⟩) (List.getElem?_eq_getElem hlt')
    rw [hy]; exact (hpos h y hy).symm

/-- **C17** (no deadlock). Unless `Close()` has returned, some thread may make a step; and no schedule is infinite. Hence
every maximal schedule makes `Close()` return. -/
theorem C17_worker_finishes {I : κ → Prop} {G : Chunk → Prop} {Q : Nat → Prop} (hW : W.Lawful I G Q) {w0 : κ}
    (hI : I w0) (hpar : 0 < par) {p : Prog α} (hp : p.All (fun src => ∀ c, src.result = some c → G c) Q)
    {f : Ser κ × α} (hf : p.serial W ⟨w0, [], []⟩ = some f) {s : St κ α}
    (hr : Par.Reach W par junk (St.init W w0 p) s) :
    ((∃ a b, s.pc = .closed a b) ∨ ∃ s', Par.Step W par junk s s') ∧ Acc (fun b a => Par.Step W par junk a b) s :=
  ⟨progress_serial hW hI hpar hp hf hr, ends s⟩

/-- **C17** (failures). For every program, every chunk writer (which may fail at any point), every failure of encoding and
every schedule: the destination is always the result of executing the first `n` requests one after another up to the
first failure, for some `n`; if `Close()` returned true then all of them were executed and none has failed; and if a
flush succeeded then all requests made before it were executed, without a failure. -/
theorem C17_worker_failures {w0 : κ} {p : Prog α} {s : St κ α} (hr : Par.Reach W par junk (St.init W w0 p) s) :
    (∃ n, (execAll W w0 (s.hist.take n)).1 = s.cw) ∧
    (∀ a, s.pc = .closed a true → execAll W w0 s.hist = (s.cw, true)) ∧
    (∀ (i : Nat) w, s.flushes[i]? = some (some (true, w)) →
      ∃ n : Nat, s.hist[n]? = some (.flush i) ∧ execAll W w0 (s.hist.take (n + 1)) = (w, true)) := by
  have hi := Inv.reach hr
  refine ⟨?_, ?_, hi.flushed⟩
  · have hcw := hi.cw
    unfold CwInv at hcw
    split at hcw
    · exact ⟨s.handled, by rw [hcw.1]⟩
    · exact ⟨s.handled + 1, by rw [hcw]⟩
    · obtain ⟨n, _, h, _⟩ := hcw; exact ⟨n, h⟩
    · obtain ⟨n, _, h, _⟩ := hcw; exact ⟨n, h⟩
  · intro a hc
    obtain ⟨h1, h2⟩ := hi.closed a true hc
    have hex := hi.exited.1 h1
    have hcw := hi.cw
    unfold CwInv at hcw
    rw [hex] at hcw
    obtain ⟨n, _, _, h3⟩ := hcw
    have h3 := h3 h2.symm
    obtain ⟨q, hq⟩ := hi.exitedQ hex
    have hqd := hi.queue; rw [hq] at hqd
    obtain ⟨pre, post, e, e1, e2⟩ := hi.closing (by rw [hc]; trivial)
    have hall : ∀ r ∈ Req.done :: q, r = .done ∨ ∃ a, r = .annotate a := by
      intro r hm
      rcases List.mem_cons.1 hm with rfl | hm
      · exact .inl rfl
      · have h5 : s.hist[s.handled]? = some .done := (take_succ_of_drop hqd.symm).2.1
        have hge : pre.length ≤ s.handled := by
          apply Nat.le_of_not_lt; intro hlt
          rw [e, List.getElem?_append_left hlt] at h5
          exact e1 (List.mem_of_getElem? h5)
        rw [e, List.drop_append, List.drop_eq_nil_of_le hge, List.nil_append] at hqd
        have hm2 : r ∈ (Req.done :: post).drop (s.handled - pre.length) := by rw [← hqd]; exact List.mem_cons_of_mem _ hm
        rcases List.mem_cons.1 (List.mem_of_mem_drop hm2) with h6 | h6
        · exact .inl h6
        · exact .inr (e2 r h6)
    have hfold : ∀ l : List Req, (∀ r ∈ l, r = .done ∨ ∃ a, r = .annotate a) →
        ∀ x, l.foldl (Req.exec W) (x, true) = (x, true) := by
      intro l
      induction l with
      | nil => intro _ x; rfl
      | cons r l ih =>
        intro hl x
        rw [List.foldl_cons]
        rcases hl r (by simp) with rfl | ⟨a, rfl⟩ <;> exact ih (fun r hm => hl r (List.mem_cons_of_mem _ hm)) x
    rw [← List.take_append_drop s.handled s.hist, execAll_append, h3, ← hqd, hfold _ hall]

/-- **C17** (converse). If `Close()` returned true under some schedule, then the serial worker succeeds as well, the program
computes the same value, and the destination is the same. -/
theorem C17_worker_success_is_serial {I : κ → Prop} {G : Chunk → Prop} {Q : Nat → Prop} (hW : W.Lawful I G Q) {w0 : κ}
    (hI : I w0) {p : Prog α} (hp : p.All (fun src => ∀ c, src.result = some c → G c) Q) {s : St κ α}
    (hr : Par.Reach W par junk (St.init W w0 p) s) {a : α} (hc : s.pc = .closed a true) :
    ∃ σ, p.serial W ⟨w0, [], []⟩ = some (σ, a) ∧ σ.cw = s.cw := by
  have h1 := (C17_worker_failures hr).2.1 a hc
  rcases SimE.reach hW hI hp hr with h2 | h2 | ⟨σ, h2⟩
  · rw [h1] at h2; cases h2
  · have := ((Inv.reach hr).closed a true hc).2
    rw [h2] at this; cases this
  · have h3 := h2.rest
    rw [hc] at h3
    refine ⟨σ, h3, ?_⟩
    have h4 := h2.exec
    rw [h1] at h4
    exact (Prod.mk.inj h4).1.symm

end

/-! ## Clients of `RecordWriter` -/

section
variable {α : Type} {C : Codec} {t : UInt8} {H : Bytes → UInt64} {o : WOpts} {par : Nat} {junk : Chunk}

/-- A `RecordWriter` with `parallelism == par > 0`, appending to a destination with the given contents, right after the
`ParallelWorker` has been constructed; the first thing the client thread does is `Initialize()`. -/
def parStart (C : Codec) (t : UInt8) (H : Bytes → UInt64) (o : WOpts) (c : Client α) (contents : Bytes) : St Dest α :=
  St.init (destCW H) ⟨contents ++ (initPos contents.length).1, (initPos contents.length).2, 0⟩
    (c.start (deferredSimpleEncoder C t) H o (initPos contents.length).2)

theorem deferred_sim : EncSim (deferredSimpleEncoder C t) (simpleEncoder C t) (fun a b => ∃ rs,
    (deferredSimpleEncoder C t).addAll (deferredSimpleEncoder C t).empty rs = some a ∧
    (simpleEncoder C t).addAll (simpleEncoder C t).empty rs = some b) where
  empty := ⟨[], rfl, rfl⟩
  add a b b' r h hb := by
    obtain ⟨rs, h1, h2⟩ := h
    have h3 := deferred_accepts (C := C) (t := t) (rs ++ [r]) (deferredSimpleEncoder C t).empty
      (simpleEncoder C t).empty rfl rfl
    rw [Encoder.addAll_snoc h1, Encoder.addAll_snoc h2, hb] at h3
    obtain ⟨a', ha⟩ := Option.isSome_iff_exists.1 h3
    exact ⟨a', ha, rs ++ [r], by rw [Encoder.addAll_snoc h1]; exact ha, by rw [Encoder.addAll_snoc h2]; exact hb⟩
  num a b h := by
    obtain ⟨rs, h1, h2⟩ := h
    obtain ⟨s', h3, h4, _⟩ := deferredEncoder_eq h1
    rw [h2] at h3; cases h3; exact h4
  finish a b x h hx := by
    obtain ⟨rs, h1, h2⟩ := h
    obtain ⟨s', h3, _, h4⟩ := deferredEncoder_eq h1
    rw [h2] at h3; cases h3; rw [h4]; exact hx

theorem initPos_boundary {n : Nat} (hn : n < 2 ^ 63) : BoundaryOk (initPos n).2 ∧ (initPos n).2 < 2 ^ 64 := by
  unfold initPos
  split
  · rename_i h
    exact ⟨(isPossibleChunkBoundary_iff _).1 h, by show n < 2 ^ 64; omega⟩
  · show BoundaryOk (n + remainingInBlock n) ∧ n + remainingInBlock n < 2 ^ 64
    rw [remainingInBlock_eq]; unfold BoundaryOk; omega

/-- **C17.** Any client of a `RecordWriter` (which may choose what to do next depending on what it has been told), any
options, any initial contents of the destination: if with `parallelism == 0` everything succeeds, then with any
`parallelism > 0`, under every schedule, nothing fails, the threads never block one another and no schedule is infinite,
and when `Close()` has returned, it returned true, the client has computed the same value (hence has seen the same
positions and results), and the destination contains the same bytes. -/
theorem C17_parallel_is_serial (hpar : 0 < par) {c : Client α} {contents : Bytes} (hlen : contents.length < 2 ^ 63)
    {w0 w' : RW SEnc} {a : α} (h0 : RW.init (simpleEncoder C t) H o contents = some w0)
    (hc : c.serial (simpleEncoder C t) H o w0 [] 0 = some (w', a)) {s : St Dest α}
    (hr : Par.Reach (destCW H) par junk (parStart C t H o c contents) s) :
    s.ok = true ∧
    ((∃ a b, s.pc = .closed a b) ∨ ∃ s', Par.Step (destCW H) par junk s s') ∧
    Acc (fun b a => Par.Step (destCW H) par junk a b) s ∧
    ∀ a' b, s.pc = .closed a' b → a' = a ∧ b = true ∧ s.cw.out = w'.out := by
  obtain ⟨s', h1, h2⟩ := start_serial (deferred_sim (C := C) (t := t)) c h0 hc
  have hI := initPos_boundary hlen
  have hp := start_all (E := deferredSimpleEncoder C t) (H := H) (o := o) c (initPos contents.length).2
  obtain ⟨h3, _, _, h4⟩ := C17_worker_every_schedule (destCW_lawful H) hI hp h1 hr
  obtain ⟨h5, h6⟩ := C17_worker_finishes (destCW_lawful H) hI hpar hp h1 hr
  refine ⟨h3, h5, h6, ?_⟩
  intro a' b hcl
  obtain ⟨h7, h8, h9, _⟩ := h4 a' b hcl
  exact ⟨h7, h8, by rw [h9, h2]⟩

/-- **C17** (converse). If with some `parallelism > 0`, under some schedule, `Close()` returned true, then with
`parallelism == 0` everything succeeds as well, with the same results and the same bytes. -/
theorem C17_success_is_serial {c : Client α} {contents : Bytes} (hlen : contents.length < 2 ^ 63) {s : St Dest α}
    (hr : Par.Reach (destCW H) par junk (parStart C t H o c contents) s) {a : α} (hcl : s.pc = .closed a true) :
    ∃ w0 w', RW.init (deferredSimpleEncoder C t) H o contents = some w0 ∧
      c.serial (deferredSimpleEncoder C t) H o w0 [] 0 = some (w', a) ∧ s.cw.out = w'.out := by
  have hI := initPos_boundary hlen
  have hp := start_all (E := deferredSimpleEncoder C t) (H := H) (o := o) c (initPos contents.length).2
  obtain ⟨σ, h1, h2⟩ := C17_worker_success_is_serial (destCW_lawful H) hI hp hr hcl
  obtain ⟨w0, w', h3, h4, h5⟩ := start_some c h1
  exact ⟨w0, w', h3, h4, by rw [← h2, h5]⟩

/-- Gets the positions with the given handles, then closes the writer. -/
def collect : List (Option Nat) → List (Option RecordPosition) → Client (List (Option RecordPosition))
  | [], acc => .close acc
  | none :: hs, acc => collect hs (acc ++ [none])
  | some h :: hs, acc => .getPos h (fun p => collect hs (acc ++ [some p]))

/-- A client which performs the operations, asks for `LastPos()` after each of them, and only at the end, before
`Close()`, gets the positions. -/
def session : List WOp → List (Option Nat) → Client (List (Option RecordPosition))
  | [], hs => collect hs []
  | .write r :: ops, hs => .write r (fun _ => .lastPos (fun h => session ops (hs ++ [h])))
  | .flush :: ops, hs => .flush (fun _ => .lastPos (fun h => session ops (hs ++ [h])))

section
variable {σ : Type} {E : Encoder σ}

theorem collect_serial {w : RW σ} {tab : List RecordPosition} {nf : Nat} (hs : List (Option Nat)) :
    ∀ acc, (collect hs acc).serial E H o w tab nf =
      (w.close E H o).map (fun w2 => (w2, acc ++ hs.map (Option.map (fun h => (tab[h]?).getD ⟨0, 0⟩)))) := by
  induction hs with
  | nil => intro acc; simp only [collect, Client.serial]; cases w.close E H o <;> simp
  | cons h hs ih =>
    intro acc
    cases h with
    | none => simp [collect, ih]
    | some h => simp [collect, Client.serial, ih]

theorem session_serial (ops : List WOp) : ∀ {w : RW σ} {tab : List RecordPosition} {nf : Nat} {hs : List (Option Nat)},
    (∀ h, some h ∈ hs → h < tab.length) →
    (session ops hs).serial E H o w tab nf =
      match RW.run E H o ops w with
      | none => none
      | some (log, w1) => (w1.close E H o).map (fun w2 =>
          (w2, hs.map (Option.map (fun h => (tab[h]?).getD ⟨0, 0⟩)) ++ log)) := by
  induction ops with
  | nil =>
    intro w tab nf hs hh
    simp only [session, collect_serial, RW.run, List.nil_append, List.append_nil]
  | cons op ops ih =>
    intro w tab nf hs hh
    have key : ∀ w1 : RW σ, ((Client.lastPos (fun h => session ops (hs ++ [h]))).serial E H o w1 tab nf) =
        match (match RW.run E H o ops w1 with
          | none => none
          | some (ps, w2) => some (w1.lastPos E :: ps, w2)) with
        | none => none
        | some (log, w1) => (w1.close E H o).map (fun w2 =>
            (w2, hs.map (Option.map (fun h => (tab[h]?).getD ⟨0, 0⟩)) ++ log)) := by
      intro w1
      simp only [Client.serial]
      cases hl : w1.lastPos E with
      | none =>
        simp only
        rw [ih (by
          intro h hm
          rcases List.mem_append.1 hm with hm | hm
          · exact hh h hm
          · cases List.mem_singleton.1 hm)]
        cases RW.run E H o ops w1 <;> simp
      | some p =>
        simp only
        rw [ih (by
          intro h hm
          rcases List.mem_append.1 hm with hm | hm
          · have := hh h hm; simp only [List.length_append]; omega
          · cases List.mem_singleton.1 hm; simp)]
        cases RW.run E H o ops w1 with
        | none => simp
        | some x =>
          simp only [List.map_append, List.map_cons, List.map_nil, Option.map_some, List.append_assoc,
            List.singleton_append]
          congr 1
          funext w2
          congr 2
          · apply List.map_congr_left
            intro x hx
            cases x with
            | none => rfl
            | some h => simp only [Option.map_some]; rw [List.getElem?_append_left (hh h hx)]
          · simp
    cases op with
    | write r =>
      simp only [session, Client.serial, RW.run]
      cases w.writeRecord E H o r with
      | none => rfl
      | some w1 => exact key w1
    | flush =>
      simp only [session, Client.serial, RW.run]
      cases w.flush E H o with
      | none => rfl
      | some w1 => exact key w1

end

/-- **C17, C01, C16** (parallel writer). Whenever, under some schedule, `Close()` returned true: reading the destination
returns exactly the records written, in the order written, then end of source; nothing is skipped, the reader does not
fail; and the positions reported by the writer are those seen by the reader. -/
theorem C17_written_records_are_read {tdec : Bytes → Nat → Nat → Option (List Nat × Bytes)}
    {recovery : Option (CR.Region → Bool)} (hC : C.Lawful) (ht : knownCompression t = true)
    {ops : List WOp} {log : List (Option RecordPosition)} {s : St Dest (List (Option RecordPosition))}
    (hr : Par.Reach (destCW H) par junk (parStart C t H o (session ops []) []) s) (hcl : s.pc = .closed log true)
    {hdr0 bh0 : Bytes} (h40 : hdr0.length = 40) (h24 : bh0.length = 24) (m : Nat) :
    ∃ ps sr, ps.length = (WOp.records ops).length ∧
      readSchedule H (parseChunk C tdec) recovery
        (List.replicate ((WOp.records ops).length + (m + 1)) s.cw.out) (newReader hdr0 bh0) =
      some (((WOp.records ops).zip ps).map some ++ List.replicate (m + 1) none, sr) ∧
      sr.err = none ∧ sr.skipped = [] ∧ sr.closeErr = none ∧ log = expectedLastPos ps 0 ops := by
  obtain ⟨w0, w', h0, h1, h2⟩ := C17_success_is_serial (by simp) hr hcl
  rw [session_serial ops (by simp)] at h1
  cases hrun : RW.run (deferredSimpleEncoder C t) H o ops w0 with
  | none => rw [hrun] at h1; cases h1
  | some x =>
    obtain ⟨log1, w1⟩ := x
    rw [hrun] at h1
    simp only [Option.map_eq_some_iff] at h1
    obtain ⟨w2, h3, h4⟩ := h1
    simp only [List.map_nil, List.nil_append, Prod.mk.injEq] at h4
    obtain ⟨rfl, rfl⟩ := h4
    rw [h2]
    exact C01_C16_any_encoder (deferredSimpleEncoder_correct hC ht tdec H) h0 hrun h3 h40 h24 m

/-- **C17** (progress of a session). A session which succeeds with `parallelism == 0` succeeds with `parallelism > 0` under
every schedule, with the same log and the same bytes. -/
theorem C17_session_is_serial (hpar : 0 < par) {ops : List WOp} {w0 w1 w2 : RW SEnc} {log : List (Option RecordPosition)}
    (h0 : RW.init (simpleEncoder C t) H o [] = some w0)
    (hrun : RW.run (simpleEncoder C t) H o ops w0 = some (log, w1)) (hc : w1.close (simpleEncoder C t) H o = some w2)
    {s : St Dest (List (Option RecordPosition))}
    (hr : Par.Reach (destCW H) par junk (parStart C t H o (session ops []) []) s) :
    s.ok = true ∧
    ((∃ a b, s.pc = .closed a b) ∨ ∃ s', Par.Step (destCW H) par junk s s') ∧
    Acc (fun b a => Par.Step (destCW H) par junk a b) s ∧
    ∀ log' b, s.pc = .closed log' b → log' = log ∧ b = true ∧ s.cw.out = w2.out :=
  C17_parallel_is_serial hpar (by simp) h0 (by rw [session_serial ops (by simp), hrun]; simp [hc]) hr

end

/-! ## C34: `Close()` of the parallel writer returns -/

section
variable {κ α : Type} {W : CW κ} {par : Nat} {junk : Chunk}

/-- If no schedule is infinite and a thread may make a step whenever `Close()` has not returned, then some schedule makes
`Close()` return (in fact every one which cannot be continued). -/
theorem exists_closed {s0 : St κ α}
    (h : ∀ s, Par.Reach W par junk s0 s → (∃ a b, s.pc = .closed a b) ∨ ∃ s', Par.Step W par junk s s') :
    ∃ s a b, Par.Reach W par junk s0 s ∧ s.pc = .closed a b := by
  have key : ∀ s, Acc (fun b a => Par.Step W par junk a b) s → Par.Reach W par junk s0 s →
      ∃ s' a b, Par.Reach W par junk s0 s' ∧ s'.pc = .closed a b := by
    intro s hs
    induction hs with
    | intro s _ ih =>
      intro hr
      rcases h s hr with ⟨a, b, hc⟩ | ⟨s', hs⟩
      · exact ⟨s, a, b, hr, hc⟩
      · exact ih s' hs (.step hr hs)
  exact key s0 (ends s0) .refl

/-- Paddings for which `WritePadding` returns wherever it is called: none, or a multiple of 64 KiB. -/
def ReturningPadding (padding : Nat) : Prop := padding ≤ 1 ∨ 65536 ∣ padding ∧ padding ≤ 2 ^ 63

theorem ReturningPadding.returns {padding : Nat} (h : ReturningPadding padding) (pos : Nat) :
    posAfterPadding pos padding ≠ none := by
  rcases h with h | ⟨hd, hle⟩
  · unfold posAfterPadding; rw [if_pos h]; simp
  · unfold posAfterPadding
    split
    · simp
    · rename_i h1
      dsimp only
      split
      · simp
      · rename_i hr
        have hlt := Nat.mod_lt pos (show 0 < padding by omega)
        have hdm := Nat.div_add_mod pos padding
        have hL : ∃ l, padLengthLoop padding (padding - pos % padding) = some l ∧ 65536 ∣ pos + l := by
          obtain ⟨q, rfl⟩ := hd
          rw [padLengthLoop]
          split
          · rename_i h40
            have hw : w64 (65536 * q - pos % (65536 * q) + 65536 * q) = 65536 * q - pos % (65536 * q) + 65536 * q := by
              unfold w64; omega
            rw [hw, padLengthLoop, if_neg (by omega)]
            refine ⟨_, rfl, ?_⟩
            rw [show pos + (65536 * q - pos % (65536 * q) + 65536 * q) =
              65536 * (q * (pos / (65536 * q)) + q + q) by
                rw [Nat.mul_add, Nat.mul_add, ← Nat.mul_assoc]; omega]
            exact Nat.dvd_mul_right _ _
          · refine ⟨_, rfl, ?_⟩
            rw [show pos + (65536 * q - pos % (65536 * q)) = 65536 * (q * (pos / (65536 * q)) + q) by
                rw [Nat.mul_add, ← Nat.mul_assoc]; omega]
            exact Nat.dvd_mul_right _ _
        obtain ⟨l, h2, h3⟩ := hL
        rw [h2]
        dsimp only
        rw [padEndLoop, if_pos]
        · simp
        · rw [isPossibleChunkBoundary_iff]
          left
          unfold w64
          omega

/-- **C34** (what is proved). If encoding a chunk never fails, then `Close()` of a `RecordWriter` with any
`parallelism > 0` returns under every schedule, whatever the client does and whatever fails in the chunk writer or in
adding records: unless `Close()` has returned some thread may make a step, and no schedule is infinite.
Missing: encoders which may fail; then the claim is false, see `C34_negation_encoding_failure`. -/
theorem C34_close_returns_partial {σ : Type} {E : Encoder σ} {H : Bytes → UInt64} {o : WOpts} (hpar : 0 < par)
    (henc : ∀ enc : σ, encodeChunk E H enc ≠ none) (hmeta : ∀ data dec, o.metadata = some (data, dec) → data.length < 2 ^ 64)
    (hp1 : ReturningPadding o.initialPadding) (hp2 : ReturningPadding o.finalPadding)
    (c : Client α) (w0 : κ) {s : St κ α}
    (hr : Par.Reach W par junk (St.init W w0 (c.start E H o (W.pos w0))) s) :
    ((∃ a b, s.pc = .closed a b) ∨ ∃ s', Par.Step W par junk s s') ∧ Acc (fun b a => Par.Step W par junk a b) s := by
  refine ⟨progress hpar ?_ hr, ends s⟩
  refine start_allG (fun enc => henc enc) hp2.returns hp1.returns (by simp [Src.result]) ?_ c _
  intro data dec hm
  simp [Src.result, hmeta data dec hm]

/-- **C34 is false of the code** when encoding a chunk fails: a client which writes one record and closes the writer. With
`parallelism == 0` the failure is reported; with any `parallelism > 0`, under every schedule, `Close()` never returns. -/
theorem C34_negation_encoding_failure {σ : Type} {E : Encoder σ} {H : Bytes → UInt64} {o : WOpts} {r : Bytes} {enc : σ}
    (hadd : E.add E.empty r = some enc) (hfin : E.finish enc = none) (hmeta : o.metadata = none) :
    let c : Client Unit := .write r (fun _ => .close ())
    (c.start E H o 0).serial (destCW H) ⟨⟨[], 0, 0⟩, [], []⟩ = none ∧
    ∀ par junk s, Par.Reach (destCW H) par junk (St.init (destCW H) ⟨[], 0, 0⟩ (c.start E H o 0)) s →
      ∀ a b, s.pc ≠ .closed a b := by
  intro c
  have hnone : encodeChunk E H enc = none := by unfold encodeChunk; rw [hfin]
  have hw : ∃ w', (destCW H).write (RW.signatureChunk H) ⟨[], 0, 0⟩ = (w', true) := by
    have h1 : Hdr.dataSize (RW.signatureChunk H).header = 0 := by
      simp only [RW.signatureChunk, mkChunk]
      exact mkChunkHeader_dataSize H [] kFileSignature 0 0 (by simp)
    have h2 : Hdr.numRecords (RW.signatureChunk H).header = 0 := by
      simp only [RW.signatureChunk, mkChunk]
      rw [mkChunkHeader_numRecords H _ kFileSignature 0 _ (by omega)]
    simp only [destCW, destWrite, h1, h2]
    rw [if_pos (by decide)]
    exact ⟨_, rfl⟩
  have hd : (c.start E H o 0).Doomed (destCW H) ⟨[], 0, 0⟩ := by
    obtain ⟨w', hw⟩ := hw
    simp only [Client.start, if_true, Prog.Doomed, Src.result]
    refine ⟨w', hw, ?_⟩
    simp only [hmeta, Prog.Doomed, if_true]
    simp only [c, Client.prog, writeRecordP]
    rw [if_neg (by simp), if_neg (by simp)]
    simp only [addRecordP, Prog.Doomed, if_true, hadd]
    split
    · intro h
      simp only [closeChunkP, Prog.Doomed, Src.result, hnone]
    · simp only [closeP, closeNonemptyP]
      rw [if_pos (by omega), if_pos trivial]
      intro h
      simp only [closeChunkP, Prog.Doomed, Src.result, hnone]
  exact ⟨doomed_serial _ hd, fun par junk s hr a b => doomed_not_closed hd hr a b⟩

/-- More generally: any program which reaches a chunk whose encoding fails, without an earlier failure, never closes. -/
theorem C34_negation_doomed {w0 : κ} {p : Prog α} (hp : p.Doomed W w0) :
    p.serial W ⟨w0, [], []⟩ = none ∧
    ∀ s, Par.Reach W par junk (St.init W w0 p) s →
      (∀ a b, s.pc ≠ .closed a b) ∧ Acc (fun b a => Par.Step W par junk a b) s :=
  ⟨doomed_serial p hp, fun s hr => ⟨doomed_not_closed hp hr, ends s⟩⟩

/-! ## The hypotheses are met -/

/-- A session of a parallel writer with three records (one of them empty), a flush, metadata and padding: some schedule
makes `Close()` return, and it returns true. -/
example : ∃ s log, Par.Reach (destCW (fun _ => 7)) 2 ⟨[], []⟩
    (parStart storeCodec kZstd (fun _ => 7) ⟨100, 1, 65536, some ([1, 2], 3)⟩
      (session [.write [1, 2, 3], .flush, .write [], .write [4]] []) []) s ∧ s.pc = .closed log true := by
  obtain ⟨w0, log, w1, w2, h0, h1, h2⟩ := C01_writer_succeeds (C := storeCodec) (t := kZstd) (H := fun _ => 7)
    (o := ⟨100, 1, 65536, some ([1, 2], 3)⟩) (ops := [.write [1, 2, 3], .flush, .write [], .write [4]])
    (fun _ _ _ => rfl) (fun _ d => by simp only [storeCodec]; omega) (by decide) (Or.inr (Or.inl ⟨1, rfl⟩)) (by decide)
  have key := fun s hr => C17_session_is_serial (par := 2) (junk := ⟨[], []⟩) (s := s) (by omega) h0 h1 h2 hr
  obtain ⟨s, a, b, hr, hc⟩ := exists_closed (fun s hr => (key s hr).2.1)
  have := (key s hr).2.2.2 a b hc
  exact ⟨s, a, hr, by rw [hc, this.2.1]⟩

/-- An encoder whose `EncodeAndClose` fails. -/
def failingEncoder : Encoder Unit := ⟨(), fun _ _ => some (), fun _ => 1, fun _ => none⟩

/-- The negation is about an actual deadlock: the writer with a failing encoder. -/
example : ∀ par junk s, Par.Reach (destCW (fun _ => 7)) par junk (St.init (destCW (fun _ => 7)) ⟨[], 0, 0⟩
    ((Client.write [1] (fun _ => .close ())).start failingEncoder (fun _ => 7) ⟨100, 0, 0, none⟩ 0)) s →
      ∀ a b, s.pc ≠ .closed a b :=
  (C34_negation_encoding_failure (E := failingEncoder) (o := ⟨100, 0, 0, none⟩) rfl rfl rfl).2

/-- An encoder which never fails. -/
def trivialEncoder : Encoder Nat := ⟨0, fun n _ => some (n + 1), id, fun _ => some ([], kSimple, 0)⟩

/-- A chunk writer all of whose operations fail. -/
def failingCW : CW Nat := ⟨id, fun _ w => (w, false), fun _ w => (w, false), fun w => (w, false)⟩

/-- `C34_close_returns_partial` applies to it. -/
example (c : Client Bool) : ∃ s a b, Par.Reach failingCW
    3 ⟨[], []⟩ (St.init failingCW 0 (c.start trivialEncoder (fun _ => 7) ⟨100, 65536, 65536, some ([5], 1)⟩ 0)) s ∧
      s.pc = .closed a b :=
  exists_closed (fun _ hr => (C34_close_returns_partial (E := trivialEncoder) (by omega)
    (by intro enc; simp [encodeChunk, trivialEncoder]) (by intro data dec h; cases h; simp)
    (Or.inr ⟨⟨1, rfl⟩, by decide⟩) (Or.inr ⟨⟨1, rfl⟩, by decide⟩) c 0 hr).1)

end
end Riegeli.Props

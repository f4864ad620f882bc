import Verif.Padding
/-!
# Model of `RecordWriterBase::ParallelWorker` (`riegeli/records/record_writer.cc:504-829`)

Three kinds of threads: the client thread which calls the methods of the worker (the class is thread-compatible, so
there is one), the chunk writer thread, and encoder threads of the thread pool. A state is a snapshot of everything they share
together with the program counters; `Step` is the interleaving semantics: any thread which is not blocked may make the
next step. Every access to the state guarded by `mutex_` is one step (the mutex makes it atomic), as is setting a promise
and calling the `ChunkWriter`, which only the writer thread does.

The thread pool (`base/parallelism.cc:39-72`) starts a new thread whenever there are not enough idle ones, hence every
scheduled task can always make progress: a task is a step which may be taken at any time.

Statuses are reduced to ok / not ok.
-/
namespace Riegeli.Par

/-- `ChunkWriter` (`chunk_writer.h:45-120`) with its destination, as a deterministic state machine. The result `false`
means failure; the state after a failure is arbitrary (e.g. a part of a chunk has been written). -/
structure CW (κ : Type) where
  pos : κ → Nat
  write : Chunk → κ → κ × Bool
  pad : Nat → κ → κ × Bool
  flush : κ → κ × Bool

/-- Where a chunk to be written comes from. -/
inductive Src
  /-- `WriteSignature` (`record_writer.cc:690-705`): the chunk is known at once -/
  | now (c : Chunk)
  /-- `WriteMetadata` (`record_writer.cc:707-729`): encoded by a task; `none` if `EncodeMetadata` fails -/
  | metadata (res : Option Chunk)
  /-- `CloseChunk` (`record_writer.cc:731-752`): encoded by a task which first checks `ok()` (`EncodeChunk`,
  `record_writer.cc:363-380`); `none` if encoding fails -/
  | records (res : Option Chunk)

/-- The chunk which the source yields, `none` if encoding fails. -/
def Src.result : Src → Option Chunk
  | .now c => some c
  | .metadata res => res
  | .records res => res

/-- A client of the worker: a sequential program which calls the methods of `Worker` (`record_writer.cc:174-237`) and may
choose what to do next depending on the results. Futures are represented by handles, numbered in the order of creation.
A program ends by closing the worker. -/
inductive Prog (α : Type)
  /-- `WriteSignature`, `WriteMetadata`, `CloseChunk` -/
  | chunk (src : Src) (k : Bool → Prog α)
  /-- `WritePadding` -/
  | pad (padding : Nat) (k : Bool → Prog α)
  /-- `FutureFlush`; the continuation gets the handle of the future -/
  | futureFlush (k : Nat → Prog α)
  /-- `get()` of the future with this handle -/
  | getFlush (h : Nat) (k : Bool → Prog α)
  /-- `ChunkBegin()`, as used by `Pos()` and `LastPos()`; the continuation gets the handle of the future -/
  | chunkBegin (k : Nat → Prog α)
  /-- `get()` of the future with this handle -/
  | getPos (h : Nat) (k : Nat → Prog α)
  /-- `ok()` -/
  | ok (k : Bool → Prog α)
  /-- `Fail()`, called by `AddRecord` when adding a record to the chunk encoder fails (`record_writer.cc:342-361`) -/
  | fail (k : Prog α)
  /-- `Close()`; `a` is the value computed by the program -/
  | close (a : α)

/-- `ChunkWriterRequest` (`record_writer.cc:537-557`). Chunk futures are represented by indices of the table of chunks;
`res` is a ghost: the chunk with which the future is going to be fulfilled unless the worker fails. -/
inductive Req
  | chunk (id : Nat) (res : Option Chunk)
  | pad (padding : Nat)
  | flush (h : Nat)
  | annotate (a : Nat)
  | done

/-- Where the encoding of a chunk is, and the state of its promises (`ChunkPromises`, `record_writer.cc:531-534`). -/
inductive CSt
  /-- the request has been enqueued but the task has not been scheduled yet -/
  | unscheduled
  /-- the task has not started; `check` tells whether it begins with checking `ok()` -/
  | start (check : Bool) (res : Option Chunk)
  /-- encoding failed, `AnnotateStatus()` waits for capacity -/
  | annotating
  /-- encoding failed, `AnnotateStatus()` waits for the response -/
  | waiting (a : Nat)
  /-- encoding failed, `FailWithoutAnnotation()` is about to be called -/
  | failing
  /-- the chunk has been encoded (or encoding failed, then it is not meaningful) -/
  | encoded (c : Chunk)
  /-- `chunk_header` is set -/
  | headerSet (c : Chunk)
  /-- `chunk_header` and `chunk` are set -/
  | ready (c : Chunk)

/-- `chunk_header`, if it is set. -/
def CSt.header : CSt → Option Bytes
  | .headerSet c => some c.header
  | .ready c => some c.header
  | _ => none

/-- An element of `FutureChunkBegin::Action` (`record_position.h:135-138`). -/
inductive Act
  | chunk (id : Nat) (res : Option Chunk)
  | pad (padding : Nat)

/-- Program counter of the chunk writer thread (`record_writer.cc:568-640`). -/
inductive WPc
  /-- at the beginning of the loop -/
  | idle
  /-- `request` is the front of the queue, `mutex_` is unlocked -/
  | check
  /-- `ok()` was true, the chunk writer is about to be called -/
  | act
  /-- the chunk writer failed, `FailWithoutAnnotation()` is about to be called -/
  | failing
  /-- about to lock `mutex_` and remove the request -/
  | fin
  /-- the thread has responded to `DoneRequest` -/
  | exited
deriving DecidableEq

/-- Program counter of the client thread. -/
inductive Pc (α : Type)
  /-- about to call the next method -/
  | run (p : Prog α)
  /-- `ok()` was true, waiting for `HasCapacityForRequest()` -/
  | enqChunk (src : Src) (k : Bool → Prog α)
  /-- the request has been enqueued, about to schedule the task -/
  | schedule (id : Nat) (check : Bool) (res : Option Chunk) (k : Bool → Prog α)
  | enqPad (padding : Nat) (k : Bool → Prog α)
  /-- `AnnotateStatus()` waits for the response -/
  | waitAnnotate (a : Nat) (k : Prog α)
  /-- about to call `FailWithoutAnnotation()` -/
  | setFail (k : Prog α)
  /-- `Done()` waits for the response -/
  | waitDone (a : α)
  /-- `Close()` has returned this result -/
  | closed (a : α) (ok : Bool)

/-- State of `ParallelWorker` (`record_writer.cc:562-565`) and of its threads. -/
structure St (κ α : Type) where
  cw : κ
  /-- `state_.ok()` -/
  ok : Bool
  /-- `chunk_writer_requests_` -/
  queue : List Req
  /-- `pos_before_chunks_` -/
  posBefore : Nat
  chunks : List CSt
  /-- promises of `FlushRequest`; with a ghost: the state of the chunk writer when the promise was set -/
  flushes : List (Option (Bool × κ))
  /-- promises of `AnnotateStatusRequest` -/
  annots : List Bool
  /-- the futures returned by `ChunkBegin()`: `pos_before_chunks_` and `actions_` (`record_position.h:227-251`) -/
  snaps : List (Nat × List Act)
  /-- the promise of `DoneRequest` -/
  doneSet : Bool
  wpc : WPc
  pc : Pc α
  /-- ghost: all requests ever enqueued -/
  hist : List Req
  /-- ghost: the number of requests removed from the queue -/
  handled : Nat
  /-- ghost: whether the client itself has called `Fail()` -/
  clientFailed : Bool

/-- Elements of the queue which matter for positions (the visitor of `ChunkBegin()`, `record_writer.cc:783-796`). -/
def Req.act : Req → Option Act
  | .chunk id res => some (.chunk id res)
  | .pad p => some (.pad p)
  | _ => none

/-- `FutureChunkBegin::Unresolved::Resolve` (`record_position.cc:121-138`): `none` if some `chunk_header` is not set yet,
so that `get()` would wait. -/
def resolve (chunks : List CSt) : Nat → List Act → Option Nat
  | pos, [] => some pos
  | pos, .chunk id _ :: acts =>
    match (chunks[id]?).bind CSt.header with
    | none => none
    | some h => resolve chunks (chunkEnd (Hdr.dataSize h) (Hdr.numRecords h) pos) acts
  | pos, .pad p :: acts =>
    match posAfterPadding pos p with
    | none => none
    | some pos => resolve chunks pos acts

/-- The value of the future with the given handle, `none` if `get()` would wait. -/
def St.position {κ α : Type} (s : St κ α) (h : Nat) : Option Nat :=
  match s.snaps[h]? with
  | none => none
  | some (pos, acts) => resolve s.chunks pos acts

variable {κ α : Type}

/-- `chunk_writer_requests_.emplace_back(request)`. -/
def St.enqueue (s : St κ α) (r : Req) : St κ α := { s with queue := s.queue ++ [r], hist := s.hist ++ [r] }

/-- What the chunk writer thread asks the chunk writer to do for the front request. -/
def perform (W : CW κ) (chunks : List CSt) (w : κ) : Req → κ × Bool
  | .chunk id _ =>
    match chunks[id]? with
    | some (.ready c) => W.write c w
    | _ => (w, true)
  | .pad p => W.pad p w
  | .flush _ => W.flush w
  | _ => (w, true)

/-- Setting the promise of a `FlushRequest`; other requests have no promise to be set at this point. -/
def St.respond (s : St κ α) (r : Req) (b : Bool) (w : κ) : St κ α :=
  match r with
  | .flush h => { s with flushes := s.flushes.set h (some (b, w)) }
  | _ => s

/-- One step of the chunk writer thread (`record_writer.cc:568-640`). -/
inductive WStep (W : CW κ) : St κ α → St κ α → Prop
  /-- `Await(!empty)`, `front()`, `unlock()` -/
  | take {s : St κ α} (h : s.wpc = .idle) (hq : s.queue ≠ []) : WStep W s { s with wpc := .check }
  /-- `DoneRequest` -/
  | done {s : St κ α} {q : List Req} (h : s.wpc = .check) (hq : s.queue = .done :: q) :
      WStep W s { s with doneSet := true, wpc := .exited }
  /-- `AnnotateStatusRequest` -/
  | annotate {s : St κ α} {a : Nat} {q : List Req} (h : s.wpc = .check) (hq : s.queue = .annotate a :: q) :
      WStep W s { s with annots := s.annots.set a true, wpc := .fin }
  /-- `WriteChunkRequest`: `request.chunk.get()` (waits until it is set), then `ok()` -/
  | chunk {s : St κ α} {id : Nat} {res : Option Chunk} {c : Chunk} {q : List Req} (h : s.wpc = .check)
      (hq : s.queue = .chunk id res :: q) (hc : s.chunks[id]? = some (.ready c)) :
      WStep W s { s with wpc := if s.ok then .act else .fin }
  /-- `WritePaddingRequest`: `ok()` -/
  | pad {s : St κ α} {p : Nat} {q : List Req} (h : s.wpc = .check) (hq : s.queue = .pad p :: q) :
      WStep W s { s with wpc := if s.ok then .act else .fin }
  /-- `FlushRequest`: `ok()` is true -/
  | flushOk {s : St κ α} {i : Nat} {q : List Req} (h : s.wpc = .check) (hq : s.queue = .flush i :: q)
      (hok : s.ok = true) : WStep W s { s with wpc := .act }
  /-- `FlushRequest`: `ok()` is false -/
  | flushFail {s : St κ α} {i : Nat} {q : List Req} (h : s.wpc = .check) (hq : s.queue = .flush i :: q)
      (hok : s.ok = false) : WStep W s { s.respond (.flush i) false s.cw with wpc := .fin }
  /-- the call of the chunk writer succeeds; for `FlushRequest` the promise is set -/
  | act {s : St κ α} {r : Req} {q : List Req} {w : κ} (h : s.wpc = .act) (hq : s.queue = r :: q)
      (hp : perform W s.chunks s.cw r = (w, true)) :
      WStep W s { s.respond r true w with cw := w, wpc := .fin }
  /-- the call of the chunk writer fails -/
  | actFail {s : St κ α} {r : Req} {q : List Req} {w : κ} (h : s.wpc = .act) (hq : s.queue = r :: q)
      (hp : perform W s.chunks s.cw r = (w, false)) :
      WStep W s { s with cw := w, wpc := .failing }
  /-- `FailWithoutAnnotation(chunk_writer_->status())`; for `FlushRequest` then the promise is set -/
  | fail {s : St κ α} {r : Req} {q : List Req} (h : s.wpc = .failing) (hq : s.queue = r :: q) :
      WStep W s { s.respond r false s.cw with ok := false, wpc := .fin }
  /-- `lock()`, `pop_front()`, `pos_before_chunks_ = chunk_writer_->pos()` -/
  | fin {s : St κ α} {r : Req} {q : List Req} (h : s.wpc = .fin) (hq : s.queue = r :: q) :
      WStep W s { s with queue := q, posBefore := W.pos s.cw, handled := s.handled + 1, wpc := .idle }

/-- One step of the task which encodes the chunk `id` (`record_writer.cc:721-727`, `record_writer.cc:742-750`). `junk` is
the default-constructed `Chunk`, which is left there when encoding is skipped or fails. -/
inductive TStep (par : Nat) (junk : Chunk) : St κ α → St κ α → Prop
  /-- `EncodeChunk()`: `ok()` is false -/
  | skip {s : St κ α} {id : Nat} {res : Option Chunk} (h : s.chunks[id]? = some (.start true res)) (hok : s.ok = false) :
      TStep par junk s { s with chunks := s.chunks.set id (.encoded junk) }
  /-- encoding succeeds -/
  | encode {s : St κ α} {id : Nat} {check : Bool} {c : Chunk} (h : s.chunks[id]? = some (.start check (some c)))
      (hok : check = true → s.ok = true) :
      TStep par junk s { s with chunks := s.chunks.set id (.encoded c) }
  /-- encoding fails: `Fail(status)` calls `AnnotateStatus()` -/
  | encodeFail {s : St κ α} {id : Nat} {check : Bool} (h : s.chunks[id]? = some (.start check none))
      (hok : check = true → s.ok = true) :
      TStep par junk s { s with chunks := s.chunks.set id .annotating }
  /-- `AnnotateStatus()`: `HasCapacityForRequest()`, `emplace_back(AnnotateStatusRequest)` -/
  | annotate {s : St κ α} {id : Nat} (h : s.chunks[id]? = some .annotating) (hcap : s.queue.length < par) :
      TStep par junk s { s.enqueue (.annotate s.annots.length) with
        annots := s.annots ++ [false], chunks := s.chunks.set id (.waiting s.annots.length) }
  /-- `AnnotateStatus()`: `done_future.get()` -/
  | answer {s : St κ α} {id a : Nat} (h : s.chunks[id]? = some (.waiting a)) (ha : s.annots[a]? = some true) :
      TStep par junk s { s with chunks := s.chunks.set id .failing }
  /-- `FailWithoutAnnotation()` -/
  | fail {s : St κ α} {id : Nat} (h : s.chunks[id]? = some .failing) :
      TStep par junk s { s with ok := false, chunks := s.chunks.set id (.encoded junk) }
  /-- `chunk_header.set_value()` -/
  | header {s : St κ α} {id : Nat} {c : Chunk} (h : s.chunks[id]? = some (.encoded c)) :
      TStep par junk s { s with chunks := s.chunks.set id (.headerSet c) }
  /-- `chunk.set_value()` -/
  | chunk {s : St κ α} {id : Nat} {c : Chunk} (h : s.chunks[id]? = some (.headerSet c)) :
      TStep par junk s { s with chunks := s.chunks.set id (.ready c) }

/-- Program counter of the client after enqueuing a chunk from `src`, and the initial state of the chunk. -/
def Src.enqueued (src : Src) (id : Nat) (k : Bool → Prog α) : CSt × Pc α :=
  match src with
  | .now c => (.ready c, .run (k true))
  | .metadata res => (.unscheduled, .schedule id false res k)
  | .records res => (.unscheduled, .schedule id true res k)

/-- One step of the client thread. -/
inductive CStep (par : Nat) : St κ α → St κ α → Prop
  /-- `ok()` at the beginning of `WriteSignature`, `WriteMetadata`, `CloseChunk` -/
  | chunk {s : St κ α} {src : Src} {k : Bool → Prog α} (h : s.pc = .run (.chunk src k)) :
      CStep par s { s with pc := if s.ok then .enqChunk src k else .run (k false) }
  /-- `HasCapacityForRequest()`, `emplace_back(WriteChunkRequest)` -/
  | enqChunk {s : St κ α} {src : Src} {k : Bool → Prog α} (h : s.pc = .enqChunk src k) (hcap : s.queue.length < par) :
      CStep par s { s.enqueue (.chunk s.chunks.length src.result) with
        chunks := s.chunks ++ [(src.enqueued s.chunks.length k).1], pc := (src.enqueued s.chunks.length k).2 }
  /-- `Schedule()` -/
  | schedule {s : St κ α} {id : Nat} {check : Bool} {res : Option Chunk} {k : Bool → Prog α}
      (h : s.pc = .schedule id check res k) :
      CStep par s { s with chunks := s.chunks.set id (.start check res), pc := .run (k true) }
  /-- `WritePadding` (`record_writer.cc:754-762`): `ok()` -/
  | pad {s : St κ α} {p : Nat} {k : Bool → Prog α} (h : s.pc = .run (.pad p k)) :
      CStep par s { s with pc := if s.ok then .enqPad p k else .run (k false) }
  | enqPad {s : St κ α} {p : Nat} {k : Bool → Prog α} (h : s.pc = .enqPad p k) (hcap : s.queue.length < par) :
      CStep par s { s.enqueue (.pad p) with pc := .run (k true) }
  /-- `FutureFlush` (`record_writer.cc:768-779`) -/
  | futureFlush {s : St κ α} {k : Nat → Prog α} (h : s.pc = .run (.futureFlush k)) (hcap : s.queue.length < par) :
      CStep par s { s.enqueue (.flush s.flushes.length) with
        flushes := s.flushes ++ [none], pc := .run (k s.flushes.length) }
  /-- `get()` of the result of `FutureFlush` -/
  | getFlush {s : St κ α} {i : Nat} {k : Bool → Prog α} {b : Bool} {w : κ} (h : s.pc = .run (.getFlush i k))
      (hb : s.flushes[i]? = some (some (b, w))) : CStep par s { s with pc := .run (k b) }
  /-- there is no such future (cannot be expressed in C++) -/
  | getNoFlush {s : St κ α} {i : Nat} {k : Bool → Prog α} (h : s.pc = .run (.getFlush i k))
      (hb : s.flushes[i]? = none) : CStep par s { s with pc := .run (k false) }
  /-- `ChunkBegin()` (`record_writer.cc:781-805`) -/
  | chunkBegin {s : St κ α} {k : Nat → Prog α} (h : s.pc = .run (.chunkBegin k)) :
      CStep par s { s with snaps := s.snaps ++ [(s.posBefore, s.queue.filterMap Req.act)], pc := .run (k s.snaps.length) }
  /-- `get()` of a position -/
  | getPos {s : St κ α} {i : Nat} {k : Nat → Prog α} {p : Nat} (h : s.pc = .run (.getPos i k))
      (hp : s.position i = some p) : CStep par s { s with pc := .run (k p) }
  /-- there is no such future (cannot be expressed in C++) -/
  | getNoPos {s : St κ α} {i : Nat} {k : Nat → Prog α} (h : s.pc = .run (.getPos i k))
      (hp : s.snaps[i]? = none) : CStep par s { s with pc := .run (k 0) }
  | ok {s : St κ α} {k : Bool → Prog α} (h : s.pc = .run (.ok k)) : CStep par s { s with pc := .run (k s.ok) }
  /-- `Fail()`: `AnnotateStatus()` (`record_writer.cc:672-683`) waits for capacity, enqueues the request -/
  | fail {s : St κ α} {k : Prog α} (h : s.pc = .run (.fail k)) (hcap : s.queue.length < par) :
      CStep par s { s.enqueue (.annotate s.annots.length) with
        annots := s.annots ++ [false], pc := .waitAnnotate s.annots.length k, clientFailed := true }
  | answer {s : St κ α} {a : Nat} {k : Prog α} (h : s.pc = .waitAnnotate a k) (ha : s.annots[a]? = some true) :
      CStep par s { s with pc := .setFail k }
  | setFail {s : St κ α} {k : Prog α} (h : s.pc = .setFail k) : CStep par s { s with ok := false, pc := .run k }
  /-- `Close()`: `Done()` (`record_writer.cc:646-654`) enqueues `DoneRequest`, without waiting for capacity -/
  | close {s : St κ α} {a : α} (h : s.pc = .run (.close a)) : CStep par s { s.enqueue .done with pc := .waitDone a }
  /-- `done_future.get()`, `MarkClosed()` -/
  | closed {s : St κ α} {a : α} (h : s.pc = .waitDone a) (hd : s.doneSet = true) :
      CStep par s { s with pc := .closed a s.ok }

/-- A step of some thread. -/
inductive Step (W : CW κ) (par : Nat) (junk : Chunk) (s s' : St κ α) : Prop
  | writer (h : WStep W s s')
  | task (h : TStep par junk s s')
  | client (h : CStep par s s')

/-- The state right after the worker has been constructed over a chunk writer `w` (`record_writer.cc:568-572`); the
program includes `Initialize()`. -/
def St.init (W : CW κ) (w : κ) (p : Prog α) : St κ α where
  cw := w
  ok := true
  queue := []
  posBefore := W.pos w
  chunks := []
  flushes := []
  annots := []
  snaps := []
  doneSet := false
  wpc := .idle
  pc := .run p
  hist := []
  handled := 0
  clientFailed := false

/-- States which some schedule leads to. -/
inductive Reach (W : CW κ) (par : Nat) (junk : Chunk) (s0 : St κ α) : St κ α → Prop
  | refl : Reach W par junk s0 s0
  | step {s s' : St κ α} (h : Reach W par junk s0 s) (hs : Step W par junk s s') : Reach W par junk s0 s'

/-! ## `SerialWorker` -/

/-- State of the serial worker: the chunk writer, the values of the positions asked for so far, the states of the
chunk writer at flushes so far. -/
structure Ser (κ : Type) where
  cw : κ
  snaps : List Nat
  flushes : List κ

/-- The same program run with `SerialWorker` (`record_writer.cc:382-500`), `none` if anything fails. -/
def Prog.serial (W : CW κ) : Prog α → Ser κ → Option (Ser κ × α)
  | .chunk src k, s =>
    match src.result with
    | none => none
    | some c =>
      match W.write c s.cw with
      | (w, true) => (k true).serial W { s with cw := w }
      | (_, false) => none
  | .pad p k, s =>
    match W.pad p s.cw with
    | (w, true) => (k true).serial W { s with cw := w }
    | (_, false) => none
  | .futureFlush k, s =>
    match W.flush s.cw with
    | (w, true) => (k s.flushes.length).serial W { s with cw := w, flushes := s.flushes ++ [w] }
    | (_, false) => none
  | .getFlush h k, s => (k (decide (h < s.flushes.length))).serial W s
  | .chunkBegin k, s => (k s.snaps.length).serial W { s with snaps := s.snaps ++ [W.pos s.cw] }
  | .getPos h k, s => (k ((s.snaps[h]?).getD 0)).serial W s
  | .ok k, s => (k true).serial W s
  | .fail _, _ => none
  | .close a, s => some (s, a)

/-- A property of all chunk sources and paddings of a program. -/
def Prog.All (G : Src → Prop) (Q : Nat → Prop) : Prog α → Prop
  | .chunk src k => G src ∧ ∀ b, (k b).All G Q
  | .pad p k => Q p ∧ ∀ b, (k b).All G Q
  | .futureFlush k => ∀ h, (k h).All G Q
  | .getFlush _ k => ∀ b, (k b).All G Q
  | .chunkBegin k => ∀ h, (k h).All G Q
  | .getPos _ k => ∀ p, (k p).All G Q
  | .ok k => ∀ b, (k b).All G Q
  | .fail k => k.All G Q
  | .close _ => True

/-! ## Specification: sequential execution of requests -/

/-- Executes a request at once, if everything has succeeded so far. -/
def Req.exec (W : CW κ) (x : κ × Bool) (r : Req) : κ × Bool :=
  if x.2 then
    match r with
    | .chunk _ (some c) => W.write c x.1
    | .chunk _ none => (x.1, false)
    | .pad p => W.pad p x.1
    | .flush _ => W.flush x.1
    | .annotate _ => x
    | .done => x
  else x

/-- Executes requests one after another until the first failure. -/
def execAll (W : CW κ) (w : κ) (rs : List Req) : κ × Bool := rs.foldl (Req.exec W) (w, true)

end Riegeli.Par

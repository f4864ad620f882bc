import Verif.RecyclingPool

/-!
# `BackgroundCleaner`, and pools used by many threads (C48, C49)

Models `riegeli/base/background_cleaning.{h,cc}`, and the parts of
`riegeli/base/recycling_pool.h` outside of the locked sections of
`RecyclingPool.lean`: what an operation does between locked sections, and the
background thread.  Each section under a mutex is one step, and a schedule picks any
step of any thread next.

A result `none` of a function on the cleaner, or `crash` of a step, is a failed
`RIEGELI_ASSERT` or undefined behaviour (an invalid iterator, an iterator
incremented past the end or decremented past the beginning, `Clean()` called on a
destroyed pool).

Simplifications, for the whole file:
* `absl::Now()` does not go backwards.
* There is one `BackgroundCleaner`, outliving the pools, as `BackgroundCleaner::global()`
  does; its destructor (background_cleaning.cc lines 141-149) is not modelled.
* Objects are numbered in the order of creation; the factory, the refurbisher and the
  destructor of an object do not use the pool.
* A pool which has been destroyed keeps its number.
-/

namespace Riegeli.Pool

/-! ## The cleaner -/

/-- `BackgroundCleaner::Entry` (background_cleaning.h lines 48-54); `pool` is the
cleanee, and stands for the `Token` and for list iterators, too. -/
structure Entry where
  pool : Nat
  deadline : Option Nat
deriving DecidableEq, Repr

/-- The state of `BackgroundCleaner` (background_cleaning.h lines 137-156).  `next` is
`next_`, `none` being `entries_.end()`; `current` is `current_cleanee_`, `reduced` is
`deadline_reduced_`, `noThread` is `no_background_thread_`. -/
structure Cleaner where
  entries : List Entry
  next : Option Nat
  current : Option Nat
  reduced : Bool
  noThread : Bool
deriving DecidableEq, Repr

/-- The constructor. -/
def Cleaner.new : Cleaner :=
  { entries := [], next := none, current := none, reduced := false, noThread := true }

/-- The iterator to the first of these entries. -/
def headId (es : List Entry) : Option Nat := es.head?.map (·.pool)

/-- The entry an iterator points to. -/
def findEntry (p : Nat) (es : List Entry) : Option Entry := es.find? (fun e => e.pool == p)

/-- The nodes before an iterator (all if it is `end()`). -/
def before (pos : Option Nat) (es : List Entry) : List Entry :=
  es.takeWhile (fun e => some e.pool != pos)

/-- The nodes from an iterator on. -/
def fromPos (pos : Option Nat) (es : List Entry) : List Entry :=
  es.dropWhile (fun e => some e.pool != pos)

/-- `++iter`. -/
def after (p : Nat) (es : List Entry) : Option Nat := headId (fromPos (some p) es).tail

/-- `entries_.erase(iter)`. -/
def eraseEntry (p : Nat) (es : List Entry) : List Entry := es.filter (fun e => e.pool != p)

/-- `entries_.splice(pos, entries_, iter)`, `iter` pointing to `e`: no effect if
`pos == iter`. -/
def splice (pos : Option Nat) (e : Entry) (es : List Entry) : List Entry :=
  if pos = some e.pool then es
  else
    before pos (eraseEntry e.pool es) ++ e :: fromPos pos (eraseEntry e.pool es)

/-- `iter->deadline = deadline`. -/
def setDeadline (p : Nat) (deadline : Option Nat) (es : List Entry) : List Entry :=
  es.map fun e => if e.pool = p then { e with deadline := deadline } else e

/-- `Register()` (background_cleaning.cc lines 29-34). -/
def Cleaner.register (p : Nat) (c : Cleaner) : Cleaner :=
  { c with entries := { pool := p, deadline := none } :: c.entries }

/-- `Unregister()` after waiting for `current_cleanee_` (lines 39-40). -/
def Cleaner.unregister (p : Nat) (c : Cleaner) : Option Cleaner :=
  match findEntry p c.entries with
  | none => none
  | some _ =>
    some { c with
      next := if c.next = some p then after p c.entries else c.next
      entries := eraseEntry p c.entries }

/-- `CancelCleaning()` after waiting for `current_cleanee_` (lines 46-53). -/
def Cleaner.cancel (p : Nat) (c : Cleaner) : Option Cleaner :=
  match findEntry p c.entries with
  | none => none
  | some e =>
    if e.deadline = none then some c
    else if c.next = some p then
      some { c with next := after p c.entries, entries := setDeadline p none c.entries }
    else
      some { c with entries := setDeadline p none (splice c.next e c.entries) }

/-- The loop of `ScheduleCleaningSlow()` (lines 82-97), `rev` being the nodes before
`iter` in the reverse order: the final `iter`, and whether it is `next_`. -/
def walk (next : Option Nat) (deadline : Nat) :
    Option Nat → List Entry → Option (Option Nat × Bool)
  | iter, [] => if iter = next then some (iter, true) else none
  | iter, e :: rev =>
    if iter = next then some (iter, true)
    else if later e.deadline deadline then walk next deadline (some e.pool) rev
    else some (iter, false)

/-- `ScheduleCleaningSlow()` (lines 70-111), with a finite `deadline`
(`ScheduleCleaning()` does nothing for an infinite one, background_cleaning.h
line 162).  The second result is whether a background thread is started. -/
def Cleaner.schedule (p : Nat) (deadline : Nat) (c : Cleaner) : Option (Cleaner × Bool) :=
  match findEntry p c.entries with
  | none => none
  | some e =>
    if later e.deadline deadline then
      let iter := if e.deadline = none then none else some p
      match walk c.next deadline iter (before iter c.entries).reverse with
      | none => none
      | some (pos, first) =>
        some (
          { entries := setDeadline p (some deadline) (splice pos e c.entries)
            next := if first then some p else c.next
            current := c.current
            reduced := if first then true else c.reduced
            noThread := false },
          c.noThread)
    else some (c, false)

/-! ## The background thread -/

/-- Where the background thread is.
* `off`: there is none.
* `starting`: given to the thread pool, or about to begin (lines 106-108).
* `waiting d`: in `AwaitWithDeadline()` until `d` (lines 119-120).
* `cleaning p t`: `Clean(t)` of the pool `p` was called (line 133), and has not
  locked `mutex_` yet.
* `cleaned p ev d`: it has released `mutex_`; `ev` is to be destroyed and `d` passed to
  `ScheduleCleaning()` if present.
* `relock p`: `Clean()` has returned (line 134). -/
inductive Bg where
  | off
  | starting
  | waiting (deadline : Option Nat)
  | cleaning (p : Nat) (t : Nat)
  | cleaned (p : Nat) (evicted : List Nat) (schedule : Option Nat)
  | relock (p : Nat)
deriving DecidableEq, Repr

/-- The background thread exits (lines 116, 121 and 136, then 109). -/
def Cleaner.exit (c : Cleaner) : Cleaner × Bg := ({ c with noThread := true }, .off)

/-- The beginning of the waiting loop (lines 118-120). -/
def Cleaner.wait (c : Cleaner) : Option (Cleaner × Bg) :=
  match c.next.bind (fun p => findEntry p c.entries) with
  | none => none
  | some e => some ({ c with reduced := false }, .waiting e.deadline)

/-- The cleaning loop (lines 124-132). -/
def Cleaner.inner (now : Nat) (c : Cleaner) : Option (Cleaner × Bg) :=
  match c.next.bind (fun p => findEntry p c.entries) with
  | none => none
  | some e =>
    if later e.deadline now then c.wait
    else
      some (
        { c with
          entries := setDeadline e.pool none c.entries
          next := after e.pool c.entries
          current := some e.pool },
        .cleaning e.pool now)

/-! ## Pools and threads -/

/-- A pool (recycling_pool.h lines 203-212 and 332-349): `registered` is
`cleaner_ != nullptr`, `age` is `max_age_seconds_` with `none` for the maximal value,
`isOpen` tells that it has not been destroyed. -/
structure PoolState (σ : Type) where
  maxSize : Nat
  age : Option Nat
  state : σ
  registered : Bool
  isOpen : Bool

/-- What a thread inside an operation of a pool does next.
* `schedule p d ev`: `ScheduleCleaning(d)`, then destroy `ev`
  (lines 572-574 and 836-838).
* `cancel p`: `CancelCleaning()` (lines 485 and 689).
* `clearLock p`: the locked section of `Clear()`.
* `destroy ev`: destroy the objects after releasing `mutex_`.
* `done`: the operation has returned. -/
inductive Task where
  | schedule (p : Nat) (deadline : Nat) (evicted : List Nat)
  | cancel (p : Nat)
  | clearLock (p : Nat)
  | destroy (evicted : List Nat)
  | done
deriving DecidableEq, Repr

/-- The whole state.  Objects are numbered below `made`; `held` are the objects given
out by `Get()`, `gone` those destroyed, in the order of destruction. -/
structure Sys {κ : Type} (I : Impl κ Nat) where
  now : Nat
  pools : List (PoolState I.σ)
  cleaner : Cleaner
  bg : Bg
  tasks : List Task
  made : Nat
  held : List Nat
  gone : List Nat

/-- What happens next.
* `tick n`: time passes.
* `create max age reg`: a pool is constructed; if `reg`, then `SetBackgroundCleaner()`
  is called (lines 473-481 and 677-685).
* `close p`: a pool is destroyed.
* `get p k`: `Get()`.
* `put p k b`: the handle of the object `b` is destroyed (`Recycler`), or `RawPut()`
  is called.
* `drop b`: `DoNotRecycle()`.
* `clear p`: `Clear()`.
* `run i`: the operation `i` in progress makes a step.
* `bg`: the background thread makes a step. -/
inductive Act (κ : Type) where
  | tick (n : Nat)
  | create (maxSize : Nat) (age : Option Nat) (reg : Bool)
  | close (p : Nat)
  | get (p : Nat) (k : κ)
  | put (p : Nat) (k : κ) (b : Nat)
  | drop (b : Nat)
  | clear (p : Nat)
  | run (i : Nat)
  | bg

/-- The result of a step: `refused` if the program may not do that or has to wait. -/
inductive Out (σ : Type) where
  | next (s : σ)
  | refused
  | crash

/-- A crash if there is no result. -/
def Out.ofOption {σ : Type} : Option σ → Out σ
  | none => .crash
  | some s => .next s

variable {κ : Type} {I : Impl κ Nat}

/-- Nothing has been done yet. -/
def Sys.init (I : Impl κ Nat) : Sys I :=
  { now := 0, pools := [], cleaner := Cleaner.new, bg := .off, tasks := [], made := 0
    held := [], gone := [] }

/-- The operation uses the pool. -/
def Task.on (p : Nat) : Task → Bool
  | .schedule q _ _ => q == p
  | .cancel q => q == p
  | .clearLock q => q == p
  | .destroy _ => false
  | .done => false

/-- The state of a pool which has not been destroyed. -/
def Sys.pool? (s : Sys I) (p : Nat) : Option (PoolState I.σ) :=
  (s.pools[p]?).bind fun q => if q.isOpen then some q else none

/-- The background thread after `ScheduleCleaning()`; a second one is not
representable, and is a crash. -/
def Bg.started (started : Bool) (bg : Bg) : Option Bg :=
  if started then (if bg = .off then some .starting else none) else some bg

/-- `deadline = cleaner_->TimeNow() + absl::Seconds(max_age_seconds_)` (line 555), or
infinite. -/
def PoolState.deadline {σ : Type} (q : PoolState σ) (now : Nat) : Option Nat :=
  q.age.map (fun a => now + a)

/-- `RawPut()` uses the cleaner (lines 544, 550 and 763, 769). -/
def PoolState.aging {σ : Type} (q : PoolState σ) : Bool :=
  q.age.isSome && q.maxSize != 0

/-- The constructor and perhaps `SetBackgroundCleaner()`. -/
def Sys.create (s : Sys I) (maxSize : Nat) (age : Option Nat) (reg : Bool) : Sys I :=
  { s with
    pools := s.pools ++ [{ maxSize := maxSize, age := age, state := I.new maxSize
                           registered := reg, isOpen := true }]
    cleaner := if reg then s.cleaner.register s.pools.length else s.cleaner }

/-- The destructor (lines 431-434 and 633-636), when nothing uses the pool:
unregisters it, then destroys what is in it. -/
def Sys.close (s : Sys I) (p : Nat) (q : PoolState I.σ) : Option (Sys I) :=
  match (if q.registered then s.cleaner.unregister p else some s.cleaner), I.clear q.state with
  | some c, some (ev, st) =>
    some { s with
      cleaner := c
      pools := s.pools.set p { q with state := st, isOpen := false }
      gone := s.gone ++ ev }
  | _, _ => none

/-- `Get()` (lines 500-540 and 699-759): an object from the pool, or a new one. -/
def Sys.get (s : Sys I) (p : Nat) (k : κ) (q : PoolState I.σ) : Option (Sys I) :=
  match I.take k q.state with
  | none => none
  | some (some b, st) =>
    some { s with pools := s.pools.set p { q with state := st }, held := s.held ++ [b] }
  | some (none, st) =>
    some { s with
      pools := s.pools.set p { q with state := st }
      made := s.made + 1
      held := s.held ++ [s.made] }

/-- What `RawPut()` does after releasing the mutex (lines 572-574 and 836-838). -/
def putTask (p : Nat) (schedule : Option Nat) (evicted : List Nat) : Task :=
  match schedule with
  | some d => .schedule p d evicted
  | none => .destroy evicted

/-- `RawPut()` (lines 543-574 and 762-838) up to releasing the mutex.  The object has
been removed from `held`. -/
def Sys.put (s : Sys I) (p : Nat) (k : κ) (b : Nat) (q : PoolState I.σ) : Option (Sys I) :=
  match I.put k b (q.deadline s.now) q.state with
  | none => none
  | some r =>
    some { s with
      pools := s.pools.set p
        { q with state := r.pool, registered := q.registered || q.aging }
      cleaner := if q.aging && !q.registered then s.cleaner.register p else s.cleaner
      tasks := s.tasks ++ [putTask p r.schedule r.evicted.toList] }

/-- An operation in progress makes a step. -/
def Sys.run (s : Sys I) (i : Nat) : Out (Sys I) :=
  match s.tasks[i]? with
  | none => .refused
  | some .done => .refused
  | some (.destroy ev) =>
    .next { s with tasks := s.tasks.set i .done, gone := s.gone ++ ev }
  | some (.schedule p d ev) =>
    .ofOption ((s.cleaner.schedule p d).bind fun x =>
      (s.bg.started x.2).map fun bg =>
        { s with cleaner := x.1, bg := bg, tasks := s.tasks.set i (.destroy ev) })
  | some (.cancel p) =>
    if s.cleaner.current = some p then .refused
    else
      .ofOption ((s.cleaner.cancel p).map fun c =>
        { s with cleaner := c, tasks := s.tasks.set i (.clearLock p) })
  | some (.clearLock p) =>
    match s.pool? p with
    | none => .crash
    | some q =>
      .ofOption ((I.clear q.state).map fun x =>
        { s with
          pools := s.pools.set p { q with state := x.2 }
          tasks := s.tasks.set i (.destroy x.1) })

/-- The cleaner and the background thread move on. -/
def Sys.thread (s : Sys I) (x : Option (Cleaner × Bg)) : Out (Sys I) :=
  .ofOption (x.map fun y => { s with cleaner := y.1, bg := y.2 })

/-- The background thread makes a step: `BackgroundThread()`
(background_cleaning.cc lines 113-139), and `Clean()` (recycling_pool.h
lines 577-605 and 841-904). -/
def Sys.bgStep (s : Sys I) : Out (Sys I) :=
  match s.bg with
  | .off => .refused
  | .starting =>
    if s.cleaner.next = none then s.thread (some s.cleaner.exit)
    else s.thread s.cleaner.wait
  | .waiting d =>
    if s.cleaner.reduced || !later d s.now then
      if s.cleaner.next = none then s.thread (some s.cleaner.exit)
      else if s.cleaner.reduced then s.thread s.cleaner.wait
      else s.thread (s.cleaner.inner s.now)
    else .refused
  | .cleaning p t =>
    match s.pool? p with
    | none => .crash
    | some q =>
      .ofOption ((I.clean t q.state).map fun r =>
        { s with
          pools := s.pools.set p { q with state := r.pool }
          bg := .cleaned p r.evicted (r.schedule.bind id) })
  | .cleaned p ev d =>
    match d with
    | none => .next { s with bg := .relock p, gone := s.gone ++ ev }
    | some d =>
      .ofOption ((s.cleaner.schedule p d).bind fun x =>
        ((Bg.relock p).started x.2).map fun bg =>
          { s with cleaner := x.1, bg := bg, gone := s.gone ++ ev })
  | .relock _ =>
    if s.cleaner.next = none then
      s.thread (some { s.cleaner with current := none }.exit)
    else s.thread ({ s.cleaner with current := none }.inner s.now)

/-- One step.  The program may use only pools which have not been destroyed, may
return only objects it holds, and may destroy a pool only when no operation on it is in
progress; the destructor waits while the pool is being cleaned
(background_cleaning.cc lines 57-68). -/
def Sys.step (s : Sys I) : Act κ → Out (Sys I)
  | .tick n => .next { s with now := s.now + n }
  | .create maxSize age reg => .next (s.create maxSize age reg)
  | .close p =>
    match s.pool? p with
    | none => .refused
    | some q =>
      if s.tasks.any (Task.on p) then .refused
      else if q.registered && s.cleaner.current = some p then .refused
      else .ofOption (s.close p q)
  | .get p k =>
    match s.pool? p with
    | none => .refused
    | some q => .ofOption (s.get p k q)
  | .put p k b =>
    match s.pool? p with
    | none => .refused
    | some q =>
      if b ∈ s.held then .ofOption ({ s with held := s.held.erase b }.put p k b q)
      else .refused
  | .drop b =>
    if b ∈ s.held then .next { s with held := s.held.erase b, gone := s.gone ++ [b] }
    else .refused
  | .clear p =>
    match s.pool? p with
    | none => .refused
    | some q =>
      .next { s with tasks := s.tasks ++ [if q.registered then .cancel p else .clearLock p] }
  | .run i => s.run i
  | .bg => s.bgStep

/-- A schedule; actions refused are skipped. -/
def Sys.exec (s : Sys I) : List (Act κ) → Out (Sys I)
  | [] => .next s
  | a :: as =>
    match s.step a with
    | .next s' => s'.exec as
    | .refused => s.exec as
    | .crash => .crash

end Riegeli.Pool

/-!
# `internal::ThreadPool` (C50)

Models `riegeli/base/parallelism.cc` (lines 32-76) at the granularity of critical
sections of `mutex_`: what a thread does while it holds the mutex is one step, and
a schedule picks any step of any thread next.

Simplifications, for the whole file:
* Time is not modelled: `AwaitWithTimeout()` may time out at any moment.
* The body of a task is a black box: it starts when a worker takes it from the
  queue and, perhaps, returns later.  While it runs (or from any other thread)
  other calls of `Schedule()` may happen.
* `std::thread` construction does not fail; counts do not overflow `size_t`.
* `ThreadPool::global()` (lines 74-76) is one such pool, which is never destroyed
  (global.h lines 38-42).
-/

namespace Riegeli.ThPool

/-- What a worker thread does next.

* `top`: it will lock the mutex at the head of the loop (parallelism.cc line 51).
* `waiting`: it is inside `AwaitWithTimeout()` (lines 53-60).
* `running t`: it is inside the body of task `t` (line 69).
* `gone`: the thread function has returned (lines 62-65). -/
inductive Worker where
  | top
  | waiting
  | running (t : Nat)
  | gone
deriving DecidableEq

/-- The destructor (parallelism.cc lines 32-37): not called yet, waiting for
`num_threads_ == 0`, or finished, so that the memory of the pool is gone. -/
inductive Dtor where
  | live
  | awaiting
  | freed
deriving DecidableEq

/-- The pool (parallelism.h lines 45-49) and the threads.  `spawning` counts the
calls of `Schedule()` which have released the mutex but not yet created the
thread (parallelism.cc lines 47-49).  `started` and `finished` are ghost state: the
tasks taken from the queue, in the order in which they were taken, and those
which returned. -/
structure St where
  exiting : Bool
  numThreads : Nat
  numIdle : Nat
  queue : List Nat
  spawning : Nat
  workers : List Worker
  dtor : Dtor
  started : List Nat
  finished : List Nat
deriving DecidableEq

/-- A new pool (parallelism.h lines 33, 45-49). -/
def St.init : St :=
  { exiting := false, numThreads := 0, numIdle := 0, queue := [], spawning := 0,
    workers := [], dtor := .live, started := [], finished := [] }

/-- What happens next.

* `schedule t`: some thread calls `Schedule(t)`; this is its critical section.
* `spawn`: some call of `Schedule()` creates its thread (line 49).
* `enter i`: worker `i` locks the mutex at the head of the loop.
* `wake i timedOut`: worker `i` returns from `AwaitWithTimeout()`.
* `finish i`: the body of the task of worker `i` returns.
* `destroy`: the destructor locks the mutex.
* `freed`: the destructor returns from `Await()`. -/
inductive Act where
  | schedule (t : Nat)
  | spawn
  | enter (i : Nat)
  | wake (i : Nat) (timedOut : Bool)
  | finish (i : Nat)
  | destroy
  | freed
deriving DecidableEq

/-- The result of a step: a new state, something which cannot happen now (or which
the caller may not do, lines 42-44), or an access to a destroyed pool. -/
inductive Out where
  | next (s : St)
  | refused
  | useAfterFree
deriving DecidableEq

/-- The condition of `AwaitWithTimeout()` (parallelism.cc lines 55-59). -/
def St.ready (s : St) : Bool := !s.queue.isEmpty || s.exiting

/-- What worker `i` does after `AwaitWithTimeout()` until it releases the mutex
(parallelism.cc lines 61-68): `--num_idle_threads_`, then exit or take a task. -/
def afterAwait (s : St) (i : Nat) : St :=
  let s := { s with numIdle := s.numIdle - 1 }
  match s.exiting, s.queue with
  | false, t :: rest =>
    { s with queue := rest, started := s.started ++ [t], workers := s.workers.set i (.running t) }
  | _, _ => { s with numThreads := s.numThreads - 1, workers := s.workers.set i .gone }

/-- One step. -/
def step (s : St) : Act → Out
  -- parallelism.cc lines 39-48
  | .schedule t =>
    if s.dtor = .freed then .useAfterFree
    else if s.exiting then .refused
    else
      let s := { s with queue := s.queue ++ [t] }
      if s.numIdle ≥ s.queue.length then .next s
      else .next { s with numThreads := s.numThreads + 1, spawning := s.spawning + 1 }
  -- line 49
  | .spawn =>
    if s.spawning = 0 then .refused
    else .next { s with spawning := s.spawning - 1, workers := s.workers ++ [.top] }
  -- lines 51-60; the condition is evaluated before the mutex is released
  | .enter i =>
    if s.workers[i]? ≠ some .top then .refused
    else if s.dtor = .freed then .useAfterFree
    else
      let s := { s with numIdle := s.numIdle + 1 }
      if s.ready then .next (afterAwait s i)
      else .next { s with workers := s.workers.set i .waiting }
  | .wake i timedOut =>
    if s.workers[i]? ≠ some .waiting then .refused
    else if s.dtor = .freed then .useAfterFree
    else if s.ready || timedOut then .next (afterAwait s i)
    else .refused
  -- line 69
  | .finish i =>
    match s.workers[i]? with
    | some (.running t) =>
      .next { s with workers := s.workers.set i .top, finished := s.finished ++ [t] }
    | _ => .refused
  -- lines 33-34
  | .destroy =>
    if s.dtor = .live then .next { s with exiting := true, dtor := .awaiting } else .refused
  -- lines 35-37
  | .freed =>
    if s.dtor = .awaiting ∧ s.numThreads = 0 then .next { s with dtor := .freed } else .refused

/-- A schedule. -/
def exec (s : St) : List Act → Out
  | [] => .next s
  | a :: acts =>
    match step s a with
    | .next s' => exec s' acts
    | o => o

end Riegeli.ThPool

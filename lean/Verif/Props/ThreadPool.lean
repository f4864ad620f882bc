import Verif.ThreadPoolProofs

/-!
# C50: the thread pool runs every task, once, in order, without waiting for others

Parallel record writing and reading and background cleaning run on
`internal::ThreadPool`.  Their tasks block on each other (a task that writes chunks
waits for tasks that encode them), so the pool must not keep a task waiting for
another one to return.

A schedule (`List Act`) says in which order calls of `Schedule()` and critical
sections of the worker threads happen, when tasks return, and when waits time out.
-/

namespace Riegeli.ThPool

/-- The tasks passed to `Schedule()`, in order. -/
def Scheduled (acts : List Act) : List Nat :=
  acts.filterMap (fun | .schedule t => some t | _ => none)

theorem scheduled_eq (acts : List Act) : scheduled acts = Scheduled acts := by
  unfold Scheduled
  induction acts with
  | nil => rfl
  | cons a acts ih => cases a <;> simp [scheduled, ih]

/-- The tasks running now. -/
def St.runningTasks (s : St) : List Nat :=
  s.workers.filterMap (fun | .running t => some t | _ => none)

theorem count_runningTasks (ws : List Worker) (t : Nat) :
    (ws.filterMap (fun | .running t => some t | _ => none)).count t =
      ws.countP (fun w => w == .running t) := by
  induction ws with
  | nil => rfl
  | cons w ws ih =>
    cases w with
    | running u =>
      simp only [List.filterMap_cons, List.count_cons, List.countP_cons, ih]
      by_cases h : u = t
      · subst h; simp
      · have h1 : (Worker.running u == Worker.running t) = false := by simp [h]
        have h2 : (u == t) = false := by simp [h]
        simp [h1, h2]
    | top => simpa [List.countP_cons] using ih
    | waiting => simpa [List.countP_cons] using ih
    | gone => simpa [List.countP_cons] using ih

/-- In any schedule, tasks start in the order in which they were scheduled, each at
most once; those which started are the ones running and the ones which returned;
and those which did not start are in the queue: none is lost. -/
theorem C50_exactly_once_in_order (acts : List Act) (s : St) (h : exec St.init acts = .next s) :
    s.started ++ s.queue = Scheduled acts ∧
    ∀ t, s.started.count t = s.runningTasks.count t + s.finished.count t := by
  constructor
  · rw [exec_order acts h, ← scheduled_eq]; rfl
  · intro t
    rw [(exec_inv acts inv_init s h).perm t, St.runningTasks, count_runningTasks]
    omega

/-- A queued task never waits for another task to return.  From any reachable
state of a pool which is not being destroyed, let only the threads of the pool go on, in any
order (`acts'`: no task returns, nobody calls `Schedule()`): they stop after boundedly
many steps, they cannot stop (not even with no timeout ever passing) while a task is queued,
and when they have stopped every queued task is running. -/
theorem C50_no_task_waits_for_another (acts : List Act) (s : St)
    (h : exec St.init acts = .next s) (hd : s.dtor = .live) :
    ∃ bound, ∀ acts' s', (∀ a ∈ acts', a.ofPool = true) → exec s acts' = .next s' →
      acts'.length ≤ bound ∧
      (s'.queue ≠ [] → ∃ a s'', a.ofPool = true ∧ (∀ i b, a = .wake i b → b = false) ∧
        step s' a = .next s'') ∧
      (s'.queue = [] → s'.started = s.started ++ s.queue ∧ s'.finished = s.finished) := by
  refine ⟨s.measure, ?_⟩
  intro acts' s' ha hs
  have hi := exec_inv acts inv_init s h
  have hi' := exec_inv acts' hi s' hs
  have hd' : s'.dtor = .live ∧ s'.finished = s.finished := by
    clear hi hi' h
    induction acts' generalizing s with
    | nil => cases hs; exact ⟨hd, rfl⟩
    | cons a acts' ih =>
      simp only [exec] at hs
      split at hs
      · rename_i s1 h1
        have hk : s1.dtor = s.dtor ∧ s1.finished = s.finished := by
          have hA : ∀ (s : St) i, (afterAwait s i).dtor = s.dtor ∧
              (afterAwait s i).finished = s.finished := by
            intro s i; unfold afterAwait; simp only; split <;> exact ⟨rfl, rfl⟩
          have hp := ha a (by simp)
          cases a with
          | spawn => simp only [step] at h1; split at h1 <;> cases h1; exact ⟨rfl, rfl⟩
          | enter i =>
            simp only [step] at h1
            split at h1
            · simp at h1
            · split at h1
              · simp at h1
              · split at h1
                · cases h1; exact hA _ _
                · cases h1; exact ⟨rfl, rfl⟩
          | wake i b =>
            simp only [step] at h1
            split at h1
            · simp at h1
            · split at h1
              · simp at h1
              · split at h1
                · cases h1; exact hA _ _
                · simp at h1
          | schedule t => simp [Act.ofPool] at hp
          | finish i => simp [Act.ofPool] at hp
          | destroy => simp [Act.ofPool] at hp
          | freed => simp [Act.ofPool] at hp
        obtain ⟨h2, h3⟩ := ih s1 (hk.1.trans hd) (fun b hb => ha b (by simp [hb])) hs
        exact ⟨h2, h3.trans hk.2⟩
      · rename_i h1; exact absurd hs (h1 s')
  refine ⟨?_, ?_, ?_⟩
  · have := exec_measure acts' ha hs; omega
  · intro hq
    exact pool_step_enabled hi' (Or.inl ⟨(hi'.exiting).mpr hd'.1, hq⟩)
  · intro hq
    have ho := exec_order acts' hs
    have hz : scheduled acts' = [] := by
      clear hs ho
      induction acts' with
      | nil => rfl
      | cons a acts' ih =>
        rw [scheduled_cons, ih (fun b hb => ha b (by simp [hb]))]
        have := ha a (by simp)
        cases a <;> simp [scheduled, Act.ofPool] at *
    rw [hq, hz] at ho
    simp at ho
    exact ⟨ho, hd'.2⟩

/-- If the program itself does not call `Schedule()` on a destroyed pool, no thread
touches the pool after its destructor returned; and by then no thread is left. -/
theorem C50_destruction_safe (acts : List Act) (s : St) (h : exec St.init acts = .next s) :
    (∀ a, (∀ t, a = .schedule t → s.dtor ≠ .freed) → step s a ≠ .useAfterFree) ∧
    (s.dtor = .freed → s.spawning = 0 ∧ ∀ w ∈ s.workers, w = .gone) := by
  have hi := exec_inv acts inv_init s h
  refine ⟨fun a ha => step_safe hi a ha, ?_⟩
  intro hf
  have h1 := hi.freed hf
  have h2 := hi.threads
  refine ⟨by omega, ?_⟩
  intro w hw
  have z : ∀ p : Worker → Bool, s.workers.countP p = 0 → p w = false := by
    intro p hp
    exact (Bool.not_eq_true _).mp (fun hc => by
      have := List.countP_pos_iff.mpr ⟨w, hw, hc⟩; omega)
  have z1 := z isTop (by omega)
  have z2 := z isWaiting (by omega)
  have z3 := z isRunning (by omega)
  cases w <;> simp [isTop, isWaiting, isRunning] at *

/-- The destructor waits for running tasks only: once it was called, no queued task
starts any more, and if no thread of the pool can go on and no task is running then
the destructor returns. -/
theorem C50_destructor_returns (acts : List Act) (s : St) (h : exec St.init acts = .next s)
    (hd : s.dtor = .awaiting) :
    (∀ acts' s', exec s acts' = .next s' → s'.started = s.started) ∧
    ((∀ a s', a.ofPool = true → step s a ≠ .next s') → s.runningTasks = [] →
      ∃ s', step s .freed = .next s') := by
  have hi := exec_inv acts inv_init s h
  have he : s.exiting = true := by
    cases hx : s.exiting with
    | true => rfl
    | false => have := hi.exiting.mp hx; rw [hd] at this; simp at this
  refine ⟨fun acts' s' hs => (exiting_mono acts' hs he).2, ?_⟩
  intro hn hr
  have hrun : s.workers.countP isRunning = 0 := by
    rw [List.countP_eq_zero]
    intro w hw hc
    cases w with
    | running t =>
      have : t ∈ s.runningTasks := List.mem_filterMap.mpr ⟨.running t, hw, rfl⟩
      rw [hr] at this; simp at this
    | top => simp [isRunning] at hc
    | waiting => simp [isRunning] at hc
    | gone => simp [isRunning] at hc
  have hz : s.numThreads = 0 := by
    apply Classical.byContradiction; intro hnz
    obtain ⟨a, s', h1, _, h2⟩ := pool_step_enabled hi (Or.inr ⟨he, by omega⟩)
    exact hn a s' h1 h2
  exact ⟨{ s with dtor := .freed }, by simp [step, hd, hz]⟩

/-! ## Concrete schedules -/

/-- Two tasks, the second scheduled while the first thread is not created yet; the
second runs although the first does not return; then a third one is scheduled, an
idle thread takes it. -/
def exampleActs : List Act :=
  [.schedule 7, .schedule 8, .spawn, .enter 0, .spawn, .enter 1, .finish 1, .enter 1, .schedule 9]

example : ∃ s, exec St.init exampleActs = .next s ∧ s.dtor = .live ∧ s.queue = [9] ∧
    s.runningTasks = [7] ∧ s.finished = [8] ∧ s.numIdle = 1 ∧ s.numThreads = 2 :=
  ⟨_, rfl, by decide +kernel, by decide +kernel, by decide +kernel, by decide +kernel,
    by decide +kernel, by decide +kernel⟩

/-- The destructor returns after the running task did; the queued task 9 is dropped. -/
example : ∃ s, exec St.init (exampleActs ++ [.destroy, .wake 1 false, .finish 0, .enter 0, .freed]) =
    .next s ∧ s.dtor = .freed ∧ s.queue = [9] ∧ s.started = [7, 8] :=
  ⟨_, rfl, by decide +kernel, by decide +kernel, by decide +kernel⟩

end Riegeli.ThPool

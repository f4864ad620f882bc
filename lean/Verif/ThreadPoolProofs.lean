import Verif.ThreadPool

/-! Proofs about the thread pool (C50): the invariant of all schedules, and the
measure of the steps which threads of the pool make without the tasks. -/

namespace Riegeli.ThPool

theorem countP_set_add {α : Type} (p : α → Bool) (l : List α) (i : Nat) (a b : α)
    (h : l[i]? = some a) :
    (l.set i b).countP p + (if p a then 1 else 0) = l.countP p + (if p b then 1 else 0) := by
  induction l generalizing i with
  | nil => simp at h
  | cons x l ih =>
    cases i with
    | zero =>
      simp at h; subst h
      simp [List.countP_cons]; omega
    | succ i =>
      simp at h
      have := ih i h
      simp [List.countP_cons]; omega

def isTop : Worker → Bool
  | .top => true
  | _ => false
def isWaiting : Worker → Bool
  | .waiting => true
  | _ => false
def isRunning : Worker → Bool
  | .running _ => true
  | _ => false
def running (ws : List Worker) : List Nat :=
  ws.filterMap (fun | .running t => some t | _ => none)

/-- What holds in every reachable state; `cover` is why no task is stranded: there are
at least as many threads on their way to the queue as tasks in it. -/
structure Inv (s : St) : Prop where
  idle : s.numIdle = s.workers.countP isWaiting
  threads : s.numThreads = s.spawning + s.workers.countP isTop + s.workers.countP isWaiting +
    s.workers.countP isRunning
  cover : s.exiting = false → s.queue.length ≤ s.spawning + s.workers.countP isTop +
    s.workers.countP isWaiting
  exiting : s.exiting = false ↔ s.dtor = .live
  freed : s.dtor = .freed → s.numThreads = 0
  perm : ∀ t, s.started.count t = s.finished.count t + s.workers.countP (fun w => w == .running t)

theorem inv_init : Inv St.init :=
  ⟨rfl, rfl, by simp [St.init], by simp [St.init], by simp [St.init], by simp [St.init]⟩

theorem countP_pos_of_get {α : Type} {p : α → Bool} {l : List α} {i : Nat} {a : α}
    (h : l[i]? = some a) (hp : p a = true) : 0 < l.countP p :=
  List.countP_pos_iff.mpr ⟨a, List.mem_of_getElem? h, hp⟩

/-- `afterAwait` from a state where worker `i` is counted as idle. -/
theorem afterAwait_inv {s : St} {i : Nat} {w : Worker} (hw : s.workers[i]? = some w)
    (hwt : w = .top ∨ w = .waiting) (hn : s.dtor ≠ .freed)
    (hidle : s.numIdle = s.workers.countP isWaiting + (if isTop w then 1 else 0))
    (h : Inv { s with numIdle := s.workers.countP isWaiting }) : Inv (afterAwait s i) := by
  have hT := h.threads
  have hC := h.cover
  have hE := h.exiting
  have hP := h.perm
  simp only at hT hC hE hP
  have hpos : 0 < s.workers.countP isTop + s.workers.countP isWaiting := by
    rcases hwt with rfl | rfl
    · have := countP_pos_of_get (p := isTop) hw rfl; omega
    · have := countP_pos_of_get (p := isWaiting) hw rfl; omega
  unfold afterAwait
  simp only
  split
  · rename_i t rest hex hq
    have e1 := countP_set_add isTop s.workers i w (.running t) hw
    have e2 := countP_set_add isWaiting s.workers i w (.running t) hw
    have e3 := countP_set_add isRunning s.workers i w (.running t) hw
    have hlen : s.queue.length = rest.length + 1 := by rw [hq]; rfl
    constructor
    · simp only; rcases hwt with rfl | rfl <;> simp [isTop, isWaiting, isRunning] at * <;> omega
    · simp only; rcases hwt with rfl | rfl <;> simp [isTop, isWaiting, isRunning] at * <;> omega
    · intro hx
      have := hC hex
      simp only; rcases hwt with rfl | rfl <;> simp [isTop, isWaiting, isRunning] at * <;> omega
    · exact hE
    · intro hx; exact absurd hx hn
    · intro t'
      have e4 := countP_set_add (fun w => w == .running t') s.workers i w (.running t) hw
      have := hP t'
      have hwn : (w == Worker.running t') = false := by rcases hwt with rfl | rfl <;> rfl
      simp only [hwn] at e4
      simp only [List.count_append, List.count_cons, List.count_nil]
      by_cases htt : t = t'
      · subst htt; simp at e4 ⊢; omega
      · have h1 : (Worker.running t == Worker.running t') = false := by simp [htt]
        have h2 : (t == t') = false := by simp [htt]
        simp only [h1, h2] at e4 ⊢
        simp at e4 ⊢; omega
  · rename_i hno
    have e1 := countP_set_add isTop s.workers i w .gone hw
    have e2 := countP_set_add isWaiting s.workers i w .gone hw
    have e3 := countP_set_add isRunning s.workers i w .gone hw
    constructor
    · simp only; rcases hwt with rfl | rfl <;> simp [isTop, isWaiting, isRunning] at * <;> omega
    · simp only; rcases hwt with rfl | rfl <;> simp [isTop, isWaiting, isRunning] at * <;> omega
    · intro hx
      simp only at hx
      have hq : s.queue = [] := by
        cases hq : s.queue with
        | nil => rfl
        | cons t rest => exact absurd hq (hno t rest hx)
      simp [hq]
    · exact hE
    · intro hx; exact absurd hx hn
    · intro t'
      have e4 := countP_set_add (fun w => w == .running t') s.workers i w .gone hw
      have := hP t'
      have hwn : (w == Worker.running t') = false := by rcases hwt with rfl | rfl <;> rfl
      simp only [hwn] at e4
      simp at e4 ⊢; omega

theorem step_inv {s : St} (h : Inv s) (a : Act) : ∀ s', step s a = .next s' → Inv s' := by
  intro s' hs
  cases a with
  | schedule t =>
    simp only [step] at hs
    split at hs
    · simp at hs
    · split at hs
      · simp at hs
      · rename_i hf he
        have he : s.exiting = false := (Bool.not_eq_true _).mp he
        have hc := h.cover he
        split at hs
        · rename_i hge
          cases hs
          refine ⟨h.idle, h.threads, ?_, h.exiting, h.freed, h.perm⟩
          intro _
          have := h.idle
          simp only [List.length_append, List.length_cons, List.length_nil] at *
          omega
        · cases hs
          refine ⟨h.idle, ?_, ?_, h.exiting, ?_, h.perm⟩
          · have := h.threads; simp only; omega
          · intro _
            simp only [List.length_append, List.length_cons, List.length_nil] at *
            omega
          · intro hx; exact absurd hx hf
  | spawn =>
    simp only [step] at hs
    split at hs
    · simp at hs
    · rename_i hz
      cases hs
      refine ⟨?_, ?_, ?_, h.exiting, h.freed, ?_⟩
      · have := h.idle; simp [isWaiting, List.countP_cons] at *; exact this
      · have := h.threads; simp [isTop, isWaiting, isRunning, List.countP_cons] at *; omega
      · intro he; have := h.cover he; simp [isTop, isWaiting, isRunning, List.countP_cons] at *; omega
      · intro t; have := h.perm t; simp [List.countP_cons] at *; exact this
  | enter i =>
    simp only [step] at hs
    split at hs
    · simp at hs
    · rename_i hw
      have hw : s.workers[i]? = some .top := by
        apply Classical.byContradiction; intro hc; exact hw hc
      split at hs
      · simp at hs
      · rename_i hf
        split at hs
        · cases hs
          refine afterAwait_inv (w := .top) hw (Or.inl rfl) hf ?_ ?_
          · simp [isTop, h.idle]
          · exact ⟨rfl, h.threads, h.cover, h.exiting, h.freed, h.perm⟩
        · rename_i hr
          cases hs
          have e1 := countP_set_add isTop s.workers i .top .waiting hw
          have e2 := countP_set_add isWaiting s.workers i .top .waiting hw
          have e3 := countP_set_add isRunning s.workers i .top .waiting hw
          have hI := h.idle
          have hT := h.threads
          refine ⟨?_, ?_, ?_, h.exiting, ?_, ?_⟩
          · simp [isTop, isWaiting, isRunning] at *; omega
          · simp [isTop, isWaiting, isRunning] at *; omega
          · intro he; have hC := h.cover he
            simp [isTop, isWaiting, isRunning] at *; omega
          · intro hx; exact absurd hx hf
          · intro t
            have e4 := countP_set_add (fun w => w == .running t) s.workers i .top .waiting hw
            have := h.perm t
            simp at e4 ⊢; omega
  | wake i b =>
    simp only [step] at hs
    split at hs
    · simp at hs
    · rename_i hw
      have hw : s.workers[i]? = some .waiting := by
        apply Classical.byContradiction; intro hc; exact hw hc
      split at hs
      · simp at hs
      · rename_i hf
        split at hs
        · cases hs
          refine afterAwait_inv (w := .waiting) hw (Or.inr rfl) hf ?_ ?_
          · simp [isTop, h.idle]
          · exact ⟨rfl, h.threads, h.cover, h.exiting, h.freed, h.perm⟩
        · simp at hs
  | finish i =>
    simp only [step] at hs
    split at hs
    · rename_i t hw
      cases hs
      have e1 := countP_set_add isTop s.workers i (.running t) .top hw
      have e2 := countP_set_add isWaiting s.workers i (.running t) .top hw
      have e3 := countP_set_add isRunning s.workers i (.running t) .top hw
      have hI := h.idle
      have hT := h.threads
      refine ⟨?_, ?_, ?_, h.exiting, h.freed, ?_⟩
      · simp [isTop, isWaiting, isRunning] at *; omega
      · simp [isTop, isWaiting, isRunning] at *; omega
      · intro he; have hC := h.cover he
        simp [isTop, isWaiting, isRunning] at *; omega
      · intro t'
        have e4 := countP_set_add (fun w => w == .running t') s.workers i (.running t) .top hw
        have := h.perm t'
        simp only [List.count_append, List.count_cons, List.count_nil]
        by_cases htt : t = t'
        · subst htt; simp at e4 ⊢; omega
        · have h1 : (Worker.running t == Worker.running t') = false := by simp [htt]
          have h2 : (t == t') = false := by simp [htt]
          simp only [h1, h2] at e4 ⊢
          simp at e4 ⊢; omega
    · simp at hs
  | destroy =>
    simp only [step] at hs
    split at hs
    · cases hs
      refine ⟨h.idle, h.threads, by simp, by simp, by simp, h.perm⟩
    · simp at hs
  | freed =>
    simp only [step] at hs
    split at hs
    · rename_i hd
      cases hs
      refine ⟨h.idle, h.threads, h.cover, ?_, fun _ => hd.2, h.perm⟩
      have := h.exiting
      rw [hd.1] at this
      simp at this ⊢; exact this
    · simp at hs

/-- A schedule in which the program does not use the pool after its destructor was
called: the only way to touch a destroyed pool is `Schedule()` by the program. -/
theorem step_safe {s : St} (h : Inv s) (a : Act)
    (ha : ∀ t, a = .schedule t → s.dtor ≠ .freed) : step s a ≠ .useAfterFree := by
  have nz : s.dtor = .freed → s.workers.countP isTop = 0 ∧ s.workers.countP isWaiting = 0 := by
    intro hf
    have := h.freed hf
    have := h.threads
    omega
  cases a with
  | schedule t =>
    simp only [step, if_neg (ha t rfl)]
    split
    · simp
    · split <;> simp
  | spawn => simp only [step]; split <;> simp
  | enter i =>
    simp only [step]
    split
    · simp
    · rename_i hw
      have hw : s.workers[i]? = some .top := by
        apply Classical.byContradiction; intro hc; exact hw hc
      split
      · rename_i hf
        have h1 := (nz hf).1
        have h2 := countP_pos_of_get (p := isTop) hw rfl
        omega
      · split <;> simp
  | wake i b =>
    simp only [step]
    split
    · simp
    · rename_i hw
      have hw : s.workers[i]? = some .waiting := by
        apply Classical.byContradiction; intro hc; exact hw hc
      split
      · rename_i hf
        have h1 := (nz hf).2
        have h2 := countP_pos_of_get (p := isWaiting) hw rfl
        omega
      · split <;> simp
  | finish i => simp only [step]; split <;> simp
  | destroy => simp only [step]; split <;> simp
  | freed => simp only [step]; split <;> simp

theorem exec_inv (acts : List Act) {s : St} (h : Inv s) :
    ∀ s', exec s acts = .next s' → Inv s' := by
  induction acts generalizing s with
  | nil => intro s' hs; cases hs; exact h
  | cons a acts ih =>
    intro s' hs
    simp only [exec] at hs
    split at hs
    · rename_i s1 h1
      exact ih (step_inv h a s1 h1) s' hs
    · rename_i h1
      exact absurd hs (h1 s')

theorem exec_append (acts acts' : List Act) (s : St) :
    exec s (acts ++ acts') = match exec s acts with
      | .next s' => exec s' acts'
      | o => o := by
  induction acts generalizing s with
  | nil => rfl
  | cons a acts ih =>
    simp only [List.cons_append, exec]
    cases step s a with
    | next s1 => exact ih s1
    | refused => rfl
    | useAfterFree => rfl

/-! ## Order of tasks -/

def scheduled : List Act → List Nat
  | [] => []
  | .schedule t :: acts => t :: scheduled acts
  | _ :: acts => scheduled acts

theorem afterAwait_order (s : St) (i : Nat) :
    (afterAwait s i).started ++ (afterAwait s i).queue = s.started ++ s.queue := by
  unfold afterAwait
  simp only
  split
  · rename_i h; simp [h]
  · rfl

theorem step_order {s s' : St} {a : Act} (hs : step s a = .next s') :
    s'.started ++ s'.queue = s.started ++ s.queue ++ scheduled [a] := by
  cases a with
  | schedule t =>
    simp only [step] at hs
    split at hs
    · simp at hs
    · split at hs
      · simp at hs
      · split at hs <;> (cases hs; simp [scheduled])
  | spawn => simp only [step] at hs; split at hs <;> cases hs; simp [scheduled]
  | enter i =>
    simp only [step] at hs
    split at hs
    · simp at hs
    · split at hs
      · simp at hs
      · split at hs
        · cases hs; rw [afterAwait_order]; simp [scheduled]
        · cases hs; simp [scheduled]
  | wake i b =>
    simp only [step] at hs
    split at hs
    · simp at hs
    · split at hs
      · simp at hs
      · split at hs
        · cases hs; rw [afterAwait_order]; simp [scheduled]
        · simp at hs
  | finish i =>
    simp only [step] at hs
    split at hs
    · cases hs; simp [scheduled]
    · simp at hs
  | destroy => simp only [step] at hs; split at hs <;> cases hs; simp [scheduled]
  | freed => simp only [step] at hs; split at hs <;> cases hs; simp [scheduled]

theorem scheduled_cons (a : Act) (acts : List Act) :
    scheduled (a :: acts) = scheduled [a] ++ scheduled acts := by
  cases a <;> simp [scheduled]

theorem exec_order (acts : List Act) {s s' : St} (hs : exec s acts = .next s') :
    s'.started ++ s'.queue = s.started ++ s.queue ++ scheduled acts := by
  induction acts generalizing s with
  | nil => cases hs; simp [scheduled]
  | cons a acts ih =>
    simp only [exec] at hs
    split at hs
    · rename_i s1 h1
      rw [ih hs, step_order h1, scheduled_cons a acts]; simp
    · rename_i h1
      exact absurd hs (h1 s')

/-! ## Progress -/

/-- A step of the pool itself: the code of `ThreadPool` between the unlocking of
the mutex in `Schedule()` and the start of a task.  No task has to return for it,
nobody has to call anything, and no timeout has to pass. -/
def Act.ofPool : Act → Bool
  | .spawn => true
  | .enter _ => true
  | .wake _ _ => true
  | _ => false

def St.measure (s : St) : Nat :=
  3 * s.spawning + 2 * s.workers.countP isTop + s.workers.countP isWaiting

theorem afterAwait_measure {s : St} {i : Nat} {w : Worker} (hw : s.workers[i]? = some w)
    (hwt : w = .top ∨ w = .waiting) : (afterAwait s i).measure < s.measure := by
  have key : ∀ w', w' = Worker.gone ∨ isRunning w' = true →
      2 * (s.workers.set i w').countP isTop + (s.workers.set i w').countP isWaiting <
      2 * s.workers.countP isTop + s.workers.countP isWaiting := by
    intro w' hw'
    have e1 := countP_set_add isTop s.workers i w w' hw
    have e2 := countP_set_add isWaiting s.workers i w w' hw
    have h1 : isTop w' = false := by cases w' <;> simp [isTop, isRunning] at *
    have h2 : isWaiting w' = false := by cases w' <;> simp [isWaiting, isRunning] at *
    rw [h1] at e1; rw [h2] at e2
    rcases hwt with rfl | rfl
    · have := countP_pos_of_get (p := isTop) hw rfl
      simp [isTop, isWaiting] at e1 e2; omega
    · have := countP_pos_of_get (p := isWaiting) hw rfl
      simp [isTop, isWaiting] at e1 e2; omega
  unfold afterAwait
  simp only
  split
  · rename_i t rest _ _
    have := key (.running t) (Or.inr rfl)
    simp only [St.measure]; omega
  · have := key .gone (Or.inl rfl)
    simp only [St.measure]; omega

theorem step_measure {s s' : St} {a : Act} (ha : a.ofPool = true) (hs : step s a = .next s') :
    s'.measure < s.measure := by
  cases a with
  | spawn =>
    simp only [step] at hs
    split at hs
    · simp at hs
    · cases hs
      simp [St.measure, List.countP_cons, isTop, isWaiting]; omega
  | enter i =>
    simp only [step] at hs
    split at hs
    · simp at hs
    · rename_i hw
      have hw : s.workers[i]? = some .top := by
        apply Classical.byContradiction; intro hc; exact hw hc
      split at hs
      · simp at hs
      · split at hs
        · cases hs
          have := afterAwait_measure (s := { s with numIdle := s.numIdle + 1 }) hw (Or.inl rfl)
          simpa [St.measure] using this
        · cases hs
          have e1 := countP_set_add isTop s.workers i .top .waiting hw
          have e2 := countP_set_add isWaiting s.workers i .top .waiting hw
          simp [isTop, isWaiting] at e1 e2
          simp only [St.measure]; omega
  | wake i b =>
    simp only [step] at hs
    split at hs
    · simp at hs
    · rename_i hw
      have hw : s.workers[i]? = some .waiting := by
        apply Classical.byContradiction; intro hc; exact hw hc
      split at hs
      · simp at hs
      · split at hs
        · cases hs
          exact afterAwait_measure hw (Or.inr rfl)
        · simp at hs
  | schedule t => simp [Act.ofPool] at ha
  | finish i => simp [Act.ofPool] at ha
  | destroy => simp [Act.ofPool] at ha
  | freed => simp [Act.ofPool] at ha

theorem exec_measure (acts : List Act) {s s' : St} (ha : ∀ a ∈ acts, a.ofPool = true)
    (hs : exec s acts = .next s') : acts.length + s'.measure ≤ s.measure := by
  induction acts generalizing s with
  | nil => cases hs; simp
  | cons a acts ih =>
    simp only [exec] at hs
    split at hs
    · rename_i s1 h1
      have h2 := step_measure (ha a (by simp)) h1
      have h3 := ih (fun b hb => ha b (by simp [hb])) hs
      simp only [List.length_cons]; omega
    · rename_i h1
      exact absurd hs (h1 s')

/-- As long as the queue is not empty, or the pool is exiting and has a thread not
inside a task, some thread of the pool can go on without a timeout. -/
theorem pool_step_enabled {s : St} (h : Inv s)
    (hq : (s.exiting = false ∧ s.queue ≠ []) ∨
      (s.exiting = true ∧ s.numThreads ≠ s.workers.countP isRunning)) :
    ∃ a s', a.ofPool = true ∧ (∀ i b, a = .wake i b → b = false) ∧ step s a = .next s' := by
  have hnf : s.spawning = 0 → s.dtor ≠ .freed := by
    intro hs0 hf
    rcases hq with ⟨h1, _⟩ | ⟨_, h2⟩
    · rw [h.exiting, hf] at h1; simp at h1
    · have := h.freed hf; have := h.threads; omega
  by_cases hsp : s.spawning = 0
  · have hnf := hnf hsp
    have hready : s.ready = true := by
      rcases hq with ⟨_, h2⟩ | ⟨h1, _⟩
      · simp [St.ready, h2]
      · simp [St.ready, h1]
    have hpos : 0 < s.workers.countP isTop + s.workers.countP isWaiting := by
      rcases hq with ⟨h1, h2⟩ | ⟨_, h2⟩
      · have := h.cover h1
        have : 0 < s.queue.length := List.length_pos_iff.mpr h2
        omega
      · have := h.threads; omega
    by_cases ht : 0 < s.workers.countP isTop
    · obtain ⟨w, hm, hw⟩ := List.countP_pos_iff.mp ht
      obtain ⟨i, hi⟩ := List.mem_iff_getElem?.mp hm
      cases w <;> simp [isTop] at hw
      refine ⟨.enter i, afterAwait { s with numIdle := s.numIdle + 1 } i, rfl, by simp, ?_⟩
      have hr : ({ s with numIdle := s.numIdle + 1 } : St).ready = true := hready
      simp [step, hi, hnf, hr]
    · have : 0 < s.workers.countP isWaiting := by omega
      obtain ⟨w, hm, hw⟩ := List.countP_pos_iff.mp this
      obtain ⟨i, hi⟩ := List.mem_iff_getElem?.mp hm
      cases w <;> simp [isWaiting] at hw
      refine ⟨.wake i false, afterAwait s i, rfl, by intro _ _ e; cases e; rfl, ?_⟩
      simp [step, hi, hnf, hready]
  · exact ⟨.spawn, { s with spawning := s.spawning - 1, workers := s.workers ++ [.top] }, rfl,
      by simp, by simp only [step, if_neg hsp]⟩

theorem exiting_mono (acts : List Act) {s s' : St} (hs : exec s acts = .next s')
    (he : s.exiting = true) : s'.exiting = true ∧ s'.started = s.started := by
  induction acts generalizing s with
  | nil => cases hs; exact ⟨he, rfl⟩
  | cons a acts ih =>
    simp only [exec] at hs
    split at hs
    · rename_i s1 h1
      have key : s1.exiting = true ∧ s1.started = s.started := by
        have ha : ∀ (s : St) i, s.exiting = true →
            (afterAwait s i).exiting = true ∧ (afterAwait s i).started = s.started := by
          intro s i he
          unfold afterAwait
          simp only
          split
          · rename_i h1 _; rw [he] at h1; simp at h1
          · exact ⟨he, rfl⟩
        cases a with
        | schedule t =>
          simp only [step, he] at h1
          split at h1 <;> simp at h1
        | spawn => simp only [step] at h1; split at h1 <;> cases h1; exact ⟨he, rfl⟩
        | enter i =>
          simp only [step] at h1
          split at h1
          · simp at h1
          · split at h1
            · simp at h1
            · split at h1
              · cases h1; exact ha _ _ he
              · cases h1; exact ⟨he, rfl⟩
        | wake i b =>
          simp only [step] at h1
          split at h1
          · simp at h1
          · split at h1
            · simp at h1
            · split at h1
              · cases h1; exact ha _ _ he
              · simp at h1
        | finish i =>
          simp only [step] at h1
          split at h1
          · cases h1; exact ⟨he, rfl⟩
          · simp at h1
        | destroy => simp only [step] at h1; split at h1 <;> cases h1; exact ⟨rfl, rfl⟩
        | freed => simp only [step] at h1; split at h1 <;> cases h1; exact ⟨he, rfl⟩
      obtain ⟨h2, h3⟩ := ih hs key.1
      exact ⟨h2, h3.trans key.2⟩
    · rename_i h1
      exact absurd hs (h1 s')

end Riegeli.ThPool

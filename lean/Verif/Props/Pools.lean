import Verif.PoolSystemProofs
import Verif.KeyedPoolProofs

/-!
# Recycling pools and background cleaning (C48, C49)

`PoolSpec.lean` says what a pool is: the list of its idle objects, oldest first.

* C48: a pool behaves as that list, whatever is done with it; used by any number of
  threads, under any schedule, together with the background cleaner, it never hands
  out an object twice, never loses or destroys one twice, and never keeps more than its
  limit.
* C49: the background cleaner never touches a destroyed pool; an object which became
  too old is evicted as soon as the background thread gets to run, however scheduling,
  cancelling and cleaning interleave.
-/

namespace Riegeli.Pool

/-! ## A pool alone -/

/-- Executing these operations on the pool has the effects which the specification
demands (objects destroyed by one operation may be destroyed in any order). -/
def Agrees {κ β : Type} [DecidableEq κ] (I : Impl κ β) (max : Nat) :
    I.σ → Idle κ β → List (Op κ β) → Prop
  | _, _, [] => True
  | s, xs, op :: ops =>
    ∃ e s', I.op s op = some (e, s') ∧
      e.returned = (specOp max xs op).1.returned ∧
      e.destroyed.Perm (specOp max xs op).1.destroyed ∧
      e.cleanAt = (specOp max xs op).1.cleanAt ∧
      Agrees I max s' (specOp max xs op).2 ops

theorem agrees_of_correct {κ β : Type} [DecidableEq κ] {I : Impl κ β} (C : I.Correct) (max : Nat) :
    ∀ (ops : List (Op κ β)) (s : I.σ) (xs : Idle κ β), C.Repr max s xs → Agrees I max s xs ops
  | [], _, _, _ => trivial
  | .get k :: ops, s, xs, h => by
    obtain ⟨s', h1, h2⟩ := C.take k h
    cases ht : takeNewest k xs with
    | none =>
      rw [ht] at h1 h2
      refine ⟨⟨none, [], none⟩, s', ?_, ?_, ?_, ?_, ?_⟩
      · simp [Impl.op, h1]
      · simp [specOp, ht]
      · simp [specOp, ht]
      · simp [specOp, ht]
      · simp only [specOp, ht]; exact agrees_of_correct C max ops s' xs h2
    | some x =>
      rw [ht] at h1 h2
      refine ⟨⟨some x.1, [], none⟩, s', ?_, ?_, ?_, ?_, ?_⟩
      · simp [Impl.op, h1]
      · simp [specOp, ht]
      · simp [specOp, ht]
      · simp [specOp, ht]
      · simp only [specOp, ht]; exact agrees_of_correct C max ops s' x.2 h2
  | .put k b d :: ops, s, xs, h => by
    obtain ⟨s', h1, h2⟩ := C.put k b d h
    exact ⟨_, s', by simp only [Impl.op, h1, Option.map_some]; rfl, rfl, List.Perm.refl _, rfl,
      agrees_of_correct C max ops s' _ h2⟩
  | .clear :: ops, s, xs, h => by
    obtain ⟨ev, s', h1, hp, h2⟩ := C.clear h
    exact ⟨⟨none, ev, none⟩, s', by simp only [Impl.op, h1, Option.map_some], rfl, hp, rfl,
      agrees_of_correct C max ops s' _ h2⟩
  | .clean now :: ops, s, xs, h => by
    obtain ⟨s', h1, h2⟩ := C.clean now h
    exact ⟨_, s', by simp only [Impl.op, h1, Option.map_some]; rfl, rfl, List.Perm.refl _, rfl,
      agrees_of_correct C max ops s' _ h2⟩

/-- C48: any history of a `RecyclingPool`, of any size limit. -/
theorem C48_ring_history {β : Type} (max : Nat) (ops : List (Op Unit β)) :
    Agrees (ring β) max ((ring β).new max) [] ops :=
  agrees_of_correct (ring_correct β) max ops _ _ ((ring_correct β).new max)

/-- C48: any history of a `KeyedRecyclingPool`, of any size limit. -/
theorem C48_keyed_history {κ β : Type} [DecidableEq κ] (max : Nat) (ops : List (Op κ β)) :
    Agrees (keyed κ β) max ((keyed κ β).new max) [] ops :=
  agrees_of_correct (keyed_correct κ β) max ops _ _ ((keyed_correct κ β).new max)

/-! ## Pools, threads and the background cleaner -/

/-- The two kinds of pools. -/
inductive TheCode : (κ : Type) → DecidableEq κ → Impl κ Nat → Prop where
  | ring : TheCode Unit inferInstance (ring Nat)
  | keyed (κ : Type) (inst : DecidableEq κ) : TheCode κ inst (keyed κ Nat)

theorem TheCode.correct {κ : Type} {inst : DecidableEq κ} {I : Impl κ Nat}
    (h : TheCode κ inst I) : Nonempty (@Impl.Correct κ Nat inst I) := by
  cases h with
  | ring => exact ⟨ring_correct Nat⟩
  | keyed => exact ⟨keyed_correct κ Nat⟩

/-- `s` is what remains after some schedule. -/
def Reachable {κ : Type} (I : Impl κ Nat) (s : Sys I) : Prop :=
  ∃ acts, (Sys.init I).exec acts = .next s

variable {κ : Type} {inst : DecidableEq κ} {I : Impl κ Nat}

theorem TheCode.inv (h : TheCode κ inst I) {s : Sys I} (hs : Reachable I s) :
    ∃ (C : I.Correct) (xss : List (Idle κ Nat)) (A : List Nat) (P : List (Nat × Nat)),
      SInv C s xss A P := by
  obtain ⟨C⟩ := h.correct
  obtain ⟨acts, ha⟩ := hs
  obtain ⟨s', xss, A, P, h1, h2⟩ := SInv.exec acts (SInv.init C)
  rw [ha] at h1
  cases h1
  exact ⟨C, xss, A, P, h2⟩

/-- C48: no schedule of any operations on any pools fails an assertion, uses an invalid
iterator or an index out of range, or starts a second background thread; in
particular (C49) `Clean()` is never called on a destroyed pool. -/
theorem C48_no_crash (h : TheCode κ inst I) (acts : List (Act κ)) :
    ∃ s, (Sys.init I).exec acts = .next s := by
  obtain ⟨C⟩ := h.correct
  obtain ⟨s', _, _, _, h1, _⟩ := SInv.exec acts (SInv.init C)
  exact ⟨s', h1⟩

/-- The objects in a pool: those which `Clear()` would destroy. -/
def contents (I : Impl κ Nat) (q : PoolState I.σ) : List Nat :=
  ((I.clear q.state).map (·.1)).getD []

theorem contents_perm {C : I.Correct} {q : PoolState I.σ} {xs : Idle κ Nat} {now : Nat}
    (h : PoolOk C now q xs) : (contents I q).Perm (objs xs) := by
  obtain ⟨ev, st, h1, h2, _⟩ := C.clear h.repr
  simp only [contents, h1, Option.map_some, Option.getD_some]
  exact h2

theorem count_contents {C : I.Correct} (a : Nat) :
    ∀ (pools : List (PoolState I.σ)) (xss : List (Idle κ Nat)) (now : Nat),
      xss.length = pools.length →
      (∀ p q, pools[p]? = some q → PoolOk C now q (idleAt xss p)) →
      List.count a (pools.flatMap (contents I)) = List.count a (xss.flatMap objs)
  | [], [], _, _, _ => rfl
  | [], _ :: _, _, h, _ => by simp at h
  | _ :: _, [], _, h, _ => by simp at h
  | q :: pools, xs :: xss, now, h, hok => by
    have h1 := count_contents a pools xss now (by simpa using h) (fun p q' hq => by
      have := hok (p + 1) q' (by simpa using hq)
      simpa [idleAt] using this)
    have h2 : PoolOk C now q xs := by
      have := hok 0 q rfl
      simpa [idleAt] using this
    have h3 := (contents_perm h2).count_eq a
    simp only [List.flatMap_cons, List.count_append]
    omega

/-- C48: at any moment, each object ever created is in exactly one place: held by the
user, or idle in one pool, or taken out of its pool by one operation or by the
background thread and about to be destroyed, or destroyed (once). -/
theorem C48_ownership (h : TheCode κ inst I) {s : Sys I} (hs : Reachable I s) :
    (s.held ++ s.gone ++ s.pools.flatMap (contents I) ++ s.tasks.flatMap Task.evicted ++
      s.bg.evicted).Perm (List.range s.made) := by
  obtain ⟨C, xss, A, P, hi⟩ := h.inv hs
  rw [List.perm_iff_count]
  intro a
  have h1 := hi.own a
  have h2 := count_contents a s.pools xss s.now hi.len hi.ok
  have h3 : List.count a (List.range s.made) = if a < s.made then 1 else 0 := by
    rw [List.nodup_range.count]
    simp [List.mem_range]
  simp only [places] at h1
  simp only [List.count_append]
  omega

/-- C48: an object handed out is not handed out again, is not idle, and is not
destroyed, before it is given back. -/
theorem C48_exclusive (h : TheCode κ inst I) {s : Sys I} (hs : Reachable I s) :
    s.held.Nodup ∧ s.gone.Nodup ∧
      (∀ b ∈ s.held, b ∉ s.gone ∧ (∀ q ∈ s.pools, b ∉ contents I q) ∧
        (∀ t ∈ s.tasks, b ∉ t.evicted) ∧ b ∉ s.bg.evicted) := by
  have hp := C48_ownership h hs
  have hn : (s.held ++ s.gone ++ s.pools.flatMap (contents I) ++ s.tasks.flatMap Task.evicted ++
      s.bg.evicted).Nodup := hp.nodup_iff.mpr List.nodup_range
  simp only [List.append_assoc] at hn
  rw [List.nodup_append] at hn
  obtain ⟨h1, h2, h3⟩ := hn
  rw [List.nodup_append] at h2
  refine ⟨h1, h2.1, ?_⟩
  intro b hb
  have h4 : ∀ x, x ∈ s.gone ++ (s.pools.flatMap (contents I) ++
      (s.tasks.flatMap Task.evicted ++ s.bg.evicted)) → b ≠ x := fun x hx => h3 b hb x hx
  refine ⟨?_, ?_, ?_, ?_⟩
  · intro hh; exact h4 b (by simp [hh]) rfl
  · intro q hq hh
    refine h4 b ?_ rfl
    simp only [List.mem_append, List.mem_flatMap]
    exact .inr (.inl ⟨q, hq, hh⟩)
  · intro t ht hh
    refine h4 b ?_ rfl
    simp only [List.mem_append, List.mem_flatMap]
    exact .inr (.inr (.inl ⟨t, ht, hh⟩))
  · intro hh; exact h4 b (by simp [hh]) rfl

/-- C48: a pool never holds more idle objects than its limit, and a destroyed one
holds none. -/
theorem C48_bounded (h : TheCode κ inst I) {s : Sys I} (hs : Reachable I s)
    {q : PoolState I.σ} (hq : q ∈ s.pools) :
    (contents I q).length ≤ q.maxSize ∧ (q.isOpen = false → contents I q = []) := by
  obtain ⟨C, xss, A, P, hi⟩ := h.inv hs
  obtain ⟨p, hp⟩ := List.mem_iff_getElem?.mp hq
  have hok := hi.ok p q hp
  have hperm := contents_perm hok
  refine ⟨?_, ?_⟩
  · rw [hperm.length_eq]; simp only [objs, List.length_map]; exact hok.bound
  · intro hc
    have := hok.closed hc
    rw [this] at hperm
    exact List.Perm.eq_nil hperm

/-- C49: the pool being cleaned has not been destroyed. -/
theorem C49_cleans_live_pool (h : TheCode κ inst I) {s : Sys I} (hs : Reachable I s) {p : Nat}
    (hp : s.bg.target = some p) : ∃ q, s.pool? p = some q ∧ q.registered = true := by
  obtain ⟨C, xss, A, P, hi⟩ := h.inv hs
  obtain ⟨q, h1, h2, h3⟩ := (hi.reg p).mp (hi.thread.targetReg p hp)
  exact ⟨q, by simp [Sys.pool?, h1, h2], h3⟩

/-- The pool holds an object which is too old now: `Clean()` would evict something. -/
def hasTooOld (s : Sys I) (q : PoolState I.σ) : Prop :=
  ∃ r, I.clean s.now q.state = some r ∧ r.evicted ≠ []

/-- No operation of the user is in progress, except for destroying objects evicted. -/
def quiet (s : Sys I) : Prop := ∀ t ∈ s.tasks, t = .done ∨ ∃ ev, t = .destroy ev

theorem not_tooOld {C : I.Correct} {s : Sys I} {xss : List (Idle κ Nat)} {A : List Nat}
    {P : List (Nat × Nat)} (hi : SInv C s xss A P) (hq : quiet s) (hb : s.bg.target = none)
    (hP : ∀ x ∈ P, s.now < x.2) {q : PoolState I.σ} (hqm : q ∈ s.pools) : ¬ hasTooOld s q := by
  rintro ⟨r, hr, hne⟩
  obtain ⟨p, hp⟩ := List.mem_iff_getElem?.mp hqm
  have hok := hi.ok p q hp
  obtain ⟨st, h1, _⟩ := C.clean s.now hok.repr
  rw [hr] at h1
  cases h1
  simp only at hne
  cases hx : idleAt xss p with
  | nil => rw [hx] at hne; exact hne rfl
  | cons x xs =>
    rw [hx] at hne
    cases ht : tooOld s.now x with
    | false => exact hne (by rw [List.takeWhile_cons]; simp [ht])
    | true =>
      have hD : ∃ D, x.2.2 = some D ∧ D ≤ s.now := by
        simp only [tooOld] at ht
        split at ht
        · cases ht
        · rename_i d hd; exact ⟨d, hd, by simpa using ht⟩
      obtain ⟨D, hD, hle⟩ := hD
      rcases hi.cover p x D (by rw [hx]; rfl) hD with ⟨d, hd, hm⟩ | ⟨d, ev, _, hm⟩ | hm | ⟨t, hm⟩ |
        ⟨ev, d, _, hm⟩
      · have := hP _ hm; simp only at this; omega
      · rcases hq _ hm with hh | ⟨_, hh⟩ <;> cases hh
      · rcases hq _ hm with hh | ⟨_, hh⟩ <;> cases hh
      · rw [hm] at hb; cases hb
      · rw [hm] at hb; cases hb

theorem target_of_refused {s : Sys I} (h : s.bgStep = .refused) : s.bg.target = none := by
  cases hb : s.bg with
  | off => rfl
  | starting => rfl
  | waiting d => rfl
  | cleaning p t =>
    simp only [Sys.bgStep, hb] at h
    split at h
    · cases h
    · rename_i q _
      cases hc : I.clean t q.state <;> simp [hc, Out.ofOption] at h
  | cleaned p ev d =>
    cases d with
    | none => simp [Sys.bgStep, hb] at h
    | some d =>
      simp only [Sys.bgStep, hb] at h
      cases hc : (s.cleaner.schedule p d) with
      | none => simp [hc, Out.ofOption] at h
      | some x =>
        cases hd : ((Bg.relock p).started x.2) <;> simp [hc, hd, Out.ofOption] at h
  | relock p =>
    simp only [Sys.bgStep, hb, Sys.thread] at h
    split at h
    · simp [Out.ofOption] at h
    · cases hc : ({ s.cleaner with current := none }.inner s.now) <;>
        simp [hc, Out.ofOption] at h

/-- C49: cleaning is never forgotten.  When no operation is in progress and some pool
holds an object which is too old, the background thread can make a step. -/
theorem C49_not_forgotten (h : TheCode κ inst I) {s : Sys I} (hs : Reachable I s)
    (hq : quiet s) {q : PoolState I.σ} (hqm : q ∈ s.pools) (hold : hasTooOld s q) :
    ∃ s', s.bgStep = .next s' := by
  obtain ⟨C, xss, A, P, hi⟩ := h.inv hs
  have hb := hi.bg
  cases hst : s.bgStep with
  | next s' => exact ⟨s', rfl⟩
  | refused =>
    rw [hst] at hb
    exact absurd hold (not_tooOld hi hq (target_of_refused hst) hb hqm)
  | crash => rw [hst] at hb; exact hb.elim

theorem bg_until_refused {C : I.Correct} : ∀ (n : Nat) {s : Sys I} {xss : List (Idle κ Nat)}
    {A : List Nat} {P : List (Nat × Nat)}, SInv C s xss A P → measure' s P ≤ n →
    ∃ m s' xss' A' P', s.exec (List.replicate m .bg) = .next s' ∧ SInv C s' xss' A' P' ∧
      s'.bgStep = .refused ∧ s'.now = s.now ∧ s'.tasks = s.tasks
  | n, s, xss, A, P, hi, hn => by
    have hb := hi.bg
    cases hst : s.bgStep with
    | refused => exact ⟨0, s, xss, A, P, rfl, hi, hst, rfl, rfl⟩
    | crash => rw [hst] at hb; exact hb.elim
    | next s1 =>
      rw [hst] at hb
      obtain ⟨xss1, A1, P1, hi1, hnow, ht, hlt⟩ := hb
      cases n with
      | zero => omega
      | succ n =>
        obtain ⟨m, s', xss', A', P', h1, h2, h3, h4, h5⟩ := bg_until_refused n hi1 (by omega)
        refine ⟨m + 1, s', xss', A', P', ?_, h2, h3, h4.trans hnow, h5.trans ht⟩
        simp only [List.replicate_succ, Sys.exec, Sys.step, hst]
        exact h1

/-- C49: the background thread alone gets rid of everything which is too old, in a
finite number of steps, and then waits or exits. -/
theorem C49_eventually_cleaned (h : TheCode κ inst I) {s : Sys I} (hs : Reachable I s)
    (hq : quiet s) :
    ∃ n s', s.exec (List.replicate n .bg) = .next s' ∧ s'.now = s.now ∧
      s'.bgStep = .refused ∧ ∀ q ∈ s'.pools, ¬ hasTooOld s' q := by
  obtain ⟨C, xss, A, P, hi⟩ := h.inv hs
  obtain ⟨n, s', xss', A', P', h1, h2, h3, h4, h5⟩ := bg_until_refused _ hi (Nat.le_refl _)
  refine ⟨n, s', h1, h4, h3, ?_⟩
  intro q hqm
  have hb := h2.bg
  rw [h3] at hb
  refine not_tooOld h2 ?_ (target_of_refused h3) hb hqm
  intro t ht
  rw [h5] at ht
  exact hq t ht

/-- C49: no operation waits forever.  Whatever is in progress, after finitely many steps of
the background thread the operation `i` can make a step. -/
theorem C49_no_deadlock (h : TheCode κ inst I) {s : Sys I} (hs : Reachable I s) {i : Nat}
    {t : Task} (hi : s.tasks[i]? = some t) (ht : t ≠ .done) :
    ∃ n s' s'', s.exec (List.replicate n .bg) = .next s' ∧ s'.run i = .next s'' := by
  obtain ⟨C, xss, A, P, hinv⟩ := h.inv hs
  obtain ⟨n, s', xss', A', P', h1, h2, h3, h4, h5⟩ := bg_until_refused _ hinv (Nat.le_refl _)
  have hi' : s'.tasks[i]? = some t := by rw [h5]; exact hi
  have hg := h2.run i
  have hcur : s'.cleaner.current = none := by
    rw [h2.thread.target]; exact target_of_refused h3
  cases hr : s'.run i with
  | next s'' => exact ⟨n, s', s'', h1, hr⟩
  | crash => rw [hr] at hg; exact hg.elim
  | refused =>
    exfalso
    simp only [Sys.run, hi'] at hr
    cases t with
    | done => exact ht rfl
    | destroy ev => cases hr
    | schedule p d ev =>
      simp only at hr
      cases hc : s'.cleaner.schedule p d with
      | none => simp [hc, Out.ofOption] at hr
      | some x => cases hd : s'.bg.started x.2 <;> simp [hc, hd, Out.ofOption] at hr
    | cancel p =>
      simp only [hcur] at hr
      cases hc : s'.cleaner.cancel p <;> simp [hc, Out.ofOption] at hr
    | clearLock p =>
      simp only at hr
      split at hr
      · cases hr
      · rename_i q _
        cases hc : I.clear q.state <;> simp [hc, Out.ofOption] at hr

/-! ## Concrete cases -/

/-- A keyed pool of at most two objects: the newest object with the key is returned, the
oldest one is evicted, and an object taken and returned becomes the newest. -/
example : ∃ s1 s2 s3 s4 s5 s6 s7,
    (keyed Nat Nat).op ((keyed Nat Nat).new 2) (.put 7 10 (some 5)) =
      some (⟨none, [], some 5⟩, s1) ∧
    (keyed Nat Nat).op s1 (.put 8 11 (some 6)) = some (⟨none, [], none⟩, s2) ∧
    (keyed Nat Nat).op s2 (.get 7) = some (⟨some 10, [], none⟩, s3) ∧
    (keyed Nat Nat).op s3 (.put 7 10 (some 7)) = some (⟨none, [], none⟩, s4) ∧
    (keyed Nat Nat).op s4 (.put 7 12 (some 8)) = some (⟨none, [11], none⟩, s5) ∧
    (keyed Nat Nat).op s5 (.clean 7) = some (⟨none, [10], some 8⟩, s6) ∧
    (keyed Nat Nat).op s6 (.get 8) = some (⟨none, [], none⟩, s7) :=
  ⟨_, _, _, _, _, _, _, rfl, rfl, rfl, rfl, rfl, rfl, rfl⟩

/-- Two pools; the background thread is started by the first object returned, and is
waiting for it when another pool asks for an earlier time. -/
def exSetup : List (Act Unit) :=
  [.create 2 (some 10) false, .create 1 (some 3) false,
   .get 0 (), .get 0 (), .get 1 (), .put 0 () 0, .run 0, .bg, .tick 1, .put 0 () 1,
   .put 1 () 2, .run 2, .run 1, .run 0, .run 2]

/-- The state after a schedule, in numbers. -/
def summary (acts : List (Act Unit)) : Option (List Nat × List Nat × Bg × Nat) :=
  match (Sys.init (ring Nat)).exec acts with
  | .next s => some (s.held, s.gone, s.bg, s.tasks.length)
  | _ => none

example : summary exSetup = some ([], [], .waiting (some 10), 3) := by decide +kernel

/-- The thread is woken by the earlier deadline, cleans the second pool at the time 4,
and then the first one at the times 10 and 11. -/
example : summary (exSetup ++ [.bg, .tick 3, .bg, .bg, .bg, .bg]) =
    some ([], [2], .waiting (some 10), 3) := by decide +kernel

example : summary (exSetup ++ [.bg, .tick 3, .bg, .bg, .bg, .bg, .tick 6, .bg, .bg, .bg, .bg,
    .tick 1, .bg, .bg, .bg, .bg]) = some ([], [2, 0, 1], .off, 3) := by decide +kernel

/-- The hypotheses of C49 hold after `exSetup` and three units of time. -/
example : ∃ s : Sys (ring Nat), Reachable (ring Nat) s ∧ quiet s ∧
    ∃ q ∈ s.pools, hasTooOld s q := by
  refine ⟨_, ⟨exSetup ++ [.tick 3], rfl⟩, ?_, _, List.mem_cons_of_mem _ List.mem_cons_self,
    _, rfl, ?_⟩
  · intro t ht
    have : t = .done ∨ t = .destroy [] := by
      revert t
      decide +kernel
    rcases this with rfl | rfl
    · exact .inl rfl
    · exact .inr ⟨_, rfl⟩
  · decide +kernel

/-- `Clear()` waits while the pool is being cleaned. -/
def exClear : List (Act Unit) :=
  exSetup ++ [.bg, .tick 3, .bg, .clear 1]

example : ∃ s : Sys (ring Nat), (Sys.init (ring Nat)).exec exClear = .next s ∧
    s.tasks[3]? = some (.cancel 1) ∧ s.bg = .cleaning 1 4 ∧
    s.cleaner.current = some 1 := by
  refine ⟨_, rfl, ?_⟩
  decide +kernel

end Riegeli.Pool

import Verif.SharedPtrProofs

/-!
# C47: `SharedPtr` behaves like a value under any interleaving of threads

A program declares any number of `SharedPtr` variables and uses them from any
number of threads.  A schedule is a list of actions: begin an operation, or let an
operation in progress make its next access to shared memory.  `exec` runs the code
of `SharedPtr` and `RefCount`; the only rule the program obeys is that a variable
being assigned in one operation is not used in another (`SharedPtr` is as thread
safe as `std::shared_ptr`, not more).

The specification: every variable holds a value of its own.
-/

namespace Riegeli.Shp

/-- What the variables hold according to their declarations, assignments and
resets alone, in the order in which those began: no objects, no counts. -/
def Held {α : Type} (acts : List (Act α)) : List (Option α) :=
  acts.foldl (fun vals a =>
    match a with
    | .declare => vals ++ [none]
    | .make w x => vals.set w (some x)
    | .copy w v => vals.set w (vals[v]?.getD none)
    | .move w v => (vals.set v none).set w (vals[v]?.getD none)
    | .clear w => vals.set w none
    | .resetTo w x => vals.set w (some x)
    | .run _ => vals) []

theorem held_eq {α : Type} (acts : List (Act α)) : Held acts = acts.foldl specStep [] := by
  unfold Held
  congr 1

/-- No schedule makes a `SharedPtr` operation touch an object that was deleted, or
delete one twice. -/
theorem C47_no_use_after_free {α : Type} (acts : List (Act α)) :
    exec St.init acts ≠ .useAfterFree :=
  (exec_inv acts inv_init).1

/-- Whatever the other threads do, a variable which is not being assigned points to
the value which was last put into it: `Reset(value)` in place, through another
variable, is never visible through this one; and what it points to has not been
deleted. -/
theorem C47_value_semantics {α : Type} (acts : List (Act α)) (s : St α)
    (h : exec St.init acts = .next s) :
    (Held acts).length = s.ptrs.length ∧
    ∀ w, s.free w = true → (Held acts)[w]? = some (s.deref w) ∧
      ∀ o, s.ptrs[w]? = some (some o) → ∃ ob, s.objs[o]? = some ob ∧ ob.deleted = 0 := by
  have hi := (exec_inv acts inv_init).2 s h
  rw [← held_eq] at hi
  refine ⟨hi.len, ?_⟩
  intro w hw
  obtain ⟨h1, h2⟩ := (free_iff _ _).mp hw
  have hg : s.ptrs[w]? = some s.ptrs[w] := List.getElem?_eq_getElem h1
  constructor
  · rw [hi.idle w _ hg h2]
    simp only [St.deref, hg]
    cases s.ptrs[w] <;> rfl
  · intro o ho
    obtain ⟨ob, h3, h4, _⟩ := hi.live (var_live ho)
    exact ⟨ob, h3, h4⟩

/-- `IsUnique()` tells the truth: no other
variable points to the object, and no operation in progress in any thread holds a
reference to it or is about to touch it. -/
theorem C47_unique {α : Type} (acts : List (Act α)) (s : St α)
    (h : exec St.init acts = .next s) (w : Nat)
    (hu : s.isUnique w = true) :
    ∃ o, s.ptrs[w]? = some (some o) ∧
      (∀ v, s.ptrs[v]? = some (some o) → v = w) ∧
      ∀ t ∈ s.tasks, (∀ v, t ≠ .assign v (some o)) ∧ t ≠ .unrefLoad o ∧
        t ≠ .unrefSub o ∧ t ≠ .destroy o := by
  have hi := (exec_inv acts inv_init).2 s h
  simp only [St.isUnique] at hu
  split at hu
  · rename_i o hp
    obtain ⟨ob, ho, hdel, hcnt, hdz⟩ := hi.live (var_live hp)
    simp only [load, ho, hdel, if_true] at hu
    have hone : s.refs o = 1 := by simp at hu; omega
    refine ⟨o, hp, ?_, ?_⟩
    · intro v hv
      apply Classical.byContradiction; intro hne
      have h2 := countP_set' (fun y => y == some o) (b := none) hp
      have hp' : (s.ptrs.set w none)[v]? = some (some o) := by
        rw [List.getElem?_set_ne (Ne.symm hne)]; exact hv
      have h3 := countP_mem (p := (· == some o)) hp' (by simp)
      simp only [St.refs] at hone
      simp at h2
      omega
    · intro t ht
      have hh : ∀ t ∈ s.tasks, t.holds o = false := by
        intro t ht'
        apply (Bool.not_eq_true _).mp; intro hh
        have h1 : 1 ≤ s.tasks.countP (Task.holds o) := List.one_le_countP_iff.mpr ⟨t, ht', hh⟩
        have h2 := countP_mem (p := (· == some o)) hp (by simp)
        simp only [St.refs] at hone; omega
      have hd : t.deletes o = false := by
        apply (Bool.not_eq_true _).mp; intro hh
        have h1 : 1 ≤ s.dels o := List.one_le_countP_iff.mpr ⟨t, ht, hh⟩
        omega
      have h3 := hh t ht
      refine ⟨?_, ?_, ?_, ?_⟩
      · intro v he; subst he; simp [Task.holds] at h3
      · intro he; subst he; simp [Task.holds] at h3
      · intro he; subst he; simp [Task.holds] at h3
      · intro he; subst he; simp [Task.deletes] at hd
  · simp at hu

/-- An object is deleted at most once; and not while anything refers to it. -/
theorem C47_deleted_once {α : Type} (acts : List (Act α)) (s : St α)
    (h : exec St.init acts = .next s) (o : Nat) (ob : Obj α) (ho : s.objs[o]? = some ob) :
    ob.deleted ≤ 1 ∧ ((∃ w : Nat, s.ptrs[w]? = some (some o)) → ob.deleted = 0) := by
  have hi := (exec_inv acts inv_init).2 s h
  have hl := hi.life o ob ho
  constructor
  · simp only [Life] at hl; omega
  · rintro ⟨w, hw⟩
    have := var_live hw
    simp only [Life] at hl; omega

/-- Nothing leaks and `GetRefCount()` is exact: once all operations have returned, an
object has been deleted exactly when no variable points to it, and the reference
count seen through a variable is the number of variables pointing to its object. -/
theorem C47_no_leak {α : Type} (acts : List (Act α)) (s : St α)
    (h : exec St.init acts = .next s) (hq : ∀ t ∈ s.tasks, t = .done) :
    (∀ (o : Nat) (ob : Obj α), s.objs[o]? = some ob →
      (ob.deleted = 1 ↔ ∀ w : Nat, s.ptrs[w]? ≠ some (some o))) ∧
    ∀ w o : Nat, s.ptrs[w]? = some (some o) → s.refCount w = s.ptrs.countP (· == some o) := by
  have hi := (exec_inv acts inv_init).2 s h
  have hz : ∀ o, s.tasks.countP (Task.holds o) = 0 := by
    intro o; rw [List.countP_eq_zero]; intro t ht; rw [hq t ht]; simp [Task.holds]
  have hz2 : ∀ o, s.dels o = 0 := by
    intro o; rw [St.dels, List.countP_eq_zero]; intro t ht; rw [hq t ht]; simp [Task.deletes]
  constructor
  · intro o ob ho
    have hl := hi.life o ob ho
    constructor
    · intro hd w hw
      have := var_live hw
      simp only [Life] at hl; omega
    · intro hn
      have h1 : s.refs o = 0 := by
        simp only [St.refs, hz, Nat.add_zero, List.countP_eq_zero]
        intro p hp
        obtain ⟨w, hw⟩ := List.mem_iff_getElem?.mp hp
        intro hpo
        have : p = some o := by simpa using hpo
        subst this
        exact hn w hw
      have := hz2 o
      simp only [Life] at hl; omega
  · intro w o hw
    obtain ⟨ob, h3, h4, h5, _⟩ := hi.live (var_live hw)
    simp [St.refCount, hw, load, h3, h4, h5, St.refs, hz]

/-- Operations in progress can always go on: none is ever refused. -/
theorem C47_progress {α : Type} (acts : List (Act α)) (s : St α)
    (h : exec St.init acts = .next s) (i : Nat) (t : Task α)
    (ht : s.tasks[i]? = some t) (hd : t ≠ .done) :
    ∃ s', step s (.run i) = .next s' := by
  have hi := (exec_inv acts inv_init).2 s h
  have hnuf := (step_inv hi (.run i)).1
  cases hs : step s (.run i) with
  | next s' => exact ⟨s', rfl⟩
  | useAfterFree => exact absurd hs hnuf
  | refused =>
    exfalso
    have hon : ∀ w, t.onVar w = true → w < s.ptrs.length := by
      intro w hw
      apply Classical.byContradiction; intro hc
      have h1 := hi.decl w (by omega)
      have h2 := countP_mem ht hw
      omega
    simp only [step, runTask, ht] at hs
    cases t with
    | done => exact hd rfl
    | assign w p =>
      have hg : s.ptrs[w]? = some (s.ptrs[w]'(hon w (by simp [Task.onVar]))) :=
        List.getElem?_eq_getElem _
      simp only [hg] at hs
      simp at hs
    | store w x =>
      obtain ⟨o, h1, _, _⟩ := hi.store w x (List.mem_of_getElem? ht)
      simp only [h1] at hs
      split at hs <;> simp at hs
    | unrefLoad o => simp only at hs; split at hs <;> simp at hs
    | unrefSub o => simp only at hs; split at hs <;> simp at hs
    | destroy o => simp only at hs; split at hs <;> simp at hs

/-! ## A concrete case -/

/-- Three variables share one object; two of them drop it at the same time, both
loading the count before either decrements it, while the third survives; then the
third resets in place, is copied, and one copy resets (to a new object). -/
def exActs : List (Act Nat) :=
  [.declare, .declare, .declare, .make 0 7, .run 0, .copy 1 0, .copy 2 0, .run 1, .run 2,
   .clear 0, .clear 1, .run 3, .run 4, .run 3, .run 4, .run 3, .run 4,
   .resetTo 2 8, .run 5, .copy 0 2, .run 6, .resetTo 2 9, .run 7, .run 7, .run 7]

example : ∃ s, exec St.init exActs = .next s ∧ (∀ t ∈ s.tasks, t = .done) ∧
    Held exActs = [some 8, none, some 9] ∧ s.free 0 = true ∧ s.isUnique 0 = true ∧
    s.objs.length = 2 := by
  refine ⟨_, rfl, ?_⟩
  decide +kernel

/-- Two threads drop the last two references at once: the one whose decrement comes
second deletes, although its load had seen two owners. -/
def exRace : List (Act Nat) :=
  [.declare, .declare, .make 0 7, .run 0, .copy 1 0, .run 1,
   .clear 0, .clear 1, .run 2, .run 3, .run 2, .run 3, .run 2, .run 3, .run 3]

example : ∃ s, exec St.init exRace = .next s ∧ (∀ t ∈ s.tasks, t = .done) ∧
    s.objs.map Obj.deleted = [1] := by
  refine ⟨_, rfl, ?_⟩
  decide +kernel

end Riegeli.Shp

import Verif.ObjectProofs

/-!
# C51: the state of readers and writers: the first failure wins and stays

Any program that creates, moves, closes, resets, fails and destroys any number of
objects (`List (Op σ)`) sees exactly what `ObjectSpec` says: an object is open or closed
and failed or not, and it does not matter that the code packs this into one word
pointing to the heap.
-/

namespace Riegeli.Obj

variable {σ : Type}

/-- Every value returned in any history of calls is the specified one, and the calls
which the program may make are the same. -/
theorem C51_history (annotate : Nat → σ → σ) (ops : List (Op σ)) :
    (exec annotate Mem.init ops).map Prod.snd = (specExec annotate [] ops).map Prod.snd :=
  (exec_spec annotate ops inv_init).1

/-- No history makes a call touch or delete a `FailedStatus` which was deleted; each
one is deleted exactly when no object refers to it any more, and belongs to one
object until then.  In particular nothing is leaked. -/
theorem C51_memory (annotate : Nat → σ → σ) (ops : List (Op σ)) (m : Mem σ) (rs : List (Ret σ))
    (h : exec annotate Mem.init ops = some (m, rs)) :
    (∀ op, step annotate m op ≠ .useAfterFree) ∧
    (∀ (a : Nat) (c : Cell σ), m.heap[a]? = some c → c.deleted ≤ 1 ∧
      (c.deleted = 0 ↔ ∃ i : Nat, m.objs[i]? = some (some (.failed a)))) ∧
    ∀ i j a : Nat, m.objs[i]? = some (some (.failed a)) → m.objs[j]? = some (some (.failed a)) →
      i = j := by
  obtain ⟨objs, _, hi⟩ := (exec_spec annotate ops inv_init).2 m rs h
  exact ⟨fun op => exec_no_uaf annotate hi op, hi.cells, hi.uniq⟩

/-- The calls which can make a failed object `w` not failed with the same status: a move
from it or into it, `Reset()`, destruction, and the protected `MarkNotFailed()` and
`SetStatus()`. -/
def Op.replaces (w : Nat) : Op σ → Bool
  | .newMoved v => v == w
  | .moveAssign u v => u == w || v == w
  | .destroy u => u == w
  | .resetOpen u => u == w
  | .resetClosed u => u == w
  | .markNotFailed u => u == w
  | .setStatus u _ => u == w
  | _ => false

theorem specStep_keeps (annotate : Nat → σ → σ) {objs objs' : List (Option (Spec σ))} {op : Op σ}
    {r : Ret σ} (h : specStep annotate objs op = some (objs', r)) {w : Nat} {o : Spec σ} {s : σ}
    (hw : objs[w]? = some (some o)) (hf : o.failure = some s) (hr : op.replaces w = false) :
    ∃ o', objs'[w]? = some (some o') ∧ o'.failure = some s := by
  have hl : w < objs.length := (List.getElem?_eq_some_iff.mp hw).1
  have push : ∀ x : Option (Spec σ), (objs ++ [x])[w]? = some (some o) := by
    intro x; rw [List.getElem?_append_left hl]; exact hw
  have other : ∀ (u : Nat) (x : Option (Spec σ)), u ≠ w → (objs.set u x)[w]? = some (some o) := by
    intro u x hne; rw [List.getElem?_set_ne hne]; exact hw
  -- a call that replaces the state of `u` by `g` of it
  have upd : ∀ (u : Nat) (g : Spec σ → Spec σ), (∀ o, o.failure = some s → (g o).failure = some s) →
      ∀ ou, objs[u]? = some (some ou) →
      ∃ o', (objs.set u (some (g ou)))[w]? = some (some o') ∧ o'.failure = some s := by
    intro u g hg ou hu
    by_cases hne : u = w
    · subst hne
      rw [hw] at hu; cases hu
      exact ⟨g o, by rw [List.getElem?_set_self hl], hg o hf⟩
    · exact ⟨o, other u _ hne, hf⟩
  cases op with
  | newOpen => cases h; exact ⟨o, push _, hf⟩
  | newClosed => cases h; exact ⟨o, push _, hf⟩
  | newMoved v =>
    simp only [specStep] at h
    split at h
    · cases h
      have hne : v ≠ w := by simpa [Op.replaces] using hr
      refine ⟨o, ?_, hf⟩
      rw [List.getElem?_append_left (by simpa using hl)]
      exact other v _ hne
    · simp at h
  | moveAssign u v =>
    simp only [specStep] at h
    split at h
    · cases h
      have hne : u ≠ w ∧ v ≠ w := by simpa [Op.replaces] using hr
      exact ⟨o, by rw [List.getElem?_set_ne hne.1]; exact other v _ hne.2, hf⟩
    · simp at h
  | destroy u =>
    simp only [specStep] at h
    split at h
    · cases h; exact ⟨o, other u _ (by simpa [Op.replaces] using hr), hf⟩
    · simp at h
  | resetOpen u =>
    simp only [specStep] at h
    split at h
    · cases h; exact ⟨o, other u _ (by simpa [Op.replaces] using hr), hf⟩
    · simp at h
  | resetClosed u =>
    simp only [specStep] at h
    split at h
    · cases h; exact ⟨o, other u _ (by simpa [Op.replaces] using hr), hf⟩
    · simp at h
  | close u done =>
    simp only [specStep] at h
    split at h
    · rename_i ou hu
      cases h
      exact upd u (fun o => o.close (done.map (annotate u))) (by
        intro o ho; simp only [Spec.close]; split
        · simp [ho]
        · exact ho) ou hu
    · simp at h
  | ok u => simp only [specStep] at h; split at h <;> cases h; exact ⟨o, hw, hf⟩
  | isOpen u => simp only [specStep] at h; split at h <;> cases h; exact ⟨o, hw, hf⟩
  | notFailed u => simp only [specStep] at h; split at h <;> cases h; exact ⟨o, hw, hf⟩
  | status u => simp only [specStep] at h; split at h <;> cases h; exact ⟨o, hw, hf⟩
  | fail u x =>
    simp only [specStep] at h
    split at h
    · rename_i ou hu
      cases h
      exact upd u (fun o => o.fail (annotate u x)) (by intro o ho; simp [Spec.fail, ho]) ou hu
    · simp at h
  | failWithoutAnnotation u x =>
    simp only [specStep] at h
    split at h
    · rename_i ou hu
      cases h
      exact upd u (fun o => o.fail x) (by intro o ho; simp [Spec.fail, ho]) ou hu
    · simp at h
  | statusOrAnnotate u x => simp only [specStep] at h; split at h <;> cases h; exact ⟨o, hw, hf⟩
  | markNotFailed u =>
    simp only [specStep] at h
    split at h
    · cases h; exact ⟨o, other u _ (by simpa [Op.replaces] using hr), hf⟩
    · simp at h
  | setStatus u x =>
    simp only [specStep] at h
    split at h
    · split at h
      · simp at h
      · cases h; exact ⟨o, other u _ (by simpa [Op.replaces] using hr), hf⟩
    · simp at h

theorem specExec_keeps (annotate : Nat → σ → σ) (ops : List (Op σ))
    {objs objs' : List (Option (Spec σ))} {rs : List (Ret σ)}
    (h : specExec annotate objs ops = some (objs', rs)) {w : Nat} {o : Spec σ} {s : σ}
    (hw : objs[w]? = some (some o)) (hf : o.failure = some s)
    (hr : ∀ op ∈ ops, op.replaces w = false) :
    ∃ o', objs'[w]? = some (some o') ∧ o'.failure = some s := by
  induction ops generalizing objs o rs with
  | nil => cases h; exact ⟨o, hw, hf⟩
  | cons op ops ih =>
    simp only [specExec] at h
    split at h
    · rename_i objs1 r h1
      obtain ⟨o1, hw1, hf1⟩ := specStep_keeps annotate h1 hw hf (hr op (by simp))
      cases h2 : specExec annotate objs1 ops with
      | none => rw [h2] at h; simp at h
      | some x =>
        rw [h2] at h
        simp at h
        have := ih (rs := x.2) (objs := objs1) (o := o1) (by rw [h2, ← h.1]) hw1 hf1
          (fun b hb => hr b (by simp [hb]))
        exact this
    · simp at h

theorem exec_append (annotate : Nat → σ → σ) (ops ops' : List (Op σ)) (m : Mem σ) :
    exec annotate m (ops ++ ops') = match exec annotate m ops with
      | none => none
      | some (m', rs) => (exec annotate m' ops').map (fun x => (x.1, rs ++ x.2)) := by
  induction ops generalizing m with
  | nil =>
    simp only [List.nil_append, exec]
    cases exec annotate m ops' <;> rfl
  | cons op ops ih =>
    simp only [List.cons_append, exec]
    cases step annotate m op with
    | next m1 r =>
      simp only [ih]
      cases exec annotate m1 ops with
      | none => rfl
      | some x =>
        simp only [Option.map_some]
        cases exec annotate x.1 ops' <;> rfl
    | refused => rfl
    | useAfterFree => rfl

/-- The first failure wins: after `Fail(s)` on an object which was not failed, whatever else
the program does (more failures, `Close()`, calls on other objects) short of replacing the
state of this object, `status()` returns `s` as annotated then, and `ok()` and
`not_failed()` return `false`. -/
theorem C51_first_failure_wins (annotate : Nat → σ → σ) (before after : List (Op σ)) (w : Nat)
    (s : σ) (m m' : Mem σ) (rs rs' : List (Ret σ))
    (hb : exec annotate Mem.init before = some (m, rs))
    (hnf : step annotate m (.notFailed w) = .next m (.bool true))
    (ha : exec annotate m (.fail w s :: after) = some (m', rs'))
    (hr : ∀ op ∈ after, op.replaces w = false) :
    step annotate m' (.status w) = .next m' (.status (.failure (annotate w s))) ∧
    step annotate m' (.ok w) = .next m' (.bool false) ∧
    step annotate m' (.notFailed w) = .next m' (.bool false) := by
  obtain ⟨objs, _, hi⟩ := (exec_spec annotate before inv_init).2 m rs hb
  obtain ⟨objs', h1, hi'⟩ := (exec_spec annotate _ hi).2 m' rs' ha
  rcases get_spec hi w with ⟨p, o, hp, ho, hrel⟩ | ⟨hno, _⟩
  · have hn : o.failure = none := by
      simp only [step, hp, look, Out.next.injEq, Ret.bool.injEq, true_and] at hnf
      rw [notFailed_iff hrel] at hnf
      simpa [Spec.notFailed] using hnf
    simp only [specExec, specStep, ho] at h1
    have hl : w < objs.length := (List.getElem?_eq_some_iff.mp ho).1
    cases h2 : specExec annotate (objs.set w (some (o.fail (annotate w s)))) after with
    | none => rw [h2] at h1; simp at h1
    | some x =>
      rw [h2] at h1
      simp at h1
      obtain ⟨o', hw', hf'⟩ := specExec_keeps annotate after (rs := x.2)
        (objs' := x.1) (by rw [h2])
        (w := w) (o := o.fail (annotate w s)) (s := annotate w s)
        (by rw [List.getElem?_set_self hl]) (by simp [Spec.fail, hn]) hr
      rw [h1.1] at hw'
      rcases get_spec hi' w with ⟨p', o2, hp', ho', hrel'⟩ | ⟨_, hno⟩
      · rw [ho'] at hw'; cases hw'
        simp only [step, hp', look, status_eq hrel', ok_iff hrel', notFailed_iff hrel',
          Option.map_some, Spec.status, hf', Spec.ok, Spec.notFailed]
        simp
      · exact absurd hw' (hno o')
  · simp only [step] at hnf
    repeat' split at hnf
    all_goals first
      | (simp at hnf; done)
      | exact absurd (by assumption) (hno _)

/-- `Close()` closes; it returns `true` exactly if the object was not failed before and no
failure occurred while closing; calling it again does nothing and returns the same. -/
theorem C51_close (annotate : Nat → σ → σ) (ops : List (Op σ)) (w : Nat) (done done' : List σ)
    (m m1 : Mem σ) (rs : List (Ret σ)) (b nf op : Bool)
    (h : exec annotate Mem.init ops = some (m, rs))
    (hnf : step annotate m (.notFailed w) = .next m (.bool nf))
    (hop : step annotate m (.isOpen w) = .next m (.bool op))
    (hc : step annotate m (.close w done) = .next m1 (.bool b)) :
    b = (nf && (!op || done.isEmpty)) ∧
    step annotate m1 (.isOpen w) = .next m1 (.bool false) ∧
    step annotate m1 (.close w done') = .next m1 (.bool b) := by
  obtain ⟨objs, _, hi⟩ := (exec_spec annotate ops inv_init).2 m rs h
  have hg := step_good hi annotate (.close w done)
  rw [hc] at hg
  obtain ⟨objs1, h1, hi1⟩ := hg
  rcases get_spec hi w with ⟨p, o, hp, ho, hrel⟩ | ⟨hno, _⟩
  · have hl : w < objs.length := (List.getElem?_eq_some_iff.mp ho).1
    simp only [step, hp, look, isOpen_eq hrel, notFailed_iff hrel, Option.map_some,
      Out.next.injEq, Ret.bool.injEq, true_and] at hnf hop
    simp only [specStep, ho, Option.some.injEq, Prod.mk.injEq, Ret.bool.injEq] at h1
    obtain ⟨h2, h3⟩ := h1
    have ho1 : objs1[w]? = some (some (o.close (done.map (annotate w)))) := by
      rw [← h2, List.getElem?_set_self hl]
    rcases get_spec hi1 w with ⟨p1, o1, hp1, ho1', hrel1⟩ | ⟨_, hno⟩
    · rw [ho1] at ho1'; cases ho1'
      have hcl : (o.close (done.map (annotate w))).opened = false := by
        simp only [Spec.close]; split
        · rfl
        · rename_i hx; simpa using hx
      refine ⟨?_, ?_, ?_⟩
      · rw [← h3, ← hnf, ← hop]
        cases o with
        | mk a f => cases a <;> cases f <;> cases done <;> rfl
      · simp only [step, hp1, look, isOpen_eq hrel1, Option.map_some, hcl]
      · simp only [step, hp1, isOpen_eq hrel1, hcl, notFailed_iff hrel1, h3]
    · exact absurd ho1 (hno _)
  · simp only [step] at hnf
    repeat' split at hnf
    all_goals first
      | (simp at hnf; done)
      | exact absurd (by assumption) (hno _)

/-! ## A concrete history -/

/-- Statuses are strings, annotated by the number of the variable. -/
def exampleAnnotate (w : Nat) (s : String) : String := s ++ "; object " ++ toString w

/-- Two objects; the first fails twice, is moved into the second, which is closed. -/
def exampleOps : List (Op String) :=
  [.newOpen, .newOpen, .fail 0 "lost", .fail 0 "late", .status 0, .moveAssign 1 0, .status 1,
    .isOpen 0, .status 0, .close 1 [], .isOpen 1, .status 1, .resetOpen 1, .ok 1,
    .close 1 ["disk full"], .status 1, .destroy 1, .moveAssign 0 0]

example : (exec exampleAnnotate Mem.init exampleOps).map Prod.snd =
    some [.void, .void, .bool false, .bool false, .status (.failure "lost; object 0"), .void,
      .status (.failure "lost; object 0"), .bool false, .status .objectClosed, .bool false,
      .bool false, .status (.failure "lost; object 0"), .void, .bool true, .bool false,
      .status (.failure "disk full; object 1"), .void, .void] := by decide +kernel

/-- The hypotheses of `C51_first_failure_wins` are met. -/
example : ∃ m m' rs rs', exec exampleAnnotate Mem.init [.newOpen, .newOpen] = some (m, rs) ∧
    step exampleAnnotate m (.notFailed 0) = .next m (.bool true) ∧
    exec exampleAnnotate m (.fail 0 "lost" :: [.fail 0 "late", .close 0 ["later"],
      .moveAssign 1 1]) = some (m', rs') ∧
    ∀ op ∈ ([.fail 0 "late", .close 0 ["later"], .moveAssign 1 1] : List (Op String)),
      op.replaces 0 = false :=
  ⟨_, _, _, _, rfl, rfl, rfl, by decide +kernel⟩

end Riegeli.Obj

import Verif.SharedPtr

/-!
# Proofs about `SharedPtr` (C47)
-/

namespace Riegeli.Shp

variable {α : Type}

/-- The value-semantics reading of `SharedPtr` variables: each variable holds a
value of its own. -/
def specStep (vals : List (Option α)) : Act α → List (Option α)
  | .declare => vals ++ [none]
  | .make w x => vals.set w (some x)
  | .copy w v => vals.set w (vals[v]?.getD none)
  | .move w v => (vals.set v none).set w (vals[v]?.getD none)
  | .clear w => vals.set w none
  | .resetTo w x => vals.set w (some x)
  | .run _ => vals

/-- The operation holds a reference to `o`. -/
def Task.holds (o : Nat) : Task α → Bool
  | .assign _ (some p) => p == o
  | .unrefLoad p => p == o
  | .unrefSub p => p == o
  | _ => false

/-- The operation is about to delete `o`. -/
def Task.deletes (o : Nat) : Task α → Bool
  | .destroy p => p == o
  | _ => false

def St.refs (s : St α) (o : Nat) : Nat :=
  s.ptrs.countP (· == some o) + s.tasks.countP (Task.holds o)

def St.dels (s : St α) (o : Nat) : Nat := s.tasks.countP (Task.deletes o)

/-- The life of an object: referred to; about to be deleted; deleted. -/
def Life (refs dels : Nat) (ob : Obj α) : Prop :=
  (1 ≤ refs ∧ ob.count = refs ∧ dels = 0 ∧ ob.deleted = 0) ∨
  (refs = 0 ∧ dels = 1 ∧ ob.deleted = 0) ∨
  (refs = 0 ∧ dels = 0 ∧ ob.deleted = 1)

/-- The value at the end of a pointer. -/
def val (objs : List (Obj α)) (p : Option Nat) : Option α :=
  p.bind fun o => objs[o]?.map Obj.value

structure Inv (s : St α) (vals : List (Option α)) : Prop where
  life : ∀ o ob, s.objs[o]? = some ob → Life (s.refs o) (s.dels o) ob
  fresh : ∀ o, s.objs.length ≤ o → s.refs o = 0 ∧ s.dels o = 0
  excl : ∀ w, s.tasks.countP (Task.onVar w) ≤ 1
  decl : ∀ w, s.ptrs.length ≤ w → s.tasks.countP (Task.onVar w) = 0
  len : vals.length = s.ptrs.length
  store : ∀ w x, Task.store w x ∈ s.tasks →
    ∃ o, s.ptrs[w]? = some (some o) ∧ s.refs o = 1 ∧ vals[w]? = some (some x)
  assign : ∀ w p, Task.assign w p ∈ s.tasks →
    vals[w]? = some (val s.objs p)
  idle : ∀ w p, s.ptrs[w]? = some p → s.tasks.countP (Task.onVar w) = 0 →
    vals[w]? = some (val s.objs p)

theorem countP_set' {β : Type} (p : β → Bool) {l : List β} {i : Nat} {a b : β}
    (h : l[i]? = some a) :
    (l.set i b).countP p + (if p a then 1 else 0) = l.countP p + (if p b then 1 else 0) := by
  obtain ⟨hi, ha⟩ := List.getElem?_eq_some_iff.mp h
  rw [List.countP_set hi, ha]
  have : (if p a then 1 else 0) ≤ l.countP p := by
    split
    · rename_i hp
      exact List.one_le_countP_iff.mpr ⟨a, by rw [← ha]; exact List.getElem_mem hi, hp⟩
    · omega
  omega

theorem countP_snoc {β : Type} (p : β → Bool) (l : List β) (a : β) :
    (l ++ [a]).countP p = l.countP p + (if p a then 1 else 0) := by
  rw [List.countP_append, List.countP_singleton]

theorem countP_mem {β : Type} {p : β → Bool} {l : List β} {i : Nat} {a : β}
    (h : l[i]? = some a) (hp : p a = true) : 1 ≤ l.countP p :=
  List.one_le_countP_iff.mpr ⟨a, List.mem_of_getElem? h, hp⟩

theorem free_iff (s : St α) (w : Nat) :
    s.free w = true ↔ w < s.ptrs.length ∧ s.tasks.countP (Task.onVar w) = 0 := by
  simp [St.free, List.countP_eq_zero]

theorem inv_init : Inv (St.init : St α) [] := by
  constructor <;> simp [St.init, St.refs, St.dels]

/-- A referenced object exists, has not been deleted, and its count is exact. -/
theorem Inv.live {s : St α} {vals} (h : Inv s vals) {o : Nat} (ho : 1 ≤ s.refs o) :
    ∃ ob, s.objs[o]? = some ob ∧ ob.deleted = 0 ∧ ob.count = s.refs o ∧ s.dels o = 0 := by
  by_cases hl : s.objs.length ≤ o
  · have := (h.fresh o hl).1; omega
  · have hg : s.objs[o]? = some (s.objs[o]'(by omega)) := List.getElem?_eq_getElem (by omega)
    refine ⟨_, hg, ?_⟩
    rcases h.life o _ hg with h1 | h1 | h1
    · exact ⟨h1.2.2.2, h1.2.1, h1.2.2.1⟩
    · omega
    · omega

theorem var_live {s : St α} {w o : Nat}
    (hw : s.ptrs[w]? = some (some o)) :
    1 ≤ s.refs o := by
  have := countP_mem (p := (· == some o)) hw (by simp)
  simp only [St.refs]; omega

theorem task_live {s : St α} {i o : Nat} {t : Task α}
    (hw : s.tasks[i]? = some t) (ht : t.holds o = true) : 1 ≤ s.refs o := by
  have := countP_mem hw ht
  simp only [St.refs]; omega

theorem val_set {objs : List (Obj α)} {o : Nat} {ob ob' : Obj α} (h : objs[o]? = some ob)
    (hv : ob'.value = ob.value) (p : Option Nat) : val (objs.set o ob') p = val objs p := by
  cases p with
  | none => rfl
  | some q =>
    simp only [val, Option.bind_some, List.getElem?_set]
    obtain ⟨hi, he⟩ := List.getElem?_eq_some_iff.mp h
    by_cases hq : o = q
    · subst hq; simp [hi, hv, he]
    · simp [hq]

theorem val_snoc (objs : List (Obj α)) (ob : Obj α) {p : Option Nat}
    (hp : ∀ o, p = some o → o < objs.length) : val (objs ++ [ob]) p = val objs p := by
  cases p with
  | none => rfl
  | some q => simp [val, List.getElem?_append_left (hp q rfl)]

theorem Inv.var_lt {s : St α} {vals} (h : Inv s vals) {w : Nat} {p : Option Nat}
    (hw : s.ptrs[w]? = some p) : ∀ o, p = some o → o < s.objs.length := by
  intro o hp; subst hp
  have := var_live hw
  apply Classical.byContradiction; intro hc
  have := (h.fresh o (by omega)).1; omega

theorem Inv.assign_lt {s : St α} {vals} (h : Inv s vals) {w : Nat} {p : Option Nat}
    (hw : Task.assign w p ∈ s.tasks) : ∀ o, p = some o → o < s.objs.length := by
  intro o hp; subst hp
  have : 1 ≤ s.tasks.countP (Task.holds o) :=
    List.one_le_countP_iff.mpr ⟨_, hw, by simp [Task.holds]⟩
  apply Classical.byContradiction; intro hc
  have := (h.fresh o (by omega)).1; simp only [St.refs] at this; omega

/-- Beginning to assign the free variable `w`: from a new object. -/
theorem Inv.newInto {s : St α} {vals} (h : Inv s vals) {w : Nat} (hw : s.free w = true) (x : α) :
    Inv (newInto s w x) (vals.set w (some x)) := by
  obtain ⟨hw1, hw2⟩ := (free_iff _ _).mp hw
  have hr : ∀ o, (Shp.newInto s w x).refs o = s.refs o + if o = s.objs.length then 1 else 0 := by
    intro o
    simp only [St.refs, Shp.newInto, countP_snoc, Task.holds, beq_iff_eq]
    split <;> split <;> omega
  have hd : ∀ o, (Shp.newInto s w x).dels o = s.dels o := by
    intro o; simp [St.dels, Shp.newInto, countP_snoc, Task.deletes]
  have hv : ∀ w', (Shp.newInto s w x).tasks.countP (Task.onVar w') =
      s.tasks.countP (Task.onVar w') + if w = w' then 1 else 0 := by
    intro w'; simp [Shp.newInto, countP_snoc, Task.onVar]
  refine ⟨?_, ?_, ?_, ?_, ?_, ?_, ?_, ?_⟩
  · intro o ob ho
    rw [hr, hd]
    simp only [Shp.newInto] at ho
    by_cases hlt : o < s.objs.length
    · rw [List.getElem?_append_left hlt] at ho
      have := h.life o ob ho
      rwa [if_neg (by omega), Nat.add_zero]
    · rw [List.getElem?_append_right (by omega)] at ho
      have hf := h.fresh o (by omega)
      have : o = s.objs.length := by
        apply Classical.byContradiction; intro hc
        rw [List.getElem?_eq_none (by simp; omega)] at ho; simp at ho
      subst this
      simp at ho; subst ho
      left; simp [hf.1, hf.2]
  · intro o ho
    simp only [Shp.newInto, List.length_append, List.length_singleton] at ho
    have hf := h.fresh o (by omega)
    rw [hr, hd, if_neg (by omega)]; exact ⟨hf.1, hf.2⟩
  · intro w'; rw [hv]
    have := h.excl w'
    split
    · rename_i he; subst he; omega
    · omega
  · intro w' hl; rw [hv]
    simp only [Shp.newInto] at hl
    have := h.decl w' hl
    rw [if_neg (by omega)]; omega
  · simp [Shp.newInto, h.len]
  · intro w' y hm
    simp only [Shp.newInto, List.mem_append, List.mem_singleton, reduceCtorEq, or_false] at hm
    obtain ⟨o, ho1, ho2, ho3⟩ := h.store w' y hm
    refine ⟨o, ho1, ?_, ?_⟩
    · rw [hr, ho2, if_neg]
      have := h.var_lt ho1 o rfl; omega
    · rw [List.getElem?_set_ne, ho3]
      intro he; subst he
      have : 1 ≤ s.tasks.countP (Task.onVar w) :=
        List.one_le_countP_iff.mpr ⟨_, hm, by simp [Task.onVar]⟩
      omega
  · intro w' p hm
    simp only [Shp.newInto, List.mem_append, List.mem_singleton, Task.assign.injEq] at hm
    rcases hm with hm | ⟨rfl, rfl⟩
    · rw [List.getElem?_set_ne, h.assign w' p hm]
      · rw [Shp.newInto, val_snoc _ _ (h.assign_lt hm)]
      · intro he; subst he
        have : 1 ≤ s.tasks.countP (Task.onVar w) :=
          List.one_le_countP_iff.mpr ⟨_, hm, by simp [Task.onVar]⟩
        omega
    · rw [List.getElem?_set_self (by rw [h.len]; omega)]
      simp [val, Shp.newInto]
  · intro w' p hp hc
    rw [hv] at hc
    have hne : w ≠ w' := by intro he; simp [he] at hc
    rw [List.getElem?_set_ne hne]
    simp only [Shp.newInto] at hp ⊢
    rw [val_snoc _ _ (h.var_lt hp)]
    exact h.idle w' p hp (by omega)

theorem mem_onVar {s : St α} {w : Nat} {t : Task α} (hm : t ∈ s.tasks)
    (ht : t.onVar w = true) : 1 ≤ s.tasks.countP (Task.onVar w) :=
  List.one_le_countP_iff.mpr ⟨_, hm, ht⟩

/-- Beginning to assign the free variable `w` with an empty pointer. -/
theorem Inv.pushNone {s : St α} {vals} (h : Inv s vals) {w : Nat} (hw : s.free w = true) :
    Inv { s with tasks := s.tasks ++ [.assign w none] } (vals.set w none) := by
  obtain ⟨hw1, hw2⟩ := (free_iff _ _).mp hw
  let s' : St α := { s with tasks := s.tasks ++ [.assign w none] }
  show Inv s' _
  have hr : ∀ o, s'.refs o = s.refs o := by intro o; simp [s', St.refs, Task.holds]
  have hd : ∀ o, s'.dels o = s.dels o := by intro o; simp [s', St.dels, Task.deletes]
  have hv : ∀ w', s'.tasks.countP (Task.onVar w') =
      s.tasks.countP (Task.onVar w') + if w = w' then 1 else 0 := by
    intro w'; simp [s', Task.onVar]
  refine ⟨?_, ?_, ?_, ?_, ?_, ?_, ?_, ?_⟩
  · intro o ob ho; rw [hr, hd]; exact h.life o ob ho
  · intro o ho; rw [hr, hd]; exact h.fresh o ho
  · intro w'; rw [hv]
    have := h.excl w'
    split
    · rename_i he; subst he; omega
    · omega
  · intro w' hl; rw [hv]
    have := h.decl w' hl
    have hl' : s.ptrs.length ≤ w' := hl
    rw [if_neg (by omega)]; omega
  · simp [s', h.len]
  · intro w' y hm
    simp only [s', List.mem_append, List.mem_singleton, reduceCtorEq, or_false] at hm
    obtain ⟨o, ho1, ho2, ho3⟩ := h.store w' y hm
    refine ⟨o, ho1, by rw [hr, ho2], ?_⟩
    rw [List.getElem?_set_ne, ho3]
    intro he; subst he
    have := mem_onVar hm (w := w) (by simp [Task.onVar])
    omega
  · intro w' p hm
    simp only [s', List.mem_append, List.mem_singleton, Task.assign.injEq] at hm
    rcases hm with hm | ⟨rfl, rfl⟩
    · rw [List.getElem?_set_ne, h.assign w' p hm]
      intro he; subst he
      have := mem_onVar hm (w := w) (by simp [Task.onVar])
      omega
    · rw [List.getElem?_set_self (by rw [h.len]; omega)]; rfl
  · intro w' p hp hc
    rw [hv] at hc
    have hne : w ≠ w' := by intro he; simp [he] at hc
    rw [List.getElem?_set_ne hne]
    exact h.idle w' p hp (by omega)

/-- `Ref()` of the object of the free variable `v`, to be assigned to `w`. -/
theorem Inv.pushCopy {s : St α} {vals} (h : Inv s vals) {w v o : Nat} (hw : s.free w = true)
    (hv0 : s.free v = true) (hp : s.ptrs[v]? = some (some o)) {ob : Obj α}
    (ho : s.objs[o]? = some ob) :
    Inv { s with objs := s.objs.set o { ob with count := ob.count + 1 },
                 tasks := s.tasks ++ [.assign w (some o)] }
      (vals.set w (vals[v]?.getD none)) := by
  obtain ⟨hw1, hw2⟩ := (free_iff _ _).mp hw
  obtain ⟨hv1, hv2⟩ := (free_iff _ _).mp hv0
  let s' : St α := { s with objs := s.objs.set o { ob with count := ob.count + 1 },
                            tasks := s.tasks ++ [.assign w (some o)] }
  show Inv s' _
  have hr : ∀ q, s'.refs q = s.refs q + if o = q then 1 else 0 := by
    intro q; simp only [s', St.refs, countP_snoc, Task.holds, beq_iff_eq]; omega
  have hd : ∀ o, s'.dels o = s.dels o := by intro o; simp [s', St.dels, Task.deletes]
  have hv : ∀ w', s'.tasks.countP (Task.onVar w') =
      s.tasks.countP (Task.onVar w') + if w = w' then 1 else 0 := by
    intro w'; simp [s', Task.onVar]
  have hval : ∀ p, val s'.objs p = val s.objs p := val_set ho rfl
  have hlive := var_live hp
  obtain ⟨hi, he⟩ := List.getElem?_eq_some_iff.mp ho
  refine ⟨?_, ?_, ?_, ?_, ?_, ?_, ?_, ?_⟩
  · intro q oq hq
    rw [hr, hd]
    simp only [s', List.getElem?_set] at hq
    by_cases hoq : o = q
    · subst hoq
      simp only [if_true, hi] at hq
      cases hq
      have hl := h.life o ob ho
      simp only [Life] at hl ⊢
      simp only [if_true]
      omega
    · rw [if_neg hoq] at hq
      rw [if_neg hoq]; exact h.life q oq hq
  · intro q hq
    have hq' : s.objs.length ≤ q := by simpa [s'] using hq
    rw [hr, hd, if_neg (by omega)]
    exact h.fresh q hq'
  · intro w'; rw [hv]
    have := h.excl w'
    split
    · rename_i he; subst he; omega
    · omega
  · intro w' hl; rw [hv]
    have := h.decl w' hl
    have hl' : s.ptrs.length ≤ w' := hl
    rw [if_neg (by omega)]; omega
  · simp [s', h.len]
  · intro w' y hm
    simp only [s', List.mem_append, List.mem_singleton, reduceCtorEq, or_false] at hm
    obtain ⟨o', ho1, ho2, ho3⟩ := h.store w' y hm
    refine ⟨o', ho1, ?_, ?_⟩
    · rw [hr, ho2, if_neg]
      intro hoo; subst hoo
      -- `v` and `w'` would be two owners
      have hne : v ≠ w' := by
        intro hh; subst hh
        have := mem_onVar hm (w := v) (by simp [Task.onVar])
        omega
      have h2 := countP_set' (fun x => x == some o) (b := none) hp
      have hp' : (s.ptrs.set v none)[w']? = some (some o) := by
        rw [List.getElem?_set_ne hne]; exact ho1
      have h3 := countP_mem (p := (· == some o)) hp' (by simp)
      simp only [St.refs] at ho2
      simp at h2
      omega
    · rw [List.getElem?_set_ne, ho3]
      intro he; subst he
      have := mem_onVar hm (w := w) (by simp [Task.onVar])
      omega
  · intro w' p hm
    rw [hval]
    simp only [s', List.mem_append, List.mem_singleton, Task.assign.injEq] at hm
    rcases hm with hm | ⟨rfl, rfl⟩
    · rw [List.getElem?_set_ne, h.assign w' p hm]
      intro he; subst he
      have := mem_onVar hm (w := w) (by simp [Task.onVar])
      omega
    · rw [List.getElem?_set_self (by rw [h.len]; omega), h.idle v _ hp hv2]; rfl
  · intro w' p hp hc
    rw [hv] at hc
    have hne : w ≠ w' := by intro he; simp [he] at hc
    rw [List.getElem?_set_ne hne, hval]
    exact h.idle w' p hp (by omega)

/-- `release()` of the free variable `v`, to be assigned to `w`. -/
theorem Inv.pushMove {s : St α} {vals} (h : Inv s vals) {w v : Nat} {p : Option Nat}
    (hw : s.free w = true) (hv0 : s.free v = true) (hp : s.ptrs[v]? = some p) :
    Inv { s with ptrs := s.ptrs.set v none, tasks := s.tasks ++ [.assign w p] }
      ((vals.set v none).set w (vals[v]?.getD none)) := by
  obtain ⟨hw1, hw2⟩ := (free_iff _ _).mp hw
  obtain ⟨hv1, hv2⟩ := (free_iff _ _).mp hv0
  let s' : St α := { s with ptrs := s.ptrs.set v none, tasks := s.tasks ++ [.assign w p] }
  show Inv s' _
  have hr : ∀ q, s'.refs q = s.refs q := by
    intro q
    have h1 := countP_set' (fun x => x == some q) (b := none) hp
    simp only [s', St.refs, countP_snoc]
    cases p with
    | none => simp [Task.holds] at h1 ⊢; omega
    | some o => simp [Task.holds] at h1 ⊢; omega
  have hd : ∀ o, s'.dels o = s.dels o := by intro o; simp [s', St.dels, Task.deletes]
  have hv : ∀ w', s'.tasks.countP (Task.onVar w') =
      s.tasks.countP (Task.onVar w') + if w = w' then 1 else 0 := by
    intro w'; simp [s', Task.onVar]
  refine ⟨?_, ?_, ?_, ?_, ?_, ?_, ?_, ?_⟩
  · intro o ob ho; rw [hr, hd]; exact h.life o ob ho
  · intro o ho; rw [hr, hd]; exact h.fresh o ho
  · intro w'; rw [hv]
    have := h.excl w'
    split
    · rename_i he; subst he; omega
    · omega
  · intro w' hl; rw [hv]
    have hl' : s.ptrs.length ≤ w' := by simpa [s'] using hl
    have := h.decl w' hl'
    rw [if_neg (by omega)]; omega
  · simp [s', h.len]
  · intro w' y hm
    simp only [s', List.mem_append, List.mem_singleton, reduceCtorEq, or_false] at hm
    obtain ⟨o, ho1, ho2, ho3⟩ := h.store w' y hm
    have hne : v ≠ w' := by
      intro he; subst he
      have := mem_onVar hm (w := v) (by simp [Task.onVar])
      omega
    refine ⟨o, ?_, by rw [hr, ho2], ?_⟩
    · simp only [s']; rw [List.getElem?_set_ne hne]; exact ho1
    · rw [List.getElem?_set_ne, List.getElem?_set_ne hne, ho3]
      intro he; subst he
      have := mem_onVar hm (w := w) (by simp [Task.onVar])
      omega
  · intro w' p' hm
    simp only [s', List.mem_append, List.mem_singleton, Task.assign.injEq] at hm
    rcases hm with hm | ⟨rfl, rfl⟩
    · have hne : v ≠ w' := by
        intro he; subst he
        have := mem_onVar hm (w := v) (by simp [Task.onVar])
        omega
      rw [List.getElem?_set_ne, List.getElem?_set_ne hne, h.assign w' p' hm]
      intro he; subst he
      have := mem_onVar hm (w := w) (by simp [Task.onVar])
      omega
    · rw [List.getElem?_set_self (by simp [h.len]; omega), h.idle v _ hp hv2]; rfl
  · intro w' p' hp' hc
    rw [hv] at hc
    have hne : w ≠ w' := by intro he; simp [he] at hc
    rw [List.getElem?_set_ne hne]
    simp only [s', List.getElem?_set] at hp' ⊢
    by_cases hvw : v = w'
    · subst hvw
      rw [if_pos rfl, if_pos (by omega)] at hp'
      rw [if_pos rfl, if_pos (by rw [h.len]; omega)]
      cases hp'; rfl
    · rw [if_neg hvw] at hp' ⊢
      exact h.idle w' p' hp' (by omega)

/-- `IsUnique()` returned `true`: `w` will assign its object. -/
theorem Inv.pushStore {s : St α} {vals} (h : Inv s vals) {w o : Nat} (x : α)
    (hw : s.free w = true) (hp : s.ptrs[w]? = some (some o)) (hu : s.refs o = 1) :
    Inv { s with tasks := s.tasks ++ [.store w x] } (vals.set w (some x)) := by
  obtain ⟨hw1, hw2⟩ := (free_iff _ _).mp hw
  let s' : St α := { s with tasks := s.tasks ++ [.store w x] }
  show Inv s' _
  have hr : ∀ o, s'.refs o = s.refs o := by intro o; simp [s', St.refs, Task.holds]
  have hd : ∀ o, s'.dels o = s.dels o := by intro o; simp [s', St.dels, Task.deletes]
  have hv : ∀ w', s'.tasks.countP (Task.onVar w') =
      s.tasks.countP (Task.onVar w') + if w = w' then 1 else 0 := by
    intro w'; simp [s', Task.onVar]
  refine ⟨?_, ?_, ?_, ?_, ?_, ?_, ?_, ?_⟩
  · intro o ob ho; rw [hr, hd]; exact h.life o ob ho
  · intro o ho; rw [hr, hd]; exact h.fresh o ho
  · intro w'; rw [hv]
    have := h.excl w'
    split
    · rename_i he; subst he; omega
    · omega
  · intro w' hl; rw [hv]
    have := h.decl w' hl
    have hl' : s.ptrs.length ≤ w' := hl
    rw [if_neg (by omega)]; omega
  · simp [s', h.len]
  · intro w' y hm
    simp only [s', List.mem_append, List.mem_singleton, Task.store.injEq] at hm
    rcases hm with hm | ⟨rfl, rfl⟩
    · obtain ⟨o, ho1, ho2, ho3⟩ := h.store w' y hm
      refine ⟨o, ho1, by rw [hr, ho2], ?_⟩
      rw [List.getElem?_set_ne, ho3]
      intro he; subst he
      have := mem_onVar hm (w := w) (by simp [Task.onVar])
      omega
    · exact ⟨o, hp, by rw [hr, hu], by rw [List.getElem?_set_self (by rw [h.len]; omega)]⟩
  · intro w' p hm
    simp only [s', List.mem_append, List.mem_singleton, reduceCtorEq, or_false] at hm
    rw [List.getElem?_set_ne, h.assign w' p hm]
    intro he; subst he
    have := mem_onVar hm (w := w) (by simp [Task.onVar])
    omega
  · intro w' p hp hc
    rw [hv] at hc
    have hne : w ≠ w' := by intro he; simp [he] at hc
    rw [List.getElem?_set_ne hne]
    exact h.idle w' p hp (by omega)

theorem mem_set_or {β : Type} {l : List β} {i : Nat} {a b : β} (h : a ∈ l.set i b) :
    a ∈ l ∨ a = b := by
  rcases List.mem_or_eq_of_mem_set h with h | h
  · exact Or.inl h
  · exact Or.inr h

/-- `ptr_.reset(p)`. -/
theorem Inv.runAssign {s : St α} {vals} (h : Inv s vals) {i w : Nat} {p old : Option Nat}
    (ht : s.tasks[i]? = some (.assign w p)) (hp : s.ptrs[w]? = some old) :
    Inv { s with ptrs := s.ptrs.set w p, tasks := s.tasks.set i (afterReset old) } vals := by
  generalize hb : (afterReset old : Task α) = b
  let s' : St α := { s with ptrs := s.ptrs.set w p, tasks := s.tasks.set i b }
  show Inv s' _
  have hmem : Task.assign w p ∈ s.tasks := List.mem_of_getElem? ht
  have hr : ∀ q, s'.refs q = s.refs q := by
    intro q
    have h1 := countP_set' (fun x => x == some q) (b := p) hp
    have h2 := countP_set' (Task.holds q) (b := b) ht
    simp only [s', St.refs]
    subst hb
    cases p <;> cases old <;> simp [Task.holds, afterReset] at h1 h2 ⊢ <;> omega
  have hd : ∀ q, s'.dels q = s.dels q := by
    intro q
    have h2 := countP_set' (Task.deletes q) (b := b) ht
    subst hb
    cases old <;> simp [Task.deletes, afterReset, s', St.dels] at h2 ⊢ <;> omega
  have hv : ∀ w', s'.tasks.countP (Task.onVar w') + (if w = w' then 1 else 0) =
      s.tasks.countP (Task.onVar w') := by
    intro w'
    have h2 := countP_set' (Task.onVar w') (b := b) ht
    subst hb
    cases old <;> simp [Task.onVar, afterReset, s'] at h2 ⊢ <;> omega
  have hnb : ∀ w' x, b ≠ .store w' x := by
    intro w' x; subst hb; cases old <;> simp [afterReset]
  have hna : ∀ w' x, b ≠ .assign w' x := by
    intro w' x; subst hb; cases old <;> simp [afterReset]
  refine ⟨?_, ?_, ?_, ?_, ?_, ?_, ?_, ?_⟩
  · intro o ob ho; rw [hr, hd]; exact h.life o ob ho
  · intro o ho; rw [hr, hd]; exact h.fresh o ho
  · intro w'
    have := h.excl w'
    have := hv w'
    omega
  · intro w' hl
    have hl' : s.ptrs.length ≤ w' := by simpa [s'] using hl
    have := h.decl w' hl'
    have := hv w'
    omega
  · simp [s', h.len]
  · intro w' y hm
    have hm' : Task.store w' y ∈ s.tasks := by
      rcases mem_set_or hm with hm | hm
      · exact hm
      · exact absurd hm.symm (hnb _ _)
    obtain ⟨o, ho1, ho2, ho3⟩ := h.store w' y hm'
    have hne : w ≠ w' := by
      intro he; subst he
      have h1 := mem_onVar hm (s := s') (w := w) (by simp [Task.onVar])
      have h2 := hv w
      have := h.excl w
      rw [if_pos rfl] at h2; omega
    refine ⟨o, ?_, by rw [hr, ho2], ho3⟩
    simp only [s']; rw [List.getElem?_set_ne hne]; exact ho1
  · intro w' p' hm
    have hm' : Task.assign w' p' ∈ s.tasks := by
      rcases mem_set_or hm with hm | hm
      · exact hm
      · exact absurd hm.symm (hna _ _)
    exact h.assign w' p' hm'
  · intro w' p' hp' hc
    simp only [s', List.getElem?_set] at hp'
    by_cases hww : w = w'
    · subst hww
      obtain ⟨hi, _⟩ := List.getElem?_eq_some_iff.mp hp
      rw [if_pos rfl, if_pos hi] at hp'
      cases hp'
      exact h.assign w p hmem
    · rw [if_neg hww] at hp'
      have := hv w'
      rw [if_neg hww] at this
      exact h.idle w' p' hp' (by omega)

/-- A step of `Unref()`, or `Delete()`: the object `o` changes from `ob` to `ob'`
with the same value, the task from `a` to `b`, neither of which names a variable. -/
theorem Inv.runOn {s : St α} {vals} (h : Inv s vals) {i o : Nat} {a b : Task α} {ob ob' : Obj α}
    (ht : s.tasks[i]? = some a) (ho : s.objs[o]? = some ob) (hval : ob'.value = ob.value)
    (ha : ∀ w, a.onVar w = false) (hb : ∀ w, b.onVar w = false)
    (hoth : ∀ q, q ≠ o → a.holds q = b.holds q ∧ a.deletes q = b.deletes q)
    (hlife : ∀ r d, (if a.holds o then 1 else 0) ≤ r → (if a.deletes o then 1 else 0) ≤ d →
      Life r d ob →
      Life (r - (if a.holds o then 1 else 0) + (if b.holds o then 1 else 0))
        (d - (if a.deletes o then 1 else 0) + (if b.deletes o then 1 else 0)) ob')
    (hstore : ∀ w x, Task.store w x ∈ s.tasks → s.ptrs[w]? = some (some o) →
      a.holds o = b.holds o) :
    Inv { s with objs := s.objs.set o ob', tasks := s.tasks.set i b } vals := by
  let s' : St α := { s with objs := s.objs.set o ob', tasks := s.tasks.set i b }
  show Inv s' _
  obtain ⟨hi, he⟩ := List.getElem?_eq_some_iff.mp ho
  have hr : ∀ q, s'.refs q + (if a.holds q then 1 else 0) =
      s.refs q + (if b.holds q then 1 else 0) := by
    intro q
    have h2 := countP_set' (Task.holds q) (b := b) ht
    simp only [s', St.refs]; omega
  have hd : ∀ q, s'.dels q + (if a.deletes q then 1 else 0) =
      s.dels q + (if b.deletes q then 1 else 0) := fun q => countP_set' (Task.deletes q) (b := b) ht
  have hv : ∀ w', s'.tasks.countP (Task.onVar w') = s.tasks.countP (Task.onVar w') := by
    intro w'
    have h2 := countP_set' (Task.onVar w') (b := b) ht
    rw [ha, hb] at h2
    exact h2
  have hvals : ∀ p, val s'.objs p = val s.objs p := val_set ho hval
  have hmem : a ∈ s.tasks := List.mem_of_getElem? ht
  have hsame : ∀ q, q ≠ o → s'.refs q = s.refs q ∧ s'.dels q = s.dels q := by
    intro q hq
    have h1 := hr q; have h2 := hd q
    rw [(hoth q hq).1] at h1; rw [(hoth q hq).2] at h2
    omega
  refine ⟨?_, ?_, ?_, ?_, ?_, ?_, ?_, ?_⟩
  · intro q oq hq
    simp only [s', List.getElem?_set] at hq
    by_cases hoq : o = q
    · subst hoq
      simp only [if_true, hi] at hq
      cases hq
      have h1 : (if a.holds o then 1 else 0) ≤ s.refs o := by
        split
        · rename_i hh; exact task_live ht hh
        · omega
      have h2 : (if a.deletes o then 1 else 0) ≤ s.dels o := by
        split
        · rename_i hh; exact countP_mem ht hh
        · omega
      have hl := hlife _ _ h1 h2 (h.life o ob ho)
      have h3 := hr o; have h4 := hd o
      have e1 : s'.refs o = s.refs o - (if a.holds o then 1 else 0) + (if b.holds o then 1 else 0) := by
        omega
      have e2 : s'.dels o =
          s.dels o - (if a.deletes o then 1 else 0) + (if b.deletes o then 1 else 0) := by omega
      rw [e1, e2]; exact hl
    · rw [if_neg hoq] at hq
      rw [(hsame q (Ne.symm hoq)).1, (hsame q (Ne.symm hoq)).2]; exact h.life q oq hq
  · intro q hq
    have hq' : s.objs.length ≤ q := by simpa [s'] using hq
    have hne : q ≠ o := by omega
    rw [(hsame q hne).1, (hsame q hne).2]; exact h.fresh q hq'
  · intro w'; rw [hv]; exact h.excl w'
  · intro w' hl; rw [hv]; exact h.decl w' hl
  · exact h.len
  · intro w' y hm
    have hm' : Task.store w' y ∈ s.tasks := by
      rcases mem_set_or hm with hm | hm
      · exact hm
      · have := hb w'; rw [← hm] at this; simp [Task.onVar] at this
    obtain ⟨q, ho1, ho2, ho3⟩ := h.store w' y hm'
    refine ⟨q, ho1, ?_, ho3⟩
    by_cases hqo : q = o
    · subst hqo
      have := hstore w' y hm' ho1
      have h1 := hr q
      rw [this] at h1; omega
    · rw [(hsame q hqo).1, ho2]
  · intro w' p hm
    have hm' : Task.assign w' p ∈ s.tasks := by
      rcases mem_set_or hm with hm | hm
      · exact hm
      · have := hb w'; rw [← hm] at this; simp [Task.onVar] at this
    rw [hvals]; exact h.assign w' p hm'
  · intro w' p hp hc
    rw [hvals]; rw [hv] at hc; exact h.idle w' p hp hc

/-- `*ptr_ = x` by the only owner. -/
theorem Inv.runStore {s : St α} {vals} (h : Inv s vals) {i w o : Nat} {x : α} {ob : Obj α}
    (ht : s.tasks[i]? = some (.store w x)) (hp : s.ptrs[w]? = some (some o))
    (ho : s.objs[o]? = some ob) :
    Inv { s with objs := s.objs.set o { ob with value := x }, tasks := s.tasks.set i .done } vals := by
  let s' : St α :=
    { s with objs := s.objs.set o { ob with value := x }, tasks := s.tasks.set i .done }
  show Inv s' _
  have hmem : Task.store w x ∈ s.tasks := List.mem_of_getElem? ht
  obtain ⟨hi, he⟩ := List.getElem?_eq_some_iff.mp ho
  obtain ⟨o', ho1, ho2, ho3⟩ := h.store w x hmem
  rw [hp] at ho1; cases ho1
  have hr : ∀ q, s'.refs q = s.refs q := by
    intro q
    have h2 := countP_set' (Task.holds q) (b := .done) ht
    simp [s', St.refs, Task.holds] at h2 ⊢; omega
  have hd : ∀ q, s'.dels q = s.dels q := by
    intro q
    have h2 := countP_set' (Task.deletes q) (b := .done) ht
    simp [s', St.dels, Task.deletes] at h2 ⊢; omega
  have hv : ∀ w', s'.tasks.countP (Task.onVar w') + (if w = w' then 1 else 0) =
      s.tasks.countP (Task.onVar w') := by
    intro w'
    have h2 := countP_set' (Task.onVar w') (b := .done) ht
    simp [Task.onVar, s'] at h2 ⊢; omega
  -- nothing else refers to `o`
  have hexv : ∀ w', s.ptrs[w']? = some (some o) → w' = w := by
    intro w' hw'
    apply Classical.byContradiction; intro hne
    have h2 := countP_set' (fun y => y == some o) (b := none) hp
    have hp' : (s.ptrs.set w none)[w']? = some (some o) := by
      rw [List.getElem?_set_ne (Ne.symm hne)]; exact hw'
    have h3 := countP_mem (p := (· == some o)) hp' (by simp)
    simp only [St.refs] at ho2
    simp at h2
    omega
  have hext : ∀ t ∈ s.tasks, t.holds o = false := by
    intro t ht'
    apply (Bool.not_eq_true _).mp; intro hh
    have h1 : 1 ≤ s.tasks.countP (Task.holds o) := List.one_le_countP_iff.mpr ⟨t, ht', hh⟩
    have h2 := countP_mem (p := (· == some o)) hp (by simp)
    simp only [St.refs] at ho2; omega
  have hval : ∀ p, p ≠ some o → val s'.objs p = val s.objs p := by
    intro p hpo
    cases p with
    | none => rfl
    | some q =>
      have : o ≠ q := by intro hh; exact hpo (by rw [hh])
      simp [val, s', List.getElem?_set_ne this]
  refine ⟨?_, ?_, ?_, ?_, ?_, ?_, ?_, ?_⟩
  · intro q oq hq
    rw [hr, hd]
    simp only [s', List.getElem?_set] at hq
    by_cases hoq : o = q
    · subst hoq
      simp only [if_true, hi] at hq
      cases hq
      exact h.life o ob ho
    · rw [if_neg hoq] at hq; exact h.life q oq hq
  · intro q hq
    have hq' : s.objs.length ≤ q := by simpa [s'] using hq
    rw [hr, hd]; exact h.fresh q hq'
  · intro w'
    have := h.excl w'; have := hv w'; omega
  · intro w' hl
    have := h.decl w' hl; have := hv w'; omega
  · exact h.len
  · intro w' y hm
    have hm' : Task.store w' y ∈ s.tasks := by
      rcases mem_set_or hm with hm | hm
      · exact hm
      · simp at hm
    obtain ⟨q, h1, h2, h3⟩ := h.store w' y hm'
    exact ⟨q, h1, by rw [hr, h2], h3⟩
  · intro w' p hm
    have hm' : Task.assign w' p ∈ s.tasks := by
      rcases mem_set_or hm with hm | hm
      · exact hm
      · simp at hm
    rw [hval, h.assign w' p hm']
    intro hh; subst hh
    have := hext _ hm'; simp [Task.holds] at this
  · intro w' p hp' hc
    by_cases hww : w' = w
    · subst hww
      have hp2 : s.ptrs[w']? = some p := hp'
      rw [hp] at hp2; cases hp2
      rw [ho3]; simp [val, s', hi]
    · have := hv w'
      rw [if_neg (Ne.symm hww)] at this
      rw [hval, h.idle w' p hp' (by omega)]
      intro hh; subst hh
      exact hww (hexv w' hp')

/-- Every action keeps the invariant and touches no deleted object. -/
theorem step_inv {s : St α} {vals} (h : Inv s vals) (a : Act α) :
    step s a ≠ .useAfterFree ∧ ∀ s', step s a = .next s' → Inv s' (specStep vals a) := by
  cases a with
  | declare =>
    refine ⟨by simp [step], ?_⟩
    intro s' hs
    simp only [step, Out.next.injEq] at hs; subst hs
    have hg : ∀ w : Nat, w ≠ s.ptrs.length → (s.ptrs ++ [none])[w]? = s.ptrs[w]? := by
      intro w hw
      rcases Nat.lt_or_ge w s.ptrs.length with hl | hl
      · exact List.getElem?_append_left hl
      · rw [List.getElem?_eq_none (i := w) (l := _ ++ [none]) (by simp; omega),
          List.getElem?_eq_none (by omega)]
    have hgv : ∀ w : Nat, w ≠ s.ptrs.length → (vals ++ [none])[w]? = vals[w]? := by
      intro w hw
      rcases Nat.lt_or_ge w vals.length with hl | hl
      · exact List.getElem?_append_left hl
      · have := h.len
        rw [List.getElem?_eq_none (i := w) (l := _ ++ [none]) (by simp; omega),
          List.getElem?_eq_none (by omega)]
    have hr : ∀ q, St.refs { s with ptrs := s.ptrs ++ [none] } q = s.refs q := by
      intro q; simp [St.refs]
    refine ⟨?_, ?_, ?_, ?_, ?_, ?_, ?_, ?_⟩
    · intro o ob ho; rw [hr]; exact h.life o ob ho
    · intro o ho; rw [hr]; exact h.fresh o ho
    · exact h.excl
    · intro w hl; exact h.decl w (by simp at hl; omega)
    · simp [specStep, h.len]
    · intro w x hm
      obtain ⟨o, h1, h2, h3⟩ := h.store w x hm
      obtain ⟨hi, _⟩ := List.getElem?_eq_some_iff.mp h1
      exact ⟨o, by rw [hg w (by omega)]; exact h1, by rw [hr]; exact h2,
        by rw [specStep, hgv w (by omega)]; exact h3⟩
    · intro w p hm
      have h1 := h.assign w p hm
      obtain ⟨hi, _⟩ := List.getElem?_eq_some_iff.mp h1
      have := h.len
      rw [specStep, hgv w (by omega)]; exact h1
    · intro w p hp hc
      by_cases hw : w = s.ptrs.length
      · subst hw
        simp at hp; subst hp
        simp [specStep, ← h.len, val]
      · rw [hg w hw] at hp
        rw [specStep, hgv w hw]; exact h.idle w p hp hc
  | make w x =>
    simp only [step]
    split
    · rename_i hw
      refine ⟨by simp, ?_⟩
      intro s' hs; cases hs; exact h.newInto hw x
    · exact ⟨by simp, by simp⟩
  | copy w v =>
    simp only [step]
    split
    · rename_i hwv
      obtain ⟨hw, hv⟩ := (Bool.and_eq_true _ _).mp hwv
      split
      · exact ⟨by simp, by simp⟩
      · rename_i hp
        refine ⟨by simp, ?_⟩
        intro s' hs; cases hs
        have := h.pushNone hw
        have hz := h.idle v _ hp ((free_iff _ _).mp hv).2
        simp only [specStep, hz, val]
        exact this
      · rename_i o hp
        obtain ⟨ob, ho, hdel, _⟩ := h.live (var_live hp)
        simp only [fetchAdd, ho, hdel, if_true]
        refine ⟨by simp, ?_⟩
        intro s' hs; cases hs
        exact hdel ▸ h.pushCopy hw hv hp ho
    · exact ⟨by simp, by simp⟩
  | move w v =>
    simp only [step]
    split
    · rename_i hwv
      obtain ⟨hw, hv⟩ := (Bool.and_eq_true _ _).mp hwv
      split
      · exact ⟨by simp, by simp⟩
      · rename_i p hp
        refine ⟨by simp, ?_⟩
        intro s' hs; cases hs
        exact h.pushMove hw hv hp
    · exact ⟨by simp, by simp⟩
  | clear w =>
    simp only [step]
    split
    · rename_i hw
      refine ⟨by simp, ?_⟩
      intro s' hs; cases hs
      exact h.pushNone hw
    · exact ⟨by simp, by simp⟩
  | resetTo w x =>
    simp only [step]
    split
    · rename_i hw
      split
      · exact ⟨by simp, by simp⟩
      · refine ⟨by simp, ?_⟩
        intro s' hs; cases hs; exact h.newInto hw x
      · rename_i o hp
        obtain ⟨ob, ho, hdel, hcnt, _⟩ := h.live (var_live hp)
        simp only [load, ho, hdel, if_true]
        split
        · rename_i h1
          refine ⟨by simp, ?_⟩
          intro s' hs; cases hs
          exact h.pushStore x hw hp (by omega)
        · refine ⟨by simp, ?_⟩
          intro s' hs; cases hs; exact h.newInto hw x
    · exact ⟨by simp, by simp⟩
  | run i =>
    simp only [step, runTask, specStep]
    split
    · exact ⟨by simp, by simp⟩
    · exact ⟨by simp, by simp⟩
    · rename_i w p ht
      split
      · exact ⟨by simp, by simp⟩
      · rename_i old hp
        refine ⟨by simp, ?_⟩
        intro s' hs; cases hs
        exact h.runAssign ht hp
    · rename_i w x ht
      split
      · rename_i o hp
        obtain ⟨ob, ho, hdel, _⟩ := h.live (var_live hp)
        simp only [storeValue, ho, hdel, if_true]
        refine ⟨by simp, ?_⟩
        intro s' hs; cases hs
        exact hdel ▸ h.runStore ht hp ho
      · exact ⟨by simp, by simp⟩
    · rename_i o ht
      obtain ⟨ob, ho, hdel, hcnt, _⟩ := h.live (task_live ht (o := o) (by simp [Task.holds]))
      simp only [load, ho, hdel, if_true]
      refine ⟨by simp, ?_⟩
      intro s' hs; cases hs
      have hset : s.objs.set o ob = s.objs := by
        obtain ⟨hi, he⟩ := List.getElem?_eq_some_iff.mp ho
        rw [← he]; exact List.set_getElem_self hi
      split
      · rename_i h1
        have := h.runOn (b := .destroy o) (ob' := ob) ht ho rfl
          (by intro w; rfl) (by intro w; rfl)
          (by intro q hq; simp [Task.holds, Task.deletes, Ne.symm hq])
          (by
            intro r d hr hd hl
            simp [Task.holds, Task.deletes, Life] at hr hd hl ⊢
            omega)
          (by
            intro w x hm hp
            obtain ⟨q, h2, h3, _⟩ := h.store w x hm
            rw [hp] at h2; cases h2
            -- the variable and this task are two references
            have h4 := countP_mem (p := (· == some o)) hp (by simp)
            have h5 := countP_mem (p := Task.holds o) ht (by simp [Task.holds])
            simp only [St.refs] at h3; omega)
        rwa [hset] at this
      · rename_i h1
        have := h.runOn (b := .unrefSub o) (ob' := ob) ht ho rfl
          (by intro w; rfl) (by intro w; rfl)
          (by intro q hq; simp [Task.holds, Task.deletes])
          (by
            intro r d hr hd hl
            simp [Task.holds, Task.deletes, Life] at hr hd hl ⊢
            omega)
          (by intro w x hm hp; rfl)
        rwa [hset] at this
    · rename_i o ht
      obtain ⟨ob, ho, hdel, hcnt, _⟩ := h.live (task_live ht (o := o) (by simp [Task.holds]))
      simp only [fetchSub, ho, hdel, if_true]
      refine ⟨by simp, ?_⟩
      intro s' hs; cases hs
      have hst : ∀ w x, Task.store w x ∈ s.tasks → s.ptrs[w]? = some (some o) → False := by
        intro w x hm hp
        obtain ⟨q, h2, h3, _⟩ := h.store w x hm
        rw [hp] at h2; cases h2
        have h4 := countP_mem (p := (· == some o)) hp (by simp)
        have h5 := countP_mem (p := Task.holds o) ht (by simp [Task.holds])
        simp only [St.refs] at h3; omega
      split
      · rename_i h1
        exact hdel ▸ h.runOn (b := .destroy o) (ob' := { ob with count := ob.count - 1 }) ht ho rfl
          (by intro w; rfl) (by intro w; rfl)
          (by intro q hq; simp [Task.holds, Task.deletes, Ne.symm hq])
          (by
            intro r d hr hd hl
            simp [Task.holds, Task.deletes, Life] at hr hd hl ⊢
            omega)
          (by intro w x hm hp; exact (hst w x hm hp).elim)
      · rename_i h1
        exact hdel ▸ h.runOn (b := .done) (ob' := { ob with count := ob.count - 1 }) ht ho rfl
          (by intro w; rfl) (by intro w; rfl)
          (by intro q hq; simp [Task.holds, Task.deletes, Ne.symm hq])
          (by
            intro r d hr hd hl
            simp [Task.holds, Task.deletes, Life] at hr hd hl ⊢
            omega)
          (by intro w x hm hp; exact (hst w x hm hp).elim)
    · rename_i o ht
      have hdl : 1 ≤ s.dels o := countP_mem ht (by simp [Task.deletes])
      have hlt : o < s.objs.length := by
        apply Classical.byContradiction; intro hc
        have := (h.fresh o (by omega)).2; omega
      have ho : s.objs[o]? = some s.objs[o] := List.getElem?_eq_getElem hlt
      have hlife := h.life o _ ho
      have hdel : s.objs[o].deleted = 0 := by
        simp only [Life] at hlife; omega
      simp only [delete, ho, hdel, if_true]
      refine ⟨by simp, ?_⟩
      intro s' hs; cases hs
      exact h.runOn (b := .done) (ob' := { s.objs[o] with deleted := 0 + 1 }) ht ho rfl
        (by intro w; rfl) (by intro w; rfl)
        (by intro q hq; simp [Task.holds, Task.deletes, Ne.symm hq])
        (by
          intro r d hr hd hl
          simp [Task.holds, Task.deletes, Life] at hr hd hl ⊢
          omega)
        (by intro w x hm hp; rfl)

/-- Every schedule keeps the invariant and touches no deleted object. -/
theorem exec_inv (acts : List (Act α)) : ∀ {s : St α} {vals}, Inv s vals →
    exec s acts ≠ .useAfterFree ∧
    ∀ s', exec s acts = .next s' → Inv s' (acts.foldl specStep vals) := by
  induction acts with
  | nil =>
    intro s vals h
    refine ⟨by simp [exec], ?_⟩
    intro s' hs; simp only [exec, Out.next.injEq] at hs; subst hs; exact h
  | cons a as ih =>
    intro s vals h
    obtain ⟨h1, h2⟩ := step_inv h a
    simp only [exec, List.foldl_cons]
    cases hs : step s a with
    | next s1 => exact ih (h2 s1 hs)
    | refused => exact ⟨by simp, by simp⟩
    | useAfterFree => exact absurd hs h1

end Riegeli.Shp

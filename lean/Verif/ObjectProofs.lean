import Verif.ObjectSpec

/-! Proofs about `Object` (C51): pointers to `FailedStatus` refine the specification. -/

namespace Riegeli.Obj

variable {σ : Type}

/-- The `FailedStatus` allocated by `Fail()`. -/
def newCell (p : Ptr) (s : σ) : Cell σ :=
  { closed := p == .closedSuccessfully, status := s, deleted := 0 }

/-- The word `p` represents the state `o`. -/
def Rel (h : List (Cell σ)) : Option Ptr → Option (Spec σ) → Prop
  | none, o => o = none
  | some .ok, o => o = some ⟨true, none⟩
  | some .closedSuccessfully, o => o = some ⟨false, none⟩
  | some (.failed a), o =>
    ∃ c, h[a]? = some c ∧ c.deleted = 0 ∧ o = some ⟨!c.closed, some c.status⟩

structure Inv (m : Mem σ) (objs : List (Option (Spec σ))) : Prop where
  len : m.objs.length = objs.length
  rel : ∀ (i : Nat) (p : Option Ptr) (o : Option (Spec σ)),
    m.objs[i]? = some p → objs[i]? = some o → Rel m.heap p o
  uniq : ∀ i j a : Nat, m.objs[i]? = some (some (.failed a)) →
    m.objs[j]? = some (some (.failed a)) → i = j
  cells : ∀ (a : Nat) (c : Cell σ), m.heap[a]? = some c →
    c.deleted ≤ 1 ∧ (c.deleted = 0 ↔ ∃ i : Nat, m.objs[i]? = some (some (.failed a)))

theorem inv_init : Inv (Mem.init : Mem σ) [] :=
  ⟨rfl, by simp [Mem.init], by simp [Mem.init], by simp [Mem.init]⟩

/-- The heap changed from `h` to `h'` while a variable changed from `p` to `p'`. -/
structure Upd (h : List (Cell σ)) (p : Ptr) (h' : List (Cell σ)) (p' : Option Ptr)
    (o' : Option (Spec σ)) : Prop where
  rel : Rel h' p' o'
  frame : ∀ a : Nat, p ≠ .failed a → a < h.length → h'[a]? = h[a]?
  len : h.length ≤ h'.length
  cells : ∀ (a : Nat) (c : Cell σ), h'[a]? = some c → (p = .failed a ∨ h.length ≤ a) →
    c.deleted ≤ 1 ∧ (c.deleted = 0 ↔ p' = some (.failed a))
  own : ∀ a : Nat, p' = some (.failed a) → p = .failed a ∨ h.length ≤ a

theorem Upd.apply {m : Mem σ} {objs : List (Option (Spec σ))} {w : Nat} {p : Ptr}
    {h' : List (Cell σ)} {p' : Option Ptr} {o' : Option (Spec σ)} (hi : Inv m objs)
    (hp : m.objs[w]? = some (some p)) (hu : Upd m.heap p h' p' o') :
    Inv { heap := h', objs := m.objs.set w p' } (objs.set w o') := by
  have hw : w < m.objs.length := (List.getElem?_eq_some_iff.mp hp).1
  have hw' : w < objs.length := hi.len ▸ hw
  have live : ∀ i a : Nat, m.objs[i]? = some (some (.failed a)) → a < m.heap.length := by
    intro i a h1
    have h2 : i < objs.length := hi.len ▸ (List.getElem?_eq_some_iff.mp h1).1
    obtain ⟨c, hc, _⟩ := hi.rel i _ _ h1 (List.getElem?_eq_getElem h2)
    exact (List.getElem?_eq_some_iff.mp hc).1
  have other : ∀ i a : Nat, i ≠ w → m.objs[i]? = some (some (.failed a)) → p ≠ .failed a := by
    intro i a hne h1 he
    subst he
    exact hne (hi.uniq i w a h1 hp)
  constructor
  · simp [hi.len]
  · intro i q o h1 h2
    by_cases hiw : i = w
    · subst hiw
      simp only [List.getElem?_set_self hw] at h1
      rw [List.getElem?_set_self hw'] at h2
      cases h1; cases h2; exact hu.rel
    · simp only [List.getElem?_set_ne (Ne.symm hiw)] at h1
      rw [List.getElem?_set_ne (Ne.symm hiw)] at h2
      have h3 := hi.rel i q o h1 h2
      match q, h3 with
      | none, h3 => exact h3
      | some .ok, h3 => exact h3
      | some .closedSuccessfully, h3 => exact h3
      | some (.failed a), h3 =>
        obtain ⟨c, hc, hd, ho⟩ := h3
        refine ⟨c, ?_, hd, ho⟩
        simp only
        rw [hu.frame a (other i a hiw h1) (live i a h1)]
        exact hc
  · intro i j a h1 h2
    simp only at h1 h2
    by_cases hiw : i = w
    · subst hiw
      apply Classical.byContradiction; intro hne
      rw [List.getElem?_set_self hw] at h1
      rw [List.getElem?_set_ne hne] at h2
      cases h1
      rcases hu.own a rfl with h3 | h3
      · exact other j a (Ne.symm hne) h2 h3
      · have := live j a h2; omega
    · rw [List.getElem?_set_ne (Ne.symm hiw)] at h1
      by_cases hjw : j = w
      · subst hjw
        rw [List.getElem?_set_self hw] at h2
        cases h2
        rcases hu.own a rfl with h3 | h3
        · exact absurd h3 (other i a hiw h1)
        · have := live i a h1; omega
      · rw [List.getElem?_set_ne (Ne.symm hjw)] at h2
        exact hi.uniq i j a h1 h2
  · intro a c hc
    simp only at hc ⊢
    by_cases hown : p = .failed a ∨ m.heap.length ≤ a
    · obtain ⟨h1, h2⟩ := hu.cells a c hc hown
      refine ⟨h1, h2.trans ⟨fun he => ⟨w, by rw [List.getElem?_set_self hw, he]⟩, ?_⟩⟩
      rintro ⟨i, hi'⟩
      by_cases hiw : i = w
      · subst hiw; rw [List.getElem?_set_self hw] at hi'; exact Option.some.inj hi'
      · rw [List.getElem?_set_ne (Ne.symm hiw)] at hi'
        rcases hown with h3 | h3
        · exact absurd h3 (other i a hiw hi')
        · have := live i a hi'; omega
    · have hp1 : p ≠ .failed a := fun h3 => hown (Or.inl h3)
      have hp2 : a < m.heap.length := by omega
      rw [hu.frame a hp1 hp2] at hc
      obtain ⟨h1, h2⟩ := hi.cells a c hc
      refine ⟨h1, h2.trans ⟨?_, ?_⟩⟩
      · rintro ⟨i, hi'⟩
        have hiw : i ≠ w := by rintro rfl; rw [hp] at hi'; cases hi'; exact hp1 rfl
        exact ⟨i, by rw [List.getElem?_set_ne (Ne.symm hiw)]; exact hi'⟩
      · rintro ⟨i, hi'⟩
        by_cases hiw : i = w
        · subst hiw
          rw [List.getElem?_set_self hw] at hi'
          exact absurd (hu.own a (Option.some.inj hi')) hown
        · rw [List.getElem?_set_ne (Ne.symm hiw)] at hi'
          exact ⟨i, hi'⟩

theorem Upd.refl {h : List (Cell σ)} {p : Ptr} {o : Spec σ} (hr : Rel h (some p) (some o)) :
    Upd h p h (some p) (some o) := by
  refine ⟨hr, fun _ _ _ => rfl, Nat.le_refl _, ?_, ?_⟩
  · intro a c hc hor
    rcases hor with rfl | h1
    · obtain ⟨c', hc', hd, _⟩ := hr
      rw [hc] at hc'; cases hc'
      exact ⟨by omega, by simp [hd]⟩
    · have := (List.getElem?_eq_some_iff.mp hc).1; omega
  · intro a ha; cases ha; exact Or.inl rfl

theorem Upd.trans {h h1 h2 : List (Cell σ)} {p p1 : Ptr} {p2 : Option Ptr}
    {o1 o2 : Option (Spec σ)} (u1 : Upd h p h1 (some p1) o1) (u2 : Upd h1 p1 h2 p2 o2) :
    Upd h p h2 p2 o2 := by
  refine ⟨u2.rel, ?_, Nat.le_trans u1.len u2.len, ?_, ?_⟩
  · intro a ha hl
    rw [u2.frame a ?_ (Nat.lt_of_lt_of_le hl u1.len), u1.frame a ha hl]
    intro he; subst he
    rcases u1.own a rfl with h3 | h3
    · exact ha h3
    · omega
  · intro a c hc hor
    by_cases hc1 : p1 = .failed a ∨ h1.length ≤ a
    · exact u2.cells a c hc hc1
    · have hn1 : p1 ≠ .failed a := fun e => hc1 (Or.inl e)
      rw [u2.frame a hn1 (by omega)] at hc
      obtain ⟨h3, h4⟩ := u1.cells a c hc hor
      refine ⟨h3, ?_⟩
      constructor
      · intro h5; exact absurd (Option.some.inj (h4.mp h5)) hn1
      · intro h5; exact absurd (u2.own a h5) hc1
  · intro a ha
    rcases u2.own a ha with h3 | h3
    · subst h3; exact u1.own a rfl
    · right; have := u1.len; omega

/-- The pieces of `Rel` for a live object. -/
theorem rel_load {h : List (Cell σ)} {a : Nat} {o : Spec σ}
    (hr : Rel h (some (.failed a)) (some o)) :
    ∃ c, load h a = some c ∧ h[a]? = some c ∧ c.deleted = 0 ∧ o = ⟨!c.closed, some c.status⟩ := by
  obtain ⟨c, h1, h2, h3⟩ := hr
  exact ⟨c, by simp [load, h1, h2], h1, h2, Option.some.inj h3⟩

theorem upd_delete {h : List (Cell σ)} {p : Ptr} {o : Spec σ} (hr : Rel h (some p) (some o))
    (q : Option Ptr) (o' : Option (Spec σ)) (hq : Rel h q o') (hnf : ∀ a, q ≠ some (.failed a)) :
    ∃ h', deleteStatus h p = some h' ∧ Upd h p h' q o' := by
  have hq' : ∀ h', Rel h' q o' := by
    intro h'
    match q, hq, hnf with
    | none, hq, _ => exact hq
    | some .ok, hq, _ => exact hq
    | some .closedSuccessfully, hq, _ => exact hq
    | some (.failed a), _, hnf => exact absurd rfl (hnf a)
  match p, hr with
  | .ok, _ =>
    refine ⟨h, rfl, hq, fun _ _ _ => rfl, Nat.le_refl _, ?_, fun a ha => absurd ha (hnf a)⟩
    intro a c hc hor
    rcases hor with h1 | h1
    · simp at h1
    · have := (List.getElem?_eq_some_iff.mp hc).1; omega
  | .closedSuccessfully, _ =>
    refine ⟨h, rfl, hq, fun _ _ _ => rfl, Nat.le_refl _, ?_, fun a ha => absurd ha (hnf a)⟩
    intro a c hc hor
    rcases hor with h1 | h1
    · simp at h1
    · have := (List.getElem?_eq_some_iff.mp hc).1; omega
  | .failed b, hr =>
    obtain ⟨c, hl, hc, hd, _⟩ := rel_load hr
    refine ⟨h.set b { c with deleted := c.deleted + 1 }, by simp [deleteStatus, hl], hq' _, ?_,
      by simp, ?_, fun a ha => absurd ha (hnf a)⟩
    · intro a ha _
      rw [List.getElem?_set_ne]; intro e; subst e; exact ha rfl
    · intro a c' hc' hor
      have hb : b < h.length := (List.getElem?_eq_some_iff.mp hc).1
      rcases hor with h1 | h1
      · cases h1
        rw [List.getElem?_set_self hb] at hc'
        cases hc'
        exact ⟨by simp [hd], by simp [hnf b]⟩
      · have := (List.getElem?_eq_some_iff.mp hc').1; simp at this; omega

/-- Changing the contents of the `FailedStatus` of the object. -/
theorem upd_cell {h : List (Cell σ)} {a : Nat} {c c' : Cell σ} (hc : h[a]? = some c)
    (hd : c'.deleted = 0) :
    Upd h (.failed a) (h.set a c') (some (.failed a)) (some ⟨!c'.closed, some c'.status⟩) := by
  have hb : a < h.length := (List.getElem?_eq_some_iff.mp hc).1
  refine ⟨⟨c', List.getElem?_set_self hb, hd, rfl⟩, ?_, by simp, ?_, ?_⟩
  · intro b hne _
    rw [List.getElem?_set_ne]; intro e; subst e; exact hne rfl
  · intro b c2 h2 hor
    rcases hor with h1 | h1
    · cases h1
      rw [List.getElem?_set_self hb] at h2; cases h2
      exact ⟨by omega, by simp [hd]⟩
    · have := (List.getElem?_eq_some_iff.mp h2).1; simp at this; omega
  · intro b hb'; cases hb'; exact Or.inl rfl

theorem upd_alloc {h : List (Cell σ)} {p : Ptr} {o : Spec σ} (hr : Rel h (some p) (some o))
    (hn : stateNotFailed p = true) (s : σ) :
    Upd h p (h ++ [newCell p s])
      (some (.failed h.length)) (some { o with failure := some s }) := by
  refine ⟨⟨newCell p s, by simp, rfl, ?_⟩, ?_, by simp, ?_, ?_⟩
  · match p, hr, hn with
    | .ok, hr, _ => cases hr; rfl
    | .closedSuccessfully, hr, _ => cases hr; rfl
    | .failed a, _, hn => simp [stateNotFailed] at hn
  · intro a _ ha; rw [List.getElem?_append_left ha]
  · intro a c hc hor
    have ha : h.length ≤ a := by
      rcases hor with h1 | h1
      · subst h1; simp [stateNotFailed] at hn
      · exact h1
    have hlt := (List.getElem?_eq_some_iff.mp hc).1
    simp at hlt
    have : a = h.length := by omega
    subst this
    simp at hc; subst hc
    simp [newCell]
  · intro a ha; cases ha; exact Or.inr (Nat.le_refl _)

theorem notFailed_iff {h : List (Cell σ)} {p : Ptr} {o : Spec σ} (hr : Rel h (some p) (some o)) :
    stateNotFailed p = o.notFailed := by
  match p, hr with
  | .ok, hr => cases hr; rfl
  | .closedSuccessfully, hr => cases hr; rfl
  | .failed a, hr => obtain ⟨c, _, _, _, rfl⟩ := rel_load hr; rfl

theorem ok_iff {h : List (Cell σ)} {p : Ptr} {o : Spec σ} (hr : Rel h (some p) (some o)) :
    stateOk p = o.ok := by
  match p, hr with
  | .ok, hr => cases hr; rfl
  | .closedSuccessfully, hr => cases hr; rfl
  | .failed a, hr => obtain ⟨c, _, _, _, rfl⟩ := rel_load hr; simp [stateOk, Spec.ok]

theorem isOpen_eq {h : List (Cell σ)} {p : Ptr} {o : Spec σ} (hr : Rel h (some p) (some o)) :
    stateIsOpen h p = some o.opened := by
  match p, hr with
  | .ok, hr => cases hr; rfl
  | .closedSuccessfully, hr => cases hr; rfl
  | .failed a, hr => obtain ⟨c, h1, _, _, rfl⟩ := rel_load hr; simp [stateIsOpen, h1]

theorem status_eq {h : List (Cell σ)} {p : Ptr} {o : Spec σ} (hr : Rel h (some p) (some o)) :
    stateStatus h p = some o.status := by
  match p, hr with
  | .ok, hr => cases hr; rfl
  | .closedSuccessfully, hr => cases hr; rfl
  | .failed a, hr => obtain ⟨c, h1, _, _, rfl⟩ := rel_load hr; simp [stateStatus, h1, Spec.status]

theorem fail_upd {h : List (Cell σ)} {p : Ptr} {o : Spec σ} (hr : Rel h (some p) (some o))
    (f : σ → σ) (s : σ) :
    ∃ h' p', objectFail f h p s = some (h', p') ∧ Upd h p h' (some p') (some (o.fail (f s))) := by
  by_cases hn : stateNotFailed p = true
  · have ho : o.failure = none := by
      have := notFailed_iff hr; rw [hn] at this
      simpa [Spec.notFailed] using this.symm
    have hs : stateFail h p s = (h ++ [newCell p s], .failed h.length) := by
      match p, hn with
      | .ok, _ => rfl
      | .closedSuccessfully, _ => rfl
      | .failed a, hn => simp [stateNotFailed] at hn
    have hu := upd_alloc hr hn s
    have hget : (h ++ [newCell p s])[h.length]? = some (newCell p s) := by simp
    have hl : load (h ++ [newCell p s]) h.length = some (newCell p s) := by simp [load, newCell]
    refine ⟨(h ++ [newCell p s]).set h.length (newCell p (f s)), .failed h.length, ?_, ?_⟩
    · simp only [objectFail, hn, hs, stateStatus, hl, stateSetStatus]
      simp [newCell]
    · have hc := upd_cell (c' := newCell p (f s)) hget rfl
      have ht := hu.trans hc
      have he : o.fail (f s) = ⟨!(p == .closedSuccessfully), some (f s)⟩ := by
        have h2 := hu.rel
        obtain ⟨c, hc1, _, hc3⟩ := h2
        rw [hget] at hc1; cases hc1
        have := Option.some.inj hc3
        simp only [Spec.mk.injEq, newCell] at this
        simp [Spec.fail, ho, this.1]
      rw [he]; exact ht
  · have hn' : stateNotFailed p = false := (Bool.not_eq_true _).mp hn
    refine ⟨h, p, by simp [objectFail, hn'], ?_⟩
    have he : o.fail (f s) = o := by
      have := notFailed_iff hr; rw [hn'] at this
      cases o with
      | mk op fl =>
        cases fl with
        | none => simp [Spec.notFailed] at this
        | some x => rfl
    rw [he]; exact Upd.refl hr

theorem done_upd (f : σ → σ) (done : List σ) : ∀ {h : List (Cell σ)} {p : Ptr} {o : Spec σ},
    Rel h (some p) (some o) →
    ∃ h' p', objectDone f done h p = some (h', p') ∧
      Upd h p h' (some p') (some ((done.map f).foldl Spec.fail o)) := by
  induction done with
  | nil => intro h p o hr; exact ⟨h, p, rfl, Upd.refl hr⟩
  | cons s ss ih =>
    intro h p o hr
    obtain ⟨h1, p1, e1, u1⟩ := fail_upd hr f s
    obtain ⟨h2, p2, e2, u2⟩ := ih u1.rel
    exact ⟨h2, p2, by simp [objectDone, e1, e2], u1.trans u2⟩

theorem foldl_fail (l : List σ) (o : Spec σ) :
    l.foldl Spec.fail o = { o with failure := match o.failure with
      | some s => some s
      | none => l.head? } := by
  induction l generalizing o with
  | nil => cases o with | mk a b => cases b <;> rfl
  | cons s l ih =>
    rw [List.foldl_cons, ih]
    cases o with | mk a b => cases b <;> rfl

theorem markClosed_upd {h : List (Cell σ)} {p : Ptr} {o : Spec σ} (hr : Rel h (some p) (some o)) :
    ∃ h' p', stateMarkClosed h p = some (h', p', o.notFailed) ∧
      Upd h p h' (some p') (some { o with opened := false }) := by
  match p, hr with
  | .ok, hr =>
    cases hr
    obtain ⟨h', e, u⟩ := upd_delete (h := h) (p := .ok) (o := ⟨true, none⟩) rfl
      (some .closedSuccessfully) (some ⟨false, none⟩) rfl (by simp)
    cases e
    exact ⟨h, .closedSuccessfully, rfl, u⟩
  | .closedSuccessfully, hr =>
    cases hr
    exact ⟨h, .closedSuccessfully, rfl, Upd.refl rfl⟩
  | .failed a, hr =>
    obtain ⟨c, h1, h2, h3, rfl⟩ := rel_load hr
    refine ⟨h.set a { c with closed := true }, .failed a, by simp [stateMarkClosed, h1,
      Spec.notFailed], ?_⟩
    exact upd_cell (c' := { c with closed := true }) h2 h3

theorem markNotFailed_upd {h : List (Cell σ)} {p : Ptr} {o : Spec σ}
    (hr : Rel h (some p) (some o)) :
    ∃ h' p', stateMarkNotFailed h p = some (h', p') ∧
      Upd h p h' (some p') (some { o with failure := none }) := by
  have h1 := isOpen_eq hr
  cases hop : o.opened with
  | true =>
    obtain ⟨h', e, u⟩ := upd_delete hr (some .ok) (some { o with failure := none })
      (by cases o; simp only at hop; subst hop; rfl) (by simp)
    exact ⟨h', .ok, by simp [stateMarkNotFailed, h1, hop, e], by rw [hop] at u; exact u⟩
  | false =>
    obtain ⟨h', e, u⟩ := upd_delete hr (some .closedSuccessfully) (some { o with failure := none })
      (by cases o; simp only at hop; subst hop; rfl) (by simp)
    exact ⟨h', .closedSuccessfully, by simp [stateMarkNotFailed, h1, hop, e], by rw [hop] at u; exact u⟩

/-- A new variable. -/
theorem inv_push {m : Mem σ} {objs : List (Option (Spec σ))} (hi : Inv m objs) {p : Ptr}
    {o : Spec σ} (hr : Rel m.heap (some p) (some o)) (hnf : ∀ a, p ≠ .failed a) :
    Inv { m with objs := m.objs ++ [some p] } (objs ++ [some o]) := by
  have hget : ∀ (i a : Nat), (m.objs ++ [some p])[i]? = some (some (.failed a)) →
      m.objs[i]? = some (some (.failed a)) := by
    intro i a h1
    by_cases hlt : i < m.objs.length
    · rwa [List.getElem?_append_left hlt] at h1
    · have h2 := (List.getElem?_eq_some_iff.mp h1).1
      simp at h2
      have : i = m.objs.length := by omega
      subst this
      simp at h1
      exact absurd h1 (hnf a)
  refine ⟨by simp [hi.len], ?_, ?_, ?_⟩
  · intro i q o' h1 h2
    simp only at h1
    by_cases hlt : i < m.objs.length
    · rw [List.getElem?_append_left hlt] at h1
      rw [List.getElem?_append_left (hi.len ▸ hlt)] at h2
      exact hi.rel i q o' h1 h2
    · have h3 := (List.getElem?_eq_some_iff.mp h1).1
      simp at h3
      have h4 : i = m.objs.length := by omega
      have h5 : i = objs.length := by rw [h4, hi.len]
      subst h4
      simp at h1
      rw [h5] at h2
      simp at h2
      subst h1; subst h2; exact hr
  · intro i j a h1 h2; exact hi.uniq i j a (hget i a h1) (hget j a h2)
  · intro a c hc
    obtain ⟨h1, h2⟩ := hi.cells a c hc
    refine ⟨h1, h2.trans ⟨?_, ?_⟩⟩
    · rintro ⟨i, hi'⟩
      exact ⟨i, by rw [List.getElem?_append_left (List.getElem?_eq_some_iff.mp hi').1]; exact hi'⟩
    · rintro ⟨i, hi'⟩; exact ⟨i, hget i a hi'⟩

/-- Moving the word of `v` to `w`, which holds nothing. -/
theorem inv_transfer {m : Mem σ} {objs : List (Option (Spec σ))} (hi : Inv m objs) {v w : Nat}
    {p : Ptr} {o : Spec σ} (hne : w ≠ v) (hv : m.objs[v]? = some (some p))
    (ho : objs[v]? = some (some o)) (hw : m.objs[w]? = some (some .closedSuccessfully)) :
    Inv { m with objs := (m.objs.set v (some .closedSuccessfully)).set w (some p) }
      ((objs.set v (some .movedFrom)).set w (some o)) := by
  have lv : v < m.objs.length := (List.getElem?_eq_some_iff.mp hv).1
  have lw : w < m.objs.length := (List.getElem?_eq_some_iff.mp hw).1
  have lv' : v < objs.length := hi.len ▸ lv
  have lw' : w < objs.length := hi.len ▸ lw
  have gw : ((m.objs.set v (some .closedSuccessfully)).set w (some p))[w]? = some (some p) := by
    rw [List.getElem?_set_self (by simpa using lw)]
  have gv : ((m.objs.set v (some .closedSuccessfully)).set w (some p))[v]? =
      some (some .closedSuccessfully) := by
    rw [List.getElem?_set_ne hne, List.getElem?_set_self lv]
  have go : ∀ i, i ≠ v → i ≠ w →
      ((m.objs.set v (some .closedSuccessfully)).set w (some p))[i]? = m.objs[i]? := by
    intro i h1 h2
    rw [List.getElem?_set_ne (Ne.symm h2), List.getElem?_set_ne (Ne.symm h1)]
  -- where a `FailedStatus` is owned now, and where it was
  let back : Nat → Nat := fun i => if i = w then v else i
  have hback : ∀ i a : Nat, ((m.objs.set v (some .closedSuccessfully)).set w (some p))[i]? =
      some (some (.failed a)) → m.objs[back i]? = some (some (.failed a)) ∧ i ≠ v := by
    intro i a h1
    by_cases h2 : i = w
    · subst h2
      rw [gw] at h1
      simp only [back, if_true]
      exact ⟨by rw [hv]; exact h1, hne⟩
    · by_cases h3 : i = v
      · subst h3; rw [gv] at h1; simp at h1
      · rw [go i h3 h2] at h1
        simp only [back, if_neg h2]
        exact ⟨h1, h3⟩
  refine ⟨by simp [hi.len], ?_, ?_, ?_⟩
  · intro i q o' h1 h2
    simp only at h1 ⊢
    by_cases h3 : i = w
    · subst h3
      rw [gw] at h1
      rw [List.getElem?_set_self (by simpa using lw')] at h2
      cases h1; cases h2
      exact hi.rel v _ _ hv ho
    · by_cases h4 : i = v
      · subst h4
        rw [gv] at h1
        rw [List.getElem?_set_ne hne, List.getElem?_set_self lv'] at h2
        cases h1; cases h2; rfl
      · rw [go i h4 h3] at h1
        rw [List.getElem?_set_ne (Ne.symm h3), List.getElem?_set_ne (Ne.symm h4)] at h2
        exact hi.rel i q o' h1 h2
  · intro i j a h1 h2
    obtain ⟨h3, h4⟩ := hback i a h1
    obtain ⟨h5, h6⟩ := hback j a h2
    have h7 := hi.uniq _ _ a h3 h5
    simp only [back] at h7
    split at h7 <;> split at h7 <;> simp_all
  · intro a c hc
    obtain ⟨h1, h2⟩ := hi.cells a c hc
    refine ⟨h1, h2.trans ⟨?_, ?_⟩⟩
    · rintro ⟨i, hi'⟩
      by_cases h3 : i = v
      · subst h3
        exact ⟨w, by simp only; rw [gw]; rw [hv] at hi'; exact hi'⟩
      · have h4 : i ≠ w := by rintro rfl; rw [hw] at hi'; simp at hi'
        exact ⟨i, by simp only; rw [go i h3 h4]; exact hi'⟩
    · rintro ⟨i, hi'⟩; exact ⟨back i, (hback i a hi').1⟩

/-- What relates an outcome of the code to the specification. -/
def Good (objs : List (Option (Spec σ))) (res : Option (List (Option (Spec σ)) × Ret σ)) :
    Out σ → Prop
  | .next m r => ∃ objs', res = some (objs', r) ∧ Inv m objs'
  | .refused => res = none
  | .useAfterFree => False

theorem get_spec {m : Mem σ} {objs : List (Option (Spec σ))} (hi : Inv m objs) (w : Nat) :
    (∃ p o, m.objs[w]? = some (some p) ∧ objs[w]? = some (some o) ∧
      Rel m.heap (some p) (some o)) ∨
    ((∀ p, m.objs[w]? ≠ some (some p)) ∧ ∀ o, objs[w]? ≠ some (some o)) := by
  by_cases hl : w < m.objs.length
  · have hl' : w < objs.length := hi.len ▸ hl
    have h1 : m.objs[w]? = some m.objs[w] := List.getElem?_eq_getElem hl
    have h2 : objs[w]? = some objs[w] := List.getElem?_eq_getElem hl'
    have hr := hi.rel w _ _ h1 h2
    cases hm : m.objs[w] with
    | none =>
      rw [hm] at hr h1
      right
      refine ⟨by intro p hp; rw [h1] at hp; simp at hp, ?_⟩
      intro o ho; rw [h2] at ho
      have : objs[w] = none := hr
      rw [this] at ho; simp at ho
    | some p =>
      rw [hm] at hr h1
      left
      cases hs : objs[w] with
      | none =>
        rw [hs] at hr
        match p, hr with
        | .ok, hr => simp [Rel] at hr
        | .closedSuccessfully, hr => simp [Rel] at hr
        | .failed a, hr => obtain ⟨c, _, _, h⟩ := hr; simp at h
      | some o => rw [hs] at hr h2; exact ⟨p, o, h1, h2, hr⟩
  · right
    have hl' : ¬ w < objs.length := by rw [← hi.len]; exact hl
    refine ⟨by intro p hp; exact hl (List.getElem?_eq_some_iff.mp hp).1, ?_⟩
    intro o ho; exact hl' (List.getElem?_eq_some_iff.mp ho).1

theorem set_same {α : Type} {l : List α} {i : Nat} {a : α} (h : l[i]? = some a) :
    l.set i a = l := by
  obtain ⟨h1, h2⟩ := List.getElem?_eq_some_iff.mp h
  subst h2
  exact List.set_getElem_self h1

theorem step_good {m : Mem σ} {objs : List (Option (Spec σ))} (hi : Inv m objs)
    (f : Nat → σ → σ) (op : Op σ) : Good objs (specStep f objs op) (step f m op) := by
  -- operations on one variable
  cases op with
  | newOpen => exact ⟨_, rfl, inv_push hi rfl (by simp)⟩
  | newClosed => exact ⟨_, rfl, inv_push hi rfl (by simp)⟩
  | newMoved v =>
    rcases get_spec hi v with ⟨p, o, h1, h2, hr⟩ | ⟨h1, h2⟩
    · simp only [step, specStep, h1, h2]
      refine ⟨_, rfl, ?_⟩
      have hp := inv_push hi (p := .closedSuccessfully) (o := ⟨false, none⟩) rfl (by simp)
      have lv : v < m.objs.length := (List.getElem?_eq_some_iff.mp h1).1
      have lv' : v < objs.length := hi.len ▸ lv
      have ht := inv_transfer hp (v := v) (w := m.objs.length) (p := p) (o := o) (by omega)
        (by simp only; rw [List.getElem?_append_left lv]; exact h1)
        (by rw [List.getElem?_append_left lv']; exact h2) (by simp)
      have e1 : ((m.objs ++ [some Ptr.closedSuccessfully]).set v (some .closedSuccessfully)).set
          m.objs.length (some p) = m.objs.set v (some .closedSuccessfully) ++ [some p] := by
        rw [List.set_append_left _ _ lv, List.set_append_right _ _ (by simp)]
        simp
      have e2 : ((objs ++ [some (⟨false, none⟩ : Spec σ)]).set v (some .movedFrom)).set
          m.objs.length (some o) = objs.set v (some .movedFrom) ++ [some o] := by
        rw [List.set_append_left _ _ lv', List.set_append_right _ _ (by simp [hi.len])]
        simp [hi.len]
      simp only [e1, e2] at ht
      exact ht
    · simp only [step, specStep]
      repeat' split
      all_goals first
        | rfl
        | exact absurd (by assumption) (h1 _)
        | exact absurd (by assumption) (h2 _)
  | moveAssign w v =>
    rcases get_spec hi w with ⟨pw, ow, hw1, hw2, hrw⟩ | ⟨hw1, hw2⟩
    · rcases get_spec hi v with ⟨pv, ov, hv1, hv2, hrv⟩ | ⟨hv1, hv2⟩
      · have lw : w < m.objs.length := (List.getElem?_eq_some_iff.mp hw1).1
        have lw' : w < objs.length := hi.len ▸ lw
        simp only [step, specStep, hw1, hw2, hv1, hv2]
        by_cases hne : w = v
        · subst hne
          rw [hw1] at hv1; cases hv1
          rw [hw2] at hv2; cases hv2
          simp only [List.getElem?_set_self lw, deleteStatus, Option.map_some, put]
          refine ⟨_, rfl, ?_⟩
          simp only [List.set_set, set_same hw1, set_same hw2]
          exact hi
        · have hwn : (m.objs.set v (some Ptr.closedSuccessfully))[w]? = some (some pw) := by
            rw [List.getElem?_set_ne (fun e => hne e.symm)]; exact hw1
          obtain ⟨h', e, u⟩ := upd_delete hrw (some .closedSuccessfully) (some .movedFrom) rfl
            (by simp)
          simp only [hwn, e, Option.map_some, put]
          refine ⟨_, rfl, ?_⟩
          have h3 := u.apply hi hw1
          have h4 := inv_transfer h3 (v := v) (w := w) (p := pv) (o := ov) hne
            (by simp only; rw [List.getElem?_set_ne hne]; exact hv1)
            (by rw [List.getElem?_set_ne hne]; exact hv2)
            (by simp only; rw [List.getElem?_set_self lw])
          simp only [List.set_comm _ _ hne, List.set_set] at h4 ⊢
          have e1 : ∀ (l : List (Option Ptr)) (a b c : Option Ptr),
              ((l.set w a).set v b).set w c = (l.set v b).set w c := by
            intro l a b c
            rw [List.set_comm _ _ hne, List.set_set]
          have e2 : ∀ (l : List (Option (Spec σ))) (a b c : Option (Spec σ)),
              ((l.set w a).set v b).set w c = (l.set v b).set w c := by
            intro l a b c
            rw [List.set_comm _ _ hne, List.set_set]
          first
          | exact h4
          | (simp only [e1, e2] at h4; exact h4)
      · simp only [step, specStep, hw1, hw2]
        repeat' split
        all_goals first
          | rfl
          | exact absurd (by assumption) (hv1 _)
          | exact absurd (by assumption) (hv2 _)
    · simp only [step, specStep]
      repeat' split
      all_goals first
        | rfl
        | exact absurd (by assumption) (hw1 _)
        | exact absurd (by assumption) (hw2 _)
  | destroy w =>
    rcases get_spec hi w with ⟨p, o, h1, h2, hr⟩ | ⟨h1, h2⟩
    · obtain ⟨h', e, u⟩ := upd_delete hr none none rfl (by simp)
      simp only [step, specStep, h1, h2, e]
      exact ⟨_, rfl, u.apply hi h1⟩
    · simp only [step, specStep]
      repeat' split
      all_goals first
        | rfl
        | exact absurd (by assumption) (h1 _)
        | exact absurd (by assumption) (h2 _)
  | resetOpen w =>
    rcases get_spec hi w with ⟨p, o, h1, h2, hr⟩ | ⟨h1, h2⟩
    · obtain ⟨h', e, u⟩ := upd_delete hr (some .ok) (some ⟨true, none⟩) rfl (by simp)
      simp only [step, specStep, h1, h2, e, Option.map_some, put]
      exact ⟨_, rfl, u.apply hi h1⟩
    · simp only [step, specStep]
      repeat' split
      all_goals first
        | rfl
        | exact absurd (by assumption) (h1 _)
        | exact absurd (by assumption) (h2 _)
  | resetClosed w =>
    rcases get_spec hi w with ⟨p, o, h1, h2, hr⟩ | ⟨h1, h2⟩
    · obtain ⟨h', e, u⟩ := upd_delete hr (some .closedSuccessfully) (some ⟨false, none⟩) rfl
        (by simp)
      simp only [step, specStep, h1, h2, e, Option.map_some, put]
      exact ⟨_, rfl, u.apply hi h1⟩
    · simp only [step, specStep]
      repeat' split
      all_goals first
        | rfl
        | exact absurd (by assumption) (h1 _)
        | exact absurd (by assumption) (h2 _)
  | close w done =>
    rcases get_spec hi w with ⟨p, o, h1, h2, hr⟩ | ⟨h1, h2⟩
    · simp only [step, specStep, h1, h2, isOpen_eq hr]
      cases hop : o.opened with
      | false =>
        have he : o.close (done.map (f w)) = o := by simp [Spec.close, hop]
        refine ⟨objs, ?_, hi⟩
        rw [he, set_same h2, notFailed_iff hr]
      | true =>
        obtain ⟨ha, pa, ea, ua⟩ := done_upd (f w) done hr
        obtain ⟨hb, pb, eb, ub⟩ := markClosed_upd ua.rel
        simp only [ea, eb, put]
        refine ⟨_, ?_, (ua.trans ub).apply hi h1⟩
        rw [foldl_fail]
        simp only [Spec.close, hop, if_true, Spec.notFailed]
        rfl
    · simp only [step, specStep]
      repeat' split
      all_goals first
        | rfl
        | exact absurd (by assumption) (h1 _)
        | exact absurd (by assumption) (h2 _)
  | ok w =>
    rcases get_spec hi w with ⟨p, o, h1, h2, hr⟩ | ⟨h1, h2⟩
    · simp only [step, specStep, h1, h2, look, ok_iff hr]
      exact ⟨_, rfl, hi⟩
    · simp only [step, specStep]
      repeat' split
      all_goals first
        | rfl
        | exact absurd (by assumption) (h1 _)
        | exact absurd (by assumption) (h2 _)
  | isOpen w =>
    rcases get_spec hi w with ⟨p, o, h1, h2, hr⟩ | ⟨h1, h2⟩
    · simp only [step, specStep, h1, h2, look, isOpen_eq hr, Option.map_some]
      exact ⟨_, rfl, hi⟩
    · simp only [step, specStep]
      repeat' split
      all_goals first
        | rfl
        | exact absurd (by assumption) (h1 _)
        | exact absurd (by assumption) (h2 _)
  | notFailed w =>
    rcases get_spec hi w with ⟨p, o, h1, h2, hr⟩ | ⟨h1, h2⟩
    · simp only [step, specStep, h1, h2, look, notFailed_iff hr]
      exact ⟨_, rfl, hi⟩
    · simp only [step, specStep]
      repeat' split
      all_goals first
        | rfl
        | exact absurd (by assumption) (h1 _)
        | exact absurd (by assumption) (h2 _)
  | status w =>
    rcases get_spec hi w with ⟨p, o, h1, h2, hr⟩ | ⟨h1, h2⟩
    · simp only [step, specStep, h1, h2, look, status_eq hr, Option.map_some]
      exact ⟨_, rfl, hi⟩
    · simp only [step, specStep]
      repeat' split
      all_goals first
        | rfl
        | exact absurd (by assumption) (h1 _)
        | exact absurd (by assumption) (h2 _)
  | fail w s =>
    rcases get_spec hi w with ⟨p, o, h1, h2, hr⟩ | ⟨h1, h2⟩
    · obtain ⟨h', p', e, u⟩ := fail_upd hr (f w) s
      simp only [step, specStep, h1, h2, e, put]
      exact ⟨_, rfl, u.apply hi h1⟩
    · simp only [step, specStep]
      repeat' split
      all_goals first
        | rfl
        | exact absurd (by assumption) (h1 _)
        | exact absurd (by assumption) (h2 _)
  | failWithoutAnnotation w s =>
    rcases get_spec hi w with ⟨p, o, h1, h2, hr⟩ | ⟨h1, h2⟩
    · simp only [step, specStep, h1, h2, put]
      by_cases hn : stateNotFailed p = true
      · have ho : o.failure = none := by
          have := notFailed_iff hr; rw [hn] at this
          simpa [Spec.notFailed] using this.symm
        have hs : stateFail m.heap p s = (m.heap ++ [newCell p s], .failed m.heap.length) := by
          match p, hn with
          | .ok, _ => rfl
          | .closedSuccessfully, _ => rfl
          | .failed a, hn => simp [stateNotFailed] at hn
        have he : o.fail s = { o with failure := some s } := by simp [Spec.fail, ho]
        simp only [hn, hs, he, Bool.not_true]
        exact ⟨_, rfl, (upd_alloc hr hn s).apply hi h1⟩
      · have hn' : stateNotFailed p = false := (Bool.not_eq_true _).mp hn
        have he : o.fail s = o := by
          have := notFailed_iff hr; rw [hn'] at this
          cases o with
          | mk op fl =>
            cases fl with
            | none => simp [Spec.notFailed] at this
            | some x => rfl
        simp only [hn', he, Bool.not_false, if_true]
        exact ⟨_, rfl, (Upd.refl hr).apply hi h1⟩
    · simp only [step, specStep]
      repeat' split
      all_goals first
        | rfl
        | exact absurd (by assumption) (h1 _)
        | exact absurd (by assumption) (h2 _)
  | statusOrAnnotate w s =>
    rcases get_spec hi w with ⟨p, o, h1, h2, hr⟩ | ⟨h1, h2⟩
    · simp only [step, specStep, h1, h2, ok_iff hr, status_eq hr]
      cases o.ok <;> exact ⟨_, rfl, hi⟩
    · simp only [step, specStep]
      repeat' split
      all_goals first
        | rfl
        | exact absurd (by assumption) (h1 _)
        | exact absurd (by assumption) (h2 _)
  | markNotFailed w =>
    rcases get_spec hi w with ⟨p, o, h1, h2, hr⟩ | ⟨h1, h2⟩
    · obtain ⟨h', p', e, u⟩ := markNotFailed_upd hr
      simp only [step, specStep, h1, h2, e, put]
      exact ⟨_, rfl, u.apply hi h1⟩
    · simp only [step, specStep]
      repeat' split
      all_goals first
        | rfl
        | exact absurd (by assumption) (h1 _)
        | exact absurd (by assumption) (h2 _)
  | setStatus w s =>
    rcases get_spec hi w with ⟨p, o, h1, h2, hr⟩ | ⟨h1, h2⟩
    · simp only [step, specStep, h1, h2, notFailed_iff hr]
      cases hn : o.notFailed with
      | true => rfl
      | false =>
        match p, h1, hr with
        | .ok, _, hr => cases hr; simp [Spec.notFailed] at hn
        | .closedSuccessfully, _, hr => cases hr; simp [Spec.notFailed] at hn
        | .failed a, h1, hr =>
          obtain ⟨c, hl, hc, hd, rfl⟩ := rel_load hr
          have hu := upd_cell (c' := { c with status := s }) hc hd
          simp only [stateSetStatus, hl, Option.map_some, put]
          exact ⟨_, rfl, hu.apply hi h1⟩
    · simp only [step, specStep]
      repeat' split
      all_goals first
        | rfl
        | exact absurd (by assumption) (h1 _)
        | exact absurd (by assumption) (h2 _)

theorem exec_spec (f : Nat → σ → σ) (ops : List (Op σ)) {m : Mem σ}
    {objs : List (Option (Spec σ))} (hi : Inv m objs) :
    (exec f m ops).map Prod.snd = (specExec f objs ops).map Prod.snd ∧
    ∀ m' rs, exec f m ops = some (m', rs) → ∃ objs', specExec f objs ops = some (objs', rs) ∧
      Inv m' objs' := by
  induction ops generalizing m objs with
  | nil => exact ⟨rfl, fun m' rs h => by cases h; exact ⟨objs, rfl, hi⟩⟩
  | cons op ops ih =>
    have hg := step_good hi f op
    simp only [exec, specExec]
    cases hs : step f m op with
    | next m1 r =>
      rw [hs] at hg
      obtain ⟨objs1, h1, h2⟩ := hg
      rw [h1]
      obtain ⟨h3, h4⟩ := ih h2
      constructor
      · simp only [Option.map_map]
        have : ∀ (α : Type) (x : Option (α × List (Ret σ))),
            x.map ((Prod.snd : α × List (Ret σ) → _) ∘ fun y => (y.1, r :: y.2)) =
            (x.map Prod.snd).map (r :: ·) := by intro α x; cases x <;> rfl
        rw [this, this, h3]
      · intro m' rs h5
        simp only at h5
        cases h6 : exec f m1 ops with
        | none => rw [h6] at h5; simp at h5
        | some x =>
          rw [h6] at h5
          simp at h5
          obtain ⟨h7, h8⟩ := h5
          obtain ⟨objs', h9, h10⟩ := h4 x.1 x.2 (by rw [h6])
          exact ⟨objs', by simp only [h9]; simp [h8], h7 ▸ h10⟩
    | refused =>
      rw [hs] at hg
      have hg : specStep f objs op = none := hg
      rw [hg]; simp
    | useAfterFree => rw [hs] at hg; exact hg.elim

theorem exec_no_uaf (f : Nat → σ → σ) {m : Mem σ} {objs : List (Option (Spec σ))}
    (hi : Inv m objs) (op : Op σ) : step f m op ≠ .useAfterFree := by
  intro h
  have := step_good hi f op
  rw [h] at this
  exact this

end Riegeli.Obj

import Verif.PoolSpec
import Verif.RecyclingPool

/-!
# `RecyclingPool` is a list of idle objects (C48)
-/

namespace Riegeli.Pool

variable {κ β : Type}

/-- A pool implements the specification: `Repr max s xs` says that the guarded state
`s` of a pool with `max_size == max` represents the idle objects `xs`. -/
structure Impl.Correct [DecidableEq κ] (I : Impl κ β) where
  Repr : Nat → I.σ → Idle κ β → Prop
  new : ∀ max, Repr max (I.new max) []
  take : ∀ {max s xs} (k : κ), Repr max s xs →
    ∃ s', I.take k s = some ((takeNewest k xs).map (·.1), s') ∧
      Repr max s' (((takeNewest k xs).map (·.2)).getD xs)
  put : ∀ {max s xs} (k : κ) (b : β) (d : Option Nat), Repr max s xs →
    ∃ s', I.put k b d s = some
        { evicted := (putNewest max (k, b, d) xs).1
          schedule := if (putNewest max (k, b, d) xs).2.length = 1 then d else none
          pool := s' } ∧
      Repr max s' (putNewest max (k, b, d) xs).2
  clear : ∀ {max s xs}, Repr max s xs →
    ∃ ev s', I.clear s = some (ev, s') ∧ ev.Perm (xs.map (·.2.1)) ∧ Repr max s' []
  clean : ∀ {max s xs} (now : Nat), Repr max s xs →
    ∃ s', I.clean now s = some
        { evicted := (xs.takeWhile (tooOld now)).map (·.2.1)
          schedule := (xs.dropWhile (tooOld now)).head?.map (·.2.2)
          pool := s' } ∧
      Repr max s' (xs.dropWhile (tooOld now))

theorem later_eq (now : Nat) (x : κ × β × Option Nat) : later x.2.2 now = !tooOld now x := by
  simp only [later, tooOld]
  cases x.2.2 with
  | none => rfl
  | some d =>
    by_cases h : now < d
    · simp [h, Nat.not_le.mpr h]
    · simp [h, Nat.not_lt.mp h]

/-! ## The ring -/

/-- An index of a ring of `n` slots, which went around at most once. -/
def wrap (n i : Nat) : Nat := if i < n then i else i - n

structure RingRepr (max : Nat) (r : Ring β) (start : Nat) (xs : Idle Unit β) : Prop where
  len : r.slots.length = max
  size : r.size = xs.length
  le : xs.length ≤ max
  starts : start < max
  fin : r.fin = wrap max (start + xs.length)
  full : ∀ i (h : i < xs.length), r.slots[wrap max (start + i)]? = some (some xs[i].2.1, xs[i].2.2)
  vacant : ∀ i, xs.length ≤ i → i < max → ∃ d, r.slots[wrap max (start + i)]? = some (none, d)

def Ring.Repr (max : Nat) (r : Ring β) (xs : Idle Unit β) : Prop :=
  if max = 0 then r.slots = [] ∧ r.size = 0 ∧ xs = [] else ∃ start, RingRepr max r start xs

theorem wrap_inj {n a i j : Nat} (_ : a < n) (hi : i < n) (hj : j < n)
    (h : wrap n (a + i) = wrap n (a + j)) : i = j := by
  simp only [wrap] at h
  split at h <;> split at h <;> omega

theorem wrap_lt {n a i : Nat} (ha : a < n) (hi : i < n) : wrap n (a + i) < n := by
  simp only [wrap]; split <;> omega

theorem Ring.new_repr (max : Nat) : Ring.Repr max (Ring.new max : Ring β) [] := by
  unfold Ring.Repr
  split
  · rename_i h; subst h; simp [Ring.new]
  · refine ⟨0, ?_, ?_, ?_, ?_, ?_, ?_, ?_⟩
    · simp [Ring.new]
    · simp [Ring.new]
    · simp
    · omega
    · simp [Ring.new, wrap]
    · intro i h; simp at h
    · intro i _ h
      refine ⟨some 0, ?_⟩
      simp only [Ring.new, Nat.zero_add, wrap, h, if_true]
      rw [List.getElem?_replicate, if_pos h]

theorem takeNewest_snoc (xs : Idle Unit β) (x : Unit × β × Option Nat) :
    takeNewest () (xs ++ [x]) = some (x.2.1, xs) := by
  induction xs with
  | nil => simp [takeNewest]
  | cons y ys ih => simp [takeNewest, ih]

/-- Removing the newest slot. -/
theorem RingRepr.pop {max start : Nat} {r : Ring β} {xs : Idle Unit β} {x : Unit × β × Option Nat}
    (h : RingRepr max r start (xs ++ [x])) :
    r.slots[r.pred]? = some (some x.2.1, x.2.2) ∧
    RingRepr max
      { slots := r.slots.set r.pred (none, x.2.2), fin := r.pred, size := r.size - 1 } start xs := by
  have hle := h.le
  have hst := h.starts
  have hp : r.pred = wrap max (start + xs.length) := by
    have hf := h.fin
    simp only [List.length_append, List.length_singleton, wrap] at hf hle ⊢
    simp only [Ring.pred, h.len, hf]
    repeat' split
    all_goals omega
  simp only [List.length_append, List.length_singleton] at hle
  have hlt : wrap max (start + xs.length) < r.slots.length := by
    rw [h.len]; exact wrap_lt hst (by omega)
  constructor
  · have := h.full xs.length (by simp)
    rw [hp, this]; simp
  · refine ⟨?_, ?_, ?_, hst, ?_, ?_, ?_⟩
    · simp [h.len]
    · simp [h.size]
    · omega
    · exact hp
    · intro i hi
      have := h.full i (by simp; omega)
      simp only [hp]
      rw [List.getElem?_set_ne, this, List.getElem_append_left hi]
      intro he
      have := wrap_inj hst (by omega) (by omega) he
      omega
    · intro i hi1 hi2
      simp only [hp]
      by_cases he : i = xs.length
      · subst he
        exact ⟨x.2.2, by rw [List.getElem?_set_self hlt]⟩
      · rw [List.getElem?_set_ne]
        · exact h.vacant i (by simp; omega) hi2
        · intro hh
          have := wrap_inj hst (by omega) (by omega) hh
          omega

theorem eq_snoc {γ : Type} (xs : List γ) (h : xs ≠ []) : ∃ ys y, xs = ys ++ [y] :=
  ⟨xs.dropLast, xs.getLast h, (List.dropLast_concat_getLast h).symm⟩

theorem Ring.take_repr {max : Nat} {r : Ring β} {xs : Idle Unit β} (h : Ring.Repr max r xs) :
    ∃ r', r.take = some ((takeNewest () xs).map (·.1), r') ∧
      Ring.Repr max r' (((takeNewest () xs).map (·.2)).getD xs) := by
  unfold Ring.Repr at h
  by_cases hm : max = 0
  · rw [if_pos hm] at h
    obtain ⟨h1, h2, h3⟩ := h
    subst h3
    refine ⟨r, by simp [Ring.take, h2, takeNewest], ?_⟩
    simp [Ring.Repr, hm, takeNewest, h1, h2]
  · rw [if_neg hm] at h
    obtain ⟨start, h⟩ := h
    by_cases hx : xs = []
    · subst hx
      have hs := h.size
      refine ⟨r, by simp [Ring.take, hs, takeNewest], ?_⟩
      simp only [Ring.Repr, hm, if_false, takeNewest]
      exact ⟨start, h⟩
    · obtain ⟨ys, y, rfl⟩ := eq_snoc xs hx
      obtain ⟨h1, h2⟩ := h.pop
      rw [takeNewest_snoc]
      have hs := h.size
      refine ⟨_, by simp [Ring.take, hs, h1]; rfl, ?_⟩
      simp only [Ring.Repr, hm, if_false]
      refine ⟨start, ?_⟩
      rw [hs] at h2
      simpa using h2

theorem Ring.clearGo_repr {max start : Nat} : ∀ (n : Nat) {r : Ring β} {xs : Idle Unit β},
    xs.length = n → RingRepr max r start xs →
    ∃ ev r', Ring.clearGo n r = some (ev, r') ∧ ev.Perm (xs.map (·.2.1)) ∧
      RingRepr max r' start [] := by
  intro n
  induction n with
  | zero =>
    intro r xs hn h
    have : xs = [] := List.eq_nil_of_length_eq_zero hn
    subst this
    exact ⟨[], r, rfl, List.Perm.refl _, h⟩
  | succ n ih =>
    intro r xs hn h
    obtain ⟨ys, y, rfl⟩ := eq_snoc xs (by intro hc; simp [hc] at hn)
    obtain ⟨h1, h2⟩ := h.pop
    obtain ⟨ev, r', h3, h4, h5⟩ := ih (by simp at hn; exact hn) h2
    refine ⟨y.2.1 :: ev, r', ?_, ?_, h5⟩
    · simp [Ring.clearGo, h1, h3]
    · rw [List.map_append]
      exact (List.Perm.cons _ h4).trans (List.perm_append_comm (l₁ := [y.2.1]))

theorem Ring.clear_repr {max : Nat} {r : Ring β} {xs : Idle Unit β} (h : Ring.Repr max r xs) :
    ∃ ev r', r.clear = some (ev, r') ∧ ev.Perm (xs.map (·.2.1)) ∧ Ring.Repr max r' [] := by
  unfold Ring.Repr at h
  by_cases hm : max = 0
  · rw [if_pos hm] at h
    obtain ⟨h1, h2, h3⟩ := h
    subst h3
    refine ⟨[], r, by simp [Ring.clear, h2, Ring.clearGo], List.Perm.refl _, ?_⟩
    simp [Ring.Repr, hm, h1, h2]
  · rw [if_neg hm] at h
    obtain ⟨start, h⟩ := h
    obtain ⟨ev, r', h1, h2, h3⟩ := Ring.clearGo_repr xs.length rfl h
    refine ⟨ev, r', by rw [Ring.clear, h.size]; exact h1, h2, ?_⟩
    simp only [Ring.Repr, hm, if_false]
    exact ⟨start, h3⟩

/-- Removing the oldest slot. -/
theorem RingRepr.shift {max start : Nat} {r : Ring β} {xs : Idle Unit β} {x : Unit × β × Option Nat}
    (h : RingRepr max r start (x :: xs)) :
    r.slots[start]? = some (some x.2.1, x.2.2) ∧
    RingRepr max
      { slots := r.slots.set start (none, x.2.2), fin := r.fin, size := r.size - 1 }
      (if start + 1 = max then 0 else start + 1) xs := by
  have hle := h.le
  have hst := h.starts
  simp only [List.length_cons] at hle
  have hw0 : wrap max (start + 0) = start := by simp [wrap, hst]
  have h0 := h.full 0 (by simp)
  rw [hw0] at h0
  have hidx : ∀ i, i < max →
      wrap max ((if start + 1 = max then 0 else start + 1) + i) =
        if i + 1 < max then wrap max (start + (i + 1)) else start := by
    intro i hi
    simp only [wrap]
    repeat' split
    all_goals omega
  refine ⟨by simpa using h0, ?_, ?_, ?_, ?_, ?_, ?_, ?_⟩
  · simp [h.len]
  · simp [h.size]
  · omega
  · split <;> omega
  · have hf := h.fin
    show r.fin = _
    simp only [List.length_cons, wrap] at hf ⊢
    rw [hf]
    repeat' split
    all_goals omega
  · intro i hi
    rw [hidx i (by omega), if_pos (by omega)]
    have := h.full (i + 1) (by simp; omega)
    show (r.slots.set start _)[_]? = _
    rw [List.getElem?_set_ne, this]
    · simp
    · intro he
      have := wrap_inj hst (i := 0) (j := i + 1) (by omega) (by omega) (by rw [hw0]; exact he)
      omega
  · intro i hi1 hi2
    rw [hidx i hi2]
    show ∃ d, (r.slots.set start _)[_]? = _
    by_cases hn : i + 1 < max
    · rw [if_pos hn, List.getElem?_set_ne]
      · exact h.vacant (i + 1) (by simp; omega) hn
      · intro he
        have := wrap_inj hst (i := 0) (j := i + 1) (by omega) (by omega) (by rw [hw0]; exact he)
        omega
    · rw [if_neg hn]
      exact ⟨x.2.2, by rw [List.getElem?_set_self (by rw [h.len]; exact hst)]⟩

theorem Ring.cleanGo_repr (now : Nat) {max : Nat} : ∀ (xs : Idle Unit β) {r : Ring β} {start : Nat},
    RingRepr max r start xs →
    ∃ r' start', Ring.cleanGo now xs.length start r = some
        { evicted := (xs.takeWhile (tooOld now)).map (·.2.1)
          schedule := (xs.dropWhile (tooOld now)).head?.map (·.2.2)
          pool := r' } ∧
      RingRepr max r' start' (xs.dropWhile (tooOld now)) := by
  intro xs
  induction xs with
  | nil => intro r start h; exact ⟨r, start, rfl, h⟩
  | cons x xs ih =>
    intro r start h
    obtain ⟨h1, h2⟩ := h.shift
    simp only [List.length_cons, Ring.cleanGo, h1]
    rw [later_eq]
    cases ho : tooOld now x with
    | false =>
      refine ⟨r, start, ?_, ?_⟩
      · simp [ho]
      · simpa [ho] using h
    | true =>
      obtain ⟨r', start', h3, h4⟩ := ih h2
      refine ⟨r', start', ?_, ?_⟩
      · rw [h.len]; simp [ho, h3]
      · simpa [ho] using h4

theorem Ring.clean_repr (now : Nat) {max : Nat} {r : Ring β} {xs : Idle Unit β}
    (h : Ring.Repr max r xs) :
    ∃ r', r.clean now = some
        { evicted := (xs.takeWhile (tooOld now)).map (·.2.1)
          schedule := (xs.dropWhile (tooOld now)).head?.map (·.2.2)
          pool := r' } ∧
      Ring.Repr max r' (xs.dropWhile (tooOld now)) := by
  unfold Ring.Repr at h
  by_cases hm : max = 0
  · rw [if_pos hm] at h
    obtain ⟨h1, h2, h3⟩ := h
    subst h3
    refine ⟨r, by simp [Ring.clean, h2, Ring.cleanGo], ?_⟩
    simp [Ring.Repr, hm, h1, h2]
  · rw [if_neg hm] at h
    obtain ⟨start, h⟩ := h
    obtain ⟨r', start', h1, h2⟩ := Ring.cleanGo_repr now xs h
    refine ⟨r', ?_, ?_⟩
    · have hs : (if r.fin < r.size then r.fin + r.slots.length else r.fin) - r.size = start ∨
          xs.length = 0 := by
        have hf := h.fin; have hz := h.size; have hst := h.starts; have hle := h.le
        simp only [wrap] at hf
        rw [hf, hz, h.len]
        repeat' split
        all_goals omega
      rw [Ring.clean, h.size] at *
      rcases hs with hs | hs
      · rw [hs]; exact h1
      · have : xs = [] := List.eq_nil_of_length_eq_zero hs
        subst this
        simp only [List.length_nil, Ring.cleanGo] at h1 ⊢
        exact h1
    · simp only [Ring.Repr, hm, if_false]; exact ⟨start', h2⟩

theorem Ring.put_repr (b : β) (d : Option Nat) {max : Nat} {r : Ring β} {xs : Idle Unit β}
    (h : Ring.Repr max r xs) :
    ∃ r', r.put b d = some
        { evicted := (putNewest max ((), b, d) xs).1
          schedule := if (putNewest max ((), b, d) xs).2.length = 1 then d else none
          pool := r' } ∧
      Ring.Repr max r' (putNewest max ((), b, d) xs).2 := by
  unfold Ring.Repr at h
  by_cases hm : max = 0
  · rw [if_pos hm] at h
    obtain ⟨h1, h2, h3⟩ := h
    subst h3; subst hm
    refine ⟨r, by simp [Ring.put, h1, putNewest], ?_⟩
    simp [Ring.Repr, h1, h2, putNewest]
  · rw [if_neg hm] at h
    obtain ⟨start, h⟩ := h
    have hst := h.starts; have hle := h.le; have hlen := h.len; have hz := h.size
    have hfin := h.fin
    have hfl : r.fin < r.slots.length := by
      rw [hlen, hfin]; simp only [wrap]; split <;> omega
    by_cases hfull : xs.length < max
    · obtain ⟨e, he⟩ := h.vacant xs.length (by omega) hfull
      rw [← hfin] at he
      have hpn : putNewest max ((), b, d) xs = (none, xs ++ [((), b, d)]) := by
        simp [putNewest]; omega
      rw [hpn]
      refine ⟨{ slots := r.slots.set r.fin (some b, d),
                fin := if r.fin + 1 = r.slots.length then 0 else r.fin + 1,
                size := r.size + 1 }, ?_, ?_⟩
      · have e1 : (if xs.length < r.slots.length then xs.length + 1 else xs.length) =
            xs.length + 1 := if_pos (by omega)
        have e2 : (if 1 < xs.length + 1 then none else d) =
            if (xs ++ [((), b, d)]).length = 1 then d else none := by
          simp only [List.length_append, List.length_singleton]
          repeat' split
          all_goals first | rfl | omega
        simp only [Ring.put, if_neg (by omega : ¬ r.slots.length = 0), he, hz, e1, e2]
      · simp only [Ring.Repr, hm, if_false]
        refine ⟨start, ?_, ?_, ?_, hst, ?_, ?_, ?_⟩
        · simp [hlen]
        · simp [hz]
        · simp; omega
        · simp only [List.length_append, List.length_singleton, hlen, hfin, wrap]
          repeat' split
          all_goals omega
        · intro i hi
          simp only [List.length_append, List.length_singleton] at hi
          show (r.slots.set r.fin _)[_]? = _
          by_cases hx : i = xs.length
          · subst hx
            rw [← hfin, List.getElem?_set_self hfl]; simp
          · rw [hfin, List.getElem?_set_ne, h.full i (by omega)]
            · rw [List.getElem_append_left (by omega)]
            · intro hh
              have := wrap_inj hst (by omega) (by omega) hh; omega
        · intro i hi1 hi2
          simp only [List.length_append, List.length_singleton] at hi1
          show ∃ d, (r.slots.set r.fin _)[_]? = _
          rw [hfin, List.getElem?_set_ne]
          · exact h.vacant i (by omega) hi2
          · intro hh
            have := wrap_inj hst (by omega) (by omega) hh; omega
    · cases xs with
      | nil => simp at hfull; omega
      | cons x xs =>
        simp only [List.length_cons] at hfull hle hz hfin
        have hfs : r.fin = start := by rw [hfin]; simp only [wrap]; split <;> omega
        obtain ⟨he, hsh⟩ := h.shift
        have hpn : putNewest max ((), b, d) (x :: xs) = (some x.2.1, xs ++ [((), b, d)]) := by
          simp [putNewest]; omega
        rw [hpn]
        refine ⟨{ slots := r.slots.set r.fin (some b, d),
                  fin := if r.fin + 1 = r.slots.length then 0 else r.fin + 1,
                  size := r.size }, ?_, ?_⟩
        · have e1 : (if xs.length + 1 < r.slots.length then xs.length + 1 + 1 else xs.length + 1) =
              xs.length + 1 := if_neg (by omega)
          have e2 : (if 1 < xs.length + 1 then none else d) =
              if (xs ++ [((), b, d)]).length = 1 then d else none := by
            simp only [List.length_append, List.length_singleton]
            repeat' split
            all_goals first | rfl | omega
          simp only [Ring.put, if_neg (by omega : ¬ r.slots.length = 0), hfs, he, hz, e1, e2]
        · simp only [Ring.Repr, hm, if_false]
          have hst' := hsh.starts
          refine ⟨if start + 1 = max then 0 else start + 1, ?_, ?_, ?_, hst', ?_, ?_, ?_⟩
          · simp [hlen]
          · simp [hz]
          · simp; omega
          · simp only [List.length_append, List.length_singleton, hlen, hfs, wrap]
            repeat' split
            all_goals omega
          · intro i hi
            simp only [List.length_append, List.length_singleton] at hi
            show (r.slots.set r.fin _)[_]? = _
            by_cases hx : i = xs.length
            · subst hx
              have : wrap max ((if start + 1 = max then 0 else start + 1) + xs.length) = r.fin := by
                rw [hfs]; simp only [wrap]
                repeat' split
                all_goals omega
              rw [this, List.getElem?_set_self hfl]; simp
            · have hf := hsh.full i (by omega)
              have hne : r.fin ≠ wrap max ((if start + 1 = max then 0 else start + 1) + i) := by
                rw [hfs]; simp only [wrap]
                repeat' split
                all_goals omega
              rw [List.getElem?_set_ne hne]
              have hf' : (r.slots.set start (none, x.2.2))[
                  wrap max ((if start + 1 = max then 0 else start + 1) + i)]? = _ := hf
              rw [List.getElem?_set_ne (fun hh => hne (hfs.trans hh))] at hf'
              rw [hf', List.getElem_append_left (by omega)]
          · intro i hi1 hi2
            simp only [List.length_append, List.length_singleton] at hi1
            omega

/-- `RecyclingPool` implements the specification. -/
def ring_correct (β : Type) : (ring β).Correct where
  Repr := Ring.Repr
  new := Ring.new_repr
  take := fun _ h => Ring.take_repr h
  put := fun _ b d h => Ring.put_repr b d h
  clear := fun h => Ring.clear_repr h
  clean := fun now h => Ring.clean_repr now h

end Riegeli.Pool

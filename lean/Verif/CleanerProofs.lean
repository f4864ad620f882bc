import Verif.BackgroundCleaner

/-!
# Proofs about `BackgroundCleaner` (C49)
-/

namespace Riegeli.Pool

/-- The identities of entries. -/
def ids (es : List Entry) : List Nat := es.map (·.pool)

theorem ids_append (X Y : List Entry) : ids (X ++ Y) = ids X ++ ids Y := by simp [ids]

theorem ids_cons (e : Entry) (X : List Entry) : ids (e :: X) = e.pool :: ids X := rfl

theorem find_mid {X Y : List Entry} {e : Entry} (h : e.pool ∉ ids X) :
    findEntry e.pool (X ++ e :: Y) = some e := by
  induction X with
  | nil => simp [findEntry]
  | cons x X ih =>
    simp only [ids_cons, List.mem_cons, not_or] at h
    have := ih h.2
    simp only [findEntry] at this ⊢
    rw [List.cons_append, List.find?_cons]
    have hx : (x.pool == e.pool) = false := by simpa using fun hh => h.1 hh.symm
    simp [hx, this]

theorem before_mid {X Y : List Entry} {e : Entry} (h : e.pool ∉ ids X) :
    before (some e.pool) (X ++ e :: Y) = X := by
  induction X with
  | nil => simp [before]
  | cons x X ih =>
    simp only [ids_cons, List.mem_cons, not_or] at h
    have := ih h.2
    simp only [before] at this ⊢
    rw [List.cons_append, List.takeWhile_cons]
    have hx : (some x.pool != some e.pool) = true := by simpa using fun hh => h.1 hh.symm
    simp only [hx, if_true, this]

theorem fromPos_mid {X Y : List Entry} {e : Entry} (h : e.pool ∉ ids X) :
    fromPos (some e.pool) (X ++ e :: Y) = e :: Y := by
  induction X with
  | nil => simp [fromPos]
  | cons x X ih =>
    simp only [ids_cons, List.mem_cons, not_or] at h
    have := ih h.2
    simp only [fromPos] at this ⊢
    rw [List.cons_append, List.dropWhile_cons]
    have hx : (some x.pool != some e.pool) = true := by simpa using fun hh => h.1 hh.symm
    simp only [hx, if_true, this]

theorem before_end (X : List Entry) : before none X = X := by
  induction X with
  | nil => rfl
  | cons x X ih => simp only [before] at ih ⊢; rw [List.takeWhile_cons]; simp [ih]

theorem fromPos_end (X : List Entry) : fromPos none X = [] := by
  induction X with
  | nil => rfl
  | cons x X ih => simp only [fromPos] at ih ⊢; rw [List.dropWhile_cons]; simp [ih]

/-- Splitting at the iterator to the beginning of the second part. -/
theorem before_headId {X Y : List Entry} (h : (ids (X ++ Y)).Nodup) :
    before (headId Y) (X ++ Y) = X := by
  cases Y with
  | nil => simp [headId, before_end]
  | cons y Y =>
    refine before_mid ?_
    rw [ids_append, ids_cons, List.nodup_append] at h
    intro hh
    exact h.2.2 _ hh y.pool (by simp) rfl

theorem fromPos_headId {X Y : List Entry} (h : (ids (X ++ Y)).Nodup) :
    fromPos (headId Y) (X ++ Y) = Y := by
  cases Y with
  | nil => simp [headId, fromPos_end]
  | cons y Y =>
    refine fromPos_mid ?_
    rw [ids_append, ids_cons, List.nodup_append] at h
    intro hh
    exact h.2.2 _ hh y.pool (by simp) rfl

theorem erase_notMem {X : List Entry} {p : Nat} (h : p ∉ ids X) : eraseEntry p X = X := by
  simp only [eraseEntry]
  rw [List.filter_eq_self]
  intro x hx
  have : x.pool ≠ p := by
    intro hh; exact h (hh ▸ List.mem_map_of_mem hx)
  simpa using this

theorem erase_mid {X Y : List Entry} {e : Entry} (h : (ids (X ++ e :: Y)).Nodup) :
    eraseEntry e.pool (X ++ e :: Y) = X ++ Y := by
  rw [ids_append, ids_cons, List.nodup_append, List.nodup_cons] at h
  have h1 : e.pool ∉ ids X := fun hh => h.2.2 _ hh e.pool (by simp) rfl
  have : eraseEntry e.pool (X ++ e :: Y) = eraseEntry e.pool X ++ eraseEntry e.pool Y := by
    simp [eraseEntry]
  rw [this, erase_notMem h1, erase_notMem h.2.1.1]

theorem set_notMem {X : List Entry} {p : Nat} {d : Option Nat} (h : p ∉ ids X) :
    setDeadline p d X = X := by
  simp only [setDeadline]
  conv => rhs; rw [← List.map_id X]
  refine List.map_congr_left ?_
  intro x hx
  have : x.pool ≠ p := by
    intro hh; exact h (hh ▸ List.mem_map_of_mem hx)
  simp [this]

theorem set_append (p : Nat) (d : Option Nat) (X Y : List Entry) :
    setDeadline p d (X ++ Y) = setDeadline p d X ++ setDeadline p d Y := by
  simp [setDeadline]

theorem set_mid {X Y : List Entry} {e : Entry} {d : Option Nat}
    (h : (ids (X ++ e :: Y)).Nodup) :
    setDeadline e.pool d (X ++ e :: Y) = X ++ { e with deadline := d } :: Y := by
  rw [ids_append, ids_cons, List.nodup_append, List.nodup_cons] at h
  have h1 : e.pool ∉ ids X := fun hh => h.2.2 _ hh e.pool (by simp) rfl
  rw [set_append, set_notMem h1]
  have : setDeadline e.pool d (e :: Y) = { e with deadline := d } :: setDeadline e.pool d Y := by
    simp [setDeadline]
  rw [this, set_notMem h.2.1.1]

theorem erase_at {X Y : List Entry} {e : Entry} {p : Nat} (he : e.pool = p)
    (h : (ids (X ++ e :: Y)).Nodup) : eraseEntry p (X ++ e :: Y) = X ++ Y := he ▸ erase_mid h

theorem set_at {X Y : List Entry} {e : Entry} {d : Option Nat} {p : Nat} (he : e.pool = p)
    (h : (ids (X ++ e :: Y)).Nodup) :
    setDeadline p d (X ++ e :: Y) = X ++ { pool := p, deadline := d } :: Y := by
  subst he; exact set_mid h

/-! ## The partition of the entries -/

/-- An entry without pending cleaning. -/
def idle (p : Nat) : Entry := { pool := p, deadline := none }

/-- An entry with pending cleaning. -/
def busy (x : Nat × Nat) : Entry := { pool := x.1, deadline := some x.2 }

theorem ids_idle (A : List Nat) : ids (A.map idle) = A := by
  simp only [ids, List.map_map]
  conv => rhs; rw [← List.map_id A]
  exact List.map_congr_left fun _ _ => rfl

theorem ids_busy (P : List (Nat × Nat)) : ids (P.map busy) = P.map (·.1) := by
  simp only [ids, List.map_map]
  exact List.map_congr_left fun _ _ => rfl

/-- The cleaner has the pools `A` without pending cleaning, and those in `P` with it. -/
structure CInv (c : Cleaner) (A : List Nat) (P : List (Nat × Nat)) : Prop where
  entries : c.entries = A.map idle ++ P.map busy
  next : c.next = headId (P.map busy)
  sorted : P.Pairwise (fun x y => x.2 ≤ y.2)
  nodup : (A ++ P.map (·.1)).Nodup

theorem ids_all (A : List Nat) (P : List (Nat × Nat)) :
    ids (A.map idle ++ P.map busy) = A ++ P.map (·.1) := by
  rw [ids_append, ids_idle, ids_busy]

theorem CInv.new : CInv Cleaner.new [] [] := ⟨rfl, rfl, .nil, .nil⟩

variable {c : Cleaner} {A : List Nat} {P : List (Nat × Nat)}

theorem CInv.register (h : CInv c A P) {p : Nat} (hp : p ∉ A ++ P.map (·.1)) :
    CInv (c.register p) (p :: A) P := by
  refine ⟨?_, h.next, h.sorted, ?_⟩
  · simp [Cleaner.register, h.entries, idle]
  · rw [List.cons_append, List.nodup_cons]; exact ⟨hp, h.nodup⟩

theorem CInv.next_eq (h : CInv c A P) : c.next = P.head?.map (·.1) := by
  rw [h.next]; cases P <;> rfl

theorem CInv.next_none (h : CInv c A P) : c.next = none ↔ P = [] := by
  rw [h.next_eq]; cases P <;> simp

theorem notMem_of_nodup_mid {X Y : List Nat} {p : Nat} (h : (X ++ p :: Y).Nodup) :
    p ∉ X ∧ p ∉ Y := by
  rw [List.nodup_append, List.nodup_cons] at h
  exact ⟨fun hh => h.2.2 _ hh p (by simp) rfl, h.2.1.1⟩

theorem filter_ne_self {A : List Nat} {p : Nat} (h : p ∉ A) : A.filter (fun q => q != p) = A := by
  rw [List.filter_eq_self]
  intro x hx
  have : x ≠ p := by intro hh; exact h (hh ▸ hx)
  simpa using this

theorem filter_ne_selfP {P : List (Nat × Nat)} {p : Nat} (h : p ∉ P.map (·.1)) :
    P.filter (fun q => q.1 != p) = P := by
  rw [List.filter_eq_self]
  intro x hx
  have : x.1 ≠ p := by intro hh; exact h (hh ▸ List.mem_map_of_mem hx)
  simpa using this

/-- A registered pool without pending cleaning. -/
theorem CInv.splitA (h : CInv c A P) {p : Nat} (hp : p ∈ A) :
    ∃ X Y, A = X ++ p :: Y ∧ p ∉ X ++ Y ∧ p ∉ P.map (·.1) ∧
      findEntry p c.entries = some (idle p) := by
  obtain ⟨X, Y, rfl⟩ := List.append_of_mem hp
  have hn := h.nodup
  rw [List.append_assoc, List.cons_append] at hn
  have h1 := notMem_of_nodup_mid hn
  refine ⟨X, Y, rfl, ?_, ?_, ?_⟩
  · simp only [List.mem_append, not_or] at h1 ⊢; exact ⟨h1.1, h1.2.1⟩
  · simp only [List.mem_append, not_or] at h1; exact h1.2.2
  · rw [h.entries]
    have : X ++ p :: Y = X ++ p :: Y := rfl
    rw [List.map_append, List.map_cons, List.append_assoc, List.cons_append]
    exact find_mid (e := idle p) (by rw [ids_idle]; exact h1.1)

/-- A registered pool with pending cleaning. -/
theorem CInv.splitP (h : CInv c A P) {p d : Nat} (hp : (p, d) ∈ P) :
    ∃ X Y, P = X ++ (p, d) :: Y ∧ p ∉ A ++ X.map (·.1) ∧ p ∉ Y.map (·.1) ∧
      findEntry p c.entries = some (busy (p, d)) := by
  obtain ⟨X, Y, rfl⟩ := List.append_of_mem hp
  have hn := h.nodup
  rw [List.map_append, List.map_cons, ← List.append_assoc] at hn
  have h1 := notMem_of_nodup_mid hn
  refine ⟨X, Y, rfl, h1.1, h1.2, ?_⟩
  rw [h.entries, List.map_append, List.map_cons, ← List.append_assoc]
  exact find_mid (e := busy (p, d)) (by rw [ids_all]; exact h1.1)

theorem CInv.registered_cases {p : Nat} (hp : p ∈ A ++ P.map (·.1)) :
    p ∈ A ∨ ∃ d, (p, d) ∈ P := by
  simp only [List.mem_append, List.mem_map] at hp
  rcases hp with hp | ⟨x, hx, rfl⟩
  · exact .inl hp
  · exact .inr ⟨x.2, hx⟩

theorem nodup_sub {X Y X' Y' : List Nat} (h : (X ++ Y).Nodup) (h1 : X'.Sublist X)
    (h2 : Y'.Sublist Y) : (X' ++ Y').Nodup := h.sublist (h1.append h2)

/-- `Unregister()`. -/
theorem CInv.unregister (h : CInv c A P) {p : Nat} (hp : p ∈ A ++ P.map (·.1)) :
    ∃ c', c.unregister p = some c' ∧
      CInv c' (A.filter (fun q => q != p)) (P.filter (fun q => q.1 != p)) ∧
      c'.current = c.current ∧ c'.reduced = c.reduced ∧ c'.noThread = c.noThread := by
  rcases CInv.registered_cases hp with hp | ⟨d, hp⟩
  · obtain ⟨X, Y, rfl, hXY, hP, hf⟩ := h.splitA hp
    have hne : c.next ≠ some p := by
      rw [h.next_eq]
      intro hh
      cases P with
      | nil => simp at hh
      | cons x P => simp at hh; exact hP (by simp [hh])
    refine ⟨{ c with
        next := if c.next = some p then after p c.entries else c.next
        entries := eraseEntry p c.entries },
      by simp only [Cleaner.unregister, hf], ⟨?_, ?_, ?_, ?_⟩, rfl, rfl, rfl⟩
    · show eraseEntry p c.entries = _
      rw [filter_ne_selfP hP]
      have e1 : List.filter (fun q => q != p) (X ++ p :: Y) = X ++ Y := by
        simp only [List.mem_append, not_or] at hXY
        simp [filter_ne_self hXY.1, filter_ne_self hXY.2]
      rw [e1, h.entries, List.map_append, List.map_cons, List.append_assoc, List.cons_append,
        erase_at (e := idle p) (p := p) rfl]
      · simp [idle]
      · have := h.nodup
        rw [← ids_all] at this
        simpa using this
    · show (if c.next = some p then after p c.entries else c.next) = _
      rw [if_neg hne, filter_ne_selfP hP]; exact h.next
    · exact h.sorted.filter _
    · exact nodup_sub h.nodup List.filter_sublist (List.filter_sublist.map _)
  · obtain ⟨X, Y, rfl, hX, hY, hf⟩ := h.splitP hp
    simp only [List.mem_append, not_or] at hX
    have e1 : List.filter (fun q : Nat × Nat => q.1 != p) (X ++ (p, d) :: Y) = X ++ Y := by
      simp [filter_ne_selfP hX.2, filter_ne_selfP hY]
    refine ⟨{ c with
        next := if c.next = some p then after p c.entries else c.next
        entries := eraseEntry p c.entries },
      by simp only [Cleaner.unregister, hf], ⟨?_, ?_, ?_, ?_⟩, rfl, rfl, rfl⟩
    · show eraseEntry p c.entries = _
      rw [e1, filter_ne_self hX.1, h.entries, List.map_append, List.map_cons, ← List.append_assoc,
        erase_at (e := busy (p, d)) (p := p) rfl]
      · simp
      · have := h.nodup
        rw [← ids_all] at this
        simpa using this
    · rw [e1]
      show (if c.next = some p then after p c.entries else c.next) = _
      rw [h.next_eq]
      cases X with
      | nil =>
        simp only [List.nil_append, List.head?_cons, Option.map_some, if_true]
        rw [h.entries]
        simp only [List.nil_append, List.map_cons]
        show after (busy (p, d)).pool _ = _
        rw [after, fromPos_mid]
        · rfl
        · rw [ids_idle]; exact hX.1
      | cons x X =>
        have : x.1 ≠ p := by
          intro hh; exact hX.2 (by simp [hh])
        simp [this, headId, busy]
    · exact h.sorted.filter _
    · exact nodup_sub h.nodup List.filter_sublist (List.filter_sublist.map _)

/-- `CancelCleaning()`. -/
theorem CInv.cancel (h : CInv c A P) {p : Nat} (hp : p ∈ A ++ P.map (·.1)) :
    ∃ c' A', c.cancel p = some c' ∧ CInv c' A' (P.filter (fun q => q.1 != p)) ∧
      (∀ q, q ∈ A' ↔ q ∈ A ∨ q = p) ∧
      c'.current = c.current ∧ c'.reduced = c.reduced ∧ c'.noThread = c.noThread := by
  rcases CInv.registered_cases hp with hp | ⟨d, hp⟩
  · obtain ⟨X, Y, hA, hXY, hP, hf⟩ := h.splitA hp
    refine ⟨c, A, by simp [Cleaner.cancel, hf, idle], ?_, ?_, rfl, rfl, rfl⟩
    · rw [filter_ne_selfP hP]; exact h
    · intro q; constructor
      · exact .inl
      · rintro (hq | rfl)
        · exact hq
        · exact hp
  · obtain ⟨X, Y, rfl, hX, hY, hf⟩ := h.splitP hp
    simp only [List.mem_append, not_or] at hX
    have e1 : List.filter (fun q : Nat × Nat => q.1 != p) (X ++ (p, d) :: Y) = X ++ Y := by
      simp [filter_ne_selfP hX.2, filter_ne_selfP hY]
    have hn := h.nodup
    rw [← ids_all] at hn
    have hsorted : (X ++ Y).Pairwise (fun x y => x.2 ≤ y.2) := by
      rw [← e1]; exact h.sorted.filter _
    have hn' : ((A ++ [p]) ++ (X ++ Y).map (·.1)).Nodup := by
      have := h.nodup
      refine this.perm ?_
      simp only [List.map_append, List.map_cons, List.append_assoc, List.cons_append,
        List.nil_append]
      exact (List.perm_middle).append_left A
    have hmem : ∀ q, q ∈ A ++ [p] ↔ q ∈ A ∨ q = p := by intro q; simp
    have hd : (busy (p, d)).deadline ≠ none := by simp [busy]
    cases X with
    | nil =>
      have hnx : c.next = some p := by rw [h.next_eq]; rfl
      refine ⟨{ c with next := after p c.entries, entries := setDeadline p none c.entries },
        A ++ [p], by simp only [Cleaner.cancel, hf, if_neg hd, if_pos hnx],
        ⟨?_, ?_, ?_, ?_⟩, hmem, rfl, rfl, rfl⟩
      · show setDeadline p none c.entries = _
        rw [e1, h.entries]
        simp only [List.nil_append, List.map_cons] at hn ⊢
        show setDeadline (busy (p, d)).pool none _ = _
        rw [set_mid hn]
        simp [busy, idle]
      · show after p c.entries = _
        rw [e1, h.entries]
        simp only [List.nil_append, List.map_cons]
        show after (busy (p, d)).pool _ = _
        rw [after, fromPos_mid]
        · rfl
        · rw [ids_idle]; exact hX.1
      · rw [e1]; exact hsorted
      · rw [e1]; exact hn'
    | cons x X =>
      have hxp : x.1 ≠ p := by
        intro hh; exact hX.2 (by simp [hh])
      have hnx : c.next = some x.1 := by rw [h.next_eq]; rfl
      have hne : c.next ≠ some p := by rw [hnx]; simpa using hxp
      refine ⟨{ c with entries := setDeadline p none (splice c.next (busy (p, d)) c.entries) },
        A ++ [p], by simp only [Cleaner.cancel, hf, if_neg hd, if_neg hne],
        ⟨?_, ?_, ?_, ?_⟩, hmem, rfl, rfl, rfl⟩
      · show setDeadline p none (splice c.next (busy (p, d)) c.entries) = _
        have hne' : ¬ c.next = some (busy (p, d)).pool := hne
        rw [e1, splice, if_neg hne', h.entries]
        have e2 : eraseEntry (busy (p, d)).pool
            (A.map idle ++ (x :: X ++ (p, d) :: Y).map busy)
            = A.map idle ++ (x :: X ++ Y).map busy := by
          have := erase_mid (X := A.map idle ++ (x :: X).map busy) (e := busy (p, d))
            (Y := Y.map busy) (by simpa using hn)
          simpa using this
        have hn2 : (ids (A.map idle ++ (x :: X ++ Y).map busy)).Nodup := by
          rw [ids_all]
          exact nodup_sub hn' (List.sublist_append_left _ _) (List.Sublist.refl _)
        have e3 : c.next = headId ((x :: X ++ Y).map busy) := by rw [hnx]; rfl
        rw [e2, e3, before_headId hn2, fromPos_headId hn2]
        rw [set_at (X := A.map idle) (e := busy (p, d)) (Y := (x :: X ++ Y).map busy)
          (d := none) (p := p) rfl (by
            have := hn'
            simpa [ids_append, ids_cons, ids_idle, ids_busy, busy] using this)]
        simp [busy, idle]
      · rw [e1]; show c.next = _; rw [hnx]; rfl
      · rw [e1]; exact hsorted
      · rw [e1]; exact hn'

theorem snoc_of_ne_nil {α : Type} {X : List α} (h : X ≠ []) : ∃ X' x, X = X' ++ [x] := by
  induction X with
  | nil => exact absurd rfl h
  | cons a X ih =>
    cases X with
    | nil => exact ⟨[], a, rfl⟩
    | cons b Y =>
      obtain ⟨X', x, hx⟩ := ih (by simp)
      exact ⟨a :: X', x, by rw [hx]; rfl⟩

/-- The loop of `ScheduleCleaningSlow()` stops inside the entries with pending
cleaning. -/
theorem walk_busy (A : List Nat) (Z : List Entry) (d : Nat) (next : Option Nat) :
    ∀ X : List (Nat × Nat), next = headId (X.map busy ++ Z) →
      (ids (A.map idle ++ (X.map busy ++ Z))).Nodup →
      ∃ Q R, X = Q ++ R ∧ (∀ x ∈ R, d < x.2) ∧ (∀ x ∈ Q.getLast?, x.2 ≤ d) ∧
        walk next d (headId Z) ((A.map idle ++ X.map busy).reverse) =
          some (headId (R.map busy ++ Z), Q.isEmpty) := by
  intro X
  induction h : X.length generalizing X Z with
  | zero =>
    have : X = [] := List.length_eq_zero_iff.mp h
    subst this
    intro hnext _
    refine ⟨[], [], rfl, by simp, by simp, ?_⟩
    simp only [List.map_nil, List.nil_append] at hnext ⊢
    cases hr : (A.map idle ++ []).reverse with
    | nil => simp [walk, hnext]
    | cons a l => simp [walk, hnext]
  | succ n ih =>
    intro hnext hnd
    have hne : X ≠ [] := by intro hh; simp [hh] at h
    obtain ⟨X', x, rfl⟩ := snoc_of_ne_nil hne
    have hlen : X'.length = n := by simpa using h
    have hrev : (A.map idle ++ (X' ++ [x]).map busy).reverse =
        busy x :: (A.map idle ++ X'.map busy).reverse := by simp
    have hcat : (X' ++ [x]).map busy ++ Z = X'.map busy ++ (busy x :: Z) := by simp
    have hstop : ¬ headId Z = next := by
      intro hh
      rw [hcat] at hnd hnext
      have hb : next = headId (X'.map busy ++ (busy x :: Z)) := hnext
      cases Z with
      | nil =>
        rw [← hh] at hb
        cases X' <;> simp [headId] at hb
      | cons z Z =>
        rw [← hh] at hb
        have hz : ∃ y ∈ X'.map busy ++ [busy x], y.pool = z.pool := by
          cases X' with
          | nil => exact ⟨busy x, by simp, by simp [headId] at hb; exact hb.symm⟩
          | cons y Y => exact ⟨busy y, by simp, by simp [headId] at hb; exact hb.symm⟩
        obtain ⟨y, hy, hyz⟩ := hz
        have e5 : ids (A.map idle ++ (X'.map busy ++ busy x :: z :: Z)) =
            ids (A.map idle) ++ (ids (X'.map busy ++ [busy x]) ++ z.pool :: ids Z) := by
          simp [ids]
        rw [e5, List.nodup_append] at hnd
        have := (List.nodup_append.mp hnd.2.1).2.2 z.pool
          (by rw [← hyz]; exact List.mem_map_of_mem hy) z.pool (by simp)
        exact this rfl
    rw [hrev]
    by_cases hd : d < x.2
    · obtain ⟨Q, R, rfl, hR, hQ, hw⟩ := ih (busy x :: Z) X' hlen (by rw [hnext, hcat])
        (by rw [← hcat]; exact hnd)
      refine ⟨Q, R ++ [x], by simp, ?_, hQ, ?_⟩
      · intro y hy
        simp only [List.mem_append, List.mem_singleton] at hy
        rcases hy with hy | rfl
        · exact hR y hy
        · exact hd
      · rw [walk, if_neg hstop]
        have : later (busy x).deadline d = true := by simp [later, busy, hd]
        rw [if_pos this]
        have e6 : headId (busy x :: Z) = some (busy x).pool := rfl
        rw [← e6, hw]
        simp
    · refine ⟨X' ++ [x], [], by simp, by simp, ?_, ?_⟩
      · intro y hy
        simp at hy
        subst hy; omega
      · rw [walk, if_neg hstop]
        have : ¬ later (busy x).deadline d = true := by simp [later, busy, hd]
        rw [if_neg this]
        simp

theorem sorted_insert {Q R : List (Nat × Nat)} {p d : Nat}
    (h : (Q ++ R).Pairwise (fun x y : Nat × Nat => x.2 ≤ y.2)) (hR : ∀ x ∈ R, d < x.2)
    (hQ : ∀ x ∈ Q.getLast?, x.2 ≤ d) :
    (Q ++ (p, d) :: R).Pairwise (fun x y => x.2 ≤ y.2) := by
  rw [List.pairwise_append] at h
  rw [List.pairwise_append, List.pairwise_cons]
  have hQ' : ∀ x ∈ Q, x.2 ≤ d := by
    intro x hx
    have hne : Q ≠ [] := List.ne_nil_of_mem hx
    obtain ⟨Q', y, rfl⟩ := snoc_of_ne_nil hne
    have h1 : y.2 ≤ d := hQ _ (by simp)
    have h3 := h.1
    rw [List.pairwise_append] at h3
    simp only [List.mem_append, List.mem_singleton] at hx
    rcases hx with hx | hx
    · exact Nat.le_trans (h3.2.2 x hx _ (by simp)) h1
    · rw [hx]; exact h1
  refine ⟨h.1, ⟨fun y hy => Nat.le_of_lt (hR y hy), h.2.1⟩, ?_⟩
  intro x hx y hy
  simp only [List.mem_cons] at hy
  rcases hy with rfl | hy
  · exact hQ' x hx
  · exact h.2.2 x hx y hy

/-- What `ScheduleCleaning()` did. -/
structure Scheduled (c c' : Cleaner) (started : Bool) (A A' : List Nat)
    (P P' : List (Nat × Nat)) (p d : Nat) : Prop where
  inv : CInv c' A' P'
  idle : A' = A.filter (fun q => q != p)
  busy : ∃ d', d' ≤ d ∧ P'.Perm ((p, d') :: P.filter (fun q => q.1 != p)) ∧
    (d' = d ∨ (p, d') ∈ P) ∧ ∀ e, (p, e) ∈ P → d' ≤ e
  current : c'.current = c.current
  woken : c'.reduced = true ∨ (c'.reduced = c.reduced ∧ ∃ x ∈ P, x.2 ≤ d)
  thread : (started = false ∧ c'.noThread = c.noThread ∧ ∃ x ∈ P, x.2 ≤ d) ∨
    (c'.noThread = false ∧ started = c.noThread)

/-- `ScheduleCleaning()`. -/
theorem CInv.schedule (h : CInv c A P) {p : Nat} (d : Nat) (hp : p ∈ A ++ P.map (·.1)) :
    ∃ c' started A' P', c.schedule p d = some (c', started) ∧
      Scheduled c c' started A A' P P' p d := by
  rcases CInv.registered_cases hp with hp | ⟨d0, hp⟩
  · obtain ⟨X, Y, rfl, hXY, hP, hf⟩ := h.splitA hp
    have hn := h.nodup
    rw [← ids_all] at hn
    obtain ⟨Q, R, rfl, hR, hQ, hw⟩ := walk_busy (X ++ p :: Y) [] d c.next P
      (by rw [h.next]; simp) (by simpa using hn)
    have hlater : later (Pool.idle p).deadline d = true := rfl
    have hXY' : p ∉ X ∧ p ∉ Y := by simpa [not_or] using hXY
    have hQR : p ∉ Q.map (·.1) ∧ p ∉ R.map (·.1) := by
      rw [List.map_append, List.mem_append, not_or] at hP; exact hP
    have e1 : (X ++ p :: Y).filter (fun q => q != p) = X ++ Y := by
      simp [filter_ne_self hXY'.1, filter_ne_self hXY'.2]
    have hnew : ((X ++ Y) ++ (Q ++ (p, d) :: R).map (·.1)).Nodup := by
      refine h.nodup.perm ?_
      simp only [List.map_append, List.map_cons, List.append_assoc, List.cons_append]
      refine List.Perm.append_left X ?_
      exact ((List.perm_middle.append_left Y).trans List.perm_middle).symm
    have hmapR : headId (R.map Pool.busy ++ []) = headId (R.map Pool.busy) := by simp
    have hpos : ¬ headId (R.map Pool.busy) = some (Pool.idle p).pool := by
      cases R with
      | nil => simp [headId]
      | cons r R =>
        simp [headId, Pool.busy, Pool.idle]
        intro hh; exact hQR.2 (by simp [hh])
    have hsched : c.schedule p d = some (
        { entries := setDeadline p (some d) (splice (headId (R.map Pool.busy)) (Pool.idle p) c.entries)
          next := if Q.isEmpty then some p else c.next
          current := c.current
          reduced := if Q.isEmpty then true else c.reduced
          noThread := false }, c.noThread) := by
      simp only [Cleaner.schedule, hf, hlater, if_true]
      have e7 : (if (Pool.idle p).deadline = none then none else some p) = headId [] := rfl
      rw [e7]
      have e8 : before (headId []) c.entries =
          (X ++ p :: Y).map Pool.idle ++ (Q ++ R).map Pool.busy := by
        rw [← h.entries]; exact before_end _
      rw [e8, hw, hmapR]
    refine ⟨_, _, X ++ Y, Q ++ (p, d) :: R, hsched, ⟨⟨?_, ?_, sorted_insert h.sorted hR hQ, hnew⟩,
      e1.symm, ⟨d, Nat.le_refl _, ?_, .inl rfl, fun e he =>
        absurd (List.mem_map_of_mem (f := (·.1)) he) hP⟩, rfl, ?_, .inr ⟨rfl, rfl⟩⟩⟩
    · show setDeadline p (some d) (splice (headId (R.map Pool.busy)) (Pool.idle p) c.entries) = _
      rw [splice, if_neg hpos, h.entries]
      have e2 : eraseEntry (Pool.idle p).pool
          ((X ++ p :: Y).map Pool.idle ++ (Q ++ R).map Pool.busy) =
          ((X ++ Y).map Pool.idle ++ Q.map Pool.busy) ++ R.map Pool.busy := by
        have := erase_at (X := X.map Pool.idle) (e := Pool.idle p)
          (Y := Y.map Pool.idle ++ (Q ++ R).map Pool.busy) (p := p) rfl (by simpa using hn)
        show eraseEntry p _ = _
        simpa using this
      have hn2 : (ids (((X ++ Y).map Pool.idle ++ Q.map Pool.busy) ++ R.map Pool.busy)).Nodup := by
        have := hnew
        have e9 : ids (((X ++ Y).map Pool.idle ++ Q.map Pool.busy) ++ R.map Pool.busy) =
          (X ++ Y) ++ (Q ++ R).map (·.1) := by
          rw [List.append_assoc, ← List.map_append, ids_all]
        rw [e9]
        refine nodup_sub this (List.Sublist.refl _) (List.Sublist.map _ ?_)
        exact List.Sublist.append_left (List.sublist_cons_self _ _) _
      rw [e2, before_headId hn2, fromPos_headId hn2,
        set_at (e := Pool.idle p) (p := p) rfl (by
          have := hnew
          simpa [ids_append, ids_cons, ids_idle, ids_busy, Pool.idle] using this)]
      simp [Pool.busy]
    · show (if Q.isEmpty then some p else c.next) = _
      cases Q with
      | nil => rfl
      | cons q Q => simp [h.next, headId, Pool.busy]
    · rw [filter_ne_selfP hP]; exact List.perm_middle
    · show (if Q.isEmpty then true else c.reduced) = true ∨
        ((if Q.isEmpty then true else c.reduced) = c.reduced ∧ _)
      cases hq : Q.getLast? with
      | none =>
        have : Q = [] := by simpa using hq
        simp [this]
      | some x =>
        have hx : x ∈ Q := List.mem_of_getLast? hq
        have : Q.isEmpty = false := by cases Q <;> simp at hx ⊢
        right
        rw [this]
        exact ⟨rfl, x, List.mem_append_left _ hx, hQ x hq⟩
  · obtain ⟨X, Y, rfl, hX, hY, hf⟩ := h.splitP hp
    have huniq : ∀ e, (p, e) ∈ X ++ (p, d0) :: Y → e = d0 := by
      intro e he
      simp only [List.mem_append, List.mem_cons, Prod.mk.injEq, true_and] at he hX
      rcases he with he | he | he
      · exact absurd (List.mem_map_of_mem (f := (·.1)) he) (fun hh => hX (.inr hh))
      · exact he
      · exact absurd (List.mem_map_of_mem (f := (·.1)) he) hY
    by_cases hlate : d < d0
    · have hn := h.nodup
      rw [← ids_all] at hn
      have hcat : (X ++ (p, d0) :: Y).map Pool.busy = X.map Pool.busy ++ (Pool.busy (p, d0) :: Y.map Pool.busy) := by
        simp
      obtain ⟨Q, R, rfl, hR, hQ, hw⟩ := walk_busy A (Pool.busy (p, d0) :: Y.map Pool.busy) d c.next X
        (by rw [h.next, hcat]) (by rw [← hcat]; exact hn)
      have hX' : p ∉ A ∧ p ∉ Q.map (·.1) ∧ p ∉ R.map (·.1) := by
        simpa [not_or] using hX
      have e1 : List.filter (fun q : Nat × Nat => q.1 != p) (Q ++ R ++ (p, d0) :: Y) = Q ++ R ++ Y := by
        simp [filter_ne_selfP hX'.2.1, filter_ne_selfP hX'.2.2, filter_ne_selfP hY]
      have hlater : later (Pool.busy (p, d0)).deadline d = true := by
        simp [later, Pool.busy, hlate]
      have hnew : (A ++ (Q ++ (p, d) :: (R ++ Y)).map (·.1)).Nodup := by
        refine h.nodup.perm ?_
        simp only [List.map_append, List.map_cons, List.append_assoc]
        exact List.Perm.append_left A (List.Perm.append_left _ List.perm_middle)
      have hsort : (Q ++ (p, d) :: (R ++ Y)).Pairwise (fun x y => x.2 ≤ y.2) := by
        have h0 := h.sorted
        refine sorted_insert ?_ ?_ hQ
        · rw [← List.append_assoc, ← e1]; exact h0.filter _
        · intro y hy
          simp only [List.mem_append] at hy
          rcases hy with hy | hy
          · exact hR y hy
          · rw [List.pairwise_append, List.pairwise_cons] at h0
            have := h0.2.1.1 y hy
            simp only at this
            omega
      have hsched : c.schedule p d = some (
          { entries := setDeadline p (some d)
              (splice (headId (R.map Pool.busy ++ Pool.busy (p, d0) :: Y.map Pool.busy))
                (Pool.busy (p, d0)) c.entries)
            next := if Q.isEmpty then some p else c.next
            current := c.current
            reduced := if Q.isEmpty then true else c.reduced
            noThread := false }, c.noThread) := by
        simp only [Cleaner.schedule, hf, hlater, if_true]
        have e7 : (if (Pool.busy (p, d0)).deadline = none then none else some p) =
            headId (Pool.busy (p, d0) :: Y.map Pool.busy) := rfl
        rw [e7]
        have e8 : before (headId (Pool.busy (p, d0) :: Y.map Pool.busy)) c.entries =
            A.map Pool.idle ++ (Q ++ R).map Pool.busy := by
          rw [h.entries, hcat, ← List.append_assoc]
          refine before_headId ?_
          rw [List.append_assoc, ← hcat]; exact hn
        rw [e8, hw]
      refine ⟨_, _, A, Q ++ (p, d) :: (R ++ Y), hsched, ⟨⟨?_, ?_, hsort, hnew⟩,
        (filter_ne_self hX'.1).symm, ⟨d, Nat.le_refl _, ?_, .inl rfl, fun e he => by
          have := huniq e he; omega⟩, rfl, ?_, .inr ⟨rfl, rfl⟩⟩⟩
      · show setDeadline p (some d) (splice _ (Pool.busy (p, d0)) c.entries) = _
        cases R with
        | nil =>
          have hpos : headId (List.map Pool.busy [] ++ Pool.busy (p, d0) :: Y.map Pool.busy) =
              some (Pool.busy (p, d0)).pool := rfl
          rw [splice, if_pos hpos, h.entries, hcat, ← List.append_assoc,
            set_at (e := Pool.busy (p, d0)) (p := p) rfl (by
              rw [List.append_assoc, ← hcat]; exact hn)]
          simp [Pool.busy]
        | cons r R =>
          have hrp : ¬ headId ((r :: R).map Pool.busy ++ Pool.busy (p, d0) :: Y.map Pool.busy)
              = some (Pool.busy (p, d0)).pool := by
            simp [headId, Pool.busy]
            intro hh; exact hX'.2.2 (by simp [hh])
          have hhead : headId ((r :: R).map Pool.busy ++ Pool.busy (p, d0) :: Y.map Pool.busy) =
              headId ((r :: R ++ Y).map Pool.busy) := rfl
          rw [splice, if_neg hrp, h.entries, hhead]
          have e2 : eraseEntry (Pool.busy (p, d0)).pool
              (A.map Pool.idle ++ (Q ++ (r :: R) ++ (p, d0) :: Y).map Pool.busy) =
              (A.map Pool.idle ++ Q.map Pool.busy) ++ (r :: R ++ Y).map Pool.busy := by
            have := erase_at (X := A.map Pool.idle ++ (Q ++ (r :: R)).map Pool.busy)
              (e := Pool.busy (p, d0)) (Y := Y.map Pool.busy) (p := p) rfl (by simpa using hn)
            show eraseEntry p _ = _
            simpa using this
          have hn2 : (ids ((A.map Pool.idle ++ Q.map Pool.busy) ++ (r :: R ++ Y).map Pool.busy)).Nodup := by
            have e9 : ids ((A.map Pool.idle ++ Q.map Pool.busy) ++ (r :: R ++ Y).map Pool.busy) =
              A ++ (Q ++ (r :: R ++ Y)).map (·.1) := by
              rw [List.append_assoc, ← List.map_append, ids_all]
            rw [e9]
            refine nodup_sub hnew (List.Sublist.refl _) (List.Sublist.map _ ?_)
            exact List.Sublist.append_left (List.sublist_cons_self _ _) _
          rw [e2, before_headId hn2, fromPos_headId hn2,
            set_at (e := Pool.busy (p, d0)) (p := p) rfl (by
              have := hnew
              simpa [ids_append, ids_cons, ids_idle, ids_busy, Pool.busy] using this)]
          simp [Pool.busy]
      · show (if Q.isEmpty then some p else c.next) = _
        cases Q with
        | nil => rfl
        | cons q Q => simp [h.next, headId, Pool.busy]
      · rw [e1, List.append_assoc]; exact List.perm_middle
      · show (if Q.isEmpty then true else c.reduced) = true ∨
          ((if Q.isEmpty then true else c.reduced) = c.reduced ∧ _)
        cases hq : Q.getLast? with
        | none =>
          have : Q = [] := by simpa using hq
          simp [this]
        | some x =>
          have hx : x ∈ Q := List.mem_of_getLast? hq
          have : Q.isEmpty = false := by cases Q <;> simp at hx ⊢
          right
          rw [this]
          exact ⟨rfl, x, by simp [hx], hQ x hq⟩
    · have hl : ¬ later (Pool.busy (p, d0)).deadline d = true := by simp [later, Pool.busy, hlate]
      have hle : d0 ≤ d := by omega
      simp only [List.mem_append, not_or] at hX
      refine ⟨c, false, A, X ++ (p, d0) :: Y, by simp only [Cleaner.schedule, hf, if_neg hl],
        ⟨h, (filter_ne_self hX.1).symm, ⟨d0, hle, ?_, .inr (by simp), fun e he => by
          have := huniq e he; omega⟩, rfl, .inr ⟨rfl, (p, d0), by simp, hle⟩,
          .inl ⟨rfl, rfl, (p, d0), by simp, hle⟩⟩⟩
      simp only [List.filter_append, List.filter_cons]
      simp [filter_ne_selfP hX.2, filter_ne_selfP hY]

/-- The beginning of the waiting loop. -/
theorem CInv.wait (h : CInv c A P) (hP : P ≠ []) :
    ∃ x Q, P = x :: Q ∧ c.wait = some ({ c with reduced := false }, .waiting (some x.2)) := by
  cases P with
  | nil => exact absurd rfl hP
  | cons x Q =>
    refine ⟨x, Q, rfl, ?_⟩
    obtain ⟨_, _, _, _, _, hf⟩ := h.splitP (p := x.1) (d := x.2) (by simp)
    have : c.next = some x.1 := by rw [h.next_eq]; rfl
    simp only [Cleaner.wait, this, Option.bind_some, hf]
    rfl

/-- The cleaning loop. -/
theorem CInv.inner (h : CInv c A P) (now : Nat) (hP : P ≠ []) :
    ∃ x Q, P = x :: Q ∧
      ((now < x.2 ∧
          c.inner now = some ({ c with reduced := false }, .waiting (some x.2))) ∨
       (x.2 ≤ now ∧ ∃ c', c.inner now = some (c', .cleaning x.1 now) ∧ CInv c' (A ++ [x.1]) Q ∧
          c'.current = some x.1 ∧ c'.reduced = c.reduced ∧ c'.noThread = c.noThread)) := by
  cases P with
  | nil => exact absurd rfl hP
  | cons x Q =>
    refine ⟨x, Q, rfl, ?_⟩
    have hn := h.nodup
    rw [← ids_all] at hn
    obtain ⟨_, _, _, hA, _, hf⟩ := h.splitP (p := x.1) (d := x.2) (by simp)
    have hnx : c.next = some x.1 := by rw [h.next_eq]; rfl
    by_cases hd : now < x.2
    · left
      refine ⟨hd, ?_⟩
      have hl : later (Pool.busy (x.1, x.2)).deadline now = true := by simp [later, Pool.busy, hd]
      simp only [Cleaner.inner, Cleaner.wait, hnx, Option.bind_some, hf, hl, if_true]
      rfl
    · right
      have hl : ¬ later (Pool.busy (x.1, x.2)).deadline now = true := by simp [later, Pool.busy, hd]
      simp only [List.mem_append, not_or] at hA
      refine ⟨by omega, { c with
          entries := setDeadline x.1 none c.entries
          next := after x.1 c.entries
          current := some x.1 }, ?_, ⟨?_, ?_, ?_, ?_⟩, rfl, rfl, rfl⟩
      · simp only [Cleaner.inner, hnx, Option.bind_some, hf, if_neg hl]
        rfl
      · show setDeadline x.1 none c.entries = _
        rw [h.entries, List.map_cons, set_at (e := Pool.busy x) (p := x.1) rfl (by simpa using hn)]
        simp [Pool.idle]
      · show after x.1 c.entries = _
        rw [h.entries, List.map_cons]
        show after (Pool.busy x).pool _ = _
        rw [after, fromPos_mid]
        · rfl
        · rw [ids_idle]; exact hA.1
      · exact (List.pairwise_cons.mp h.sorted).2
      · have := h.nodup
        simpa using this

end Riegeli.Pool

import Verif.TrIncoming
/-!
# Transposed chunks: private lists
-/
namespace Riegeli.Tr

/-- Sorted by the number of transitions. -/
abbrev QSorted (q : List Entry) : Prop := q.Pairwise (fun a b => a.weight ≤ b.weight)

theorem collectPrivate_spec {n a : Nat} : ∀ (ds : List Nat) (T : Nat → TagInfo) (q : List Entry) (excl : Nat)
    (last : Nat × Nat), ds.Nodup → QSorted q →
    ∃ T' q' excl' last' Q X, collectPrivate n a T q excl last ds = (T', q', excl', last') ∧ (Q ++ X).Perm ds ∧
      q'.Perm (Q.map (fun d => ⟨.tag d, (T a).cnt d⟩) ++ q) ∧ QSorted q' ∧
      excl' = excl + (X.map (T a).cnt).sum ∧
      (X = [] → last' = last) ∧ (X ≠ [] → last'.1 ∈ X ∧ last'.2 = (T a).cnt last'.1) ∧
      (∀ d ∈ X, (T a).pos d ≠ some 0) ∧
      (∀ x, ∃ i, T' x = { T x with incoming := i } ∧ (i = (T x).incoming ∨
        (x ∈ Q ∧ (T a).pos x ≠ some 0 ∧ i = (T x).incoming - (T a).cnt x)))
  | [], T, q, excl, last, _, hq =>
    ⟨T, q, excl, last, [], [], rfl, List.Perm.refl _, List.Perm.refl _, hq, by simp, fun _ => rfl, by simp, by simp,
      fun x => ⟨(T x).incoming, rfl, Or.inl rfl⟩⟩
  | d :: ds, T, q, excl, last, hnd, hq => by
    rw [List.nodup_cons] at hnd
    unfold collectPrivate
    simp only
    split
    · rename_i hP
      generalize hT : (if (T a).pos d = some 0 then T
        else updTag T d (fun t => { t with incoming := t.incoming - (T a).cnt d })) = T1
      have hT1 : ∀ x, ∃ i, T1 x = { T x with incoming := i } ∧ (i = (T x).incoming ∨
        (x = d ∧ (T a).pos x ≠ some 0 ∧ i = (T x).incoming - (T a).cnt x)) := by
        intro x
        rw [← hT]
        split
        · exact ⟨(T x).incoming, rfl, Or.inl rfl⟩
        · rename_i hn
          by_cases hx : x = d
          · subst hx; rw [updTag_self]; exact ⟨_, rfl, Or.inr ⟨rfl, hn, rfl⟩⟩
          · rw [updTag_ne _ _ hx]; exact ⟨(T x).incoming, rfl, Or.inl rfl⟩
      have hTa : (T1 a).cnt = (T a).cnt ∧ (T1 a).pos = (T a).pos := by
        obtain ⟨i, h1, _⟩ := hT1 a; rw [h1]; exact ⟨rfl, rfl⟩
      obtain ⟨T', q', excl', last', Q, X, e1, e2, e3, e4, e5, e6, e7, e8, e9⟩ :=
        collectPrivate_spec (n := n) (a := a) ds T1 (pqPush n ⟨.tag d, (T a).cnt d⟩ q) excl last hnd.2 (pqPush_sorted _ _ _ hq)
      rw [hTa.1] at e3 e5 e7
      rw [hTa.2] at e8
      refine ⟨T', q', excl', last', d :: Q, X, e1, ?_, ?_, e4, e5, e6, e7, e8, ?_⟩
      · exact List.Perm.cons d e2
      · refine e3.trans ?_
        refine (List.Perm.append_left _ (pqPush_perm n _ q)).trans ?_
        simp only [List.map_cons, List.cons_append]
        exact List.perm_middle
      · intro x
        obtain ⟨i, f1, f2⟩ := e9 x
        obtain ⟨i1, g1, g2⟩ := hT1 x
        refine ⟨i, by rw [f1, g1], ?_⟩
        rw [g1] at f2
        simp only [hTa.1, hTa.2] at f2
        by_cases hx : x = d
        · have hxQ : x ∉ Q := by
            intro hxQ
            apply hnd.1
            rw [← hx]
            exact e2.mem_iff.1 (List.mem_append_left _ hxQ)
          rcases f2 with f2 | f2
          · rw [f2]
            rcases g2 with g2 | ⟨_, g2⟩
            · exact Or.inl g2
            · exact Or.inr ⟨by rw [hx]; exact List.mem_cons_self, g2⟩
          · exact absurd f2.1 hxQ
        · rcases g2 with g2 | g2
          · rw [g2] at f2
            rcases f2 with f2 | f2
            · exact Or.inl f2
            · exact Or.inr ⟨List.mem_cons_of_mem _ f2.1, f2.2⟩
          · exact absurd g2.1 hx
    · rename_i hP
      obtain ⟨T', q', excl', last', Q, X, e1, e2, e3, e4, e5, e6, e7, e8, e9⟩ :=
        collectPrivate_spec (n := n) (a := a) ds T q (excl + (T a).cnt d) (d, (T a).cnt d) hnd.2 hq
      refine ⟨T', q', excl', last', Q, d :: X, e1, ?_, e3, e4, ?_, by simp, ?_, ?_, e9⟩
      · exact List.perm_middle.trans (List.Perm.cons d e2)
      · rw [e5, List.map_cons, List.sum_cons]; omega
      · intro _
        by_cases hX : X = []
        · rw [e6 hX]; exact ⟨List.mem_cons_self, rfl⟩
        · obtain ⟨f1, f2⟩ := e7 hX
          exact ⟨List.mem_cons_of_mem _ f1, f2⟩
      · intro x hx
        rcases List.mem_cons.1 hx with rfl | hx
        · exact fun h => hP (Or.inl h)
        · exact e8 x hx

theorem assignPrivate_spec {a : Nat} (T : Nat → TagInfo) : ∀ (placed : List (Key × Nat)), (placed.map (·.1)).Nodup →
    ∃ f g, assignPrivate a placed T = updTag T a (fun t => { t with pos := f, noopPos := g }) ∧
      (∀ d p, (Key.tag d, p) ∈ placed → f d = some p) ∧
      (∀ d, Key.tag d ∉ placed.map (·.1) → f d = (T a).pos d) ∧
      (∀ p, (Key.pub, p) ∈ placed → g = some p) ∧ (Key.pub ∉ placed.map (·.1) → g = (T a).noopPos)
  | [], _ => ⟨(T a).pos, (T a).noopPos, by
      funext x; by_cases hx : x = a
      · subst hx; rw [updTag_self]; rfl
      · rw [updTag_ne _ _ hx]; rfl, by simp, by simp, by simp, by simp⟩
  | (k, p) :: rest, hnd => by
    rw [List.map_cons, List.nodup_cons] at hnd
    obtain ⟨f, g, h1, h2, h3, h4, h5⟩ := assignPrivate_spec (a := a) T rest hnd.2
    have hmem : ∀ {k' p'}, (k', p') ∈ rest → k' ∈ rest.map (·.1) := fun h => List.mem_map.2 ⟨_, h, rfl⟩
    cases k with
    | tag d =>
      refine ⟨fun i => if i = d then some p else f i, g, ?_, ?_, ?_, ?_, ?_⟩
      · simp only [assignPrivate, h1]
        funext x; by_cases hx : x = a
        · subst hx; simp only [updTag_self]
        · simp only [updTag_ne _ _ hx]
      · intro d' p' hm
        rcases List.mem_cons.1 hm with hm | hm
        · cases hm; simp
        · have : d' ≠ d := by intro hdd; rw [hdd] at hm; exact hnd.1 (hmem hm)
          simp only [if_neg this]; exact h2 d' p' hm
      · intro d' hm
        simp only [List.map_cons, List.mem_cons, Key.tag.injEq, not_or] at hm
        simp only [if_neg hm.1]; exact h3 d' hm.2
      · intro p' hm
        rcases List.mem_cons.1 hm with hm | hm
        · cases hm
        · exact h4 p' hm
      · intro hm
        simp only [List.map_cons, List.mem_cons, not_or] at hm
        exact h5 hm.2
    | pub =>
      refine ⟨f, some p, ?_, ?_, ?_, ?_, ?_⟩
      · simp only [assignPrivate, h1]
        funext x; by_cases hx : x = a
        · subst hx; simp only [updTag_self]
        · simp only [updTag_ne _ _ hx]
      · intro d' p' hm
        rcases List.mem_cons.1 hm with hm | hm
        · cases hm
        · exact h2 d' p' hm
      · intro d' hm
        simp only [List.map_cons, List.mem_cons, not_or] at hm
        exact h3 d' hm.2
      · intro p' hm
        rcases List.mem_cons.1 hm with hm | hm
        · cases hm; rfl
        · exact absurd (hmem hm) hnd.1
      · intro hm
        simp at hm
    | block k =>
      refine ⟨f, g, ?_, ?_, ?_, ?_, ?_⟩
      · simp only [assignPrivate, h1]
      · intro d' p' hm
        rcases List.mem_cons.1 hm with hm | hm
        · cases hm
        · exact h2 d' p' hm
      · intro d' hm
        simp only [List.map_cons, List.mem_cons, not_or] at hm
        exact h3 d' hm.2
      · intro p' hm
        rcases List.mem_cons.1 hm with hm | hm
        · cases hm
        · exact h4 p' hm
      · intro hm
        simp only [List.map_cons, List.mem_cons, not_or] at hm
        exact h5 hm.2

/-- The queue of a private list: the destinations `A` in the list, and possibly the public list. -/
theorem privateQueue {n k first a : Nat} {E : List Nat} {T : Nat → TagInfo} (h : TInv n k first E T) (hf : Fresh (T a))
    (O : HashOrder) :
    ∃ T1 q excl last, collectPrivate n a T [] 0 (0, 0) (O.order 1 a (T a).dests) = (T1, q, excl, last) ∧
      (q.length = 0 → T1 = T ∧ ∀ d ∈ (T a).dests, (T a).pos d = none) ∧
      (q.length ≠ 0 → ∃ A pub w, A ≠ [] ∧ A.Nodup ∧ (∀ d ∈ A, d ∈ (T a).dests) ∧ 1 ≤ w ∧
        (∀ d ∈ (T a).dests, d ∉ A → (T a).pos d = none) ∧
        (pub = false → ∀ d ∈ (T a).dests, d ∈ A) ∧ (pub = true → ∃ d ∈ (T a).dests, d ∉ A) ∧
        A.length + (if pub then 1 else 0) ≤ (T a).dests.length ∧
        ((A.map (T a).cnt).sum + if pub then w else 0) ≤ (T a).dests.length * k ∧
        ∃ T2 q2,
          (if q.length + 1 = (T a).dests.length
            then updTag T1 last.1 (fun t => { t with incoming := t.incoming - last.2 }) else T1) = T2 ∧
          (let q := if q.length + 1 = (T a).dests.length then pqPush n ⟨.tag last.1, last.2⟩ q else q
           if q.length ≠ (T a).dests.length then pqPush n ⟨.pub, excl⟩ q else q) = q2 ∧ QSorted q2 ∧
          q2.Perm (A.map (fun d => ⟨.tag d, (T a).cnt d⟩) ++ if pub then [⟨.pub, w⟩] else []) ∧
          ∀ x, ∃ i, T2 x = { T x with incoming := i } ∧ (i = (T x).incoming ∨
            (x ∈ A ∧ (T a).pos x = none ∧ i = (T x).incoming - (T a).cnt x))) := by
  have hpm := O.perm 1 a (T a).dests
  obtain ⟨T1, q, excl, last, Q, X, e1, e2, e3, e4, e5, e6, e7, e8, e9⟩ :=
    collectPrivate_spec (n := n) (a := a) (O.order 1 a (T a).dests) T [] 0 (0, 0) (hpm.nodup_iff.2 (h.nodup a)) List.Pairwise.nil
  have hQX : (Q ++ X).Perm (T a).dests := e2.trans hpm
  have hlen : Q.length + X.length = (T a).dests.length := by rw [← hQX.length_eq, List.length_append]
  have hql : q.length = Q.length := by rw [e3.length_eq]; simp
  have hp0 : ∀ d, (T a).pos d ≠ some 0 → (T a).pos d = none := by
    intro d hd
    cases hp : (T a).pos d with
    | none => rfl
    | some p => have := hf.2.2.2 d p hp; subst this; exact absurd hp hd
  have hndup : (Q ++ X).Nodup := hQX.nodup_iff.2 (h.nodup a)
  rw [List.nodup_append] at hndup
  obtain ⟨hnQ, hnX, hdis⟩ := hndup
  have hmemd : ∀ d, d ∈ (T a).dests ↔ d ∈ Q ∨ d ∈ X := by
    intro d; rw [← hQX.mem_iff, List.mem_append]
  have hsum : (Q.map (T a).cnt).sum + (X.map (T a).cnt).sum ≤ (T a).dests.length * k := by
    have h1 : ((T a).dests.map (T a).cnt).sum = (Q.map (T a).cnt).sum + (X.map (T a).cnt).sum := by
      rw [← (hQX.map (T a).cnt).sum_nat, List.map_append, List.sum_append_nat]
    rw [← h1]
    have : ∀ l : List Nat, (l.map (T a).cnt).sum ≤ l.length * k := by
      intro l; induction l with
      | nil => simp
      | cons x l ih =>
        have := h.cntle a x
        rw [List.map_cons, List.sum_cons, List.length_cons, Nat.add_mul]; omega
    exact this _
  have hinc : ∀ x, ∃ i, T1 x = { T x with incoming := i } ∧ (i = (T x).incoming ∨
      (x ∈ Q ∧ (T a).pos x = none ∧ i = (T x).incoming - (T a).cnt x)) := by
    intro x
    obtain ⟨i, f1, f2⟩ := e9 x
    refine ⟨i, f1, ?_⟩
    rcases f2 with f2 | ⟨f2, f3, f4⟩
    · exact Or.inl f2
    · exact Or.inr ⟨f2, hp0 x f3, f4⟩
  rw [List.append_nil] at e3
  refine ⟨T1, q, excl, last, e1, ?_, ?_⟩
  · intro h0
    have hQ : Q = [] := List.eq_nil_of_length_eq_zero (by omega)
    refine ⟨?_, ?_⟩
    · funext x
      obtain ⟨i, f1, f2⟩ := hinc x
      rw [hQ] at f2
      rcases f2 with f2 | f2
      · rw [f1, f2]
      · simp at f2
    · intro d hd
      rw [hmemd, hQ] at hd
      rcases hd with hd | hd
      · simp at hd
      · exact hp0 d (e8 d hd)
  · intro h0
    by_cases h1 : X.length = 1
    · obtain ⟨y, rfl⟩ : ∃ y, X = [y] := List.length_eq_one_iff.1 h1
      obtain ⟨g1, g2⟩ := e7 (by simp)
      simp only [List.mem_singleton] at g1
      have hyd : y ∈ (T a).dests := (hmemd y).2 (Or.inr (by simp))
      have hyQ : y ∉ Q := fun hy => hdis y hy y (by simp) rfl
      simp only [List.length_singleton] at hlen
      refine ⟨y :: Q, false, 1, by simp, List.nodup_cons.2 ⟨hyQ, hnQ⟩, ?_, Nat.le_refl _, ?_, ?_, by simp, ?_, ?_, _, _,
        rfl, rfl, ?_, ?_, ?_⟩
      · intro d hd
        rcases List.mem_cons.1 hd with rfl | hd
        · exact hyd
        · exact (hmemd d).2 (Or.inl hd)
      · intro d hd hn
        rw [hmemd, List.mem_singleton] at hd
        exfalso; apply hn
        rw [List.mem_cons]; exact Or.symm hd
      · intro _ d hd
        rw [hmemd, List.mem_singleton] at hd
        rw [List.mem_cons]; exact Or.symm hd
      · simp only [List.length_cons, Bool.false_eq_true, if_false]; omega
      · simp only [List.map_cons, List.sum_cons, Bool.false_eq_true, if_false, List.map_nil, List.sum_nil] at hsum ⊢
        omega
      · simp only [if_pos (show q.length + 1 = (T a).dests.length by omega)]
        split
        · exact pqPush_sorted _ _ _ (pqPush_sorted _ _ _ e4)
        · exact pqPush_sorted _ _ _ e4
      · simp only [if_pos (show q.length + 1 = (T a).dests.length by omega)]
        have hpp := pqPush_perm n ⟨.tag last.1, last.2⟩ q
        rw [if_neg (by rw [hpp.length_eq, List.length_cons]; omega)]
        simp only [Bool.false_eq_true, if_false, List.append_nil, List.map_cons]
        refine hpp.trans ?_
        rw [g2, g1]
        exact List.Perm.cons _ e3
      · intro x
        rw [if_pos (by omega)]
        obtain ⟨i, f1, f2⟩ := hinc x
        by_cases hx : x = y
        · subst hx
          rw [g1, updTag_self, f1]
          refine ⟨_, rfl, Or.inr ⟨List.mem_cons_self, hp0 x (e8 x (by simp)), ?_⟩⟩
          simp only
          rw [g2, g1]
          rcases f2 with f2 | f2
          · rw [f2]
          · exact absurd f2.1 hyQ
        · rw [g1, updTag_ne _ _ hx, f1]
          refine ⟨i, rfl, ?_⟩
          rcases f2 with f2 | f2
          · exact Or.inl f2
          · exact Or.inr ⟨List.mem_cons_of_mem _ f2.1, f2.2⟩
    · have hQne : Q ≠ [] := by intro hh; rw [hh, List.length_nil] at hql; exact h0 hql
      by_cases hX : X = []
      · subst hX
        simp only [List.length_nil, List.map_nil, List.sum_nil] at hlen hsum
        refine ⟨Q, false, 1, hQne, hnQ, fun d hd => (hmemd d).2 (Or.inl hd), Nat.le_refl _, ?_, ?_, by simp, ?_, ?_, _, _,
          rfl, rfl, ?_, ?_, ?_⟩
        · intro d hd hn
          rw [hmemd] at hd
          rcases hd with hd | hd
          · exact absurd hd hn
          · simp at hd
        · intro _ d hd
          rw [hmemd] at hd
          rcases hd with hd | hd
          · exact hd
          · simp at hd
        · simp only [Bool.false_eq_true, if_false]; omega
        · simp only [Bool.false_eq_true, if_false]; omega
        · simp only [if_neg (show ¬ q.length + 1 = (T a).dests.length by omega)]
          rw [if_neg (by omega)]
          exact e4
        · simp only [if_neg (show ¬ q.length + 1 = (T a).dests.length by omega)]
          rw [if_neg (by omega)]
          simp only [Bool.false_eq_true, if_false, List.append_nil]
          exact e3
        · intro x
          rw [if_neg (by omega)]
          exact hinc x
      · have hXl : 0 < X.length := List.length_pos_iff.2 hX
        obtain ⟨z, hz⟩ : ∃ z, z ∈ X := List.exists_mem_of_ne_nil X hX
        have hzd : z ∈ (T a).dests := (hmemd z).2 (Or.inr hz)
        have hw : 1 ≤ (X.map (T a).cnt).sum := by
          have h2 := (h.cnt a z).1 hzd
          have h3 := mem_sum_le (List.mem_map.2 ⟨z, hz, rfl⟩ : (T a).cnt z ∈ X.map (T a).cnt)
          omega
        refine ⟨Q, true, excl, hQne, hnQ, fun d hd => (hmemd d).2 (Or.inl hd), by omega, ?_, by simp,
          fun _ => ⟨z, hzd, fun hzQ => hdis z hzQ z hz rfl⟩, ?_, ?_, _, _,
          rfl, rfl, ?_, ?_, ?_⟩
        · intro d hd hn
          rw [hmemd] at hd
          rcases hd with hd | hd
          · exact absurd hd hn
          · exact hp0 d (e8 d hd)
        · simp only [if_true]; omega
        · simp only [if_true]; omega
        · simp only [if_neg (show ¬ q.length + 1 = (T a).dests.length by omega)]
          rw [if_pos (by omega)]
          exact pqPush_sorted _ _ _ e4
        · simp only [if_neg (show ¬ q.length + 1 = (T a).dests.length by omega)]
          rw [if_pos (by omega)]
          simp only [if_true]
          refine (pqPush_perm n _ q).trans ?_
          refine (List.Perm.cons _ e3).trans ?_
          exact (List.perm_append_singleton _ _).symm
        · intro x
          rw [if_neg (by omega)]
          exact hinc x

end Riegeli.Tr

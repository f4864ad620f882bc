import Verif.ChunkSetProofs
/-!
# Chunked sets: lookup, decoding and building
-/
namespace Riegeli.StrSet.CSet
open Riegeli.StrSet

/-! ## Lookup -/

/-- With a test which never returns `unordered` and never cancels, the search ends within the range, even if the test is not
monotonic. -/
theorem searchOuter_safe {test : Nat → Option POrd} {T : Nat → POrd} {low high : Nat}
    (hT : ∀ p, low ≤ p → p < high → test p = some (T p) ∧ T p ≠ .unordered) : ∀ (n l h : Nat) (res : SearchResult) (tr : List Nat),
    h - l ≤ n → low ≤ l → h ≤ high → low ≤ res.found → res.found ≤ high →
    (res.ordering = .equivalent → res.found < high ∧ T res.found = .equivalent) →
    ∃ r tr', searchOuter (defaultSearcher test) l h res () tr = some (some r, (), tr') ∧ low ≤ r.found ∧ r.found ≤ high ∧
      (r.ordering = .equivalent → r.found < high ∧ T r.found = .equivalent) := by
  intro n
  induction n with
  | zero =>
    intro l h res tr hn hl hh h1 h2 h3
    rw [searchOuter]
    simp only [defaultSearcher, if_pos (show h ≤ l by omega)]
    exact ⟨res, tr, rfl, h1, h2, h3⟩
  | succ n ih =>
    intro l h res tr hn hl hh h1 h2 h3
    rw [searchOuter]
    by_cases hlh : h ≤ l
    · simp only [defaultSearcher, if_pos hlh]
      exact ⟨res, tr, rfl, h1, h2, h3⟩
    · have hm : (defaultSearcher test).middle () l h = some (some (l + (h - l) / 2), ()) := by
        simp only [defaultSearcher, if_neg hlh]
      generalize hmid : l + (h - l) / 2 = m at hm
      rw [hm]
      obtain ⟨t1, t2⟩ := hT m (by omega) (by omega)
      have ht : (defaultSearcher test).test () m = some (some (guideOf (· + 1) (T m) m), ()) := by
        simp only [defaultSearcher, t1, Option.map_some]
      simp only
      rw [searchInner_eq, ht]
      cases hT' : T m with
      | unordered => exact absurd hT' t2
      | less =>
        simp only [guideOf]
        rw [if_neg (by simp)]
        refine ih _ _ _ _ (by omega) (by omega) hh ?_ ?_ ?_
        · split <;> exact h1
        · split <;> exact h2
        · split
          · exact h3
          · intro h; cases h
      | equivalent =>
        simp only [guideOf]
        rw [if_pos (by simp)]
        exact ⟨_, _, rfl, by show low ≤ m; omega, by show m ≤ high; omega, fun _ => ⟨by show m < high; omega, hT'⟩⟩
      | greater =>
        simp only [guideOf, Bool.false_eq_true, if_false, or_true, if_true]
        refine ih _ _ _ _ (by omega) hl (by omega) (by show low ≤ m; omega) (by show m ≤ high; omega) ?_
        intro h; cases h

/-- The first element of the chunk at an index. -/
def headOf (ess : List (List (Nat × Bytes))) (p : Nat) : Option Bytes := (ess[p]?).bind fun es => es.head?.map (·.2)

theorem compareFirst_eq {n : Nat} {s : CSet} {ess : List (List (Nat × Bytes))} (h : CRep n s ess) (x : Bytes) {p : Nat}
    (hp : p < s.length) : ∃ f, headOf ess p = some f ∧ compareFirst s x p = some (toPOrd (cmp f x)) := by
  obtain ⟨c, hc⟩ : ∃ c, s[p]? = some c := ⟨s[p], by simp [hp]⟩
  obtain ⟨es, q1, q2, q3, q4⟩ := h.at hc
  cases es with
  | nil => exact absurd rfl q2
  | cons e es =>
    refine ⟨e.2, by simp [headOf, q1], ?_⟩
    simp [compareFirst, hc, StrSet.first_eq q3]

/-- What `CompareFirst` returns. -/
def firstOrd (ess : List (List (Nat × Bytes))) (x : Bytes) (p : Nat) : POrd :=
  match headOf ess p with
  | none => .unordered
  | some f => toPOrd (cmp f x)

theorem toPOrd_ne (o : Ordering) : toPOrd o ≠ .unordered := by cases o <;> simp [toPOrd]

theorem findChunk_safe {n : Nat} {s : CSet} {ess : List (List (Nat × Bytes))} (h : CRep n s ess) (hne : s ≠ []) (x : Bytes) :
    ∃ r, findChunk s x = some r ∧ r.found < s.length ∧ (r.ordering = .equivalent → headOf ess (r.found + 1) = some x) := by
  have hpos : 0 < s.length := List.length_pos_iff.2 hne
  obtain ⟨r, tr, h1, h2, h3, h4⟩ := searchOuter_safe (test := compareFirst s x) (T := firstOrd ess x) (low := 1) (high := s.length)
    (by
      intro p hp1 hp2
      obtain ⟨f, q1, q2⟩ := compareFirst_eq h x hp2
      simp only [firstOrd, q1]
      exact ⟨q2, toPOrd_ne _⟩) s.length 1 s.length ⟨.unordered, s.length⟩ [] (by omega) (by omega) (by omega)
        (by show 1 ≤ s.length; omega) (by show s.length ≤ s.length; omega) (by intro h; cases h)
  refine ⟨⟨r.ordering, r.found - 1⟩, ?_, by show r.found - 1 < s.length; omega, ?_⟩
  · simp only [findChunk, binarySearch, h1]
  · intro he
    obtain ⟨h5, h6⟩ := h4 he
    show headOf ess (r.found - 1 + 1) = some x
    rw [show r.found - 1 + 1 = r.found by omega]
    obtain ⟨f, q1, q2⟩ := compareFirst_eq h x h5
    simp only [firstOrd, q1] at h6
    rw [q1]
    cases hc : cmp f x with
    | eq => rw [cmp_eq_iff.1 hc]
    | lt => rw [hc] at h6; cases h6
    | gt => rw [hc] at h6; cases h6

theorem headOf_lt {ess : List (List (Nat × Bytes))} (hs : Sorted (ess.flatten.map (·.2))) {p q : Nat} {f g : Bytes} (hpq : p < q)
    (hp : headOf ess p = some f) (hq : headOf ess q = some g) : f < g := by
  induction ess generalizing p q with
  | nil => simp [headOf] at hp
  | cons es ess ih =>
    simp only [List.flatten_cons, List.map_append] at hs
    have hs' := List.pairwise_append.1 hs
    cases q with
    | zero => omega
    | succ q =>
      have hq' : headOf ess q = some g := by simpa [headOf] using hq
      cases p with
      | succ p => exact ih (p := p) (q := q) hs'.2.1 (by omega) (by simpa [headOf] using hp) hq'
      | zero =>
        refine hs'.2.2 f ?_ g ?_
        · simp [headOf] at hp
          obtain ⟨a, ha⟩ := hp
          cases es with
          | nil => simp at ha
          | cons e es => simp at ha; rw [ha]; simp
        · simp only [headOf, Option.bind_eq_some_iff] at hq'
          obtain ⟨es', h1, h2⟩ := hq'
          simp at h2
          obtain ⟨a, h2⟩ := h2
          have h3 := List.mem_of_mem_head? (by simpa using h2 : (a, g) ∈ es'.head?)
          exact List.mem_map.2 ⟨(a, g), List.mem_flatten.2 ⟨es', List.mem_of_getElem? h1, h3⟩, rfl⟩

theorem findChunk_sorted {n : Nat} {s : CSet} {ess : List (List (Nat × Bytes))} (h : CRep n s ess) (hne : s ≠ [])
    (hs : Sorted (ess.flatten.map (·.2))) (x : Bytes) :
    ∃ r, findChunk s x = some r ∧ r.found < s.length ∧ (r.ordering = .equivalent → headOf ess (r.found + 1) = some x) ∧
      (r.ordering ≠ .equivalent → ∀ (p : Nat) (f : Bytes), headOf ess p = some f →
        (1 ≤ p → p ≤ r.found → f < x) ∧ (r.found < p → x < f)) := by
  obtain ⟨r, hr, h1, h2⟩ := findChunk_safe h hne x
  refine ⟨r, hr, h1, h2, ?_⟩
  intro hneq
  have hpos : 0 < s.length := List.length_pos_iff.2 hne
  have hT : ∀ p o, compareFirst s x p = some o → firstOrd ess x p = o := by
    intro p o ho
    have hp : p < s.length := by
      by_cases hp : p < s.length
      · exact hp
      · simp [compareFirst, List.getElem?_eq_none (show s.length ≤ p by omega)] at ho
    obtain ⟨f, q1, q2⟩ := compareFirst_eq h x hp
    simp only [firstOrd, q1]
    rw [q2] at ho
    exact Option.some.inj ho
  have hcmp : ∀ p, p < s.length → ∃ f, headOf ess p = some f ∧ firstOrd ess x p = toPOrd (cmp f x) := by
    intro p hp
    obtain ⟨f, q1, q2⟩ := compareFirst_eq h x hp
    exact ⟨f, q1, by simp only [firstOrd, q1]⟩
  have hless : ∀ f, toPOrd (cmp f x) = .less ↔ f < x := by
    intro f; rw [← cmp_lt_iff]; cases cmp f x <;> simp [toPOrd]
  have heqv : ∀ f, toPOrd (cmp f x) = .equivalent ↔ f = x := by
    intro f; rw [← cmp_eq_iff]; cases cmp f x <;> simp [toPOrd]
  have hgr : ∀ f, toPOrd (cmp f x) = .greater ↔ x < f := by
    intro f; rw [← cmp_gt_iff]; cases cmp f x <;> simp [toPOrd]
  have hord : OrderedTest (fun _ => True) (firstOrd ess x) 1 s.length := by
    intro p q _ _ _ hp _ hq
    obtain ⟨f, f1, f2⟩ := hcmp p hp
    obtain ⟨g, g1, g2⟩ := hcmp q hq
    rw [f2, g2, hless, heqv, heqv, hgr]
    have key : q ≤ p → f < x → g = x ∨ x < g → False := by
      intro hqp hf hg
      have : ¬ f < g := by
        by_cases e : q = p
        · subst e
          rw [f1] at g1
          have := Option.some.inj g1
          subst this
          exact lt_irrefl' _
        · intro hfg
          exact lt_irrefl' _ (lt_trans' hfg (headOf_lt hs (show q < p by omega) g1 f1))
      rcases hg with hg | hg
      · subst hg; exact this hf
      · exact this (lt_trans' hf hg)
    refine ⟨?_, ?_, ?_⟩
    · intro a b
      exact Nat.lt_of_not_le fun hqp => key hqp a (.inl b)
    · intro a b
      refine Nat.lt_of_not_le fun hqp => ?_
      subst a
      by_cases e : q = p
      · subst e
        rw [f1] at g1
        have := Option.some.inj g1
        subst this
        exact lt_irrefl' _ b
      · exact lt_irrefl' _ (lt_trans' b (headOf_lt hs (show q < p by omega) g1 f1))
    · intro a b
      exact Nat.lt_of_not_le fun hqp => key hqp a (.inr b)
  obtain ⟨res, tr, e1, _, e2⟩ := Props.C13_cancelling (compareFirst s x) (firstOrd ess x) hT 1 s.length hord
  have hfc := hr
  simp only [findChunk, e1] at hfc
  cases res with
  | none => simp at hfc
  | some res =>
    simp only [Option.some.injEq] at hfc
    subst hfc
    obtain ⟨e2, _⟩ := e2
    simp only at hneq h1 ⊢
    have hlt : ∀ p f, headOf ess p = some f → p < s.length := by
      intro p f hp
      rw [h.length_eq]
      simp only [headOf, Option.bind_eq_some_iff] at hp
      obtain ⟨es', h1, _⟩ := hp
      exact (List.getElem?_eq_some_iff.1 h1).1
    have htot : ∀ f, f < x ∨ f = x ∨ x < f := by
      intro f
      cases hc : cmp f x with
      | lt => exact .inl (cmp_lt_iff.1 hc)
      | eq => exact .inr (.inl (cmp_eq_iff.1 hc))
      | gt => exact .inr (.inr (cmp_gt_iff.1 hc))
    intro p f hp
    have hps := hlt p f hp
    obtain ⟨f', f1, f2⟩ := hcmp p hps
    rw [hp] at f1
    have := Option.some.inj f1
    subst this
    unfold SearchContract at e2
    cases ho : res.ordering with
    | equivalent => exact absurd ho hneq
    | greater =>
      rw [ho] at e2
      obtain ⟨_, c1, c2, c3, c4, c5⟩ := e2
      constructor
      · intro p1 p2
        rcases htot f with q | q | q
        · exact q
        · exact absurd (f2.trans ((heqv f).2 q)) (c4 p trivial p1 hps)
        · have := c5 p trivial p1 hps (f2.trans ((hgr f).2 q))
          omega
      · intro p1
        rcases htot f with q | q | q
        · obtain ⟨g, g1, g2⟩ := hcmp res.found c2
          rw [g2] at c3
          have hg := (hgr g).1 c3
          by_cases e : res.found = p
          · rw [e, hp] at g1
            have := Option.some.inj g1
            subst this
            exact hg
          · exact absurd (lt_trans' (lt_trans' q hg) (headOf_lt hs (show res.found < p by omega) g1 hp)) (lt_irrefl' _)
        · exact absurd (f2.trans ((heqv f).2 q)) (c4 p trivial (by omega) hps)
        · exact q
    | less =>
      rw [ho] at e2
      obtain ⟨c1, _, c3⟩ := e2
      constructor
      · intro p1 p2
        rcases htot f with q | q | q
        · exact q
        · exact absurd (f2.trans ((heqv f).2 q)) (c3 p trivial p1 hps).1
        · exact absurd (f2.trans ((hgr f).2 q)) (c3 p trivial p1 hps).2
      · intro p1; omega
    | unordered =>
      rw [ho] at e2
      obtain ⟨c1, c2⟩ := e2
      constructor
      · intro p1 p2
        have := c2 p trivial p1 hps
        rw [f2] at this
        exact absurd this (toPOrd_ne _)
      · intro p1; omega

/-- The chunks before, at, and after an index. -/
theorem split_at {ess : List (List (Nat × Bytes))} {k : Nat} {es : List (Nat × Bytes)} (h : ess[k]? = some es) :
    ess = ess.take k ++ es :: ess.drop (k + 1) := by
  obtain ⟨hk, he⟩ := List.getElem?_eq_some_iff.1 h
  rw [← he, ← List.drop_eq_getElem_cons, List.take_append_drop]

theorem flat_at {ess : List (List (Nat × Bytes))} {k i : Nat} {es : List (Nat × Bytes)} (h : ess[k]? = some es) (hi : i < es.length) :
    (ess.flatten.map (·.2))[(ess.take k).flatten.length + i]? = (es.map (·.2))[i]? := by
  have hsp := split_at h
  generalize ess.take k = A at hsp
  rw [hsp, List.flatten_append, List.flatten_cons, List.map_append, List.map_append,
    List.getElem?_append_right (by simp only [List.length_map]; omega), List.length_map, Nat.add_sub_cancel_left,
    List.getElem?_append_left (by simpa using hi)]

theorem contains_sound {s : CSet} {ess : List (List (Nat × Bytes))} (h : CRep 0 s ess) (x : Bytes) :
    ∃ b i, containsWithIndex s x = some (b, i) ∧ containsNoIndex s x = some b ∧
      (b = true → (ess.flatten.map (·.2))[i]? = some x) := by
  by_cases hne : s = []
  · subst hne
    exact ⟨false, 0, rfl, rfl, by intro h; cases h⟩
  obtain ⟨r, hr, h1, h2⟩ := findChunk_safe h hne x
  obtain ⟨c, hc⟩ : ∃ c, s[r.found]? = some c := ⟨s[r.found], by simp [h1]⟩
  obtain ⟨es, q1, q2, q3, q4⟩ := h.at hc
  have e1 : containsWithIndex s x = (if r.ordering = .equivalent then some (true, c.cumulativeEnd)
        else if r.found = 0 then StrSet.contains c.set x
        else
          match StrSet.containsSkipFirst c.set x, s[r.found - 1]? with
          | some (b, some i), some c => some (b, i + c.cumulativeEnd)
          | _, _ => none) := by
    cases s with
    | nil => exact absurd rfl hne
    | cons c0 cs => simp only [containsWithIndex, hr, hc]; rfl
  have e2 : containsNoIndex s x = (if r.ordering = .equivalent then some true
        else if r.found = 0 then (StrSet.contains c.set x).map (·.1)
          else (StrSet.containsSkipFirst c.set x).map (·.1)) := by
    cases s with
    | nil => exact absurd rfl hne
    | cons c0 cs => simp only [containsNoIndex, hr, hc]
  by_cases ho : r.ordering = .equivalent
  · rw [e1, e2, if_pos ho, if_pos ho]
    refine ⟨true, _, rfl, rfl, fun _ => ?_⟩
    have := h2 ho
    simp only [headOf, Option.bind_eq_some_iff] at this
    obtain ⟨fs, f1, f2⟩ := this
    cases fs with
    | nil => simp at f2
    | cons f fs =>
      have := flat_at (i := 0) f1 (by simp)
      rw [q4, Nat.zero_add]
      rw [Nat.add_zero] at this
      rw [this]
      simpa using f2
  · rw [e1, e2, if_neg ho, if_neg ho]
    by_cases h0 : r.found = 0
    · rw [if_pos h0, if_pos h0, StrSet.contains_eq q3]
      refine ⟨_, _, rfl, rfl, fun hb => ?_⟩
      have hsc := scan_sound hb
      rw [Nat.sub_zero] at hsc
      have hlt := (List.getElem?_eq_some_iff.1 hsc.2).1
      rw [List.length_map] at hlt
      rw [h0] at q1
      have := flat_at (i := (scan x 0 (es.map (·.2))).2) q1 hlt
      simp only [List.take_zero, List.flatten_nil, List.length_nil, Nat.zero_add] at this
      rw [this]; exact hsc.2
    · rw [if_neg h0, if_neg h0]
      cases es with
      | nil => exact absurd rfl q2
      | cons e es =>
        rw [containsSkipFirst_eq q3]
        obtain ⟨c', hc'⟩ : ∃ c, s[r.found - 1]? = some c := ⟨s[r.found - 1]'(by omega), by simp [show r.found - 1 < s.length by omega]⟩
        obtain ⟨es', p1, p2, p3, p4⟩ := h.at hc'
        simp only [hc']
        refine ⟨_, _, rfl, rfl, fun hb => ?_⟩
        have hsc := scan_sound hb
        have hlt := (List.getElem?_eq_some_iff.1 hsc.2).1
        rw [List.length_map] at hlt
        have := flat_at (i := (scan x 1 (es.map (·.2))).2) q1 (by simp only [List.length_cons]; omega)
        rw [p4, Nat.zero_add, show r.found - 1 + 1 = r.found by omega, Nat.add_comm, this]
        generalize (scan x 1 (es.map (·.2))).2 = j at hsc ⊢
        obtain ⟨j, rfl⟩ : ∃ j', j = j' + 1 := ⟨j - 1, by omega⟩
        simpa using hsc.2

theorem countP_all {l : List Bytes} {x : Bytes} (h : ∀ e ∈ l, e < x) : l.countP (fun e => decide (e < x)) = l.length := by
  rw [List.countP_eq_length]; simpa using h

theorem countP_none {l : List Bytes} {x : Bytes} (h : ∀ e ∈ l, ¬e < x) : l.countP (fun e => decide (e < x)) = 0 := by
  rw [List.countP_eq_zero]; simpa using h

theorem contains_sorted {s : CSet} {ess : List (List (Nat × Bytes))} (h : CRep 0 s ess) (hs : Sorted (ess.flatten.map (·.2)))
    (x : Bytes) :
    containsWithIndex s x = some (decide (x ∈ ess.flatten.map (·.2)),
      (ess.flatten.map (·.2)).countP (fun e => decide (e < x))) := by
  by_cases hne : s = []
  · subst hne
    rw [h.nil_iff.1 rfl]
    rfl
  obtain ⟨r, hr, h1, h2, h3⟩ := findChunk_sorted h hne hs x
  obtain ⟨c, hc⟩ : ∃ c, s[r.found]? = some c := ⟨s[r.found], by simp [h1]⟩
  obtain ⟨es, q1, q2, q3, q4⟩ := h.at hc
  have e1 : containsWithIndex s x = (if r.ordering = .equivalent then some (true, c.cumulativeEnd)
        else if r.found = 0 then StrSet.contains c.set x
        else
          match StrSet.containsSkipFirst c.set x, s[r.found - 1]? with
          | some (b, some i), some c => some (b, i + c.cumulativeEnd)
          | _, _ => none) := by
    cases s with
    | nil => exact absurd rfl hne
    | cons c0 cs => simp only [containsWithIndex, hr, hc]; rfl
  by_cases ho : r.ordering = .equivalent
  · rw [e1, if_pos ho]
    have := h2 ho
    simp only [headOf, Option.bind_eq_some_iff] at this
    obtain ⟨fs, f1, f2⟩ := this
    cases fs with
    | nil => simp at f2
    | cons f fs =>
      have hfx : f.2 = x := by simpa using f2
      have hsp := split_at f1
      rw [q4, Nat.zero_add]
      generalize ess.take (r.found + 1) = A at hsp
      generalize ess.drop (r.found + 1 + 1) = B at hsp
      subst hsp
      simp only [List.flatten_append, List.flatten_cons, List.map_append, List.map_cons, List.cons_append, hfx] at hs ⊢
      obtain ⟨s1, s2, s3⟩ := List.pairwise_append.1 hs
      rw [List.pairwise_cons] at s2
      congr 2
      · simp
      · rw [List.countP_append, countP_all (l := A.flatten.map (·.2)) (fun e he => s3 e he x (by simp)),
          countP_none (x := x) (l := x :: _)]
        · simp only [List.length_map, Nat.add_zero]
        · intro e he hlt
          rcases List.mem_cons.1 he with he | he
          · subst he; exact lt_irrefl' _ hlt
          · exact lt_irrefl' _ (lt_trans' hlt (s2.1 e he))
  · have h3 := h3 ho
    rw [e1, if_neg ho]
    have hsp := split_at q1
    have hafter : ∀ e ∈ (ess.drop (r.found + 1)).flatten.map (·.2), x < e := by
      cases hB : ess.drop (r.found + 1) with
      | nil => intro e he; simp at he
      | cons fs B =>
        have hf : ess[r.found + 1]? = some fs := by
          have := congrArg List.head? hB
          simpa using this
        have hlt : r.found + 1 < s.length := by rw [h.length_eq]; exact (List.getElem?_eq_some_iff.1 hf).1
        obtain ⟨c2, hc2⟩ : ∃ c, s[r.found + 1]? = some c := ⟨s[r.found + 1], by simp [hlt]⟩
        obtain ⟨fs', r1, r2, _, _⟩ := h.at hc2
        rw [hf] at r1
        have := Option.some.inj r1
        subst this
        cases fs with
        | nil => exact absurd rfl r2
        | cons f fs =>
          have hx := (h3 (r.found + 1) f.2 (by simp [headOf, hf])).2 (by omega)
          rw [hsp, hB] at hs
          simp only [List.flatten_append, List.flatten_cons, List.map_append, List.map_cons, List.cons_append] at hs
          have hs2 := (List.pairwise_append.1 (List.pairwise_append.1 hs).2.1).2.1
          rw [List.pairwise_cons] at hs2
          intro e he
          simp only [List.flatten_cons, List.map_append, List.map_cons, List.cons_append] at he
          rcases List.mem_cons.1 he with he | he
          · rw [he]; exact hx
          · exact lt_trans' hx (hs2.1 e he)
    have hbefore : r.found ≠ 0 → ∃ e es', es = e :: es' ∧ e.2 < x ∧ ∀ a ∈ (ess.take r.found).flatten.map (·.2), a < x := by
      intro h0
      cases es with
      | nil => exact absurd rfl q2
      | cons e es =>
        have hx := (h3 r.found e.2 (by simp [headOf, q1])).1 (by omega) (by omega)
        refine ⟨e, es, rfl, hx, ?_⟩
        rw [hsp] at hs
        simp only [List.flatten_append, List.flatten_cons, List.map_append, List.map_cons, List.cons_append] at hs
        intro a ha
        exact lt_trans' ((List.pairwise_append.1 hs).2.2 a ha e.2 (by simp)) hx
    have hmem : x ∈ ess.flatten.map (·.2) ↔ x ∈ (ess.take r.found).flatten.map (·.2) ∨ x ∈ es.map (·.2) := by
      conv => lhs; rw [hsp]
      simp only [List.flatten_append, List.flatten_cons, List.map_append, List.mem_append]
      constructor
      · rintro (a | a | a)
        · exact .inl a
        · exact .inr a
        · exact absurd (hafter x a) (lt_irrefl' _)
      · rintro (a | a)
        · exact .inl a
        · exact .inr (.inl a)
    have hcnt : (ess.flatten.map (·.2)).countP (fun e => decide (e < x)) =
        ((ess.take r.found).flatten.map (·.2)).countP (fun e => decide (e < x)) + (es.map (·.2)).countP (fun e => decide (e < x)) := by
      conv => lhs; rw [hsp]
      simp only [List.flatten_append, List.flatten_cons, List.map_append, List.countP_append]
      rw [countP_none (l := (ess.drop (r.found + 1)).flatten.map (·.2)) (fun e he hlt => lt_irrefl' _ (lt_trans' hlt (hafter e he)))]
      omega
    have hses : Sorted (es.map (·.2)) := by
      rw [hsp] at hs
      simp only [List.flatten_append, List.flatten_cons, List.map_append] at hs
      exact (List.pairwise_append.1 (List.pairwise_append.1 hs).2.1).1
    by_cases h0 : r.found = 0
    · rw [if_pos h0, StrSet.contains_eq q3, scan_sorted hses, hcnt]
      have hm : decide (x ∈ ess.flatten.map (·.2)) = decide (x ∈ es.map (·.2)) := by
        rw [decide_eq_decide, hmem, h0]; simp
      rw [hm, h0]; simp
    · rw [if_neg h0]
      obtain ⟨e, es', rfl, he, hb⟩ := hbefore h0
      rw [containsSkipFirst_eq q3]
      obtain ⟨c', hc'⟩ : ∃ c, s[r.found - 1]? = some c := ⟨s[r.found - 1]'(by omega), by simp [show r.found - 1 < s.length by omega]⟩
      obtain ⟨_, p1, p2, p3, p4⟩ := h.at hc'
      simp only [hc']
      rw [p4, Nat.zero_add, show r.found - 1 + 1 = r.found by omega, hcnt, countP_all hb]
      simp only [List.map_cons, List.pairwise_cons, Sorted] at hses
      rw [scan_sorted (by exact hses.2)]
      congr 2
      · rw [decide_eq_decide, hmem]
        constructor
        · intro a; exact .inr (by simp only [List.map_cons]; exact List.mem_cons_of_mem _ a)
        · rintro (a | a)
          · exact absurd (hb x a) (lt_irrefl' _)
          · simp only [List.map_cons] at a
            rcases List.mem_cons.1 a with a | a
            · rw [← a] at he; exact absurd he (lt_irrefl' _)
            · exact a
      · rw [List.map_cons, List.countP_cons_of_pos (by simpa using he)]
        simp only [List.length_map]
        omega

end Riegeli.StrSet.CSet

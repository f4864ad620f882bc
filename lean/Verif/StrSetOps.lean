import Verif.StrSetProofs
/-!
# String sets: lookup and comparison
-/
namespace Riegeli.StrSet

/-! ## Lookup -/

/-- What comparing with one element should give. -/
def probeSpec (element e : Bytes) : Probe :=
  match cmp e element with
  | .eq => .ret true
  | .gt => .ret false
  | .lt => .cont (lcp e element)

theorem cmp_of_drop_nil {e x : Bytes} (h : e.drop (lcp e x) = []) :
    cmp e x = if x.drop (lcp e x) = [] then .eq else .lt := by
  rw [← cmp_lcp, h]
  cases x.drop (lcp e x) <;> simp [cmp]

theorem cmp_of_drop_cons {e x : Bytes} {a : UInt8} {as : Bytes} (h : e.drop (lcp e x) = a :: as) (as' : Bytes) :
    cmp e x = if frontGreater (a :: as') (x.drop (lcp e x)) then .gt else .lt := by
  rcases lcp_drop e x with h1 | h1 | ⟨p, q, ps, qs, h1, h2, h3⟩
  · rw [h1] at h; cases h
  · rw [← cmp_lcp, h, h1]; simp [cmp, frontGreater]
  · rw [← cmp_lcp, h1, h2]
    rw [h] at h1
    obtain ⟨rfl, rfl⟩ := List.cons.inj h1
    simp only [cmp, frontGreater, decide_eq_true_eq]
    have : a.toNat ≠ q.toNat := fun h => h3 (UInt8.toNat.inj h)
    by_cases h4 : a.toNat < q.toNat
    · rw [if_pos h4, if_neg (by omega)]
    · rw [if_neg h4, if_pos (by omega), if_pos (by omega)]

theorem lcp_take_lt {a x : Bytes} {s : Nat} (h : lcp (a.take s) x < s) (hs : s ≤ a.length) : lcp (a.take s) x = lcp a x := by
  induction s generalizing a x with
  | zero => omega
  | succ s ih =>
    cases a with
    | nil => simp at hs
    | cons y a =>
      cases x with
      | nil => simp [lcp]
      | cons z x =>
        simp only [List.take_succ_cons, lcp] at h ⊢
        split
        · rename_i hyz
          rw [if_pos hyz] at h
          rw [ih (by omega) (by simpa using hs)]
        · rfl

theorem probeSuffix_eq {element e : Bytes} {s : Nat} (hs : s ≤ e.length) (hx : s ≤ element.length)
    (h : e.take s = element.take s) : probeSuffix element s (splitAt (s, e)) = some (probeSpec element e) := by
  have hl := lcp_le e element
  have hsk := lcp_skip h hs hx
  unfold probeSuffix splitAt
  simp only [List.length_take, Nat.min_eq_left hs, Nat.sub_self, List.drop_zero, List.length_drop, commonPrefix_eq, hsk]
  have hge : s ≤ lcp e element := by omega
  have hd : (e.drop s).drop (lcp e element - s) = e.drop (lcp e element) := by
    rw [List.drop_drop]; congr 1; omega
  rw [if_pos ⟨by omega, by omega, by omega⟩, if_pos ⟨by omega, by omega⟩, hd]
  unfold probeSpec
  cases he : e.drop (lcp e element) with
  | nil =>
    rw [cmp_of_drop_nil he]
    cases hx' : element.drop (lcp e element) <;> simp
  | cons a as =>
    rw [cmp_of_drop_cons he as]
    simp only [List.isEmpty_cons]
    cases frontGreater (a :: as) (element.drop (lcp e element)) <;> simp

theorem probe_eq {element e : Bytes} {s common : Nat} (hs : s ≤ e.length) (hx : min common s ≤ element.length)
    (h : e.take (min common s) = element.take (min common s)) :
    probe element common (splitAt (s, e)) = some (probeSpec element e) := by
  unfold probe
  have hpl : (splitAt (s, e)).pre.length = s := by simp [splitAt, hs]
  simp only [hpl]
  rw [if_pos hx]
  by_cases h1 : min common s < s
  · rw [if_pos h1]
    have hpre : (splitAt (s, e)).pre = e.take s := rfl
    have hc1 : min common s + commonPrefix ((splitAt (s, e)).pre.drop (min common s)) (element.drop (min common s)) =
        lcp (e.take s) element := by
      rw [commonPrefix_eq, hpre]
      refine lcp_skip ?_ (by simp; omega) hx
      rw [List.take_take, Nat.min_eq_left (by omega), h]
    rw [hc1]
    have hl := lcp_le (e.take s) element
    by_cases h2 : lcp (e.take s) element < s
    · rw [if_pos h2, if_pos hl.2, hpre]
      have hq := lcp_take_lt h2 hs
      rw [hq] at h2 ⊢
      unfold probeSpec
      have hdr : (e.take s).drop (lcp e element) = (e.drop (lcp e element)).take (s - lcp e element) := List.drop_take
      cases he : e.drop (lcp e element) with
      | nil =>
        exfalso
        have := congrArg List.length he
        simp at this; omega
      | cons a as =>
        rw [hdr, he]
        obtain ⟨k, hk⟩ : ∃ k, s - lcp e element = k + 1 := ⟨s - lcp e element - 1, by omega⟩
        rw [hk, List.take_succ_cons, cmp_of_drop_cons he (as.take k)]
        cases frontGreater (a :: as.take k) (element.drop (lcp e element)) <;> simp
    · rw [if_neg h2]
      have hle : lcp (e.take s) element = s := by
        have := hl.1; simp at this; omega
      rw [hle]
      have ht := lcp_take (e.take s) element
      rw [hle, List.take_take, Nat.min_self] at ht
      exact probeSuffix_eq hs (by omega) ht
  · rw [if_neg h1]
    have : min common s = s := by omega
    rw [this] at hx h ⊢
    exact probeSuffix_eq hs hx h

/-- What `contains()` does with the elements in order: it stops at the first one which is not less than `element`. -/
def scan (element : Bytes) (index : Nat) : List Bytes → Bool × Nat
  | [] => (false, index)
  | e :: es => if e < element then scan element (index + 1) es else (decide (e = element), index)

theorem containsLoop_eq {enc element : Bytes} {es : List (Nat × Bytes)} : ∀ {it : SIt} {prev : Bytes} {common index : Nat},
    Yields splitIter.isEnd (splitIter.next enc) (splitIter.deref enc) it (es.map splitAt) → SharedOk prev es →
    common ≤ element.length → (prev.take common = element.take common) →
    containsLoop enc element it common index = some (scan element index (es.map (·.2))) := by
  induction es with
  | nil =>
    intro it prev common index h hs hx hp
    cases h with
    | done h =>
      rw [containsLoop]
      simp only [splitIter] at h
      rw [if_pos h]; rfl
  | cons x es ih =>
    intro it prev common index h hs hx hp
    obtain ⟨s, e⟩ := x
    obtain ⟨hs1, hs2, hs3, hs4⟩ := hs
    cases h with
    | cons h1 h2 h3 h4 =>
      rw [containsLoop]
      simp only [splitIter] at h1 h2 h3
      have hm : e.take (min common s) = element.take (min common s) := by
        have e1 := congrArg (List.take (min common s)) hs3
        have e2 := congrArg (List.take (min common s)) hp
        rw [List.take_take, List.take_take, Nat.min_eq_left (by omega : min common s ≤ s)] at e1
        rw [List.take_take, List.take_take, Nat.min_eq_left (by omega : min common s ≤ common)] at e2
        rw [e1, e2]
      have hpr := probe_eq (element := element) (common := common) hs2 (by omega) hm
      simp only [h1, h2, Option.bind_eq_bind, Option.bind_some, hpr, List.map_cons, scan]
      simp only [probeSpec, Bool.false_eq_true, if_false]
      cases hc : cmp e element with
      | eq =>
        have := cmp_eq_iff.1 hc
        subst this
        rw [if_neg (lt_irrefl' e)]; simp
      | gt =>
        have hlt := cmp_gt_iff.1 hc
        rw [if_neg (fun h => lt_irrefl' e (lt_trans' h hlt))]
        have : e ≠ element := by rintro rfl; exact lt_irrefl' e hlt
        simp [this]
      | lt =>
        rw [if_pos (cmp_lt_iff.1 hc)]
        simp only [h3, Option.bind_some]
        exact ih h4 hs4 (lcp_le e element).2 (lcp_take e element)

theorem contains_eq {enc : Bytes} {es : List (Nat × Bytes)} (h : Represents [] enc es) (element : Bytes) :
    contains enc element = some (scan element 0 (es.map (·.2))) := by
  obtain ⟨it, h1, h2⟩ := split_yields h
  unfold contains
  simp only [h1, Option.bind_eq_bind, Option.bind_some]
  exact containsLoop_eq h2 h.sharedOk (by omega) (by simp)

theorem containsSkipFirst_eq {enc : Bytes} {e : Nat × Bytes} {es : List (Nat × Bytes)} (h : Represents [] enc (e :: es))
    (element : Bytes) :
    containsSkipFirst enc element =
      some ((scan element 1 (es.map (·.2))).1, some (scan element 1 (es.map (·.2))).2) := by
  obtain ⟨it, h1, h2⟩ := split_yields h
  unfold containsSkipFirst
  cases h2 with
  | cons h3 h4 h5 h6 =>
    have hs := h.sharedOk
    obtain ⟨s, e⟩ := e
    have := containsLoop_eq (enc := enc) (element := element) (common := 0) (index := 1) h6 hs.2.2.2 (by omega) (by simp)
    simp only [splitIter] at h3 h5
    simp only [h1, h3, h5, Option.bind_eq_bind, Option.bind_some, this, Bool.false_eq_true, if_false]

/-- Strictly increasing. -/
abbrev Sorted (es : List Bytes) : Prop := es.Pairwise (· < ·)

theorem scan_sorted {element : Bytes} {es : List Bytes} {index : Nat} (h : Sorted es) :
    scan element index es = (decide (element ∈ es), index + es.countP (fun e => decide (e < element))) := by
  induction es generalizing index with
  | nil => simp [scan]
  | cons e es ih =>
    have h := List.pairwise_cons.1 h
    simp only [scan]
    by_cases h1 : e < element
    · have hne : element ≠ e := by rintro rfl; exact lt_irrefl' _ h1
      rw [if_pos h1, ih h.2]
      simp [h1, hne]
      omega
    · rw [if_neg h1]
      have h2 : ∀ x ∈ es, ¬x < element ∧ (x = element → False) := by
        intro x hx
        have hlt := h.1 x hx
        refine ⟨fun h3 => h1 (lt_trans' hlt h3), ?_⟩
        rintro rfl
        exact h1 hlt
      have h3 : es.countP (fun e => decide (e < element)) = 0 := by
        rw [List.countP_eq_zero]; intro x hx; simp [(h2 x hx).1]
      have h4 : element ∉ es := fun hx => (h2 _ hx).2 rfl
      simp [h3, h4, h1, eq_comm]

theorem scan_sound {element : Bytes} {es : List Bytes} {index : Nat} (h : (scan element index es).1 = true) :
    index ≤ (scan element index es).2 ∧ es[(scan element index es).2 - index]? = some element := by
  induction es generalizing index with
  | nil => simp [scan] at h
  | cons e es ih =>
    simp only [scan] at h ⊢
    by_cases h1 : e < element
    · rw [if_pos h1] at h ⊢
      obtain ⟨h2, h3⟩ := ih h
      refine ⟨by omega, ?_⟩
      have e1 : (scan element (index + 1) es).2 - index = ((scan element (index + 1) es).2 - (index + 1)) + 1 := by omega
      rw [e1]
      simpa using h3
    · rw [if_neg h1] at h ⊢
      simp only [decide_eq_true_eq] at h
      simp [h]

/-! ## Comparison -/

theorem Split.compareStr_eq (a : Split) (b : Bytes) : a.compareStr b = cmp a.str b := by
  unfold compareStr Split.str
  split
  · rename_i h
    rw [← cmp_parts (by simp; omega), List.take_append_drop]
  · rename_i h
    rw [show (Ordering.gt) = cmp (a.pre.drop b.length ++ a.suf) [] by
      cases hd : a.pre.drop b.length with
      | nil => have := congrArg List.length hd; simp at this; omega
      | cons x xs => simp [cmp]]
    rw [← cmp_parts (by simp; omega), ← List.append_assoc, List.take_append_drop, List.append_nil]

theorem Split.equalStr_iff (a : Split) (b : Bytes) : a.equalStr b = true ↔ a.str = b := by
  unfold equalStr Split.str
  split
  · rename_i h
    simp only [Bool.false_eq_true, false_iff]
    rintro rfl
    simp at h
  · simp only [Bool.and_eq_true, decide_eq_true_eq]
    constructor
    · rintro ⟨h1, h2⟩
      exact (congr (congrArg _ h1) h2).trans (List.take_append_drop _ _)
    · rintro rfl; simp

theorem Split.compare_eq (a b : Split) : a.compare b = cmp a.str b.str := by
  unfold Split.compare
  split
  · rename_i h
    rw [compareStr_eq, cmp_swap, ← cmp_parts (by simp; omega)]
    simp only [Split.str]
    rw [← List.append_assoc, List.take_append_drop]
  · split
    · rename_i h1 h2
      rw [← cmp_parts h2]; rfl
    · rename_i h1 h2
      rw [compareStr_eq, ← cmp_parts (by simp; omega)]
      simp only [Split.str]
      rw [← List.append_assoc, List.take_append_drop]

/-- Lexicographic comparison of sequences. -/
def cmpList : List Bytes → List Bytes → Ordering
  | [], [] => .eq
  | [], _ :: _ => .lt
  | _ :: _, [] => .gt
  | a :: as, b :: bs => (cmp a b).then (cmpList as bs)

theorem cmpList_lt_iff {a b : List Bytes} : cmpList a b = .lt ↔ a < b := by
  induction a generalizing b with
  | nil => cases b <;> simp [cmpList]
  | cons x a ih =>
    cases b with
    | nil => simp [cmpList]
    | cons y b =>
      simp only [cmpList, List.cons_lt_cons_iff]
      cases hc : cmp x y with
      | lt => simp [Ordering.then, cmp_lt_iff.1 hc]
      | eq =>
        have := cmp_eq_iff.1 hc
        subst this
        simp [Ordering.then, ih, lt_irrefl']
      | gt =>
        have hlt := cmp_gt_iff.1 hc
        simp only [Ordering.then, reduceCtorEq, false_iff]
        rintro (h | ⟨rfl, _⟩)
        · exact lt_irrefl' x (lt_trans' h hlt)
        · exact lt_irrefl' x hlt

theorem cmpList_eq_iff {a b : List Bytes} : cmpList a b = .eq ↔ a = b := by
  induction a generalizing b with
  | nil => cases b <;> simp [cmpList]
  | cons x a ih =>
    cases b with
    | nil => simp [cmpList]
    | cons y b =>
      simp only [cmpList]
      cases hc : cmp x y with
      | lt => simp [Ordering.then]; rintro rfl; rw [cmp_self] at hc; cases hc
      | eq =>
        have := cmp_eq_iff.1 hc
        subst this
        simp [Ordering.then, ih]
      | gt => simp [Ordering.then]; rintro rfl; rw [cmp_self] at hc; cases hc

theorem cmpList_gt_iff {a b : List Bytes} : cmpList a b = .gt ↔ b < a := by
  induction a generalizing b with
  | nil => cases b <;> simp [cmpList]
  | cons x a ih =>
    cases b with
    | nil => simp [cmpList]
    | cons y b =>
      simp only [cmpList, List.cons_lt_cons_iff]
      cases hc : cmp x y with
      | gt => simp [Ordering.then, cmp_gt_iff.1 hc]
      | eq =>
        have := cmp_eq_iff.1 hc
        subst this
        simp [Ordering.then, ih, lt_irrefl']
      | lt =>
        have hlt := cmp_lt_iff.1 hc
        simp only [Ordering.then, reduceCtorEq, false_iff]
        rintro (h | ⟨rfl, _⟩)
        · exact lt_irrefl' x (lt_trans' hlt h)
        · exact lt_irrefl' y hlt

section
variable {ι κ : Type} {isEnd : ι → Bool} {next : ι → Option ι} {deref : ι → Option Split}
  {isEnd' : κ → Bool} {next' : κ → Option κ} {deref' : κ → Option Split}

theorem compareLoop_eq {xs : List Split} : ∀ {ys : List Split} {a : ι} {b : κ}, Yields isEnd next deref a xs →
    Yields isEnd' next' deref' b ys →
    compareLoop isEnd next deref isEnd' next' deref' a b = some (cmpList (xs.map (·.str)) (ys.map (·.str))) := by
  induction xs with
  | nil =>
    intro ys a b ha hb
    cases ha with
    | done h =>
      rw [compareLoop, if_pos h]
      cases hb with
      | done h' => rw [if_pos h']; rfl
      | cons h' _ _ _ => simp [h', cmpList]
  | cons x xs ih =>
    intro ys a b ha hb
    cases ha with
    | cons h1 h2 h3 h4 =>
      rw [compareLoop, if_neg (by simp [h1])]
      cases hb with
      | done h' => rw [if_pos h']; rfl
      | cons h1' h2' h3' h4' =>
        rw [if_neg (by simp [h1'])]
        simp only [h2, h2', Option.bind_eq_bind, Option.bind_some, Split.compare_eq, List.map_cons, cmpList]
        cases cmp x.str _ with
        | eq => simp only [h3, h3', Option.bind_some, Ordering.then]; exact ih h4 h4'
        | lt => rfl
        | gt => rfl

/-- What `std::equal` computes, using `SplitElement::Equal`. -/
def equalList : List Split → List Split → Bool
  | [], [] => true
  | a :: as, b :: bs => a.equal b && equalList as bs
  | _, _ => false

theorem equalLoop_eq {xs : List Split} : ∀ {ys : List Split} {a : ι} {b : κ}, Yields isEnd next deref a xs →
    Yields isEnd' next' deref' b ys →
    equalLoop isEnd next deref isEnd' next' deref' a b = some (equalList xs ys) := by
  induction xs with
  | nil =>
    intro ys a b ha hb
    cases ha with
    | done h =>
      rw [equalLoop, if_pos h]
      cases hb with
      | done h' => rw [h']; rfl
      | cons h' _ _ _ => simp [h', equalList]
  | cons x xs ih =>
    intro ys a b ha hb
    cases ha with
    | cons h1 h2 h3 h4 =>
      rw [equalLoop, if_neg (by simp [h1])]
      cases hb with
      | done h' => rw [if_pos h']; rfl
      | cons h1' h2' h3' h4' =>
        rw [if_neg (by simp [h1'])]
        simp only [h2, h2', Option.bind_eq_bind, Option.bind_some, equalList]
        rename_i y _
        cases x.equal y with
        | true => simp only [if_true, h3, h3', Option.bind_some, Bool.true_and]; exact ih h4 h4'
        | false => simp
end

/-- `SplitElement::Equal` if the first element is not split earlier: it is right. -/
theorem Split.equal_of_ge {a b : Split} (h : b.pre.length ≤ a.pre.length) : a.equal b = decide (a.str = b.str) := by
  unfold Split.equal
  by_cases h1 : a.pre.length + a.suf.length ≠ b.pre.length + b.suf.length
  · rw [if_pos h1]
    symm
    rw [decide_eq_false_iff_not]
    intro h2
    have := congrArg List.length h2
    simp [Split.str] at this
    exact h1 this
  · rw [if_neg h1, if_neg (by omega)]
    split
    · rename_i h2
      rw [Bool.eq_iff_iff]
      simp only [Bool.and_eq_true, decide_eq_true_eq]
      show _ ↔ a.pre ++ a.suf = b.pre ++ b.suf
      constructor
      · rintro ⟨h3, h4⟩; rw [h3, h4]
      · intro h3; exact List.append_inj h3 h2
    · rename_i h2
      rw [Bool.eq_iff_iff]
      simp only [Bool.and_eq_true, decide_eq_true_eq]
      show _ ↔ a.pre ++ a.suf = b.pre ++ b.suf
      constructor
      · rintro ⟨⟨h3, h4⟩, h5⟩
        have e1 : a.pre = b.pre ++ b.suf.take (a.pre.length - b.pre.length) := by
          rw [← h4]; conv => rhs; lhs; rw [← h3]
          exact (List.take_append_drop _ _).symm
        have e2 := congr (congrArg (· ++ ·) e1) h5
        simp only [List.append_assoc, List.take_append_drop] at e2
        exact e2
      · intro h3
        have hp : a.pre.take b.pre.length = b.pre := by
          have := congrArg (List.take b.pre.length) h3
          rwa [List.take_append_of_le_length (by omega), List.take_left] at this
        have hd : a.pre.drop b.pre.length ++ a.suf = b.suf := by
          have := congrArg (List.drop b.pre.length) h3
          rwa [List.drop_append_of_le_length (by omega), List.drop_left] at this
        have hl : (a.pre.drop b.pre.length).length = a.pre.length - b.pre.length := by simp
        refine ⟨⟨hp, ?_⟩, ?_⟩
        · rw [← hd, ← hl, List.take_left]
        · rw [← hd, ← hl, List.drop_left]

/-- `SplitElement::Equal` if the first element is split earlier and the prefixes agree: it is `false`, whatever the elements. -/
theorem Split.equal_of_lt {a b : Split} (h : a.pre.length < b.pre.length) (hp : a.pre = b.pre.take a.pre.length) :
    a.equal b = false := by
  unfold Split.equal
  split
  · rfl
  · simp only [← hp]
    simp

theorem splitAt_pre_length {s : Nat} {e : Bytes} (h : s ≤ e.length) : (splitAt (s, e)).pre.length = s := by simp [splitAt, h]

/-- Exactly when the sets compare equal: they have the same elements, and no element of the first one is split earlier. -/
theorem equalList_iff {es : List (Nat × Bytes)} : ∀ {fs : List (Nat × Bytes)} {prev : Bytes}, SharedOk prev es → SharedOk prev fs →
    (equalList (es.map splitAt) (fs.map splitAt) = true ↔
      es.map (·.2) = fs.map (·.2) ∧ ∀ (i : Nat) (x y : Nat × Bytes), es[i]? = some x → fs[i]? = some y → y.1 ≤ x.1) := by
  induction es with
  | nil =>
    intro fs prev _ _
    cases fs <;> simp [equalList]
  | cons x es ih =>
    intro fs prev hx hy
    cases fs with
    | nil => simp [equalList]
    | cons y fs =>
      obtain ⟨s, e⟩ := x
      obtain ⟨t, f⟩ := y
      obtain ⟨hx1, hx2, hx3, hx4⟩ := hx
      obtain ⟨hy1, hy2, hy3, hy4⟩ := hy
      simp only [List.map_cons, equalList, Bool.and_eq_true]
      by_cases hst : t ≤ s
      · rw [Split.equal_of_ge (by rw [splitAt_pre_length hx2, splitAt_pre_length hy2]; exact hst)]
        simp only [splitAt_str, decide_eq_true_eq, List.cons.injEq]
        constructor
        · rintro ⟨rfl, h⟩
          obtain ⟨h1, h2⟩ := (ih hx4 hy4).1 h
          refine ⟨⟨rfl, h1⟩, ?_⟩
          intro i x y h3 h4
          cases i with
          | zero => simp at h3 h4; subst h3; subst h4; exact hst
          | succ i => exact h2 i x y (by simpa using h3) (by simpa using h4)
        · rintro ⟨⟨rfl, h1⟩, h2⟩
          refine ⟨rfl, (ih hx4 hy4).2 ⟨h1, ?_⟩⟩
          intro i x y h3 h4
          exact h2 (i + 1) x y (by simpa using h3) (by simpa using h4)
      · rw [Split.equal_of_lt (by rw [splitAt_pre_length hx2, splitAt_pre_length hy2]; omega)]
        · simp only [Bool.false_eq_true, false_and, false_iff, not_and]
          intro _ h
          have := h 0 _ _ rfl rfl
          exact absurd this hst
        · rw [splitAt_pre_length hx2]
          show e.take s = (f.take t).take s
          rw [hx3, hy3, List.take_take, Nat.min_eq_left (by omega)]

theorem equal_iff {a b : Bytes} {es fs : List (Nat × Bytes)} (ha : Represents [] a es) (hb : Represents [] b fs) :
    ∃ r, equal a b = some r ∧ (r = true ↔ es.map (·.2) = fs.map (·.2) ∧
      ∀ (i : Nat) (x y : Nat × Bytes), es[i]? = some x → fs[i]? = some y → y.1 ≤ x.1) := by
  obtain ⟨i, h1, h2⟩ := split_yields ha
  obtain ⟨j, h3, h4⟩ := split_yields hb
  refine ⟨_, ?_, equalList_iff ha.sharedOk hb.sharedOk⟩
  unfold equal
  simp only [h1, h3, Option.bind_eq_bind, Option.bind_some]
  exact equalLoop_eq h2 h4

theorem map_splitAt_str (es : List (Nat × Bytes)) : (es.map splitAt).map (·.str) = es.map (·.2) := by
  rw [List.map_map]; apply List.map_congr_left; intro x _; exact splitAt_str x

theorem compare_eq {a b : Bytes} {es fs : List (Nat × Bytes)} (ha : Represents [] a es) (hb : Represents [] b fs) :
    compare a b = some (cmpList (es.map (·.2)) (fs.map (·.2))) := by
  obtain ⟨i, h1, h2⟩ := split_yields ha
  obtain ⟨j, h3, h4⟩ := split_yields hb
  unfold compare
  simp only [h1, h3, Option.bind_eq_bind, Option.bind_some]
  rw [compareLoop_eq h2 h4, map_splitAt_str, map_splitAt_str]

end Riegeli.StrSet

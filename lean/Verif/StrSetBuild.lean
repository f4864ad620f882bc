import Verif.StrSetOps
/-!
# String sets: building, encoding and decoding
-/
namespace Riegeli.StrSet

/-! ## Building -/

/-- What `TryInsertNext` returns for each of the elements, given the last element inserted before, and which of them are inserted. -/
def insertSpec : Option Bytes → List Bytes → List Inserted × List Bytes
  | _, [] => ([], [])
  | none, e :: es => (.yes :: (insertSpec (some e) es).1, e :: (insertSpec (some e) es).2)
  | some l, e :: es =>
    if l < e then (.yes :: (insertSpec (some e) es).1, e :: (insertSpec (some e) es).2)
    else ((if e = l then .no else .unsorted) :: (insertSpec (some l) es).1, (insertSpec (some l) es).2)

/-- The shared length chosen by the builder. -/
def canonShared (prev e : Bytes) : Nat := if lcp prev e = 1 then 0 else lcp prev e

/-- The shared lengths are those chosen by the builder. -/
def Canon : Bytes → List (Nat × Bytes) → Prop
  | _, [] => True
  | prev, (s, e) :: es => s = canonShared prev e ∧ Canon e es

/-- The last of the elements. -/
def lastOf (es : List (Nat × Bytes)) : Option Bytes := es.getLast?.map (·.2)

theorem lastOf_snoc (es : List (Nat × Bytes)) (x : Nat × Bytes) : lastOf (es ++ [x]) = some x.2 := by simp [lastOf]

theorem Canon.snoc {prev : Bytes} {es : List (Nat × Bytes)} {x : Nat × Bytes} (h : Canon prev es)
    (hx : x.1 = canonShared ((lastOf es).getD prev) x.2) : Canon prev (es ++ [x]) := by
  induction es generalizing prev with
  | nil => exact ⟨by simpa [lastOf] using hx, trivial⟩
  | cons e es ih =>
    obtain ⟨s, e⟩ := e
    refine ⟨h.1, ih h.2 ?_⟩
    rw [hx]
    congr 1
    cases es with
    | nil => simp [lastOf]
    | cons y es =>
      simp only [lastOf, List.getLast?_cons_cons]
      rw [List.getLast?_eq_some_getLast (by simp)]; rfl

/-- The invariant of the builder: `es` was inserted. -/
def BInv (b : Builder) (es : List (Nat × Bytes)) : Prop :=
  Represents [] b.written es ∧ b.size = es.length ∧ b.last = (lastOf es).getD [] ∧ Canon [] es

theorem BInv.new : BInv Builder.new [] := ⟨.nil _, rfl, rfl, trivial⟩

theorem lcp_nil (e : Bytes) : lcp [] e = 0 := by simp [lcp]

theorem cmp_lcp' (a b : Bytes) : cmp (b.drop (lcp a b)) (a.drop (lcp a b)) = cmp b a := by
  rw [← cmp_swap, cmp_lcp, cmp_swap]

theorem take_canon (a e : Bytes) : a.take (canonShared a e) = e.take (canonShared a e) := by
  unfold canonShared
  split
  · simp
  · exact lcp_take a e

theorem canon_le (a e : Bytes) : canonShared a e ≤ a.length ∧ canonShared a e ≤ e.length := by
  have := lcp_le a e
  unfold canonShared
  split <;> omega

theorem tryInsertNext_yes {b : Builder} {es : List (Nat × Bytes)} (h : BInv b es) {e : Bytes} (he : e.length < 2 ^ 63)
    (hlt : ∀ l, lastOf es = some l → l < e) :
    ∃ b', b.tryInsertNext e = (.yes, b') ∧ BInv b' (es ++ [(canonShared ((lastOf es).getD []) e, e)]) := by
  obtain ⟨h1, h2, h3, h4⟩ := h
  have hcond : ¬(cmp (e.drop (lcp b.last e)) (b.last.drop (lcp b.last e)) ≠ .gt ∧ b.size ≠ 0) := by
    rintro ⟨hc, hs⟩
    apply hc
    rw [cmp_lcp', cmp_gt_iff]
    cases hl : lastOf es with
    | none =>
      exfalso
      have : es = [] := by simpa [lastOf] using hl
      subst this; exact hs h2
    | some l =>
      rw [h3, hl]
      exact hlt l hl
  unfold Builder.tryInsertNext
  simp only [commonPrefix_eq]
  rw [if_neg hcond]
  have hcs : (if lcp b.last e = 1 then 0 else lcp b.last e) = canonShared b.last e := rfl
  rw [hcs]
  have hle := canon_le b.last e
  refine ⟨_, rfl, ?_, by simp [h2], ?_, h4.snoc (by simp)⟩
  · -- the encoding
    rw [List.append_assoc, List.append_assoc]
    refine h1.append ?_
    have hprev : (es.getLast?.map (·.2)).getD [] = b.last := by rw [h3]; rfl
    rw [hprev, show (lastOf es).getD [] = b.last from h3.symm]
    have hw : w64 (2 * (e.drop (canonShared b.last e)).length) = 2 * (e.drop (canonShared b.last e)).length := by
      unfold w64; apply Nat.mod_eq_of_lt
      rw [List.length_drop]; omega
    rw [hw]
    have hdl : (e.drop (canonShared b.last e)).length ≤ e.length := by rw [List.length_drop]; omega
    rcases Nat.eq_zero_or_pos (canonShared b.last e) with hz | hp
    · rw [hz] at hdl ⊢
      simp only [Nat.lt_irrefl, if_false, List.drop_zero, Nat.add_zero, List.nil_append] at hdl ⊢
      have := Represents.unshared (prev := b.last) (u := e) (rest := []) (es := [])
        (Varint64.write (x := 2 * e.length) (by omega)) (.nil _)
      simpa using this
    · rw [if_pos hp, if_pos hp]
      obtain ⟨k, hk⟩ : ∃ k, canonShared b.last e = k + 1 := ⟨_, (Nat.sub_add_cancel hp).symm⟩
      have htk := take_canon b.last e
      rw [hk] at htk hdl hle ⊢
      have := Represents.shared (prev := b.last) (u := e.drop (k + 1)) (rest := []) (es := []) (s := k)
        (Varint64.write (x := 2 * (e.drop (k + 1)).length + 1) (by omega)) (Varint64.write (x := k) (by omega)) hle.1 (.nil _)
      rw [htk, List.take_append_drop, List.append_nil] at this
      rw [Nat.add_sub_cancel]
      exact this
  · show List.take _ _ ++ List.drop _ _ = _
    rw [take_canon, List.take_append_drop, lastOf_snoc]
    rfl

theorem tryInsertNext_not {b : Builder} {es : List (Nat × Bytes)} (h : BInv b es) {e l : Bytes}
    (hl : lastOf es = some l) (hlt : ¬l < e) :
    b.tryInsertNext e = (if e = l then .no else .unsorted, b) := by
  obtain ⟨h1, h2, h3, h4⟩ := h
  have hb : b.last = l := by rw [h3, hl]; rfl
  have hs : b.size ≠ 0 := by
    rw [h2]; intro h0
    have : es = [] := List.eq_nil_of_length_eq_zero h0
    subst this; simp [lastOf] at hl
  unfold Builder.tryInsertNext
  simp only [commonPrefix_eq]
  rw [if_pos ⟨by rw [cmp_lcp', Ne, cmp_gt_iff, hb]; exact hlt, hs⟩]
  have hiff : e.drop (lcp b.last e) = b.last.drop (lcp b.last e) ↔ e = l := by
    rw [← cmp_eq_iff, cmp_lcp', cmp_eq_iff, hb]
  by_cases hel : e = l
  · rw [if_pos (hiff.2 hel), if_pos hel]
  · rw [if_neg (fun h => hel (hiff.1 h)), if_neg hel]

theorem insertAll_eq {src : List Bytes} : ∀ {b : Builder} {es : List (Nat × Bytes)}, BInv b es →
    (∀ e ∈ src, e.length < 2 ^ 63) →
    ∃ b' fs, b.insertAll src = ((insertSpec (lastOf es) src).1, b') ∧ BInv b' (es ++ fs) ∧
      fs.map (·.2) = (insertSpec (lastOf es) src).2 := by
  induction src with
  | nil =>
    intro b es h _
    refine ⟨b, [], ?_, by simpa using h, ?_⟩ <;> cases lastOf es <;> rfl
  | cons e src ih =>
    intro b es h hb
    have hbe := hb e (by simp)
    have hbs : ∀ e ∈ src, e.length < 2 ^ 63 := fun x hx => hb x (by simp [hx])
    by_cases hc : ∀ l, lastOf es = some l → l < e
    · obtain ⟨b1, h1, h2⟩ := tryInsertNext_yes h hbe hc
      obtain ⟨b2, fs, h3, h4, h5⟩ := ih h2 hbs
      rw [lastOf_snoc] at h3 h5
      refine ⟨b2, (canonShared ((lastOf es).getD []) e, e) :: fs, ?_, by simpa using h4, ?_⟩
      · simp only [Builder.insertAll, h1, h3]
        cases hl : lastOf es with
        | none => rfl
        | some l => simp only [insertSpec]; rw [if_pos (hc l hl)]
      · simp only [List.map_cons, h5]
        cases hl : lastOf es with
        | none => rfl
        | some l => simp only [insertSpec]; rw [if_pos (hc l hl)]
    · obtain ⟨l, hl, hnl⟩ : ∃ l, lastOf es = some l ∧ ¬l < e := by
        cases hl : lastOf es with
        | none => exact absurd (fun l h => by rw [hl] at h; cases h) hc
        | some l => exact ⟨l, rfl, fun h => hc (fun l' h' => by rw [hl] at h'; cases h'; exact h)⟩
      have h1 := tryInsertNext_not h hl hnl
      obtain ⟨b2, fs, h3, h4, h5⟩ := ih h hbs
      refine ⟨b2, fs, ?_, h4, ?_⟩
      · simp only [Builder.insertAll, h1, h3, hl, insertSpec, if_neg hnl]
      · rw [h5, hl]; simp only [insertSpec, if_neg hnl]

/-- What a builder makes. -/
theorem build_spec {src : List Bytes} (h : ∀ e ∈ src, e.length < 2 ^ 63) :
    ∃ b es, Builder.new.insertAll src = ((insertSpec none src).1, b) ∧ Represents [] b.build.1 es ∧ Canon [] es ∧
      es.map (·.2) = (insertSpec none src).2 ∧ b.size = es.length ∧ b.last = (lastOf es).getD [] := by
  obtain ⟨b, fs, h1, h2, h3⟩ := insertAll_eq BInv.new h
  rw [List.nil_append] at h2
  exact ⟨b, fs, h1, h2.1, h2.2.2.2, h3, h2.2.1, h2.2.2.1⟩

/-- Each element is greater than the previous one. -/
def After : Option Bytes → List Bytes → Prop
  | _, [] => True
  | none, e :: es => After (some e) es
  | some l, e :: es => l < e ∧ After (some e) es

theorem after_some {l : Bytes} {es : List Bytes} : After (some l) es ↔ (∀ e ∈ es, l < e) ∧ Sorted es := by
  induction es generalizing l with
  | nil => simp [After, Sorted]
  | cons e es ih =>
    simp only [After, ih]
    constructor
    · rintro ⟨h1, h2, h3⟩
      refine ⟨?_, List.pairwise_cons.2 ⟨h2, h3⟩⟩
      intro x hx
      rcases List.mem_cons.1 hx with rfl | hx
      · exact h1
      · exact lt_trans' h1 (h2 x hx)
    · rintro ⟨h1, h2⟩
      have h2 := List.pairwise_cons.1 h2
      exact ⟨h1 e (by simp), h2.1, h2.2⟩

theorem after_none {es : List Bytes} : After none es ↔ Sorted es := by
  cases es with
  | nil => simp [After, Sorted]
  | cons e es => simp only [After, after_some]; exact List.pairwise_cons.symm

theorem insertSpec_after (l : Option Bytes) (src : List Bytes) : After l (insertSpec l src).2 := by
  induction src generalizing l with
  | nil => cases l <;> trivial
  | cons e src ih =>
    cases l with
    | none => exact ih (some e)
    | some l =>
      simp only [insertSpec]
      split
      · rename_i h; exact ⟨h, ih (some e)⟩
      · exact ih (some l)

/-- Strictly increasing elements are all inserted. -/
theorem insertSpec_sorted {l : Option Bytes} {src : List Bytes} (h : After l src) :
    insertSpec l src = (src.map (fun _ => .yes), src) := by
  induction src generalizing l with
  | nil => cases l <;> rfl
  | cons e src ih =>
    cases l with
    | none =>
      simp only [insertSpec, List.map_cons]
      rw [ih (l := some e) h]
    | some l =>
      obtain ⟨h1, h2⟩ := h
      simp only [insertSpec, List.map_cons]
      rw [if_pos h1, ih h2]

/-- Each element is not less than the previous one. -/
abbrev WeaklySorted (es : List Bytes) : Prop := es.Pairwise (fun a b => ¬b < a)

theorem not_lt_trans {a b c : Bytes} (h1 : ¬b < a) (h2 : ¬c < b) : ¬c < a := by
  intro h3
  rcases hc : cmp b c with _ | _ | _
  · exact h1 (lt_trans' (cmp_lt_iff.1 hc) h3)
  · rw [cmp_eq_iff.1 hc] at h1; exact h1 h3
  · exact h2 (cmp_gt_iff.1 hc)

theorem insertSpec_weak {src : List Bytes} : ∀ {l : Option Bytes}, WeaklySorted src → (∀ x, l = some x → ∀ e ∈ src, ¬e < x) →
    (∀ r ∈ (insertSpec l src).1, r ≠ .unsorted) ∧ ∀ x, (x ∈ (insertSpec l src).2 ↔ x ∈ src ∧ some x ≠ l) := by
  induction src with
  | nil => intro l _ _; cases l <;> simp [insertSpec]
  | cons e src ih =>
    intro l h hl
    have h := List.pairwise_cons.1 h
    obtain ⟨ih1, ih2⟩ := ih (l := some e) h.2 (by rintro x ⟨rfl⟩; exact h.1)
    cases l with
    | none =>
      simp only [insertSpec, List.mem_cons, forall_eq_or_imp]
      refine ⟨⟨by simp, ih1⟩, fun x => ?_⟩
      rw [ih2]
      by_cases hx : x = e <;> simp [hx]
    | some l =>
      simp only [insertSpec]
      split
      · rename_i hlt
        simp only [List.mem_cons, forall_eq_or_imp]
        refine ⟨⟨by simp, ih1⟩, fun x => ?_⟩
        rw [ih2]
        by_cases hx : x = e
        · subst hx
          have : x ≠ l := by rintro rfl; exact lt_irrefl' _ hlt
          simp [this]
        · simp only [hx, false_or, Option.some.injEq, ne_eq, not_false_eq_true, and_true]
          constructor
          · intro hxs
            refine ⟨hxs, ?_⟩
            rintro rfl
            exact h.1 x hxs hlt
          · exact fun h => h.1
      · rename_i hnl
        have hel : e = l := by
          rcases hc : cmp e l with _ | _ | _
          · exact absurd (cmp_lt_iff.1 hc) (hl l rfl e (by simp))
          · exact cmp_eq_iff.1 hc
          · exact absurd (cmp_gt_iff.1 hc) hnl
        subst hel
        simp only [if_true, List.mem_cons, forall_eq_or_imp]
        refine ⟨⟨by simp, ih1⟩, fun x => ?_⟩
        rw [ih2]
        by_cases hx : x = e <;> simp [hx]

/-- Inserting something out of order is reported. -/
theorem insertSpec_unsorted {src : List Bytes} : ∀ {l : Option Bytes}, (∀ r ∈ (insertSpec l src).1, r ≠ .unsorted) →
    WeaklySorted src ∧ (∀ x, l = some x → ∀ e ∈ src, ¬e < x) := by
  induction src with
  | nil => intro l _; simp
  | cons e src ih =>
    intro l h
    cases l with
    | none =>
      simp only [insertSpec, List.mem_cons, forall_eq_or_imp] at h
      obtain ⟨h1, h2⟩ := ih h.2
      exact ⟨List.pairwise_cons.2 ⟨h2 e rfl, h1⟩, by simp⟩
    | some l =>
      simp only [insertSpec] at h
      split at h
      · rename_i hlt
        simp only [List.mem_cons, forall_eq_or_imp] at h
        obtain ⟨h1, h2⟩ := ih h.2
        refine ⟨List.pairwise_cons.2 ⟨h2 e rfl, h1⟩, ?_⟩
        rintro x ⟨rfl⟩ y hy
        have hle : ¬e < l := fun h => lt_irrefl' _ (lt_trans' h hlt)
        rcases List.mem_cons.1 hy with rfl | hy
        · exact hle
        · exact not_lt_trans hle (h2 e rfl y hy)
      · simp only [List.mem_cons, forall_eq_or_imp] at h
        have hel : e = l := by
          by_cases hel : e = l
          · exact hel
          · simp [hel] at h
        subst hel
        obtain ⟨h1, h2⟩ := ih h.2
        refine ⟨List.pairwise_cons.2 ⟨h2 e rfl, h1⟩, ?_⟩
        rintro x ⟨rfl⟩ y hy
        rcases List.mem_cons.1 hy with rfl | hy
        · exact lt_irrefl' _
        · exact h2 e rfl y hy

theorem Canon.eq {es : List (Nat × Bytes)} : ∀ {fs : List (Nat × Bytes)} {prev : Bytes}, Canon prev es → Canon prev fs →
    es.map (·.2) = fs.map (·.2) → es = fs := by
  induction es with
  | nil => intro fs prev _ _ h; cases fs <;> simp_all
  | cons x es ih =>
    intro fs prev h1 h2 h
    cases fs with
    | nil => simp at h
    | cons y fs =>
      obtain ⟨s, e⟩ := x
      obtain ⟨t, f⟩ := y
      simp only [List.map_cons, List.cons.injEq] at h
      obtain ⟨rfl, h⟩ := h
      rw [h1.1, h2.1, ih h1.2 h2.2 h]

/-! ## Decoding -/

/-- The state of decoding after the element `e`. -/
def DInv (enc : Bytes) (validate : Bool) (s : DecLoop) (e rest : Bytes) : Prop :=
  ∃ d, enc = d ++ rest ∧ s.ptr = d.length ∧ s.currentLength = e.length ∧
    (validate = true → (s.shared ≠ [] → s.validated = some s.shared) ∧ (s.validated = some e ∨ e = []))

theorem notAfter_iff {new : Bytes} {n : Nat} {cur : Option Bytes} :
    notAfter new n cur = true ↔ ∃ c, cur = some c ∧ ¬c.drop n < new := by
  cases cur with
  | none => simp [notAfter]
  | some c =>
    simp only [notAfter, decide_eq_true_eq, Option.some.injEq, exists_eq_left']
    rw [Ne, cmp_gt_iff]

theorem drop_lt_iff {e u : Bytes} {k : Nat} : e.drop k < u ↔ e < e.take k ++ u := by
  rw [← cmp_lt_iff, ← cmp_lt_iff]
  conv => rhs; lhs; lhs; rw [← List.take_append_drop k e]
  rw [cmp_append]

/-- The last element, or what was before. -/
def lastElem (l : Option Bytes) (es : List Bytes) : Option Bytes :=
  match es.getLast? with
  | some e => some e
  | none => l

theorem lastElem_cons (l : Option Bytes) (e : Bytes) (es : List Bytes) : lastElem l (e :: es) = lastElem (some e) es := by
  unfold lastElem
  cases es with
  | nil => rfl
  | cons y es => rw [List.getLast?_cons_cons, List.getLast?_eq_some_getLast (by simp)]

/-- Completeness of the loop: it accepts. -/
theorem decodeLoop_complete {enc : Bytes} {validate : Bool} {e rest : Bytes} {es : List (Nat × Bytes)} (hr : Represents e rest es) :
    ∀ {s : DecLoop}, DInv enc validate s e rest → (validate = true → After s.validated (es.map (·.2))) →
    ∃ s', decodeLoop enc validate s = some (.ok s') ∧ s'.size = s.size + es.length ∧
      (validate = true → s'.validated = lastElem s.validated (es.map (·.2)) ∧ (s'.shared ≠ [] → s'.validated = some s'.shared)) := by
  induction hr with
  | nil e =>
    rintro s ⟨d, he, hp, _, hv⟩ _
    refine ⟨s, ?_, by simp, fun h => ⟨rfl, (hv h).1⟩⟩
    rw [decodeLoop, if_pos (by rw [hp, he]; simp)]
  | @unshared prev v u rest es hv hr ih =>
    rintro s ⟨d, he, hp, hc, hval⟩ ha
    have hpos := hv.pos
    rw [decodeLoop, if_neg (by rw [hp, he]; simp only [List.length_append]; omega)]
    have hsl : slice enc (d.length + v.length) u.length = u := by
      have := slice_at (d ++ v) u rest
      rwa [List.length_append, List.append_assoc, ← he] at this
    have hstep : ∃ s', decodeStep enc validate s = some (.ok s') ∧ s'.ptr = d.length + v.length + u.length ∧
        s'.size = s.size + 1 ∧ s'.currentLength = u.length ∧ (validate = true → s'.shared = [] ∧ s'.validated = some u) := by
      unfold decodeStep
      simp only [hp, readAt_varint hv he, show 2 * u.length % 2 = 0 by omega, if_true, show 2 * u.length / 2 = u.length by omega,
        hsl]
      rw [if_neg (by rw [he]; simp; omega)]
      cases validate with
      | false => exact ⟨_, rfl, rfl, rfl, rfl, by simp⟩
      | true =>
        simp only [if_true]
        have : ¬notAfter u 0 s.validated = true := by
          rw [notAfter_iff]
          rintro ⟨c, h1, h2⟩
          have ha := ha rfl
          rw [h1] at ha
          exact h2 (by simpa using ha.1)
        rw [if_neg this]
        exact ⟨_, rfl, rfl, rfl, rfl, fun _ => ⟨rfl, rfl⟩⟩
    obtain ⟨s1, h1, h2, h3, h4, h5⟩ := hstep
    rw [h1]
    simp only
    obtain ⟨s2, h6, h7, h8⟩ := ih (s := s1) ⟨d ++ v ++ u, by rw [he]; simp, by rw [h2]; simp; omega, h4,
      fun h => ⟨fun h' => absurd (h5 h).1 h', .inl (h5 h).2⟩⟩ (by
        intro h
        rw [(h5 h).2]
        have := ha h
        cases hsv : s.validated with
        | none => rw [hsv] at this; exact this
        | some c => rw [hsv] at this; exact this.2)
    refine ⟨s2, h6, by rw [h7, h3]; simp; omega, fun h => ?_⟩
    refine ⟨?_, (h8 h).2⟩
    rw [(h8 h).1, (h5 h).2, List.map_cons, lastElem_cons]
  | @shared prev v w u rest k es hv hw hs hr ih =>
    rintro s ⟨d, he, hp, hc, hval⟩ ha
    have hpos := hv.pos
    rw [decodeLoop, if_neg (by rw [hp, he]; simp only [List.length_append]; omega)]
    have hsl : slice enc (d.length + v.length + w.length) u.length = u := by
      have := slice_at (d ++ v ++ w) u rest
      rwa [show (d ++ v ++ w) ++ (u ++ rest) = enc by rw [he]; simp,
        show (d ++ v ++ w).length = d.length + v.length + w.length by simp; omega] at this
    have h2 := readAt_varint (enc := enc) (d := d ++ v) (r := u ++ rest) hw (by rw [he]; simp)
    rw [List.length_append] at h2
    have hstep : ∃ s', decodeStep enc validate s = some (.ok s') ∧ s'.ptr = d.length + v.length + w.length + u.length ∧
        s'.size = s.size + 1 ∧ s'.currentLength = k + 1 + u.length ∧
        (validate = true → s'.shared = prev.take (k + 1) ++ u ∧ s'.validated = some (prev.take (k + 1) ++ u)) := by
      unfold decodeStep
      simp only [hp, readAt_varint hv he, h2, show ¬(2 * u.length + 1) % 2 = 0 by omega, if_false,
        show (2 * u.length + 1) / 2 = u.length by omega, hsl]
      rw [if_neg (by omega), if_neg (by rw [he]; simp; omega)]
      cases validate with
      | false => exact ⟨_, rfl, rfl, rfl, rfl, by simp⟩
      | true =>
        simp only [if_true]
        have hve : s.validated = some prev := by
          rcases (hval rfl).2 with h | h
          · exact h
          · subst h; simp at hs
        have hn : ¬notAfter u (k + 1) s.validated = true := by
          rw [notAfter_iff]
          rintro ⟨c, h3, h4⟩
          have ha := ha rfl
          rw [h3] at ha
          rw [hve] at h3
          cases h3
          exact h4 (drop_lt_iff.2 ha.1)
        rw [if_neg hn]
        have hcur : (if s.shared = [] then s.validated else some s.shared) = some prev := by
          split
          · exact hve
          · rename_i h; rw [← (hval rfl).1 h, hve]
        rw [hcur]
        simp only
        rw [if_pos (by omega)]
        exact ⟨_, rfl, rfl, rfl, rfl, fun _ => ⟨rfl, rfl⟩⟩
    obtain ⟨s1, h1, h2', h3, h4, h5⟩ := hstep
    rw [h1]
    simp only
    obtain ⟨s2, h6, h7, h8⟩ := ih (s := s1) ⟨d ++ v ++ w ++ u, by rw [he]; simp, by rw [h2']; simp; omega,
      by rw [h4]; simp; omega,
      fun h => ⟨fun h' => by rw [(h5 h).2, (h5 h).1], .inl (h5 h).2⟩⟩ (by
        intro h
        rw [(h5 h).2]
        have := ha h
        cases hsv : s.validated with
        | none => rw [hsv] at this; exact this
        | some c => rw [hsv] at this; exact this.2)
    refine ⟨s2, h6, by rw [h7, h3]; simp; omega, fun h => ?_⟩
    refine ⟨?_, (h8 h).2⟩
    rw [(h8 h).1, (h5 h).2, List.map_cons, lastElem_cons]

/-- One step: it fails, or reads one more element. -/
theorem decodeStep_cases {enc : Bytes} {validate : Bool} {s : DecLoop} {e rest : Bytes} (h : DInv enc validate s e rest) :
    (∃ err, decodeStep enc validate s = some (.error err)) ∨
    (∃ s' x rest', decodeStep enc validate s = some (.ok s') ∧ DInv enc validate s' x.2 rest' ∧ rest'.length < rest.length ∧
      (∀ es, Represents x.2 rest' es → Represents e rest (x :: es)) ∧
      (validate = true → s'.validated = some x.2 ∧ ∀ l, s.validated = some l → l < x.2)) := by
  obtain ⟨d, he, hp, hc, hval⟩ := h
  unfold decodeStep
  rw [hp]
  cases hra : readAt enc d.length with
  | none => exact .inl ⟨_, rfl⟩
  | some r =>
    obtain ⟨tagged, ptr⟩ := r
    obtain ⟨v, r1, rfl, hv, rfl⟩ := readAt_inv he hra
    simp only
    have hpos := hv.pos
    by_cases h0 : tagged % 2 = 0
    · rw [if_pos h0]
      by_cases h1 : enc.length - (d.length + v.length) < tagged / 2
      · rw [if_pos h1]; exact .inl ⟨_, rfl⟩
      · rw [if_neg h1]
        have hlen : tagged / 2 ≤ r1.length := by rw [he] at h1; simp at h1; omega
        obtain ⟨u, rest', rfl, hu⟩ : ∃ u rest', r1 = u ++ rest' ∧ u.length = tagged / 2 :=
          ⟨r1.take (tagged / 2), r1.drop (tagged / 2), (List.take_append_drop _ _).symm, by simp; omega⟩
        have htag : tagged = 2 * u.length := by omega
        subst htag
        have hsl : slice enc (d.length + v.length) u.length = u := by
          have := slice_at (d ++ v) u rest'
          rwa [List.length_append, List.append_assoc, ← he] at this
        rw [show 2 * u.length / 2 = u.length by omega, hsl]
        have hrep : ∀ es, Represents u rest' es → Represents e (v ++ (u ++ rest')) ((0, u) :: es) := fun es h => .unshared hv h
        cases validate with
        | false =>
          refine .inr ⟨_, (0, u), rest', rfl, ⟨d ++ v ++ u, by rw [he]; simp, by simp; omega, rfl, by simp⟩, by simp; omega,
            hrep, by simp⟩
        | true =>
          simp only [if_true]
          by_cases h2 : notAfter u 0 s.validated = true
          · rw [if_pos h2]; exact .inl ⟨_, rfl⟩
          · rw [if_neg h2]
            refine .inr ⟨_, (0, u), rest', rfl, ⟨d ++ v ++ u, by rw [he]; simp, by simp; omega, rfl, ?_⟩, by simp; omega,
              hrep, fun _ => ⟨rfl, ?_⟩⟩
            · intro _; exact ⟨by simp, .inl rfl⟩
            · intro l hl
              by_cases hlt : l < u
              · exact hlt
              · exact absurd (notAfter_iff.2 ⟨l, hl, by simpa using hlt⟩) h2
    · rw [if_neg h0]
      cases hrb : readAt enc (d.length + v.length) with
      | none => exact .inl ⟨_, rfl⟩
      | some r =>
        obtain ⟨k, ptr⟩ := r
        rw [← List.length_append] at hrb
        obtain ⟨w, r2, rfl, hw, rfl⟩ := readAt_inv (tl := r1) (by rw [he]; simp) hrb
        simp only
        by_cases h1 : s.currentLength ≤ k
        · rw [if_pos h1]; exact .inl ⟨_, rfl⟩
        · rw [if_neg h1]
          by_cases h2 : enc.length - ((d ++ v).length + w.length) < tagged / 2
          · rw [if_pos h2]; exact .inl ⟨_, rfl⟩
          · rw [if_neg h2]
            have hlen : tagged / 2 ≤ r2.length := by rw [he] at h2; simp at h2; omega
            obtain ⟨u, rest', rfl, hu⟩ : ∃ u rest', r2 = u ++ rest' ∧ u.length = tagged / 2 :=
              ⟨r2.take (tagged / 2), r2.drop (tagged / 2), (List.take_append_drop _ _).symm, by simp; omega⟩
            have htag : tagged = 2 * u.length + 1 := by omega
            subst htag
            have hsl : slice enc ((d ++ v).length + w.length) u.length = u := by
              have := slice_at (d ++ v ++ w) u rest'
              rwa [show (d ++ v ++ w) ++ (u ++ rest') = enc by rw [he]; simp,
                List.length_append] at this
            rw [show (2 * u.length + 1) / 2 = u.length by omega, hsl]
            have hrep : ∀ es, Represents (e.take (k + 1) ++ u) rest' es →
                Represents e (v ++ (w ++ (u ++ rest'))) ((k + 1, e.take (k + 1) ++ u) :: es) :=
              fun es h => .shared hv hw (by omega) h
            have hl1 : (e.take (k + 1) ++ u).length = k + 1 + u.length := by simp; omega
            cases validate with
            | false =>
              refine .inr ⟨_, (k + 1, e.take (k + 1) ++ u), rest', rfl, ⟨d ++ v ++ w ++ u, by rw [he]; simp, by simp; omega,
                hl1.symm, by simp⟩, by simp; omega, hrep, by simp⟩
            | true =>
              simp only [if_true]
              have hve : s.validated = some e := by
                rcases (hval rfl).2 with h | h
                · exact h
                · subst h; simp at hc; omega
              have hcur : (if s.shared = [] then s.validated else some s.shared) = some e := by
                split
                · exact hve
                · rename_i h; rw [← (hval rfl).1 h, hve]
              by_cases h3 : notAfter u (k + 1) s.validated = true
              · rw [if_pos h3]; exact .inl ⟨_, rfl⟩
              · rw [if_neg h3, hcur]
                simp only
                rw [if_pos (by omega)]
                refine .inr ⟨_, (k + 1, e.take (k + 1) ++ u), rest', rfl, ⟨d ++ v ++ w ++ u, by rw [he]; simp, by simp; omega,
                  hl1.symm, ?_⟩, by simp; omega, hrep, fun _ => ⟨rfl, ?_⟩⟩
                · intro _; exact ⟨fun _ => rfl, .inl rfl⟩
                · intro l hl
                  rw [hve] at hl
                  cases hl
                  by_cases hlt : e < e.take (k + 1) ++ u
                  · exact hlt
                  · exact absurd (notAfter_iff.2 ⟨e, hve, fun h => hlt (drop_lt_iff.1 h)⟩) h3

/-- Soundness of the loop: it returns, and if it accepts then the encoding is well-formed. -/
theorem decodeLoop_sound {enc : Bytes} {validate : Bool} (n : Nat) : ∀ {s : DecLoop} {e rest : Bytes}, rest.length ≤ n →
    DInv enc validate s e rest →
    (∃ err, decodeLoop enc validate s = some (.error err)) ∨
    (∃ s' es, decodeLoop enc validate s = some (.ok s') ∧ Represents e rest es ∧
      (validate = true → After s.validated (es.map (·.2)))) := by
  induction n with
  | zero =>
    intro s e rest hn h
    obtain ⟨d, he, hp, hc, hval⟩ := h
    have : rest = [] := List.eq_nil_of_length_eq_zero (by omega)
    subst this
    refine .inr ⟨s, [], ?_, .nil _, fun _ => ?_⟩
    · rw [decodeLoop, if_pos (by rw [hp, he]; simp)]
    · cases s.validated <;> trivial
  | succ n ih =>
    intro s e rest hn h
    by_cases h0 : rest = []
    · subst h0; exact ih (by simp) h
    · have hne : s.ptr ≠ enc.length := by
        obtain ⟨d, he, hp, _⟩ := h
        rw [hp, he]; simp [h0]
      rw [decodeLoop, if_neg hne]
      rcases decodeStep_cases h with ⟨err, h1⟩ | ⟨s1, x, rest', h1, h2, h3, h4, h5⟩
      · rw [h1]; exact .inl ⟨_, rfl⟩
      · rw [h1]
        simp only
        rcases ih (by omega) h2 with ⟨err, h6⟩ | ⟨s2, es, h6, h7, h8⟩
        · exact .inl ⟨_, h6⟩
        · refine .inr ⟨s2, x :: es, h6, h4 es h7, fun hv => ?_⟩
          have h9 := h8 hv
          rw [(h5 hv).1] at h9
          cases hsv : s.validated with
          | none => exact h9
          | some l => exact ⟨(h5 hv).2 l hsv, h9⟩

/-- The state for the next set. -/
def stateAfter (validate : Bool) (es : List Bytes) (st : DecodeState) : DecodeState :=
  ⟨st.cumulativeSize + es.length, if validate then lastElem st.last es else st.last⟩

theorem decode_cases (src : Bytes) (o : DecodeOptions) :
    (∃ err, decode src o = some (.error err) ∧
      ¬∃ v enc rest es, src = v ++ (enc ++ rest) ∧ Varint64 v enc.length ∧ enc.length ≤ o.maxEncodedSize ∧
        Represents [] enc es ∧ (o.validate = true → After (o.decodeState.bind (·.last)) (es.map (·.2)))) ∨
    (∃ v enc rest es, src = v ++ (enc ++ rest) ∧ Varint64 v enc.length ∧ enc.length ≤ o.maxEncodedSize ∧
      Represents [] enc es ∧ (o.validate = true → After (o.decodeState.bind (·.last)) (es.map (·.2))) ∧
      decode src o = some (.ok (enc, o.decodeState.map (stateAfter o.validate (es.map (·.2))), rest))) := by
  cases hr : readVarint 64 false src with
  | none =>
    refine .inl ⟨.malformed, by unfold decode; rw [hr], ?_⟩
    rintro ⟨v, enc, rest, es, rfl, hv, _⟩
    rw [hv.read] at hr; cases hr
  | some q =>
    obtain ⟨n, r⟩ := q
    obtain ⟨v, rfl, hv⟩ := Varint64.of_read hr
    have huniq : ∀ v' enc rest, v ++ r = v' ++ (enc ++ rest) → Varint64 v' enc.length → n = enc.length ∧ r = enc ++ rest := by
      intro v' enc rest h1 h2
      rw [h1, h2.read] at hr
      simpa [eq_comm] using hr
    have hd : decode (v ++ r) o =
        if o.maxEncodedSize < n then some (.error .tooLarge)
        else if r.length < n then some (.error .malformed)
        else
          match decodeLoop (r.take n) o.validate ⟨0, 0, 0, [], o.decodeState.bind (·.last)⟩ with
          | none => none
          | some (.error e) => some (.error e)
          | some (.ok s) =>
            match updateState o.validate s o.decodeState with
            | none => none
            | some st => some (.ok (r.take n, st, r.drop n)) := by
      unfold decode; rw [hr]; rfl
    by_cases h1 : o.maxEncodedSize < n
    · refine .inl ⟨.tooLarge, by rw [hd, if_pos h1], ?_⟩
      rintro ⟨v', enc, rest, es, h2, h3, h4, _⟩
      have := (huniq v' enc rest h2 h3).1
      omega
    · by_cases h2 : r.length < n
      · refine .inl ⟨.malformed, by rw [hd, if_neg h1, if_pos h2], ?_⟩
        rintro ⟨v', enc, rest, es, h3, h4, _⟩
        obtain ⟨rfl, rfl⟩ := huniq v' enc rest h3 h4
        simp at h2; omega
      · have hD : DInv (r.take n) o.validate ⟨0, 0, 0, [], o.decodeState.bind (·.last)⟩ [] (r.take n) :=
          ⟨[], rfl, rfl, rfl, fun _ => ⟨by simp, .inr rfl⟩⟩
        have hl : (r.take n).length = n := by simp; omega
        rcases decodeLoop_sound _ (Nat.le_refl _) hD with ⟨err, h3⟩ | ⟨s', es, h3, h4, h5⟩
        · refine .inl ⟨err, by rw [hd, if_neg h1, if_neg h2, h3], ?_⟩
          rintro ⟨v', enc, rest, es, h4, h5, _, h6, h7⟩
          obtain ⟨rfl, rfl⟩ := huniq v' enc rest h4 h5
          rw [List.take_left] at h3 hD
          obtain ⟨s', h8, _⟩ := decodeLoop_complete h6 hD h7
          rw [h8] at h3; cases h3
        · obtain ⟨s2, h6, h7, h8⟩ := decodeLoop_complete h4 hD h5
          rw [h6] at h3
          have hss : s2 = s' := by simpa using h3
          subst hss
          refine .inr ⟨v, r.take n, r.drop n, es, by simp, by rw [hl]; exact hv, by omega, h4, h5, ?_⟩
          rw [hd, if_neg h1, if_neg h2, h6]
          simp only
          have hu : updateState o.validate s2 o.decodeState =
              some (o.decodeState.map (stateAfter o.validate (es.map (·.2)))) := by
            cases hds : o.decodeState with
            | none => rfl
            | some st =>
              simp only [updateState, Option.map_some, stateAfter, List.length_map]
              rw [h7, Nat.zero_add]
              cases hes : es with
              | nil =>
                simp only [List.length_nil, Nat.lt_irrefl, if_false]
                cases o.validate <;> rfl
              | cons x xs =>
                rw [if_pos (by simp)]
                cases hov : o.validate with
                | false => rfl
                | true =>
                  obtain ⟨h9, h10⟩ := h8 hov
                  have h11 : lastElem (o.decodeState.bind (·.last)) (es.map (·.2)) = lastElem st.last (es.map (·.2)) := by
                    rw [hds]; rfl
                  rw [h11] at h9
                  simp only [if_true]
                  rw [← hes]
                  by_cases hsh : s2.shared = []
                  · rw [if_pos hsh, h9]
                    have : ∃ c, lastElem st.last (es.map (·.2)) = some c := by
                      rw [hes, List.map_cons, lastElem, List.getLast?_eq_some_getLast (by simp)]
                      exact ⟨_, rfl⟩
                    obtain ⟨c, hc⟩ := this
                    rw [hc]
                  · rw [if_neg hsh, ← h10 hsh, h9]
          rw [hu]

end Riegeli.StrSet

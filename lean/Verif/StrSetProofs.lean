import Verif.StrSetSpec
/-!
# String sets: reading a well-formed encoding
-/
namespace Riegeli.StrSet

/-! ## Encodings -/

theorem Varint64.pos {v : Bytes} {x : Nat} (h : Varint64 v x) : 0 < v.length := by
  cases v with
  | nil => exact absurd h.1 (by simp [IsVarint])
  | cons => simp

theorem Varint64.read {v : Bytes} {x : Nat} (h : Varint64 v x) (rest : Bytes) :
    readVarint 64 false (v ++ rest) = some (x, rest) := by
  rw [readVarint_iff (by omega)]
  exact ⟨v, rfl, h.1, h.2.2.1, h.2.1, h.2.2.2, by simp⟩

theorem Varint64.of_read {src rest : Bytes} {x : Nat} (h : readVarint 64 false src = some (x, rest)) :
    ∃ v, src = v ++ rest ∧ Varint64 v x := by
  rw [readVarint_iff (by omega)] at h
  obtain ⟨v, h1, h2, h3, h4, h5, _⟩ := h
  exact ⟨v, h1, h2, h4, h3, h5⟩

theorem Varint64.write {x : Nat} (h : x < 2 ^ 64) : Varint64 (writeVarint x) x :=
  ⟨(writeVarint_spec x).1, maxLen_of_lt (w := 64) (by omega) h, (writeVarint_spec x).2, h⟩

theorem readAt_varint {enc d v r : Bytes} {x : Nat} (h : Varint64 v x) (he : enc = d ++ (v ++ r)) :
    readAt enc d.length = some (x, d.length + v.length) := by
  subst he
  unfold readAt
  rw [List.drop_left, h.read r]
  simp only [Option.map_some, List.length_append]
  congr 2
  omega

theorem readAt_inv {enc d tl : Bytes} {x p : Nat} (he : enc = d ++ tl) (h : readAt enc d.length = some (x, p)) :
    ∃ v r, tl = v ++ r ∧ Varint64 v x ∧ p = d.length + v.length := by
  subst he
  unfold readAt at h
  rw [List.drop_left] at h
  cases hr : readVarint 64 false tl with
  | none => rw [hr] at h; simp at h
  | some q =>
    rw [hr] at h
    obtain ⟨y, r⟩ := q
    simp only [Option.map_some, Option.some.injEq, Prod.mk.injEq] at h
    obtain ⟨v, rfl, hv⟩ := Varint64.of_read hr
    obtain ⟨rfl, rfl⟩ := h
    refine ⟨v, r, rfl, hv, ?_⟩
    simp only [List.length_append]; omega

theorem slice_at (d u r : Bytes) : slice (d ++ (u ++ r)) d.length u.length = u := by
  simp [slice]

theorem slice_back {enc d u r : Bytes} {k : Nat} (h : enc = d ++ u ++ r) (hk : k ≤ u.length) :
    slice enc (d.length + u.length - u.length) k = u.take k := by
  subst h
  rw [Nat.add_sub_cancel, slice, List.append_assoc, List.drop_left, List.take_append_of_le_length hk]

theorem Represents.nil_iff {prev enc : Bytes} {es : List (Nat × Bytes)} (h : Represents prev enc es) : enc = [] ↔ es = [] := by
  cases h with
  | nil => simp
  | unshared hv _ => have := hv.pos; simp; rintro rfl; simp at this
  | shared hv _ _ _ => have := hv.pos; simp; rintro rfl; simp at this

theorem Represents.append {prev a b : Bytes} {es fs : List (Nat × Bytes)} (h : Represents prev a es)
    (h2 : Represents ((es.getLast?.map (·.2)).getD prev) b fs) : Represents prev (a ++ b) (es ++ fs) := by
  induction h with
  | nil => simpa using h2
  | @unshared prev v u rest es hv hr ih =>
    have := ih (by
      cases es with
      | nil => simpa using h2
      | cons e es => rw [List.getLast?_cons_cons, List.getLast?_eq_some_getLast (by simp)] at h2
                     rw [List.getLast?_eq_some_getLast (by simp)]; exact h2)
    simp only [List.append_assoc, List.cons_append]
    exact .unshared hv this
  | @shared prev v w u rest s es hv hw hs hr ih =>
    have := ih (by
      cases es with
      | nil => simpa using h2
      | cons e es => rw [List.getLast?_cons_cons, List.getLast?_eq_some_getLast (by simp)] at h2
                     rw [List.getLast?_eq_some_getLast (by simp)]; exact h2)
    simp only [List.append_assoc, List.cons_append]
    exact .shared hv hw hs this

/-- What is known about the shared prefixes. -/
def SharedOk : Bytes → List (Nat × Bytes) → Prop
  | _, [] => True
  | prev, (s, e) :: es => s ≤ prev.length ∧ s ≤ e.length ∧ e.take s = prev.take s ∧ SharedOk e es

theorem Represents.sharedOk {prev enc : Bytes} {es : List (Nat × Bytes)} (h : Represents prev enc es) : SharedOk prev es := by
  induction h with
  | nil => trivial
  | unshared _ _ ih => exact ⟨by omega, by omega, by simp, ih⟩
  | @shared prev v w u rest s es hv hw hs hr ih =>
    refine ⟨hs, by simp; omega, ?_, ih⟩
    rw [List.take_append_of_le_length (by simp; omega), List.take_take, Nat.min_self]

/-! ## Ranges of iterators -/

section
variable {ι α : Type} {isEnd : ι → Bool} {next : ι → Option ι} {deref : ι → Option α}

theorem collect_yields {I : LinIter ι α} {enc : Bytes} {it : ι} {xs : List α}
    (h : Yields I.isEnd (I.next enc) (I.deref enc) it xs) : I.collect enc it = some xs := by
  induction h with
  | done h => rw [LinIter.collect, if_pos h]
  | cons h1 h2 h3 _ ih => rw [LinIter.collect, if_neg (by simp [h1])]; simp [h2, h3, ih]

end

/-! ## `size()` -/

theorem sizeLoop_eq {enc prev rest : Bytes} {es : List (Nat × Bytes)} (h : Represents prev rest es) :
    ∀ {d : Bytes} {n : Nat}, enc = d ++ rest → sizeLoop enc d.length prev.length n = some (n + es.length) := by
  induction h with
  | nil =>
    intro d n he
    rw [sizeLoop, if_pos (by rw [he]; simp)]; rfl
  | @unshared prev v u rest es hv hr ih =>
    intro d n he
    have hp := hv.pos
    rw [sizeLoop, if_neg (by rw [he]; simp only [List.length_append]; omega)]
    simp only [readAt_varint hv he, Option.bind_eq_bind, Option.bind_some]
    simp only [show 2 * u.length % 2 = 0 by omega, if_true]
    rw [if_pos (by rw [he]; simp; omega)]
    have := ih (d := d ++ v ++ u) (n := n + 1) (by rw [he]; simp)
    rw [show d.length + v.length + 2 * u.length / 2 = (d ++ v ++ u).length by simp; omega,
      show 0 + 2 * u.length / 2 = u.length by omega, this]
    simp; omega
  | @shared prev v w u rest s es hv hw hs hr ih =>
    intro d n he
    have hp := hv.pos
    rw [sizeLoop, if_neg (by rw [he]; simp only [List.length_append]; omega)]
    simp only [readAt_varint hv he, Option.bind_eq_bind, Option.bind_some]
    rw [if_neg (by omega)]
    have h2 := readAt_varint (enc := enc) (d := d ++ v) (r := u ++ rest) hw (by rw [he]; simp)
    rw [List.length_append] at h2
    simp only [h2, Option.bind_some]
    rw [if_pos (by omega)]
    rw [if_pos (by rw [he]; simp; omega)]
    have := ih (d := d ++ v ++ w ++ u) (n := n + 1) (by rw [he]; simp)
    rw [show d.length + v.length + w.length + (2 * u.length + 1) / 2 = (d ++ v ++ w ++ u).length by simp; omega,
      show s + 1 + (2 * u.length + 1) / 2 = (prev.take (s + 1) ++ u).length by simp; omega, this]
    simp; omega

theorem size_eq {enc : Bytes} {es : List (Nat × Bytes)} (h : Represents [] enc es) : size enc = some es.length := by
  have := sizeLoop_eq h (enc := enc) (d := []) (n := 0) rfl
  rw [Nat.zero_add] at this
  exact this

theorem first_eq {enc : Bytes} {e : Nat × Bytes} {es : List (Nat × Bytes)} (h : Represents [] enc (e :: es)) :
    first enc = some e.2 := by
  unfold first
  rw [if_neg (fun h0 => by have := h.nil_iff.1 h0; simp at this)]
  cases h with
  | @unshared _ v u rest _ hv hr =>
    have h2 := readAt_varint (enc := v ++ (u ++ rest)) (d := []) hv rfl
    simp only [List.length_nil, Nat.zero_add] at h2
    simp only [h2, Option.bind_eq_bind, Option.bind_some]
    rw [if_pos (by omega), if_pos (by simp)]
    rw [show 2 * u.length / 2 = u.length by omega, slice_at]
  | shared hv hw hs hr => simp at hs

/-! ## `Iterator` -/

/-- The current element is `e`, and `rest` is the encoding of the following ones. -/
def ItInv (enc : Bytes) (it : It) (e rest : Bytes) : Prop :=
  ∃ d, enc = d ++ rest ∧ it.cursor = some d.length ∧
    ((0 < it.lengthIfUnshared ∧ it.lengthIfUnshared = e.length ∧ ∃ d', d = d' ++ e) ∨
     (it.lengthIfUnshared = 0 ∧ it.currentIfShared = e))

theorem ItInv.deref {enc : Bytes} {it : It} {e rest : Bytes} (h : ItInv enc it e rest) :
    it.deref enc = some e := by
  obtain ⟨d, he, hc, h⟩ := h
  unfold It.deref
  rw [hc]
  simp only
  rcases h with ⟨h1, h2, d', hd⟩ | ⟨h1, h2⟩
  · rw [if_pos h1, h2]
    have := slice_back (enc := enc) (d := d') (u := e) (r := rest) (k := e.length) (by rw [he, hd]) (Nat.le_refl _)
    rw [← List.length_append, ← hd, List.take_length] at this
    rw [this]
  · rw [if_neg (by omega), h2]

theorem ItInv.next_end {enc : Bytes} {it : It} {e : Bytes} (h : ItInv enc it e []) :
    ∃ it', it.next enc = some it' ∧ it'.cursor = none := by
  obtain ⟨d, he, hc, _⟩ := h
  refine ⟨{ it with cursor := none, lengthIfUnshared := 0 }, ?_, rfl⟩
  unfold It.next
  rw [hc]
  simp only
  rw [if_pos (by rw [he]; simp)]

theorem ItInv.next {enc : Bytes} {it : It} {e rest : Bytes} (h : ItInv enc it e rest) {x : Nat × Bytes} {es : List (Nat × Bytes)}
    (hr : Represents e rest (x :: es)) :
    ∃ it' rest', it.next enc = some it' ∧ ItInv enc it' x.2 rest' ∧ Represents x.2 rest' es := by
  obtain ⟨d, he, hc, h⟩ := h
  unfold It.next
  rw [hc]
  simp only
  cases hr with
  | @unshared _ v u rest _ hv hr =>
    have hp := hv.pos
    rw [if_neg (by rw [he]; simp only [List.length_append]; omega)]
    simp only [readAt_varint hv he, Option.bind_eq_bind, Option.bind_some]
    rw [if_pos (by omega), if_pos (by rw [he]; simp; omega)]
    refine ⟨_, rest, rfl, ⟨d ++ v ++ u, by rw [he]; simp, by simp; omega, ?_⟩, hr⟩
    rw [show 2 * u.length / 2 = u.length by omega]
    simp only
    cases u with
    | nil => simp
    | cons a u => simp; exact ⟨d ++ v, by simp⟩
  | @shared _ v w u rest s _ hv hw hs hr =>
    have hp := hv.pos
    rw [if_neg (by rw [he]; simp only [List.length_append]; omega)]
    simp only [readAt_varint hv he, Option.bind_eq_bind, Option.bind_some]
    rw [if_neg (by omega)]
    have h2 := readAt_varint (enc := enc) (d := d ++ v) (r := u ++ rest) hw (by rw [he]; simp)
    rw [List.length_append] at h2
    simp only [h2, Option.bind_some]
    have hs' : s < (if 0 < it.lengthIfUnshared then it.lengthIfUnshared else it.currentIfShared.length) := by
      rcases h with ⟨h1, h2, _⟩ | ⟨h1, h2⟩
      · rw [if_pos h1]; omega
      · rw [if_neg (by omega), h2]; omega
    have hkept : (if 0 < it.lengthIfUnshared then slice enc (d.length - it.lengthIfUnshared) (s + 1)
        else it.currentIfShared.take (s + 1)) = e.take (s + 1) := by
      rcases h with ⟨h1, h2, d', hd⟩ | ⟨h1, h2⟩
      · rw [if_pos h1, h2]
        have := slice_back (enc := enc) (d := d') (u := e) (r := v ++ (w ++ (u ++ rest))) (k := s + 1) (by rw [he, hd]) hs
        rwa [← List.length_append, ← hd] at this
      · rw [if_neg (by omega), h2]
    rw [if_pos hs', if_pos (by rw [he]; simp; omega), hkept]
    have hsl : slice enc (d.length + v.length + w.length) ((2 * u.length + 1) / 2) = u := by
      have := slice_at (d ++ v ++ w) u rest
      rw [show (d ++ v ++ w) ++ (u ++ rest) = enc by rw [he]; simp] at this
      rw [show (2 * u.length + 1) / 2 = u.length by omega,
        show d.length + v.length + w.length = (d ++ v ++ w).length by simp; omega]
      exact this
    rw [hsl]
    refine ⟨_, rest, rfl, ⟨d ++ v ++ w ++ u, by rw [he]; simp, by simp; omega, .inr ⟨rfl, rfl⟩⟩, hr⟩

theorem ItInv.yields {enc : Bytes} {es : List (Nat × Bytes)} : ∀ {it : It} {e rest : Bytes}, ItInv enc it e rest →
    Represents e rest es →
    Yields plainIter.isEnd (plainIter.next enc) (plainIter.deref enc) it (e :: es.map (·.2)) := by
  induction es with
  | nil =>
    intro it e rest h hr
    have : rest = [] := hr.nil_iff.2 rfl
    subst this
    obtain ⟨it', h1, h2⟩ := h.next_end
    have h3 : plainIter.isEnd it = false := by
      obtain ⟨d, _, hc, _⟩ := h; simp [plainIter, hc]
    exact .cons h3 h.deref h1 (.done (by simp [plainIter, h2]))
  | cons x es ih =>
    intro it e rest h hr
    obtain ⟨it', rest', h1, h2, h4⟩ := h.next hr
    have h3 : plainIter.isEnd it = false := by
      obtain ⟨d, _, hc, _⟩ := h; simp [plainIter, hc]
    exact .cons h3 h.deref h1 (ih h2 h4)

/-- Iterating with `Iterator`. -/
theorem plain_yields {enc : Bytes} {es : List (Nat × Bytes)} (h : Represents [] enc es) :
    ∃ it, plainIter.begin enc = some it ∧
      Yields plainIter.isEnd (plainIter.next enc) (plainIter.deref enc) it (es.map (·.2)) := by
  have h0 : ItInv enc ⟨some 0, 0, []⟩ [] enc := ⟨[], rfl, rfl, .inr ⟨rfl, rfl⟩⟩
  cases es with
  | nil =>
    have : enc = [] := h.nil_iff.2 rfl
    subst this
    obtain ⟨it', h1, h2⟩ := h0.next_end
    exact ⟨it', h1, .done (by simp [plainIter, h2])⟩
  | cons x es =>
    obtain ⟨it', rest', h1, h2, h3⟩ := h0.next h
    exact ⟨it', h1, h2.yields h3⟩

/-! ## `SplitElementIterator` -/

/-- The current element is `e`, split at `s`, and `rest` is the encoding of the following ones. -/
def SItInv (enc : Bytes) (it : SIt) (s : Nat) (e rest : Bytes) : Prop :=
  ∃ d d', enc = d ++ rest ∧ it.cursor = some d.length ∧ d = d' ++ e.drop s ∧ s ≤ e.length ∧
    it.suffixLength = (e.drop s).length ∧ it.prefixLen = s ∧ it.pre enc = e.take s ∧
    (it.prefixPtr = .stored → s ≤ it.prefixIfStored.length) ∧ (it.prefixPtr = .none → s = 0)

theorem SItInv.deref {enc : Bytes} {it : SIt} {s : Nat} {e rest : Bytes} (h : SItInv enc it s e rest) :
    it.deref enc = some (splitAt (s, e)) := by
  obtain ⟨d, d', he, hc, hd, hs, hl, hp, hpre, _⟩ := h
  unfold SIt.deref
  rw [hc]
  simp only
  rw [hpre, hl]
  have := slice_back (enc := enc) (d := d') (u := e.drop s) (r := rest) (k := (e.drop s).length) (by rw [he, hd]) (Nat.le_refl _)
  rw [← List.length_append, ← hd, List.take_length] at this
  rw [this]; rfl

theorem SItInv.next_end {enc : Bytes} {it : SIt} {s : Nat} {e : Bytes} (h : SItInv enc it s e []) :
    ∃ it', it.next enc = some it' ∧ it'.cursor = none := by
  obtain ⟨d, d', he, hc, _⟩ := h
  refine ⟨{ it with cursor := none, prefixPtr := .none, prefixLen := 0, suffixLength := 0 }, ?_, rfl⟩
  unfold SIt.next
  rw [hc]
  simp only
  rw [if_pos (by rw [he]; simp)]

theorem movePrefix_spec {enc : Bytes} {it : SIt} {s : Nat} {e rest d : Bytes} (h : SItInv enc it s e rest)
    (hc : it.cursor = some d.length) {k : Nat} (hk : k ≤ e.length) (hk0 : 0 < k) :
    ∃ p st, it.movePrefix enc d.length k = some (p, k, st) ∧
      (∀ c l, SIt.pre enc ⟨c, st, p, k, l⟩ = e.take k) ∧ (p = .stored → k ≤ st.length) ∧ (p = .none → k = 0) := by
  obtain ⟨d0, d', he, hc', hd, hs, hl, hp, hpre, hst, hnone⟩ := h
  have hdd : d0.length = d.length := by rw [hc] at hc'; simpa using hc'.symm
  have hsuf : ∀ j, j ≤ (e.drop s).length → slice enc (d.length - it.suffixLength) j = (e.drop s).take j := by
    intro j hj
    have := slice_back (enc := enc) (d := d') (u := e.drop s) (r := rest) (k := j) (by rw [he, hd]) hj
    rwa [← List.length_append, ← hd, hdd, ← hl] at this
  have hcat : s < k → e.take s ++ (e.drop s).take (k - s) = e.take k := by
    intro h; rw [← List.take_add]; congr 1; omega
  have hdrop : k - s ≤ (e.drop s).length := by simp; omega
  unfold SIt.movePrefix
  rw [hp]
  by_cases h1 : k ≤ s
  · rw [if_pos h1]
    refine ⟨_, _, rfl, ?_, fun h => Nat.le_trans h1 (hst h), fun h => by have := hnone h; omega⟩
    intro c l
    unfold SIt.pre at hpre ⊢
    simp only
    cases hpp : it.prefixPtr with
    | none => have := hnone hpp; omega
    | enc q =>
      rw [hpp] at hpre
      simp only at hpre ⊢
      rw [hp] at hpre
      have := congrArg (List.take k) hpre
      rw [slice, List.take_take, List.take_take, Nat.min_eq_left h1] at this
      exact this
    | stored =>
      rw [hpp] at hpre
      simp only at hpre ⊢
      rw [hp] at hpre
      have := congrArg (List.take k) hpre
      rw [List.take_take, List.take_take, Nat.min_eq_left h1] at this
      exact this
  · rw [if_neg h1]
    by_cases h2 : s = 0
    · rw [if_pos h2]
      refine ⟨_, _, rfl, ?_, by simp, by simp⟩
      intro c l
      show slice enc _ k = _
      rw [hsuf k (by simp; omega), h2]; rfl
    · rw [if_neg h2]
      by_cases h3 : it.prefixPtr = .stored
      · rw [if_pos h3, if_pos (hst h3)]
        have hpre' : it.prefixIfStored.take s = e.take s := by
          unfold SIt.pre at hpre; rw [h3] at hpre; simp only at hpre; rwa [hp] at hpre
        have hv : it.prefixIfStored.take s ++ slice enc (d.length - it.suffixLength) (k - s) = e.take k := by
          rw [hpre', hsuf _ hdrop, hcat (by omega)]
        rw [hv]
        refine ⟨_, _, rfl, ?_, ?_, by simp⟩
        · intro c l
          show (e.take k).take k = _
          rw [List.take_take, Nat.min_self]
        · intro _; simp; omega
      · rw [if_neg h3]
        have hv : it.pre enc ++ slice enc (d.length - it.suffixLength) (k - s) = e.take k := by
          rw [hpre, hsuf _ hdrop, hcat (by omega)]
        rw [hv]
        refine ⟨_, _, rfl, ?_, ?_, by simp⟩
        · intro c l
          show (e.take k).take k = _
          rw [List.take_take, Nat.min_self]
        · intro _; simp; omega

theorem SItInv.next {enc : Bytes} {it : SIt} {s : Nat} {e rest : Bytes} (h : SItInv enc it s e rest) {x : Nat × Bytes}
    {es : List (Nat × Bytes)} (hr : Represents e rest (x :: es)) :
    ∃ it' rest', it.next enc = some it' ∧ SItInv enc it' x.1 x.2 rest' ∧ Represents x.2 rest' es := by
  obtain ⟨d, d', he, hc, hd, hs, hl, hp, hpre, hst, hnone⟩ := h
  have h : SItInv enc it s e rest := ⟨d, d', he, hc, hd, hs, hl, hp, hpre, hst, hnone⟩
  unfold SIt.next
  rw [hc]
  simp only
  cases hr with
  | @unshared _ v u rest _ hv hr =>
    have hpos := hv.pos
    rw [if_neg (by rw [he]; simp only [List.length_append]; omega)]
    simp only [readAt_varint hv he, Option.bind_eq_bind, Option.bind_some]
    rw [if_pos (by omega), if_pos (by rw [he]; simp; omega)]
    refine ⟨_, rest, rfl, ⟨d ++ v ++ u, d ++ v, by rw [he]; simp, by simp; omega, by simp, by omega, ?_, rfl, rfl, by simp,
      by simp⟩, hr⟩
    show 2 * u.length / 2 = _
    simp
  | @shared _ v w u rest k _ hv hw hs' hr =>
    have hpos := hv.pos
    rw [if_neg (by rw [he]; simp only [List.length_append]; omega)]
    simp only [readAt_varint hv he, Option.bind_eq_bind, Option.bind_some]
    rw [if_neg (by omega)]
    have h2 := readAt_varint (enc := enc) (d := d ++ v) (r := u ++ rest) hw (by rw [he]; simp)
    rw [List.length_append] at h2
    simp only [h2, Option.bind_some]
    have hlen : k < it.prefixLen + it.suffixLength := by
      rw [hp, hl, List.length_drop]; omega
    rw [if_pos hlen, if_pos (by rw [he]; simp; omega)]
    obtain ⟨p, st, hm, hm1, hm2, hm3⟩ := movePrefix_spec h hc hs' (by omega)
    simp only [hm, Option.bind_some]
    have hk : (e.take (k + 1)).length = k + 1 := by simp; omega
    have hdr : (e.take (k + 1) ++ u).drop (k + 1) = u := by
      rw [List.drop_append_of_le_length (by omega), List.drop_of_length_le (by omega)]; rfl
    refine ⟨_, rest, rfl, ⟨d ++ v ++ w ++ u, d ++ v ++ w, by rw [he]; simp, by simp; omega, by rw [hdr], by simp; omega,
      ?_, rfl, ?_, hm2, hm3⟩, hr⟩
    · show (2 * u.length + 1) / 2 = _
      rw [hdr]; omega
    · rw [hm1, List.take_append_of_le_length (by omega), List.take_take, Nat.min_self]

theorem SItInv.yields {enc : Bytes} {es : List (Nat × Bytes)} : ∀ {it : SIt} {s : Nat} {e rest : Bytes},
    SItInv enc it s e rest → Represents e rest es →
    Yields splitIter.isEnd (splitIter.next enc) (splitIter.deref enc) it (splitAt (s, e) :: es.map splitAt) := by
  induction es with
  | nil =>
    intro it s e rest h hr
    have : rest = [] := hr.nil_iff.2 rfl
    subst this
    obtain ⟨it', h1, h2⟩ := h.next_end
    have h3 : splitIter.isEnd it = false := by
      obtain ⟨d, _, _, hc, _⟩ := h; simp [splitIter, hc]
    exact .cons h3 h.deref h1 (.done (by simp [splitIter, h2]))
  | cons x es ih =>
    intro it s e rest h hr
    obtain ⟨it', rest', h1, h2, h4⟩ := h.next hr
    have h3 : splitIter.isEnd it = false := by
      obtain ⟨d, _, _, hc, _⟩ := h; simp [splitIter, hc]
    exact .cons h3 h.deref h1 (ih h2 h4)

/-- Iterating with `SplitElementIterator`. -/
theorem split_yields {enc : Bytes} {es : List (Nat × Bytes)} (h : Represents [] enc es) :
    ∃ it, SIt.begin enc = some it ∧
      Yields splitIter.isEnd (splitIter.next enc) (splitIter.deref enc) it (es.map splitAt) := by
  have h0 : SItInv enc ⟨some 0, [], .none, 0, 0⟩ 0 [] enc :=
    ⟨[], [], rfl, rfl, rfl, Nat.le_refl _, rfl, rfl, rfl, by simp, by simp⟩
  cases es with
  | nil =>
    have : enc = [] := h.nil_iff.2 rfl
    subst this
    obtain ⟨it', h1, h2⟩ := h0.next_end
    exact ⟨it', h1, .done (by simp [splitIter, h2])⟩
  | cons x es =>
    obtain ⟨it', rest', h1, h2, h3⟩ := h0.next h
    exact ⟨it', h1, h2.yields h3⟩

theorem splitAt_str (x : Nat × Bytes) : (splitAt x).str = x.2 := by simp [splitAt, Split.str]

/-! ## `last()` -/

theorem lastLoop_eq {enc : Bytes} {xs : List Split} : ∀ {it : SIt} {x : Split},
    Yields splitIter.isEnd (splitIter.next enc) (splitIter.deref enc) it (x :: xs) →
    lastLoop enc it = some ((x :: xs).getLast (by simp)) := by
  induction xs with
  | nil =>
    intro it x h
    cases h with
    | cons h1 h2 h3 h4 =>
      cases h4 with
      | done h5 =>
        rw [lastLoop]
        simp only [splitIter] at h2 h3 h5
        simp only [h2, h3, Option.bind_eq_bind, Option.bind_some, h5, if_true]
        rfl
  | cons y xs ih =>
    intro it x h
    cases h with
    | cons h1 h2 h3 h4 =>
      rw [lastLoop]
      have h5 := ih h4
      cases h4 with
      | cons h6 _ _ _ =>
        simp only [splitIter] at h2 h3 h6
        simp only [h2, h3, Option.bind_eq_bind, Option.bind_some, h6]
        simp [h5]

theorem last_eq {enc : Bytes} {es : List (Nat × Bytes)} (h : Represents [] enc es) (hne : es ≠ []) :
    last enc = some (es.getLast hne).2 := by
  unfold last
  rw [if_neg (fun h0 => hne (h.nil_iff.1 h0))]
  obtain ⟨it, h1, h2⟩ := split_yields h
  cases es with
  | nil => exact absurd rfl hne
  | cons x es =>
    have := lastLoop_eq h2
    simp only [h1, Option.bind_eq_bind, Option.bind_some, this]
    have e : (splitAt x :: es.map splitAt) = (x :: es).map splitAt := rfl
    simp only [e, List.getLast_map, splitAt_str]

end Riegeli.StrSet

import Verif.ChunkSet
import Verif.StrSetOps
import Verif.StrSetBuild
import Verif.Props.BinarySearch
/-!
# Chunked sets: what they represent, iteration, lookup and comparison
-/
namespace Riegeli.StrSet.CSet
open Riegeli.StrSet

/-- The chunks of a set represent the given elements, with `n` elements before the first chunk; no chunk is empty, and cumulative ends
are correct. -/
inductive CRep : Nat → CSet → List (List (Nat × Bytes)) → Prop
  | nil (n : Nat) : CRep n [] []
  | cons {n : Nat} {set : Bytes} {es : List (Nat × Bytes)} {cs : CSet} {ess : List (List (Nat × Bytes))} :
      Represents [] set es → es ≠ [] → CRep (n + es.length) cs ess → CRep n (⟨set, n + es.length⟩ :: cs) (es :: ess)

theorem CRep.append {n : Nat} {a b : CSet} {es fs : List (List (Nat × Bytes))} (h : CRep n a es)
    (h2 : CRep (n + es.flatten.length) b fs) : CRep n (a ++ b) (es ++ fs) := by
  induction h with
  | nil n => simpa using h2
  | @cons n set e cs ess h1 hne h3 ih =>
    refine .cons h1 hne (ih ?_)
    simpa [Nat.add_assoc] using h2

theorem CRep.nil_iff {n : Nat} {s : CSet} {ess : List (List (Nat × Bytes))} (h : CRep n s ess) : s = [] ↔ ess = [] := by
  cases h <;> simp

theorem CRep.length_eq {n : Nat} {s : CSet} {ess : List (List (Nat × Bytes))} (h : CRep n s ess) : s.length = ess.length := by
  induction h with
  | nil n => rfl
  | cons h1 hne h2 ih => simp [ih]

/-- The chunk at an index. -/
theorem CRep.at {n : Nat} {s : CSet} {ess : List (List (Nat × Bytes))} (h : CRep n s ess) :
    ∀ {k : Nat} {c : Chunk}, s[k]? = some c → ∃ es, ess[k]? = some es ∧ es ≠ [] ∧ Represents [] c.set es ∧
      c.cumulativeEnd = n + (ess.take (k + 1)).flatten.length := by
  induction h with
  | nil n => intro k c hc; simp at hc
  | @cons n set es cs ess h1 hne h2 ih =>
    intro k c hc
    cases k with
    | zero =>
      simp at hc
      exact ⟨es, by simp, hne, by rw [← hc]; exact h1, by rw [← hc]; simp⟩
    | succ k =>
      simp at hc
      obtain ⟨es', q1, q2, q3, q4⟩ := ih hc
      refine ⟨es', by simpa using q1, q2, q3, ?_⟩
      rw [q4, List.take_succ_cons]
      simp [Nat.add_assoc]

theorem CRep.drop {n : Nat} {s : CSet} {ess : List (List (Nat × Bytes))} (h : CRep n s ess) (k : Nat) :
    ∃ m, CRep m (s.drop k) (ess.drop k) := by
  induction h generalizing k with
  | nil n => exact ⟨0, by simpa using CRep.nil 0⟩
  | @cons n set es cs ess h1 hne h2 ih =>
    cases k with
    | zero => exact ⟨n, by simpa using CRep.cons h1 hne h2⟩
    | succ k => simpa using ih k

/-! ## Size, first, last -/

theorem size_eq {s : CSet} {ess : List (List (Nat × Bytes))} (h : CRep 0 s ess) : size s = ess.flatten.length := by
  unfold size
  cases hl : s.getLast? with
  | none =>
    have : s = [] := List.getLast?_eq_none_iff.1 hl
    subst this
    rw [h.nil_iff.1 rfl]; rfl
  | some c =>
    rw [List.getLast?_eq_getElem?] at hl
    obtain ⟨es, q1, q2, q3, q4⟩ := h.at hl
    have hpos : 0 < s.length := by
      cases s with
      | nil => simp at hl
      | cons => simp
    have hlen := h.length_eq
    show c.cumulativeEnd = _
    rw [q4, List.take_of_length_le (by omega), Nat.zero_add]

theorem first_eq {s : CSet} {e : Nat × Bytes} {es : List (Nat × Bytes)} {ess : List (List (Nat × Bytes))} {n : Nat}
    (h : CRep n s ((e :: es) :: ess)) : first s = some e.2 := by
  cases h with
  | cons h1 hne h2 => simp [first, StrSet.first_eq h1]

theorem last_eq {s : CSet} {ess : List (List (Nat × Bytes))} (h : CRep 0 s ess) (hne : ess.flatten ≠ []) :
    last s = some (ess.flatten.getLast hne).2 := by
  unfold last
  cases hl : s.getLast? with
  | none =>
    have : s = [] := List.getLast?_eq_none_iff.1 hl
    subst this
    rw [h.nil_iff.1 rfl] at hne
    simp at hne
  | some c =>
    rw [List.getLast?_eq_getElem?] at hl
    obtain ⟨es, q1, q2, q3, q4⟩ := h.at hl
    show StrSet.last c.set = _
    rw [StrSet.last_eq q3 q2]
    congr 2
    have hlen := h.length_eq
    rw [hlen, ← List.getLast?_eq_getElem?] at q1
    obtain ⟨ys, hys⟩ := List.getLast?_eq_some_iff.1 q1
    subst hys
    simp only [List.flatten_append, List.flatten_singleton]
    rw [List.getLast_append_of_ne_nil _ q2]

/-! ## Iteration -/

section
variable {ι α : Type} {I : LinIter ι α} {g : Nat × Bytes → α}

theorem yields_from
    (hI : ∀ enc es, Represents [] enc es → ∃ it, I.begin enc = some it ∧ Yields I.isEnd (I.next enc) (I.deref enc) it (es.map g))
    {s : CSet} : ∀ (ess : List (List (Nat × Bytes))) (n : Nat) (xs : List α) (k : Nat) (c : Chunk) (cur : ι), s[k]? = some c →
    CRep n (s.drop (k + 1)) ess → Yields I.isEnd (I.next c.set) (I.deref c.set) cur xs → xs ≠ [] →
    Yields (isEnd I) (next I s) (deref I s) ⟨cur, k⟩ (xs ++ ess.flatten.map g) := by
  intro ess
  induction ess with
  | nil =>
    intro n xs
    induction xs with
    | nil => intro k c cur _ _ _ h; exact absurd rfl h
    | cons x xs ih =>
      intro k c cur hk hr hy _
      cases hy with
      | @cons _ it' _ _ he hd hn hy' =>
        have hnext : s[k + 1]? = none := by
          have := hr.length_eq
          simp at this
          simp; omega
        by_cases hx : xs = []
        · subst hx
          cases hy' with
          | done he' =>
            refine .cons (it' := ⟨it', k + 1⟩) he ?_ ?_ ?_
            · simp [deref, he, hk, hd]
            · simp [next, he, hk, hn, he', hnext]
            · exact .done he'
        · have he' : I.isEnd it' = false := by
            cases hy' with
            | done _ => exact absurd rfl hx
            | cons he' _ _ _ => exact he'
          refine .cons (it' := ⟨it', k⟩) he ?_ ?_ (ih k c it' hk hr hy' hx)
          · simp [deref, he, hk, hd]
          · simp [next, he, hk, hn, he']
  | cons es ess ihs =>
    intro n xs
    induction xs with
    | nil => intro k c cur _ _ _ h; exact absurd rfl h
    | cons x xs ih =>
      intro k c cur hk hr hy _
      cases hy with
      | @cons _ it' _ _ he hd hn hy' =>
        by_cases hx : xs = []
        · subst hx
          cases hy' with
          | done he' =>
            obtain ⟨c2, hc2⟩ : ∃ c2, s[k + 1]? = some c2 := by
              cases hq : s[k + 1]? with
              | some c2 => exact ⟨c2, rfl⟩
              | none =>
                have := hr.length_eq
                simp at this hq
                omega
            have hdrop : s.drop (k + 1) = c2 :: s.drop (k + 2) := by
              rw [List.drop_eq_getElem?_toList_append, hc2]; rfl
            rw [hdrop] at hr
            cases hr with
            | @cons _ set _ _ _ h1 hne h2 =>
              obtain ⟨it2, hb, hy2⟩ := hI _ _ h1
              refine .cons (it' := ⟨it2, k + 1⟩) he ?_ ?_ ?_
              · simp [deref, he, hk, hd]
              · simp [next, he, hk, hn, he', hc2, hb]
              · have := ihs _ (es.map g) (k + 1) _ it2 hc2 h2 hy2 (by simpa using hne)
                simpa using this
        · have he' : I.isEnd it' = false := by
            cases hy' with
            | done _ => exact absurd rfl hx
            | cons he' _ _ _ => exact he'
          refine .cons (it' := ⟨it', k⟩) he ?_ ?_ (ih k c it' hk hr hy' hx)
          · simp [deref, he, hk, hd]
          · simp [next, he, hk, hn, he']

theorem yields (hend : I.isEnd I.sentinel = true)
    (hI : ∀ enc es, Represents [] enc es → ∃ it, I.begin enc = some it ∧ Yields I.isEnd (I.next enc) (I.deref enc) it (es.map g))
    {s : CSet} {n : Nat} {ess : List (List (Nat × Bytes))} (h : CRep n s ess) :
    ∃ it, begin I s = some it ∧ Yields (isEnd I) (next I s) (deref I s) it (ess.flatten.map g) := by
  cases h with
  | nil => exact ⟨⟨I.sentinel, 0⟩, rfl, .done hend⟩
  | @cons _ set es cs ess h1 hne h2 =>
    obtain ⟨it, hb, hy⟩ := hI _ _ h1
    refine ⟨⟨it, 0⟩, by simp [begin, hb], ?_⟩
    have := yields_from hI (s := ⟨set, n + es.length⟩ :: cs) ess _ (es.map g) 0 ⟨set, n + es.length⟩ it rfl (by simpa using h2) hy
      (by simpa using hne)
    simpa using this

theorem collect_yields {s : CSet} {it : Iter ι} {xs : List α}
    (h : Yields (isEnd I) (next I s) (deref I s) it xs) : collect I s it = some xs := by
  induction h with
  | done h => rw [collect, if_pos h]
  | cons he hd hn hy ih =>
    rw [collect, if_neg (by simp [he])]
    simp only [hd, hn, ih, Option.bind_eq_bind, Option.bind_some]

end

theorem all_plain {s : CSet} {n : Nat} {ess : List (List (Nat × Bytes))} (h : CRep n s ess) :
    all plainIter s = some (ess.flatten.map (·.2)) := by
  obtain ⟨it, hb, hy⟩ := yields (I := plainIter) rfl (fun _ _ h => plain_yields h) h
  rw [all, hb]
  exact collect_yields hy

theorem split_yields {s : CSet} {n : Nat} {ess : List (List (Nat × Bytes))} (h : CRep n s ess) :
    ∃ it, begin splitIter s = some it ∧
      Yields (isEnd splitIter) (next splitIter s) (deref splitIter s) it (ess.flatten.map splitAt) :=
  yields (I := splitIter) rfl (fun _ _ h => StrSet.split_yields h) h

theorem all_split {s : CSet} {n : Nat} {ess : List (List (Nat × Bytes))} (h : CRep n s ess) :
    all splitIter s = some (ess.flatten.map splitAt) := by
  obtain ⟨it, hb, hy⟩ := split_yields h
  rw [all, hb]
  exact collect_yields hy

/-! ## Comparison -/

theorem SharedOk.weaken {p : Bytes} {es : List (Nat × Bytes)} (h : SharedOk [] es) : SharedOk p es := by
  cases es with
  | nil => trivial
  | cons x es =>
    obtain ⟨s, e⟩ := x
    obtain ⟨h1, h2, h3, h4⟩ := h
    have : s = 0 := by simpa using h1
    subst this
    exact ⟨by omega, by omega, by simp, h4⟩

theorem SharedOk.append {es fs : List (Nat × Bytes)} (h2 : SharedOk [] fs) : ∀ {p : Bytes}, SharedOk p es → SharedOk p (es ++ fs) := by
  induction es with
  | nil => intro p _; exact SharedOk.weaken h2
  | cons x es ih =>
    intro p h
    obtain ⟨s, e⟩ := x
    obtain ⟨q1, q2, q3, q4⟩ := h
    exact ⟨q1, q2, q3, ih q4⟩

theorem CRep.sharedOk {n : Nat} {s : CSet} {ess : List (List (Nat × Bytes))} (h : CRep n s ess) : SharedOk [] ess.flatten := by
  induction h with
  | nil n => trivial
  | cons h1 hne h2 ih => exact SharedOk.append ih h1.sharedOk

theorem equal_iff {a b : CSet} {es fs : List (List (Nat × Bytes))} (ha : CRep 0 a es) (hb : CRep 0 b fs) :
    ∃ r, equal a b = some r ∧ (r = true ↔ es.flatten.map (·.2) = fs.flatten.map (·.2) ∧
      ∀ (i : Nat) (x y : Nat × Bytes), es.flatten[i]? = some x → fs.flatten[i]? = some y → y.1 ≤ x.1) := by
  unfold equal
  rw [size_eq ha, size_eq hb]
  by_cases hl : es.flatten.length = fs.flatten.length
  · rw [if_neg (by simpa using hl)]
    obtain ⟨i, hi, yi⟩ := split_yields ha
    obtain ⟨j, hj, yj⟩ := split_yields hb
    rw [hi, Option.bind_eq_bind, Option.bind_some, hj, Option.bind_some]
    exact ⟨_, equalLoop_eq yi yj, equalList_iff ha.sharedOk hb.sharedOk⟩
  · rw [if_pos hl]
    refine ⟨false, rfl, ?_⟩
    constructor
    · intro h; cases h
    · rintro ⟨h, _⟩
      have := congrArg List.length h
      simp only [List.length_map] at this
      exact absurd this hl

theorem compare_eq {a b : CSet} {m n : Nat} {es fs : List (List (Nat × Bytes))} (ha : CRep m a es) (hb : CRep n b fs) :
    compare a b = some (cmpList (es.flatten.map (·.2)) (fs.flatten.map (·.2))) := by
  unfold compare
  obtain ⟨i, hi, yi⟩ := split_yields ha
  obtain ⟨j, hj, yj⟩ := split_yields hb
  rw [hi, Option.bind_eq_bind, Option.bind_some, hj, Option.bind_some, compareLoop_eq yi yj, map_splitAt_str, map_splitAt_str]

end Riegeli.StrSet.CSet

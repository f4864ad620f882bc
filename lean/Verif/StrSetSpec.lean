import Verif.StrSet
/-!
# String sets: specification and basic facts

The order on byte strings is Lean's lexicographic order on lists of bytes.
-/
namespace Riegeli.StrSet

/-! ## Specification -/

/-- `v` is a varint of at most 10 bytes, of the 64-bit value `x`. -/
def Varint64 (v : Bytes) (x : Nat) : Prop := IsVarint v ∧ v.length ≤ 10 ∧ varintValue v = x ∧ x < 2 ^ 64

/-- The encoding of a set (`linear_sorted_string_set.h:284-292`): `Represents prev enc es` if `enc`, following the element `prev`,
consists of the elements `es`, each one with the length of the prefix it shares with the previous element. -/
inductive Represents : Bytes → Bytes → List (Nat × Bytes) → Prop
  | nil (prev : Bytes) : Represents prev [] []
  | unshared {prev v u rest : Bytes} {es : List (Nat × Bytes)} :
      Varint64 v (2 * u.length) → Represents u rest es → Represents prev (v ++ (u ++ rest)) ((0, u) :: es)
  | shared {prev v w u rest : Bytes} {s : Nat} {es : List (Nat × Bytes)} :
      Varint64 v (2 * u.length + 1) → Varint64 w s → s + 1 ≤ prev.length →
      Represents (prev.take (s + 1) ++ u) rest es →
      Represents prev (v ++ (w ++ (u ++ rest))) ((s + 1, prev.take (s + 1) ++ u) :: es)

/-- What a range of an iterator contains. -/
inductive Yields {ι α : Type} (isEnd : ι → Bool) (next : ι → Option ι) (deref : ι → Option α) : ι → List α → Prop
  | done {it : ι} : isEnd it = true → Yields isEnd next deref it []
  | cons {it it' : ι} {x : α} {xs : List α} : isEnd it = false → deref it = some x → next it = some it' →
      Yields isEnd next deref it' xs → Yields isEnd next deref it (x :: xs)

/-- An element split after the shared prefix. -/
def splitAt (x : Nat × Bytes) : Split := ⟨x.2.take x.1, x.2.drop x.1⟩

/-- The length of the longest common prefix. -/
def lcp : Bytes → Bytes → Nat
  | a :: as, b :: bs => if a = b then 1 + lcp as bs else 0
  | _, _ => 0

/-! ## The order -/

theorem cmp_lt_iff {a b : Bytes} : cmp a b = .lt ↔ a < b := by
  induction a generalizing b with
  | nil => cases b <;> simp [cmp]
  | cons x a ih =>
    cases b with
    | nil => simp [cmp]
    | cons y b =>
      simp only [cmp, List.cons_lt_cons_iff]
      split
      · rename_i h; simp [UInt8.lt_iff_toNat_lt, h]
      · rename_i h
        split
        · rename_i h2
          simp only [UInt8.lt_iff_toNat_lt]
          constructor
          · intro h; cases h
          · rintro (h3 | ⟨h3, _⟩)
            · omega
            · subst h3; omega
        · rename_i h2
          have : x = y := UInt8.toNat.inj (by omega)
          subst this
          rw [ih]
          simp

theorem cmp_swap (a b : Bytes) : (cmp a b).swap = cmp b a := by
  induction a generalizing b with
  | nil => cases b <;> simp [cmp]
  | cons x a ih =>
    cases b with
    | nil => simp [cmp]
    | cons y b =>
      simp only [cmp]
      by_cases h1 : x.toNat < y.toNat
      · rw [if_pos h1, if_neg (by omega), if_pos h1]; rfl
      · rw [if_neg h1]
        by_cases h2 : y.toNat < x.toNat
        · rw [if_pos h2, if_pos h2]; rfl
        · rw [if_neg h2, if_neg h2, if_neg h1, ih]

theorem cmp_eq_iff {a b : Bytes} : cmp a b = .eq ↔ a = b := by
  induction a generalizing b with
  | nil => cases b <;> simp [cmp]
  | cons x a ih =>
    cases b with
    | nil => simp [cmp]
    | cons y b =>
      simp only [cmp]
      by_cases h1 : x.toNat < y.toNat
      · rw [if_pos h1]; simp; intro h; subst h; omega
      · rw [if_neg h1]
        by_cases h2 : y.toNat < x.toNat
        · rw [if_pos h2]; simp; intro h; subst h; omega
        · rw [if_neg h2, ih]
          have : x = y := UInt8.toNat.inj (by omega)
          simp [this]

theorem cmp_gt_iff {a b : Bytes} : cmp a b = .gt ↔ b < a := by
  rw [← cmp_lt_iff, ← cmp_swap b a]
  cases cmp b a <;> simp

theorem cmp_self (a : Bytes) : cmp a a = .eq := cmp_eq_iff.2 rfl

/-- Comparing byte by byte from a common prefix. -/
theorem cmp_append (p a b : Bytes) : cmp (p ++ a) (p ++ b) = cmp a b := by
  induction p with
  | nil => rfl
  | cons x p ih => simp [cmp, ih]

/-- Comparing in two parts. -/
theorem cmp_parts {p q a b : Bytes} (h : p.length = q.length) : cmp (p ++ a) (q ++ b) = (cmp p q).then (cmp a b) := by
  induction p generalizing q with
  | nil =>
    cases q with
    | nil => simp [cmp, Ordering.then]
    | cons y q => simp at h
  | cons x p ih =>
    cases q with
    | nil => simp at h
    | cons y q =>
      simp only [List.cons_append, cmp]
      by_cases h1 : x.toNat < y.toNat
      · simp [h1, Ordering.then]
      · by_cases h2 : y.toNat < x.toNat
        · simp [h1, h2, Ordering.then]
        · simp only [if_neg h1, if_neg h2]
          exact ih (by simpa using h)

theorem lt_trans' {a b c : Bytes} (h1 : a < b) (h2 : b < c) : a < c := List.lt_trans h1 h2

theorem lt_irrefl' (a : Bytes) : ¬a < a := by
  intro h
  have := cmp_lt_iff.2 h
  rw [cmp_self] at this
  cases this

/-! ## Common prefixes -/

theorem lcp_le (a b : Bytes) : lcp a b ≤ a.length ∧ lcp a b ≤ b.length := by
  induction a generalizing b with
  | nil => simp [lcp]
  | cons x a ih =>
    cases b with
    | nil => simp [lcp]
    | cons y b =>
      simp only [lcp]
      split
      · have := ih b; simp; omega
      · simp

theorem lcp_take (a b : Bytes) : a.take (lcp a b) = b.take (lcp a b) := by
  induction a generalizing b with
  | nil => simp [lcp]
  | cons x a ih =>
    cases b with
    | nil => simp [lcp]
    | cons y b =>
      simp only [lcp]
      split
      · rename_i h; subst h; rw [Nat.add_comm]; simp [ih b]
      · simp

/-- What follows the longest common prefix differs at once. -/
theorem lcp_drop (a b : Bytes) :
    a.drop (lcp a b) = [] ∨ b.drop (lcp a b) = [] ∨
    ∃ x y as bs, a.drop (lcp a b) = x :: as ∧ b.drop (lcp a b) = y :: bs ∧ x ≠ y := by
  induction a generalizing b with
  | nil => simp
  | cons x a ih =>
    cases b with
    | nil => simp
    | cons y b =>
      simp only [lcp]
      split
      · rw [Nat.add_comm]; simpa using ih b
      · rename_i h; exact .inr (.inr ⟨x, y, a, b, rfl, rfl, h⟩)

/-- A common prefix can be skipped. -/
theorem lcp_skip {a b : Bytes} {k : Nat} (h : a.take k = b.take k) (ha : k ≤ a.length) (hb : k ≤ b.length) :
    k + lcp (a.drop k) (b.drop k) = lcp a b := by
  induction k generalizing a b with
  | zero => simp
  | succ k ih =>
    cases a with
    | nil => simp at ha
    | cons x a =>
      cases b with
      | nil => simp at hb
      | cons y b =>
        simp only [List.take_succ_cons, List.cons.injEq] at h
        obtain ⟨rfl, h⟩ := h
        simp only [List.drop_succ_cons, lcp, if_pos]
        rw [← ih h (by simpa using ha) (by simpa using hb)]
        omega

/-- The longest common prefix is at least any common prefix. -/
theorem le_lcp {a b : Bytes} {k : Nat} (h : a.take k = b.take k) (ha : k ≤ a.length) (hb : k ≤ b.length) : k ≤ lcp a b := by
  have := lcp_skip h ha hb; omega

/-- Strings of length at most `n` from an index. -/
theorem commonPrefixBytes_eq (a b : Bytes) (n : Nat) :
    ∀ i, i ≤ n → n = min a.length b.length → a.take i = b.take i → commonPrefixBytes a b n i = lcp a b := by
  intro i hi hn h
  have H : ∀ d i, i ≤ n → d = n - i → a.take i = b.take i → commonPrefixBytes a b n i = lcp a b := by
    intro d
    induction d with
    | zero =>
      intro i hi hd h
      rw [commonPrefixBytes, if_neg (by omega)]
      have h1 := lcp_le a b
      have h2 := le_lcp h (by omega) (by omega)
      omega
    | succ d ih =>
      intro i hi hd h
      rw [commonPrefixBytes, if_pos (by omega)]
      split
      · rename_i hne
        have h2 := lcp_skip h (by omega) (by omega)
        have ha : i < a.length := by omega
        have hb : i < b.length := by omega
        rw [← h2]
        rw [List.drop_eq_getElem_cons ha, List.drop_eq_getElem_cons hb]
        rw [List.getElem?_eq_getElem ha, List.getElem?_eq_getElem hb] at hne
        simp only [lcp]
        rw [if_neg (fun h => hne (by rw [h]))]
        rfl
      · rename_i heq
        refine ih (i + 1) (by omega) (by omega) ?_
        rw [List.take_add_one, List.take_add_one, h]
        have : a[i]? = b[i]? := by
          by_cases h : a[i]? = b[i]?
          · exact h
          · exact absurd h heq
        rw [this]
  exact H _ i hi rfl h

theorem countrZero_odd {x : Nat} (h : x % 2 = 1) : countrZero x = 0 := by
  rw [countrZero, dif_neg (by omega), if_pos h]

theorem countrZero_even {x : Nat} (h0 : x ≠ 0) (h : x % 2 = 0) : countrZero x = 1 + countrZero (x / 2) := by
  rw [countrZero, dif_neg h0, if_neg (by omega)]

theorem countrZero_mul (x : Nat) (h0 : x ≠ 0) (k : Nat) : countrZero (2 ^ k * x) = k + countrZero x := by
  induction k with
  | zero => simp
  | succ k ih =>
    rw [Nat.pow_succ']
    have h1 : 2 ^ k * x ≠ 0 := by
      have := Nat.two_pow_pos k
      exact Nat.mul_ne_zero (by omega) h0
    rw [countrZero_even (by rw [Nat.mul_assoc]; omega) (by rw [Nat.mul_assoc]; omega), Nat.mul_assoc,
      Nat.mul_div_cancel_left _ (by omega), ih]
    omega

theorem countrZero_lt {x k : Nat} (h0 : x % 2 ^ k ≠ 0) : countrZero x < k := by
  induction k generalizing x with
  | zero => simp [Nat.mod_one] at h0
  | succ k ih =>
    by_cases h : x % 2 = 1
    · rw [countrZero_odd h]; omega
    · have hx : x ≠ 0 := by rintro rfl; simp at h0
      rw [countrZero_even hx (by omega)]
      have : (x / 2) % 2 ^ k ≠ 0 := by
        intro h2
        apply h0
        rw [Nat.pow_succ', Nat.mod_mul, h2]
        omega
      have := ih this
      omega

theorem xor_div {x y k : Nat} : (x ^^^ y) / 2 ^ k = (x / 2 ^ k) ^^^ (y / 2 ^ k) := by
  apply Nat.eq_of_testBit_eq
  intro i
  simp [Nat.testBit_div_two_pow]

/-- The first difference of two blocks of the same length. -/
theorem xor_lcp (a b : Bytes) (h : a.length = b.length) :
    (a = b → leNat a ^^^ leNat b = 0) ∧
    (a ≠ b → leNat a ^^^ leNat b ≠ 0 ∧ countrZero (leNat a ^^^ leNat b) / 8 = lcp a b) := by
  induction a generalizing b with
  | nil =>
    cases b with
    | nil => simp [leNat]
    | cons y b => simp at h
  | cons x a ih =>
    cases b with
    | nil => simp at h
    | cons y b =>
      obtain ⟨ih1, ih2⟩ := ih b (by simpa using h)
      refine ⟨fun h => by rw [h]; simp, fun hne => ?_⟩
      simp only [leNat, lcp]
      have hx := x.toNat_lt
      have hy := y.toNat_lt
      have hlow : ((x.toNat + 256 * leNat a) ^^^ (y.toNat + 256 * leNat b)) % 2 ^ 8 = x.toNat ^^^ y.toNat := by
        rw [Nat.xor_mod_two_pow]
        congr 1 <;> omega
      have hhigh : ((x.toNat + 256 * leNat a) ^^^ (y.toNat + 256 * leNat b)) / 2 ^ 8 = leNat a ^^^ leNat b := by
        rw [xor_div]
        congr 1 <;> omega
      generalize (x.toNat + 256 * leNat a) ^^^ (y.toNat + 256 * leNat b) = z at hlow hhigh ⊢
      by_cases hxy : x = y
      · subst hxy
        rw [if_pos rfl]
        have hab : a ≠ b := fun h => hne (by rw [h])
        obtain ⟨h1, h2⟩ := ih2 hab
        rw [Nat.xor_self] at hlow
        have hz : z = 2 ^ 8 * (leNat a ^^^ leNat b) := by omega
        rw [hz, countrZero_mul _ h1]
        refine ⟨by omega, ?_⟩
        rw [← h2]; omega
      · rw [if_neg hxy]
        have h1 : x.toNat ^^^ y.toNat ≠ 0 := by
          intro h0
          apply hxy
          apply UInt8.toNat.inj
          have := congrArg (· ^^^ y.toNat) h0
          simpa [Nat.xor_assoc] using this
        have h2 : countrZero z < 8 := countrZero_lt (by rw [hlow]; exact h1)
        refine ⟨?_, by omega⟩
        rintro rfl
        simp at hlow
        exact h1 hlow.symm

/-- The first difference from an index, in a block which the strings have. -/
theorem xorAt_spec {a b : Bytes} {i : Nat} (ha : i + 8 ≤ a.length) (hb : i + 8 ≤ b.length) (h : a.take i = b.take i) :
    (xorAt a b i = 0 ∧ a.take (i + 8) = b.take (i + 8)) ∨
    (xorAt a b i ≠ 0 ∧ i + countrZero (xorAt a b i) / 8 = lcp a b) := by
  have hl : (slice a i 8).length = (slice b i 8).length := by
    rw [slice_length_of_le ha, slice_length_of_le hb]
  obtain ⟨h1, h2⟩ := xor_lcp _ _ hl
  by_cases he : slice a i 8 = slice b i 8
  · refine .inl ⟨h1 he, ?_⟩
    rw [List.take_add, List.take_add, h]
    exact congrArg _ he
  · obtain ⟨h3, h4⟩ := h2 he
    refine .inr ⟨h3, ?_⟩
    rw [xorAt, h4, ← lcp_skip h (by omega) (by omega)]
    congr 1
    -- the difference is within the block
    have h5 := lcp_take (slice a i 8) (slice b i 8)
    have h6 := lcp_le (slice a i 8) (slice b i 8)
    rw [slice_length_of_le ha, slice_length_of_le hb] at h6
    have h7 : lcp (slice a i 8) (slice b i 8) < 8 := by
      rcases Nat.lt_or_ge (lcp (slice a i 8) (slice b i 8)) 8 with h | h
      · exact h
      · exfalso; apply he
        have e : lcp (slice a i 8) (slice b i 8) = 8 := by omega
        rw [e, List.take_of_length_le (by rw [slice_length_of_le ha]; omega),
          List.take_of_length_le (by rw [slice_length_of_le hb]; omega)] at h5
        exact h5
    have key : ∀ (n : Nat) (p q : Bytes), lcp (p.take n) (q.take n) < n → n ≤ p.length → n ≤ q.length →
        lcp (p.take n) (q.take n) = lcp p q := by
      intro n
      induction n with
      | zero => intro p q h; omega
      | succ n ih =>
        intro p q h hp hq
        cases p with
        | nil => simp at hp
        | cons x p =>
          cases q with
          | nil => simp at hq
          | cons y q =>
            simp only [List.take_succ_cons, lcp] at h ⊢
            split
            · rename_i hxy
              rw [if_pos hxy] at h
              rw [ih p q (by omega) (by simpa using hp) (by simpa using hq)]
            · rfl
    exact key 8 _ _ h7 (by rw [List.length_drop]; omega) (by rw [List.length_drop]; omega)

theorem commonPrefixBlocks_eq (a b : Bytes) (limit : Nat) (hl : limit + 8 = min a.length b.length) :
    ∀ i, i ≤ limit + 7 → a.take i = b.take i → commonPrefixBlocks a b limit i = lcp a b := by
  have H : ∀ d i, limit - i ≤ d → i ≤ limit + 7 → a.take i = b.take i → commonPrefixBlocks a b limit i = lcp a b := by
    intro d
    induction d with
    | zero =>
      intro i hd hi h
      rw [commonPrefixBlocks, if_neg (by omega)]
      have ht : a.take limit = b.take limit := by
        have := congrArg (List.take limit) h
        rwa [List.take_take, List.take_take, Nat.min_eq_left (by omega)] at this
      rcases xorAt_spec (a := a) (b := b) (i := limit) (by omega) (by omega) ht with ⟨h1, h2⟩ | ⟨h1, h2⟩
      · rw [if_neg (by simp [h1])]
        have h3 := lcp_le a b
        have h4 := le_lcp h2 (by omega) (by omega)
        omega
      · rw [if_pos h1]; exact h2
    | succ d ih =>
      intro i hd hi h
      rw [commonPrefixBlocks]
      split
      · rename_i hlt
        rcases xorAt_spec (a := a) (b := b) (i := i) (by omega) (by omega) h with ⟨h1, h2⟩ | ⟨h1, h2⟩
        · rw [if_neg (by simp [h1])]
          exact ih (i + 8) (by omega) (by omega) h2
        · rw [if_pos h1]; exact h2
      · rename_i hge
        have := ih i (by omega) hi h
        rw [commonPrefixBlocks, if_neg hge] at this
        exact this
  intro i hi h
  exact H _ i (Nat.le_refl _) hi h

/-- `CommonPrefix` is the length of the longest common prefix. -/
theorem commonPrefix_eq (a b : Bytes) : commonPrefix a b = lcp a b := by
  unfold commonPrefix
  simp only
  split
  · exact commonPrefixBytes_eq a b _ 0 (by omega) rfl (by simp)
  · exact commonPrefixBlocks_eq a b _ (by omega) 0 (by omega) (by simp)

/-- Comparing from the longest common prefix. -/
theorem cmp_lcp (a b : Bytes) : cmp (a.drop (lcp a b)) (b.drop (lcp a b)) = cmp a b := by
  have := cmp_append (a.take (lcp a b)) (a.drop (lcp a b)) (b.drop (lcp a b))
  rw [List.take_append_drop] at this
  rw [lcp_take, List.take_append_drop] at this
  exact this.symm

end Riegeli.StrSet

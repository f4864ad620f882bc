import Verif.WriteInt
import Verif.NumeralSpec
/-!
# Proofs about writing integers
-/
namespace Riegeli.Num

/-! ## Digits -/

/-- The last `k` digits. -/
def fixed (digit : Nat → UInt8) (b : Nat) : Nat → Nat → Bytes
  | 0, _ => []
  | k + 1, n => fixed digit b k (n / b) ++ [digit (n % b)]

section
variable {digit : Nat → UInt8} {b : Nat}

@[simp] theorem fixed_length (k n : Nat) : (fixed digit b k n).length = k := by
  induction k generalizing n with
  | zero => rfl
  | succ k ih => simp [fixed, ih]

theorem fixed_zero (k : Nat) : fixed digit b k 0 = List.replicate k (digit 0) := by
  induction k with
  | zero => rfl
  | succ k ih => rw [fixed, Nat.zero_div, Nat.zero_mod, ih, ← List.replicate_succ']

/-- The digits of the quotient and of the remainder. -/
theorem fixed_add (j k n : Nat) : fixed digit b (j + k) n = fixed digit b j (n / b ^ k) ++ fixed digit b k n := by
  induction k generalizing n with
  | zero => simp [fixed]
  | succ k ih =>
    rw [← Nat.add_assoc, fixed, ih, fixed, Nat.pow_succ', Nat.div_div_eq_div_mul, List.append_assoc]

theorem fixed_mod (k n : Nat) : fixed digit b k (n % b ^ k) = fixed digit b k n := by
  induction k generalizing n with
  | zero => rfl
  | succ k ih =>
    rw [fixed, fixed, Nat.pow_succ', Nat.mod_mul_right_mod]
    congr 1
    rw [← ih (n / b), Nat.mod_mul_right_div_self]

variable (hb : 2 ≤ b)
include hb

theorem numeral_eq (n : Nat) : 1 ≤ (numeral digit b n).length ∧ n < b ^ (numeral digit b n).length ∧
    ((numeral digit b n).length = 1 ∨ b ^ ((numeral digit b n).length - 1) ≤ n) ∧
    numeral digit b n = fixed digit b (numeral digit b n).length n := by
  fun_induction numeral digit b n with
  | case1 n h =>
    have hn : n < b := by omega
    refine ⟨Nat.le_refl _, by simpa using hn, .inl rfl, ?_⟩
    show [digit n] = [] ++ [digit (n % b)]
    rw [Nat.mod_eq_of_lt hn]; rfl
  | case2 n h ih =>
    obtain ⟨i1, i2, i3, i4⟩ := ih
    have hl : (numeral digit b (n / b) ++ [digit (n % b)]).length = (numeral digit b (n / b)).length + 1 := by simp
    rw [hl]
    refine ⟨by omega, ?_, .inr ?_, ?_⟩
    · rw [Nat.pow_succ]
      exact (Nat.div_lt_iff_lt_mul (by omega)).mp i2
    · rw [Nat.add_sub_cancel]
      rcases i3 with i3 | i3
      · rw [i3, Nat.pow_one]; omega
      · obtain ⟨k, hk⟩ : ∃ k, (numeral digit b (n / b)).length = k + 1 := ⟨_, (Nat.sub_add_cancel i1).symm⟩
        rw [hk] at i3 ⊢
        rw [Nat.add_sub_cancel] at i3
        rw [Nat.pow_succ]
        exact (Nat.le_div_iff_mul_le (by omega)).mp i3
    · rw [fixed, ← i4]

theorem numeral_length_le {n k : Nat} (hk : 1 ≤ k) : (numeral digit b n).length ≤ k ↔ n < b ^ k := by
  obtain ⟨h1, h2, h3, h4⟩ := numeral_eq (digit := digit) hb n
  constructor
  · intro h
    exact Nat.lt_of_lt_of_le h2 (Nat.pow_le_pow_right (by omega) h)
  · intro h
    rcases h3 with h3 | h3
    · omega
    · have := (Nat.pow_lt_pow_iff_right (by omega : 1 < b)).mp (Nat.lt_of_le_of_lt h3 h)
      omega

theorem padded_fixed (w n : Nat) : padded digit b w n = fixed digit b (max w (numeral digit b n).length) n := by
  obtain ⟨h1, h2, h3, h4⟩ := numeral_eq (digit := digit) hb n
  unfold padded
  have e : max w (numeral digit b n).length = (w - (numeral digit b n).length) + (numeral digit b n).length := by omega
  rw [e, fixed_add, ← h4, Nat.div_eq_of_lt h2, fixed_zero]

/-- When the numeral with `width` has `k` digits. -/
theorem padded_eq {w n k : Nat} (hk : 1 ≤ k) (h1 : n < b ^ k) (h2 : k = 1 ∨ b ^ (k - 1) ≤ n ∨ k ≤ w) (h3 : w ≤ k) :
    padded digit b w n = fixed digit b k n := by
  rw [padded_fixed hb]
  congr 1
  have a1 := (numeral_length_le (digit := digit) hb hk).mpr h1
  have a2 := (numeral_eq (digit := digit) hb n).1
  rcases h2 with h2 | h2 | h2
  · omega
  · by_cases hk1 : k = 1
    · omega
    have := mt (numeral_length_le (digit := digit) (n := n) (k := k - 1) hb (by omega)).mp (by omega)
    omega
  · omega

theorem padded_wide {w n k : Nat} (hk : 1 ≤ k) (h1 : n < b ^ k) (h3 : k ≤ w) :
    padded digit b w n = List.replicate (w - k) (digit 0) ++ fixed digit b k n := by
  have a1 := (numeral_length_le (digit := digit) hb hk).mpr h1
  rw [padded_fixed hb, Nat.max_eq_left (by omega)]
  have e : w = (w - k) + k := by omega
  rw [e, fixed_add, Nat.div_eq_of_lt h1, fixed_zero, Nat.add_sub_cancel]

/-- Splitting the last `k` digits. -/
theorem padded_split {w n k : Nat} (hk : 1 ≤ k) (h : b ^ k ≤ n ∨ k < w) :
    padded digit b w n = padded digit b (w - k) (n / b ^ k) ++ fixed digit b k n := by
  rw [padded_fixed hb, padded_fixed hb, ← fixed_add]
  congr 1
  obtain ⟨b1, b2, b3, b4⟩ := numeral_eq (digit := digit) hb (n / b ^ k)
  obtain ⟨a1, a2, a3, a4⟩ := numeral_eq (digit := digit) hb n
  have hpos : 0 < b ^ k := Nat.pow_pos (by omega)
  generalize (numeral digit b (n / b ^ k)).length = L at b1 b2 b3
  have hL : (numeral digit b n).length ≤ L + k := by
    rw [numeral_length_le hb (by omega), Nat.pow_add]
    exact (Nat.div_lt_iff_lt_mul hpos).mp b2
  by_cases hn : b ^ k ≤ n
  · have hL2 : L + k ≤ (numeral digit b n).length := by
      refine Nat.le_of_not_lt fun hlt => ?_
      have hlen : (numeral digit b n).length ≤ L + k - 1 := by omega
      rw [numeral_length_le hb (by omega)] at hlen
      rcases b3 with b3 | b3
      · subst b3
        rw [Nat.add_sub_cancel_left] at hlen; omega
      · have : L + k - 1 = (L - 1) + k := by omega
        rw [this, Nat.pow_add] at hlen
        have := (Nat.le_div_iff_mul_le hpos).mp b3
        omega
    omega
  · have hq : n / b ^ k = 0 := Nat.div_eq_of_lt (by omega)
    have hle : (numeral digit b n).length ≤ k := (numeral_length_le hb hk).mpr (by omega)
    have hL1 : L = 1 := by
      rcases b3 with b3 | b3
      · exact b3
      · rw [hq] at b3
        have := Nat.pow_pos (n := L - 1) (show 0 < b by omega)
        omega
    omega

theorem padded_length (w n : Nat) : (padded digit b w n).length = max w (numeral digit b n).length := by
  rw [padded_fixed hb, fixed_length]

end

theorem valueOf_snoc (value : UInt8 → Nat) (b : Nat) (l : Bytes) (d : UInt8) : valueOf value b (l ++ [d]) = valueOf value b l * b + value d := by
  simp [valueOf, List.foldl_append]

theorem value_numeral {digit : Nat → UInt8} {value : UInt8 → Nat} {b : Nat} (hb : 2 ≤ b) (hd : ∀ d, d < b → value (digit d) = d) (n : Nat) :
    valueOf value b (numeral digit b n) = n := by
  fun_induction numeral digit b n with
  | case1 n h => simp [valueOf, hd n (by omega)]
  | case2 n h ih => rw [valueOf_snoc, ih, hd _ (Nat.mod_lt _ (by omega)), Nat.mul_comm, Nat.div_add_mod]

theorem value_padded {digit : Nat → UInt8} {value : UInt8 → Nat} {b : Nat} (hb : 2 ≤ b) (hd : ∀ d, d < b → value (digit d) = d) (w n : Nat) :
    valueOf value b (padded digit b w n) = n := by
  have h0 : ∀ k, List.foldl (fun acc d => acc * b + value d) 0 (List.replicate k (digit 0)) = 0 := by
    intro k
    induction k with
    | zero => rfl
    | succ k ih => rw [List.replicate_succ, List.foldl_cons, hd 0 (by omega)]; simpa using ih
  unfold padded valueOf
  rw [List.foldl_append, h0]
  exact value_numeral hb hd n

/-! ## Decimal -/

local notation "fx" => fixed decDigit 10
local notation "pd" => padded decDigit 10

theorem fx_split {j k : Nat} (n : Nat) : fx (j + k) n = fx j (n / 10 ^ k) ++ fx k (n % 10 ^ k) := by rw [fixed_add, fixed_mod]

theorem dec1_eq {n : Nat} (h : n < 10) : dec1 n = fx 1 n := by
  show [48 + UInt8.ofNat n] = [] ++ [decDigit (n % 10)]
  rw [Nat.mod_eq_of_lt h, decDigit, UInt8.ofNat_add]; rfl

theorem dec2_eq {n : Nat} (h : n < 100) : dec2 n = fx 2 n := by
  show [UInt8.ofNat (48 + n / 10), UInt8.ofNat (48 + n % 10)] = ([] ++ [decDigit (n / 10 % 10)]) ++ [decDigit (n % 10)]
  rw [Nat.mod_eq_of_lt (show n / 10 < 10 by omega)]; rfl

theorem write4_eq {n : Nat} (h : n < 10000) : write4 n = fx 4 n := by
  rw [write4, dec2_eq (by omega), dec2_eq (by omega)]
  exact (fx_split (j := 2) (k := 2) n).symm

theorem write6_eq {n : Nat} (h : n < 1000000) : write6 n = fx 6 n := by
  rw [write6, dec2_eq (by omega), write4_eq (by omega)]
  exact (fx_split (j := 2) (k := 4) n).symm

theorem write8_eq {n : Nat} (h : n < 100000000) : write8 n = fx 8 n := by
  rw [write8, dec2_eq (by omega), write6_eq (by omega)]
  exact (fx_split (j := 2) (k := 6) n).symm

theorem decImpl32_eq {n : Nat} (h : n < 2 ^ 32) (w : Nat) : decImpl32 n w = pd w n := by
  have b2 : 2 ≤ 10 := by omega
  unfold decImpl32
  split
  · split
    · rw [dec2_eq (by omega), padded_eq b2 (k := 2) (by omega) (by omega) (by omega) (by omega)]
    · rw [dec1_eq (by omega), padded_eq b2 (k := 1) (by omega) (by omega) (by omega) (by omega)]
  split
  · split
    · rw [write4_eq (by omega), padded_eq b2 (k := 4) (by omega) (by omega) (by omega) (by omega)]
    · rw [dec1_eq (by omega), dec2_eq (by omega), padded_eq b2 (k := 3) (by omega) (by omega) (by omega) (by omega)]
      exact (fx_split (j := 1) (k := 2) n).symm
  split
  · split
    · rw [write6_eq (by omega), padded_eq b2 (k := 6) (by omega) (by omega) (by omega) (by omega)]
    · rw [dec1_eq (by omega), write4_eq (by omega), padded_eq b2 (k := 5) (by omega) (by omega) (by omega) (by omega)]
      exact (fx_split (j := 1) (k := 4) n).symm
  split
  · split
    · rw [write8_eq (by omega), padded_eq b2 (k := 8) (by omega) (by omega) (by omega) (by omega)]
    · rw [dec1_eq (by omega), write6_eq (by omega), padded_eq b2 (k := 7) (by omega) (by omega) (by omega) (by omega)]
      exact (fx_split (j := 1) (k := 6) n).symm
  split
  · rw [dec1_eq (by omega), write8_eq (by omega), padded_eq b2 (k := 9) (by omega) (by omega) (by omega) (by omega)]
    exact (fx_split (j := 1) (k := 8) n).symm
  · rw [dec2_eq (by omega), write8_eq (by omega), List.append_assoc]
    have e := fx_split (j := 2) (k := 8) n
    simp only [show (10 : Nat) ^ 8 = 100000000 from rfl] at e
    rw [← e]
    by_cases hw : 10 < w
    · rw [if_pos hw, padded_wide b2 (k := 10) (by omega) (by omega) (by omega)]; rfl
    · rw [if_neg hw, padded_eq b2 (k := 10) (by omega) (by omega) (by omega) (by omega)]; rfl

theorem decImpl64_eq {n : Nat} (h : n < 2 ^ 64) (w : Nat) : decImpl64 n w = pd w n := by
  have b2 : 2 ≤ 10 := by omega
  unfold decImpl64
  split
  · rw [Nat.mod_eq_of_lt (by omega), decImpl32_eq (by omega)]
  rename_i h32
  have e := fx_split (j := 2) (k := 8) (n % 10 ^ 10)
  simp only [show (10 : Nat) ^ 8 = 100000000 from rfl] at e
  by_cases hov : 10000000000 ≤ n ∨ 10 < w
  · simp only [if_pos hov]
    rw [Nat.mod_eq_of_lt (show n / 10000000000 < 2 ^ 32 by omega), decImpl32_eq (by omega),
      Nat.mod_eq_of_lt (show n % 10000000000 / 100000000 < 2 ^ 32 by omega), dec2_eq (by omega),
      Nat.mod_eq_of_lt (show n % 10000000000 % 100000000 < 2 ^ 32 by omega), decImpl32_eq (by omega),
      padded_eq b2 (w := 8) (k := 8) (by omega) (by omega) (by omega) (by omega), List.append_assoc,
      padded_split b2 (w := w) (n := n) (k := 10) (by omega) (by omega)]
    rw [show n % 10000000000 = n % 10 ^ 10 from rfl, ← e, fixed_mod]
  · simp only [if_neg hov, List.nil_append]
    rw [Nat.mod_eq_of_lt (show n / 100000000 < 2 ^ 32 by omega), dec2_eq (by omega),
      Nat.mod_eq_of_lt (show n % 100000000 < 2 ^ 32 by omega), decImpl32_eq (by omega),
      padded_eq b2 (w := 8) (k := 8) (by omega) (by omega) (by omega) (by omega),
      padded_eq b2 (k := 10) (by omega) (by omega) (by omega) (by omega)]
    rw [Nat.mod_eq_of_lt (show n < 10 ^ 10 by omega)] at e
    exact e.symm

theorem decImpl128_eq {n : Nat} (h : n < 2 ^ 128) (w : Nat) : decImpl128 n w = pd w n := by
  have b2 : 2 ≤ 10 := by omega
  unfold decImpl128
  split
  · rw [Nat.mod_eq_of_lt (by omega), decImpl64_eq (by omega)]
  rename_i h32
  have e := fx_split (j := 2) (k := 18) (n % 10 ^ 20)
  simp only [show (10 : Nat) ^ 18 = 1000000000000000000 from rfl] at e
  simp only [show 5 * 2 ^ 64 + 0x6bc75e2d63100000 = 100000000000000000000 from rfl]
  by_cases hov : 100000000000000000000 ≤ n ∨ 20 < w
  · simp only [if_pos hov]
    rw [Nat.mod_eq_of_lt (show n / 100000000000000000000 < 2 ^ 64 by omega), decImpl64_eq (by omega),
      Nat.mod_eq_of_lt (show n % 100000000000000000000 / 1000000000000000000 < 2 ^ 32 by omega), dec2_eq (by omega),
      Nat.mod_eq_of_lt (show n % 100000000000000000000 % 1000000000000000000 < 2 ^ 64 by omega), decImpl64_eq (by omega),
      padded_eq b2 (w := 18) (k := 18) (by omega) (by omega) (by omega) (by omega), List.append_assoc,
      padded_split b2 (w := w) (n := n) (k := 20) (by omega) (by omega)]
    rw [show n % 100000000000000000000 = n % 10 ^ 20 from rfl, ← e, fixed_mod]
  · simp only [if_neg hov, List.nil_append]
    rw [Nat.mod_eq_of_lt (show n / 1000000000000000000 < 2 ^ 32 by omega), dec2_eq (by omega),
      Nat.mod_eq_of_lt (show n % 1000000000000000000 < 2 ^ 64 by omega), decImpl64_eq (by omega),
      padded_eq b2 (w := 18) (k := 18) (by omega) (by omega) (by omega) (by omega),
      padded_eq b2 (k := 20) (by omega) (by omega) (by omega) (by omega)]
    rw [Nat.mod_eq_of_lt (show n < 10 ^ 20 by omega)] at e
    exact e.symm

theorem writeDec_eq {bits n : Nat} (hb : IntBits bits) (h : n < 2 ^ bits) (w : Nat) : writeDec bits n w = pd w n := by
  unfold writeDec
  rcases hb with rfl | rfl | rfl | rfl | rfl
  · rw [if_pos (by omega), decImpl32_eq (by omega)]
  · rw [if_pos (by omega), decImpl32_eq (by omega)]
  · rw [if_pos (by omega), decImpl32_eq (by omega)]
  · rw [if_neg (by omega), if_pos (by omega), decImpl64_eq (by omega)]
  · rw [if_neg (by omega), if_neg (by omega), decImpl128_eq (by omega)]

theorem padded_small {digit : Nat → UInt8} {b : Nat} (hb : 2 ≤ b) {w : Nat} (hw : w ≤ 1) (n : Nat) : padded digit b 0 n = padded digit b w n := by
  rw [padded_fixed hb, padded_fixed hb]
  have := (numeral_eq (digit := digit) hb n).1
  congr 1; omega

theorem decUnsigned_eq {bits n : Nat} (hb : IntBits bits) (h : n < 2 ^ bits) (w : Nat) : decUnsigned bits n w = pd w n := by
  unfold decUnsigned
  split
  · rw [writeDec_eq hb h, padded_small (by omega) ‹_›]
  · rw [writeDec_eq hb h]

theorem absValue_eq {bits : Nat} {n : Int} (hb : IntBits bits) (h : Signed bits n) : absValue bits n = n.natAbs ∧ n.natAbs < 2 ^ bits := by
  unfold absValue Signed at *
  rcases hb with rfl | rfl | rfl | rfl | rfl <;> (simp only [Nat.add_one_sub_one] at h; split <;> omega)

theorem writeDecSigned_eq {bits : Nat} {n : Int} (hb : IntBits bits) (h : Signed bits n) (w : Nat) :
    writeDecSigned bits n w = paddedInt decDigit 10 w n := by
  obtain ⟨e, hlt⟩ := absValue_eq hb h
  unfold writeDecSigned paddedInt
  rw [e, writeDec_eq hb hlt, writeDec_eq hb hlt]

theorem decSigned_eq {bits : Nat} {n : Int} (hb : IntBits bits) (h : Signed bits n) (w : Nat) :
    decSigned bits n w = paddedInt decDigit 10 w n := by
  unfold decSigned
  split
  · rw [writeDecSigned_eq hb h]
    unfold paddedInt
    split
    · rw [padded_small (by omega) ‹_›]
    · rw [padded_small (by omega) (show w - 1 ≤ 1 by omega)]
  · rw [writeDecSigned_eq hb h]

/-! ### Backward -/

theorem numeral_two {n : Nat} (h : 100 ≤ n) : numeral decDigit 10 n = numeral decDigit 10 (n / 100) ++ dec2 (n % 100) := by
  rw [numeral, if_neg (by omega), numeral, if_neg (by omega), Nat.div_div_eq_div_mul, dec2_eq (by omega), List.append_assoc]
  congr 1
  show _ = ([] ++ [decDigit (n % 100 / 10 % 10)]) ++ [decDigit (n % 100 % 10)]
  rw [show n % 100 / 10 % 10 = n / 10 % 10 by omega, show n % 100 % 10 = n % 10 by omega]; rfl

theorem decBack32_eq (n : Nat) (after : Bytes) : decBack32 n after = numeral decDigit 10 n ++ after := by
  fun_induction decBack32 n after with
  | case1 n after h ih => rw [ih, numeral_two h, List.append_assoc]
  | case2 n after h1 h2 =>
    rw [dec2_eq (by omega), numeral, if_neg (by omega), numeral, if_pos (by omega)]
    show ([] ++ [decDigit (n / 10 % 10)]) ++ [decDigit (n % 10)] ++ after = _
    rw [Nat.mod_eq_of_lt (show n / 10 < 10 by omega)]; rfl
  | case3 n after h1 h2 =>
    rw [dec1_eq (by omega), numeral, if_pos (by omega)]
    show [decDigit (n % 10)] ++ after = _
    rw [Nat.mod_eq_of_lt (by omega)]

theorem decBack64_eq (n : Nat) (after : Bytes) : decBack64 n after = numeral decDigit 10 n ++ after := by
  fun_induction decBack64 n after with
  | case1 n after h ih => rw [ih, Nat.mod_eq_of_lt (show n % 100 < 2 ^ 32 by omega), ← List.append_assoc, ← numeral_two (by omega)]
  | case2 n after h => rw [decBack32_eq, Nat.mod_eq_of_lt (by omega)]

theorem decBack128_eq (n : Nat) (after : Bytes) : decBack128 n after = numeral decDigit 10 n ++ after := by
  fun_induction decBack128 n after with
  | case1 n after h ih => rw [ih, Nat.mod_eq_of_lt (show n % 100 < 2 ^ 32 by omega), ← List.append_assoc, ← numeral_two (by omega)]
  | case2 n after h => rw [decBack64_eq, Nat.mod_eq_of_lt (by omega)]

theorem decBack_eq (bits n : Nat) (after : Bytes) : decBack bits n after = numeral decDigit 10 n ++ after := by
  unfold decBack
  split
  · exact decBack32_eq _ _
  split
  · exact decBack64_eq _ _
  · exact decBack128_eq _ _

theorem decBackSigned_eq {bits : Nat} {n : Int} (hb : IntBits bits) (h : Signed bits n) (after : Bytes) :
    decBackSigned bits n after = paddedInt decDigit 10 0 n ++ after := by
  obtain ⟨e, hlt⟩ := absValue_eq hb h
  unfold decBackSigned paddedInt padded
  rw [e, decBack_eq]
  simp only [Nat.zero_sub, List.replicate_zero, List.nil_append]
  split <;> rfl

theorem decStringify_eq (bits n w : Nat) : decStringify bits n w = pd w n := by
  unfold decStringify padded
  simp only [decBack_eq, List.append_nil]
  split
  · rfl
  · rw [Nat.sub_eq_zero_of_le (by omega)]; rfl

theorem decStringifySigned_eq {bits : Nat} {n : Int} (hb : IntBits bits) (h : Signed bits n) (w : Nat) :
    decStringifySigned bits n w = paddedInt decDigit 10 w n := by
  obtain ⟨e, hlt⟩ := absValue_eq hb h
  unfold decStringifySigned paddedInt padded
  simp only [e, decBack_eq, List.append_nil]
  generalize hL : (numeral decDigit 10 n.natAbs).length = L
  split
  · split
    · rfl
    · rw [Nat.sub_eq_zero_of_le (by omega)]; rfl
  · split
    · rw [show w - (L + 1) = w - 1 - L by omega]; rfl
    · rw [Nat.sub_eq_zero_of_le (show w - 1 ≤ L by omega)]; rfl

/-! ### Sizes -/

/-- What an entry of the table must be: numbers whose bit width is `2 i` or `2 i + 1` have `size` digits, or `size - 1` digits below the threshold. -/
def entryOk (i : Nat) (e : Nat × Nat) : Bool :=
  decide (1 ≤ e.1 ∧ 2 ^ (2 * i + 1) ≤ 10 ^ e.1 ∧ (e.2 = 10 ^ (e.1 - 1) ∧ 2 ≤ e.1 ∧ (e.1 = 2 ∨ 10 ^ (e.1 - 2) ≤ 2 ^ (2 * i - 1)) ∨ e.1 = 1 ∧ e.2 = 0))

theorem bitWidth_le {n k : Nat} : bitWidth n ≤ k ↔ n < 2 ^ k := by
  unfold bitWidth
  split
  · subst_vars
    simp [Nat.pow_pos]
  · rename_i h
    rw [← Nat.log2_lt h]; omega

theorem entries_ok : (∀ i, i < 17 → entryOk i ((entries 32).getD i (0, 0))) ∧ (∀ i, i < 33 → entryOk i ((entries 64).getD i (0, 0))) ∧
    (∀ i, i < 65 → entryOk i ((entries 128).getD i (0, 0))) := by
  decide +kernel

theorem stringifiedSizeOf_eq {bits n : Nat} (hb : bits = 32 ∨ bits = 64 ∨ bits = 128) (h : n < 2 ^ bits) :
    stringifiedSizeOf bits n = (numeral decDigit 10 n).length := by
  have b2 : 2 ≤ 10 := by omega
  have hw : bitWidth n ≤ bits := bitWidth_le.mpr h
  have hok : entryOk (bitWidth n / 2) ((entries bits).getD (bitWidth n / 2) (0, 0)) := by
    obtain ⟨e1, e2, e3⟩ := entries_ok
    rcases hb with rfl | rfl | rfl
    · exact e1 _ (by omega)
    · exact e2 _ (by omega)
    · exact e3 _ (by omega)
  unfold stringifiedSizeOf
  simp only
  generalize (entries bits).getD (bitWidth n / 2) (0, 0) = e at hok
  obtain ⟨size, thr⟩ := e
  simp only [entryOk, decide_eq_true_eq] at hok ⊢
  obtain ⟨h1, h2, h3⟩ := hok
  have hup : n < 10 ^ size := Nat.lt_of_lt_of_le (bitWidth_le.mp (by omega)) h2
  have hle := (numeral_length_le (digit := decDigit) b2 h1).mpr hup
  have hpos := (numeral_eq (digit := decDigit) b2 n).1
  rcases h3 with ⟨rfl, hs, h4⟩ | ⟨rfl, rfl⟩
  · by_cases hlt : n < 10 ^ (size - 1)
    · rw [if_pos hlt]
      have hle' := (numeral_length_le (digit := decDigit) b2 (by omega)).mpr hlt
      rcases h4 with h4 | h4
      · omega
      · by_cases hs2 : size = 2
        · omega
        have hlow : 2 ^ (2 * (bitWidth n / 2) - 1) ≤ n := by
          refine Nat.le_of_not_lt fun hc => ?_
          have := bitWidth_le.mpr hc
          by_cases h0 : bitWidth n / 2 = 0
          · rw [h0] at h4
            have : 10 ^ 1 ≤ 10 ^ (size - 2) := Nat.pow_le_pow_right (by omega) (by omega)
            simp at h4; omega
          · omega
        have := mt (numeral_length_le (digit := decDigit) (n := n) (k := size - 2) b2 (by omega)).mp (by omega)
        omega
    · rw [if_neg hlt]
      have := mt (numeral_length_le (digit := decDigit) (n := n) (k := size - 1) b2 (by omega)).mp hlt
      omega
  · rw [if_neg (by omega)]; omega

theorem stringifiedSize_eq {bits n : Nat} (hb : IntBits bits) (h : n < 2 ^ bits) : stringifiedSize bits n = (numeral decDigit 10 n).length := by
  unfold stringifiedSize
  rcases hb with rfl | rfl | rfl | rfl | rfl
  · exact stringifiedSizeOf_eq (by simp) (by simp only [Nat.reduceLeDiff, if_true]; omega)
  · exact stringifiedSizeOf_eq (by simp) (by simp only [Nat.reduceLeDiff, if_true]; omega)
  · exact stringifiedSizeOf_eq (by simp) (by simp only [Nat.reduceLeDiff, if_true]; omega)
  · exact stringifiedSizeOf_eq (by simp) (by simp; omega)
  · exact stringifiedSizeOf_eq (by simp) (by simp; omega)

theorem decSize_eq {bits n : Nat} (hb : IntBits bits) (h : n < 2 ^ bits) (w : Nat) : decSize bits n w = (pd w n).length := by
  rw [padded_length (by omega), decSize, stringifiedSize_eq hb h]

theorem decSizeSigned_eq {bits : Nat} {n : Int} (hb : IntBits bits) (h : Signed bits n) (w : Nat) :
    decSizeSigned bits n w = (paddedInt decDigit 10 w n).length := by
  obtain ⟨e, hlt⟩ := absValue_eq hb h
  unfold decSizeSigned stringifiedSizeSigned paddedInt
  rw [e, stringifiedSize_eq hb hlt]
  have := (numeral_eq (digit := decDigit) (b := 10) (by omega) n.natAbs).1
  split
  · rw [padded_length (by omega)]
  · rw [List.length_cons, padded_length (by omega)]; omega

theorem decSpace_ok {bits n : Nat} (hb : IntBits bits) (h : n < 2 ^ bits) (w : Nat) : (pd w n).length ≤ decSpace bits w := by
  rw [padded_length (by omega), decSpace]
  have : (numeral decDigit 10 n).length ≤ digits10 bits + 1 := by
    rw [numeral_length_le (by omega) (by omega)]
    refine Nat.lt_of_lt_of_le h ?_
    rcases hb with rfl | rfl | rfl | rfl | rfl <;> decide
  omega

theorem decSpaceSigned_ok {bits : Nat} {n : Int} (hb : IntBits bits) (h : Signed bits n) (w : Nat) :
    (paddedInt decDigit 10 w n).length ≤ decSpaceSigned bits w := by
  have : (numeral decDigit 10 n.natAbs).length ≤ digits10 (bits - 1) + 1 := by
    rw [numeral_length_le (by omega) (by omega)]
    have h2 : n.natAbs ≤ 2 ^ (bits - 1) := by
      unfold Signed at h
      rcases hb with rfl | rfl | rfl | rfl | rfl <;> (simp only [Nat.add_one_sub_one] at h; omega)
    refine Nat.lt_of_le_of_lt h2 ?_
    rcases hb with rfl | rfl | rfl | rfl | rfl <;> decide
  unfold paddedInt decSpaceSigned
  split
  · rw [padded_length (by omega)]; omega
  · rw [List.length_cons, padded_length (by omega)]; omega

/-! ## Hexadecimal -/

theorem hx_split (upper : Bool) {j k : Nat} (n : Nat) :
    fixed (hexDigit upper) 16 (j + k) n = fixed (hexDigit upper) 16 j (n / 16 ^ k) ++ fixed (hexDigit upper) 16 k (n % 16 ^ k) := by
  rw [fixed_add, fixed_mod]

theorem hex1_eq (upper : Bool) {n : Nat} (h : n < 16) : hex1 upper n = fixed (hexDigit upper) 16 1 n := by
  have : ∀ upper, ∀ n, n < 16 → hex1 upper n = fixed (hexDigit upper) 16 1 n := by decide +kernel
  exact this upper n h

theorem hex2Plain_eq (upper : Bool) {n : Nat} (h : n < 256) : hex2Plain upper n = fixed (hexDigit upper) 16 2 n := by
  have : ∀ upper, ∀ n, n < 256 → hex2Plain upper n = fixed (hexDigit upper) 16 2 n := by decide +kernel
  exact this upper n h

theorem land_cons (x y : Nat) {a b : Nat} (ha : a < 16) (hb : b < 16) : (16 * x + a) &&& (16 * y + b) = 16 * (x &&& y) + (a &&& b) := by
  have h1 := Nat.div_add_mod ((16 * x + a) &&& (16 * y + b)) (2 ^ 4)
  rw [Nat.and_div_two_pow, Nat.and_mod_two_pow, show (16 * x + a) / 2 ^ 4 = x by omega, show (16 * y + b) / 2 ^ 4 = y by omega,
    show (16 * x + a) % 2 ^ 4 = a by omega, show (16 * y + b) % 2 ^ 4 = b by omega] at h1
  exact h1.symm

theorem lor_cons (x y : Nat) {a b : Nat} (ha : a < 16) (hb : b < 16) : (16 * x + a) ||| (16 * y + b) = 16 * (x ||| y) + (a ||| b) := by
  have h1 := Nat.div_add_mod ((16 * x + a) ||| (16 * y + b)) (2 ^ 4)
  rw [Nat.or_div_two_pow, Nat.or_mod_two_pow, show (16 * x + a) / 2 ^ 4 = x by omega, show (16 * y + b) / 2 ^ 4 = y by omega,
    show (16 * x + a) % 2 ^ 4 = a by omega, show (16 * y + b) % 2 ^ 4 = b by omega] at h1
  exact h1.symm

theorem land15 {a : Nat} (h : a < 16) : a &&& 15 = a := by
  rw [show 15 = 2 ^ 4 - 1 from rfl, Nat.and_two_pow_sub_one_eq_mod]; exact Nat.mod_eq_of_lt h

theorem stage1 {a b c d : Nat} (ha : a < 16) (hb : b < 16) (hc : c < 16) (hd : d < 16) (src : Nat)
    (hsrc : src = 16 * (16 * (16 * a + b) + c) + d) :
    (src ||| (src <<< 12) % 2 ^ 32) &&& 0x0f0f0f0f = ((a * 256 + c) * 256 + b) * 256 + d := by
  have hor : a ||| d < 16 := Nat.or_lt_two_pow (n := 4) ha hd
  have e1 : (src <<< 12) % 2 ^ 32 = 16 * (16 * (16 * (16 * (16 * (16 * a + b) + c) + d) + 0) + 0) + 0 := by
    rw [Nat.shiftLeft_eq]; omega
  rw [e1, hsrc, lor_cons _ _ hd (by omega), lor_cons _ _ hc (by omega), lor_cons _ _ hb (by omega)]
  have e2 : a ||| 16 * (16 * (16 * a + b) + c) + d = 16 * (16 * (16 * a + b) + c) + (a ||| d) := by
    have := lor_cons 0 (16 * (16 * a + b) + c) ha hd
    simpa using this
  rw [e2]
  simp only [Nat.or_zero]
  rw [show 0x0f0f0f0f = 16 * (16 * (16 * (16 * (16 * (16 * 15 + 0) + 15) + 0) + 15) + 0) + 15 from rfl,
    land_cons _ _ (by omega) (by omega), land_cons _ _ (by omega) (by omega), land_cons _ _ (by omega) (by omega), land_cons _ _ (by omega) (by omega),
    land_cons _ _ (by omega) (by omega), land_cons _ _ (by omega) (by omega)]
  simp only [Nat.and_zero, land15 ha, land15 hb, land15 hc, land15 hd]
  omega

theorem stage2 {a b c d : Nat} (ha : a < 32) (hb : b < 32) (hc : c < 32) (hd : d < 32) :
    ((((a * 256 + b) * 256 + c) * 256 + d) &&& 0x10101010) >>> 4 = ((a / 16 * 256 + b / 16) * 256 + c / 16) * 256 + d / 16 := by
  have l1 : ∀ x, x < 2 → x &&& 1 = x := by decide
  have e : ((a * 256 + b) * 256 + c) * 256 + d = 16 * (16 * (16 * (16 * (16 * (16 * (16 * (a / 16) + a % 16) + b / 16) + b % 16) + c / 16) + c % 16) + d / 16) + d % 16 := by
    omega
  rw [e, show 0x10101010 = 16 * (16 * (16 * (16 * (16 * (16 * (16 * 1 + 0) + 1) + 0) + 1) + 0) + 1) + 0 from rfl,
    land_cons _ _ (by omega) (by omega), land_cons _ _ (by omega) (by omega), land_cons _ _ (by omega) (by omega), land_cons _ _ (by omega) (by omega),
    land_cons _ _ (by omega) (by omega), land_cons _ _ (by omega) (by omega), land_cons _ _ (by omega) (by omega), Nat.shiftRight_eq_div_pow,
    l1 _ (by omega), l1 _ (by omega), l1 _ (by omega), l1 _ (by omega)]
  simp only [Nat.and_zero]
  omega

theorem stage3 {a b c d : Nat} (ha : a < 256) (hb : b < 256) (hc : c < 256) (hd : d < 256) (out : Nat)
    (h : out = ((a * 256 + b) * 256 + c) * 256 + d) :
    ((out <<< 24) % 2 ^ 32 ||| out >>> 24 ||| (out &&& 0x00ffff00)) = ((d * 256 + b) * 256 + c) * 256 + a := by
  have s : ∀ x, x < 256 → x = 16 * (x / 16) + x % 16 := by omega
  have e1 : (out <<< 24) % 2 ^ 32 = 16 * (16 * (16 * (16 * (16 * (16 * d + 0) + 0) + 0) + 0) + 0) + 0 := by
    rw [Nat.shiftLeft_eq]; omega
  have e2 : out >>> 24 = 16 * (16 * (16 * (16 * (16 * (16 * 0 + 0) + 0) + 0) + 0) + a / 16) + a % 16 := by
    rw [Nat.shiftRight_eq_div_pow]; omega
  have e3 : out &&& 0x00ffff00 = 16 * (16 * (16 * (16 * (16 * (16 * 0 + b / 16) + b % 16) + c / 16) + c % 16) + 0) + 0 := by
    rw [show out = 16 * (16 * (16 * (16 * (16 * (16 * a + b / 16) + b % 16) + c / 16) + c % 16) + d / 16) + d % 16 by omega,
      show 0x00ffff00 = 16 * (16 * (16 * (16 * (16 * (16 * 0 + 15) + 15) + 15) + 15) + 0) + 0 from rfl,
    land_cons _ _ (by omega) (by omega), land_cons _ _ (by omega) (by omega), land_cons _ _ (by omega) (by omega), land_cons _ _ (by omega) (by omega),
    land_cons _ _ (by omega) (by omega), land_cons _ _ (by omega) (by omega), land15 (by omega), land15 (by omega), land15 (by omega), land15 (by omega)]
    simp only [Nat.and_zero]
  have e4 : (out <<< 24) % 2 ^ 32 ||| out >>> 24 = 16 * (16 * (16 * (16 * (16 * (16 * d + 0) + 0) + 0) + 0) + a / 16) + a % 16 := by
    rw [e1, e2]
    iterate 6 rw [lor_cons _ _ (by omega) (by omega)]
    simp only [Nat.or_zero, Nat.zero_or]
  rw [e4, e3]
  iterate 6 rw [lor_cons _ _ (by omega) (by omega)]
  simp only [Nat.or_zero, Nat.zero_or]
  omega

theorem hex4Plain_eq (upper : Bool) {n : Nat} (h : n < 65536) : hex4Plain upper n = fixed (hexDigit upper) 16 4 n := by
  obtain ⟨a, b, c, d, ha, hb, hc, hd, hn⟩ : ∃ a b c d, a < 16 ∧ b < 16 ∧ c < 16 ∧ d < 16 ∧ n = 16 * (16 * (16 * a + b) + c) + d :=
    ⟨n / 4096, n / 256 % 16, n / 16 % 16, n % 16, by omega, by omega, by omega, by omega, by omega⟩
  have hg : ∀ upper x, x < 16 → x + 6 + caseOffset upper * ((x + 6) / 16) + 42 < 256 ∧
      UInt8.ofNat (x + 6 + caseOffset upper * ((x + 6) / 16) + 42) = hexDigit upper x := by decide
  have hk : caseOffset upper ≤ 39 := by unfold caseOffset; split <;> omega
  have m : ∀ x, x < 16 → (x + 6) / 16 ≤ 1 := by omega
  have e1 := stage1 ha hb hc hd n hn
  have e2 := stage2 (a := a + 6) (b := c + 6) (c := b + 6) (d := d + 6) (by omega) (by omega) (by omega) (by omega)
  obtain ⟨ga, da⟩ := hg upper a ha
  obtain ⟨gb, db⟩ := hg upper b hb
  obtain ⟨gc, dc⟩ := hg upper c hc
  obtain ⟨gd, dd⟩ := hg upper d hd
  unfold hex4Plain
  simp only [e1]
  rw [show (((((a * 256 + c) * 256 + b) * 256 + d) % 2 ^ 32 + 0x06060606) % 2 ^ 32) =
    (((a + 6) * 256 + (c + 6)) * 256 + (b + 6)) * 256 + (d + 6) by omega, e2]
  have e4 : caseOffset upper * ((((a + 6) / 16 * 256 + (c + 6) / 16) * 256 + (b + 6) / 16) * 256 + (d + 6) / 16) =
    ((caseOffset upper * ((a + 6) / 16) * 256 + caseOffset upper * ((c + 6) / 16)) * 256 + caseOffset upper * ((b + 6) / 16)) * 256 +
      caseOffset upper * ((d + 6) / 16) := by
    simp only [Nat.mul_add, Nat.add_mul, ← Nat.mul_assoc]
  rw [e4]
  generalize caseOffset upper * ((a + 6) / 16) = xa at *
  generalize caseOffset upper * ((b + 6) / 16) = xb at *
  generalize caseOffset upper * ((c + 6) / 16) = xc at *
  generalize caseOffset upper * ((d + 6) / 16) = xd at *
  rw [stage3 ga gc gb gd _ (by omega)]
  have efx : fixed (hexDigit upper) 16 4 n = [hexDigit upper a, hexDigit upper b, hexDigit upper c, hexDigit upper d] := by
    simp only [fixed, List.nil_append, List.cons_append]
    clear e1 e2 e4 ga gb gc gd hg m da db dc dd
    rw [show n / 16 / 16 / 16 % 16 = a by omega, show n / 16 / 16 % 16 = b by omega, show n / 16 % 16 = c by omega, show n % 16 = d by omega]
  rw [efx]
  generalize a + 6 + xa + 42 = A at *
  generalize b + 6 + xb + 42 = B at *
  generalize c + 6 + xc + 42 = C at *
  generalize d + 6 + xd + 42 = D at *
  have eof : ∀ x y, y < 256 → UInt8.ofNat (x * 256 + y) = UInt8.ofNat y := by
    intro x y hy
    apply UInt8.toNat_inj.mp
    simp only [UInt8.toNat_ofNat']
    omega
  simp only [leBytes]
  rw [eof _ _ ga, show (((D * 256 + C) * 256 + B) * 256 + A) / 256 = (D * 256 + C) * 256 + B by omega, eof _ _ gb,
    show ((D * 256 + C) * 256 + B) / 256 = D * 256 + C by omega, eof _ _ gc, show (D * 256 + C) / 256 = D by omega, da, db, dc, dd]

theorem hex8Plain_eq (upper : Bool) {n : Nat} (h : n < 2 ^ 32) : hex8Plain upper n = fixed (hexDigit upper) 16 8 n := by
  rw [hex8Plain, Nat.shiftRight_eq_div_pow, hex4Plain_eq upper (by omega), hex4Plain_eq upper (by omega), Nat.mod_eq_of_lt (by omega)]
  exact (hx_split upper (j := 4) (k := 4) n).symm

theorem hex16Plain_eq (upper : Bool) {n : Nat} (h : n < 2 ^ 64) : hex16Plain upper n = fixed (hexDigit upper) 16 16 n := by
  rw [hex16Plain, Nat.shiftRight_eq_div_pow, hex8Plain_eq upper (by omega), hex8Plain_eq upper (by omega), Nat.mod_eq_of_lt (by omega)]
  exact (hx_split upper (j := 8) (k := 8) n).symm

/-! ### SSSE3 -/

theorem u8_nibble (x : Nat) : UInt8.ofNat x &&& 0xf = UInt8.ofNat (x % 16) := by
  apply UInt8.toNat_inj.mp
  rw [UInt8.toNat_and]
  simp only [UInt8.toNat_ofNat', UInt8.reduceToNat]
  rw [show 15 = 2 ^ 4 - 1 from rfl, Nat.and_two_pow_sub_one_eq_mod]
  omega

theorem sse_pairs (upper : Bool) (l : Bytes) (after : Nat) :
    ((unpacklo (leBytes l.length ((leNat l + 256 ^ l.length * after) >>> 4)) l).map (· &&& 0xf)).map (fun b => (hexDigits upper).getD b.toNat 0) =
      l.flatMap fun b => fixed (hexDigit upper) 16 2 b.toNat := by
  induction l generalizing after with
  | nil => rfl
  | cons b bs ih =>
    have hb := b.toNat_lt
    simp only [List.length_cons, leBytes, unpacklo, List.map_cons, List.flatMap_cons]
    have e1 : (leNat (b :: bs) + 256 ^ (bs.length + 1) * after) >>> 4 / 256 = (leNat bs + 256 ^ bs.length * after) >>> 4 := by
      rw [Nat.shiftRight_eq_div_pow, Nat.shiftRight_eq_div_pow, leNat, Nat.pow_succ, Nat.mul_comm (256 ^ bs.length) 256, Nat.mul_assoc]
      omega
    have e2 : (leNat (b :: bs) + 256 ^ (bs.length + 1) * after) >>> 4 % 16 = b.toNat / 16 := by
      rw [Nat.shiftRight_eq_div_pow, leNat, Nat.pow_succ, Nat.mul_comm (256 ^ bs.length) 256, Nat.mul_assoc]
      omega
    rw [e1, ih, u8_nibble, e2]
    have e3 : b &&& 0xf = UInt8.ofNat (b.toNat % 16) := by
      have := u8_nibble b.toNat
      rwa [UInt8.ofNat_toNat] at this
    rw [e3]
    have hd : ∀ upper, ∀ x, x < 16 → (hexDigits upper).getD (UInt8.ofNat x).toNat 0 = hexDigit upper x := by decide
    rw [hd upper _ (by omega), hd upper _ (by omega)]
    simp only [fixed, List.nil_append, List.cons_append]
    rw [Nat.mod_eq_of_lt (show b.toNat / 16 < 16 by omega)]

theorem flat_leBytes (upper : Bool) (n src : Nat) :
    (leBytes n src).reverse.flatMap (fun b => fixed (hexDigit upper) 16 2 b.toNat) = fixed (hexDigit upper) 16 (2 * n) src := by
  induction n generalizing src with
  | zero => rfl
  | succ n ih =>
    rw [leBytes, List.reverse_cons, List.flatMap_append, ih, Nat.mul_succ, hx_split upper (j := 2 * n) (k := 2) src]
    simp only [List.flatMap_cons, List.flatMap_nil, List.append_nil, UInt8.toNat_ofNat']

theorem hexSse_eq (upper : Bool) (n src : Nat) : hexSse upper n src = fixed (hexDigit upper) 16 (2 * n) src := by
  unfold hexSse srli4
  simp only
  have := sse_pairs upper ((leBytes n src).reverse ++ List.replicate (max n 2 - n) 0) 0
  rw [Nat.mul_zero, Nat.add_zero] at this
  rw [this, List.flatMap_append, flat_leBytes, List.take_left' (by simp)]

theorem hexNumeral_length (upper : Bool) (n : Nat) : (bitWidth (n ||| 1) + 3) / 4 = (numeral (hexDigit upper) 16 n).length := by
  have h1 : ∀ k, 1 ≤ k → (bitWidth (n ||| 1) ≤ k ↔ n < 2 ^ k) := by
    intro k hk
    rw [bitWidth_le]
    constructor
    · intro h
      exact Nat.lt_of_le_of_lt Nat.left_le_or h
    · intro h
      exact Nat.or_lt_two_pow h (Nat.one_lt_two_pow (by omega))
  have hp : 1 ≤ bitWidth (n ||| 1) := by
    refine Nat.pos_of_ne_zero fun h0 => ?_
    have := bitWidth_le.mp (Nat.le_of_eq h0)
    have h2 : 1 ≤ n ||| 1 := Nat.right_le_or
    simp at this
  have h16 : ∀ k, 16 ^ k = 2 ^ (4 * k) := fun k => by rw [Nat.pow_mul]
  have key : ∀ k, 1 ≤ k → ((numeral (hexDigit upper) 16 n).length ≤ k ↔ (bitWidth (n ||| 1) + 3) / 4 ≤ k) := by
    intro k hk
    rw [numeral_length_le (by omega) hk, h16, ← h1 (4 * k) (by omega)]
    omega
  have := (numeral_eq (digit := hexDigit upper) (b := 16) (by omega) n).1
  have a := (key _ (by omega)).mp (Nat.le_refl _)
  have c := (key ((bitWidth (n ||| 1) + 3) / 4) (by omega)).mpr (Nat.le_refl _)
  omega

theorem fixed_last {digit : Nat → UInt8} {b : Nat} {k w n : Nat} (h : w ≤ k) : ((fixed digit b k n).drop (k - w)).take w = fixed digit b w n := by
  have e : k = (k - w) + w := by omega
  conv => lhs; arg 2; arg 2; rw [e, fixed_add]
  rw [List.drop_left' (by simp), List.take_of_length_le (by simp)]

theorem hexImplSse_eq (upper : Bool) {n src : Nat} (hn : 1 ≤ n) (h : src < 2 ^ (8 * n)) (w : Nat) :
    hexImplSse upper n src w = padded (hexDigit upper) 16 w src := by
  have b2 : 2 ≤ 16 := by omega
  have h16 : ∀ k, 16 ^ k = 2 ^ (4 * k) := fun k => by rw [Nat.pow_mul]
  have hlt : src < 16 ^ (2 * n) := by rw [h16, ← Nat.mul_assoc]; exact h
  unfold hexImplSse
  simp only [hexSse_eq]
  split
  · rename_i hc
    split
    · rw [padded_wide b2 (k := 2 * n) (by omega) hlt (by omega)]; rfl
    · rw [padded_eq b2 (k := 2 * n) (by omega) hlt _ (by omega)]
      · rfl
      rcases hc with hc | hc
      · right; left
        rw [h16, show 4 * (2 * n - 1) = 8 * n - 4 by omega]; exact hc
      · exact .inr (.inr hc)
  · rename_i hc
    rw [hexNumeral_length upper, padded_fixed b2, fixed_last]
    have := (numeral_length_le (digit := hexDigit upper) b2 (show 1 ≤ 2 * n by omega)).mpr hlt
    omega

theorem hex2_eq (sse upper : Bool) {n : Nat} (h : n < 2 ^ 8) : hex2 sse upper n = fixed (hexDigit upper) 16 2 n := by
  unfold hex2; split
  · exact hexSse_eq upper 1 n
  · exact hex2Plain_eq upper h

theorem hex4_eq (sse upper : Bool) {n : Nat} (h : n < 2 ^ 16) : hex4 sse upper n = fixed (hexDigit upper) 16 4 n := by
  unfold hex4; split
  · exact hexSse_eq upper 2 n
  · exact hex4Plain_eq upper h

theorem hex8_eq (sse upper : Bool) {n : Nat} (h : n < 2 ^ 32) : hex8 sse upper n = fixed (hexDigit upper) 16 8 n := by
  unfold hex8; split
  · exact hexSse_eq upper 4 n
  · exact hex8Plain_eq upper h

theorem hex16_eq (sse upper : Bool) {n : Nat} (h : n < 2 ^ 64) : hex16 sse upper n = fixed (hexDigit upper) 16 16 n := by
  unfold hex16; split
  · exact hexSse_eq upper 8 n
  · exact hex16Plain_eq upper h

theorem hex32_eq (sse upper : Bool) {n : Nat} (h : n < 2 ^ 128) : hex32 sse upper n = fixed (hexDigit upper) 16 32 n := by
  rw [hex32, hex16_eq sse upper (by omega), hex16_eq sse upper (by omega), Nat.mod_eq_of_lt (by omega)]
  exact (hx_split upper (j := 16) (k := 16) n).symm

theorem hexImpl8_eq (sse upper : Bool) {n : Nat} (h : n < 2 ^ 8) (w : Nat) : hexImpl8 sse upper n w = padded (hexDigit upper) 16 w n := by
  have b2 : 2 ≤ 16 := by omega
  unfold hexImpl8
  split
  · rw [hex1_eq upper (by omega), padded_eq b2 (k := 1) (by omega) (by omega) (by omega) (by omega)]
  · rw [hex2_eq sse upper h]
    split
    · rw [padded_wide b2 (k := 2) (by omega) (by omega) (by omega)]; rfl
    · rw [padded_eq b2 (k := 2) (by omega) (by omega) (by omega) (by omega)]; rfl

theorem hexImpl16_eq (sse upper : Bool) {n : Nat} (h : n < 2 ^ 16) (w : Nat) : hexImpl16 sse upper n w = padded (hexDigit upper) 16 w n := by
  have b2 : 2 ≤ 16 := by omega
  unfold hexImpl16
  split
  · exact hexImplSse_eq upper (by omega) h w
  split
  · rw [hexImpl8_eq sse upper (by omega), Nat.mod_eq_of_lt (by omega)]
  · rw [Nat.shiftRight_eq_div_pow, hexImpl8_eq sse upper (by omega), hex2_eq sse upper (by omega), Nat.mod_eq_of_lt (show n / 2 ^ 8 < 2 ^ 8 by omega),
      padded_split b2 (w := w) (n := n) (k := 2) (by omega) (by omega), ← fixed_mod 2 n]

theorem hexImpl32_eq (sse upper : Bool) {n : Nat} (h : n < 2 ^ 32) (w : Nat) : hexImpl32 sse upper n w = padded (hexDigit upper) 16 w n := by
  have b2 : 2 ≤ 16 := by omega
  unfold hexImpl32
  split
  · exact hexImplSse_eq upper (by omega) h w
  split
  · rw [hexImpl16_eq sse upper (by omega), Nat.mod_eq_of_lt (by omega)]
  · rw [Nat.shiftRight_eq_div_pow, hexImpl16_eq sse upper (by omega), hex4_eq sse upper (by omega), Nat.mod_eq_of_lt (show n / 2 ^ 16 < 2 ^ 16 by omega),
      padded_split b2 (w := w) (n := n) (k := 4) (by omega) (by omega), ← fixed_mod 4 n]

theorem hexImpl64_eq (sse upper : Bool) {n : Nat} (h : n < 2 ^ 64) (w : Nat) : hexImpl64 sse upper n w = padded (hexDigit upper) 16 w n := by
  have b2 : 2 ≤ 16 := by omega
  unfold hexImpl64
  split
  · exact hexImplSse_eq upper (by omega) h w
  split
  · rw [hexImpl32_eq sse upper (by omega), Nat.mod_eq_of_lt (by omega)]
  · rw [Nat.shiftRight_eq_div_pow, hexImpl32_eq sse upper (by omega), hex8_eq sse upper (by omega), Nat.mod_eq_of_lt (show n / 2 ^ 32 < 2 ^ 32 by omega),
      padded_split b2 (w := w) (n := n) (k := 8) (by omega) (by omega), ← fixed_mod 8 n]

theorem hexImpl128_eq (sse upper : Bool) {n : Nat} (h : n < 2 ^ 128) (w : Nat) : hexImpl128 sse upper n w = padded (hexDigit upper) 16 w n := by
  have b2 : 2 ≤ 16 := by omega
  unfold hexImpl128
  split
  · rw [hexImpl64_eq sse upper (by omega), Nat.mod_eq_of_lt (by omega)]
  · rw [hexImpl64_eq sse upper (by omega), hex16_eq sse upper (by omega), Nat.mod_eq_of_lt (show n / 2 ^ 64 < 2 ^ 64 by omega),
      padded_split b2 (w := w) (n := n) (k := 16) (by omega) (by omega), ← fixed_mod 16 n]

theorem writeHex_eq (sse upper : Bool) {bits n : Nat} (hb : IntBits bits) (h : n < 2 ^ bits) (w : Nat) :
    writeHex sse upper bits n w = padded (hexDigit upper) 16 w n := by
  rcases hb with rfl | rfl | rfl | rfl | rfl
  · exact hexImpl8_eq sse upper h w
  · exact hexImpl16_eq sse upper h w
  · exact hexImpl32_eq sse upper h w
  · exact hexImpl64_eq sse upper h w
  · exact hexImpl128_eq sse upper h w

theorem hexMax_eq {bits : Nat} (hb : IntBits bits) : hexMax bits = bits / 4 ∧ (2 : Nat) ^ bits = 16 ^ (bits / 4) ∧ 1 ≤ bits / 4 := by
  rcases hb with rfl | rfl | rfl | rfl | rfl <;> decide

theorem hexFixed_eq (sse upper : Bool) {bits n : Nat} (hb : IntBits bits) (h : n < 2 ^ bits) :
    hexFixed sse upper bits n = fixed (hexDigit upper) 16 (hexMax bits) n := by
  rcases hb with rfl | rfl | rfl | rfl | rfl
  · exact hex2_eq sse upper h
  · exact hex4_eq sse upper h
  · exact hex8_eq sse upper h
  · exact hex16_eq sse upper h
  · exact hex32_eq sse upper h

theorem hexUnsigned_eq (sse upper : Bool) {bits n : Nat} (hb : IntBits bits) (h : n < 2 ^ bits) (w : Nat) :
    hexUnsigned sse upper bits n w = padded (hexDigit upper) 16 w n := by
  have b2 : 2 ≤ 16 := by omega
  obtain ⟨m1, m2, m3⟩ := hexMax_eq hb
  unfold hexUnsigned
  split
  · subst_vars
    rw [hexFixed_eq sse upper hb h, padded_eq b2 (k := hexMax bits) (by omega) (by rw [m1, ← m2]; exact h) (by omega) (by omega)]
  split
  · rw [writeHex_eq sse upper hb h, padded_small b2 ‹_›]
  · rw [writeHex_eq sse upper hb h]

theorem hexSize_eq (upper : Bool) {bits n : Nat} (hb : IntBits bits) (h : n < 2 ^ bits) :
    hexSize bits n = (numeral (hexDigit upper) 16 n).length := by
  have b2 : 2 ≤ 16 := by omega
  unfold hexSize
  rcases hb with rfl | rfl | rfl | rfl | rfl
  · rw [if_pos (by omega)]
    have h1 := (numeral_eq (digit := hexDigit upper) b2 n).1
    have h2 := numeral_length_le (digit := hexDigit upper) (n := n) (k := 1) b2 (by omega)
    have h3 := (numeral_length_le (digit := hexDigit upper) (n := n) (k := 2) b2 (by omega)).mpr (by omega)
    split
    · have := h2.mpr (by omega); omega
    · have := mt h2.mp (by omega); omega
  · exact hexNumeral_length upper n
  · exact hexNumeral_length upper n
  · exact hexNumeral_length upper n
  · rw [if_neg (by omega), if_neg (by omega)]
    split
    · rw [Nat.mod_eq_of_lt (by omega)]; exact hexNumeral_length upper n
    · rename_i h0
      rw [← hexNumeral_length upper n]
      congr 2
      have hw : ∀ k, 1 ≤ k → (bitWidth (n / 2 ^ 64) + 64 ≤ k + 64 ↔ bitWidth (n ||| 1) ≤ k + 64) := by
        intro k hk
        rw [Nat.add_le_add_iff_right, bitWidth_le, bitWidth_le, Nat.div_lt_iff_lt_mul (by omega), ← Nat.pow_add]
        constructor
        · intro h
          exact Nat.or_lt_two_pow h (Nat.one_lt_two_pow (by omega))
        · intro h
          exact Nat.lt_of_le_of_lt Nat.left_le_or h
      have hq : 1 ≤ bitWidth (n / 2 ^ 64) := by
        refine Nat.pos_of_ne_zero fun hz => ?_
        have := bitWidth_le.mp (Nat.le_of_eq hz)
        simp at this; omega
      have hr : 65 ≤ bitWidth (n ||| 1) := by
        refine Nat.le_of_not_lt fun hz => ?_
        have h1 := bitWidth_le.mp (show bitWidth (n ||| 1) ≤ 64 by omega)
        have h2 : n ≤ n ||| 1 := Nat.left_le_or
        omega
      have a := (hw (bitWidth (n / 2 ^ 64)) (by omega)).mp (Nat.le_refl _)
      have c := (hw (bitWidth (n ||| 1) - 64) (by omega)).mpr (by omega)
      omega

theorem hexNumeral_max (upper : Bool) {bits n : Nat} (hb : IntBits bits) (h : n < 2 ^ bits) :
    (numeral (hexDigit upper) 16 n).length ≤ bits / 4 := by
  obtain ⟨m1, m2, m3⟩ := hexMax_eq hb
  exact (numeral_length_le (by omega) m3).mpr (by rw [← m2]; exact h)

theorem hexBack_eq (sse upper : Bool) {bits n : Nat} (hb : IntBits bits) (h : n < 2 ^ bits) {w : Nat} (hw : w ≤ hexMax bits) :
    hexBack sse upper bits n w = padded (hexDigit upper) 16 w n := by
  have b2 : 2 ≤ 16 := by omega
  obtain ⟨m1, m2, m3⟩ := hexMax_eq hb
  have hl := hexNumeral_max upper hb h
  rw [hexBack, hexFixed_eq sse upper hb h, hexSize_eq upper hb h, padded_fixed b2]
  have e := fixed_last (digit := hexDigit upper) (b := 16) (n := n) (show max w (numeral (hexDigit upper) 16 n).length ≤ hexMax bits by omega)
  rw [List.take_of_length_le (by simp; omega)] at e
  exact e

theorem hexStringify_eq (sse upper : Bool) {bits n : Nat} (hb : IntBits bits) (h : n < 2 ^ bits) (w : Nat) :
    hexStringify sse upper bits n w = padded (hexDigit upper) 16 w n := by
  have b2 : 2 ≤ 16 := by omega
  obtain ⟨m1, m2, m3⟩ := hexMax_eq hb
  unfold hexStringify
  simp only
  by_cases hc : hexMax bits < w
  · have hlt : n < 16 ^ hexMax bits := by rw [m1, ← m2]; exact h
    rw [if_pos hc, if_pos hc, hexBack_eq sse upper hb h (by omega), padded_wide b2 (w := w) (k := hexMax bits) (by omega) hlt (by omega),
      padded_eq b2 (k := hexMax bits) (by omega) hlt (by omega) (by omega)]
    rfl
  · rw [if_neg hc, if_neg hc, hexBack_eq sse upper hb h (by omega)]; rfl

theorem hexStringifySigned_eq (sse upper : Bool) {bits : Nat} {n : Int} (hb : IntBits bits) (h : Signed bits n) (w : Nat) :
    hexStringifySigned sse upper bits n w = paddedInt (hexDigit upper) 16 w n := by
  have b2 : 2 ≤ 16 := by omega
  obtain ⟨m1, m2, m3⟩ := hexMax_eq hb
  obtain ⟨e, hlt⟩ := absValue_eq hb h
  have hlt' : n.natAbs < 16 ^ hexMax bits := by rw [m1, ← m2]; exact hlt
  unfold hexStringifySigned paddedInt
  simp only [e]
  split
  · exact hexStringify_eq sse upper hb hlt w
  split
  · rw [hexBack_eq sse upper hb hlt (by omega), padded_wide b2 (w := w - 1) (k := hexMax bits) (by omega) hlt' (by omega),
      padded_eq b2 (k := hexMax bits) (by omega) hlt' (by omega) (by omega), show w - (hexMax bits + 1) = w - 1 - hexMax bits by omega]
    rfl
  · rw [hexBack_eq sse upper hb hlt (by omega)]

theorem hexSigned_eq (sse upper : Bool) {bits : Nat} {n : Int} (hb : IntBits bits) (h : Signed bits n) (w : Nat) :
    hexSigned sse upper bits n w = paddedInt (hexDigit upper) 16 w n := by
  obtain ⟨e, hlt⟩ := absValue_eq hb h
  unfold hexSigned paddedInt
  rw [e, hexUnsigned_eq sse upper hb hlt, hexUnsigned_eq sse upper hb hlt]

theorem hexSpace_ok (upper : Bool) {bits n : Nat} (hb : IntBits bits) (h : n < 2 ^ bits) (w : Nat) :
    (padded (hexDigit upper) 16 w n).length ≤ hexSpace bits w := by
  have hl := hexNumeral_max upper hb h
  rw [padded_length (by omega), hexSpace]; omega

theorem hexSpaceSigned_ok (upper : Bool) {bits : Nat} {n : Int} (hb : IntBits bits) (h : Signed bits n) (w : Nat) :
    (paddedInt (hexDigit upper) 16 w n).length ≤ hexSpaceSigned bits w := by
  obtain ⟨e, hlt⟩ := absValue_eq hb h
  have hl := hexNumeral_max upper hb hlt
  have : bits / 4 ≤ (bits - 1 + 3) / 4 := by omega
  unfold paddedInt hexSpaceSigned
  split
  · rw [padded_length (by omega)]; omega
  · rw [List.length_cons, padded_length (by omega)]; omega

theorem hexTypeSize_eq (upper : Bool) {bits n : Nat} (hb : IntBits bits) (h : n < 2 ^ bits) (w : Nat) :
    hexTypeSize bits n w = (padded (hexDigit upper) 16 w n).length := by
  have hl := hexNumeral_max upper hb h
  rw [padded_length (by omega), hexTypeSize, hexSize_eq upper hb h]
  split <;> omega

theorem hexTypeSizeSigned_eq (upper : Bool) {bits : Nat} {n : Int} (hb : IntBits bits) (h : Signed bits n) (w : Nat) :
    hexTypeSizeSigned bits n w = (paddedInt (hexDigit upper) 16 w n).length := by
  obtain ⟨e, hlt⟩ := absValue_eq hb h
  unfold hexTypeSizeSigned hexSizeSigned paddedInt
  rw [e, hexSize_eq upper hb hlt]
  have := (numeral_eq (digit := hexDigit upper) (b := 16) (by omega) n.natAbs).1
  split
  · rw [padded_length (by omega)]
  · rw [List.length_cons, padded_length (by omega)]; omega

end Riegeli.Num

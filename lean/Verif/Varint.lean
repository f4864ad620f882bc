import Verif.Basic
/-!
# Varints: model of `riegeli/varint/varint_writing.h`, `varint_reading.{h,cc}`

The 32 and 64 bit variants are the instances `w = 32` and `w = 64`. The variants reading from a `Reader`,
a `Cord` and an array differ only in how the bytes are obtained; here the source is the remaining bytes.
-/
namespace Riegeli

/-- `kMaxLengthVarint{32,64}` (`varint_internal.h:25-26`): 5 and 10. -/
def kMaxLengthVarint (w : Nat) : Nat := (w + 6) / 7

/-- `WriteVarint{32,64}(data, dest)` (`varint_writing.h:182-206`); `data | 0x80` truncated to 8 bits is
the low 7 bits with the top bit set. -/
def writeVarint (data : Nat) : Bytes :=
  if data < 128 then [UInt8.ofNat data]
  else UInt8.ofNat (data % 128 + 128) :: writeVarint (data / 128)
termination_by data

/-- `LengthVarint{32,64}` (`varint_writing.h:160-172`); `absl::bit_width(x)` is `log2 x + 1` for `x > 0`. -/
def lengthVarint (data : Nat) : Nat :=
  let width := (data ||| 1).log2 + 1
  (width * 9 + 64) / 64

/-- Reading from the byte at `index`, having accumulated `acc`: `ReadVarint{32,64}`
(`varint_reading.h:405-453`), `ReadCanonicalVarint{32,64}` (`469-519`), `ReadVarintFromReaderLoop`
(`varint_reading.cc:79-104`), `ReadVarintFromReaderBufferLoop` (`55-77`), `ReadVarintFromArrayLoop`
(`158-179`), `ReadVarintFromCordLoop` (`130-156`). `(byte - 1) << (7 * index)` wraps around modulo `2^w`.
Returns the value and the remaining source; `none` is failure (source position unchanged). -/
def readVarintLoop (w : Nat) (canonical : Bool) (index acc : Nat) : Bytes → Option (Nat × Bytes)
  | [] => none
  | b :: src =>
    let byte := b.toNat
    let acc' := if index = 0 then byte else (acc + (byte + 2 ^ w - 1) * 2 ^ (7 * index)) % 2 ^ w
    if index + 1 = kMaxLengthVarint w then
      if 2 ^ (w - 7 * index) ≤ byte then none
      else if canonical ∧ byte = 0 then none
      else some (acc', src)
    else if 128 ≤ byte then readVarintLoop w canonical (index + 1) acc' src
    else if canonical ∧ byte = 0 ∧ index ≠ 0 then none
    else some (acc', src)

/-- `ReadVarint{32,64}`, `ReadCanonicalVarint{32,64}`. -/
def readVarint (w : Nat) (canonical : Bool) (src : Bytes) : Option (Nat × Bytes) :=
  readVarintLoop w canonical 0 0 src

/-- `CopyVarint{32,64}`, `CopyCanonicalVarint{32,64}` (`varint_reading.cc:188-306`), and
`SkipVarint{32,64}` if the copied bytes are ignored (`308-440`): the copied bytes and the remaining
source. -/
def copyVarintLoop (w : Nat) (canonical : Bool) (index : Nat) : Bytes → Option (Bytes × Bytes)
  | [] => none
  | b :: src =>
    let byte := b.toNat
    if index + 1 = kMaxLengthVarint w then
      if 2 ^ (w - 7 * index) ≤ byte then none
      else if canonical ∧ byte = 0 then none
      else some ([b], src)
    else if 128 ≤ byte then
      (copyVarintLoop w canonical (index + 1) src).map (fun r => (b :: r.1, r.2))
    else if canonical ∧ byte = 0 ∧ index ≠ 0 then none
    else some ([b], src)

def copyVarint (w : Nat) (canonical : Bool) (src : Bytes) : Option (Bytes × Bytes) :=
  copyVarintLoop w canonical 0 src

/-- `EncodeVarintSigned{32,64}` (`varint_writing.h:216-224`). -/
def encodeVarintSigned {w : Nat} (v : BitVec w) : BitVec w := (v <<< 1) ^^^ (v.sshiftRight (w - 1))

/-- `DecodeVarintSigned{32,64}` (`varint_reading.h:1534-1540`). -/
def decodeVarintSigned {w : Nat} (r : BitVec w) : BitVec w := (r >>> 1) ^^^ (~~~(r &&& 1#w) + 1#w)

/-! ## Specification -/

/-- The value of a little-endian base 128 representation. -/
def varintValue : Bytes → Nat
  | [] => 0
  | b :: bs => b.toNat % 128 + 128 * varintValue bs

/-- `bs` is a varint: every byte but the last has the top bit set. -/
def IsVarint : Bytes → Prop
  | [] => False
  | [b] => b.toNat < 128
  | b :: bs => 128 ≤ b.toNat ∧ IsVarint bs

/-! ## Proofs -/

theorem writeVarint_small {x : Nat} (h : x < 128) : writeVarint x = [UInt8.ofNat x] := by
  rw [writeVarint, if_pos h]

theorem writeVarint_big {x : Nat} (h : 128 ≤ x) :
    writeVarint x = UInt8.ofNat (x % 128 + 128) :: writeVarint (x / 128) := by
  rw [writeVarint, if_neg (by omega)]

theorem writeVarint_ne_nil (x : Nat) : writeVarint x ≠ [] := by
  rw [writeVarint]; split <;> simp

theorem ofNat_toNat {x : Nat} (h : x < 256) : (UInt8.ofNat x).toNat = x := by
  simp; omega

theorem isVarint_cons {b : UInt8} {bs : Bytes} (h : bs ≠ []) :
    IsVarint (b :: bs) ↔ 128 ≤ b.toNat ∧ IsVarint bs := by
  cases bs with
  | nil => exact absurd rfl h
  | cons c cs => exact Iff.rfl

theorem writeVarint_spec (x : Nat) : IsVarint (writeVarint x) ∧ varintValue (writeVarint x) = x := by
  induction x using Nat.strongRecOn with
  | _ x ih =>
    by_cases h : x < 128
    · rw [writeVarint_small h]
      simp only [IsVarint, varintValue, ofNat_toNat (show x < 256 by omega)]
      omega
    · have := ih (x / 128) (by omega)
      rw [writeVarint_big (by omega), isVarint_cons (writeVarint_ne_nil _)]
      simp only [varintValue, ofNat_toNat (show x % 128 + 128 < 256 by omega)]
      rw [this.2]
      exact ⟨⟨by omega, this.1⟩, by omega⟩

/-- Length of the written varint, characterised by size. -/
theorem writeVarint_length_le (n x : Nat) (hn : 0 < n) : (writeVarint x).length ≤ n ↔ x < 128 ^ n := by
  induction n generalizing x with
  | zero => omega
  | succ n ih =>
    by_cases h : x < 128
    · rw [writeVarint_small h]
      have : 1 ≤ 128 ^ n := Nat.one_le_pow _ _ (by omega)
      simp only [List.length_singleton, Nat.pow_succ]
      constructor <;> omega
    · rw [writeVarint_big (by omega)]
      simp only [List.length_cons, Nat.pow_succ]
      by_cases hz : n = 0
      · subst hz
        have : 0 < (writeVarint (x / 128)).length :=
          List.length_pos_iff.2 (writeVarint_ne_nil _)
        constructor
        · intro h; omega
        · intro h; simp at h; omega
      · have := ih (x / 128) (by omega)
        rw [Nat.add_le_add_iff_right, this]
        generalize 128 ^ n = m
        omega

theorem lengthVarint_eq {x : Nat} (h : x < 2 ^ 64) : (writeVarint x).length = lengthVarint x := by
  have hw : lengthVarint x = (((x ||| 1).log2 + 1) + 6) / 7 := by
    have hlt : x ||| 1 < 2 ^ 64 := Nat.or_lt_two_pow h (by omega)
    have hne : x ||| 1 ≠ 0 := by
      intro h0; have := @Nat.right_le_or x 1; omega
    have h64 := (Nat.log2_lt hne).2 hlt
    unfold lengthVarint
    generalize (x ||| 1).log2 = l at *
    simp only
    omega
  have hne : x ||| 1 ≠ 0 := by
    intro h0; have := @Nat.right_le_or x 1; omega
  have key : ∀ n, 0 < n → ((writeVarint x).length ≤ n ↔ lengthVarint x ≤ n) := by
    intro n hn
    rw [writeVarint_length_le n x hn, hw]
    have h1 : x < 128 ^ n ↔ (x ||| 1).log2 < 7 * n := by
      rw [Nat.log2_lt hne, show (128 : Nat) = 2 ^ 7 from rfl, ← Nat.pow_mul]
      constructor
      · intro h; exact Nat.or_lt_two_pow h (Nat.one_lt_two_pow (by omega))
      · intro h; exact Nat.lt_of_le_of_lt Nat.left_le_or h
    rw [h1]
    omega
  have p1 : 0 < (writeVarint x).length := List.length_pos_iff.2 (writeVarint_ne_nil _)
  have p2 : 0 < lengthVarint x := by rw [hw]; omega
  have a := (key _ p1).1 (Nat.le_refl _)
  have b := (key _ p2).2 (Nat.le_refl _)
  omega

/-- The wrapped accumulation step. -/
theorem acc_step {w i P acc b : Nat} (h : acc % 2 ^ w = (P + 2 ^ (7 * i)) % 2 ^ w) :
    (acc + (b + 2 ^ w - 1) * 2 ^ (7 * i)) % 2 ^ w = (P + b * 2 ^ (7 * i)) % 2 ^ w := by
  have h2 : 1 ≤ 2 ^ w := Nat.one_le_two_pow
  rw [Nat.add_mod, h, ← Nat.add_mod]
  have : P + 2 ^ (7 * i) + (b + 2 ^ w - 1) * 2 ^ (7 * i)
      = P + b * 2 ^ (7 * i) + 2 ^ w * 2 ^ (7 * i) := by
    have e1 : (b + 2 ^ w - 1) * 2 ^ (7 * i) + 2 ^ (7 * i) = (b + 2 ^ w) * 2 ^ (7 * i) := by
      rw [show b + 2 ^ w = (b + 2 ^ w - 1) + 1 by omega, Nat.add_mul]; simp
    rw [Nat.add_mul] at e1
    omega
  rw [this, Nat.add_mul_mod_self_left]

theorem varintValue_lt (bs : Bytes) : varintValue bs < 128 ^ bs.length := by
  induction bs with
  | nil => simp [varintValue]
  | cons b bs ih =>
    simp only [varintValue, List.length_cons, Nat.pow_succ]
    have := Nat.mod_lt b.toNat (show 0 < 128 by omega)
    omega

/-- Main lemma: the reading loop at `index`, with everything before it accumulated as `P`, accepts exactly
the varints of at most `kMaxLengthVarint w - index` bytes whose total value fits. -/
theorem readVarintLoop_iff {w : Nat} (hw : 7 < w) (canonical : Bool) :
    ∀ (src : Bytes) (index P acc : Nat), index < kMaxLengthVarint w → P < 2 ^ (7 * index) →
    (index ≠ 0 → acc % 2 ^ w = (P + 2 ^ (7 * index)) % 2 ^ w) → ∀ (v : Nat) (rest : Bytes),
    readVarintLoop w canonical index acc src = some (v, rest) ↔
    ∃ bs, src = bs ++ rest ∧ IsVarint bs ∧ index + bs.length ≤ kMaxLengthVarint w ∧
      v = P + varintValue bs * 2 ^ (7 * index) ∧ v < 2 ^ w ∧
      (canonical = true → bs.getLast? = some 0 → index = 0 ∧ bs.length = 1)
  | [], index, P, acc, hi, hP, hacc, v, rest => by
    simp only [readVarintLoop]
    constructor
    · intro h; simp at h
    · rintro ⟨bs, h1, h2, _⟩
      have : bs = [] := (List.append_eq_nil_iff.1 h1.symm).1
      subst this; exact absurd h2 (by simp [IsVarint])
  | b :: src, index, P, acc, hi, hP, hacc, v, rest => by
    have hb := b.toNat_lt
    have hidx : 7 * index < w := by unfold kMaxLengthVarint at hi; omega
    have hpow : 2 ^ w = 2 ^ (w - 7 * index) * 2 ^ (7 * index) := by
      rw [← Nat.pow_add]; congr 1; omega
    have hacc' : ∀ Q, Q = P + b.toNat * 2 ^ (7 * index) →
        (if index = 0 then b.toNat else (acc + (b.toNat + 2 ^ w - 1) * 2 ^ (7 * index)) % 2 ^ w) % 2 ^ w =
        Q % 2 ^ w := by
      intro Q hQ
      subst hQ
      split
      · rename_i h0
        subst h0
        have : P = 0 := by simpa using hP
        simp [this]
      · rename_i h0
        rw [acc_step (hacc h0), Nat.mod_mod]
    have hp7 : 1 ≤ 2 ^ (7 * index) := Nat.one_le_two_pow
    have one : ∀ bs : Bytes, b :: src = bs ++ rest → IsVarint bs → b.toNat < 128 →
        bs = [b] ∧ src = rest := by
      intro bs h1 h2 h3
      cases bs with
      | nil => exact absurd h2 (by simp [IsVarint])
      | cons c cs =>
        simp only [List.cons_append, List.cons.injEq] at h1
        obtain ⟨rfl, h1⟩ := h1
        cases cs with
        | nil => exact ⟨rfl, by simpa using h1⟩
        | cons d ds => have := h2.1; omega
    have fits : b.toNat < 2 ^ (w - 7 * index) → P + b.toNat * 2 ^ (7 * index) < 2 ^ w := by
      intro h
      rw [hpow]
      have : (b.toNat + 1) * 2 ^ (7 * index) ≤ 2 ^ (w - 7 * index) * 2 ^ (7 * index) :=
        Nat.mul_le_mul_right _ h
      rw [Nat.add_mul] at this; omega
    have nofit : 2 ^ (w - 7 * index) ≤ b.toNat → 2 ^ w ≤ P + b.toNat * 2 ^ (7 * index) := by
      intro h
      rw [hpow]
      have := Nat.mul_le_mul_right (2 ^ (7 * index)) h
      omega
    have val1 : b.toNat < 128 → varintValue [b] = b.toNat := by
      intro h; simp only [varintValue]; omega
    have exact1 : b.toNat < 2 ^ (w - 7 * index) →
        (if index = 0 then b.toNat else (acc + (b.toNat + 2 ^ w - 1) * 2 ^ (7 * index)) % 2 ^ w) =
        P + b.toNat * 2 ^ (7 * index) := by
      intro h
      have h1 := hacc' _ rfl
      rw [Nat.mod_eq_of_lt (fits h)] at h1
      rw [← h1]
      symm
      apply Nat.mod_eq_of_lt
      split
      · rename_i h0; subst h0
        have := fits h; simp at this; omega
      · exact Nat.mod_lt _ (Nat.two_pow_pos w)
    unfold readVarintLoop
    simp only
    by_cases hlast : index + 1 = kMaxLengthVarint w
    · rw [if_pos hlast]
      have hsmall : 2 ^ (w - 7 * index) ≤ 128 := by
        have : w - 7 * index ≤ 7 := by unfold kMaxLengthVarint at hlast; omega
        calc 2 ^ (w - 7 * index) ≤ 2 ^ 7 := Nat.pow_le_pow_right (by omega) this
          _ = 128 := rfl
      by_cases hov : 2 ^ (w - 7 * index) ≤ b.toNat
      · rw [if_pos hov]
        constructor
        · intro h; simp at h
        · rintro ⟨bs, h1, h2, h3, h4, h5, h6⟩
          exfalso
          have hl : bs.length = 1 := by
            cases bs with
            | nil => exact absurd h2 (by simp [IsVarint])
            | cons c cs => simp at h3 ⊢; have := hlast; apply List.length_eq_zero_iff.1; omega
          obtain ⟨c, rfl⟩ := List.length_eq_one_iff.1 hl
          simp only [List.cons_append, List.nil_append, List.cons.injEq] at h1
          obtain ⟨rfl, rfl⟩ := h1
          have h2 : b.toNat < 128 := h2
          rw [val1 h2] at h4
          have := nofit hov
          omega
      · rw [if_neg hov]
        have h128 : b.toNat < 128 := by omega
        have hlt : b.toNat < 2 ^ (w - 7 * index) := by omega
        by_cases hcz : canonical = true ∧ b.toNat = 0
        · rw [if_pos hcz]
          constructor
          · intro h; simp at h
          · rintro ⟨bs, h1, h2, h3, h4, h5, h6⟩
            exfalso
            obtain ⟨rfl, rfl⟩ := one bs h1 h2 h128
            have hb0 : b = 0 := UInt8.toNat.inj (by simpa using hcz.2)
            have := h6 hcz.1 (by simp [hb0])
            unfold kMaxLengthVarint at hlast
            omega
        · rw [if_neg hcz, exact1 hlt]
          constructor
          · intro h
            simp only [Option.some.injEq, Prod.mk.injEq] at h
            obtain ⟨rfl, rfl⟩ := h
            refine ⟨[b], rfl, h128, by simp; omega, by rw [val1 h128], fits hlt, ?_⟩
            intro hc hb0
            exfalso
            apply hcz
            simp only [List.getLast?_singleton, Option.some.injEq] at hb0
            exact ⟨hc, by simp [hb0]⟩
          · rintro ⟨bs, h1, h2, h3, h4, h5, h6⟩
            obtain ⟨rfl, rfl⟩ := one bs h1 h2 h128
            rw [h4, val1 h128]
    · rw [if_neg hlast]
      have hlt : b.toNat < 128 → b.toNat < 2 ^ (w - 7 * index) := by
        intro h
        have : 7 ≤ w - 7 * index := by unfold kMaxLengthVarint at hi hlast; omega
        calc b.toNat < 2 ^ 7 := h
          _ ≤ _ := Nat.pow_le_pow_right (by omega) this
      by_cases hcont : 128 ≤ b.toNat
      · rw [if_pos hcont]
        have hP' : P + (b.toNat % 128) * 2 ^ (7 * index) < 2 ^ (7 * (index + 1)) := by
          have h1 : b.toNat % 128 + 1 ≤ 128 := Nat.mod_lt _ (by omega)
          have h2 := Nat.mul_le_mul_right (2 ^ (7 * index)) h1
          rw [Nat.add_mul] at h2
          have h3 : 2 ^ (7 * (index + 1)) = 128 * 2 ^ (7 * index) := by
            rw [show 7 * (index + 1) = 7 + 7 * index by omega, Nat.pow_add]
          omega
        have hp : 2 ^ (7 * (index + 1)) = 128 * 2 ^ (7 * index) := by
          rw [show 7 * (index + 1) = 7 + 7 * index by omega, Nat.pow_add]
        have hb2 : b.toNat * 2 ^ (7 * index) =
            (b.toNat % 128) * 2 ^ (7 * index) + 128 * 2 ^ (7 * index) := by
          rw [← Nat.add_mul]; congr 1; omega
        rw [readVarintLoop_iff hw canonical src (index + 1)
          (P + (b.toNat % 128) * 2 ^ (7 * index)) _ (by omega) hP'
          (fun _ => hacc' _ (by rw [hb2, hp]; omega))]
        have hval : ∀ bs, P + b.toNat % 128 * 2 ^ (7 * index) + varintValue bs * 2 ^ (7 * (index + 1)) =
            P + varintValue (b :: bs) * 2 ^ (7 * index) := by
          intro bs
          simp only [varintValue]
          rw [hp, Nat.add_mul, Nat.mul_left_comm, Nat.mul_assoc, ← Nat.add_assoc]
        constructor
        · rintro ⟨bs, h1, h2, h3, h4, h5, h6⟩
          have hne : bs ≠ [] := by intro h; subst h; exact absurd h2 (by simp [IsVarint])
          refine ⟨b :: bs, by rw [h1]; rfl, (isVarint_cons hne).2 ⟨hcont, h2⟩, by simp; omega, ?_, h5, ?_⟩
          · rw [h4, hval]
          · intro hc hl
            have hl' : bs.getLast? = some 0 := by
              rw [List.getLast?_cons] at hl
              cases hbs : bs.getLast? with
              | none => exact absurd (List.getLast?_eq_none_iff.1 hbs) hne
              | some x => rw [hbs] at hl; simpa using hl
            have := (h6 hc hl').1; omega
        · rintro ⟨bs, h1, h2, h3, h4, h5, h6⟩
          cases bs with
          | nil => exact absurd h2 (by simp [IsVarint])
          | cons c cs =>
            simp only [List.cons_append, List.cons.injEq] at h1
            obtain ⟨rfl, h1⟩ := h1
            have hne : cs ≠ [] := by
              intro h; subst h
              have h2 : b.toNat < 128 := h2
              omega
            have h2' := ((isVarint_cons hne).1 h2).2
            refine ⟨cs, h1, h2', by simp at h3; omega, by rw [h4, hval], h5, ?_⟩
            intro hc hl
            exfalso
            have hl2 : (b :: cs).getLast? = some 0 := by
              rw [List.getLast?_cons, hl]; rfl
            have := (h6 hc hl2).2
            simp at this; exact hne this
      · rw [if_neg hcont]
        have h128 : b.toNat < 128 := by omega
        by_cases hcz : canonical = true ∧ b.toNat = 0 ∧ index ≠ 0
        · rw [if_pos hcz]
          constructor
          · intro h; simp at h
          · rintro ⟨bs, h1, h2, h3, h4, h5, h6⟩
            exfalso
            obtain ⟨rfl, rfl⟩ := one bs h1 h2 h128
            have hb0 : b = 0 := UInt8.toNat.inj (by simpa using hcz.2.1)
            have := h6 hcz.1 (by simp [hb0])
            exact hcz.2.2 this.1
        · rw [if_neg hcz, exact1 (hlt h128)]
          constructor
          · intro h
            simp only [Option.some.injEq, Prod.mk.injEq] at h
            obtain ⟨rfl, rfl⟩ := h
            refine ⟨[b], rfl, h128, by simp; omega, by rw [val1 h128], fits (hlt h128), ?_⟩
            intro hc hb0
            simp only [List.getLast?_singleton, Option.some.injEq] at hb0
            refine ⟨?_, rfl⟩
            apply Decidable.byContradiction
            intro hi0
            exact hcz ⟨hc, by simp [hb0], hi0⟩
          · rintro ⟨bs, h1, h2, h3, h4, h5, h6⟩
            obtain ⟨rfl, rfl⟩ := one bs h1 h2 h128
            rw [h4, val1 h128]

/-- A varint is the shortest representation of its value iff its last byte is not a superfluous zero. -/
theorem canonical_iff : ∀ {bs : Bytes}, IsVarint bs →
    ((bs.getLast? = some 0 → bs.length = 1) ↔ bs = writeVarint (varintValue bs))
  | [], h => absurd h (by simp [IsVarint])
  | [b], h => by
    have h : b.toNat < 128 := h
    simp only [varintValue, Nat.mul_zero, Nat.add_zero, Nat.mod_eq_of_lt h]
    rw [writeVarint_small h]
    simp
  | b :: c :: cs, h => by
    have h1 : 128 ≤ b.toNat := h.1
    have h2 : IsVarint (c :: cs) := h.2
    have hb := b.toNat_lt
    have ih := canonical_iff h2
    have hv : varintValue (b :: c :: cs) = b.toNat % 128 + 128 * varintValue (c :: cs) := rfl
    have hlast : (b :: c :: cs).getLast? = (c :: cs).getLast? := by simp
    rw [hlast]
    by_cases hz : varintValue (c :: cs) = 0
    · -- everything after `b` is zero: not canonical
      constructor
      · intro hl
        have hall : ∀ bs : Bytes, IsVarint bs → varintValue bs = 0 → bs.getLast? = some 0 := by
          intro bs
          induction bs with
          | nil => intro h; exact absurd h (by simp [IsVarint])
          | cons x xs ihx =>
            intro hx hx0
            cases xs with
            | nil =>
              have hx : x.toNat < 128 := hx
              simp only [varintValue] at hx0
              have : x = 0 := UInt8.toNat.inj (by simp; omega)
              simp [this]
            | cons y ys =>
              simp only [varintValue] at hx0
              have := ihx hx.2 (by simp only [varintValue]; omega)
              simpa using this
        have := hl (hall _ h2 hz)
        simp at this
      · intro he
        rw [hv, hz, writeVarint_small (by omega)] at he
        simp at he
    · have hbig : 128 ≤ varintValue (b :: c :: cs) := by omega
      rw [writeVarint_big hbig]
      have hd : varintValue (b :: c :: cs) / 128 = varintValue (c :: cs) := by omega
      have hm : UInt8.ofNat (varintValue (b :: c :: cs) % 128 + 128) = b := by
        apply UInt8.toNat.inj
        rw [ofNat_toNat (by omega)]; omega
      rw [hd, hm]
      simp only [List.cons.injEq, true_and]
      rw [← ih]
      simp only [List.length_cons]
      constructor
      · intro hl h0; have := hl h0; omega
      · intro hl h0
        exfalso
        have h1 := hl h0
        have : cs = [] := by
          apply List.length_eq_zero_iff.1; omega
        subst this
        simp at h0
        subst h0
        exact hz (by simp [varintValue])

/-- Complete characterisation of `ReadVarint`: it accepts exactly the varints which are not too
long and whose value fits; the canonical variant only those which `WriteVarint` produces. -/
theorem readVarint_iff {w : Nat} (hw : 7 < w) (canonical : Bool) (src : Bytes) (v : Nat) (rest : Bytes) :
    readVarint w canonical src = some (v, rest) ↔
    ∃ bs, src = bs ++ rest ∧ IsVarint bs ∧ varintValue bs = v ∧ bs.length ≤ kMaxLengthVarint w ∧
      v < 2 ^ w ∧ (canonical = true → bs = writeVarint v) := by
  unfold readVarint
  rw [readVarintLoop_iff hw canonical src 0 0 0 (by unfold kMaxLengthVarint; omega) (by simp)
    (fun h => absurd rfl h)]
  constructor
  · rintro ⟨bs, h1, h2, h3, h4, h5, h6⟩
    have hv : varintValue bs = v := by simp at h4; exact h4.symm
    refine ⟨bs, h1, h2, hv, by omega, h5, ?_⟩
    intro hc
    rw [← hv]
    exact (canonical_iff h2).1 (fun h => (h6 hc h).2)
  · rintro ⟨bs, h1, h2, h3, h4, h5, h6⟩
    refine ⟨bs, h1, h2, by omega, by simp [h3], h5, ?_⟩
    intro hc hl
    refine ⟨rfl, ?_⟩
    refine (canonical_iff h2).2 ?_ hl
    rw [h3]; exact h6 hc

theorem maxLen_of_lt {w x : Nat} (hw : 0 < w) (h : x < 2 ^ w) :
    (writeVarint x).length ≤ kMaxLengthVarint w := by
  rw [writeVarint_length_le _ _ (by unfold kMaxLengthVarint; omega)]
  refine Nat.lt_of_lt_of_le h ?_
  rw [show (128 : Nat) = 2 ^ 7 from rfl, ← Nat.pow_mul]
  apply Nat.pow_le_pow_right (by omega)
  unfold kMaxLengthVarint; omega

theorem readVarint_write {w x : Nat} (hw : 7 < w) (h : x < 2 ^ w) (canonical : Bool) (rest : Bytes) :
    readVarint w canonical (writeVarint x ++ rest) = some (x, rest) := by
  rw [readVarint_iff hw]
  exact ⟨writeVarint x, rfl, (writeVarint_spec x).1, (writeVarint_spec x).2, maxLen_of_lt (by omega) h, h,
    fun _ => rfl⟩

theorem readVarint_append {w : Nat} (hw : 7 < w) {c : Bool} {src rest : Bytes} {v : Nat}
    (h : readVarint w c src = some (v, rest)) (extra : Bytes) :
    readVarint w c (src ++ extra) = some (v, rest ++ extra) := by
  rw [readVarint_iff hw] at h ⊢
  obtain ⟨bs, rfl, h2⟩ := h
  exact ⟨bs, by simp, h2⟩

theorem readVarint_lt {w : Nat} (hw : 7 < w) {c : Bool} {src rest : Bytes} {v : Nat}
    (h : readVarint w c src = some (v, rest)) : v < 2 ^ w := by
  rw [readVarint_iff hw] at h
  obtain ⟨_, _, _, _, _, h, _⟩ := h
  exact h

theorem readVarint_length {w : Nat} (hw : 7 < w) {c : Bool} {src rest : Bytes} {v : Nat}
    (h : readVarint w c src = some (v, rest)) : rest.length < src.length := by
  rw [readVarint_iff hw] at h
  obtain ⟨bs, h1, h2, _⟩ := h
  subst h1
  cases bs with
  | nil => exact absurd h2 (by simp [IsVarint])
  | cons b bs => simp; omega

/-- Copying copies exactly the bytes which reading consumes, and succeeds in the same cases. -/
theorem copyVarintLoop_eq {w : Nat} (c : Bool) : ∀ (src : Bytes) (index acc : Nat),
    (copyVarintLoop w c index src = none ↔ readVarintLoop w c index acc src = none) ∧
    ∀ bs rest, copyVarintLoop w c index src = some (bs, rest) →
      src = bs ++ rest ∧ ∃ v, readVarintLoop w c index acc src = some (v, rest)
  | [], index, acc => by simp [copyVarintLoop, readVarintLoop]
  | b :: src, index, acc => by
    unfold copyVarintLoop readVarintLoop
    simp only
    split
    · split
      · simp
      · split
        · simp
        · simp
    · split
      · have ih := copyVarintLoop_eq (w := w) c src (index + 1)
          (if index = 0 then b.toNat else (acc + (b.toNat + 2 ^ w - 1) * 2 ^ (7 * index)) % 2 ^ w)
        constructor
        · rw [Option.map_eq_none_iff]; exact ih.1
        · intro bs rest h
          rw [Option.map_eq_some_iff] at h
          obtain ⟨⟨bs', r'⟩, h1, h2⟩ := h
          simp only [Prod.mk.injEq] at h2
          obtain ⟨rfl, rfl⟩ := h2
          obtain ⟨h3, h4⟩ := ih.2 _ _ h1
          exact ⟨by rw [h3]; rfl, h4⟩
      · split
        · simp
        · simp

/-! ## Zigzag -/

theorem decodeVarintSigned_mask {w : Nat} (hw : 0 < w) (r : BitVec w) :
    ~~~(r &&& 1#w) + 1#w = if r.getLsbD 0 then BitVec.allOnes w else 0#w := by
  have h1 : r &&& 1#w = if r.getLsbD 0 then 1#w else 0#w := by
    apply BitVec.eq_of_getLsbD_eq
    intro i hi
    simp only [BitVec.getLsbD_and, BitVec.getLsbD_one]
    by_cases hr : r.getLsbD 0
    · rw [if_pos hr]
      by_cases h0 : i = 0
      · subst h0; simp [hr, hw]
      · simp [h0, BitVec.getLsbD_one]
    · rw [if_neg hr]
      by_cases h0 : i = 0
      · subst h0; simp [Bool.eq_false_iff.2 hr]
      · simp [h0]
  rw [h1, ← BitVec.neg_eq_not_add]
  split
  · rw [BitVec.neg_one_eq_allOnes]
  · simp

theorem encodeVarintSigned_mask {w : Nat} (hw : 0 < w) (v : BitVec w) :
    v.sshiftRight (w - 1) = if v.msb then BitVec.allOnes w else 0#w := by
  apply BitVec.eq_of_getLsbD_eq
  intro i hi
  rw [BitVec.getLsbD_sshiftRight]
  have hm : v.msb = v.getLsbD (w - 1) := BitVec.msb_eq_getLsbD_last v
  by_cases h0 : i = 0
  · subst h0
    by_cases hv : v.msb
    · simp [hi, hv, ← hm]; omega
    · simp [hi, hv, ← hm]
  · have : ¬ (w - 1 + i < w) := by omega
    by_cases hv : v.msb <;> simp [hi, hv, this] <;> omega

theorem decode_encode_signed {w : Nat} (hw : 0 < w) (v : BitVec w) :
    decodeVarintSigned (encodeVarintSigned v) = v := by
  unfold decodeVarintSigned
  rw [decodeVarintSigned_mask hw]
  unfold encodeVarintSigned
  rw [encodeVarintSigned_mask hw]
  have hm : v.msb = v.getLsbD (w - 1) := BitVec.msb_eq_getLsbD_last v
  apply BitVec.eq_of_getLsbD_eq
  intro i hi
  by_cases hv : v.msb
  · simp only [hv, ↓reduceIte, BitVec.getLsbD_xor, BitVec.getLsbD_ushiftRight, BitVec.getLsbD_shiftLeft,
      BitVec.getLsbD_allOnes]
    by_cases hlast : i = w - 1
    · subst hlast
      rw [← hm, hv]
      have : ¬ (1 + (w - 1) < w) := by omega
      simp [hw, this]
      omega
    · have : 1 + i < w := by omega
      simp [hw, hi, this]
  · simp only [hv, BitVec.getLsbD_xor, BitVec.getLsbD_ushiftRight, BitVec.getLsbD_shiftLeft]
    by_cases hlast : i = w - 1
    · subst hlast
      rw [← hm]
      have : ¬ (1 + (w - 1) < w) := by omega
      simp [hw, hv, this]
    · have : 1 + i < w := by omega
      simp [hw, this]

theorem encode_decode_signed {w : Nat} (hw : 0 < w) (r : BitVec w) :
    encodeVarintSigned (decodeVarintSigned r) = r := by
  have hmsb : (decodeVarintSigned r).msb = r.getLsbD 0 := by
    rw [BitVec.msb_eq_getLsbD_last]
    unfold decodeVarintSigned
    rw [decodeVarintSigned_mask hw]
    simp only [BitVec.getLsbD_xor, BitVec.getLsbD_ushiftRight]
    rw [BitVec.getLsbD_of_ge _ _ (show w ≤ 1 + (w - 1) by omega)]
    by_cases hr : r.getLsbD 0
    · rw [if_pos hr, hr]; simp; omega
    · rw [if_neg hr, Bool.eq_false_iff.2 hr]; simp
  unfold encodeVarintSigned
  rw [encodeVarintSigned_mask hw, hmsb]
  unfold decodeVarintSigned
  rw [decodeVarintSigned_mask hw]
  apply BitVec.eq_of_getLsbD_eq
  intro i hi
  by_cases hr : r.getLsbD 0
  · simp only [if_pos hr, BitVec.getLsbD_xor, BitVec.getLsbD_ushiftRight, BitVec.getLsbD_shiftLeft,
      BitVec.getLsbD_allOnes]
    by_cases h0 : i = 0
    · subst h0; rw [hr]; simp [hw]
    · have h1 : 1 + (i - 1) = i := by omega
      have h2 : i - 1 < w := by omega
      simp [hi, h0, h1, h2]
  · simp only [if_neg hr, BitVec.getLsbD_xor, BitVec.getLsbD_ushiftRight, BitVec.getLsbD_shiftLeft]
    by_cases h0 : i = 0
    · subst h0; rw [Bool.eq_false_iff.2 hr]; simp
    · have h1 : 1 + (i - 1) = i := by omega
      simp [hi, h0, h1]

theorem encodeVarintSigned_toNat {w : Nat} (hw : 0 < w) (v : BitVec w) :
    ((encodeVarintSigned v).toNat : Int) = if 0 ≤ v.toInt then 2 * v.toInt else -2 * v.toInt - 1 := by
  have hpow : 2 ^ w = 2 * 2 ^ (w - 1) := by
    rw [← Nat.pow_succ']; congr 1; omega
  have hlt := v.isLt
  unfold encodeVarintSigned
  rw [encodeVarintSigned_mask hw, BitVec.toInt_eq_msb_cond]
  by_cases hv : v.msb
  · have hge : 2 ^ (w - 1) ≤ v.toNat := by
      have := BitVec.msb_eq_decide v; rw [hv] at this; simpa using this
    simp only [hv, ↓reduceIte, BitVec.xor_allOnes, BitVec.toNat_not, BitVec.toNat_shiftLeft]
    rw [Nat.shiftLeft_eq]
    have : v.toNat * 2 ^ 1 % 2 ^ w = 2 * v.toNat - 2 ^ w := by
      have h2 : v.toNat * 2 ^ 1 = (2 * v.toNat - 2 ^ w) + 2 ^ w := by omega
      rw [h2, Nat.add_mod_right]; apply Nat.mod_eq_of_lt; omega
    rw [this, if_neg (by omega)]
    omega
  · have hl : v.toNat < 2 ^ (w - 1) := by
      have := BitVec.msb_eq_decide v
      have hv' : v.msb = false := by simpa using hv
      rw [hv'] at this
      have := of_decide_eq_false this.symm
      omega
    simp only [hv, Bool.false_eq_true, ↓reduceIte, BitVec.xor_zero, BitVec.toNat_shiftLeft]
    rw [Nat.shiftLeft_eq, Nat.mod_eq_of_lt (by omega), if_pos (by omega)]
    omega

end Riegeli

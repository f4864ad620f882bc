import Verif.Varint
/-!
# Ordered varints: model of `riegeli/ordered_varint/ordered_varint_{writing,reading}.{h,cc}`

Where the code combines disjoint bits with `|` the model uses `+`, and where it clears bits known to
be set with `& ~` the model uses `-`.
-/
namespace Riegeli

/-- `WriteBigEndian` of the `n` low bytes of `x` (`endian/endian_writing.h`). -/
def beBytes : Nat → Nat → Bytes
  | 0, _ => []
  | n + 1, x => UInt8.ofNat (x / 256 ^ n) :: beBytes n x

/-- `ReadBigEndian` (`endian/endian_reading.h`). -/
def beNat : Bytes → Nat
  | [] => 0
  | b :: bs => b.toNat * 256 ^ bs.length + beNat bs

/-- `WriteOrderedVarint64` (`ordered_varint_writing.h:78-83`) with `WriteOrderedVarint64Slow`
(`ordered_varint_writing.cc:57-114`). -/
def writeOrderedVarint64 (data : Nat) : Bytes :=
  if data < 2 ^ 7 then beBytes 1 data
  else if data < 2 ^ (2 * 7) then beBytes 2 (data + 0x80 * 256)
  else if data < 2 ^ (3 * 7) then beBytes 3 (data + 0xc0 * 256 ^ 2)
  else if data < 2 ^ (4 * 7) then beBytes 4 (data + 0xe0 * 256 ^ 3)
  else if data < 2 ^ (5 * 7) then beBytes 5 (data + 0xf0 * 256 ^ 4)
  else if data < 2 ^ (6 * 7) then beBytes 6 (data + 0xf8 * 256 ^ 5)
  else if data < 2 ^ (7 * 7) then beBytes 7 (data + 0xfc * 256 ^ 6)
  else if data < 2 ^ (8 * 7) then beBytes 8 (data + 0xfe * 256 ^ 7)
  else beBytes 9 (data + 0xff * 256 ^ 8)

/-- `WriteOrderedVarint32` (`ordered_varint_writing.h:71-76`) with `WriteOrderedVarint32Slow`
(`ordered_varint_writing.cc:27-58`). -/
def writeOrderedVarint32 (data : Nat) : Bytes :=
  if data < 2 ^ 7 then beBytes 1 data
  else if data < 2 ^ (2 * 7) then beBytes 2 (data + 0x80 * 256)
  else if data < 2 ^ (3 * 7) then beBytes 3 (data + 0xc0 * 256 ^ 2)
  else if data < 2 ^ (4 * 7) then beBytes 4 (data + 0xe0 * 256 ^ 3)
  else beBytes 5 (data + 0xf0 * 256 ^ 4)

/-- `LengthOrderedVarint{32,64}` (`ordered_varint_writing.h:85-98`). -/
def lengthOrderedVarint (data : Nat) : Nat :=
  let width := (data ||| 1).log2 + 1
  (width * 9 + 63) / 64

/-- One branch of `ReadOrderedVarint{32,64}Slow`: `n` bytes, the bits `pre` of the first byte cleared,
values below `2^(7(n-1))` rejected as not canonical. -/
def readOrderedBranch (n pre : Nat) (src : Bytes) : Option (Nat × Bytes) :=
  if src.length < n then none
  else
    let dest := beNat (src.take n) - pre * 256 ^ (n - 1)
    if dest < 2 ^ (7 * (n - 1)) then none
    else some (dest, src.drop n)

/-- `ReadOrderedVarint64` (`ordered_varint_reading.h:77-86`) with `ReadOrderedVarint64Slow`
(`ordered_varint_reading.cc:62-132`). -/
def readOrderedVarint64 (src : Bytes) : Option (Nat × Bytes) :=
  match src with
  | [] => none
  | first :: rest =>
    let b := first.toNat
    if b < 0x80 then some (b, rest)
    else if b < 0xc0 then readOrderedBranch 2 0x80 src
    else if b < 0xe0 then readOrderedBranch 3 0xc0 src
    else if b < 0xf0 then readOrderedBranch 4 0xe0 src
    else if b < 0xf8 then readOrderedBranch 5 0xf0 src
    else if b < 0xfc then readOrderedBranch 6 0xf8 src
    else if b < 0xfe then readOrderedBranch 7 0xfc src
    else if b < 0xff then readOrderedBranch 8 0xfe src
    else readOrderedBranch 9 0xff src

/-- `ReadOrderedVarint32` (`ordered_varint_reading.h:66-75`) with `ReadOrderedVarint32Slow`
(`ordered_varint_reading.cc:26-60`). -/
def readOrderedVarint32 (src : Bytes) : Option (Nat × Bytes) :=
  match src with
  | [] => none
  | first :: rest =>
    let b := first.toNat
    if b < 0x80 then some (b, rest)
    else if b < 0xc0 then readOrderedBranch 2 0x80 src
    else if b < 0xe0 then readOrderedBranch 3 0xc0 src
    else if b < 0xf0 then readOrderedBranch 4 0xe0 src
    else if 0xf0 < b then none
    else readOrderedBranch 5 0xf0 src

/-! ## Proofs -/

@[simp] theorem beBytes_length (n x : Nat) : (beBytes n x).length = n := by
  induction n with
  | zero => rfl
  | succ n ih => simp [beBytes, ih]

theorem beBytes_mod (n x y : Nat) (h : x % 256 ^ n = y % 256 ^ n) : beBytes n x = beBytes n y := by
  induction n with
  | zero => rfl
  | succ n ih =>
    have h1 : x % 256 ^ n = y % 256 ^ n := by
      have e1 : x % 256 ^ (n + 1) % 256 ^ n = x % 256 ^ n :=
        Nat.mod_mod_of_dvd _ (Nat.pow_dvd_pow _ (by omega))
      have e2 : y % 256 ^ (n + 1) % 256 ^ n = y % 256 ^ n :=
        Nat.mod_mod_of_dvd _ (Nat.pow_dvd_pow _ (by omega))
      rw [← e1, ← e2, h]
    have h2 : x / 256 ^ n % 256 = y / 256 ^ n % 256 := by
      have e : ∀ z : Nat, z / 256 ^ n % 256 = z % 256 ^ (n + 1) / 256 ^ n := by
        intro z; rw [Nat.pow_succ, Nat.mod_mul_right_div_self]
      rw [e, e, h]
    simp only [beBytes, ih h1]
    congr 1
    apply UInt8.toNat.inj
    simpa using h2

theorem beNat_beBytes (n x : Nat) : beNat (beBytes n x) = x % 256 ^ n := by
  induction n with
  | zero => simp [beBytes, beNat, Nat.mod_one]
  | succ n ih =>
    simp only [beBytes, beNat, beBytes_length, ih]
    have h1 : (UInt8.ofNat (x / 256 ^ n)).toNat = x / 256 ^ n % 256 := by simp
    rw [h1]
    have h2 := Nat.mod_mul_right_div_self x (256 ^ n) 256
    have h3 := Nat.div_add_mod (x % (256 ^ n * 256)) (256 ^ n)
    have h4 : x % (256 ^ n * 256) % 256 ^ n = x % 256 ^ n := Nat.mod_mul_right_mod _ _ _
    rw [h2, h4] at h3
    rw [Nat.pow_succ, Nat.mul_comm]
    omega

theorem beNat_lt (bs : Bytes) : beNat bs < 256 ^ bs.length := by
  induction bs with
  | nil => simp [beNat]
  | cons b bs ih =>
    simp only [beNat, List.length_cons, Nat.pow_succ]
    have := b.toNat_lt
    have h : (b.toNat + 1) * 256 ^ bs.length ≤ 256 * 256 ^ bs.length := Nat.mul_le_mul_right _ this
    rw [Nat.add_mul] at h
    omega

theorem beBytes_beNat (bs : Bytes) : beBytes bs.length (beNat bs) = bs := by
  induction bs with
  | nil => rfl
  | cons b bs ih =>
    simp only [List.length_cons, beBytes, beNat]
    have hlt := beNat_lt bs
    have hp : 0 < 256 ^ bs.length := Nat.pow_pos (by omega)
    have h1 : (b.toNat * 256 ^ bs.length + beNat bs) / 256 ^ bs.length = b.toNat := by
      rw [Nat.mul_comm, Nat.mul_add_div hp, Nat.div_eq_of_lt hlt]; omega
    rw [h1, beBytes_mod _ _ (beNat bs) (by rw [Nat.mul_comm, Nat.mul_add_mod]), ih]
    congr 1
    apply UInt8.toNat.inj; simp

/-- Big-endian numbers of the same length compare like byte strings. -/
theorem beBytes_lt (n : Nat) {x y : Nat} (hx : x < 256 ^ n) (hy : y < 256 ^ n) :
    beBytes n x < beBytes n y ↔ x < y := by
  induction n generalizing x y with
  | zero => simp [beBytes]; simp at hx hy; omega
  | succ n ih =>
    have hp : 0 < 256 ^ n := Nat.pow_pos (by omega)
    rw [Nat.pow_succ] at hx hy
    have qx : x / 256 ^ n < 256 := by rw [Nat.div_lt_iff_lt_mul hp, Nat.mul_comm]; exact hx
    have qy : y / 256 ^ n < 256 := by rw [Nat.div_lt_iff_lt_mul hp, Nat.mul_comm]; exact hy
    have dx := Nat.div_add_mod x (256 ^ n)
    have dy := Nat.div_add_mod y (256 ^ n)
    have mx := Nat.mod_lt x hp
    have my := Nat.mod_lt y hp
    simp only [beBytes, List.cons_lt_cons_iff]
    rw [UInt8.lt_iff_toNat_lt, ofNat_toNat qx, ofNat_toNat qy]
    have ex : beBytes n x = beBytes n (x % 256 ^ n) := beBytes_mod _ _ _ (by rw [Nat.mod_mod])
    have ey : beBytes n y = beBytes n (y % 256 ^ n) := beBytes_mod _ _ _ (by rw [Nat.mod_mod])
    rw [ex, ey, ih mx my]
    generalize 256 ^ n = m at *
    generalize x / m = a at *
    generalize y / m = b at *
    have inj : UInt8.ofNat a = UInt8.ofNat b ↔ a = b := by
      constructor
      · intro h
        have := congrArg UInt8.toNat h
        rwa [ofNat_toNat qx, ofNat_toNat qy] at this
      · intro h; rw [h]
    rw [inj]
    constructor
    · rintro (h | ⟨h, h2⟩)
      · have : m * (a + 1) ≤ m * b := Nat.mul_le_mul_left _ h
        rw [Nat.mul_add] at this; omega
      · subst h; omega
    · intro h
      rcases Nat.lt_trichotomy a b with h1 | h1 | h1
      · exact Or.inl h1
      · right; subst h1; exact ⟨rfl, by omega⟩
      · exfalso
        have : m * (b + 1) ≤ m * a := Nat.mul_le_mul_left _ h1
        rw [Nat.mul_add] at this; omega

/-- `writeOrderedVarint64 x = beBytes n (x + pre * 256 ^ (n - 1))` for the `n` of the branch taken. -/
def OBranch (x n pre lim : Nat) : Prop :=
  (n = 1 ∧ pre = 0 ∧ lim = 0x80 ∧ x < 2 ^ 7) ∨
  (n = 2 ∧ pre = 0x80 ∧ lim = 0xc0 ∧ 2 ^ 7 ≤ x ∧ x < 2 ^ 14) ∨
  (n = 3 ∧ pre = 0xc0 ∧ lim = 0xe0 ∧ 2 ^ 14 ≤ x ∧ x < 2 ^ 21) ∨
  (n = 4 ∧ pre = 0xe0 ∧ lim = 0xf0 ∧ 2 ^ 21 ≤ x ∧ x < 2 ^ 28) ∨
  (n = 5 ∧ pre = 0xf0 ∧ lim = 0xf8 ∧ 2 ^ 28 ≤ x ∧ x < 2 ^ 35) ∨
  (n = 6 ∧ pre = 0xf8 ∧ lim = 0xfc ∧ 2 ^ 35 ≤ x ∧ x < 2 ^ 42) ∨
  (n = 7 ∧ pre = 0xfc ∧ lim = 0xfe ∧ 2 ^ 42 ≤ x ∧ x < 2 ^ 49) ∨
  (n = 8 ∧ pre = 0xfe ∧ lim = 0xff ∧ 2 ^ 49 ≤ x ∧ x < 2 ^ 56) ∨
  (n = 9 ∧ pre = 0xff ∧ lim = 0x100 ∧ 2 ^ 56 ≤ x ∧ x < 2 ^ 64)

theorem obranch_exists {x : Nat} (h : x < 2 ^ 64) : ∃ n pre lim, OBranch x n pre lim := by
  by_cases h1 : x < 2 ^ 7
  · exact ⟨1, 0, 0x80, Or.inl ⟨rfl, rfl, rfl, h1⟩⟩
  by_cases h2 : x < 2 ^ 14
  · exact ⟨2, 0x80, 0xc0, Or.inr (Or.inl ⟨rfl, rfl, rfl, by omega, h2⟩)⟩
  by_cases h3 : x < 2 ^ 21
  · exact ⟨3, 0xc0, 0xe0, Or.inr (Or.inr (Or.inl ⟨rfl, rfl, rfl, by omega, h3⟩))⟩
  by_cases h4 : x < 2 ^ 28
  · exact ⟨4, 0xe0, 0xf0, Or.inr (Or.inr (Or.inr (Or.inl ⟨rfl, rfl, rfl, by omega, h4⟩)))⟩
  by_cases h5 : x < 2 ^ 35
  · exact ⟨5, 0xf0, 0xf8, Or.inr (Or.inr (Or.inr (Or.inr (Or.inl ⟨rfl, rfl, rfl, by omega, h5⟩))))⟩
  by_cases h6 : x < 2 ^ 42
  · exact ⟨6, 0xf8, 0xfc, Or.inr (Or.inr (Or.inr (Or.inr (Or.inr (Or.inl ⟨rfl, rfl, rfl, by omega, h6⟩)))))⟩
  by_cases h7 : x < 2 ^ 49
  · exact ⟨7, 0xfc, 0xfe, Or.inr (Or.inr (Or.inr (Or.inr (Or.inr (Or.inr (Or.inl ⟨rfl, rfl, rfl, by omega, h7⟩))))))⟩
  by_cases h8 : x < 2 ^ 56
  · exact ⟨8, 0xfe, 0xff, Or.inr (Or.inr (Or.inr (Or.inr (Or.inr (Or.inr (Or.inr (Or.inl ⟨rfl, rfl, rfl, by omega, h8⟩)))))))⟩
  · exact ⟨9, 0xff, 0x100, Or.inr (Or.inr (Or.inr (Or.inr (Or.inr (Or.inr (Or.inr (Or.inr (⟨rfl, rfl, rfl, by omega, h⟩))))))))⟩

theorem write64_of_branch {x n pre lim : Nat} (h : OBranch x n pre lim) :
    writeOrderedVarint64 x = beBytes n (x + pre * 256 ^ (n - 1)) := by
  unfold writeOrderedVarint64
  rcases h with ⟨rfl, rfl, -, h⟩ | ⟨rfl, rfl, -, h, h'⟩ | ⟨rfl, rfl, -, h, h'⟩ | ⟨rfl, rfl, -, h, h'⟩ |
    ⟨rfl, rfl, -, h, h'⟩ | ⟨rfl, rfl, -, h, h'⟩ | ⟨rfl, rfl, -, h, h'⟩ | ⟨rfl, rfl, -, h, h'⟩ |
    ⟨rfl, rfl, -, h, h'⟩
  · rw [if_pos h]; simp
  · rw [if_neg (by omega), if_pos h']
  · rw [if_neg (by omega), if_neg (by omega), if_pos h']
  · rw [if_neg (by omega), if_neg (by omega), if_neg (by omega), if_pos h']
  · rw [if_neg (by omega), if_neg (by omega), if_neg (by omega), if_neg (by omega), if_pos h']
  · rw [if_neg (by omega), if_neg (by omega), if_neg (by omega), if_neg (by omega), if_neg (by omega),
      if_pos h']
  · rw [if_neg (by omega), if_neg (by omega), if_neg (by omega), if_neg (by omega), if_neg (by omega),
      if_neg (by omega), if_pos h']
  · rw [if_neg (by omega), if_neg (by omega), if_neg (by omega), if_neg (by omega), if_neg (by omega),
      if_neg (by omega), if_neg (by omega), if_pos h']
  · rw [if_neg (by omega), if_neg (by omega), if_neg (by omega), if_neg (by omega), if_neg (by omega),
      if_neg (by omega), if_neg (by omega), if_neg (by omega)]

theorem write32_eq {x : Nat} (h : x < 2 ^ 32) : writeOrderedVarint32 x = writeOrderedVarint64 x := by
  unfold writeOrderedVarint32 writeOrderedVarint64
  split
  · rfl
  split
  · rfl
  split
  · rfl
  split
  · rfl
  · rw [if_pos (by omega)]

/-- In each branch: the number of bytes is positive, the value fits and the first byte is in the
range reserved for the branch. -/
theorem OBranch.bounds {x n pre lim : Nat} (h : OBranch x n pre lim) :
    0 < n ∧ x + pre * 256 ^ (n - 1) < lim * 256 ^ (n - 1) ∧ lim ≤ 256 ∧ pre < lim ∧
      (1 < n → 2 ^ (7 * (n - 1)) ≤ x) := by
  rcases h with ⟨rfl, rfl, rfl, h⟩ | ⟨rfl, rfl, rfl, h, h'⟩ | ⟨rfl, rfl, rfl, h, h'⟩ | ⟨rfl, rfl, rfl, h, h'⟩ |
    ⟨rfl, rfl, rfl, h, h'⟩ | ⟨rfl, rfl, rfl, h, h'⟩ | ⟨rfl, rfl, rfl, h, h'⟩ | ⟨rfl, rfl, rfl, h, h'⟩ |
    ⟨rfl, rfl, rfl, h, h'⟩ <;> simp <;> omega

theorem OBranch.head {x n pre lim : Nat} (h : OBranch x n pre lim) :
    ∃ b tl, beBytes n (x + pre * 256 ^ (n - 1)) = b :: tl ∧ pre ≤ b.toNat ∧ b.toNat < lim ∧
      tl.length = n - 1 ∧ (n = 1 → b.toNat = x) := by
  obtain ⟨h0, h1, h2, h3, h4⟩ := h.bounds
  obtain ⟨m, rfl⟩ : ∃ m, n = m + 1 := ⟨n - 1, by omega⟩
  simp only [Nat.add_sub_cancel] at *
  have hp : 0 < 256 ^ m := Nat.pow_pos (by omega)
  have hq : (x + pre * 256 ^ m) / 256 ^ m = x / 256 ^ m + pre := by
    rw [Nat.add_mul_div_right _ _ hp]
  have hlim : (x + pre * 256 ^ m) / 256 ^ m < lim := by
    rw [Nat.div_lt_iff_lt_mul hp]; exact h1
  refine ⟨_, _, rfl, ?_, ?_, by simp, ?_⟩
  · rw [ofNat_toNat (by omega), hq]; exact Nat.le_add_left _ _
  · rw [ofNat_toNat (by omega)]; exact hlim
  · intro hm
    have : m = 0 := by omega
    subst this
    have hpre : pre = 0 := by
      rcases h with ⟨_, h, _⟩ | ⟨h, _⟩ | ⟨h, _⟩ | ⟨h, _⟩ | ⟨h, _⟩ | ⟨h, _⟩ | ⟨h, _⟩ | ⟨h, _⟩ | ⟨h, _⟩
      · exact h
      all_goals omega
    rw [ofNat_toNat (by omega)]; simp [hpre]

theorem readOrderedBranch_write {n pre x : Nat} (_hn : 0 < n) (hV : x + pre * 256 ^ (n - 1) < 256 ^ n)
    (hx : 2 ^ (7 * (n - 1)) ≤ x) (rest : Bytes) :
    readOrderedBranch n pre (beBytes n (x + pre * 256 ^ (n - 1)) ++ rest) = some (x, rest) := by
  unfold readOrderedBranch
  rw [if_neg (by simp)]
  have h1 : (beBytes n (x + pre * 256 ^ (n - 1)) ++ rest).take n = beBytes n (x + pre * 256 ^ (n - 1)) :=
    List.take_left' (by simp)
  have h2 : (beBytes n (x + pre * 256 ^ (n - 1)) ++ rest).drop n = rest :=
    List.drop_left' (by simp)
  simp only [h1, h2]
  rw [beNat_beBytes, Nat.mod_eq_of_lt hV, Nat.add_sub_cancel, if_neg (by omega)]

theorem readOrderedBranch_some {n pre v : Nat} {first : UInt8} {tl rest : Bytes} (hn : 0 < n)
    (hb : pre ≤ first.toNat) (h : readOrderedBranch n pre (first :: tl) = some (v, rest)) :
    first :: tl = beBytes n (v + pre * 256 ^ (n - 1)) ++ rest ∧ 2 ^ (7 * (n - 1)) ≤ v ∧
      v + pre * 256 ^ (n - 1) < (first.toNat + 1) * 256 ^ (n - 1) := by
  unfold readOrderedBranch at h
  by_cases hl : (first :: tl).length < n
  · rw [if_pos hl] at h; simp at h
  rw [if_neg hl] at h
  simp only at h
  split at h
  · simp at h
  rename_i hv
  simp only [Option.some.injEq, Prod.mk.injEq] at h
  obtain ⟨hv1, rfl⟩ := h
  have htl : ((first :: tl).take n).length = n := by rw [List.length_take]; omega
  obtain ⟨m, rfl⟩ : ∃ m, n = m + 1 := ⟨n - 1, by omega⟩
  simp only [Nat.add_sub_cancel] at *
  have htake : (first :: tl).take (m + 1) = first :: tl.take m := rfl
  have htm : (tl.take m).length = m := by
    rw [htake] at htl; simpa using htl
  have hbe : beNat ((first :: tl).take (m + 1)) = first.toNat * 256 ^ m + beNat (tl.take m) := by
    rw [htake, beNat, htm]
  have hlt := beNat_lt (tl.take m)
  rw [htm] at hlt
  have hge : pre * 256 ^ m ≤ beNat ((first :: tl).take (m + 1)) := by
    rw [hbe]
    have := Nat.mul_le_mul_right (256 ^ m) hb
    omega
  have hveq : v + pre * 256 ^ m = beNat ((first :: tl).take (m + 1)) := by omega
  refine ⟨?_, by omega, ?_⟩
  · rw [hveq]
    have := beBytes_beNat ((first :: tl).take (m + 1))
    rw [htl] at this
    rw [this, List.take_append_drop]
  · rw [hveq, hbe, Nat.add_mul]; omega

theorem read64_write {x : Nat} (h : x < 2 ^ 64) (rest : Bytes) :
    readOrderedVarint64 (writeOrderedVarint64 x ++ rest) = some (x, rest) := by
  obtain ⟨n, pre, lim, hbr⟩ := obranch_exists h
  rw [write64_of_branch hbr]
  obtain ⟨b, tl, e, hb1, hb2, htl, h1⟩ := hbr.head
  obtain ⟨h0, hb, hl, _, hx⟩ := hbr.bounds
  have hV : x + pre * 256 ^ (n - 1) < 256 ^ n := by
    have : lim * 256 ^ (n - 1) ≤ 256 * 256 ^ (n - 1) := Nat.mul_le_mul_right _ hl
    rw [← Nat.pow_succ', show (n - 1).succ = n by omega] at this
    omega
  have hread := fun hn : 1 < n => readOrderedBranch_write h0 hV (hx hn) rest
  rw [e] at hread ⊢
  simp only [List.cons_append, readOrderedVarint64] at hread ⊢
  rcases hbr with ⟨rfl, rfl, rfl, h⟩ | ⟨rfl, rfl, rfl, h, h'⟩ | ⟨rfl, rfl, rfl, h, h'⟩ | ⟨rfl, rfl, rfl, h, h'⟩ |
    ⟨rfl, rfl, rfl, h, h'⟩ | ⟨rfl, rfl, rfl, h, h'⟩ | ⟨rfl, rfl, rfl, h, h'⟩ | ⟨rfl, rfl, rfl, h, h'⟩ |
    ⟨rfl, rfl, rfl, h, h'⟩
  · rw [if_pos hb2, h1 rfl]
    have : tl = [] := List.length_eq_zero_iff.1 htl
    simp [this]
  · rw [if_neg (by omega), if_pos hb2]; exact hread (by omega)
  · rw [if_neg (by omega), if_neg (by omega), if_pos hb2]; exact hread (by omega)
  · rw [if_neg (by omega), if_neg (by omega), if_neg (by omega), if_pos hb2]; exact hread (by omega)
  · rw [if_neg (by omega), if_neg (by omega), if_neg (by omega), if_neg (by omega), if_pos hb2]
    exact hread (by omega)
  · rw [if_neg (by omega), if_neg (by omega), if_neg (by omega), if_neg (by omega), if_neg (by omega),
      if_pos hb2]
    exact hread (by omega)
  · rw [if_neg (by omega), if_neg (by omega), if_neg (by omega), if_neg (by omega), if_neg (by omega),
      if_neg (by omega), if_pos hb2]
    exact hread (by omega)
  · rw [if_neg (by omega), if_neg (by omega), if_neg (by omega), if_neg (by omega), if_neg (by omega),
      if_neg (by omega), if_neg (by omega), if_pos hb2]
    exact hread (by omega)
  · rw [if_neg (by omega), if_neg (by omega), if_neg (by omega), if_neg (by omega), if_neg (by omega),
      if_neg (by omega), if_neg (by omega), if_neg (by omega)]
    exact hread (by omega)

theorem read64_some {src rest : Bytes} {v : Nat} (h : readOrderedVarint64 src = some (v, rest)) :
    v < 2 ^ 64 ∧ src = writeOrderedVarint64 v ++ rest := by
  cases src with
  | nil => simp [readOrderedVarint64] at h
  | cons first tl =>
    have hf := first.toNat_lt
    have fin : ∀ n pre lim, pre ≤ first.toNat → 0 < n →
        (v + pre * 256 ^ (n - 1) < (first.toNat + 1) * 256 ^ (n - 1) → 2 ^ (7 * (n - 1)) ≤ v →
          OBranch v n pre lim) →
        readOrderedBranch n pre (first :: tl) = some (v, rest) →
        v < 2 ^ 64 ∧ first :: tl = writeOrderedVarint64 v ++ rest := by
      intro n pre lim hp hn hbr he
      obtain ⟨e1, e2, e3⟩ := readOrderedBranch_some hn hp he
      have hbr := hbr e3 e2
      refine ⟨?_, by rw [write64_of_branch hbr]; exact e1⟩
      unfold OBranch at hbr; omega
    unfold readOrderedVarint64 at h
    simp only at h
    by_cases h1 : first.toNat < 0x80
    · rw [if_pos h1] at h
      simp only [Option.some.injEq, Prod.mk.injEq] at h
      obtain ⟨rfl, rfl⟩ := h
      refine ⟨by omega, ?_⟩
      rw [write64_of_branch (n := 1) (pre := 0) (lim := 0x80) (Or.inl ⟨rfl, rfl, rfl, h1⟩)]
      simp [beBytes]
    rw [if_neg h1] at h
    by_cases h2 : first.toNat < 0xc0
    · rw [if_pos h2] at h
      exact fin 2 0x80 0xc0 (by omega) (by omega)
        (fun a b => by unfold OBranch; simp at a b ⊢; omega) h
    rw [if_neg h2] at h
    by_cases h3 : first.toNat < 0xe0
    · rw [if_pos h3] at h
      exact fin 3 0xc0 0xe0 (by omega) (by omega)
        (fun a b => by unfold OBranch; simp at a b ⊢; omega) h
    rw [if_neg h3] at h
    by_cases h4 : first.toNat < 0xf0
    · rw [if_pos h4] at h
      exact fin 4 0xe0 0xf0 (by omega) (by omega)
        (fun a b => by unfold OBranch; simp at a b ⊢; omega) h
    rw [if_neg h4] at h
    by_cases h5 : first.toNat < 0xf8
    · rw [if_pos h5] at h
      exact fin 5 0xf0 0xf8 (by omega) (by omega)
        (fun a b => by unfold OBranch; simp at a b ⊢; omega) h
    rw [if_neg h5] at h
    by_cases h6 : first.toNat < 0xfc
    · rw [if_pos h6] at h
      exact fin 6 0xf8 0xfc (by omega) (by omega)
        (fun a b => by unfold OBranch; simp at a b ⊢; omega) h
    rw [if_neg h6] at h
    by_cases h7 : first.toNat < 0xfe
    · rw [if_pos h7] at h
      exact fin 7 0xfc 0xfe (by omega) (by omega)
        (fun a b => by unfold OBranch; simp at a b ⊢; omega) h
    rw [if_neg h7] at h
    by_cases h8 : first.toNat < 0xff
    · rw [if_pos h8] at h
      exact fin 8 0xfe 0xff (by omega) (by omega)
        (fun a b => by unfold OBranch; simp at a b ⊢; omega) h
    rw [if_neg h8] at h
    exact fin 9 0xff 0x100 (by omega) (by omega)
      (fun a b => by unfold OBranch; simp at a b ⊢; omega) h

/-- The 32-bit reader accepts the same representations as the 64-bit one, as long as the value
fits. -/
theorem read32_iff {src rest : Bytes} {v : Nat} :
    readOrderedVarint32 src = some (v, rest) ↔
      v < 2 ^ 32 ∧ readOrderedVarint64 src = some (v, rest) := by
  cases src with
  | nil => simp [readOrderedVarint32, readOrderedVarint64]
  | cons first tl =>
    have hf := first.toNat_lt
    have big : ∀ n pre, n ≤ 5 → 0 < n → pre ≤ first.toNat → (first.toNat + 1 - pre) * 256 ^ (n - 1) ≤ 2 ^ 32 →
        (readOrderedBranch n pre (first :: tl) = some (v, rest) ↔
        v < 2 ^ 32 ∧ readOrderedBranch n pre (first :: tl) = some (v, rest)) := by
      intro n pre _ hn hp hle
      constructor
      · intro h
        have h3 := (readOrderedBranch_some hn hp h).2.2
        refine ⟨?_, h⟩
        rw [Nat.sub_mul] at hle
        have := Nat.mul_le_mul_right (256 ^ (n - 1)) hp
        omega
      · exact fun h => h.2
    have small : ∀ n pre, 5 ≤ n → pre + 1 ≤ first.toNat → n = 5 → ¬ (v < 2 ^ 32 ∧
        readOrderedBranch n pre (first :: tl) = some (v, rest)) := by
      intro n pre _ hp hn ⟨h1, h2⟩
      subst hn
      obtain ⟨e1, e2, e3⟩ := readOrderedBranch_some (by omega) (by omega) h2
      have hh : beBytes 5 (v + pre * 256 ^ (5 - 1)) =
          UInt8.ofNat ((v + pre * 256 ^ 4) / 256 ^ 4) :: beBytes 4 (v + pre * 256 ^ (5 - 1)) := rfl
      rw [hh] at e1
      simp only [List.cons_append, List.cons.injEq] at e1
      have := congrArg UInt8.toNat e1.1
      rw [show (v + pre * 256 ^ 4) / 256 ^ 4 = pre by omega, ofNat_toNat (by omega)] at this
      omega
    have large : ∀ n pre, 6 ≤ n → n ≤ 9 → pre ≤ first.toNat → ¬ (v < 2 ^ 32 ∧
        readOrderedBranch n pre (first :: tl) = some (v, rest)) := by
      intro n pre hn hn9 hp ⟨h1, h2⟩
      have e2 := (readOrderedBranch_some (by omega) hp h2).2.1
      have : 2 ^ 35 ≤ 2 ^ (7 * (n - 1)) := Nat.pow_le_pow_right (by omega) (by omega)
      omega
    unfold readOrderedVarint32 readOrderedVarint64
    simp only
    by_cases h1 : first.toNat < 0x80
    · rw [if_pos h1, if_pos h1]; simp; intros; omega
    rw [if_neg h1, if_neg h1]
    by_cases h2 : first.toNat < 0xc0
    · rw [if_pos h2, if_pos h2]; exact big 2 0x80 (by omega) (by omega) (by omega) (by simp; omega)
    rw [if_neg h2, if_neg h2]
    by_cases h3 : first.toNat < 0xe0
    · rw [if_pos h3, if_pos h3]; exact big 3 0xc0 (by omega) (by omega) (by omega) (by simp; omega)
    rw [if_neg h3, if_neg h3]
    by_cases h4 : first.toNat < 0xf0
    · rw [if_pos h4, if_pos h4]; exact big 4 0xe0 (by omega) (by omega) (by omega) (by simp; omega)
    rw [if_neg h4, if_neg h4]
    by_cases h5 : 0xf0 < first.toNat
    · rw [if_pos h5]
      constructor
      · intro h; simp at h
      · intro h
        exfalso
        by_cases h6 : first.toNat < 0xf8
        · rw [if_pos h6] at h; exact small 5 0xf0 (by omega) (by omega) rfl h
        rw [if_neg h6] at h
        by_cases h7 : first.toNat < 0xfc
        · rw [if_pos h7] at h; exact large 6 0xf8 (by omega) (by omega) (by omega) h
        rw [if_neg h7] at h
        by_cases h8 : first.toNat < 0xfe
        · rw [if_pos h8] at h; exact large 7 0xfc (by omega) (by omega) (by omega) h
        rw [if_neg h8] at h
        by_cases h9 : first.toNat < 0xff
        · rw [if_pos h9] at h; exact large 8 0xfe (by omega) (by omega) (by omega) h
        rw [if_neg h9] at h
        exact large 9 0xff (by omega) (by omega) (by omega) h
    · rw [if_neg h5, if_pos (by omega)]
      exact big 5 0xf0 (by omega) (by omega) (by omega)
        (by rw [show first.toNat + 1 - 0xf0 = 1 by omega]; simp)

/-- Order preservation. -/
theorem write64_lt {x y : Nat} (hx : x < 2 ^ 64) (hy : y < 2 ^ 64) :
    x < y ↔ writeOrderedVarint64 x < writeOrderedVarint64 y := by
  have main : ∀ {x y : Nat}, x < 2 ^ 64 → y < 2 ^ 64 → x < y →
      writeOrderedVarint64 x < writeOrderedVarint64 y := by
    intro x y hx hy hlt
    obtain ⟨n, pre, lim, hb⟩ := obranch_exists hx
    obtain ⟨n', pre', lim', hb'⟩ := obranch_exists hy
    rw [write64_of_branch hb, write64_of_branch hb']
    obtain ⟨h0, hbd, hl, _, _⟩ := hb.bounds
    obtain ⟨h0', hbd', hl', _, _⟩ := hb'.bounds
    by_cases hn : n = n'
    · subst hn
      have hpre : pre = pre' := by unfold OBranch at hb hb'; omega
      subst hpre
      have hV : ∀ z l, l ≤ 256 → z + pre * 256 ^ (n - 1) < l * 256 ^ (n - 1) →
          z + pre * 256 ^ (n - 1) < 256 ^ n := by
        intro z l hl hb
        have : l * 256 ^ (n - 1) ≤ 256 * 256 ^ (n - 1) := Nat.mul_le_mul_right _ hl
        rw [← Nat.pow_succ', show (n - 1).succ = n by omega] at this
        omega
      rw [beBytes_lt n (hV x lim hl hbd) (hV y lim' hl' hbd')]
      omega
    · have hll : lim ≤ pre' := by unfold OBranch at hb hb'; omega
      obtain ⟨b, tl, e, hb1, hb2, _⟩ := hb.head
      obtain ⟨b', tl', e', hb1', hb2', _⟩ := hb'.head
      rw [e, e', List.cons_lt_cons_iff]
      left
      rw [UInt8.lt_iff_toNat_lt]; omega
  constructor
  · exact main hx hy
  · intro h
    rcases Nat.lt_trichotomy x y with h1 | h1 | h1
    · exact h1
    · subst h1; exact absurd h (List.lt_irrefl _)
    · exact absurd h (List.lt_asymm (main hy hx h1))

theorem write64_length {x : Nat} (h : x < 2 ^ 64) :
    (writeOrderedVarint64 x).length = lengthOrderedVarint x := by
  obtain ⟨n, pre, lim, hb⟩ := obranch_exists h
  rw [write64_of_branch hb, beBytes_length]
  unfold lengthOrderedVarint
  have hne : x ||| 1 ≠ 0 := by
    intro h0; have := @Nat.right_le_or x 1; omega
  have key : ∀ k, 0 < k → ((x ||| 1).log2 < k ↔ x < 2 ^ k) := by
    intro k hk
    rw [Nat.log2_lt hne]
    constructor
    · intro h; exact Nat.lt_of_le_of_lt Nat.left_le_or h
    · intro h; exact Nat.or_lt_two_pow h (Nat.one_lt_two_pow (by omega))
  have k7 := key 7 (by omega)
  have k14 := key 14 (by omega)
  have k21 := key 21 (by omega)
  have k28 := key 28 (by omega)
  have k35 := key 35 (by omega)
  have k42 := key 42 (by omega)
  have k49 := key 49 (by omega)
  have k56 := key 56 (by omega)
  have k64 := key 64 (by omega)
  generalize (x ||| 1).log2 = l at *
  simp only
  unfold OBranch at hb
  omega

end Riegeli

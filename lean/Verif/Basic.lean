/-!
# Bytes, fixed-width integers, slices

Common vocabulary of the whole model.
-/
namespace Riegeli

/-- A byte string. -/
abbrev Bytes := List UInt8

/-- 64-bit wrap-around. `Position` is `uint64_t` (`riegeli/base/types.h:34-35`). -/
def w64 (x : Nat) : Nat := x % 2 ^ 64

/-- Little-endian encoding of `x` in `n` bytes: `WriteLittleEndian<uint64_t>`
(`riegeli/endian/endian_writing.h:349-357`), for `n = 8`. -/
def leBytes : Nat → Nat → Bytes
  | 0, _ => []
  | n + 1, x => UInt8.ofNat x :: leBytes n (x / 256)

/-- Little-endian decoding: `ReadLittleEndian<uint64_t>`
(`riegeli/endian/endian_reading.h:351-360`). -/
def leNat : Bytes → Nat
  | [] => 0
  | b :: bs => b.toNat + 256 * leNat bs

/-- `n` bytes of `f` from `p` (fewer if `f` ends earlier). -/
def slice (f : Bytes) (p n : Nat) : Bytes := (f.drop p).take n

@[simp] theorem leBytes_length (n x : Nat) : (leBytes n x).length = n := by
  induction n generalizing x with
  | zero => rfl
  | succ n ih => simp [leBytes, ih]

theorem leNat_leBytes (n x : Nat) : leNat (leBytes n x) = x % 256 ^ n := by
  induction n generalizing x with
  | zero => simp [leBytes, leNat, Nat.mod_one]
  | succ n ih =>
    simp only [leBytes, leNat, ih]
    rw [Nat.pow_succ', Nat.mod_mul]
    simp

theorem leNat_lt (bs : Bytes) : leNat bs < 256 ^ bs.length := by
  induction bs with
  | nil => simp [leNat]
  | cons b bs ih =>
    simp only [leNat, List.length_cons, Nat.pow_succ]
    have := b.toNat_lt
    omega

theorem leBytes_leNat (bs : Bytes) : leBytes bs.length (leNat bs) = bs := by
  induction bs with
  | nil => rfl
  | cons b bs ih =>
    simp only [List.length_cons, leBytes, leNat]
    have hb := b.toNat_lt
    have h1 : (b.toNat + 256 * leNat bs) / 256 = leNat bs := by omega
    rw [h1, ih]
    congr 1
    apply UInt8.toNat.inj
    simp

theorem slice_length (f : Bytes) (p n : Nat) :
    (slice f p n).length = min n (f.length - p) := by simp [slice]

theorem slice_length_of_le {f : Bytes} {p n : Nat} (h : p + n ≤ f.length) :
    (slice f p n).length = n := by rw [slice_length]; omega

theorem slice_getElem? (f : Bytes) (p n i : Nat) :
    (slice f p n)[i]? = if i < n then f[p + i]? else none := by
  simp [slice, List.getElem?_take]

@[simp] theorem slice_zero (f : Bytes) (p : Nat) : slice f p 0 = [] := by simp [slice]

theorem slice_append_slice (f : Bytes) (p m n : Nat) :
    slice f p m ++ slice f (p + m) n = slice f p (m + n) ∨ f.length < p + m := by
  by_cases h : f.length < p + m
  · exact Or.inr h
  · left
    rw [slice, slice, slice, List.take_add, List.drop_drop]

theorem slice_append {f : Bytes} {p m n : Nat} (h : p + m ≤ f.length) :
    slice f p m ++ slice f (p + m) n = slice f p (m + n) :=
  (slice_append_slice f p m n).resolve_right (by omega)

theorem slice_all (f : Bytes) : slice f 0 f.length = f := by simp [slice]

/-- Slices inside a prefix are slices of the whole. -/
theorem slice_prefix {f g : Bytes} (h : f <+: g) {p n : Nat} (hp : p + n ≤ f.length) :
    slice f p n = slice g p n := by
  obtain ⟨t, rfl⟩ := h
  apply List.ext_getElem?
  intro i
  simp only [slice_getElem?]
  split
  · rw [List.getElem?_append_left (by omega)]
  · rfl

theorem slice_mid (a b c : Bytes) : slice (a ++ b ++ c) a.length b.length = b := by
  simp [slice, List.append_assoc]

theorem slice_append_left_ge {a b : Bytes} {p n : Nat} (h : a.length ≤ p) :
    slice (a ++ b) p n = slice b (p - a.length) n := by
  apply List.ext_getElem?
  intro i
  simp only [slice_getElem?]
  split
  · rw [List.getElem?_append_right (by omega)]
    congr 1; omega
  · rfl

theorem slice_append_left_le {a b : Bytes} {p n : Nat} (h : p + n ≤ a.length) :
    slice (a ++ b) p n = slice a p n := by
  apply List.ext_getElem?
  intro i
  simp only [slice_getElem?]
  split
  · rw [List.getElem?_append_left (by omega)]
  · rfl

theorem slice_slice {f : Bytes} {p n q m : Nat} (h : q + m ≤ n) :
    slice (slice f p n) q m = slice f (p + q) m := by
  apply List.ext_getElem?
  intro i
  simp only [slice_getElem?]
  split
  · rw [if_pos (by omega)]; congr 1; omega
  · rfl

end Riegeli

import Verif.Basic
/-!
# `ByteFill`

Model of `ByteFill::Blocks` (`riegeli/base/byte_fill.{h,cc}`): a number of equal bytes is presented as a sequence of blocks which share
memory. The memory is modelled by its length: a block longer than the memory would be an access out of bounds.
-/
namespace Riegeli.Fill

/-- `ByteFill::Blocks` (`byte_fill.h:433-442`). `memory` is the length of the memory under `data_`. -/
structure Blocks where
  num : Nat
  nonLast : Nat
  last : Nat
  memory : Nat
  fill : UInt8

/-- `ZeroBlock::kSize` (`byte_fill.h:137`). -/
def zeroBlockSize : Nat := 64 * 1024

/-- `SmallBlock::kSize` (`byte_fill.h:177`). -/
def smallBlockSize : Nat := 64

/-- `kBlockSizeBitsBias` (`byte_fill.h:419`). -/
def bias : Nat := 10

/-- `absl::bit_width()`. -/
def bitWidth (n : Nat) : Nat := if n = 0 then 0 else Nat.log2 n + 1

/-- The constructor (`byte_fill.cc:82-113`), with 32-bit arithmetic. -/
def make (n : Nat) (b : UInt8) : Blocks :=
  if n = 0 then ⟨0, 0, 0, 0, b⟩
  else if b = 0 then
    ⟨(n - 1) / zeroBlockSize + 1, zeroBlockSize, (n - 1) % 2 ^ 32 % zeroBlockSize + 1, zeroBlockSize, b⟩
  else if n ≤ smallBlockSize then ⟨1, 0, n % 2 ^ 32, smallBlockSize, b⟩
  else if n ≤ 2 ^ (bias + 1) then ⟨1, n % 2 ^ 32, n % 2 ^ 32, n % 2 ^ 32, b⟩
  else
    let bits := min ((bias + bitWidth n) / 2) 16
    ⟨(n - 1) >>> bits + 1, 2 ^ bits, (((n - 1) % 2 ^ 32) &&& (2 ^ bits - 1)) + 1, 2 ^ bits, b⟩

/-- The move constructor (`byte_fill.h:547-555`), which does not copy `non_last_block_size_`: it is 0 (`byte_fill.h:434`). -/
def Blocks.moved (bs : Blocks) : Blocks := { bs with nonLast := 0 }

/-- `BlockRef::size()` (`byte_fill.h:425-428`, `byte_fill.h:452-454`). -/
def Blocks.size (bs : Blocks) (complement : Nat) : Nat := if complement = 1 then bs.last else bs.nonLast

/-- Iterating from a `BlockIterator` with the given `block_index_complement_` to the end. -/
def Blocks.iterate (bs : Blocks) : Nat → List Bytes
  | 0 => []
  | c + 1 => List.replicate (bs.size (c + 1)) bs.fill :: bs.iterate c

/-- `blocks()` from `begin()` to `end()`. -/
def Blocks.toList (bs : Blocks) : List Bytes := bs.iterate bs.num

/-! ## Proofs -/

theorem iterate_eq (bs : Blocks) (c : Nat) :
    bs.iterate (c + 1) = List.replicate c (List.replicate bs.nonLast bs.fill) ++ [List.replicate bs.last bs.fill] := by
  induction c with
  | zero => simp [Blocks.iterate, Blocks.size]
  | succ c ih =>
    rw [Blocks.iterate, ih, Blocks.size, if_neg (by omega), List.replicate_succ, List.cons_append]

theorem flatten_iterate (bs : Blocks) (c : Nat) : (bs.iterate (c + 1)).flatten = List.replicate (c * bs.nonLast + bs.last) bs.fill := by
  rw [iterate_eq, List.flatten_append]
  simp only [List.flatten_replicate_replicate, List.flatten_cons, List.flatten_nil, List.append_nil, List.replicate_append_replicate]

theorem bits_le (n : Nat) : min ((bias + bitWidth n) / 2) 16 ≤ 16 := Nat.min_le_right _ _

theorem make_spec {n : Nat} (hn : 0 < n) (b : UInt8) :
    (make n b).fill = b ∧ ∃ c, (make n b).num = c + 1 ∧ c * (make n b).nonLast + (make n b).last = n ∧ 0 < (make n b).last ∧
      (make n b).last ≤ (make n b).memory ∧ (0 < c → 0 < (make n b).nonLast ∧ (make n b).nonLast ≤ (make n b).memory) := by
  unfold make
  rw [if_neg (by omega)]
  by_cases hb : b = 0
  · rw [if_pos hb]
    refine ⟨rfl, (n - 1) / zeroBlockSize, rfl, ?_, Nat.succ_pos _, ?_, fun _ => ⟨(by decide : 0 < zeroBlockSize), Nat.le_refl _⟩⟩
    · dsimp only
      rw [Nat.mod_mod_of_dvd _ (by decide : zeroBlockSize ∣ 2 ^ 32), Nat.mul_comm]
      have := Nat.div_add_mod (n - 1) zeroBlockSize
      omega
    · exact Nat.mod_lt _ (by decide)
  · rw [if_neg hb]
    by_cases h1 : n ≤ smallBlockSize
    · rw [if_pos h1]
      have h1' : n ≤ 64 := h1
      refine ⟨rfl, 0, rfl, ?_, ?_, ?_, fun h => by omega⟩
      · dsimp only; omega
      · dsimp only; omega
      · show n % 2 ^ 32 ≤ 64
        omega
    · rw [if_neg h1]
      by_cases h2 : n ≤ 2 ^ (bias + 1)
      · rw [if_pos h2]
        have h2' : n ≤ 2048 := h2
        refine ⟨rfl, 0, rfl, ?_, ?_, Nat.le_refl _, fun h => by omega⟩
        · dsimp only; omega
        · dsimp only; omega
      · rw [if_neg h2]
        have hk := bits_le n
        generalize min ((bias + bitWidth n) / 2) 16 = k at *
        refine ⟨rfl, (n - 1) >>> k, rfl, ?_, Nat.succ_pos _, ?_, fun _ => ⟨Nat.pow_pos (by omega), Nat.le_refl _⟩⟩
        · dsimp only
          rw [Nat.and_two_pow_sub_one_eq_mod, Nat.mod_mod_of_dvd _ (Nat.pow_dvd_pow 2 (by omega)), Nat.shiftRight_eq_div_pow, Nat.mul_comm]
          have := Nat.div_add_mod (n - 1) (2 ^ k)
          omega
        · dsimp only
          rw [Nat.and_two_pow_sub_one_eq_mod]
          exact Nat.mod_lt _ (Nat.pow_pos (by omega))

/-- The blocks are not empty, are in the memory, and have the bytes of the `ByteFill` together. -/
theorem toList_spec (n : Nat) (b : UInt8) : (make n b).toList.flatten = List.replicate n b ∧
    ∀ x ∈ (make n b).toList, x ≠ [] ∧ x.length ≤ (make n b).memory := by
  by_cases hn : n = 0
  · subst hn; exact ⟨rfl, fun x hx => by simp [Blocks.toList, make, Blocks.iterate] at hx⟩
  · obtain ⟨h0, c, h1, h2, h3, h4, h5⟩ := make_spec (n := n) (by omega) b
    unfold Blocks.toList
    rw [h1, flatten_iterate, h2, h0]
    refine ⟨rfl, fun x hx => ?_⟩
    rw [iterate_eq, List.mem_append, List.mem_replicate, List.mem_singleton] at hx
    rcases hx with ⟨hc, rfl⟩ | rfl
    · obtain ⟨h6, h7⟩ := h5 (by omega)
      exact ⟨by simp only [ne_eq, List.replicate_eq_nil_iff]; omega, by rw [List.length_replicate]; exact h7⟩
    · exact ⟨by simp only [ne_eq, List.replicate_eq_nil_iff]; omega, by rw [List.length_replicate]; exact h4⟩

end Riegeli.Fill

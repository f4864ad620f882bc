import Verif.RecordPosition
/-! # C22: serialized record positions

The binary round trip does *not* hold for every position: `FromBytes` treats every input of 16 bytes as
the old fixed-width format, and the current format has 16 bytes for some positions
(`C22_bytes_roundtrip_fails`). `C22_bytes_roundtrip_iff` says exactly for which positions it holds. -/
namespace Riegeli.Props
open RecordPosition

/-- C22 (text round trip), for every position and every previous value of the target. -/
theorem C22_string_roundtrip (self p : RecordPosition) (h : p.Fits) : self.fromStr p.toStr = (true, p) :=
  (fromStr_iff self p _).2 ⟨h, _, _, rfl, toDecimal_isDecimal _, toDecimal_isDecimal _⟩

/-- C22 (malformed text): `FromString` accepts exactly two decimal numbers separated by a slash which make a
valid position, and otherwise leaves the target unchanged. -/
theorem C22_string_accepts_exactly (self p : RecordPosition) (s : Bytes) :
    (self.fromStr s = (true, p) ↔
      p.Fits ∧ ∃ a b, s = a ++ [47] ++ b ∧ IsDecimal a p.chunkBegin ∧ IsDecimal b p.recordIndex) ∧
    ((self.fromStr s).1 = false → (self.fromStr s).2 = self) := by
  refine ⟨fromStr_iff self p s, ?_⟩
  unfold RecordPosition.fromStr
  intro h
  repeat' split
  all_goals first | rfl | skip
  simp_all

/-- C22 (malformed bytes): `FromBytes` accepts exactly the current format, unless it has 16 bytes, and two
8-byte big-endian numbers; otherwise it leaves the target unchanged. -/
theorem C22_bytes_accepts_exactly (self p : RecordPosition) (s : Bytes) :
    (self.fromBytes s = (true, p) ↔
      p.Fits ∧ ((s.length ≠ 16 ∧ s = p.toBytes) ∨ s = beBytes 8 p.chunkBegin ++ beBytes 8 p.recordIndex)) ∧
    ((self.fromBytes s).1 = false → (self.fromBytes s).2 = self) := by
  refine ⟨?_, ?_⟩
  · by_cases h : s.length = 16
    · rw [fromBytes_old h]; simp [h]
    · rw [fromBytes_new h]
      constructor
      · rintro ⟨a, b⟩; exact ⟨a, Or.inl ⟨h, b⟩⟩
      · rintro ⟨a, ⟨_, b⟩ | b⟩
        · exact ⟨a, b⟩
        · exact absurd (by rw [b]; simp) h
  · unfold RecordPosition.fromBytes
    simp only
    intro h
    repeat' split
    all_goals first | rfl | skip
    · rename_i h1 h2
      simp only [h1, h2, if_true, if_false] at h
      simp at h
    · simp_all

theorem lt_append {α : Type} [LT α] [DecidableEq α] {l1 l2 : List α} (h : l1 < l2) (hp : ¬ l1 <+: l2) (a b : List α) :
    l1 ++ a < l2 ++ b := by
  induction l1 generalizing l2 with
  | nil => exact absurd (List.nil_prefix) hp
  | cons x xs ih =>
    cases l2 with
    | nil => simp at h
    | cons y ys =>
      rw [List.cons_append, List.cons_append, List.cons_lt_cons_iff]
      rw [List.cons_lt_cons_iff] at h
      rcases h with h | ⟨rfl, h⟩
      · exact Or.inl h
      · refine Or.inr ⟨rfl, ih h ?_⟩
        intro hh
        exact hp (by simpa using hh)

theorem append_lt_append_left (l : Bytes) {a b : Bytes} (h : a < b) : l ++ a < l ++ b := by
  induction l with
  | nil => exact h
  | cons x xs ih => rw [List.cons_append, List.cons_append, List.cons_lt_cons_iff]; exact Or.inr ⟨rfl, ih⟩

theorem write64_prefix_free {x y : Nat} (hx : x < 2 ^ 64) (hy : y < 2 ^ 64)
    (h : writeOrderedVarint64 x <+: writeOrderedVarint64 y) : x = y := by
  obtain ⟨t, ht⟩ := h
  have h1 := read64_write hx t
  have h2 := read64_write hy []
  rw [List.append_nil, ← ht, h1] at h2
  simp only [Option.some.injEq, Prod.mk.injEq] at h2
  exact h2.1

/-- C22 (order): the bytes compare lexicographically exactly as the positions. -/
theorem C22_bytes_order (p q : RecordPosition) (hp : p.Fits) (hq : q.Fits) :
    p.toBytes < q.toBytes ↔ p.lt q := by
  unfold Fits at hp hq
  have main : ∀ p q : RecordPosition, p.chunkBegin + p.recordIndex < 2 ^ 64 → q.chunkBegin + q.recordIndex < 2 ^ 64 →
      p.lt q → p.toBytes < q.toBytes := by
    intro p q hp hq h
    unfold toBytes
    rcases h with h | ⟨h, h'⟩
    · have hl := (write64_lt (show p.chunkBegin < 2 ^ 64 by omega) (show q.chunkBegin < 2 ^ 64 by omega)).1 h
      refine lt_append hl ?_ _ _
      intro hpre
      have := write64_prefix_free (by omega) (by omega) hpre
      omega
    · rw [h]
      exact append_lt_append_left _ ((write64_lt (by omega) (by omega)).1 h')
  constructor
  · intro h
    unfold lt
    by_cases h1 : p.lt q
    · exact h1
    by_cases h2 : q.lt p
    · exact absurd h (List.lt_asymm (main q p hq hp h2))
    · have : p = q := by
        unfold lt at h1 h2
        obtain ⟨a, b⟩ := p
        obtain ⟨c, d⟩ := q
        simp only at *
        have e1 : a = c := by omega
        have e2 : b = d := by omega
        rw [e1, e2]
      subst this
      exact absurd h (List.lt_irrefl _)
  · exact main p q hp hq

theorem write64_length_cases {x : Nat} (hx : x < 2 ^ 64) :
    (writeOrderedVarint64 x).length ≤ 9 ∧ (x < 2 ^ 49 → (writeOrderedVarint64 x).length ≤ 7) ∧
    (x < 2 ^ 56 → (writeOrderedVarint64 x).length ≤ 8) ∧
    (7 ≤ (writeOrderedVarint64 x).length → 2 ^ 42 ≤ x ∧ ∃ b tl, writeOrderedVarint64 x = b :: tl ∧ 0xfc ≤ b.toNat) ∧
    ((writeOrderedVarint64 x).length = 9 → writeOrderedVarint64 x = 255 :: beBytes 8 x) := by
  obtain ⟨n, pre, lim, hb⟩ := obranch_exists hx
  rw [write64_of_branch hb, beBytes_length]
  have hh := hb.head
  unfold OBranch at hb
  refine ⟨by omega, by omega, by omega, ?_, ?_⟩
  · intro h7
    obtain ⟨b, tl, e, h1, _⟩ := hh
    exact ⟨by omega, b, tl, e, by omega⟩
  · rintro rfl
    have : pre = 0xff := by omega
    subst this
    simp only [show (9 - 1 : Nat) = 8 by rfl]
    rw [show (9 : Nat) = 8 + 1 by rfl, beBytes, Nat.add_mul_div_right _ _ (by decide), Nat.div_eq_of_lt (by simpa using hx)]
    congr 1
    apply beBytes_mod
    omega

/-- C22 (binary round trip), exactly: a valid position is restored if and only if its serialized form does
not have 16 bytes. -/
theorem C22_bytes_roundtrip_iff (self p : RecordPosition) (h : p.Fits) :
    self.fromBytes p.toBytes = (true, p) ↔ p.toBytes.length ≠ 16 := by
  constructor
  · intro hr h16
    obtain ⟨_, he⟩ := (fromBytes_old h16).1 hr
    unfold Fits at h
    have hc := write64_length_cases (x := p.chunkBegin) (by omega)
    have hd := write64_length_cases (x := p.recordIndex) (by omega)
    have hl : p.toBytes.length = (writeOrderedVarint64 p.chunkBegin).length + (writeOrderedVarint64 p.recordIndex).length := by
      unfold toBytes; simp
    obtain ⟨c1, c2, c3, c4, c5⟩ := hc
    obtain ⟨d1, d2, d3, d4, d5⟩ := hd
    obtain ⟨_, b, tl, e1, e2⟩ := c4 (by omega)
    have hhead := congrArg List.head? he
    unfold toBytes at hhead
    rw [e1] at hhead
    simp only [List.cons_append, List.head?_cons] at hhead
    rw [show (8 : Nat) = 7 + 1 by rfl, beBytes] at hhead
    simp only [List.cons_append, List.head?_cons, Option.some.injEq] at hhead
    rw [hhead, ofNat_toNat (by omega)] at e2
    -- hence the chunk begin takes 9 bytes
    have h9 : (writeOrderedVarint64 p.chunkBegin).length = 9 := by
      rcases Nat.lt_or_ge p.chunkBegin (2 ^ 56) with hlt | hge
      · omega
      · apply Nat.le_antisymm c1
        have := write64_length (x := p.chunkBegin) (by omega)
        obtain ⟨n, pre, lim, hb⟩ := obranch_exists (x := p.chunkBegin) (by omega)
        rw [write64_of_branch hb, beBytes_length]
        unfold OBranch at hb
        omega
    have h9' := c5 h9
    have ht := congrArg (fun l => beNat (l.take 8)) he
    unfold toBytes at ht
    have r1 : (beBytes 8 p.chunkBegin ++ beBytes 8 p.recordIndex).take 8 = beBytes 8 p.chunkBegin :=
      List.take_left' (by simp)
    have r2 : (255 :: beBytes 8 p.chunkBegin ++ writeOrderedVarint64 p.recordIndex).take 8
        = 255 :: (beBytes 8 p.chunkBegin).take 7 := by
      rw [List.cons_append, List.take_succ_cons, List.take_append_of_le_length (by simp)]
    rw [h9', r1, r2] at ht
    have htk : ∀ x, (beBytes 8 x).take 7 = beBytes 7 (x / 256) := by
      intro x
      simp only [beBytes, List.take_succ_cons, List.take_zero, Nat.div_div_eq_div_mul]
    rw [htk, beNat, beBytes_length, beNat_beBytes, beNat_beBytes, Nat.mod_eq_of_lt (show p.chunkBegin < 256 ^ 8 by omega),
      Nat.mod_eq_of_lt (show p.chunkBegin / 256 < 256 ^ 7 by omega)] at ht
    simp only [show (255 : UInt8).toNat = 255 by rfl] at ht
    have := (d4 (by omega)).1
    clear d4 c4
    omega
  · intro h16
    exact (fromBytes_new h16).2 ⟨h, rfl⟩

/-- C22 (binary round trip) for every position in files below `2^49` bytes (512 TiB) and chunks below `2^49` records.
Missing: the remaining positions, for which it does not always hold. -/
theorem C22_bytes_roundtrip_partial (self p : RecordPosition) (h1 : p.chunkBegin < 2 ^ 49) (h2 : p.recordIndex < 2 ^ 49) :
    self.fromBytes p.toBytes = (true, p) := by
  rw [C22_bytes_roundtrip_iff self p (by unfold Fits; omega)]
  have hc := (write64_length_cases (x := p.chunkBegin) (by omega)).2.1 h1
  have hd := (write64_length_cases (x := p.recordIndex) (by omega)).2.1 h2
  unfold toBytes
  rw [List.length_append]; omega

/-- The full binary round trip is false: a position whose serialized form is read as a different position. -/
theorem C22_bytes_roundtrip_fails :
    ¬ ∀ self p : RecordPosition, p.Fits → self.fromBytes p.toBytes = (true, p) := by
  intro h
  have h1 := h ⟨0, 0⟩ ⟨2 ^ 49, 2 ^ 49⟩ (by unfold Fits; decide)
  rw [C22_bytes_roundtrip_iff _ _ (by unfold Fits; decide)] at h1
  exact h1 (by decide)

/-! Concrete cases. -/
/-- What happens to the witness: it is rejected. -/
example : (⟨0, 0⟩ : RecordPosition).fromBytes (toBytes ⟨2 ^ 49, 2 ^ 49⟩) = (false, ⟨0, 0⟩) := by decide
example : (⟨5, 6⟩ : RecordPosition).fromStr [49, 50, 47, 51] = (true, ⟨12, 3⟩) := by
  have := C22_string_roundtrip ⟨5, 6⟩ ⟨12, 3⟩ (by unfold Fits; decide)
  simpa [toStr, toDecimal] using this
example : (toBytes ⟨300, 2⟩) = [0x81, 0x2c, 2] := by decide
example : (⟨5, 6⟩ : RecordPosition).fromBytes [0x81, 0x2c, 2] = (true, ⟨300, 2⟩) :=
  C22_bytes_roundtrip_partial ⟨5, 6⟩ ⟨300, 2⟩ (by decide) (by decide)
example : toBytes ⟨127, 2⟩ < toBytes ⟨128, 1⟩ :=
  (C22_bytes_order _ _ (by unfold Fits; decide) (by unfold Fits; decide)).2 (Or.inl (by decide))

end Riegeli.Props

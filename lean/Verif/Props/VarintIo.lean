import Verif.VarintIoProofs
/-!
# C44: varints are read exactly, however the source is divided into buffers
-/
namespace Riegeli.Vio

/-! ## Specification -/

/-- `bs` begins with a varint of `n` bytes which represents `v`, fitting in `w` bits; if `canonical`, it is the shortest representation of `v`. -/
def VarintAt (w : Nat) (canonical : Bool) (bs : Bytes) (v n : Nat) : Prop :=
  n ≤ bs.length ∧ IsVarint (bs.take n) ∧ varintValue (bs.take n) = v ∧ v < 2 ^ w ∧ n ≤ (w + 6) / 7 ∧
  (canonical = true → ∀ other, IsVarint other → varintValue other = v → n ≤ other.length)

/-- What is done with a varint: `ReadVarint{32,64}()`, `CopyVarint{32,64}()`, `SkipVarint{32,64}()`. -/
inductive Op : Type → Type 1 where
  | read : Op Nat
  | copy : Op Bytes
  | skip : Op Unit

namespace Op
/-- The function applied to the bytes by the code. -/
def upd (w : Nat) : {α : Type} → Op α → Nat → Nat → α → α
  | _, read => readUpd w
  | _, copy => copyUpd
  | _, skip => skipUpd
/-- The accumulator before the first byte. -/
def init : {α : Type} → Op α → α
  | _, read => 0
  | _, copy => []
  | _, skip => ()
/-- The expected result for a varint with the value `v` and the representation `bs`. -/
def result (v : Nat) (bs : Bytes) : {α : Type} → Op α → α
  | _, read => v
  | _, copy => bs
  | _, skip => ()
end Op

/-- `ReadVarint{32,64}()`, `CopyVarint{32,64}()` or `SkipVarint{32,64}()` from a `Reader`. -/
def Op.fromReader {α : Type} (op : Op α) (w : Nat) (canonical : Bool) (s : Rd) : Res α × Rd := Vio.fromReader w canonical (op.upd w) op.init s

/-- The same, from at most `available` bytes of a `Cord`. -/
def Op.fromCord {α : Type} (op : Op α) (w : Nat) (canonical : Bool) (available : Nat) (src : List Bytes) : Res α × List Bytes :=
  Vio.fromCord w canonical (op.upd w) available op.init src

/-! ## Proofs -/

theorem writeVarint_min (v : Nat) (other : Bytes) (h : IsVarint other) (hv : varintValue other = v) : (writeVarint v).length ≤ other.length := by
  have hpos : 0 < other.length := by
    cases other with
    | nil => exact absurd h (by simp [IsVarint])
    | cons => simp
  rw [writeVarint_length_le _ _ hpos, ← hv]
  exact varintValue_lt other

theorem varint_unique : ∀ (a b : Bytes), IsVarint a → IsVarint b → a.length = b.length → varintValue a = varintValue b → a = b
  | [], _, h, _, _, _ => absurd h (by simp [IsVarint])
  | _ :: _, [], _, h, _, _ => absurd h (by simp [IsVarint])
  | x :: xs, y :: ys, ha, hb, hl, hv => by
    have hx := x.toNat_lt
    have hy := y.toNat_lt
    simp only [varintValue] at hv
    have h1 : x.toNat % 128 = y.toNat % 128 := by omega
    have h2 : varintValue xs = varintValue ys := by omega
    cases xs with
    | nil =>
      cases ys with
      | nil =>
        have ha' : x.toNat < 128 := ha
        have hb' : y.toNat < 128 := hb
        have : x = y := UInt8.toNat_inj.mp (by omega)
        rw [this]
      | cons => simp at hl
    | cons x' xs =>
      cases ys with
      | nil => simp at hl
      | cons y' ys =>
        have ha' : 128 ≤ x.toNat ∧ IsVarint (x' :: xs) := ha
        have hb' : 128 ≤ y.toNat ∧ IsVarint (y' :: ys) := hb
        have : x = y := UInt8.toNat_inj.mp (by omega)
        rw [this, varint_unique (x' :: xs) (y' :: ys) ha'.2 hb'.2 (by simpa using hl) h2]

theorem readVarint_at {w : Nat} (hw : 7 < w) (canonical : Bool) (src : Bytes) (v : Nat) (rest : Bytes) :
    readVarint w canonical src = some (v, rest) ↔ ∃ n, VarintAt w canonical src v n ∧ rest = src.drop n := by
  rw [readVarint_iff hw]
  constructor
  · rintro ⟨bs, rfl, h2, h3, h4, h5, h6⟩
    refine ⟨bs.length, ⟨by simp, by simpa using h2, by simpa using h3, h5, h4, ?_⟩, by simp⟩
    intro hc other ho hv
    rw [h6 hc]
    exact writeVarint_min v other ho hv
  · rintro ⟨n, ⟨h1, h2, h3, h4, h5, h6⟩, rfl⟩
    refine ⟨src.take n, (List.take_append_drop n src).symm, h2, h3, ?_, h4, ?_⟩
    · rw [List.length_take, Nat.min_eq_left h1]; exact h5
    · intro hc
      have hl := h6 hc (writeVarint v) (writeVarint_spec v).1 (writeVarint_spec v).2
      have hl2 := writeVarint_min v _ h2 h3
      rw [List.length_take, Nat.min_eq_left h1] at hl2
      exact varint_unique _ _ h2 (writeVarint_spec v).1 (by rw [List.length_take, Nat.min_eq_left h1]; omega) (by rw [h3, (writeVarint_spec v).2])

theorem scan_op {α : Type} (op : Op α) {w : Nat} (hw : 7 < w) (canonical : Bool) (src : Bytes) :
    (scan w canonical (op.upd w) 0 op.init src = none ∧ ∀ v n, ¬VarintAt w canonical src v n) ∨
    ∃ v n, VarintAt w canonical src v n ∧ scan w canonical (op.upd w) 0 op.init src = some (op.result v (src.take n), src.drop n) := by
  have hk : 0 < kMaxLengthVarint w := by unfold kMaxLengthVarint; omega
  have hnone : readVarint w canonical src = none → ∀ v n, ¬VarintAt w canonical src v n := by
    intro h v n hv
    have := (readVarint_at hw canonical src v (src.drop n)).mpr ⟨n, hv, rfl⟩
    rw [h] at this; exact absurd this (by simp)
  have hcopy := copyVarintLoop_eq (w := w) canonical src 0 0
  have hcase : (copyVarintLoop w canonical 0 src = none ∧ ∀ v n, ¬VarintAt w canonical src v n) ∨
      ∃ v n, VarintAt w canonical src v n ∧ copyVarintLoop w canonical 0 src = some (src.take n, src.drop n) := by
    cases hc : copyVarintLoop w canonical 0 src with
    | none => exact .inl ⟨rfl, hnone (hcopy.1.mp hc)⟩
    | some r =>
      obtain ⟨bs, rest⟩ := r
      obtain ⟨h1, v, h2⟩ := hcopy.2 bs rest hc
      obtain ⟨n, h3, h4⟩ := (readVarint_at hw canonical src v rest).mp h2
      refine .inr ⟨v, n, h3, ?_⟩
      have : bs = src.take n := by
        rw [h4] at h1
        have h5 : src.take n ++ src.drop n = bs ++ src.drop n := by rw [List.take_append_drop]; exact h1
        exact (List.append_cancel_right h5).symm
      rw [this, h4]
  cases op with
  | read =>
    simp only [Op.upd, Op.init, Op.result]
    rw [scan_read src 0 0 hk]
    cases hr : readVarintLoop w canonical 0 0 src with
    | none => exact .inl ⟨rfl, hnone hr⟩
    | some r =>
      obtain ⟨v, rest⟩ := r
      obtain ⟨n, h3, h4⟩ := (readVarint_at hw canonical src v rest).mp hr
      exact .inr ⟨v, n, h3, by rw [h4]⟩
  | copy =>
    simp only [Op.upd, Op.init, Op.result]
    rw [scan_copy src 0 [] hk]
    rcases hcase with ⟨h1, h2⟩ | ⟨v, n, h1, h2⟩
    · exact .inl ⟨by rw [h1]; rfl, h2⟩
    · exact .inr ⟨v, n, h1, by rw [h2]; rfl⟩
  | skip =>
    simp only [Op.upd, Op.init, Op.result]
    rw [scan_skip src 0 () hk]
    rcases hcase with ⟨h1, h2⟩ | ⟨v, n, h1, h2⟩
    · exact .inl ⟨by rw [h1]; rfl, h2⟩
    · exact .inr ⟨v, n, h1, by rw [h2]; rfl⟩

/-! ## C44 -/

/-- Reading, copying or skipping a varint from a `Reader`, whatever the contents of the source, whatever is already buffered, and however the
source will be divided into buffers: if a valid varint is next, then it is obtained, and exactly its bytes are consumed; otherwise the result is a
failure and the position does not change. The source fails only if it really fails before it is known whether there is a varint. Nothing is accessed outside of
the buffer. -/
theorem C44_reader {α : Type} (op : Op α) (w : Nat) (hw : w = 32 ∨ w = 64) (canonical : Bool) (s : Rd) (hwf : s.Wf) (hok : s.ok = true) :
    (∃ v n, VarintAt w canonical s.rest v n ∧ (op.fromReader w canonical s).1 = .ok (op.result v (s.rest.take n)) ∧
      (op.fromReader w canonical s).2.rest = s.rest.drop n ∧ (op.fromReader w canonical s).2.ok = true) ∨
    ((∀ v n, ¬VarintAt w canonical s.rest v n) ∧ (op.fromReader w canonical s).1 = .fail ∧ (op.fromReader w canonical s).2.rest = s.rest ∧
      ((op.fromReader w canonical s).2.ok = false → s.fails = true ∧ s.rest.length < (w + 6) / 7 ∧ ∀ b ∈ s.rest, 128 ≤ b.toNat)) := by
  have h := fromReader_spec (canonical := canonical) (upd := op.upd w) (w := w) (by omega) op.init s hwf hok
  unfold Op.fromReader
  rcases scan_op op (w := w) (by omega) canonical s.rest with ⟨h1, h2⟩ | ⟨v, n, h1, h2⟩
  · rw [h1] at h
    obtain ⟨-, -, h3, h4, h5, -, -⟩ := h
    exact .inr ⟨h2, h3, h4, fun h => ⟨(h5 h).1, (h5 h).2.1, (h5 h).2.2⟩⟩
  · rw [h2] at h
    obtain ⟨-, -, h3, h4, h5⟩ := h
    exact .inl ⟨v, n, h1, h3, h4, h5⟩

/-- Reading, copying or skipping a varint from at most `available` next bytes of a `Cord`, however it is divided into chunks: if a valid varint is next, then
it is obtained, and exactly its bytes are consumed; otherwise the result is a failure, and the position moves by less than `available` (or not at all). Nothing is
accessed outside of a chunk. -/
theorem C44_cord {α : Type} (op : Op α) (w : Nat) (hw : w = 32 ∨ w = 64) (canonical : Bool) (src : List Bytes) (available : Nat) (hch : ∀ c ∈ src, c ≠ [])
    (hav : available ≤ src.flatten.length) :
    (∀ c ∈ (op.fromCord w canonical available src).2, c ≠ []) ∧
    ((∃ v n, VarintAt w canonical (src.flatten.take available) v n ∧
      (op.fromCord w canonical available src).1 = .ok (op.result v (src.flatten.take n)) ∧
      (op.fromCord w canonical available src).2.flatten = src.flatten.drop n) ∨
    ((∀ v n, ¬VarintAt w canonical (src.flatten.take available) v n) ∧ (op.fromCord w canonical available src).1 = .fail ∧
      ∃ k, (op.fromCord w canonical available src).2.flatten = src.flatten.drop k ∧ (k < available ∨ k = 0))) := by
  have h := fromCord_spec (canonical := canonical) (upd := op.upd w) (w := w) (by omega) available op.init src hch hav
  unfold Op.fromCord
  refine ⟨h.1, ?_⟩
  have h := h.2
  rcases scan_op op (w := w) (by omega) canonical (src.flatten.take available) with ⟨h1, h2⟩ | ⟨v, n, h1, h2⟩
  · rw [h1] at h
    exact .inr ⟨h2, h.1, h.2⟩
  · rw [h2] at h
    obtain ⟨h3, k, hk, h4, h5⟩ := h
    have hn : n ≤ available := by
      have := h1.1
      rw [List.length_take] at this; omega
    refine .inl ⟨v, n, h1, ?_, ?_⟩
    · rw [h3, List.take_take, Nat.min_eq_left hn]
    · rw [h4]
      have h6 : ((src.flatten.take available).drop n).length = ((src.flatten.take available).drop k).length := by rw [h5]
      simp only [List.length_drop, List.length_take] at h6
      have : k = n := by omega
      rw [this]

/-- `CountVarints()`: the number of varints, if the data consist of varints; at least the number of varints with which the data begin; and the size of the data only
if all varints take one byte. -/
theorem C44_count (vs : List Bytes) (h : ∀ v ∈ vs, IsVarint v) (tail : Bytes) :
    countVarints vs.flatten = vs.length ∧ vs.length ≤ countVarints (vs.flatten ++ tail) ∧
    ∀ bs : Bytes, countVarints bs = bs.length ↔ ∀ b ∈ bs, IsVarint [b] := by
  refine ⟨?_, (countVarints_spec vs h tail).1, countVarints_size⟩
  have := (countVarints_spec vs h []).2 rfl
  rwa [List.append_nil] at this

/-- `VerifyBools()`: whether each byte is 0 or 1. -/
theorem C44_bools (bs : Bytes) : verifyBools bs = true ↔ ∀ b ∈ bs, b = 0 ∨ b = 1 := by
  rw [verifyBools_spec]
  constructor
  · intro h b hb
    have := h b hb
    rcases Nat.lt_or_ge b.toNat 1 with h1 | h1
    · exact .inl (UInt8.toNat_inj.mp (by show b.toNat = 0; omega))
    · exact .inr (UInt8.toNat_inj.mp (by show b.toNat = 1; omega))
  · intro h b hb
    rcases h b hb with rfl | rfl <;> decide

/-! ## Examples -/

/-- The varint 300 = `[0xac, 0x02]`, followed by more data, with only its first byte in the buffer. -/
example : VarintAt 64 true [0xac, 0x02, 7] 300 2 := by
  refine ⟨by decide, ?_, by decide, by decide, by decide, ?_⟩
  · show 128 ≤ (0xac : UInt8).toNat ∧ (0x02 : UInt8).toNat < 128
    decide
  · intro _ other ho hv
    have := writeVarint_min 300 other ho hv
    have h2 : (writeVarint 300).length = 2 := by rw [lengthVarint_eq (by decide)]; decide +kernel
    omega

example : (⟨[0xac, 0x02, 7], 1, true, false, fun _ => 0⟩ : Rd).Wf := by unfold Rd.Wf; decide

/-- The data end within a varint, because the source fails. -/
example : ∀ v n, ¬VarintAt 32 false [0xac, 0x82] v n := by
  rintro v n ⟨h1, h2, -⟩
  match n, h1 with
  | 0, _ => exact absurd h2 (by simp [IsVarint])
  | 1, _ =>
    have : (0xac : UInt8).toNat < 128 := h2
    exact absurd this (by decide)
  | 2, _ =>
    have : 128 ≤ (0xac : UInt8).toNat ∧ (0x82 : UInt8).toNat < 128 := h2
    exact absurd this.2 (by decide)

example : ∀ v ∈ [[0xac, 0x02], [(7 : UInt8)]], IsVarint v := by
  intro v hv
  simp only [List.mem_cons, List.not_mem_nil, or_false] at hv
  rcases hv with rfl | rfl
  · show 128 ≤ (0xac : UInt8).toNat ∧ (0x02 : UInt8).toNat < 128
    decide
  · show (7 : UInt8).toNat < 128
    decide

end Riegeli.Vio

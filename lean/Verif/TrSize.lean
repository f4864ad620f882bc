import Verif.TrColumn
/-!
# Transposed chunks: how much the encoder accumulates
-/
namespace Riegeli.Tr

/-- Number of buffers. -/
def bufCount (s : ESt) : Nat := (s.data .varint).length + (s.data .fixed32).length + (s.data .fixed64).length +
  (s.data .string).length + (s.data .nonProto).length

/-- Total size of the values in a vector of buffers. -/
def bytesOf (l : List (NodeId × Bytes)) : Nat := (l.map (fun x => x.2.length)).sum

/-- Total size of buffers. -/
def bufBytes (s : ESt) : Nat := bytesOf (s.data .varint) + bytesOf (s.data .fixed32) + bytesOf (s.data .fixed64) +
  bytesOf (s.data .string) + bytesOf (s.data .nonProto)

theorem prependTo_bytes (id : NodeId) (d : Bytes) (l : List (NodeId × Bytes)) :
    bytesOf (prependTo id d l) = d.length + bytesOf l := by
  induction l with
  | nil => simp [prependTo, bytesOf]
  | cons x l ih =>
    obtain ⟨k, b⟩ := x
    simp only [prependTo]
    split
    · simp [bytesOf]; omega
    · simp only [bytesOf, List.map_cons, List.sum_cons] at ih ⊢; omega

theorem prependTo_length (id : NodeId) (d : Bytes) (l : List (NodeId × Bytes)) :
    (prependTo id d l).length ≤ l.length + 1 := by
  induction l with
  | nil => simp [prependTo]
  | cons x l ih =>
    obtain ⟨k, b⟩ := x
    simp only [prependTo]
    split
    · simp
    · simp only [List.length_cons]; omega

/-- What remains of the enclosing messages. -/
def framesRest : List Frame → Nat
  | [] => 0
  | f :: fs => f.rest.length + 1 + framesRest fs

/-- `s'` was reached from `s` with at most `n` tags and `n` bytes of data. -/
def Within (s s' : ESt) (n : Nat) : Prop :=
  s'.enc.length ≤ s.enc.length + n ∧ bufBytes s' ≤ bufBytes s + n ∧
    bufCount s' + s.enc.length ≤ bufCount s + s'.enc.length ∧ s'.lens = s.lens

theorem Within.refl (s : ESt) (n : Nat) : Within s s n := ⟨by omega, by omega, by omega, rfl⟩

theorem Within.trans {a b c : ESt} {m n k : Nat} (h1 : Within a b m) (h2 : Within b c n) (hk : m + n ≤ k) : Within a c k := by
  obtain ⟨a1, a2, a3, a4⟩ := h1
  obtain ⟨b1, b2, b3, b4⟩ := h2
  exact ⟨by omega, by omega, by omega, b4.trans a4⟩

theorem within_pushTag (s : ESt) (id : NodeId) (sub : Nat) : Within s ((s.getNode id).1.pushTag id sub) 1 := by
  simp [Within, ESt.pushTag, ESt.push, ESt.getPos, ESt.getNode, bufCount, bufBytes]

theorem within_write (s : ESt) (id : NodeId) (sub : Nat) (t : BufType) (d : Bytes) (n : Nat) (h1 : 1 ≤ n) (hd : d.length ≤ n) :
    Within s (((s.getNode id).1.pushTag id sub).write t id d) n := by
  have h3 := prependTo_bytes id d (s.data t)
  have h4 := prependTo_length id d (s.data t)
  cases t <;>
    simp [Within, ESt.pushTag, ESt.push, ESt.getPos, ESt.getNode, ESt.write, bufCount, bufBytes, h3] <;> omega

theorem copyVarintLoop_length {w : Nat} {c : Bool} : ∀ {src : Bytes} {i : Nat} {bs rest : Bytes},
    copyVarintLoop w c i src = some (bs, rest) → bs.length + rest.length = src.length := by
  intro src
  induction src with
  | nil => intro i bs rest h; simp [copyVarintLoop] at h
  | cons b src ih =>
    intro i bs rest h
    simp only [copyVarintLoop] at h
    split at h
    · split at h
      · simp at h
      split at h
      · simp at h
      simp only [Option.some.injEq, Prod.mk.injEq] at h
      obtain ⟨rfl, rfl⟩ := h; simp; omega
    · split at h
      · cases hr : copyVarintLoop w c (i + 1) src with
        | none => simp [hr] at h
        | some r =>
          have hi := ih (bs := r.1) (rest := r.2) (i := i + 1) (by rw [hr])
          simp only [hr, Option.map_some, Option.some.injEq, Prod.mk.injEq] at h
          obtain ⟨rfl, rfl⟩ := h
          simp only [List.length_cons]; omega
      · split at h
        · simp at h
        · simp only [Option.some.injEq, Prod.mk.injEq] at h
          obtain ⟨rfl, rfl⟩ := h; simp; omega

theorem addLoop_within (s : ESt) (parent : Nat) (frames : List Frame) (groups : List Nat) (src : Bytes) :
    ∀ s', addLoop s parent frames groups src = some s' → Within s s' (src.length + framesRest frames) := by
  fun_induction addLoop s parent frames groups src <;> intro s' h
  all_goals try (first | cases h; done)
  case case1 => cases h; exact Within.refl _ _
  case case2 f fs ih =>
    refine Within.trans (m := 1) ?_ (ih s' h) (by simp [framesRest]; omega)
    simp [Within, ESt.push, bufCount, bufBytes]
  case case5 s parent frames groups src hs tag src1 h1 id r hw v src2 h2 hv ih =>
    have e1 := readVarint_lt_length (by omega) h1
    have e2 := copyVarint_lt_length h2
    exact Within.trans (within_pushTag s id _) (ih s' h) (by omega)
  case case6 s parent frames groups src hs tag src1 h1 id r hw v src2 h2 hv ih =>
    have e1 := readVarint_lt_length (by omega) h1
    have e2 := copyVarintLoop_length h2
    have e3 := copyVarint_lt_length h2
    exact Within.trans (within_write s id _ _ _ v.length (by omega) (by simp [clearHigh])) (ih s' h) (by omega)
  case case8 s parent frames groups src hs tag src1 h1 id r hw hl ih =>
    have e1 := readVarint_lt_length (by omega) h1
    exact Within.trans (within_write s id _ _ _ 4 (by omega) (by simp; omega)) (ih s' h) (by simp; omega)
  case case10 s parent frames groups src hs tag src1 h1 id r hw hl ih =>
    have e1 := readVarint_lt_length (by omega) h1
    exact Within.trans (within_write s id _ _ _ 8 (by omega) (by simp; omega)) (ih s' h) (by simp; omega)
  case case13 s parent frames groups src hs tag src1 h1 id r hw length src2 h2 hl hc s1 e ih =>
    have e1 := readVarint_lt_length (by omega) h1
    have e2 := readVarint_lt_length (by omega) h2
    refine Within.trans (m := 1) (b := e.1) ?_ (ih s' h) (by simp [framesRest]; omega)
    exact within_pushTag s id kSubStart
  case case14 s parent frames groups src hs tag src1 h1 id r hw length src2 h2 hl hc ih =>
    have e1 := readVarint_lt_length (by omega) h1
    have e2 := readVarint_lt_length (by omega) h2
    exact Within.trans (within_write s id _ _ _ (src1.length - src2.length + length) (by omega) (by simp; omega)) (ih s' h)
      (by simp; omega)
  case case15 s parent frames groups src hs tag src1 h1 id r hw ih =>
    have e1 := readVarint_lt_length (by omega) h1
    exact Within.trans (within_pushTag s id _) (ih s' h) (by omega)
  case case17 s parent frames src hs tag src1 h1 id r hw g gs ih =>
    have e1 := readVarint_lt_length (by omega) h1
    exact Within.trans (within_pushTag s id _) (ih s' h) (by omega)

/-- What the encoder holds after adding records. -/
structure Small (s : ESt) (bytes n : Nat) : Prop where
  enc : s.enc.length ≤ bytes + n
  bufs : bufBytes s ≤ bytes + n
  count : bufCount s ≤ s.enc.length
  lens : s.lens.length ≤ 10 * n

theorem small_empty : Small ESt.empty 0 0 := by
  constructor <;> simp [ESt.empty, bufBytes, bufCount, bytesOf]

theorem Small.addRecord {s s' : ESt} {b n : Nat} (h : Small s b n) {r : Bytes} (hr : r.length < 2 ^ 64)
    (ha : s.addRecord r = some s') : Small s' (b + r.length) (n + 1) := by
  obtain ⟨h1, h2, h3, h4⟩ := h
  unfold ESt.addRecord at ha
  split at ha
  · cases ha
  split at ha
  · cases ha
  simp only at ha
  split at ha
  · obtain ⟨w1, w2, w3, w4⟩ := Within.trans (within_pushTag _ _ _) (addLoop_within _ _ _ _ _ _ ha) (Nat.le_refl _)
    simp only [framesRest] at w1 w2 w3 w4
    simp only [bufBytes, bufCount] at h1 h2 h3 w1 w2 w3 w4
    exact ⟨by omega, by simp only [bufBytes]; omega, by simp only [bufCount]; omega, by rw [w4]; omega⟩
  · cases ha
    have hl : (writeVarint r.length).length ≤ 10 := (writeVarint_length_le 10 _ (by omega)).2
      (by rw [show (128 : Nat) ^ 10 = 2 ^ 70 by decide]; omega)
    have h5 := prependTo_bytes ⟨kNonProto, 0⟩ r (s.data .nonProto)
    have h6 := prependTo_length ⟨kNonProto, 0⟩ r (s.data .nonProto)
    simp only [bufBytes, bufCount] at h1 h2 h3
    constructor <;>
      simp [ESt.pushTag, ESt.push, ESt.getPos, ESt.getNode, ESt.write, bufCount, bufBytes, h5] <;> omega

theorem Small.addAll : ∀ (rs : List Bytes) {s s' : ESt} {b n : Nat}, Small s b n → rs.flatten.length < 2 ^ 64 →
    s.addAll rs = some s' → Small s' (b + rs.flatten.length) (n + rs.length)
  | [], s, s', b, n, h, _, ha => by cases ha; simpa using h
  | r :: rs, s, s', b, n, h, hr, ha => by
    simp only [List.flatten_cons, List.length_append] at hr
    unfold ESt.addAll at ha
    cases h1 : s.addRecord r with
    | none => simp [h1] at ha
    | some s1 =>
      simp only [h1, Option.bind_some] at ha
      have := Small.addAll rs (h.addRecord (by omega) h1) (by omega) ha
      simp only [List.flatten_cons, List.length_append, List.length_cons]
      rw [← Nat.add_assoc, Nat.add_comm rs.length 1, ← Nat.add_assoc]
      exact this

end Riegeli.Tr

import Verif.OrderedVarint
import Verif.RecordReader
/-!
# Serialization of record positions: model of `riegeli/records/record_position.{h,cc}`

`absl::StrCat` and `absl::SimpleAtoi` on `uint64_t` are modelled from their documentation (Abseil is not
part of the repository): decimal digits; parsing skips ASCII white space around the number, accepts an
optional `+` sign, rejects anything else including `-`, no digits, and values which do not fit.
-/
namespace Riegeli

/-- A position which the constructor accepts (`record_position.h:217-223`). -/
def RecordPosition.Fits (p : RecordPosition) : Prop := p.chunkBegin + p.recordIndex < 2 ^ 64

/-- `absl::StrCat(uint64_t)`: decimal digits, most significant first. -/
def toDecimal (n : Nat) : Bytes :=
  if n < 10 then [UInt8.ofNat (48 + n)] else toDecimal (n / 10) ++ [UInt8.ofNat (48 + n % 10)]
termination_by n

/-- `absl::ascii_isspace`: tab, line feed, vertical tab, form feed, carriage return, space. -/
def isSpace (b : UInt8) : Bool := b == 32 || (9 ≤ b && b ≤ 13)

/-- The digit loop of `absl::SimpleAtoi` for `uint64_t`, with its overflow checks. -/
def parseDigits : Nat → Bytes → Option Nat
  | acc, [] => some acc
  | acc, b :: bs =>
    if b < 48 ∨ 57 < b then none
    else if acc > (2 ^ 64 - 1) / 10 then none
    else if acc * 10 > (2 ^ 64 - 1) - (b.toNat - 48) then none
    else parseDigits (acc * 10 + (b.toNat - 48)) bs

/-- `absl::SimpleAtoi(text, uint64_t*)`. -/
def simpleAtoi (text : Bytes) : Option Nat :=
  let t := ((text.dropWhile isSpace).reverse.dropWhile isSpace).reverse
  match t with
  | [] => none
  | b :: bs =>
    if b = 45 then none
    else if b = 43 then (if bs = [] then none else parseDigits 0 bs)
    else parseDigits 0 (b :: bs)

namespace RecordPosition

/-- `RecordPosition::ToString` (`record_position.cc:46-48`). -/
def toStr (p : RecordPosition) : Bytes := toDecimal p.chunkBegin ++ [47] ++ toDecimal p.recordIndex

/-- `RecordPosition::FromString` (`record_position.cc:50-72`): the result and the new value of the object, `self`
being its old value. -/
def fromStr (self : RecordPosition) (serialized : Bytes) : Bool × RecordPosition :=
  match serialized.idxOf? 47 with
  | none => (false, self)
  | some sep =>
    match simpleAtoi (serialized.take sep) with
    | none => (false, self)
    | some chunkBegin =>
      match simpleAtoi (serialized.drop (sep + 1)) with
      | none => (false, self)
      | some recordIndex =>
        if recordIndex > (2 ^ 64 - 1) - chunkBegin then (false, self)
        else (true, ⟨chunkBegin, recordIndex⟩)

/-- `RecordPosition::ToBytes` (`record_position.cc:72-79`). -/
def toBytes (p : RecordPosition) : Bytes :=
  writeOrderedVarint64 p.chunkBegin ++ writeOrderedVarint64 p.recordIndex

/-- `RecordPosition::FromBytes` (`record_position.cc:81-111`). -/
def fromBytes (self : RecordPosition) (serialized : Bytes) : Bool × RecordPosition :=
  if serialized.length = 16 then
    let chunkBegin := beNat (serialized.take 8)
    let recordIndex := beNat ((serialized.drop 8).take 8)
    if recordIndex > (2 ^ 64 - 1) - chunkBegin then (false, self)
    else (true, ⟨chunkBegin, recordIndex⟩)
  else
    match readOrderedVarint64 serialized with
    | none => (false, self)
    | some (chunkBegin, rest) =>
      match readOrderedVarint64 rest with
      | none => (false, self)
      | some (recordIndex, rest) =>
        if recordIndex > (2 ^ 64 - 1) - chunkBegin then (false, self)
        else if rest ≠ [] then (false, self)
        else (true, ⟨chunkBegin, recordIndex⟩)

/-- `RIEGELI_COMPARE(RecordPosition, RecordPosition)` (`record_position.h:87-95`), the case `less`. -/
def lt (a b : RecordPosition) : Prop :=
  a.chunkBegin < b.chunkBegin ∨ a.chunkBegin = b.chunkBegin ∧ a.recordIndex < b.recordIndex

end RecordPosition

/-! ## Specification -/

/-- The number denoted by a sequence of decimal digits. -/
def decimalValue (ds : Bytes) : Nat := ds.foldl (fun a b => a * 10 + (b.toNat - 48)) 0

/-- `s` is a decimal number: white space, an optional plus sign, at least one digit, white space. -/
def IsDecimal (s : Bytes) (v : Nat) : Prop :=
  ∃ ws1 sign ds ws2, s = ws1 ++ sign ++ ds ++ ws2 ∧ (∀ b ∈ ws1, isSpace b = true) ∧ (∀ b ∈ ws2, isSpace b = true) ∧
    (sign = [] ∨ sign = [43]) ∧ ds ≠ [] ∧ (∀ b ∈ ds, 48 ≤ b ∧ b ≤ 57) ∧ decimalValue ds = v

/-! ## Proofs -/

theorem toDecimal_spec (n : Nat) : toDecimal n ≠ [] ∧ (∀ b ∈ toDecimal n, 48 ≤ b ∧ b ≤ 57) ∧
    decimalValue (toDecimal n) = n := by
  induction n using Nat.strongRecOn with
  | _ n ih =>
    have key : ∀ d, d < 10 → (48 : UInt8) ≤ UInt8.ofNat (48 + d) ∧ UInt8.ofNat (48 + d) ≤ 57 ∧
        (UInt8.ofNat (48 + d)).toNat - 48 = d := by
      intro d hd
      refine ⟨?_, ?_, ?_⟩
      · rw [UInt8.le_iff_toNat_le]; simp; omega
      · rw [UInt8.le_iff_toNat_le]; simp; omega
      · simp; omega
    rw [toDecimal]
    split
    · rename_i h
      obtain ⟨k1, k2, k3⟩ := key n h
      simp only [ne_eq, List.cons_ne_self, not_false_eq_true, List.mem_singleton, forall_eq, k1, k2, and_self,
        true_and, decimalValue, List.foldl_cons, List.foldl_nil]
      simp only [k3]; simp
    · rename_i h
      obtain ⟨h1, h2, h3⟩ := ih (n / 10) (by omega)
      obtain ⟨k1, k2, k3⟩ := key (n % 10) (by omega)
      refine ⟨by simp, ?_, ?_⟩
      · intro b hb
        rcases List.mem_append.1 hb with hb | hb
        · exact h2 b hb
        · rw [List.mem_singleton.1 hb]; exact ⟨k1, k2⟩
      · unfold decimalValue
        rw [List.foldl_append]
        change (decimalValue (toDecimal (n / 10))) * 10 + _ = n
        rw [h3, k3]; omega

theorem parseDigits_iff (ds : Bytes) (acc v : Nat) (ha : acc < 2 ^ 64) :
    parseDigits acc ds = some v ↔ (∀ b ∈ ds, 48 ≤ b ∧ b ≤ 57) ∧
      ds.foldl (fun a b => a * 10 + (b.toNat - 48)) acc = v ∧ v < 2 ^ 64 := by
  induction ds generalizing acc with
  | nil => simp only [parseDigits, Option.some.injEq, List.not_mem_nil, false_implies, implies_true, List.foldl_nil,
      true_and]; omega
  | cons b bs ih =>
    simp only [parseDigits]
    by_cases h1 : b < 48 ∨ 57 < b
    · rw [if_pos h1]
      simp only [reduceCtorEq, false_iff, not_and]
      intro h
      have := h b (by simp)
      rw [UInt8.lt_iff_toNat_lt, UInt8.lt_iff_toNat_lt] at h1
      rw [UInt8.le_iff_toNat_le, UInt8.le_iff_toNat_le] at this
      omega
    · rw [if_neg h1]
      have hb : 48 ≤ b ∧ b ≤ 57 := by
        rw [UInt8.lt_iff_toNat_lt, UInt8.lt_iff_toNat_lt] at h1
        rw [UInt8.le_iff_toNat_le, UInt8.le_iff_toNat_le]; omega
      have mono : ∀ (bs : Bytes) (a : Nat), a ≤ bs.foldl (fun a b => a * 10 + (b.toNat - 48)) a := by
        intro bs
        induction bs with
        | nil => intro a; simp
        | cons c cs ih => intro a; simp only [List.foldl_cons]; exact Nat.le_trans (by omega) (ih _)
      by_cases h2 : acc * 10 + (b.toNat - 48) < 2 ^ 64
      · rw [if_neg (by omega), if_neg (by omega), ih _ h2]
        simp [hb]
      · have : ¬ (List.foldl (fun a b => a * 10 + (b.toNat - 48)) acc (b :: bs) = v ∧ v < 2 ^ 64) := by
          simp only [List.foldl_cons]
          have := mono bs (acc * 10 + (b.toNat - 48))
          omega
        have hb2 := hb
        rw [UInt8.le_iff_toNat_le, UInt8.le_iff_toNat_le] at hb2
        have e48 : (48 : UInt8).toNat = 48 := rfl
        have e57 : (57 : UInt8).toNat = 57 := rfl
        constructor
        · intro h
          split at h
          · simp at h
          split at h
          · simp at h
          · omega
        · rintro ⟨_, h⟩; exact absurd h this

theorem digit_not_space {b : UInt8} (h : 48 ≤ b ∧ b ≤ 57) : isSpace b = false := by
  have h1 := UInt8.le_iff_toNat_le.1 h.1
  have e48 : (48 : UInt8).toNat = 48 := rfl
  unfold isSpace
  have a1 : (b == 32) = false := by
    rw [beq_eq_false_iff_ne]; rintro rfl; simp at h1
  have a2 : decide (b ≤ 13) = false := by
    rw [decide_eq_false_iff_not]; intro h2
    have := UInt8.le_iff_toNat_le.1 h2
    have e13 : (13 : UInt8).toNat = 13 := rfl
    omega
  simp [a1, a2]

theorem dropWhile_all {p : UInt8 → Bool} {ws l : Bytes} (h : ∀ b ∈ ws, p b = true) :
    (ws ++ l).dropWhile p = l.dropWhile p := by
  induction ws with
  | nil => rfl
  | cons b bs ih =>
    simp only [List.cons_append, List.dropWhile_cons, h b (by simp), if_true]
    exact ih (fun c hc => h c (by simp [hc]))

theorem dropWhile_head {p : UInt8 → Bool} {b : UInt8} {l : Bytes} (h : p b = false) :
    (b :: l).dropWhile p = b :: l := by
  simp [h]

theorem takeWhile_spec (p : UInt8 → Bool) (l : Bytes) : ∃ ws, l = ws ++ l.dropWhile p ∧ ∀ b ∈ ws, p b = true := by
  refine ⟨l.takeWhile p, (List.takeWhile_append_dropWhile).symm, ?_⟩
  intro b hb
  exact List.all_eq_true.1 (List.all_takeWhile (p := p)) b hb

/-- Trimming white space of something beginning and ending with other characters. -/
theorem trim_spec {ws1 ws2 t : Bytes} (h1 : ∀ b ∈ ws1, isSpace b = true) (h2 : ∀ b ∈ ws2, isSpace b = true)
    (ht : t ≠ []) (hh : isSpace (t.head ht) = false) (hl : isSpace (t.getLast ht) = false) :
    (((ws1 ++ t ++ ws2).dropWhile isSpace).reverse.dropWhile isSpace).reverse = t := by
  rw [List.append_assoc, dropWhile_all h1]
  obtain ⟨b, l, rfl⟩ := List.exists_cons_of_ne_nil ht
  rw [List.cons_append, dropWhile_head (by simpa using hh), ← List.cons_append, List.reverse_append,
    dropWhile_all (by simpa using h2)]
  have : (b :: l) = (b :: l).dropLast ++ [(b :: l).getLast ht] := (List.dropLast_concat_getLast ht).symm
  rw [this, List.reverse_append, List.reverse_singleton, List.singleton_append, dropWhile_head hl]
  simp

theorem simpleAtoi_iff (s : Bytes) (v : Nat) : simpleAtoi s = some v ↔ IsDecimal s v ∧ v < 2 ^ 64 := by
  constructor
  · intro h
    unfold simpleAtoi at h
    simp only at h
    obtain ⟨ws1, e1, w1⟩ := takeWhile_spec isSpace s
    obtain ⟨ws2, e2, w2⟩ := takeWhile_spec isSpace (s.dropWhile isSpace).reverse
    have e3 : s = ws1 ++ ((s.dropWhile isSpace).reverse.dropWhile isSpace).reverse ++ ws2.reverse := by
      rw [List.append_assoc, ← List.reverse_append, ← e2, List.reverse_reverse]; exact e1
    have w3 : ∀ b ∈ ws2.reverse, isSpace b = true := by simpa using w2
    generalize ((s.dropWhile isSpace).reverse.dropWhile isSpace).reverse = t at *
    split at h
    · simp at h
    · rename_i b bs
      split at h
      · simp at h
      split at h
      · split at h
        · simp at h
        · rename_i hb hne
          obtain ⟨a1, a2, a3⟩ := (parseDigits_iff _ _ _ (by omega)).1 h
          exact ⟨⟨ws1, [43], bs, ws2.reverse, by rw [e3, hb]; simp, w1, w3, Or.inr rfl, hne, a1, a2⟩, a3⟩
      · obtain ⟨a1, a2, a3⟩ := (parseDigits_iff _ _ _ (by omega)).1 h
        exact ⟨⟨ws1, [], b :: bs, ws2.reverse, by rw [e3]; simp, w1, w3, Or.inl rfl, by simp, a1, a2⟩, a3⟩
  · rintro ⟨⟨ws1, sign, ds, ws2, rfl, w1, w2, hs, hne, hd, hv⟩, hlt⟩
    have hp := (parseDigits_iff ds 0 v (by omega)).2 ⟨hd, hv, hlt⟩
    have ht : sign ++ ds ≠ [] := by simp [hne]
    have hh : isSpace ((sign ++ ds).head ht) = false := by
      rcases hs with rfl | rfl
      · exact digit_not_space (hd _ (by simp))
      · simp [isSpace]
    have hl : isSpace ((sign ++ ds).getLast ht) = false := by
      rw [List.getLast_append_of_ne_nil _ hne]
      exact digit_not_space (hd _ (List.getLast_mem _))
    have htrim := trim_spec w1 w2 ht hh hl
    unfold simpleAtoi
    simp only
    rw [show ws1 ++ sign ++ ds ++ ws2 = ws1 ++ (sign ++ ds) ++ ws2 by simp, htrim]
    obtain ⟨b, l, rfl⟩ := List.exists_cons_of_ne_nil hne
    have hb := hd b (by simp)
    have e48 : (48 : UInt8).toNat = 48 := rfl
    have hb1 := UInt8.le_iff_toNat_le.1 hb.1
    rcases hs with rfl | rfl
    · simp only [List.nil_append]
      rw [if_neg (by rintro rfl; simp at hb1), if_neg (by rintro rfl; simp at hb1)]
      exact hp
    · simp only [List.cons_append, List.nil_append]
      rw [if_neg (by decide), if_pos trivial, if_neg (by simp)]
      exact hp

theorem toDecimal_isDecimal (n : Nat) : IsDecimal (toDecimal n) n := by
  obtain ⟨h1, h2, h3⟩ := toDecimal_spec n
  exact ⟨[], [], toDecimal n, [], by simp, by simp, by simp, Or.inl rfl, h1, h2, h3⟩

theorem isDecimal_not_slash {s : Bytes} {v : Nat} (h : IsDecimal s v) : (47 : UInt8) ∉ s := by
  obtain ⟨ws1, sign, ds, ws2, rfl, w1, w2, hs, hne, hd, hv⟩ := h
  intro hm
  simp only [List.mem_append] at hm
  rcases hm with ((hm | hm) | hm) | hm
  · have := w1 _ hm; simp [isSpace] at this
  · rcases hs with rfl | rfl <;> simp at hm
  · have := (hd _ hm).1; exact absurd this (by decide)
  · have := w2 _ hm; simp [isSpace] at this

theorem idxOf?_slash {a b : Bytes} (h : (47 : UInt8) ∉ a) : (a ++ 47 :: b).idxOf? 47 = some a.length := by
  induction a with
  | nil => rfl
  | cons c cs ih =>
    simp only [List.mem_cons, not_or] at h
    rw [List.cons_append, List.idxOf?_cons, ih h.2]
    have : (c == 47) = false := by rw [beq_eq_false_iff_ne]; exact fun e => h.1 e.symm
    simp [this]

theorem idxOf?_some_slash {s : Bytes} {i : Nat} (h : s.idxOf? 47 = some i) :
    s = s.take i ++ 47 :: s.drop (i + 1) ∧ (47 : UInt8) ∉ s.take i := by
  induction s generalizing i with
  | nil => simp [List.idxOf?] at h
  | cons c cs ih =>
    rw [List.idxOf?_cons] at h
    split at h
    · rename_i hc
      simp only [Option.some.injEq] at h
      subst h
      simp only [beq_iff_eq] at hc
      simp [hc]
    · rename_i hc
      simp only [Option.map_eq_some_iff] at h
      obtain ⟨j, hj, rfl⟩ := h
      obtain ⟨h1, h2⟩ := ih hj
      refine ⟨by simpa using h1, ?_⟩
      simp only [List.take_succ_cons, List.mem_cons, not_or]
      exact ⟨fun e => by simp [← e] at hc, h2⟩

theorem fromStr_iff (self p : RecordPosition) (s : Bytes) :
    self.fromStr s = (true, p) ↔
      p.Fits ∧ ∃ a b, s = a ++ [47] ++ b ∧ IsDecimal a p.chunkBegin ∧ IsDecimal b p.recordIndex := by
  constructor
  · intro h
    unfold RecordPosition.fromStr at h
    split at h
    · simp at h
    rename_i i hi
    split at h
    · simp at h
    rename_i cb hcb
    split at h
    · simp at h
    rename_i ri hri
    split at h
    · simp at h
    rename_i hle
    simp only [Prod.mk.injEq, true_and] at h
    subst h
    obtain ⟨h1, h2⟩ := (simpleAtoi_iff _ _).1 hcb
    obtain ⟨h3, h4⟩ := (simpleAtoi_iff _ _).1 hri
    refine ⟨by unfold RecordPosition.Fits; simp only; omega, _, _, ?_, h1, h3⟩
    rw [List.append_assoc]
    exact (idxOf?_some_slash hi).1
  · rintro ⟨hf, a, b, rfl, ha, hb⟩
    unfold RecordPosition.Fits at hf
    unfold RecordPosition.fromStr
    rw [List.append_assoc, List.singleton_append, idxOf?_slash (isDecimal_not_slash ha)]
    simp only
    rw [List.take_left' rfl, (simpleAtoi_iff _ _).2 ⟨ha, by omega⟩]
    simp only
    rw [show a ++ 47 :: b = (a ++ [47]) ++ b by simp, List.drop_left' (by simp), (simpleAtoi_iff _ _).2 ⟨hb, by omega⟩]
    simp only
    rw [if_neg (by omega)]

theorem fromBytes_new {self p : RecordPosition} {s : Bytes} (h16 : s.length ≠ 16) :
    self.fromBytes s = (true, p) ↔ p.Fits ∧ s = p.toBytes := by
  unfold RecordPosition.fromBytes
  rw [if_neg h16]
  constructor
  · intro h
    split at h
    · simp at h
    rename_i cb rest hcb
    split at h
    · simp at h
    rename_i ri rest' hri
    split at h
    · simp at h
    rename_i hle
    split at h
    · simp at h
    rename_i hrest
    simp only [Prod.mk.injEq, true_and] at h
    subst h
    obtain ⟨h1, h2⟩ := read64_some hcb
    obtain ⟨h3, h4⟩ := read64_some hri
    simp only [ne_eq, Decidable.not_not] at hrest
    subst hrest
    refine ⟨by unfold RecordPosition.Fits; simp only; omega, ?_⟩
    unfold RecordPosition.toBytes
    rw [h2, h4]; simp
  · rintro ⟨hf, rfl⟩
    unfold RecordPosition.Fits at hf
    unfold RecordPosition.toBytes
    rw [read64_write (by omega)]
    simp only
    have := read64_write (x := p.recordIndex) (by omega) []
    rw [List.append_nil] at this
    rw [this]
    simp only
    rw [if_neg (by omega), if_neg (by simp)]

theorem fromBytes_old {self p : RecordPosition} {s : Bytes} (h16 : s.length = 16) :
    self.fromBytes s = (true, p) ↔ p.Fits ∧ s = beBytes 8 p.chunkBegin ++ beBytes 8 p.recordIndex := by
  unfold RecordPosition.fromBytes
  rw [if_pos h16]
  simp only
  constructor
  · intro h
    split at h
    · simp at h
    rename_i hle
    simp only [Prod.mk.injEq, true_and] at h
    subst h
    have h1 := beNat_lt (s.take 8)
    have l1 : (s.take 8).length = 8 := by simp; omega
    have l2 : ((s.drop 8).take 8).length = 8 := by simp; omega
    rw [l1] at h1
    refine ⟨by unfold RecordPosition.Fits; simp only; omega, ?_⟩
    have e1 := beBytes_beNat (s.take 8)
    have e2 := beBytes_beNat ((s.drop 8).take 8)
    rw [l1] at e1
    rw [l2] at e2
    simp only
    rw [e1, e2, List.take_of_length_le (l := s.drop 8) (by simp; omega), List.take_append_drop]
  · rintro ⟨hf, rfl⟩
    unfold RecordPosition.Fits at hf
    rw [List.take_left' (by simp), List.drop_left' (by simp), List.take_of_length_le (by simp), beNat_beBytes, beNat_beBytes,
      Nat.mod_eq_of_lt (by omega), Nat.mod_eq_of_lt (by omega), if_neg (by omega)]

end Riegeli

import Verif.MessageWriter
/-!
# Proofs about the message writers
-/
namespace Riegeli.Msg
open Riegeli.Wtr

/-! ## The specification in terms of `Varint.lean` and `Basic.lean` -/

theorem varint_eq (n : Nat) : varint n = writeVarint n := by
  induction n using Nat.strongRecOn with
  | _ n ih =>
    unfold varint
    by_cases h : n < 128
    · rw [if_pos h, writeVarint_small h]
    · rw [if_neg h, writeVarint_big (by omega), ih (n / 128) (by omega)]

theorem little_eq (size n : Nat) : little size n = leBytes size n := by
  induction size generalizing n with
  | zero => rfl
  | succ k ih =>
    unfold little leBytes
    rw [List.range_succ_eq_map, List.map_cons, List.map_map, ← ih]
    unfold little
    congr 1
    · simp
    · apply List.map_congr_left
      intro i _
      simp [Nat.pow_succ, Nat.div_div_eq_div_mul, Nat.mul_comm]

theorem makeTag_eq {f t : Nat} (hf : f < 2 ^ 29) (ht : t < 8) : makeTag f t = f * 8 + t := by
  unfold makeTag
  rw [Nat.mod_eq_of_lt (by rw [Nat.shiftLeft_eq]; omega), ← Nat.shiftLeft_add_eq_or_of_lt ht, Nat.shiftLeft_eq]

theorem makeTag_lt {f t : Nat} (hf : f < 2 ^ 29) (ht : t < 8) : makeTag f t < 2 ^ 32 := by
  rw [makeTag_eq hf ht]; omega

theorem key_eq {f t : Nat} (hf : f < 2 ^ 29) (ht : t < 8) : key f t = writeVarint (makeTag f t) := by
  unfold key
  rw [varint_eq, makeTag_eq hf ht]

theorem signExtend_toNat (v : BitVec 32) : (v.signExtend 64).toNat = (v.toInt % 2 ^ 64).toNat := by
  unfold BitVec.signExtend
  rw [BitVec.toNat_ofInt]; rfl

theorem toNat_int64 (v : BitVec 64) : v.toNat = (v.toInt % 2 ^ 64).toNat := by
  have := BitVec.toNat_ofInt (n := 64) (i := v.toInt)
  rw [BitVec.ofInt_toInt] at this
  exact this

theorem encode_zigzag {w : Nat} (hw : 0 < w) (v : BitVec w) : (encodeVarintSigned v).toNat = zigzag v.toInt := by
  have := encodeVarintSigned_toNat hw v
  unfold zigzag
  split <;> omega

theorem packedBytes_eq (v : Value) : packedBytes v = v.payload := by
  cases v <;> simp only [packedBytes, Value.payload, varint_eq, little_eq, signExtend_toNat, ← toNat_int64, encode_zigzag (w := 32) (by omega),
    encode_zigzag (w := 64) (by omega), BitVec.toNat_ofInt] <;> try rfl
  · rename_i v; cases v <;> rw [writeVarint_small (by decide)] <;> rfl

theorem Value.payload_eq (v : Value) : v.payload = packedBytes v := (packedBytes_eq v).symm

theorem lengthVarint_of {w v : Nat} (hw : w ≤ 64) (h : v < 2 ^ w) : (writeVarint v).length = lengthVarint v :=
  lengthVarint_eq (Nat.lt_of_lt_of_le h (Nat.pow_le_pow_right (by omega) hw))

theorem Env.space_ge (e : Env) {w v : Nat} (hw0 : 0 < w) (hw : w ≤ 64) (h : v < 2 ^ w) : (writeVarint v).length ≤ e.space w v := by
  unfold Env.space
  split
  · exact Nat.le_of_eq (lengthVarint_of hw h)
  · exact maxLen_of_lt hw0 h

/-! ## The forward writer -/

namespace Smw
variable {σ : Type} {W : WriterOps σ} {view dst : σ → Bytes} {Inv : σ → Prop} {e : Env}

/-- `bs` was written to the current message. -/
def Grows (W : WriterOps σ) (view : σ → Bytes) (Inv : σ → Prop) (s : Smw σ) (bs : Bytes) (s' : Smw σ) : Prop :=
  Inv s'.dest ∧
  match s.subs with
  | [] => s'.subs = [] ∧ view s'.dest = overlay (view s.dest) (W.pos s.dest) bs ∧ W.pos s'.dest = W.pos s.dest + bs.length ∧ W.ok s'.dest = W.ok s.dest
  | m :: ms => s'.subs = (m ++ bs) :: ms ∧ s'.dest = s.dest

/-- `bs` is written, or writing fails, because it is `bad` or because the destination failed. -/
def Post (W : WriterOps σ) (view : σ → Bytes) (Inv : σ → Prop) (s : Smw σ) (bs : Bytes) (bad : Prop) (r : Bool × Smw σ) : Prop :=
  (r.1 = true → ¬bad ∧ Grows W view Inv s bs r.2) ∧ (r.1 = false → bad ∨ W.ok r.2.dest = false)

theorem Grows.seq {s s1 s2 : Smw σ} {a b : Bytes} (h1 : Grows W view Inv s a s1) (h2 : Grows W view Inv s1 b s2) : Grows W view Inv s (a ++ b) s2 := by
  obtain ⟨dest, subs⟩ := s
  obtain ⟨d1, sb1⟩ := s1
  unfold Grows at *
  cases subs with
  | nil =>
    obtain ⟨i1, a1, a2, a3, a4⟩ := h1
    dsimp only at a1; subst a1
    obtain ⟨i2, b1, b2, b3, b4⟩ := h2
    dsimp only at *
    refine ⟨i2, b1, ?_, ?_, b4.trans a4⟩
    · rw [b2, a2, a3, overlay_append]
    · rw [b3, a3, List.length_append]; omega
  | cons m ms =>
    obtain ⟨i1, a1, a2⟩ := h1
    dsimp only at a1; subst a1
    obtain ⟨i2, b1, b2⟩ := h2
    dsimp only at *
    exact ⟨i2, by rw [b1, List.append_assoc], b2.trans a2⟩

theorem andThen_post {f g : Smw σ → Bool × Smw σ} {s : Smw σ} {a b : Bytes} {bad1 bad2 : Prop} (h1 : Post W view Inv s a bad1 (f s))
    (h2 : ∀ s1, Grows W view Inv s a s1 → Post W view Inv s1 b bad2 (g s1)) : Post W view Inv s (a ++ b) (bad1 ∨ bad2) (andThen f g s) := by
  unfold andThen
  generalize f s = r at *
  obtain ⟨t, s1⟩ := r
  cases t with
  | false => exact ⟨fun h => (Bool.false_ne_true h).elim, fun _ => (h1.2 rfl).imp .inl id⟩
  | true =>
    obtain ⟨n1, g1⟩ := h1.1 rfl
    obtain ⟨p1, p2⟩ := h2 s1 g1
    refine ⟨fun h => ⟨fun hb => hb.elim n1 (p1 h).1, g1.seq (p1 h).2⟩, fun h => (p2 h).imp .inr id⟩

theorem Grows.inv {s s1 : Smw σ} {a : Bytes} (h : Grows W view Inv s a s1) : Inv s1.dest := h.1

theorem Grows.refl {s : Smw σ} (h : Inv s.dest) : Grows W view Inv s [] s := by
  obtain ⟨dest, subs⟩ := s
  refine ⟨h, ?_⟩
  cases subs with
  | nil => exact ⟨rfl, by simp, by simp, rfl⟩
  | cons => exact ⟨by simp, rfl⟩

theorem Post.mono {s : Smw σ} {bs : Bytes} {bad bad' : Prop} {r : Bool × Smw σ} (h : Post W view Inv s bs bad r) (hb : bad ↔ bad') :
    Post W view Inv s bs bad' r := ⟨fun t => ⟨fun b => (h.1 t).1 (hb.mpr b), (h.1 t).2⟩, fun t => (h.2 t).imp hb.mp id⟩

theorem post_of_writePost {dest : σ} {bs : Bytes} {r : Bool × σ} (h : WritePost W view dst Inv bs dest r) :
    Post W view Inv ⟨dest, []⟩ bs False (r.1, ⟨r.2, []⟩) := by
  obtain ⟨a1, a2, a3, -, -⟩ := h
  refine ⟨fun t => ⟨id, a1, rfl, ?_⟩, fun t => .inr (a3 t)⟩
  exact a2 t

theorem post_sub {dest : σ} {m : Bytes} {ms : List Bytes} {bs : Bytes} (h : Inv dest) :
    Post W view Inv ⟨dest, m :: ms⟩ bs False (true, ⟨dest, (m ++ bs) :: ms⟩) :=
  ⟨fun _ => ⟨id, h, rfl, rfl⟩, fun h => (Bool.false_ne_true h.symm).elim⟩

variable (L : W.Lawful view dst Inv)
include L

theorem emit_post {n : Nat} {bs : Bytes} {s : Smw σ} (h : Inv s.dest) (hb : bs.length ≤ n) : Post W view Inv s bs False (emit W n bs s) := by
  obtain ⟨dest, subs⟩ := s
  unfold emit
  cases subs with
  | cons m ms => exact post_sub h
  | nil =>
    dsimp only
    obtain ⟨h1, h2⟩ := L.push (n := n) (rec := 0) h
    generalize W.push n 0 dest = r at *
    by_cases hr : r.1 = false
    · rw [if_pos hr]
      exact post_of_writePost (h1.failed bs hr)
    · rw [if_neg hr]
      have hr := (Bool.not_eq_false _).mp hr
      have h3 := L.put_post (bs := bs) h1.1 (Nat.le_trans hb (h2 hr).1)
      exact post_of_writePost (h1.seq hr h3)

theorem writeChar_post {b : UInt8} {s : Smw σ} (h : Inv s.dest) : Post W view Inv s [b] False (writeChar W b s) := by
  obtain ⟨dest, subs⟩ := s
  cases subs with
  | cons m ms => exact post_sub h
  | nil => exact post_of_writePost (L.writeChar h).1

theorem write_post {bs : Bytes} {s : Smw σ} (h : Inv s.dest) : Post W view Inv s bs False (write W bs s) := by
  obtain ⟨dest, subs⟩ := s
  cases subs with
  | cons m ms => exact post_sub h
  | nil => exact post_of_writePost (L.write h).1

theorem writeCord_post (hcut : ∀ bs, (e.cut bs).flatten = bs) {bs : Bytes} {s : Smw σ} (h : Inv s.dest) : Post W view Inv s bs False (writeCord W e bs s) := by
  obtain ⟨dest, subs⟩ := s
  cases subs with
  | cons m ms => exact post_sub h
  | nil =>
    have := post_of_writePost (L.writeChain (fs := e.cut bs) h).1
    rw [hcut] at this
    exact this

theorem writeUInt32_post {f v : Nat} {s : Smw σ} (h : Inv s.dest) (hf : f < 2 ^ 29) (hv : v < 2 ^ 32) :
    Post W view Inv s (key f 0 ++ writeVarint v) False (writeUInt32 W e f v s) := by
  rw [key_eq hf (by omega)]
  refine emit_post L h ?_
  rw [List.length_append]
  exact Nat.add_le_add (e.space_ge (by omega) (by omega) (makeTag_lt hf (by omega))) (e.space_ge (by omega) (by omega) hv)

theorem writeUInt64_post {f v : Nat} {s : Smw σ} (h : Inv s.dest) (hf : f < 2 ^ 29) (hv : v < 2 ^ 64) :
    Post W view Inv s (key f 0 ++ writeVarint v) False (writeUInt64 W e f v s) := by
  rw [key_eq hf (by omega)]
  refine emit_post L h ?_
  rw [List.length_append]
  exact Nat.add_le_add (e.space_ge (by omega) (by omega) (makeTag_lt hf (by omega))) (e.space_ge (by omega) (by omega) hv)

theorem writeBool_post {f : Nat} {v : Bool} {s : Smw σ} (h : Inv s.dest) (hf : f < 2 ^ 29) :
    Post W view Inv s (key f 0 ++ [if v then 1 else 0]) False (writeBool W e f v s) := by
  rw [key_eq hf (by omega)]
  refine emit_post L h ?_
  rw [List.length_append]
  exact Nat.add_le_add (e.space_ge (by omega) (by omega) (makeTag_lt hf (by omega))) (by simp)

theorem writeFixed32_post {f v : Nat} {s : Smw σ} (h : Inv s.dest) (hf : f < 2 ^ 29) :
    Post W view Inv s (key f 5 ++ leBytes 4 v) False (writeFixed32 W e f v s) := by
  rw [key_eq hf (by omega)]
  refine emit_post L h ?_
  rw [List.length_append, leBytes_length]
  exact Nat.add_le_add (e.space_ge (by omega) (by omega) (makeTag_lt hf (by omega))) (by simp)

theorem writeFixed64_post {f v : Nat} {s : Smw σ} (h : Inv s.dest) (hf : f < 2 ^ 29) :
    Post W view Inv s (key f 1 ++ leBytes 8 v) False (writeFixed64 W e f v s) := by
  rw [key_eq hf (by omega)]
  refine emit_post L h ?_
  rw [List.length_append, leBytes_length]
  exact Nat.add_le_add (e.space_ge (by omega) (by omega) (makeTag_lt hf (by omega))) (by simp)

theorem writeScalar_post {f : Nat} (v : Value) {s : Smw σ} (h : Inv s.dest) (hf : f < 2 ^ 29) :
    Post W view Inv s (key f v.wireType ++ v.payload) False (writeScalar W e f v s) := by
  rw [Value.payload_eq]
  cases v
  case bool => exact writeBool_post L h hf
  case fixed32 => exact writeFixed32_post L h hf
  case sfixed32 => exact writeFixed32_post L h hf
  case float => exact writeFixed32_post L h hf
  case fixed64 => exact writeFixed64_post L h hf
  case sfixed64 => exact writeFixed64_post L h hf
  case double => exact writeFixed64_post L h hf
  case uint32 => exact writeUInt32_post L h hf (BitVec.isLt _)
  case sint32 => exact writeUInt32_post L h hf (BitVec.isLt _)
  all_goals exact writeUInt64_post L h hf (BitVec.isLt _)

theorem writeVarintTo_post {w v : Nat} {s : Smw σ} (h : Inv s.dest) (hw0 : 0 < w) (hw : w ≤ 64) (hv : v < 2 ^ w) :
    Post W view Inv s (writeVarint v) False (writeVarintTo W e w v s) := emit_post L h (e.space_ge hw0 hw hv)

theorem writeLittleEndian_post {n v : Nat} {s : Smw σ} (h : Inv s.dest) : Post W view Inv s (leBytes n v) False (writeLittleEndian W n v s) :=
  emit_post L h (by rw [leBytes_length]; exact Nat.le_refl _)

theorem writePacked_post (v : Value) {s : Smw σ} (h : Inv s.dest) : Post W view Inv s v.payload False (writePacked W e v s) := by
  rw [Value.payload_eq]
  cases v
  case bool => exact writeChar_post L h
  case fixed32 => exact writeLittleEndian_post L h
  case sfixed32 => exact writeLittleEndian_post L h
  case float => exact writeLittleEndian_post L h
  case fixed64 => exact writeLittleEndian_post L h
  case sfixed64 => exact writeLittleEndian_post L h
  case double => exact writeLittleEndian_post L h
  all_goals exact writeVarintTo_post L h (by omega) (by omega) (BitVec.isLt _)

theorem writeLengthUnchecked_post {f n : Nat} {s : Smw σ} (h : Inv s.dest) (hf : f < 2 ^ 29) :
    Post W view Inv s (key f 2 ++ varint n) (2 ^ 31 ≤ n) (writeLengthUnchecked W e f n s) := by
  unfold writeLengthUnchecked
  by_cases hn : 2147483647 < n
  · rw [if_pos hn]
    exact ⟨fun h => (Bool.false_ne_true h).elim, fun _ => .inl (by omega)⟩
  · rw [if_neg hn, key_eq hf (by omega), varint_eq]
    refine (emit_post L h ?_).mono ⟨False.elim, fun h => by omega⟩
    rw [List.length_append]
    exact Nat.add_le_add (e.space_ge (by omega) (by omega) (makeTag_lt hf (by omega))) (e.space_ge (by omega) (by omega) (by omega))

theorem writeString_post (hcut : ∀ bs, (e.cut bs).flatten = bs) {f : Nat} {bs : Bytes} {s : Smw σ} (h : Inv s.dest) (hf : f < 2 ^ 29) :
    Post W view Inv s (key f 2 ++ varint bs.length ++ bs) (2 ^ 31 ≤ bs.length) (writeString W e f bs s) := by
  have hor : (2 ^ 31 ≤ bs.length ∨ False) ↔ 2 ^ 31 ≤ bs.length := by simp
  unfold writeString
  generalize e.kind bs = k
  match k with
  | 0 => exact (andThen_post (writeLengthUnchecked_post L h hf) (fun _ g => write_post L g.inv)).mono hor
  | 1 => exact (andThen_post (writeLengthUnchecked_post L h hf) (fun _ g => writeCord_post L hcut g.inv)).mono hor
  | k + 2 =>
    show Post W view Inv s _ _ ((if bs.length ≤ kMaxBytesToCopy then _ else _ : Smw σ → Bool × Smw σ) s)
    split
    · exact (andThen_post (writeLengthUnchecked_post L h hf) (fun _ g => emit_post L g.inv (Nat.le_refl _))).mono hor
    · exact (andThen_post (writeLengthUnchecked_post L h hf) (fun _ g => writeCord_post L hcut g.inv)).mono hor

/-- A submessage: opening, contents, closing. -/
theorem sub_post {f : Nat} {bs : Bytes} {bad : Prop} {s : Smw σ} (optional : Bool) (hcut : ∀ bs, (e.cut bs).flatten = bs) (h : Inv s.dest) (hf : f < 2 ^ 29)
    {body : Smw σ → Bool × Smw σ} (hbody : ∀ s1 : Smw σ, Inv s1.dest → Post W view Inv s1 bs bad (body s1)) :
    Post W view Inv s (if optional = true ∧ bs = [] then [] else key f 2 ++ varint bs.length ++ bs) (bad ∨ 2 ^ 31 ≤ bs.length)
      (andThen openLengthDelimited (andThen body (if optional then closeOptionalLengthDelimited W e f else closeLengthDelimited W e f)) s) := by
  obtain ⟨dest, subs⟩ := s
  have hb := hbody ⟨dest, [] :: subs⟩ h
  unfold andThen openLengthDelimited
  dsimp only
  rw [if_neg (show ¬(true = false) by decide)]
  generalize body ⟨dest, [] :: subs⟩ = r at *
  obtain ⟨t, d1, sb1⟩ := r
  cases t with
  | false => exact ⟨fun h => (Bool.false_ne_true h).elim, fun _ => (hb.2 rfl).imp .inl id⟩
  | true =>
    obtain ⟨n1, g1, g2, g3⟩ := hb.1 rfl
    dsimp only at g2 g3
    subst g2 g3
    rw [if_neg (show ¬(true = false) by decide)]
    have hmain : Post W view Inv ⟨d1, subs⟩ (key f 2 ++ varint bs.length ++ bs) (bad ∨ 2 ^ 31 ≤ bs.length)
        (andThen (writeLengthUnchecked W e f bs.length) (writeCord W e bs) ⟨d1, subs⟩) :=
      (andThen_post (writeLengthUnchecked_post L h hf) (fun _ g => writeCord_post L hcut g.inv)).mono
        ⟨fun h => h.elim .inr False.elim, fun h => h.elim (fun h => (n1 h).elim) .inl⟩
    cases optional with
    | false =>
      rw [if_neg (show ¬(false = true ∧ bs = []) by simp), if_neg (show ¬(false = true) by decide)]
      unfold closeLengthDelimited
      dsimp only
      rw [List.nil_append]
      exact hmain
    | true =>
      rw [if_pos (show true = true from rfl)]
      unfold closeOptionalLengthDelimited
      dsimp only
      rw [List.nil_append]
      by_cases hbs : bs = []
      · rw [if_pos ⟨rfl, hbs⟩, if_pos hbs]
        refine ⟨fun _ => ⟨?_, Grows.refl h⟩, fun h => (Bool.false_ne_true h.symm).elim⟩
        rw [hbs]
        exact fun h => h.elim n1 (by simp)
      · rw [if_neg (fun h => hbs h.2), if_neg hbs]
        exact hmain

mutual
theorem field_post (hcut : ∀ bs, (e.cut bs).flatten = bs) : ∀ (x : Field) {s : Smw σ}, Inv s.dest → Valid x → Post W view Inv s (wire x) (TooLong x) (field W e x s)
  | .scalar f v, s, h, hv => (by
    simp only [Valid] at hv
    simp only [field, wire, TooLong]
    exact writeScalar_post L v h hv.2)
  | .str f bs, s, h, hv => (by
    simp only [Valid] at hv
    simp only [field, wire, TooLong]
    exact writeString_post L hcut h hv.2)
  | .sub .opened f body, s, h, hv => (by
    simp only [Valid] at hv
    simp only [field, wire, TooLong]
    exact sub_post L false hcut h hv.1.2 (fun s1 h1 => fields_post hcut body h1 hv.2))
  | .sub .optional f body, s, h, hv => (by
    simp only [Valid] at hv
    simp only [field, wire, TooLong]
    have := sub_post L true hcut h hv.1.2 (fun s1 h1 => fields_post hcut body h1 hv.2) (f := f)
    simpa only [true_and, if_true] using this)
  | .sub .pledged f body, s, h, hv => (by
    simp only [Valid] at hv
    simp only [field, wire, TooLong]
    exact (andThen_post (writeLengthUnchecked_post L h hv.1.2) (fun s1 g => fields_post hcut body g.inv hv.2)).mono or_comm)
  | .group f body, s, h, hv => (by
    simp only [Valid] at hv
    simp only [field, wire, TooLong]
    rw [List.append_assoc, key_eq hv.1.2 (by omega), key_eq hv.1.2 (by omega)]
    refine (andThen_post (writeVarintTo_post L h (by omega) (by omega) (makeTag_lt hv.1.2 (by omega)))
      (fun s1 g => andThen_post (fields_post hcut body g.inv hv.2) (fun s2 g2 => writeVarintTo_post L g2.inv (by omega) (by omega) (makeTag_lt hv.1.2 (by omega))))).mono ?_
    simp)
  | .element v, s, h, _ => (by
    simp only [field, wire, TooLong]
    exact writePacked_post L v h)
  | .raw bs, s, h, _ => (by
    simp only [field, wire, TooLong]
    exact write_post L h)
theorem fields_post (hcut : ∀ bs, (e.cut bs).flatten = bs) : ∀ (xs : List Field) {s : Smw σ}, Inv s.dest → AllValid xs →
    Post W view Inv s (wires xs) (AnyTooLong xs) (fields W e xs s)
  | [], s, h, _ => (by
    simp only [fields, wires, AnyTooLong]
    exact ⟨fun _ => ⟨id, Grows.refl h⟩, fun h => (Bool.false_ne_true h.symm).elim⟩)
  | x :: xs, s, h, hv => (by
    simp only [AllValid] at hv
    simp only [fields, wires, AnyTooLong]
    exact andThen_post (field_post hcut x h hv.1) (fun s1 g => fields_post hcut xs g.inv hv.2))
end

end Smw

/-! ## Lengths -/

theorem lengthOfPacked_eq (v : Value) : lengthOfPacked v = v.payload.length := by
  rw [Value.payload_eq]
  cases v
  case bool => rfl
  case fixed32 => exact (leBytes_length _ _).symm
  case sfixed32 => exact (leBytes_length _ _).symm
  case float => exact (leBytes_length _ _).symm
  case fixed64 => exact (leBytes_length _ _).symm
  case sfixed64 => exact (leBytes_length _ _).symm
  case double => exact (leBytes_length _ _).symm
  case uint32 => exact (lengthVarint_of (w := 32) (by omega) (BitVec.isLt _)).symm
  case sint32 => exact (lengthVarint_of (w := 32) (by omega) (BitVec.isLt _)).symm
  all_goals exact (lengthVarint_of (w := 64) (by omega) (BitVec.isLt _)).symm

theorem key_length {f t : Nat} (hf : f < 2 ^ 29) (ht : t < 8) : (key f t).length = lengthVarint (makeTag f t) := by
  rw [key_eq hf ht, lengthVarint_of (w := 32) (by omega) (makeTag_lt hf ht)]

theorem lengthOfScalar_eq {f : Nat} (v : Value) (hf : f < 2 ^ 29) : lengthOfScalar f v = (key f v.wireType ++ v.payload).length := by
  have ht : v.wireType < 8 := by cases v <;> simp [Value.wireType]
  rw [List.length_append, ← lengthOfPacked_eq, key_length hf ht]
  cases v <;> rfl

theorem lengthOfLengthDelimited_eq {f : Nat} {bs : Bytes} (hf : f < 2 ^ 29) (hl : bs.length < 2 ^ 31) :
    lengthOfLengthDelimited f bs.length = (key f 2 ++ varint bs.length ++ bs).length := by
  rw [List.length_append, List.length_append, key_length hf (by omega), varint_eq, lengthVarint_of (w := 32) (by omega) (by omega)]
  rfl

/-- `StartGroup` and `EndGroup` tags have the same length. -/
theorem group_length (f : Nat) : (key f 4).length = (key f 3).length := by
  have h : ∀ n, 0 < n → ((key f 4).length ≤ n ↔ (key f 3).length ≤ n) := by
    intro n hn
    unfold key
    rw [varint_eq, varint_eq, writeVarint_length_le _ _ hn, writeVarint_length_le _ _ hn]
    obtain ⟨k, rfl⟩ : ∃ k, n = k + 1 := ⟨n - 1, by omega⟩
    rw [Nat.pow_succ]
    omega
  have h3 : 0 < (key f 3).length := by
    unfold key; rw [varint_eq]; exact List.length_pos_iff.mpr (writeVarint_ne_nil _)
  have h4 : 0 < (key f 4).length := by
    unfold key; rw [varint_eq]; exact List.length_pos_iff.mpr (writeVarint_ne_nil _)
  have a := (h (key f 3).length h3).mpr (Nat.le_refl _)
  have b := (h (key f 4).length h4).mp (Nat.le_refl _)
  omega

mutual
theorem lengthOf_eq : ∀ (x : Field), Valid x → ¬TooLong x → lengthOf x = (wire x).length
  | .scalar f v, hv, _ => (by
    simp only [Valid] at hv
    simp only [lengthOf, wire]
    exact lengthOfScalar_eq v hv.2)
  | .str f bs, hv, ht => (by
    simp only [Valid] at hv
    simp only [TooLong] at ht
    simp only [lengthOf, wire]
    exact lengthOfLengthDelimited_eq hv.2 (by omega))
  | .sub .opened f body, hv, ht => (by
    simp only [Valid] at hv
    simp only [TooLong, not_or] at ht
    simp only [lengthOf, wire]
    rw [lengthOfAll_eq body hv.2 ht.1]
    exact lengthOfLengthDelimited_eq hv.1.2 (by omega))
  | .sub .pledged f body, hv, ht => (by
    simp only [Valid] at hv
    simp only [TooLong, not_or] at ht
    simp only [lengthOf, wire]
    rw [lengthOfAll_eq body hv.2 ht.1]
    exact lengthOfLengthDelimited_eq hv.1.2 (by omega))
  | .sub .optional f body, hv, ht => (by
    simp only [Valid] at hv
    simp only [TooLong, not_or] at ht
    simp only [lengthOf, wire]
    rw [lengthOfAll_eq body hv.2 ht.1]
    unfold lengthOfOptionalLengthDelimited
    by_cases h : wires body = []
    · rw [if_pos h, if_pos (by rw [h]; rfl)]; rfl
    · rw [if_neg h, if_neg (by rw [List.length_eq_zero_iff]; exact h)]
      exact lengthOfLengthDelimited_eq hv.1.2 (by omega))
  | .group f body, hv, ht => (by
    simp only [Valid] at hv
    simp only [TooLong] at ht
    simp only [lengthOf, wire]
    rw [lengthOfAll_eq body hv.2 ht, List.length_append, List.length_append, group_length f, key_length hv.1.2 (by omega)]
    unfold lengthOfOpenPlusCloseGroup
    omega)
  | .element v, _, _ => (by
    simp only [lengthOf, wire]
    exact lengthOfPacked_eq v)
  | .raw bs, _, _ => (by simp only [lengthOf, wire])
theorem lengthOfAll_eq : ∀ (xs : List Field), AllValid xs → ¬AnyTooLong xs → lengthOfAll xs = (wires xs).length
  | [], _, _ => (by simp only [lengthOfAll, wires]; rfl)
  | x :: xs, hv, ht => (by
    simp only [AllValid] at hv
    simp only [AnyTooLong, not_or] at ht
    simp only [lengthOfAll, wires]
    rw [List.length_append, lengthOf_eq x hv.1 ht.1, lengthOfAll_eq xs hv.2 ht.2])
end

/-! ## The backward writer -/

namespace Smb
variable {σ : Type} {B : BackOps σ} {view : σ → Bytes} {Inv : σ → Prop} {e : Env}

/-- `bs` was prepended. -/
def Grows (B : BackOps σ) (view : σ → Bytes) (Inv : σ → Prop) (s : Smb σ) (bs : Bytes) (s' : Smb σ) : Prop :=
  Inv s'.dest ∧ s'.subs = s.subs ∧ view s'.dest = bs ++ view s.dest ∧ B.pos s'.dest = B.pos s.dest + bs.length ∧ B.ok s'.dest = B.ok s.dest

/-- `bs` is prepended, or this fails, because it is `bad` or because the destination failed. -/
def Post (B : BackOps σ) (view : σ → Bytes) (Inv : σ → Prop) (s : Smb σ) (bs : Bytes) (bad : Prop) (r : Bool × Smb σ) : Prop :=
  (r.1 = true → ¬bad ∧ Grows B view Inv s bs r.2) ∧ (r.1 = false → bad ∨ B.ok r.2.dest = false)

theorem Grows.seq {s s1 s2 : Smb σ} {a b : Bytes} (h1 : Grows B view Inv s a s1) (h2 : Grows B view Inv s1 b s2) : Grows B view Inv s (b ++ a) s2 := by
  obtain ⟨i1, a1, a2, a3, a4⟩ := h1
  obtain ⟨i2, b1, b2, b3, b4⟩ := h2
  exact ⟨i2, b1.trans a1, by rw [b2, a2, List.append_assoc], by rw [b3, a3, List.length_append]; omega, b4.trans a4⟩

theorem Grows.refl {s : Smb σ} (h : Inv s.dest) : Grows B view Inv s [] s := ⟨h, rfl, rfl, rfl, rfl⟩

theorem andThen_post {f g : Smb σ → Bool × Smb σ} {s : Smb σ} {a b : Bytes} {bad1 bad2 : Prop} (h1 : Post B view Inv s a bad1 (f s))
    (h2 : ∀ s1, Grows B view Inv s a s1 → Post B view Inv s1 b bad2 (g s1)) : Post B view Inv s (b ++ a) (bad2 ∨ bad1) (andThen f g s) := by
  unfold andThen
  generalize f s = r at *
  obtain ⟨t, s1⟩ := r
  cases t with
  | false => exact ⟨fun h => (Bool.false_ne_true h).elim, fun _ => (h1.2 rfl).imp .inr id⟩
  | true =>
    obtain ⟨n1, g1⟩ := h1.1 rfl
    obtain ⟨p1, p2⟩ := h2 s1 g1
    refine ⟨fun h => ⟨fun hb => hb.elim (p1 h).1 n1, g1.seq (p1 h).2⟩, fun h => (p2 h).imp .inl id⟩

theorem Post.mono {s : Smb σ} {bs : Bytes} {bad bad' : Prop} {r : Bool × Smb σ} (h : Post B view Inv s bs bad r) (hb : bad ↔ bad') :
    Post B view Inv s bs bad' r := ⟨fun t => ⟨fun b => (h.1 t).1 (hb.mpr b), (h.1 t).2⟩, fun t => (h.2 t).imp hb.mp id⟩

variable (L : B.Lawful view Inv)
include L

theorem emit_post {n : Nat} {bs : Bytes} {s : Smb σ} (h : Inv s.dest) (hb : bs.length = n) : Post B view Inv s bs False (emit B n bs s) := by
  unfold emit
  obtain ⟨h1, h2, h3⟩ := L.push n s.dest h
  generalize B.push n s.dest = r at *
  dsimp only
  by_cases hr : r.1 = false
  · rw [if_pos hr]
    exact ⟨fun h => (Bool.false_ne_true h).elim, fun _ => .inr (h3 hr)⟩
  · rw [if_neg hr]
    obtain ⟨a1, a2, a3, a4⟩ := h2 ((Bool.not_eq_false _).mp hr)
    rw [show n - bs.length = 0 by omega, List.replicate_zero, List.append_nil]
    obtain ⟨b1, b2, b3, b4⟩ := L.put bs r.2 h1 (by omega)
    exact ⟨fun _ => ⟨id, b1, rfl, by rw [b2, a2], by rw [b3, a3], b4.trans a4⟩, fun h => (Bool.false_ne_true h.symm).elim⟩

theorem write_post {bs : Bytes} {s : Smb σ} (h : Inv s.dest) : Post B view Inv s bs False (write B bs s) := by
  obtain ⟨h1, h2, h3⟩ := L.write bs s.dest h
  exact ⟨fun t => ⟨id, h1, rfl, h2 t⟩, fun t => .inr (h3 t)⟩

theorem writeUInt_post {f v : Nat} {s : Smb σ} (h : Inv s.dest) (hf : f < 2 ^ 29) (hv : v < 2 ^ 64) :
    Post B view Inv s (key f 0 ++ writeVarint v) False (writeUInt B f v s) := by
  rw [key_eq hf (by omega)]
  refine emit_post L h ?_
  rw [List.length_append, lengthVarint_of (w := 32) (by omega) (makeTag_lt hf (by omega)), lengthVarint_eq hv]

theorem writeBool_post {f : Nat} {v : Bool} {s : Smb σ} (h : Inv s.dest) (hf : f < 2 ^ 29) :
    Post B view Inv s (key f 0 ++ [if v then 1 else 0]) False (writeBool B f v s) := by
  rw [key_eq hf (by omega)]
  refine emit_post L h ?_
  rw [List.length_append, lengthVarint_of (w := 32) (by omega) (makeTag_lt hf (by omega))]; rfl

theorem writeFixed32_post {f v : Nat} {s : Smb σ} (h : Inv s.dest) (hf : f < 2 ^ 29) :
    Post B view Inv s (key f 5 ++ leBytes 4 v) False (writeFixed32 B f v s) := by
  rw [key_eq hf (by omega)]
  refine emit_post L h ?_
  rw [List.length_append, lengthVarint_of (w := 32) (by omega) (makeTag_lt hf (by omega)), leBytes_length]

theorem writeFixed64_post {f v : Nat} {s : Smb σ} (h : Inv s.dest) (hf : f < 2 ^ 29) :
    Post B view Inv s (key f 1 ++ leBytes 8 v) False (writeFixed64 B f v s) := by
  rw [key_eq hf (by omega)]
  refine emit_post L h ?_
  rw [List.length_append, lengthVarint_of (w := 32) (by omega) (makeTag_lt hf (by omega)), leBytes_length]

omit L in
theorem bv32 (v : BitVec 32) : v.toNat < 2 ^ 64 := Nat.lt_trans v.isLt (by decide)

theorem writeScalar_post {f : Nat} (v : Value) {s : Smb σ} (h : Inv s.dest) (hf : f < 2 ^ 29) :
    Post B view Inv s (key f v.wireType ++ v.payload) False (writeScalar B f v s) := by
  rw [Value.payload_eq]
  cases v
  case bool => exact writeBool_post L h hf
  case fixed32 => exact writeFixed32_post L h hf
  case sfixed32 => exact writeFixed32_post L h hf
  case float => exact writeFixed32_post L h hf
  case fixed64 => exact writeFixed64_post L h hf
  case sfixed64 => exact writeFixed64_post L h hf
  case double => exact writeFixed64_post L h hf
  case uint32 => exact writeUInt_post L h hf (bv32 _)
  case sint32 => exact writeUInt_post L h hf (bv32 _)
  all_goals exact writeUInt_post L h hf (BitVec.isLt _)

theorem writeVarintTo_post {v : Nat} {s : Smb σ} (h : Inv s.dest) (hv : v < 2 ^ 64) : Post B view Inv s (writeVarint v) False (writeVarintTo B v s) :=
  emit_post L h (lengthVarint_eq hv)

theorem writeLittleEndian_post {n v : Nat} {s : Smb σ} (h : Inv s.dest) : Post B view Inv s (leBytes n v) False (writeLittleEndian B n v s) :=
  emit_post L h (leBytes_length _ _)

theorem writePacked_post (v : Value) {s : Smb σ} (h : Inv s.dest) : Post B view Inv s v.payload False (writePacked B v s) := by
  rw [Value.payload_eq]
  cases v
  case bool => exact write_post L h
  case fixed32 => exact writeLittleEndian_post L h
  case sfixed32 => exact writeLittleEndian_post L h
  case float => exact writeLittleEndian_post L h
  case fixed64 => exact writeLittleEndian_post L h
  case sfixed64 => exact writeLittleEndian_post L h
  case double => exact writeLittleEndian_post L h
  case uint32 => exact writeVarintTo_post L h (bv32 _)
  case sint32 => exact writeVarintTo_post L h (bv32 _)
  all_goals exact writeVarintTo_post L h (BitVec.isLt _)

theorem writeLengthUnchecked_post {f n : Nat} {s : Smb σ} (h : Inv s.dest) (hf : f < 2 ^ 29) :
    Post B view Inv s (key f 2 ++ varint n) (2 ^ 31 ≤ n) (writeLengthUnchecked B f n s) := by
  unfold writeLengthUnchecked
  by_cases hn : 2147483647 < n
  · rw [if_pos hn]
    exact ⟨fun h => (Bool.false_ne_true h).elim, fun _ => .inl (by omega)⟩
  · rw [if_neg hn, key_eq hf (by omega), varint_eq]
    refine (emit_post L h ?_).mono ⟨False.elim, fun h => by omega⟩
    rw [List.length_append, lengthVarint_of (w := 32) (by omega) (makeTag_lt hf (by omega)), lengthVarint_of (w := 32) (by omega) (by omega)]

theorem writeString_post {f : Nat} {bs : Bytes} {s : Smb σ} (h : Inv s.dest) (hf : f < 2 ^ 29) :
    Post B view Inv s (key f 2 ++ varint bs.length ++ bs) (2 ^ 31 ≤ bs.length) (writeString B e f bs s) := by
  unfold writeString
  split
  · exact (andThen_post (emit_post L h rfl) (fun _ g => writeLengthUnchecked_post L g.1 hf)).mono ⟨fun h => h.elim id False.elim, .inl⟩
  · refine (andThen_post (write_post L h) (fun s1 g => ?_)).mono ⟨fun h => h.elim id False.elim, .inl⟩
    have : B.pos s1.dest - B.pos s.dest = bs.length := by rw [g.2.2.2.1]; omega
    rw [this]
    exact writeLengthUnchecked_post L g.1 hf

/-- A submessage: opening, contents, closing. -/
theorem sub_post {f : Nat} {bs : Bytes} {bad : Prop} {s : Smb σ} (optional : Bool) (h : Inv s.dest) (hf : f < 2 ^ 29)
    {body : Smb σ → Bool × Smb σ} (hbody : ∀ s1 : Smb σ, Inv s1.dest → Post B view Inv s1 bs bad (body s1)) :
    Post B view Inv s (if optional = true ∧ bs = [] then [] else key f 2 ++ varint bs.length ++ bs) (bad ∨ 2 ^ 31 ≤ bs.length)
      (andThen (openLengthDelimited B) (andThen body (if optional then closeOptionalLengthDelimited B f else closeLengthDelimited B f)) s) := by
  obtain ⟨dest, subs⟩ := s
  have hb := hbody ⟨dest, B.pos dest :: subs⟩ h
  unfold andThen openLengthDelimited
  dsimp only
  rw [if_neg (show ¬(true = false) by decide)]
  generalize body ⟨dest, B.pos dest :: subs⟩ = r at *
  obtain ⟨t, d1, sb1⟩ := r
  cases t with
  | false => exact ⟨fun h => (Bool.false_ne_true h).elim, fun _ => (hb.2 rfl).imp .inl id⟩
  | true =>
    obtain ⟨n1, g1, g2, g3, g4, g5⟩ := hb.1 rfl
    dsimp only at g1 g2 g3 g4 g5
    subst g2
    have hlen : B.pos d1 - B.pos dest = bs.length := by omega
    rw [if_neg (show ¬(true = false) by decide)]
    have hgr : Grows B view Inv ⟨dest, subs⟩ bs ⟨d1, subs⟩ := ⟨g1, rfl, g3, g4, g5⟩
    have hmain : Post B view Inv ⟨dest, subs⟩ (key f 2 ++ varint bs.length ++ bs) (bad ∨ 2 ^ 31 ≤ bs.length)
        (writeLengthUnchecked B f bs.length ⟨d1, subs⟩) := by
      have := writeLengthUnchecked_post L (s := ⟨d1, subs⟩) (n := bs.length) g1 hf
      exact ⟨fun t => ⟨fun h => h.elim n1 (this.1 t).1, hgr.seq (this.1 t).2⟩, fun t => (this.2 t).imp .inr id⟩
    cases optional with
    | false =>
      rw [if_neg (show ¬(false = true ∧ bs = []) by simp), if_neg (show ¬(false = true) by decide)]
      unfold closeLengthDelimited
      dsimp only
      rw [hlen]
      exact hmain
    | true =>
      rw [if_pos (show true = true from rfl)]
      unfold closeOptionalLengthDelimited
      dsimp only
      rw [hlen]
      by_cases hbs : bs = []
      · rw [if_pos ⟨rfl, hbs⟩, if_neg (by rw [hbs]; simp)]
        rw [hbs] at hgr
        refine ⟨fun _ => ⟨?_, hgr⟩, fun h => (Bool.false_ne_true h.symm).elim⟩
        rw [hbs]
        exact fun h => h.elim n1 (by simp)
      · rw [if_neg (fun h => hbs h.2), if_pos (List.length_pos_iff.mpr hbs)]
        exact hmain

mutual
theorem field_post : ∀ (x : Field) {s : Smb σ}, Inv s.dest → Valid x → Post B view Inv s (wire x) (TooLong x) (field B e x s)
  | .scalar f v, s, h, hv => (by
    simp only [Valid] at hv
    simp only [field, wire, TooLong]
    exact writeScalar_post L v h hv.2)
  | .str f bs, s, h, hv => (by
    simp only [Valid] at hv
    simp only [field, wire, TooLong]
    exact writeString_post L h hv.2)
  | .sub .opened f body, s, h, hv => (by
    simp only [Valid] at hv
    simp only [field, wire, TooLong]
    exact sub_post L false h hv.1.2 (fun s1 h1 => fields_post body h1 hv.2))
  | .sub .optional f body, s, h, hv => (by
    simp only [Valid] at hv
    simp only [field, wire, TooLong]
    have := sub_post L true h hv.1.2 (fun s1 h1 => fields_post body h1 hv.2) (f := f)
    simpa only [true_and, if_true] using this)
  | .sub .pledged f body, s, h, hv => (by
    simp only [Valid] at hv
    simp only [field, wire, TooLong]
    exact (andThen_post (fields_post body h hv.2) (fun s1 g => writeLengthUnchecked_post L g.1 hv.1.2)).mono or_comm)
  | .group f body, s, h, hv => (by
    simp only [Valid] at hv
    simp only [field, wire, TooLong]
    rw [key_eq hv.1.2 (by omega), key_eq hv.1.2 (by omega)]
    have hlt : ∀ t, t < 8 → makeTag f t < 2 ^ 64 := fun t ht => Nat.lt_trans (makeTag_lt hv.1.2 ht) (by decide)
    refine (andThen_post (writeVarintTo_post L h (hlt 4 (by omega)))
      (fun s1 g => andThen_post (fields_post body g.1 hv.2) (fun s2 g2 => writeVarintTo_post L g2.1 (hlt 3 (by omega))))).mono ?_
    simp)
  | .element v, s, h, _ => (by
    simp only [field, wire, TooLong]
    exact writePacked_post L v h)
  | .raw bs, s, h, _ => (by
    simp only [field, wire, TooLong]
    exact write_post L h)
theorem fields_post : ∀ (xs : List Field) {s : Smb σ}, Inv s.dest → AllValid xs → Post B view Inv s (wires xs) (AnyTooLong xs) (fields B e xs s)
  | [], s, h, _ => (by
    simp only [fields, wires, AnyTooLong]
    exact ⟨fun _ => ⟨id, Grows.refl h⟩, fun h => (Bool.false_ne_true h.symm).elim⟩)
  | x :: xs, s, h, hv => (by
    simp only [AllValid] at hv
    simp only [fields, wires, AnyTooLong]
    exact andThen_post (fields_post xs h hv.2) (fun s1 g => field_post x g.1 hv.1))
end

end Smb
end Riegeli.Msg

import Verif.MessageCordProofs
/-!
# Messages which were written consist of the fields which were written
-/
namespace Riegeli.Msg

theorem varint_of {w v : Nat} (hw : 0 < w) (h : v < 2 ^ w) : VarintOf w (varint v) v := by
  rw [varint_eq]
  exact ⟨(writeVarint_spec v).1, (writeVarint_spec v).2, h, maxLen_of_lt hw h⟩

theorem key_of {f wt : Nat} (hf : f < 2 ^ 29) (hw : wt < 8) : VarintOf 32 (key f wt) (f * 8 + wt) := varint_of (by omega) (by omega)

theorem Parses.append {a b c : Bytes} {x y : List Item} (h1 : Parses a x b) (h2 : Parses b y c) : Parses a (x ++ y) c := by
  induction h1 with
  | nil => exact h2
  | cons h _ ih => exact .cons h (ih h2)

theorem Parses.one {a b : Bytes} {x : Item} (h : Begins a x b) : Parses a [x] b := .cons h .nil

/-- The varint which represents a value. -/
def Value.repr : Value → Nat
  | int32 v => (v.toInt % 2 ^ 64).toNat
  | int64 v => (v.toInt % 2 ^ 64).toNat
  | uint32 v => v.toNat
  | uint64 v => v.toNat
  | sint32 v => zigzag v.toInt
  | sint64 v => zigzag v.toInt
  | bool v => if v then 1 else 0
  | fixed32 v => v.toNat
  | fixed64 v => v.toNat
  | sfixed32 v => v.toNat
  | sfixed64 v => v.toNat
  | float v => v.toNat
  | double v => v.toNat
  | enum v => (v % 2 ^ 64).toNat

theorem signed_lt (v : Int) : (v % 2 ^ 64).toNat < 2 ^ 64 := by omega

theorem zigzag32_lt (v : BitVec 32) : zigzag v.toInt < 2 ^ 64 := by
  rw [← encode_zigzag (by omega)]
  exact Nat.lt_trans (encodeVarintSigned v).isLt (by decide)

theorem zigzag64_lt (v : BitVec 64) : zigzag v.toInt < 2 ^ 64 := by
  rw [← encode_zigzag (by omega)]
  exact (encodeVarintSigned v).isLt

theorem parse_scalar {f : Nat} (hf : f < 2 ^ 29) (v : Value) (rest : Bytes) : Parses (wire (.scalar f v) ++ rest) (items (.scalar f v)) rest := by
  cases v <;> simp only [wire, items, Value.payload, Value.wireType]
  · exact .one (.varint (key_of hf (by omega)) (varint_of (by omega) (signed_lt _)))
  · exact .one (.varint (key_of hf (by omega)) (varint_of (by omega) (signed_lt _)))
  · exact .one (.varint (key_of hf (by omega)) (varint_of (by omega) (Nat.lt_trans (BitVec.isLt _) (by decide))))
  · exact .one (.varint (key_of hf (by omega)) (varint_of (by omega) (BitVec.isLt _)))
  · exact .one (.varint (key_of hf (by omega)) (varint_of (by omega) (zigzag32_lt _)))
  · exact .one (.varint (key_of hf (by omega)) (varint_of (by omega) (zigzag64_lt _)))
  · exact .one (.varint (key_of hf (by omega)) (varint_of (by omega) (by split <;> decide)))
  · exact .one (.fixed32 (key_of hf (by omega)) (BitVec.isLt _))
  · exact .one (.fixed64 (key_of hf (by omega)) (BitVec.isLt _))
  · exact .one (.fixed32 (key_of hf (by omega)) (BitVec.isLt _))
  · exact .one (.fixed64 (key_of hf (by omega)) (BitVec.isLt _))
  · exact .one (.fixed32 (key_of hf (by omega)) (BitVec.isLt _))
  · exact .one (.fixed64 (key_of hf (by omega)) (BitVec.isLt _))
  · exact .one (.varint (key_of hf (by omega)) (varint_of (by omega) (signed_lt _)))

theorem begins_len {f : Nat} (hf : f < 2 ^ 29) (bs rest : Bytes) (hl : bs.length < 2 ^ 31) :
    Begins (key f 2 ++ varint bs.length ++ bs ++ rest) (.len f bs) rest :=
  .len (key_of hf (by omega)) (varint_of (by omega) (by omega)) hl

mutual
theorem parse_field : ∀ (x : Field) (rest : Bytes), Whole x → Valid x → ¬TooLong x → Parses (wire x ++ rest) (items x) rest
  | .scalar f v, rest, _, hv, _ => by
    rw [Valid] at hv
    exact parse_scalar hv.2 v rest
  | .str f bs, rest, _, hv, ht => by
    rw [Valid] at hv
    rw [TooLong] at ht
    rw [wire, items]
    exact .one (begins_len hv.2 bs rest (by omega))
  | .sub .optional f body, rest, _, hv, ht => by
    rw [Valid] at hv
    rw [TooLong] at ht
    rw [wire, items]
    split
    · exact .nil
    · exact .one (begins_len hv.1.2 _ rest (Nat.lt_of_not_le fun h => ht (.inr h)))
  | .sub .opened f body, rest, _, hv, ht => by
    rw [Valid] at hv
    rw [TooLong] at ht
    rw [wire, items]
    · exact .one (begins_len hv.1.2 _ rest (Nat.lt_of_not_le fun h => ht (.inr h)))
    · intro h; cases h
    · intro h; cases h
  | .sub .pledged f body, rest, _, hv, ht => by
    rw [Valid] at hv
    rw [TooLong] at ht
    rw [wire, items]
    · exact .one (begins_len hv.1.2 _ rest (Nat.lt_of_not_le fun h => ht (.inr h)))
    · intro h; cases h
    · intro h; cases h
  | .group f body, rest, hw, hv, ht => by
    rw [Valid] at hv
    rw [TooLong] at ht
    rw [Whole] at hw
    rw [wire, items, List.append_assoc, List.append_assoc]
    exact .cons (.start (key_of hv.1.2 (by omega))) ((parse_fields body (key f 4 ++ rest) hw hv.2 ht).append (.one (.stop (key_of hv.1.2 (by omega)))))
  | .element v, rest, hw, _, _ => by rw [Whole] at hw; exact hw.elim
  | .raw bs, rest, hw, _, _ => by rw [Whole] at hw; exact hw.elim
theorem parse_fields : ∀ (xs : List Field) (rest : Bytes), AllWhole xs → AllValid xs → ¬AnyTooLong xs → Parses (wires xs ++ rest) (itemsAll xs) rest
  | [], rest, _, _, _ => by rw [wires, itemsAll]; exact .nil
  | x :: xs, rest, hw, hv, ht => by
    rw [AllWhole] at hw
    rw [AllValid] at hv
    rw [AnyTooLong] at ht
    rw [wires, itemsAll, List.append_assoc]
    exact (parse_field x (wires xs ++ rest) hw.1 hv.1 (fun h => ht (.inl h))).append (parse_fields xs rest hw.2 hv.2 (fun h => ht (.inr h)))
end

theorem not_begins_nil (it : Item) (rest : Bytes) : ¬Begins [] it rest := fun h => by
  have := h.length_lt
  simp at this

/-! ## Values -/

/-- The kind of handler which reads values of this type. -/
def Value.kind : Value → Option Kind
  | int32 _ => some .int32
  | int64 _ => some .int64
  | uint32 _ => some .uint32
  | uint64 _ => some .uint64
  | sint32 _ => some .sint32
  | sint64 _ => some .sint64
  | bool _ => some .bool
  | enum _ => some .enum
  | _ => none

theorem ofNat_signed32 (v : BitVec 32) : BitVec.ofNat 32 (v.toInt % 2 ^ 64).toNat = v := by
  apply BitVec.eq_of_toNat_eq
  rw [BitVec.toNat_ofNat, BitVec.toInt]
  have := v.isLt
  split <;> omega

theorem ofNat_signed64 (v : BitVec 64) : BitVec.ofNat 64 (v.toInt % 2 ^ 64).toNat = v := by
  rw [← toNat_int64, BitVec.ofNat_toNat, BitVec.setWidth_eq]

theorem ofNat_zigzag64 (v : BitVec 64) : decodeVarintSigned (BitVec.ofNat 64 (zigzag v.toInt)) = v := by
  rw [← encode_zigzag (by omega), BitVec.ofNat_toNat, BitVec.setWidth_eq, decode_encode_signed (by omega)]

theorem ofNat_zigzag32 (v : BitVec 32) : (decodeVarintSigned (BitVec.ofNat 64 (zigzag v.toInt))).truncate 32 = v := by
  have h : v.toInt = (v.signExtend 64).toInt := (BitVec.toInt_signExtend_of_le (by omega)).symm
  rw [h, ofNat_zigzag64]
  apply BitVec.eq_of_toNat_eq
  show (BitVec.setWidth 32 (v.signExtend 64)).toNat = _
  rw [BitVec.toNat_setWidth, signExtend_toNat]
  rw [BitVec.toInt]
  have := v.isLt
  split <;> omega

theorem decode_repr (v : Value) (k : Kind) (hk : v.kind = some k) (he : ∀ x, v = .enum x → -2 ^ 31 ≤ x ∧ x < 2 ^ 31) : decodeVarint k v.repr = v := by
  cases v <;> simp only [Value.kind, Option.some.injEq, reduceCtorEq] at hk <;> subst hk <;> simp only [decodeVarint, Value.repr]
  · rw [ofNat_signed32]
  · rw [ofNat_signed64]
  · rw [BitVec.ofNat_toNat, BitVec.setWidth_eq]
  · rw [BitVec.ofNat_toNat, BitVec.setWidth_eq]
  · rw [ofNat_zigzag32]
  · rw [ofNat_zigzag64]
  · rename_i b; cases b <;> rfl
  · rename_i x
    obtain ⟨h1, h2⟩ := he x rfl
    congr 1
    rw [BitVec.toInt, BitVec.toNat_ofNat]
    split <;> omega

theorem repr_lt (v : Value) : v.repr < 2 ^ 64 := by
  cases v <;> simp only [Value.repr]
  · exact signed_lt _
  · exact signed_lt _
  · exact Nat.lt_trans (BitVec.isLt _) (by decide)
  · exact BitVec.isLt _
  · exact zigzag32_lt _
  · exact zigzag64_lt _
  · split <;> decide
  · exact Nat.lt_trans (BitVec.isLt _) (by decide)
  · exact BitVec.isLt _
  · exact Nat.lt_trans (BitVec.isLt _) (by decide)
  · exact BitVec.isLt _
  · exact Nat.lt_trans (BitVec.isLt _) (by decide)
  · exact BitVec.isLt _
  · exact signed_lt _

theorem payload_varint (v : Value) (k : Kind) (hk : v.kind = some k) : v.payload = varint v.repr := by
  cases v <;> simp only [Value.kind, reduceCtorEq] at hk <;> rfl

theorem item_varint (f : Nat) (v : Value) (k : Kind) (hk : v.kind = some k) : items (.scalar f v) = [.varint f v.repr] := by
  cases v <;> simp only [Value.kind, reduceCtorEq] at hk <;> rw [items] <;> rfl

/-- Elements of a packed repeated field. -/
theorem varints_elements : ∀ (vs : List Value) (k : Kind), (∀ v ∈ vs, v.kind = some k) → Varints (wires (vs.map .element)) (vs.map Value.repr) []
  | [], k, _ => by rw [List.map_nil, wires]; exact .nil
  | v :: vs, k, h => by
    rw [List.map_cons, wires, wire, payload_varint v k (h v (List.mem_cons_self ..)), List.map_cons]
    exact .cons (varint_of (by omega) (repr_lt v)) (varints_elements vs k (fun v hv => h v (List.mem_cons_of_mem _ hv)))

theorem Varints.unique {bs : Bytes} {vs vs' : List Nat} {rest rest' : Bytes} (h : Varints bs vs rest) (hm : ∀ p r v, rest = p ++ r → ¬VarintOf 64 p v)
    (h' : Varints bs vs' rest') (hm' : ∀ p r v, rest' = p ++ r → ¬VarintOf 64 p v) : vs = vs' ∧ rest = rest' := by
  induction h generalizing vs' with
  | nil =>
    cases h' with
    | nil => exact ⟨rfl, rfl⟩
    | cons h _ => exact absurd h (hm _ _ _ rfl)
  | @cons p r rest v vs hp hr ih =>
    generalize hb : p ++ r = bs at h'
    cases h' with
    | nil => exact absurd hp (hm' _ _ _ hb.symm)
    | @cons p' r' _ v' vs'' hp' hr' =>
      have e := ((readVarint_of (by omega) (p ++ r) r v).mpr ⟨p, rfl, hp⟩).symm.trans (hb ▸ (readVarint_of (by omega) (p' ++ r') r' v').mpr ⟨p', rfl, hp'⟩)
      cases e
      obtain ⟨e1, e2⟩ := ih hm hr'
      exact ⟨by rw [e1], e2⟩

theorem packedVarints_unique {γ : Type} {a : NumAct γ} {bs : Bytes} {c : γ} {r : Bool × γ} (h : PackedVarintResult a bs c r) : r = packedVarints a bs c := by
  obtain ⟨vs, rest, h1, h2, h3, h4⟩ := h
  obtain ⟨vs', rest', h1', h2', h3', h4'⟩ := packedVarints_spec a bs c
  obtain ⟨rfl, rfl⟩ := h1.unique h2 h1' h2'
  refine Prod.ext (Bool.eq_iff_iff.mpr (h4.trans h4'.symm)) (h3.trans h3'.symm)

theorem flatMap_little_length (size : Nat) : ∀ (vs : List Nat), (vs.flatMap (little size)).length = vs.length * size
  | [] => by simp
  | v :: vs => by
    rw [List.flatMap_cons, List.length_append, flatMap_little_length size vs, little_eq, leBytes_length, List.length_cons, Nat.succ_mul]; omega

theorem fixeds_flatMap (size : Nat) : ∀ (vs : List Nat), (∀ v ∈ vs, v < 256 ^ size) → fixeds size vs.length (vs.flatMap (little size)) = vs
  | [], _ => rfl
  | v :: vs, h => by
    obtain ⟨-, h1, h2⟩ := fixed_join (n := size) (h v (List.mem_cons_self ..)) (vs.flatMap (little size))
    rw [List.length_cons, List.flatMap_cons, fixeds, h1, h2, fixeds_flatMap size vs (fun v hv => h v (List.mem_cons_of_mem _ hv))]

theorem packedFixeds_unique {γ : Type} {size : Nat} (hs : 0 < size) {a : NumAct γ} {bs : Bytes} {c : γ} {r : Bool × γ} (h : PackedFixedResult size a bs c r) :
    r = packedFixeds size a bs c := by
  unfold packedFixeds
  rcases h with ⟨h1, h2⟩ | ⟨vs, h1, h2, h3⟩
  · rw [if_pos (by omega), h2]
  · have hl : bs.length = vs.length * size := by rw [h2, flatMap_little_length]
    rw [if_neg (by rw [hl, Nat.mul_mod_left]; omega), h3, hl, Nat.mul_div_cancel _ hs, h2, fixeds_flatMap size vs h1]

end Riegeli.Msg

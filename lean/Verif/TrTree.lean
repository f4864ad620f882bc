import Verif.TrColumn
import Verif.ProjSpec
/-!
# Transposed chunks: the encoder on messages as trees
-/
namespace Riegeli.Tr
open Riegeli.Proj

/-- `g` groups are open: the fields of the innermost one, the end of the group, the following fields of the enclosing one,
and so on. Nesting is `d`. -/
def Opens (d : Nat) : List Nat → Bytes → Prop
  | [], src => ∃ m : Msg, m.Valid ∧ m.Split kMaxRecursionDepth d ∧ src = m.ser
  | n :: g, src => ∃ (m : Msg) (rest : Bytes), m.Valid ∧ m.Split kMaxRecursionDepth d ∧
      src = m.ser ++ (writeVarint (8 * n + 4) ++ rest) ∧ Opens (d - 1) g rest

/-- Adding a field in front. -/
theorem Opens.prepend {d : Nat} {x : Bytes} {f : Msg → Msg}
    (hf : ∀ m : Msg, m.Valid → (f m).Valid) (hs : ∀ m : Msg, m.Split kMaxRecursionDepth d → (f m).Split kMaxRecursionDepth d)
    (hx : ∀ m : Msg, (f m).ser = x ++ m.ser) : ∀ {g : List Nat} {src : Bytes}, Opens d g src → Opens d g (x ++ src)
  | [], _, ⟨m, h1, h2, h3⟩ => ⟨f m, hf m h1, hs m h2, by rw [hx, h3]⟩
  | _ :: _, _, ⟨m, rest, h1, h2, h3, h4⟩ => ⟨f m, rest, hf m h1, hs m h2, by rw [hx, h3, List.append_assoc], h4⟩

theorem tag_split (tag : Nat) : tag = 8 * fieldNumber tag + wireType tag := by
  unfold fieldNumber wireType; omega

theorem copyVarint_write {src bs rest : Bytes} (h : copyVarint 64 true src = some (bs, rest)) :
    ∃ v, v < 2 ^ 64 ∧ bs = writeVarint v := by
  obtain ⟨hs, v, hv⟩ := (copyVarintLoop_eq (w := 64) true src 0 0).2 bs rest h
  have hv' : readVarint 64 true src = some (v, rest) := hv
  obtain ⟨_, h2, h3⟩ := readVarint_noncanonical (by omega) hv'
  exact ⟨v, h3, List.append_cancel_right (hs.symm.trans h2)⟩

theorem writeVarint_copy {v : Nat} (hv : v < 2 ^ 64) (c : Bool) (rest : Bytes) :
    copyVarint 64 c (writeVarint v ++ rest) = some (writeVarint v, rest) := by
  have hr := readVarint_write (w := 64) (by omega) hv c rest
  cases hc : copyVarint 64 c (writeVarint v ++ rest) with
  | none =>
    have := (copyVarintLoop_eq (w := 64) c (writeVarint v ++ rest) 0 0).1.1 hc
    unfold readVarint at hr
    rw [this] at hr; cases hr
  | some r =>
    obtain ⟨bs, rest2⟩ := r
    obtain ⟨hs, v2, hv2⟩ := (copyVarintLoop_eq (w := 64) c (writeVarint v ++ rest) 0 0).2 bs rest2 hc
    unfold readVarint at hr
    rw [hr] at hv2
    simp only [Option.some.injEq, Prod.mk.injEq] at hv2
    obtain ⟨_, rfl⟩ := hv2
    rw [List.append_cancel_right hs]

/-- The check for messages passes over the fields of a message. -/
theorem isProto_ser : ∀ (m : Msg), m.Valid → ∀ (g : List Nat) (tail : Bytes),
    isProtoLoop g (m.ser ++ tail) = isProtoLoop g tail := by
  intro m
  induction m with
  | nil => intro _ g tail; rfl
  | varint n v rest ihr =>
    rintro ⟨hn, hv, hrest⟩ g tail
    rw [Msg.ser]
    simp only [List.append_assoc]
    rw [isProtoLoop.eq_def, if_neg (by simp [writeVarint_ne_nil])]
    split
    · rename_i hh; rw [readVarint_write (by omega) (by omega)] at hh; cases hh
    · rename_i tag src1 hh
      rw [readVarint_write (by omega) (by omega)] at hh
      cases hh
      rw [if_neg (by unfold fieldNumber; omega), show wireType (8 * n) = 0 by unfold wireType; omega]
      simp only
      split
      · rename_i hh; rw [writeVarint_copy hv] at hh; cases hh
      · rename_i hh
        rw [writeVarint_copy hv] at hh
        cases hh
        exact ihr hrest g tail
  | fixed32 n v rest ihr =>
    rintro ⟨hn, hv, hrest⟩ g tail
    rw [Msg.ser]
    simp only [List.append_assoc]
    rw [isProtoLoop.eq_def, if_neg (by simp [writeVarint_ne_nil])]
    split
    · rename_i hh; rw [readVarint_write (by omega) (by omega)] at hh; cases hh
    · rename_i tag src1 hh
      rw [readVarint_write (by omega) (by omega)] at hh
      cases hh
      rw [if_neg (by unfold fieldNumber; omega), show wireType (8 * n + 5) = 5 by unfold wireType; omega]
      simp only
      rw [if_neg (by simp only [List.length_append]; omega), List.drop_left' hv]
      exact ihr hrest g tail
  | fixed64 n v rest ihr =>
    rintro ⟨hn, hv, hrest⟩ g tail
    rw [Msg.ser]
    simp only [List.append_assoc]
    rw [isProtoLoop.eq_def, if_neg (by simp [writeVarint_ne_nil])]
    split
    · rename_i hh; rw [readVarint_write (by omega) (by omega)] at hh; cases hh
    · rename_i tag src1 hh
      rw [readVarint_write (by omega) (by omega)] at hh
      cases hh
      rw [if_neg (by unfold fieldNumber; omega), show wireType (8 * n + 1) = 1 by unfold wireType; omega]
      simp only
      rw [if_neg (by simp only [List.length_append]; omega), List.drop_left' hv]
      exact ihr hrest g tail
  | bytes n v rest ihr =>
    rintro ⟨hn, hv, hrest⟩ g tail
    rw [Msg.ser]
    simp only [List.append_assoc]
    rw [isProtoLoop.eq_def, if_neg (by simp [writeVarint_ne_nil])]
    split
    · rename_i hh; rw [readVarint_write (by omega) (by omega)] at hh; cases hh
    · rename_i tag src1 hh
      rw [readVarint_write (by omega) (by omega)] at hh
      cases hh
      rw [if_neg (by unfold fieldNumber; omega), show wireType (8 * n + 2) = 2 by unfold wireType; omega]
      simp only
      split
      · rename_i hh; rw [readVarint_write (by omega) hv] at hh; cases hh
      · rename_i hh
        rw [readVarint_write (by omega) hv] at hh
        cases hh
        rw [if_neg (by simp only [List.length_append]; omega), List.drop_left' rfl]
        exact ihr hrest g tail
  | message n body rest _ ihr =>
    rintro ⟨hn, hv, _, hrest⟩ g tail
    rw [Msg.ser]
    simp only [List.append_assoc]
    rw [isProtoLoop.eq_def, if_neg (by simp [writeVarint_ne_nil])]
    split
    · rename_i hh; rw [readVarint_write (by omega) (by omega)] at hh; cases hh
    · rename_i tag src1 hh
      rw [readVarint_write (by omega) (by omega)] at hh
      cases hh
      rw [if_neg (by unfold fieldNumber; omega), show wireType (8 * n + 2) = 2 by unfold wireType; omega]
      simp only
      split
      · rename_i hh; rw [readVarint_write (by omega) hv] at hh; cases hh
      · rename_i hh
        rw [readVarint_write (by omega) hv] at hh
        cases hh
        rw [if_neg (by simp only [List.length_append]; omega), List.drop_left' rfl]
        exact ihr hrest g tail
  | group n body rest ihb ihr =>
    rintro ⟨hn, hbody, hrest⟩ g tail
    rw [Msg.ser]
    simp only [List.append_assoc]
    rw [isProtoLoop.eq_def, if_neg (by simp [writeVarint_ne_nil])]
    split
    · rename_i hh; rw [readVarint_write (by omega) (by omega)] at hh; cases hh
    · rename_i tag src1 hh
      rw [readVarint_write (by omega) (by omega)] at hh
      cases hh
      rw [if_neg (by unfold fieldNumber; omega), show wireType (8 * n + 3) = 3 by unfold wireType; omega]
      simp only
      rw [ihb hbody, isProtoLoop.eq_def, if_neg (by simp [writeVarint_ne_nil])]
      split
      · rename_i hh; rw [readVarint_write (by omega) (by omega)] at hh; cases hh
      · rename_i tag src1 hh
        rw [readVarint_write (by omega) (by omega)] at hh
        cases hh
        rw [if_neg (by unfold fieldNumber; omega), show wireType (8 * n + 4) = 4 by unfold wireType; omega]
        simp only
        rw [if_neg (by unfold fieldNumber; omega)]
        exact ihr hrest g tail

/-- What the check for messages accepts is a sequence of fields, which can be described finely. -/
theorem opens_of_isProto : ∀ (k : Nat) (src : Bytes) (d : Nat) (g : List Nat), src.length ≤ k → isProtoLoop g src = true →
    Opens d g src := by
  intro k
  induction k with
  | zero =>
    intro src d g hk h
    have : src = [] := List.length_eq_zero_iff.1 (by omega)
    subst this
    rw [isProtoLoop_nil h]
    exact ⟨.nil, trivial, trivial, rfl⟩
  | succ k ih =>
    intro src d g hk h
    by_cases hs : src = []
    · subst hs
      rw [isProtoLoop_nil h]
      exact ⟨.nil, trivial, trivial, rfl⟩
    obtain ⟨tag, src1, hr, hf, hc⟩ := isProtoLoop_cons h hs
    obtain ⟨-, hsrc, h32⟩ := readVarint_noncanonical (by omega) hr
    have hl1 := readVarint_length (by omega) hr
    have hts := tag_split tag
    have hn : 0 < fieldNumber tag ∧ fieldNumber tag < 2 ^ 29 := by
      refine ⟨by omega, ?_⟩
      unfold fieldNumber; omega
    rcases hc with ⟨hw, v, src2, hv, hp⟩ | ⟨hw, hlen, hp⟩ | ⟨hw, hlen, hp⟩ | ⟨hw, n, src2, hv, hlen, hp⟩ | ⟨hw, hp⟩ | ⟨hw, gs, rfl, hp⟩
    · obtain ⟨x, hx, rfl⟩ := copyVarint_write hv
      obtain ⟨-, hsrc1, -, -⟩ := copyVarint_spec hv
      have hl2 := copyVarint_lt_length hv
      rw [hsrc, hsrc1, ← List.append_assoc]
      refine Opens.prepend (f := .varint (fieldNumber tag) x) (fun m hm => ⟨hn, hx, hm⟩) (fun m hm => hm) (fun m => ?_)
        (ih src2 d g (by omega) hp)
      rw [Msg.ser, show 8 * fieldNumber tag = tag by omega]
    · rw [hsrc, ← List.take_append_drop 4 src1, ← List.append_assoc]
      refine Opens.prepend (f := .fixed32 (fieldNumber tag) (src1.take 4)) (fun m hm => ⟨hn, by simp; omega, hm⟩) (fun m hm => hm)
        (fun m => ?_) (ih _ d g (by simp; omega) hp)
      rw [Msg.ser, show 8 * fieldNumber tag + 5 = tag by omega]
    · rw [hsrc, ← List.take_append_drop 8 src1, ← List.append_assoc]
      refine Opens.prepend (f := .fixed64 (fieldNumber tag) (src1.take 8)) (fun m hm => ⟨hn, by simp; omega, hm⟩) (fun m hm => hm)
        (fun m => ?_) (ih _ d g (by simp; omega) hp)
      rw [Msg.ser, show 8 * fieldNumber tag + 1 = tag by omega]
    · obtain ⟨-, hsrc1, hn32⟩ := readVarint_noncanonical (by omega) hv
      have hl2 := readVarint_length (by omega) hv
      have htl : (src2.take n).length = n := by simp; omega
      rw [hsrc, hsrc1, ← List.take_append_drop n src2]
      by_cases hsub : src2.take n ≠ [] ∧ d < kMaxRecursionDepth ∧ IsMessage (src2.take n)
      · obtain ⟨hne, hd, m, hm, hme⟩ := hsub
        -- described finely
        have hfine : Opens (d + 1) [] (src2.take n) := by
          apply ih (src2.take n) (d + 1) [] (by omega)
          rw [← hme]
          have := isProto_ser m hm [] []
          rw [List.append_nil] at this
          rw [this]
          exact isProtoMessage_nil
        obtain ⟨m', hm1, hm2, hm3⟩ := hfine
        have e : writeVarint tag ++ (writeVarint n ++ (src2.take n ++ src2.drop n)) =
            writeVarint tag ++ writeVarint n ++ src2.take n ++ src2.drop n := by simp [List.append_assoc]
        rw [e]
        refine Opens.prepend (f := .message (fieldNumber tag) m')
          (fun m hm => ⟨hn, by rw [← hm3]; omega, hm1, hm⟩) (fun m hm => ⟨⟨by rw [← hm3]; exact hne, hd⟩, hm2, hm⟩) (fun m => ?_)
          (ih _ d g (by simp; omega) hp)
        rw [Msg.ser, show 8 * fieldNumber tag + 2 = tag by omega, ← hm3, htl]
      · have e : writeVarint tag ++ (writeVarint n ++ (src2.take n ++ src2.drop n)) =
            writeVarint tag ++ writeVarint n ++ src2.take n ++ src2.drop n := by simp [List.append_assoc]
        rw [e]
        refine Opens.prepend (f := .bytes (fieldNumber tag) (src2.take n))
          (fun m hm => ⟨hn, by omega, hm⟩) (fun m hm => ⟨hsub, hm⟩) (fun m => ?_) (ih _ d g (by simp; omega) hp)
        rw [Msg.ser, show 8 * fieldNumber tag + 2 = tag by omega, htl]
    · obtain ⟨m, rest, h1, h2, h3, h4⟩ := ih src1 (d + 1) (fieldNumber tag :: g) (by omega) hp
      rw [Nat.add_sub_cancel] at h4
      have e : src = (writeVarint tag ++ m.ser ++ writeVarint (8 * fieldNumber tag + 4)) ++ rest := by
        rw [hsrc, h3]; simp [List.append_assoc]
      rw [e]
      refine Opens.prepend (f := .group (fieldNumber tag) m) (fun m' hm => ⟨hn, h1, hm⟩) (fun m' hm => ⟨h2, hm⟩) (fun m' => ?_) h4
      rw [Msg.ser, show 8 * fieldNumber tag + 3 = tag by omega]
    · refine ⟨.nil, src1, trivial, trivial, ?_, ih src1 (d - 1) gs (by omega) hp⟩
      rw [hsrc, show 8 * fieldNumber tag + 4 = tag by omega]
      rfl

/-- The check for messages is exact. -/
theorem isProtoMessage_iff (b : Bytes) : isProtoMessage b = true ↔ IsMessage b := by
  constructor
  · intro h
    obtain ⟨m, h1, _, h3⟩ := opens_of_isProto b.length b 0 [] (Nat.le_refl _) h
    exact ⟨m, h1, h3.symm⟩
  · rintro ⟨m, hm, rfl⟩
    have := isProto_ser m hm [] []
    rw [List.append_nil] at this
    unfold isProtoMessage
    rw [this]
    exact isProtoMessage_nil

/-- Every record can be described finely. -/
theorem rec_exists (b : Bytes) : ∃ r : Rec, r.Wf kMaxRecursionDepth ∧ r.ser = b := by
  by_cases h : isProtoMessage b = true
  · obtain ⟨m, h1, h2, h3⟩ := opens_of_isProto b.length b 0 [] (Nat.le_refl _) h
    exact ⟨.msg m, ⟨h1, h2⟩, h3.symm⟩
  · exact ⟨.other b, fun hm => h ((isProtoMessage_iff b).2 hm), rfl⟩

/-! ## Encoding trees -/

/-- Encoding a varint field. -/
def encVarint (s : ESt) (id : NodeId) (v : Nat) : ESt :=
  if ((writeVarint v).headD 0).toNat ≤ kMaxVarintInline then
    (s.getNode id).1.pushTag id (kVarintInline0 + ((writeVarint v).headD 0).toNat)
  else ((s.getNode id).1.pushTag id ((writeVarint v).length - 1)).write .varint id (clearHigh (writeVarint v))

/-- What `AddMessage` does with the fields of a message. -/
def encMsg (s : ESt) (parent : Nat) : Msg → ESt
  | .nil => s
  | .varint n v rest => encMsg (encVarint s ⟨parent, 8 * n⟩ v) parent rest
  | .fixed32 n v rest =>
    encMsg (((s.getNode ⟨parent, 8 * n + 5⟩).1.pushTag ⟨parent, 8 * n + 5⟩ 0).write .fixed32 ⟨parent, 8 * n + 5⟩ v) parent rest
  | .fixed64 n v rest =>
    encMsg (((s.getNode ⟨parent, 8 * n + 1⟩).1.pushTag ⟨parent, 8 * n + 1⟩ 0).write .fixed64 ⟨parent, 8 * n + 1⟩ v) parent rest
  | .bytes n v rest =>
    encMsg (((s.getNode ⟨parent, 8 * n + 2⟩).1.pushTag ⟨parent, 8 * n + 2⟩ kString).write .string ⟨parent, 8 * n + 2⟩
      (writeVarint v.length ++ v)) parent rest
  | .message n body rest =>
    let id : NodeId := ⟨parent, 8 * n + 2⟩
    let s1 := (s.getNode id).1.pushTag id kSubStart
    encMsg ((encMsg (s1.getPos id kSubEnd).1 (s.getNode id).2 body).push (s1.getPos id kSubEnd).2) parent rest
  | .group n body rest =>
    let id : NodeId := ⟨parent, 8 * n + 3⟩
    let s1 := encMsg ((s.getNode id).1.pushTag id 0) (s.getNode id).2 body
    encMsg ((s1.getNode ⟨(s.getNode id).2, 8 * n + 4⟩).1.pushTag ⟨(s.getNode id).2, 8 * n + 4⟩ 0) parent rest

/-- `AddMessage` on the encoding of fields. -/
theorem addLoop_enc : ∀ (m : Msg) (s : ESt) (parent : Nat) (frames : List Frame) (groups : List Nat) (tail : Bytes),
    m.Valid → m.Split kMaxRecursionDepth (frames.length + groups.length) →
    addLoop s parent frames groups (m.ser ++ tail) = addLoop (encMsg s parent m) parent frames groups tail := by
  intro m
  induction m with
  | nil => intro s parent frames groups tail _ _; rfl
  | varint n v rest ihr =>
    rintro s parent frames groups tail ⟨hn, hv, hrest⟩ hs
    rw [Msg.ser]
    simp only [List.append_assoc]
    rw [addLoop.eq_def, if_neg (by simp [writeVarint_ne_nil])]
    split
    · rename_i hh; rw [readVarint_write (by omega) (by omega)] at hh; cases hh
    · rename_i tag src1 hh
      rw [readVarint_write (by omega) (by omega)] at hh
      cases hh
      rw [show wireType (8 * n) = 0 by unfold wireType; omega]
      simp only
      split
      · rename_i hh; rw [writeVarint_copy hv] at hh; cases hh
      · rename_i hh
        rw [writeVarint_copy hv] at hh
        cases hh
        rw [encMsg, ← ihr _ parent frames groups tail hrest hs]
        unfold encVarint
        split <;> rfl
  | fixed32 n v rest ihr =>
    rintro s parent frames groups tail ⟨hn, hv, hrest⟩ hs
    rw [Msg.ser]
    simp only [List.append_assoc]
    rw [addLoop.eq_def, if_neg (by simp [writeVarint_ne_nil])]
    split
    · rename_i hh; rw [readVarint_write (by omega) (by omega)] at hh; cases hh
    · rename_i tag src1 hh
      rw [readVarint_write (by omega) (by omega)] at hh
      cases hh
      rw [show wireType (8 * n + 5) = 5 by unfold wireType; omega]
      simp only
      rw [if_neg (by simp only [List.length_append]; omega), List.take_left' hv, List.drop_left' hv, encMsg,
        ← ihr _ parent frames groups tail hrest hs]
  | fixed64 n v rest ihr =>
    rintro s parent frames groups tail ⟨hn, hv, hrest⟩ hs
    rw [Msg.ser]
    simp only [List.append_assoc]
    rw [addLoop.eq_def, if_neg (by simp [writeVarint_ne_nil])]
    split
    · rename_i hh; rw [readVarint_write (by omega) (by omega)] at hh; cases hh
    · rename_i tag src1 hh
      rw [readVarint_write (by omega) (by omega)] at hh
      cases hh
      rw [show wireType (8 * n + 1) = 1 by unfold wireType; omega]
      simp only
      rw [if_neg (by simp only [List.length_append]; omega), List.take_left' hv, List.drop_left' hv, encMsg,
        ← ihr _ parent frames groups tail hrest hs]
  | bytes n v rest ihr =>
    rintro s parent frames groups tail ⟨hn, hv, hrest⟩ ⟨hsub, hs⟩
    rw [Msg.ser]
    simp only [List.append_assoc]
    rw [addLoop.eq_def, if_neg (by simp [writeVarint_ne_nil])]
    split
    · rename_i hh; rw [readVarint_write (by omega) (by omega)] at hh; cases hh
    · rename_i tag src1 hh
      rw [readVarint_write (by omega) (by omega)] at hh
      cases hh
      rw [show wireType (8 * n + 2) = 2 by unfold wireType; omega]
      simp only
      split
      · rename_i hh; rw [readVarint_write (by omega) hv] at hh; cases hh
      · rename_i hh
        rw [readVarint_write (by omega) hv] at hh
        cases hh
        rw [if_neg (by simp only [List.length_append]; omega), List.take_left' rfl, List.drop_left' rfl, if_neg]
        · rw [encMsg, ← ihr _ parent frames groups tail hrest hs]
          congr 2
          generalize rest.ser ++ tail = X
          have e : (writeVarint v.length ++ (v ++ X)).length - (v ++ X).length + v.length = (writeVarint v.length ++ v).length := by
            simp only [List.length_append]; omega
          rw [e, ← List.append_assoc, List.take_left' rfl]
        · rintro ⟨h1, h2, h3⟩
          exact hsub ⟨by rintro rfl; simp at h1, h2, (isProtoMessage_iff v).1 h3⟩
  | message n body rest ihb ihr =>
    rintro s parent frames groups tail ⟨hn, hv, hbody, hrest⟩ ⟨⟨hne, hd⟩, hsb, hs⟩
    rw [Msg.ser]
    simp only [List.append_assoc]
    rw [addLoop.eq_def, if_neg (by simp [writeVarint_ne_nil])]
    split
    · rename_i hh; rw [readVarint_write (by omega) (by omega)] at hh; cases hh
    · rename_i tag src1 hh
      rw [readVarint_write (by omega) (by omega)] at hh
      cases hh
      rw [show wireType (8 * n + 2) = 2 by unfold wireType; omega]
      simp only
      split
      · rename_i hh; rw [readVarint_write (by omega) hv] at hh; cases hh
      · rename_i hh
        rw [readVarint_write (by omega) hv] at hh
        cases hh
        rw [if_neg (by simp only [List.length_append]; omega), List.take_left' rfl, List.drop_left' rfl,
          if_pos ⟨List.length_pos_iff.2 hne, hd, (isProtoMessage_iff _).2 ⟨body, hbody, rfl⟩⟩]
        have hb := fun s mid f => ihb s mid (f :: frames) groups [] hbody
          (by rw [List.length_cons, show frames.length + 1 + groups.length = frames.length + groups.length + 1 by omega]; exact hsb)
        simp only [List.append_nil] at hb
        rw [hb, addLoop.eq_def, if_pos rfl]
        simp only
        rw [ihr _ parent frames groups tail hrest hs, encMsg]
  | group n body rest ihb ihr =>
    rintro s parent frames groups tail ⟨hn, hbody, hrest⟩ ⟨hsb, hs⟩
    rw [Msg.ser]
    simp only [List.append_assoc]
    rw [addLoop.eq_def, if_neg (by simp [writeVarint_ne_nil])]
    split
    · rename_i hh; rw [readVarint_write (by omega) (by omega)] at hh; cases hh
    · rename_i tag src1 hh
      rw [readVarint_write (by omega) (by omega)] at hh
      cases hh
      rw [show wireType (8 * n + 3) = 3 by unfold wireType; omega]
      simp only
      rw [ihb _ _ _ _ _ hbody (by
        rw [List.length_cons, show frames.length + (groups.length + 1) = frames.length + groups.length + 1 by omega]; exact hsb)]
      rw [addLoop.eq_def, if_neg (by simp [writeVarint_ne_nil])]
      split
      · rename_i hh; rw [readVarint_write (by omega) (by omega)] at hh; cases hh
      · rename_i tag src1 hh
        rw [readVarint_write (by omega) (by omega)] at hh
        cases hh
        rw [show wireType (8 * n + 4) = 4 by unfold wireType; omega]
        simp only
        rw [ihr _ parent frames groups tail hrest hs, encMsg]

end Riegeli.Tr

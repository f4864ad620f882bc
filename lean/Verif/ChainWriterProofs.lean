import Verif.ChainWriter
import Verif.StringWriterProofs
/-!
# Proofs about `ChainWriter`

`CW.lawful`: `ChainWriter` is a class meeting the contract of `Writer`.
-/
namespace Riegeli.Wtr

/-- Overwriting data after some prefix. -/
theorem overlay_prefix (a t bs : Bytes) : overlay (a ++ t) a.length bs = a ++ bs ++ t.drop bs.length := by
  unfold overlay
  by_cases hb : bs = []
  · subst hb; simp
  · rw [if_neg hb, List.take_left, List.length_append, Nat.sub_eq_zero_of_le (Nat.le_add_right _ _), List.replicate_zero, List.append_nil,
      List.drop_append, List.drop_eq_nil_of_le (Nat.le_add_right _ _), List.nil_append, Nat.add_sub_cancel_left]

namespace CW
variable {G : SCfg}

/-- What the writer presents. -/
def view (s : CW) : Bytes := if s.hasTail then s.dest else s.dest.take s.pos ++ s.tail.drop s.cur

/-- The invariant (`chain_writer.h:225-230`). -/
structure Inv (s : CW) : Prop where
  dead : s.ok = false → s.lim = 0 ∧ s.cur = 0
  cur : s.cur ≤ s.lim
  room : s.ok = true → s.limitPos ≤ s.dest.length
  tail : s.ok = true → s.hasTail = true → s.lim = 0 ∧ s.tail = []

theorem hasTail_iff {s : CW} : s.hasTail = true ↔ s.startPos + s.lim < s.dest.length := by
  unfold hasTail limitPos
  exact decide_eq_true_iff

/-- There is no buffer, and the tail is separated or appended. -/
structure Idle (s : CW) : Prop where
  ok : s.ok = true
  lim : s.lim = 0
  cur : s.cur = 0
  le : s.startPos ≤ s.dest.length
  tail : s.startPos < s.dest.length → s.tail = []

theorem Idle.spec {s : CW} (h : s.Idle) : s.Inv ∧ s.view = s.dest ++ s.tail ∧ s.pos = s.startPos := by
  obtain ⟨h1, h2, h3, h4, h5⟩ := h
  refine ⟨⟨fun h' => (Bool.false_ne_true (h'.symm.trans h1)).elim, by omega, fun _ => ?_, fun _ h' => ⟨h2, h5 ?_⟩⟩, ?_, ?_⟩
  · unfold limitPos; omega
  · have := hasTail_iff.1 h'; omega
  · unfold view
    by_cases ht : s.hasTail = true
    · have := hasTail_iff.1 ht
      rw [if_pos ht, h5 (by omega), List.append_nil]
    · rw [if_neg ht, h3, List.drop_zero, List.take_of_length_le ?_]
      have := mt hasTail_iff.2 ht
      unfold pos
      omega
  · unfold pos; omega

/-- After `SyncBuffer()`. -/
theorem sync_spec {s : CW} (h : s.Inv) (ho : s.ok = true) :
    s.sync.Idle ∧ s.sync.dest ++ s.sync.tail = s.view ∧ s.sync.startPos = s.pos ∧ s.sync.dest.length = s.pos ∧ s.sync.seen = s.seen := by
  have hr := h.room ho
  have hc := h.cur
  unfold limitPos at hr
  unfold sync
  by_cases ht : s.hasTail = true
  · obtain ⟨t1, t2⟩ := h.tail ho ht
    have hlt := hasTail_iff.1 ht
    rw [if_pos ht]
    have hd : s.dest.length - (s.dest.length - s.startPos) = s.startPos := by omega
    have hl : (s.dest.take s.startPos).length = s.startPos := by rw [List.length_take]; omega
    unfold moveToTail
    rw [hd]
    refine ⟨⟨ho, t1, by show s.cur = 0; omega, ?_, ?_⟩, ?_, ?_, ?_, rfl⟩
    · show s.startPos ≤ (s.dest.take s.startPos).length
      omega
    · show s.startPos < (s.dest.take s.startPos).length → _
      intro h'; omega
    · show s.dest.take s.startPos ++ (s.dest.drop s.startPos ++ s.tail) = s.view
      unfold view
      rw [if_pos ht, t2, List.append_nil, List.take_append_drop]
    · show s.startPos = s.pos
      unfold pos; omega
    · show (s.dest.take s.startPos).length = s.pos
      unfold pos; omega
  · rw [if_neg ht]
    have hlt := mt hasTail_iff.2 ht
    have hd : s.dest.length - s.avail = s.pos := by unfold avail pos; omega
    have hl : (s.dest.take s.pos).length = s.pos := by rw [List.length_take]; unfold pos; omega
    dsimp only
    unfold shrinkTail
    rw [hd]
    refine ⟨⟨ho, rfl, rfl, ?_, ?_⟩, ?_, rfl, hl, rfl⟩
    · show s.pos ≤ (s.dest.take s.pos).length
      omega
    · show s.pos < (s.dest.take s.pos).length → _
      intro h'; omega
    · show s.dest.take s.pos ++ s.tail.drop (min s.cur s.tail.length) = s.view
      unfold view
      rw [if_neg ht]
      by_cases hm : s.cur ≤ s.tail.length
      · rw [Nat.min_eq_left hm]
      · rw [Nat.min_eq_right (by omega), List.drop_length, List.drop_eq_nil_of_le (by omega)]

theorem makeBuf_spec {s : CW} {n rec : Nat} (h : s.Idle) (he : s.dest.length = s.startPos) :
    let t := s.makeBuf G n rec
    t.Inv ∧ t.view = s.dest ++ s.tail ∧ t.pos = s.startPos ∧ t.ok = true ∧ t.seen = s.seen ∧ n ≤ t.avail := by
  intro t
  obtain ⟨k, hk⟩ : ∃ k, k = max n (G.block s.tick s.dest.length n rec) := ⟨_, rfl⟩
  have e : t = { s with dest := s.dest ++ G.fresh s.tick k, lim := k, cur := 0, tick := s.tick + 1 } := by rw [hk]; rfl
  have hl : (s.dest ++ G.fresh s.tick k).length = s.startPos + k := by rw [List.length_append, SCfg.fresh_length, he]
  have hn : ¬ (t.hasTail = true) := by
    rw [hasTail_iff, e]
    show ¬ (s.startPos + k < (s.dest ++ G.fresh s.tick k).length)
    omega
  rw [e] at hn ⊢
  refine ⟨⟨fun h' => (Bool.false_ne_true (h'.symm.trans h.ok)).elim, Nat.zero_le _, fun _ => ?_, fun _ h' => (hn h').elim⟩, ?_, rfl, h.ok, rfl, ?_⟩
  · show s.startPos + k ≤ (s.dest ++ G.fresh s.tick k).length
    omega
  · unfold view
    rw [if_neg hn]
    show (s.dest ++ G.fresh s.tick k).take (s.startPos + 0) ++ s.tail.drop 0 = _
    rw [Nat.add_zero, ← he, List.take_left, List.drop_zero]
  · show n ≤ k - 0
    omega

theorem Inv.view_length {s : CW} (h : s.Inv) (ho : s.ok = true) : s.sizeImpl.1 = some s.view.length ∧ s.pos ≤ s.view.length := by
  have hr := h.room ho
  have hc := h.cur
  unfold limitPos at hr
  unfold sizeImpl view
  rw [if_neg (by rw [ho]; nofun)]
  by_cases ht : s.hasTail = true
  · rw [if_pos ht, if_pos ht]
    have := hasTail_iff.1 ht
    obtain ⟨t1, t2⟩ := h.tail ho ht
    unfold pos
    exact ⟨rfl, by omega⟩
  · rw [if_neg ht, if_neg ht]
    have hlt := mt hasTail_iff.2 ht
    have hl : (s.dest.take s.pos ++ s.tail.drop s.cur).length = max s.pos (s.startPos + s.tail.length) := by
      rw [List.length_append, List.length_take, List.length_drop]
      unfold pos
      omega
    rw [hl]
    exact ⟨rfl, by omega⟩

/-! ## Functions -/

theorem failed_post {s t : CW} {bs : Bytes} (ho : s.ok = true) (hs : t.seen = s.seen) : WritePost (core G) view CW.seen Inv bs s (false, t.failed) := by
  refine ⟨⟨fun _ => ⟨rfl, rfl⟩, Nat.le_refl _, nofun, nofun⟩, nofun, fun _ => rfl, fun h => ?_, ?_⟩
  · exact (Bool.false_ne_true (Eq.trans h.symm ho)).elim
  · show Mixed _ _ _ _ _ t.seen
    rw [hs]; exact Mixed.old _ _ _ _ _

theorem same_post {s : CW} {bs : Bytes} (h : s.Inv) (ho : s.ok = false) : WritePost (core G) view CW.seen Inv bs s (false, s) :=
  ⟨h, nofun, fun _ => ho, fun _ => ⟨ho, rfl⟩, Mixed.old _ _ _ _ _⟩

theorem good_post {s t : CW} {bs : Bytes} (ho : s.ok = true) (h1 : t.Inv) (h2 : t.view = overlay s.view s.pos bs) (h3 : t.pos = s.pos + bs.length)
    (h4 : t.ok = true) (h5 : t.seen = s.seen) : WritePost (core G) view CW.seen Inv bs s (true, t) :=
  ⟨h1, fun _ => ⟨h2, h3, h4.trans ho.symm⟩, nofun, fun h => (Bool.false_ne_true (Eq.trans h.symm ho)).elim,
    by rw [show (true, t).2.seen = s.seen from h5]; exact Mixed.old _ _ _ _ _⟩

theorem put_spec {s : CW} {bs : Bytes} (h : s.Inv) (hb : bs.length ≤ s.avail) :
    (s.put bs).Inv ∧ (s.put bs).view = overlay s.view s.pos bs ∧ (s.put bs).pos = s.pos + bs.length ∧ (s.put bs).avail = s.avail - bs.length ∧
      (s.put bs).ok = s.ok ∧ (s.put bs).seen = s.seen := by
  by_cases hbn : bs = []
  · subst hbn
    have e : s.put [] = s := by
      unfold put
      rw [poke_nil]
      rfl
    rw [e, overlay_nil]
    exact ⟨h, rfl, rfl, rfl, rfl, rfl⟩
  have hbl := List.length_pos_iff.2 hbn
  unfold avail at hb
  have ho : s.ok = true := by
    cases ho : s.ok with
    | true => rfl
    | false =>
      have := h.dead ho
      omega
  have hc := h.cur
  have hr := h.room ho
  unfold limitPos at hr
  have ht : ¬ (s.hasTail = true) := by
    intro ht
    have := (h.tail ho ht).1
    omega
  have hlt := mt hasTail_iff.2 ht
  have e : s.put bs = { s with dest := poke s.dest s.pos bs, cur := s.cur + bs.length } := by
    unfold put
    rw [show s.dest.length - s.lim + s.cur = s.pos by unfold pos; omega]
  have hpl : s.pos + bs.length ≤ s.dest.length := by unfold pos; omega
  have hl := poke_length hpl
  have hn : ¬ ((s.put bs).hasTail = true) := by
    rw [hasTail_iff, e]
    show ¬ (s.startPos + s.lim < (poke s.dest s.pos bs).length)
    omega
  rw [e] at hn ⊢
  refine ⟨⟨fun h' => (Bool.false_ne_true (Eq.trans h'.symm ho)).elim, ?_, fun _ => ?_, fun _ h' => (hn h').elim⟩, ?_, ?_, ?_, rfl, rfl⟩
  · show s.cur + bs.length ≤ s.lim
    omega
  · show s.startPos + s.lim ≤ (poke s.dest s.pos bs).length
    omega
  · unfold view
    rw [if_neg hn, if_neg ht]
    have hl2 : (s.dest.take s.pos).length = s.pos := by rw [List.length_take]; omega
    have h1 := overlay_prefix (s.dest.take s.pos) (s.tail.drop s.cur) bs
    rw [hl2] at h1
    rw [h1]
    show (poke s.dest s.pos bs).take (s.startPos + (s.cur + bs.length)) ++ s.tail.drop (s.cur + bs.length) = _
    rw [List.drop_drop]
    congr 1
    unfold poke
    rw [List.take_append_of_le_length, List.take_of_length_le]
    · rw [List.length_append, hl2]; unfold pos; omega
    · rw [List.length_append, hl2]; unfold pos; omega
  · show s.startPos + (s.cur + bs.length) = s.startPos + s.cur + bs.length
    omega
  · show s.lim - (s.cur + bs.length) = s.lim - s.cur - bs.length
    omega

theorem pushSlow_spec {s : CW} {n rec : Nat} (h : s.Inv) :
    WritePost (core G) view CW.seen Inv [] s (s.pushSlow G n rec) ∧
    ((s.pushSlow G n rec).1 = true → n ≤ (s.pushSlow G n rec).2.avail ∧ s.ok = true) := by
  unfold pushSlow
  by_cases ho : s.ok = false
  · rw [if_pos ho]
    exact ⟨same_post h ho, nofun⟩
  rw [if_neg ho]
  have ho : s.ok = true := (Bool.not_eq_false _).mp ho
  obtain ⟨a1, a2, a3, a4, a5⟩ := sync_spec h ho
  dsimp only
  by_cases hk : kMaxSize - s.sync.startPos < n
  · rw [if_pos hk]
    exact ⟨failed_post ho a5, nofun⟩
  · rw [if_neg hk]
    obtain ⟨b1, b2, b3, b4, b5, b6⟩ := makeBuf_spec (G := G) (n := n) (rec := rec) a1 (a4.trans a3.symm)
    refine ⟨good_post ho b1 ?_ (b3.trans a3) b4 (b5.trans a5), fun _ => ⟨b6, ho⟩⟩
    rw [b2, a2, overlay_nil]

theorem refSlow_spec {s : CW} {bs : Bytes} (h : s.Inv) :
    WritePost (core G) view CW.seen Inv bs s (s.refSlow G bs) ∧ ((s.refSlow G bs).1 = true → s.ok = true) := by
  unfold refSlow
  by_cases ho : s.ok = false
  · rw [if_pos ho]
    exact ⟨same_post h ho, nofun⟩
  rw [if_neg ho]
  have ho : s.ok = true := (Bool.not_eq_false _).mp ho
  obtain ⟨a1, a2, a3, a4, a5⟩ := sync_spec h ho
  dsimp only
  by_cases hk : kMaxSize - s.sync.startPos < bs.length
  · rw [if_pos hk]
    exact ⟨failed_post ho a5, nofun⟩
  · rw [if_neg hk]
    have hl : (s.sync.dest ++ bs).length = s.sync.startPos + bs.length := by rw [List.length_append]; omega
    obtain ⟨u, hu⟩ : ∃ u, u = s.sync.shrinkTail bs.length := ⟨_, rfl⟩
    have hi : ({ u with startPos := u.startPos + bs.length, dest := u.dest ++ bs } : CW).Idle := by
      rw [hu]
      refine ⟨a1.ok, a1.lim, a1.cur, ?_, ?_⟩
      · show s.sync.startPos + bs.length ≤ (s.sync.dest ++ bs).length
        omega
      · show s.sync.startPos + bs.length < (s.sync.dest ++ bs).length → _
        intro h'; omega
    obtain ⟨b1, b2, b3, b4, b5, b6⟩ := makeBuf_spec (G := G) (n := 0) (rec := 0) hi (by rw [hu]; exact hl)
    rw [hu] at b1 b2 b3 b4 b5 b6
    refine ⟨good_post ho b1 ?_ ?_ b4 (b5.trans a5), fun _ => ho⟩
    · rw [b2, ← a2, ← a4, overlay_prefix]
      show s.sync.dest ++ bs ++ s.sync.tail.drop (min bs.length s.sync.tail.length) = _
      congr 1
      by_cases hm : bs.length ≤ s.sync.tail.length
      · rw [Nat.min_eq_left hm]
      · rw [Nat.min_eq_right (by omega), List.drop_length, List.drop_eq_nil_of_le (by omega)]
    · rw [b3, ← a3]
      rfl

theorem appendTail_idle {s : CW} (h : s.Idle) : s.appendTail.Idle := by
  refine ⟨h.ok, h.lim, h.cur, ?_, fun _ => rfl⟩
  show s.startPos ≤ (s.dest ++ s.tail).length
  have := h.le
  rw [List.length_append]; omega

theorem flushImpl_spec {s : CW} (h : s.Inv) :
    WritePost (core G) view CW.seen Inv [] s s.flushImpl ∧
    (s.flushImpl.1 = true → s.ok = true ∧ s.flushImpl.2.seen = s.view ∧ s.flushImpl.2.dest = s.view) := by
  unfold flushImpl
  by_cases ho : s.ok = false
  · rw [if_pos ho]
    exact ⟨same_post h ho, nofun⟩
  rw [if_neg ho]
  have ho : s.ok = true := (Bool.not_eq_false _).mp ho
  by_cases ht : s.hasTail = true
  · rw [if_pos ht]
    have hv : s.view = s.dest := by unfold view; rw [if_pos ht]
    refine ⟨⟨⟨h.dead, h.cur, h.room, h.tail⟩, fun _ => ⟨?_, rfl, rfl⟩, nofun, fun h' => ?_, ?_⟩, fun _ => ⟨ho, hv.symm, hv.symm⟩⟩
    · rw [overlay_nil]; rfl
    · exact (Bool.false_ne_true (Eq.trans h'.symm ho)).elim
    · show Mixed _ _ _ _ _ s.dest
      rw [← hv]; exact Mixed.mid _ _ _ _ _
  · rw [if_neg ht]
    obtain ⟨a1, a2, a3, a4, a5⟩ := sync_spec h ho
    obtain ⟨b1, b2, b3⟩ := (appendTail_idle a1).spec
    have hd : s.sync.appendTail.dest = s.view := a2
    have hv : s.sync.appendTail.view = s.view := by
      rw [b2, hd]
      show s.view ++ [] = s.view
      rw [List.append_nil]
    refine ⟨⟨⟨b1.dead, b1.cur, b1.room, b1.tail⟩, fun _ => ⟨?_, ?_, a1.ok.trans ho.symm⟩, nofun, fun h' => ?_, ?_⟩, fun _ => ⟨ho, hd, hd⟩⟩
    · rw [overlay_nil]; exact hv
    · exact b3.trans a3
    · exact (Bool.false_ne_true (Eq.trans h'.symm ho)).elim
    · show Mixed _ _ _ _ _ s.sync.appendTail.dest
      rw [hd]; exact Mixed.mid _ _ _ _ _

/-- Moving the boundary between the destination and the tail. -/
theorem moveToTail_idle {s : CW} {q : Nat} (hok : s.ok = true) (hlim : s.lim = 0) (hcur : s.cur = 0) (hq : q ≤ s.dest.length) :
    let t : CW := { s.moveToTail (s.dest.length - q) with startPos := q }
    t.Idle ∧ t.dest ++ t.tail = s.dest ++ s.tail := by
  intro t
  have hd : s.dest.length - (s.dest.length - q) = q := by omega
  have hl : (s.dest.take q).length = q := by rw [List.length_take]; omega
  have e : t = { s with tail := s.dest.drop q ++ s.tail, dest := s.dest.take q, startPos := q } := by
    show { s.moveToTail (s.dest.length - q) with startPos := q } = _
    unfold moveToTail
    rw [hd]
  rw [e]
  refine ⟨⟨hok, hlim, hcur, ?_, ?_⟩, ?_⟩
  · show q ≤ (s.dest.take q).length
    omega
  · show q < (s.dest.take q).length → _
    intro h'; omega
  · show s.dest.take q ++ (s.dest.drop q ++ s.tail) = _
    rw [← List.append_assoc, List.take_append_drop]

theorem seekSlow_spec {s : CW} {q : Nat} (h : s.Inv) :
    let r := s.seekSlow q
    r.2.Inv ∧ r.2.view = s.view ∧ r.2.ok = s.ok ∧ r.2.seen = s.seen ∧
    (r.1 = true → s.ok = true ∧ r.2.pos = q ∧ q ≤ s.view.length) ∧
    (r.1 = false → s.ok = false ∨ (r.2.pos = s.view.length ∧ s.view.length < q)) := by
  intro r
  have er : r = s.seekSlow q := rfl
  unfold seekSlow at er
  by_cases ho : s.ok = false
  · rw [if_pos ho] at er
    rw [er]
    exact ⟨h, rfl, rfl, rfl, nofun, fun _ => .inl ho⟩
  rw [if_neg ho] at er
  have ho : s.ok = true := (Bool.not_eq_false _).mp ho
  have hpl := (h.view_length ho).2
  by_cases ht : s.hasTail = true
  · rw [if_pos ht] at er
    obtain ⟨t1, t2⟩ := h.tail ho ht
    have hcur : s.cur = 0 := by have := h.cur; omega
    have hv : s.view = s.dest := by unfold view; rw [if_pos ht]
    by_cases hq : s.dest.length < q
    · rw [if_pos hq] at er
      obtain ⟨b1, b2, b3⟩ := Idle.spec (s := { s with startPos := s.dest.length }) ⟨ho, t1, hcur, Nat.le_refl _, fun h' => (Nat.lt_irrefl _ h').elim⟩
      rw [er, hv]
      refine ⟨b1, b2.trans ?_, rfl, rfl, nofun, fun _ => .inr ⟨b3, hq⟩⟩
      show s.dest ++ s.tail = s.dest
      rw [t2, List.append_nil]
    · rw [if_neg hq] at er
      obtain ⟨b1, b2⟩ := moveToTail_idle (s := s) (q := q) ho t1 hcur (by omega)
      obtain ⟨c1, c2, c3⟩ := b1.spec
      rw [er, hv]
      refine ⟨c1, c2.trans (b2.trans ?_), rfl, rfl, fun _ => ⟨ho, c3, by omega⟩, nofun⟩
      rw [t2, List.append_nil]
  · rw [if_neg ht] at er
    obtain ⟨a1, a2, a3, a4, a5⟩ := sync_spec h ho
    by_cases hq : s.pos < q
    · rw [if_pos hq] at er
      by_cases hs : s.tail = []
      · rw [if_pos hs] at er
        have hp : s.pos = s.view.length := by
          have hr := h.room ho
          have hc := h.cur
          unfold limitPos at hr
          unfold view
          rw [if_neg ht, hs, List.drop_nil, List.append_nil, List.length_take]
          unfold pos
          omega
        rw [er]
        exact ⟨h, rfl, rfl, rfl, nofun, fun _ => .inr ⟨hp, by omega⟩⟩
      · rw [if_neg hs] at er
        dsimp only at er
        have hvl := congrArg List.length a2
        rw [List.length_append] at hvl
        by_cases hz : s.sync.dest.length + s.sync.tail.length < q
        · rw [if_pos hz] at er
          have hd : s.sync.appendTail.dest = s.view := a2
          obtain ⟨b1, b2, b3⟩ := Idle.spec (s := { s.sync.appendTail with startPos := s.sync.appendTail.dest.length }) ⟨a1.ok, a1.lim, a1.cur, Nat.le_refl _,
            fun h' => (Nat.lt_irrefl _ h').elim⟩
          rw [er]
          refine ⟨b1, b2.trans ?_, a1.ok.trans ho.symm, a5, nofun, fun _ => .inr ⟨b3.trans ?_, by omega⟩⟩
          · show s.sync.appendTail.dest ++ [] = s.view
            rw [List.append_nil, hd]
          · show s.sync.appendTail.dest.length = _
            rw [hd]
        · rw [if_neg hz] at er
          have hl : (s.sync.dest ++ s.sync.tail.take (q - s.sync.dest.length)).length = q := by
            rw [List.length_append, List.length_take]; omega
          obtain ⟨b1, b2, b3⟩ := Idle.spec (s := { s.sync.moveFromTail (q - s.sync.dest.length) with startPos := q }) ⟨a1.ok, a1.lim, a1.cur, by
            show q ≤ (s.sync.dest ++ s.sync.tail.take (q - s.sync.dest.length)).length
            omega, by
            show q < (s.sync.dest ++ s.sync.tail.take (q - s.sync.dest.length)).length → _
            intro h'; omega⟩
          rw [er]
          refine ⟨b1, b2.trans ?_, a1.ok.trans ho.symm, a5, fun _ => ⟨ho, b3, by omega⟩, nofun⟩
          show s.sync.dest ++ s.sync.tail.take (q - s.sync.dest.length) ++ s.sync.tail.drop (q - s.sync.dest.length) = _
          rw [List.append_assoc, List.take_append_drop, a2]
    · rw [if_neg hq] at er
      dsimp only at er
      obtain ⟨b1, b2⟩ := moveToTail_idle (s := s.sync) (q := q) a1.ok a1.lim a1.cur (by omega)
      obtain ⟨c1, c2, c3⟩ := b1.spec
      rw [er]
      exact ⟨c1, c2.trans (b2.trans a2), a1.ok.trans ho.symm, a5, fun _ => ⟨ho, c3, by omega⟩, nofun⟩

/-- The end of `TruncateImpl()`. -/
theorem cut_spec {s : CW} {n : Nat} (ho : s.ok = true) (hs : s.tail = []) (hn : n ≤ s.dest.length) :
    (s.cut n).Inv ∧ (s.cut n).view = s.dest.take n ∧ (s.cut n).pos = n := by
  have hd : s.dest.length - (s.dest.length - n) = n := by omega
  have hl : (s.dest.take n).length = n := by rw [List.length_take]; omega
  have e : s.cut n = { s with startPos := n, dest := s.dest.take n, lim := 0, cur := 0 } := by unfold cut; rw [hd]
  rw [e]
  obtain ⟨b1, b2, b3⟩ := Idle.spec (s := { s with startPos := n, dest := s.dest.take n, lim := 0, cur := 0 }) ⟨ho, rfl, rfl, by
    show n ≤ (s.dest.take n).length
    omega, fun _ => hs⟩
  refine ⟨b1, b2.trans ?_, b3⟩
  show s.dest.take n ++ s.tail = _
  rw [hs, List.append_nil]

theorem truncateImpl_spec {s : CW} {n : Nat} (h : s.Inv) :
    let r := s.truncateImpl n
    r.2.Inv ∧ r.2.ok = s.ok ∧ r.2.seen = s.seen ∧
    (r.1 = true → s.ok = true ∧ r.2.pos = n ∧ n ≤ s.view.length ∧ r.2.view = s.view.take n) ∧
    (r.1 = false → s.ok = false ∨ (r.2.view = s.view ∧ r.2.pos = s.view.length ∧ s.view.length < n)) := by
  intro r
  have er : r = s.truncateImpl n := rfl
  unfold truncateImpl at er
  by_cases ho : s.ok = false
  · rw [if_pos ho] at er
    rw [er]
    exact ⟨h, rfl, rfl, nofun, fun _ => .inl ho⟩
  rw [if_neg ho] at er
  have ho : s.ok = true := (Bool.not_eq_false _).mp ho
  have hpl := (h.view_length ho).2
  have hr := h.room ho
  have hc := h.cur
  unfold limitPos at hr
  by_cases ht : s.hasTail = true
  · rw [if_pos ht] at er
    obtain ⟨t1, t2⟩ := h.tail ho ht
    have hcur : s.cur = 0 := by omega
    have hv : s.view = s.dest := by unfold view; rw [if_pos ht]
    by_cases hq : s.dest.length < n
    · rw [if_pos hq] at er
      obtain ⟨b1, b2, b3⟩ := Idle.spec (s := { s with startPos := s.dest.length }) ⟨ho, t1, hcur, Nat.le_refl _, fun h' => (Nat.lt_irrefl _ h').elim⟩
      rw [er, hv]
      refine ⟨b1, rfl, rfl, nofun, fun _ => .inr ⟨b2.trans ?_, b3, hq⟩⟩
      show s.dest ++ s.tail = s.dest
      rw [t2, List.append_nil]
    · rw [if_neg hq] at er
      obtain ⟨b1, b2, b3⟩ := cut_spec (s := s) (n := n) ho t2 (by omega)
      rw [er, hv]
      exact ⟨b1, rfl, rfl, fun _ => ⟨ho, b3, by omega, b2⟩, nofun⟩
  · rw [if_neg ht] at er
    have hlt := mt hasTail_iff.2 ht
    by_cases hq : s.pos < n
    · rw [if_pos hq] at er
      by_cases hs : s.tail = []
      · rw [if_pos hs] at er
        have hp : s.pos = s.view.length := by
          unfold view
          rw [if_neg ht, hs, List.drop_nil, List.append_nil, List.length_take]
          unfold pos
          omega
        rw [er]
        exact ⟨h, rfl, rfl, nofun, fun _ => .inr ⟨rfl, hp, by omega⟩⟩
      · rw [if_neg hs] at er
        dsimp only at er
        obtain ⟨a1, a2, a3, a4, a5⟩ := sync_spec h ho
        have hvl := congrArg List.length a2
        rw [List.length_append] at hvl
        by_cases hz : s.sync.dest.length + s.sync.tail.length < n
        · rw [if_pos hz] at er
          have hd : s.sync.dest ++ s.sync.tail = s.view := a2
          obtain ⟨b1, b2, b3⟩ := Idle.spec (s := ({ s.sync with startPos := s.sync.startPos + s.sync.tail.length } : CW).appendTail) ⟨a1.ok, a1.lim, a1.cur, by
            show s.sync.startPos + s.sync.tail.length ≤ (s.sync.dest ++ s.sync.tail).length
            rw [List.length_append]; omega, fun _ => rfl⟩
          rw [er]
          refine ⟨b1, a1.ok.trans ho.symm, a5, nofun, fun _ => .inr ⟨b2.trans ?_, b3.trans ?_, by omega⟩⟩
          · show s.sync.dest ++ s.sync.tail ++ [] = s.view
            rw [List.append_nil, hd]
          · show s.sync.startPos + s.sync.tail.length = _
            omega
        · rw [if_neg hz] at er
          have hk : s.sync.tail.length - (s.sync.dest.length + s.sync.tail.length - n) = n - s.sync.dest.length := by omega
          rw [hk] at er
          have hl : (s.sync.dest ++ s.sync.tail.take (n - s.sync.dest.length)).length = n := by
            rw [List.length_append, List.length_take]; omega
          obtain ⟨b1, b2, b3⟩ := Idle.spec (s := ({ s.sync with startPos := n, tail := s.sync.tail.take (n - s.sync.dest.length) } : CW).appendTail)
            ⟨a1.ok, a1.lim, a1.cur, by
            show n ≤ (s.sync.dest ++ s.sync.tail.take (n - s.sync.dest.length)).length
            omega, fun _ => rfl⟩
          rw [er]
          refine ⟨b1, a1.ok.trans ho.symm, a5, fun _ => ⟨ho, b3, by omega, b2.trans ?_⟩, nofun⟩
          show s.sync.dest ++ s.sync.tail.take (n - s.sync.dest.length) ++ [] = _
          have e0 : s.sync.dest.take n = s.sync.dest := List.take_of_length_le (by omega)
          rw [List.append_nil, ← a2, List.take_append, e0]
    · rw [if_neg hq] at er
      have hvt : s.view.take n = s.dest.take n := by
        unfold view
        rw [if_neg ht, List.take_append_of_le_length, List.take_take, Nat.min_eq_left (by omega)]
        rw [List.length_take]
        unfold pos at *
        omega
      dsimp only at er
      by_cases hz : s.startPos ≤ n
      · rw [if_pos hz] at er
        unfold pos at hq
        have hn : ¬ (({ s with tail := [], cur := n - s.startPos } : CW).hasTail = true) := by
          rw [hasTail_iff]
          exact hlt
        rw [er]
        refine ⟨⟨fun h' => (Bool.false_ne_true (Eq.trans h'.symm ho)).elim, ?_, fun _ => hr, fun _ h' => (hn h').elim⟩, rfl, rfl, fun _ => ⟨ho, ?_, ?_, ?_⟩, nofun⟩
        · show n - s.startPos ≤ s.lim
          omega
        · show s.startPos + (n - s.startPos) = n
          omega
        · unfold pos at hpl
          omega
        · rw [hvt]
          unfold view
          rw [if_neg hn]
          show s.dest.take (s.startPos + (n - s.startPos)) ++ [].drop _ = _
          rw [List.drop_nil, List.append_nil]
          congr 1
          omega
      · rw [if_neg hz] at er
        obtain ⟨b1, b2, b3⟩ := cut_spec (s := { s with tail := [] }) (n := n) ho rfl (by show n ≤ s.dest.length; omega)
        rw [er]
        exact ⟨b1, rfl, rfl, fun _ => ⟨ho, b3, by omega, b2.trans hvt.symm⟩, nofun⟩

theorem core_lawful : (core G).PushLawful view CW.seen Inv where
  avail s h ho := by
    have := h.dead ho
    show s.lim - s.cur = 0
    omega
  put bs s h hb := put_spec h hb
  pushSlow n rec s h _ := pushSlow_spec h

theorem lawful : (ops G).Lawful view CW.seen Inv where
  base := {
    avail := (core_lawful (G := G)).avail
    put := (core_lawful (G := G)).put
    pushSlow := (core_lawful (G := G)).pushSlow
    writeSlow := fun bs s h hb => (core_lawful (G := G)).defaultWriteSlow h hb (.inl (Nat.lt_succ_self _))
    fillSlow := fun n b s h _ => refSlow_spec (G := G) h
    flushImpl := fun t s h => by
      obtain ⟨a1, a2⟩ := flushImpl_spec (G := G) h
      exact ⟨a1, fun hr => ⟨(a2 hr).1, fun _ => (a2 hr).2.1⟩⟩
    seekSlow := fun q s h hq => by
      obtain ⟨a1, a2, a3, a4, a5, a6⟩ := seekSlow_spec (q := q) h
      refine ⟨a1, fun _ => a2, fun hr => ⟨(a5 hr).1, a3.trans (a5 hr).1, (a5 hr).2.1, Nat.le_trans (a5 hr).2.2 (Nat.le_max_left _ _)⟩, fun hr => ?_,
        fun ho => ⟨a3.trans ho, a4⟩, ?_⟩
      · rcases a6 hr with h' | h'
        · exact .inl (a3.trans h')
        · exact .inr h'
      · show Mixed _ _ _ _ _ (s.seekSlow q).2.seen
        rw [a4]; exact Mixed.old _ _ _ _ _
    sizeImpl := fun s h => by
      have e : (ops G).sizeImpl s = (s.sizeImpl.1, s) := by
        show s.sizeImpl = _
        unfold sizeImpl
        split
        · rfl
        · split <;> rfl
      rw [e]
      refine ⟨h, fun n hn => ?_, fun hn => ?_, fun ho => ⟨ho, rfl⟩, Mixed.old _ _ _ _ _⟩
      · have ho : s.ok = true := by
          cases ho : s.ok with
          | true => rfl
          | false =>
            have hn : s.sizeImpl.1 = some n := hn
            unfold sizeImpl at hn
            rw [if_pos ho] at hn
            exact nomatch hn
        have := (h.view_length ho).1.symm.trans hn
        injection this with this
        exact ⟨this.symm, rfl, rfl, ho, ho⟩
      · cases ho : s.ok with
        | false => exact ho
        | true =>
          have hn : s.sizeImpl.1 = none := hn
          rw [(h.view_length ho).1] at hn
          exact nomatch hn
    truncateImpl := fun n s h _ => by
      obtain ⟨a1, a3, a4, a5, a6⟩ := truncateImpl_spec (n := n) h
      refine ⟨a1, fun hr => ?_, fun hr => ?_, fun ho => ⟨a3.trans ho, a4⟩, ?_⟩
      · obtain ⟨b1, b2, b3, b4⟩ := a5 hr
        exact ⟨Nat.le_trans b3 (Nat.le_max_left _ _), b4.trans (resize_eq_take b3).symm, b2, b1, a3.trans b1⟩
      · rcases a6 hr with h' | h'
        · exact .inl (a3.trans h')
        · exact .inr h'
      · show Mixed _ _ _ _ _ (s.truncateImpl n).2.seen
        rw [a4]; exact Mixed.old _ _ _ _ _
    readModeImpl := fun q s h => by
      obtain ⟨a1, a2⟩ := flushImpl_spec (G := G) h
      exact ⟨a1, fun hr => ⟨(a2 hr).1, (a2 hr).2.1⟩⟩
    randomAccess := fun s h => ⟨h, rfl, fun _ => ⟨rfl, rfl⟩, fun _ => ⟨rfl, rfl⟩, fun h' => h'⟩
    setHint := fun n s h => ⟨h, fun _ => ⟨rfl, rfl⟩, fun ho => ho, rfl⟩ }
  refSlow fs s h _ := (refSlow_spec (G := G) h).1
  random s _ := rfl

/-- `ChainWriter` fails only when a position would not fit in 64 bits. -/
theorem total : (ops G).Total kMaxSize Inv := by
  have hp : ∀ n rec s, Inv s → s.avail < n → s.ok = true → s.pos + n ≤ kMaxSize → (s.pushSlow G n rec).1 = true := by
    intro n rec s h hn ho hk
    unfold pushSlow
    rw [if_neg (by rw [ho]; nofun)]
    dsimp only
    rw [(sync_spec h ho).2.2.1, if_neg (by omega)]
  have hr : ∀ bs s, Inv s → s.ok = true → s.pos + bs.length ≤ kMaxSize → (s.refSlow G bs).1 = true := by
    intro bs s h ho hk
    unfold refSlow
    rw [if_neg (by rw [ho]; nofun)]
    dsimp only
    rw [(sync_spec h ho).2.2.1, if_neg (by omega)]
  have hf : ∀ s : CW, s.ok = true → s.flushImpl.1 = true := by
    intro s ho
    unfold flushImpl
    rw [if_neg (by rw [ho]; nofun)]
    split <;> rfl
  exact {
    pushSlow := hp
    writeSlow := fun bs s h hb ho hk => (core_lawful (G := G)).defaultWriteSlow_true hp h hb ho hk (.inl (Nat.lt_succ_self _))
    fillSlow := fun n b s h _ ho hk => hr _ s h ho (by rw [List.length_replicate]; exact hk)
    refSlow := fun fs => hr fs.flatten
    flushImpl := fun _ s _ ho => hf s ho
    readModeImpl := fun _ s _ ho => hf s ho
    seekSlow := fun q s h _ ho => (seekSlow_spec (q := q) h).2.2.1.trans ho
    sizeImpl := fun s h ho => by
      show s.sizeImpl.2.ok = true
      unfold sizeImpl
      split
      · exact ho
      · split <;> exact ho
    truncateImpl := fun n s h ho => (truncateImpl_spec (n := n) h).2.1.trans ho
    randomAccess := fun s _ ho => ho
    setHint := fun _ s _ ho => ho }

theorem init_spec (d : Bytes) (append : Bool) :
    (init d append).Inv ∧ (init d append).view = (if append then d else []) ∧ (init d append).pos = (if append then d.length else 0) ∧
      (init d append).ok = true := by
  cases append with
  | true =>
    obtain ⟨b1, b2, b3⟩ := Idle.spec (s := init d true) ⟨rfl, rfl, rfl, Nat.le_refl _, fun _ => rfl⟩
    exact ⟨b1, b2.trans (List.append_nil _), b3, rfl⟩
  | false =>
    obtain ⟨b1, b2, b3⟩ := Idle.spec (s := init d false) ⟨rfl, rfl, rfl, Nat.le_refl _, fun _ => rfl⟩
    exact ⟨b1, b2, b3, rfl⟩

end CW
end Riegeli.Wtr

import Verif.CordWriter
import Verif.ChainWriterProofs
/-!
# Proofs about `CordWriter`

`CdW.lawful`: `CordWriter` is a class meeting the contract of `Writer`.
-/
namespace Riegeli.Wtr

theorem overlay_length_le_cord {c bs : Bytes} {p m : Nat} (h1 : c.length ≤ m) (h2 : p + bs.length ≤ m) : (overlay c p bs).length ≤ m := by
  unfold overlay
  split
  · exact h1
  · simp only [List.length_append, List.length_take, List.length_drop, List.length_replicate]
    omega

namespace CdW
variable {G : SCfg} {minBlock : Nat}

/-- What the writer presents. -/
def view (s : CdW) : Bytes := if s.hasTail then s.dest else s.dest ++ s.buf.take s.cur ++ s.tail.drop s.cur

/-- The invariant (`cord_writer.h:234-242`). -/
structure Inv (s : CdW) : Prop where
  dead : s.ok = false → s.buf = [] ∧ s.cur = 0
  cur : s.cur ≤ s.buf.length
  room : s.ok = true → s.startPos ≤ s.dest.length
  tail : s.ok = true → s.hasTail = true → s.buf = [] ∧ s.tail = []
  fit : s.ok = true → s.startPos + s.buf.length ≤ kMaxSize
  size : s.ok = true → s.view.length ≤ kMaxSize

theorem hasTail_iff {s : CdW} : s.hasTail = true ↔ s.startPos < s.dest.length := by
  unfold hasTail
  exact decide_eq_true_iff

/-- There is no buffer, and the tail is separated or appended. -/
structure Idle (s : CdW) : Prop where
  ok : s.ok = true
  buf : s.buf = []
  cur : s.cur = 0
  le : s.startPos ≤ s.dest.length
  tail : s.startPos < s.dest.length → s.tail = []
  size : (s.dest ++ s.tail).length ≤ kMaxSize

theorem Idle.spec {s : CdW} (h : s.Idle) : s.Inv ∧ s.view = s.dest ++ s.tail ∧ s.pos = s.startPos := by
  obtain ⟨h1, h2, h3, h4, h5, h6⟩ := h
  have hv : s.view = s.dest ++ s.tail := by
    unfold view
    by_cases ht : s.hasTail = true
    · have := hasTail_iff.1 ht
      rw [if_pos ht, h5 (by omega), List.append_nil]
    · rw [if_neg ht, h3, List.drop_zero, List.take_zero, List.append_nil]
  refine ⟨⟨fun h' => (Bool.false_ne_true (h'.symm.trans h1)).elim, by omega, fun _ => h4, fun _ h' => ⟨h2, h5 (hasTail_iff.1 h')⟩, fun _ => ?_, fun _ => ?_⟩, hv, ?_⟩
  · rw [h2]
    rw [List.length_append] at h6
    simp only [List.length_nil]
    omega
  · rw [hv]; exact h6
  · unfold pos; omega

/-- After `SyncBuffer()`. -/
theorem sync_spec {s : CdW} (h : s.Inv) (ho : s.ok = true) :
    s.sync.Idle ∧ s.sync.dest ++ s.sync.tail = s.view ∧ s.sync.startPos = s.pos ∧ s.sync.dest.length = s.pos ∧ s.sync.seen = s.seen := by
  have hr := h.room ho
  have hc := h.cur
  have hz := h.size ho
  unfold sync
  by_cases ht : s.hasTail = true
  · obtain ⟨t1, t2⟩ := h.tail ho ht
    have hlt := hasTail_iff.1 ht
    rw [t1] at hc
    have hc : s.cur = 0 := Nat.le_zero.1 hc
    rw [if_pos ht]
    have hd : s.dest.length - (s.dest.length - s.startPos) = s.startPos := by omega
    have hl : (s.dest.take s.startPos).length = s.startPos := by rw [List.length_take]; omega
    have hv : s.dest.take s.startPos ++ (s.dest.drop s.startPos ++ s.tail) = s.view := by
      unfold view
      rw [if_pos ht, t2, List.append_nil, List.take_append_drop]
    unfold extractTail moveToTail
    rw [hd]
    refine ⟨⟨ho, t1, hc, ?_, ?_, ?_⟩, hv, ?_, ?_, rfl⟩
    · show s.startPos ≤ (s.dest.take s.startPos).length
      omega
    · show s.startPos < (s.dest.take s.startPos).length → _
      intro h'; omega
    · show (s.dest.take s.startPos ++ (s.dest.drop s.startPos ++ s.tail)).length ≤ _
      rw [hv]; exact hz
    · show s.startPos = s.pos
      unfold pos; omega
    · show (s.dest.take s.startPos).length = s.pos
      unfold pos; omega
  · rw [if_neg ht]
    have hlt := mt hasTail_iff.2 ht
    have hl : (s.dest ++ s.buf.take s.cur).length = s.pos := by rw [List.length_append, List.length_take]; unfold pos; omega
    have hv : s.dest ++ s.buf.take s.cur ++ s.tail.drop (min s.cur s.tail.length) = s.view := by
      unfold view
      rw [if_neg ht]
      by_cases hm : s.cur ≤ s.tail.length
      · rw [Nat.min_eq_left hm]
      · rw [Nat.min_eq_right (by omega), List.drop_length, List.drop_eq_nil_of_le (by omega)]
    dsimp only
    unfold shrinkTail
    refine ⟨⟨ho, rfl, rfl, ?_, ?_, ?_⟩, hv, rfl, hl, rfl⟩
    · show s.pos ≤ (s.dest ++ s.buf.take s.cur).length
      omega
    · show s.pos < (s.dest ++ s.buf.take s.cur).length → _
      intro h'; omega
    · show (s.dest ++ s.buf.take s.cur ++ s.tail.drop (min s.cur s.tail.length)).length ≤ _
      rw [hv]; exact hz

/-- The state after `SyncBuffer()` as a state of a writer. -/
theorem sync_same {s : CdW} (h : s.Inv) (ho : s.ok = true) :
    s.sync.Inv ∧ s.sync.view = s.view ∧ s.sync.pos = s.pos ∧ s.sync.hasTail = false ∧ s.sync.ok = true ∧ s.sync.seen = s.seen := by
  obtain ⟨a1, a2, a3, a4, a5⟩ := sync_spec h ho
  obtain ⟨b1, b2, b3⟩ := a1.spec
  refine ⟨b1, b2.trans a2, b3.trans a3, (Bool.not_eq_true _).mp (mt hasTail_iff.1 ?_), a1.ok, a5⟩
  omega

theorem makeBuf_spec {s : CdW} {n rec : Nat} (h : s.Inv) (ho : s.ok = true) (ht : s.hasTail = false) (hk : s.pos + n ≤ kMaxSize) :
    let t := s.makeBuf G n rec
    t.Inv ∧ t.view = s.view ∧ t.pos = s.pos ∧ t.ok = true ∧ t.seen = s.seen ∧ n ≤ t.avail := by
  intro t
  have ht' : ¬ (s.hasTail = true) := by rw [ht]; nofun
  have hlt := mt hasTail_iff.2 ht'
  have hr := h.room ho
  have hc := h.cur
  obtain ⟨k, hkk⟩ : ∃ k, k = min (max (s.cur + n) (G.block s.tick s.dest.length (s.cur + n) (s.cur + rec))) (kMaxSize - s.dest.length) := ⟨_, rfl⟩
  have e : t = { s with buf := s.buf.take s.cur ++ G.fresh s.tick (k - s.cur), tick := s.tick + 1 } := by rw [hkk]; rfl
  unfold pos at hk
  have hk1 : s.cur + n ≤ k := by omega
  have hk2 : s.dest.length + k ≤ kMaxSize := by omega
  have hl0 : (s.buf.take s.cur).length = s.cur := by rw [List.length_take]; omega
  have hl : (s.buf.take s.cur ++ G.fresh s.tick (k - s.cur)).length = k := by rw [List.length_append, SCfg.fresh_length, hl0]; omega
  have hv : t.view = s.view := by
    unfold view
    rw [e]
    have e2 : ({ s with buf := s.buf.take s.cur ++ G.fresh s.tick (k - s.cur), tick := s.tick + 1 } : CdW).hasTail = s.hasTail := rfl
    rw [e2, if_neg ht', if_neg ht']
    show s.dest ++ (s.buf.take s.cur ++ G.fresh s.tick (k - s.cur)).take s.cur ++ s.tail.drop s.cur = _
    rw [List.take_append_of_le_length (by omega), List.take_take, Nat.min_self]
  have hz := h.size ho
  rw [← hv] at hz
  refine ⟨⟨fun h' => ?_, ?_, fun _ => ?_, fun _ h' => ?_, fun _ => ?_, fun _ => hz⟩, hv, ?_, ?_, ?_, ?_⟩
  · rw [e] at h'
    exact (Bool.false_ne_true (h'.symm.trans ho)).elim
  · rw [e]
    show s.cur ≤ (s.buf.take s.cur ++ G.fresh s.tick (k - s.cur)).length
    omega
  · rw [e]; exact hr
  · rw [e] at h'; exact (ht' h').elim
  · rw [e]
    show s.startPos + (s.buf.take s.cur ++ G.fresh s.tick (k - s.cur)).length ≤ kMaxSize
    omega
  · rw [e]; rfl
  · rw [e]; exact ho
  · rw [e]
  · rw [e]
    show n ≤ (s.buf.take s.cur ++ G.fresh s.tick (k - s.cur)).length - s.cur
    omega

theorem Inv.view_length {s : CdW} (h : s.Inv) (ho : s.ok = true) : s.sizeImpl.1 = some s.view.length ∧ s.pos ≤ s.view.length := by
  have hr := h.room ho
  have hc := h.cur
  unfold sizeImpl view
  rw [if_neg (by rw [ho]; nofun)]
  by_cases ht : s.hasTail = true
  · rw [if_pos ht, if_pos ht]
    have := hasTail_iff.1 ht
    obtain ⟨t1, t2⟩ := h.tail ho ht
    rw [t1] at hc
    have hc : s.cur = 0 := Nat.le_zero.1 hc
    unfold pos
    exact ⟨rfl, by omega⟩
  · rw [if_neg ht, if_neg ht]
    have hlt := mt hasTail_iff.2 ht
    have hl : (s.dest ++ s.buf.take s.cur ++ s.tail.drop s.cur).length = max s.pos (s.startPos + s.tail.length) := by
      rw [List.length_append, List.length_append, List.length_take, List.length_drop]
      unfold pos
      omega
    rw [hl]
    exact ⟨rfl, by omega⟩

/-! ## Functions -/

theorem failed_post {s t : CdW} {bs : Bytes} (ho : s.ok = true) (hs : t.seen = s.seen) :
    WritePost (core G minBlock) view CdW.seen Inv bs s (false, t.failed) := by
  refine ⟨⟨fun _ => ⟨rfl, rfl⟩, Nat.le_refl _, nofun, nofun, nofun, nofun⟩, nofun, fun _ => rfl, fun h => ?_, ?_⟩
  · exact (Bool.false_ne_true (Eq.trans h.symm ho)).elim
  · show Mixed _ _ _ _ _ t.seen
    rw [hs]; exact Mixed.old _ _ _ _ _

theorem same_post {s : CdW} {bs : Bytes} (h : s.Inv) (ho : s.ok = false) : WritePost (core G minBlock) view CdW.seen Inv bs s (false, s) :=
  ⟨h, nofun, fun _ => ho, fun _ => ⟨ho, rfl⟩, Mixed.old _ _ _ _ _⟩

theorem good_post {s t : CdW} {bs : Bytes} (ho : s.ok = true) (h1 : t.Inv) (h2 : t.view = overlay s.view s.pos bs) (h3 : t.pos = s.pos + bs.length)
    (h4 : t.ok = true) (h5 : t.seen = s.seen) : WritePost (core G minBlock) view CdW.seen Inv bs s (true, t) :=
  ⟨h1, fun _ => ⟨h2, h3, h4.trans ho.symm⟩, nofun, fun h => (Bool.false_ne_true (Eq.trans h.symm ho)).elim,
    by rw [show (true, t).2.seen = s.seen from h5]; exact Mixed.old _ _ _ _ _⟩

theorem put_spec {s : CdW} {bs : Bytes} (h : s.Inv) (hb : bs.length ≤ s.avail) :
    (s.put bs).Inv ∧ (s.put bs).view = overlay s.view s.pos bs ∧ (s.put bs).pos = s.pos + bs.length ∧ (s.put bs).avail = s.avail - bs.length ∧
      (s.put bs).ok = s.ok ∧ (s.put bs).seen = s.seen := by
  by_cases hbn : bs = []
  · subst hbn
    have e : s.put [] = s := by
      unfold put
      rw [poke_nil]
      rfl
    rw [e, overlay_nil]
    exact ⟨h, rfl, rfl, rfl, rfl, rfl⟩
  have hbl := List.length_pos_iff.2 hbn
  unfold avail at hb
  have ho : s.ok = true := by
    cases ho : s.ok with
    | true => rfl
    | false =>
      have := h.dead ho
      rw [this.1] at hb
      simp only [List.length_nil] at hb
      omega
  have hc := h.cur
  have hr := h.room ho
  have hf := h.fit ho
  have ht : ¬ (s.hasTail = true) := by
    intro ht
    rw [(h.tail ho ht).1] at hb
    simp only [List.length_nil] at hb
    omega
  have hlt := mt hasTail_iff.2 ht
  have hpl : s.cur + bs.length ≤ s.buf.length := by omega
  have hl := poke_length hpl
  have hn : ¬ ((s.put bs).hasTail = true) := ht
  have hv : (s.put bs).view = overlay s.view s.pos bs := by
    have hl2 : (s.dest ++ s.buf.take s.cur).length = s.pos := by rw [List.length_append, List.length_take]; unfold pos; omega
    have h1 := overlay_prefix (s.dest ++ s.buf.take s.cur) (s.tail.drop s.cur) bs
    rw [hl2] at h1
    unfold view
    rw [if_neg hn, if_neg ht, h1]
    show s.dest ++ (poke s.buf s.cur bs).take (s.cur + bs.length) ++ s.tail.drop (s.cur + bs.length) = _
    rw [List.drop_drop, List.append_assoc s.dest (s.buf.take s.cur) bs]
    congr 2
    unfold poke
    rw [List.take_append_of_le_length, List.take_of_length_le]
    · rw [List.length_append, List.length_take]; omega
    · rw [List.length_append, List.length_take]; omega
  refine ⟨⟨fun h' => (Bool.false_ne_true (Eq.trans h'.symm ho)).elim, ?_, fun _ => hr, fun _ h' => (hn h').elim, fun _ => ?_, fun _ => ?_⟩, hv, ?_, ?_, rfl, rfl⟩
  · show s.cur + bs.length ≤ (poke s.buf s.cur bs).length
    omega
  · show s.startPos + (poke s.buf s.cur bs).length ≤ kMaxSize
    omega
  · rw [hv]
    exact overlay_length_le_cord (h.size ho) (by unfold pos; omega)
  · show s.startPos + (s.cur + bs.length) = s.startPos + s.cur + bs.length
    omega
  · show (poke s.buf s.cur bs).length - (s.cur + bs.length) = s.buf.length - s.cur - bs.length
    omega

theorem pushSlow_spec {s : CdW} {n rec : Nat} (h : s.Inv) :
    WritePost (core G minBlock) view CdW.seen Inv [] s (s.pushSlow G minBlock n rec) ∧
    ((s.pushSlow G minBlock n rec).1 = true → n ≤ (s.pushSlow G minBlock n rec).2.avail ∧ s.ok = true) ∧
    (s.ok = true → s.pos + n ≤ kMaxSize → (s.pushSlow G minBlock n rec).1 = true) := by
  unfold pushSlow
  by_cases ho : s.ok = false
  · rw [if_pos ho]
    exact ⟨same_post h ho, nofun, fun h' => (Bool.false_ne_true (ho.symm.trans h')).elim⟩
  rw [if_neg ho]
  have ho : s.ok = true := (Bool.not_eq_false _).mp ho
  dsimp only
  by_cases hg : s.hasTail = false ∧ s.pos = 0 ∧ max (max n rec) (s.hint.getD 0) ≤ G.grow s.tick 0 0 ∧ G.grow s.tick 0 0 ≤ kMaxSize
  · rw [if_pos hg]
    obtain ⟨g1, g2, g3, g4⟩ := hg
    generalize G.grow s.tick 0 0 = k at *
    have hn : ¬ (s.hasTail = true) := by rw [g1]; nofun
    have hp : s.startPos = 0 ∧ s.cur = 0 := by unfold pos at g2; omega
    have hl : (G.fresh s.tick k).length = k := SCfg.fresh_length _ _ _
    have hv : ({ s with buf := G.fresh s.tick k, cur := 0, tick := s.tick + 1 } : CdW).view = s.view := by
      unfold view
      rw [if_neg hn, if_neg (by exact hn), hp.2]
      rfl
    refine ⟨good_post ho ⟨fun h' => (Bool.false_ne_true (Eq.trans h'.symm ho)).elim, Nat.zero_le _, fun _ => h.room ho, fun _ h' => (hn h').elim, fun _ => ?_, fun _ => ?_⟩
      ?_ ?_ ho rfl, fun _ => ⟨?_, ho⟩, fun _ _ => rfl⟩
    · show s.startPos + (G.fresh s.tick k).length ≤ kMaxSize
      omega
    · rw [hv]; exact h.size ho
    · rw [hv, overlay_nil]
    · show s.startPos + 0 = s.startPos + s.cur + 0
      omega
    · show n ≤ (G.fresh s.tick k).length - 0
      omega
  · rw [if_neg hg]
    clear hg
    obtain ⟨t, et, t1, t2, t3, t4, t5, t6⟩ : ∃ t, t = (if s.hasTail then s.extractTail else s) ∧ t.Inv ∧ t.view = s.view ∧ t.pos = s.pos ∧ t.hasTail = false ∧
        t.ok = true ∧ t.seen = s.seen := by
      refine ⟨_, rfl, ?_⟩
      by_cases ht : s.hasTail = true
      · rw [if_pos ht]
        have := sync_same h ho
        unfold sync at this
        rwa [if_pos ht] at this
      · rw [if_neg ht]
        exact ⟨h, rfl, rfl, (Bool.not_eq_true _).mp ht, ho, rfl⟩
    rw [← et]
    by_cases hk : kMaxSize - t.pos < n
    · rw [if_pos hk]
      exact ⟨failed_post ho t6, nofun, fun _ hk' => by omega⟩
    · rw [if_neg hk]
      obtain ⟨u, eu, u1, u2, u3, u4, u5, u6⟩ : ∃ u, u = (if minBlock ≤ t.cur then t.sync else t) ∧ u.Inv ∧ u.view = t.view ∧ u.pos = t.pos ∧ u.hasTail = false ∧
          u.ok = true ∧ u.seen = t.seen := by
        refine ⟨_, rfl, ?_⟩
        split
        · exact sync_same t1 t5
        · exact ⟨t1, rfl, rfl, t4, t5, rfl⟩
      rw [← eu]
      have hpk : t.pos ≤ kMaxSize := by
        have h1 := t1.fit t5
        have h2 := t1.cur
        unfold pos
        omega
      obtain ⟨b1, b2, b3, b4, b5, b6⟩ := makeBuf_spec (G := G) (n := n) (rec := rec) u1 u5 u4 (by omega)
      refine ⟨good_post ho b1 ?_ ?_ b4 ?_, fun _ => ⟨b6, ho⟩, fun _ _ => rfl⟩
      · rw [b2, u2, t2, overlay_nil]
      · rw [b3, u3, t3]; rfl
      · rw [b5, u6, t6]

theorem refCore_spec {s : CdW} {bs : Bytes} (h : s.Inv) :
    WritePost (core G minBlock) view CdW.seen Inv bs s (s.refCore bs) ∧ ((s.refCore bs).1 = true → s.ok = true) ∧
    (s.ok = true → s.pos + bs.length ≤ kMaxSize → (s.refCore bs).1 = true) := by
  unfold refCore
  by_cases ho : s.ok = false
  · rw [if_pos ho]
    exact ⟨same_post h ho, nofun, fun h' => (Bool.false_ne_true (ho.symm.trans h')).elim⟩
  rw [if_neg ho]
  have ho : s.ok = true := (Bool.not_eq_false _).mp ho
  obtain ⟨a1, a2, a3, a4, a5⟩ := sync_spec h ho
  dsimp only
  by_cases hk : kMaxSize - s.sync.startPos < bs.length
  · rw [if_pos hk]
    exact ⟨failed_post ho a5, nofun, fun _ hk' => by omega⟩
  · rw [if_neg hk]
    have hl : (s.sync.dest ++ bs).length = s.sync.startPos + bs.length := by rw [List.length_append]; omega
    have hv : s.sync.dest ++ bs ++ s.sync.tail.drop (min bs.length s.sync.tail.length) = overlay s.view s.pos bs := by
      rw [← a2, ← a4, overlay_prefix]
      congr 1
      by_cases hm : bs.length ≤ s.sync.tail.length
      · rw [Nat.min_eq_left hm]
      · rw [Nat.min_eq_right (by omega), List.drop_length, List.drop_eq_nil_of_le (by omega)]
    have hpk : s.pos ≤ kMaxSize := by
      have h1 := h.fit ho
      have h2 := h.cur
      unfold pos
      omega
    obtain ⟨u, hu⟩ : ∃ u, u = s.sync.shrinkTail bs.length := ⟨_, rfl⟩
    have hi : ({ u with startPos := u.startPos + bs.length, dest := u.dest ++ bs } : CdW).Idle := by
      rw [hu]
      refine ⟨a1.ok, a1.buf, a1.cur, ?_, ?_, ?_⟩
      · show s.sync.startPos + bs.length ≤ (s.sync.dest ++ bs).length
        omega
      · show s.sync.startPos + bs.length < (s.sync.dest ++ bs).length → _
        intro h'; omega
      · show (s.sync.dest ++ bs ++ s.sync.tail.drop (min bs.length s.sync.tail.length)).length ≤ kMaxSize
        rw [hv]
        exact overlay_length_le_cord (h.size ho) (by omega)
    obtain ⟨b1, b2, b3⟩ := hi.spec
    rw [hu] at b1 b2 b3
    refine ⟨good_post ho b1 (b2.trans hv) (b3.trans ?_) a1.ok a5, fun _ => ho, fun _ _ => rfl⟩
    rw [← a3]
    rfl

theorem appendTail_idle {s : CdW} (h : s.Idle) : s.appendTail.Idle := by
  refine ⟨h.ok, h.buf, h.cur, ?_, fun _ => rfl, ?_⟩
  · show s.startPos ≤ (s.dest ++ s.tail).length
    have := h.le
    rw [List.length_append]; omega
  · show (s.dest ++ s.tail ++ []).length ≤ kMaxSize
    rw [List.append_nil]; exact h.size

theorem flushImpl_spec {s : CdW} (h : s.Inv) :
    WritePost (core G minBlock) view CdW.seen Inv [] s s.flushImpl ∧
    (s.flushImpl.1 = true → s.ok = true ∧ s.flushImpl.2.seen = s.view ∧ s.flushImpl.2.dest = s.view) ∧ (s.ok = true → s.flushImpl.1 = true) := by
  unfold flushImpl
  by_cases ho : s.ok = false
  · rw [if_pos ho]
    exact ⟨same_post h ho, nofun, fun h' => (Bool.false_ne_true (ho.symm.trans h')).elim⟩
  rw [if_neg ho]
  have ho : s.ok = true := (Bool.not_eq_false _).mp ho
  by_cases ht : s.hasTail = true
  · rw [if_pos ht]
    have hv : s.view = s.dest := by unfold view; rw [if_pos ht]
    refine ⟨⟨⟨h.dead, h.cur, h.room, h.tail, h.fit, h.size⟩, fun _ => ⟨?_, rfl, rfl⟩, nofun, fun h' => ?_, ?_⟩, fun _ => ⟨ho, hv.symm, hv.symm⟩, fun _ => rfl⟩
    · rw [overlay_nil]; rfl
    · exact (Bool.false_ne_true (Eq.trans h'.symm ho)).elim
    · show Mixed _ _ _ _ _ s.dest
      rw [← hv]; exact Mixed.mid _ _ _ _ _
  · rw [if_neg ht]
    obtain ⟨a1, a2, a3, a4, a5⟩ := sync_spec h ho
    obtain ⟨b1, b2, b3⟩ := (appendTail_idle a1).spec
    have hd : s.sync.appendTail.dest = s.view := a2
    have hv : s.sync.appendTail.view = s.view := by
      rw [b2, hd]
      show s.view ++ [] = s.view
      rw [List.append_nil]
    refine ⟨⟨⟨b1.dead, b1.cur, b1.room, b1.tail, b1.fit, b1.size⟩, fun _ => ⟨?_, ?_, a1.ok.trans ho.symm⟩, nofun, fun h' => ?_, ?_⟩, fun _ => ⟨ho, hd, hd⟩, fun _ => rfl⟩
    · rw [overlay_nil]; exact hv
    · exact b3.trans a3
    · exact (Bool.false_ne_true (Eq.trans h'.symm ho)).elim
    · show Mixed _ _ _ _ _ s.sync.appendTail.dest
      rw [hd]; exact Mixed.mid _ _ _ _ _

/-- Moving the boundary between the destination and the tail. -/
theorem moveToTail_idle {s : CdW} {q : Nat} (hok : s.ok = true) (hbuf : s.buf = []) (hcur : s.cur = 0) (hq : q ≤ s.dest.length) (hz : (s.dest ++ s.tail).length ≤ kMaxSize) :
    let t : CdW := { s.moveToTail (s.dest.length - q) with startPos := q }
    t.Idle ∧ t.dest ++ t.tail = s.dest ++ s.tail := by
  intro t
  have hd : s.dest.length - (s.dest.length - q) = q := by omega
  have hl : (s.dest.take q).length = q := by rw [List.length_take]; omega
  have e : t = { s with tail := s.dest.drop q ++ s.tail, dest := s.dest.take q, startPos := q } := by
    show { s.moveToTail (s.dest.length - q) with startPos := q } = _
    unfold moveToTail
    rw [hd]
  have hv : s.dest.take q ++ (s.dest.drop q ++ s.tail) = s.dest ++ s.tail := by rw [← List.append_assoc, List.take_append_drop]
  rw [e]
  refine ⟨⟨hok, hbuf, hcur, ?_, ?_, ?_⟩, hv⟩
  · show q ≤ (s.dest.take q).length
    omega
  · show q < (s.dest.take q).length → _
    intro h'; omega
  · show (s.dest.take q ++ (s.dest.drop q ++ s.tail)).length ≤ _
    rw [hv]; exact hz

theorem seekSlow_spec {s : CdW} {q : Nat} (h : s.Inv) :
    let r := s.seekSlow q
    r.2.Inv ∧ r.2.view = s.view ∧ r.2.ok = s.ok ∧ r.2.seen = s.seen ∧
    (r.1 = true → s.ok = true ∧ r.2.pos = q ∧ q ≤ s.view.length) ∧
    (r.1 = false → s.ok = false ∨ (r.2.pos = s.view.length ∧ s.view.length < q)) := by
  intro r
  have er : r = s.seekSlow q := rfl
  unfold seekSlow at er
  by_cases ho : s.ok = false
  · rw [if_pos ho] at er
    rw [er]
    exact ⟨h, rfl, rfl, rfl, nofun, fun _ => .inl ho⟩
  rw [if_neg ho] at er
  have ho : s.ok = true := (Bool.not_eq_false _).mp ho
  have hpl := (h.view_length ho).2
  by_cases ht : s.hasTail = true
  · rw [if_pos ht] at er
    obtain ⟨t1, t2⟩ := h.tail ho ht
    have hcur : s.cur = 0 := by have := h.cur; rw [t1] at this; exact Nat.le_zero.1 this
    have hv : s.view = s.dest := by unfold view; rw [if_pos ht]
    have hz := h.size ho
    rw [hv] at hz
    have hz2 : (s.dest ++ s.tail).length ≤ kMaxSize := by rw [t2, List.append_nil]; exact hz
    by_cases hq : s.dest.length < q
    · rw [if_pos hq] at er
      obtain ⟨b1, b2, b3⟩ := Idle.spec (s := { s with startPos := s.dest.length }) ⟨ho, t1, hcur, Nat.le_refl _, fun h' => (Nat.lt_irrefl _ h').elim, hz2⟩
      rw [er, hv]
      refine ⟨b1, b2.trans ?_, rfl, rfl, nofun, fun _ => .inr ⟨b3, hq⟩⟩
      show s.dest ++ s.tail = s.dest
      rw [t2, List.append_nil]
    · rw [if_neg hq] at er
      obtain ⟨b1, b2⟩ := moveToTail_idle (s := s) (q := q) ho t1 hcur (by omega) hz2
      obtain ⟨c1, c2, c3⟩ := b1.spec
      rw [er, hv]
      refine ⟨c1, c2.trans (b2.trans ?_), rfl, rfl, fun _ => ⟨ho, c3, by omega⟩, nofun⟩
      rw [t2, List.append_nil]
  · rw [if_neg ht] at er
    obtain ⟨a1, a2, a3, a4, a5⟩ := sync_spec h ho
    by_cases hq : s.pos < q
    · rw [if_pos hq] at er
      by_cases hs : s.tail = []
      · rw [if_pos hs] at er
        have hp : s.pos = s.view.length := by
          have hr := h.room ho
          have hc := h.cur
          have hlt := mt hasTail_iff.2 ht
          unfold view
          rw [if_neg ht, hs, List.drop_nil, List.append_nil, List.length_append, List.length_take]
          unfold pos
          omega
        rw [er]
        exact ⟨h, rfl, rfl, rfl, nofun, fun _ => .inr ⟨hp, by omega⟩⟩
      · rw [if_neg hs] at er
        dsimp only at er
        have hvl := congrArg List.length a2
        rw [List.length_append] at hvl
        by_cases hz : s.sync.dest.length + s.sync.tail.length < q
        · rw [if_pos hz] at er
          have hd : s.sync.appendTail.dest = s.view := a2
          obtain ⟨b1, b2, b3⟩ := Idle.spec (s := { s.sync.appendTail with startPos := s.sync.appendTail.dest.length }) ⟨a1.ok, a1.buf, a1.cur, Nat.le_refl _,
            fun h' => (Nat.lt_irrefl _ h').elim, (appendTail_idle a1).size⟩
          rw [er]
          refine ⟨b1, b2.trans ?_, a1.ok.trans ho.symm, a5, nofun, fun _ => .inr ⟨b3.trans ?_, by omega⟩⟩
          · show s.sync.appendTail.dest ++ [] = s.view
            rw [List.append_nil, hd]
          · show s.sync.appendTail.dest.length = _
            rw [hd]
        · rw [if_neg hz] at er
          have hl : (s.sync.dest ++ s.sync.tail.take (q - s.sync.dest.length)).length = q := by
            rw [List.length_append, List.length_take]; omega
          obtain ⟨b1, b2, b3⟩ := Idle.spec (s := { s.sync.moveFromTail (q - s.sync.dest.length) with startPos := q }) ⟨a1.ok, a1.buf, a1.cur, by
            show q ≤ (s.sync.dest ++ s.sync.tail.take (q - s.sync.dest.length)).length
            omega, by
            show q < (s.sync.dest ++ s.sync.tail.take (q - s.sync.dest.length)).length → _
            intro h'; omega, by
            show (s.sync.dest ++ s.sync.tail.take (q - s.sync.dest.length) ++ s.sync.tail.drop (q - s.sync.dest.length)).length ≤ kMaxSize
            rw [List.append_assoc, List.take_append_drop]; exact a1.size⟩
          rw [er]
          refine ⟨b1, b2.trans ?_, a1.ok.trans ho.symm, a5, fun _ => ⟨ho, b3, by omega⟩, nofun⟩
          show s.sync.dest ++ s.sync.tail.take (q - s.sync.dest.length) ++ s.sync.tail.drop (q - s.sync.dest.length) = _
          rw [List.append_assoc, List.take_append_drop, a2]
    · rw [if_neg hq] at er
      dsimp only at er
      obtain ⟨b1, b2⟩ := moveToTail_idle (s := s.sync) (q := q) a1.ok a1.buf a1.cur (by omega) a1.size
      obtain ⟨c1, c2, c3⟩ := b1.spec
      rw [er]
      exact ⟨c1, c2.trans (b2.trans a2), a1.ok.trans ho.symm, a5, fun _ => ⟨ho, c3, by omega⟩, nofun⟩

/-- The end of `TruncateImpl()`. -/
theorem cut_spec {s : CdW} {n : Nat} (h : s.Inv) (ho : s.ok = true) (hn : n ≤ s.dest.length) (hs : n ≤ s.startPos) (hz : s.dest.length ≤ kMaxSize) (htl : s.tail = []) :
    (s.cut n).Inv ∧ (s.cut n).view = s.dest.take n ∧ (s.cut n).pos = n := by
  have hd : s.dest.length - (s.dest.length - n) = n := by omega
  have hl : (s.dest.take n).length = n := by rw [List.length_take]; omega
  have e : s.cut n = { s with startPos := n, dest := s.dest.take n, cur := 0 } := by unfold cut; rw [hd]
  have ht : ¬ ((s.cut n).hasTail = true) := by
    rw [hasTail_iff, e]
    show ¬ (n < (s.dest.take n).length)
    omega
  have hv : (s.cut n).view = s.dest.take n := by
    unfold view
    rw [if_neg ht, e]
    show s.dest.take n ++ s.buf.take 0 ++ s.tail.drop 0 = _
    rw [htl, List.take_zero, List.drop_nil, List.append_nil, List.append_nil]
  have hf := h.fit ho
  refine ⟨⟨fun h' => ?_, ?_, fun _ => ?_, fun _ h' => (ht h').elim, fun _ => ?_, fun _ => ?_⟩, hv, ?_⟩
  · rw [e] at h'; exact (Bool.false_ne_true (Eq.trans h'.symm ho)).elim
  · rw [e]; exact Nat.zero_le _
  · rw [e]
    show n ≤ (s.dest.take n).length
    omega
  · rw [e]
    show n + s.buf.length ≤ kMaxSize
    omega
  · rw [hv, hl]; omega
  · rw [e]; rfl

/-- The same when the tail is appended. -/
theorem cut_spec' {s : CdW} {n : Nat} (ho : s.ok = true) (hb : s.buf = []) (hs : s.tail = []) (hn : n ≤ s.dest.length) (hz : s.dest.length ≤ kMaxSize) :
    (s.cut n).Inv ∧ (s.cut n).view = s.dest.take n ∧ (s.cut n).pos = n := by
  have hd : s.dest.length - (s.dest.length - n) = n := by omega
  have hl : (s.dest.take n).length = n := by rw [List.length_take]; omega
  have e : s.cut n = { s with startPos := n, dest := s.dest.take n, cur := 0 } := by unfold cut; rw [hd]
  rw [e]
  obtain ⟨b1, b2, b3⟩ := Idle.spec (s := { s with startPos := n, dest := s.dest.take n, cur := 0 }) ⟨ho, hb, rfl, by
    show n ≤ (s.dest.take n).length
    omega, fun _ => hs, by
    show (s.dest.take n ++ s.tail).length ≤ kMaxSize
    rw [hs, List.append_nil]
    omega⟩
  refine ⟨b1, b2.trans ?_, b3⟩
  show s.dest.take n ++ s.tail = _
  rw [hs, List.append_nil]

theorem truncateImpl_spec {s : CdW} {n : Nat} (h : s.Inv) :
    let r := s.truncateImpl n
    r.2.Inv ∧ r.2.ok = s.ok ∧ r.2.seen = s.seen ∧
    (r.1 = true → s.ok = true ∧ r.2.pos = n ∧ n ≤ s.view.length ∧ r.2.view = s.view.take n) ∧
    (r.1 = false → s.ok = false ∨ (r.2.view = s.view ∧ r.2.pos = s.view.length ∧ s.view.length < n)) := by
  intro r
  have er : r = s.truncateImpl n := rfl
  unfold truncateImpl at er
  by_cases ho : s.ok = false
  · rw [if_pos ho] at er
    rw [er]
    exact ⟨h, rfl, rfl, nofun, fun _ => .inl ho⟩
  rw [if_neg ho] at er
  have ho : s.ok = true := (Bool.not_eq_false _).mp ho
  have hpl := (h.view_length ho).2
  have hr := h.room ho
  have hc := h.cur
  by_cases ht : s.hasTail = true
  · rw [if_pos ht] at er
    obtain ⟨t1, t2⟩ := h.tail ho ht
    have hcur : s.cur = 0 := by rw [t1] at hc; exact Nat.le_zero.1 hc
    have hv : s.view = s.dest := by unfold view; rw [if_pos ht]
    have hz := h.size ho
    rw [hv] at hz
    have hz2 : (s.dest ++ s.tail).length ≤ kMaxSize := by rw [t2, List.append_nil]; exact hz
    by_cases hq : s.dest.length < n
    · rw [if_pos hq] at er
      obtain ⟨b1, b2, b3⟩ := Idle.spec (s := { s with startPos := s.dest.length }) ⟨ho, t1, hcur, Nat.le_refl _, fun h' => (Nat.lt_irrefl _ h').elim, hz2⟩
      rw [er, hv]
      refine ⟨b1, rfl, rfl, nofun, fun _ => .inr ⟨b2.trans ?_, b3, hq⟩⟩
      show s.dest ++ s.tail = s.dest
      rw [t2, List.append_nil]
    · rw [if_neg hq] at er
      obtain ⟨b1, b2, b3⟩ := cut_spec' (s := s) (n := n) ho t1 t2 (by omega) hz
      rw [er, hv]
      exact ⟨b1, rfl, rfl, fun _ => ⟨ho, b3, by omega, b2⟩, nofun⟩
  · rw [if_neg ht] at er
    have hlt := mt hasTail_iff.2 ht
    by_cases hq : s.pos < n
    · rw [if_pos hq] at er
      by_cases hs : s.tail = []
      · rw [if_pos hs] at er
        have hp : s.pos = s.view.length := by
          unfold view
          rw [if_neg ht, hs, List.drop_nil, List.append_nil, List.length_append, List.length_take]
          unfold pos
          omega
        rw [er]
        exact ⟨h, rfl, rfl, nofun, fun _ => .inr ⟨rfl, hp, by omega⟩⟩
      · rw [if_neg hs] at er
        dsimp only at er
        obtain ⟨a1, a2, a3, a4, a5⟩ := sync_spec h ho
        have hvl := congrArg List.length a2
        rw [List.length_append] at hvl
        by_cases hz : s.sync.dest.length + s.sync.tail.length < n
        · rw [if_pos hz] at er
          have hd : s.sync.dest ++ s.sync.tail = s.view := a2
          obtain ⟨b1, b2, b3⟩ := Idle.spec (s := ({ s.sync with startPos := s.sync.startPos + s.sync.tail.length } : CdW).appendTail) ⟨a1.ok, a1.buf, a1.cur, by
            show s.sync.startPos + s.sync.tail.length ≤ (s.sync.dest ++ s.sync.tail).length
            rw [List.length_append]; omega, fun _ => rfl, (appendTail_idle a1).size⟩
          rw [er]
          refine ⟨b1, a1.ok.trans ho.symm, a5, nofun, fun _ => .inr ⟨b2.trans ?_, b3.trans ?_, by omega⟩⟩
          · show s.sync.dest ++ s.sync.tail ++ [] = s.view
            rw [List.append_nil, hd]
          · show s.sync.startPos + s.sync.tail.length = _
            omega
        · rw [if_neg hz] at er
          have hk : s.sync.tail.length - (s.sync.dest.length + s.sync.tail.length - n) = n - s.sync.dest.length := by omega
          rw [hk] at er
          have hl : (s.sync.dest ++ s.sync.tail.take (n - s.sync.dest.length)).length = n := by
            rw [List.length_append, List.length_take]; omega
          obtain ⟨b1, b2, b3⟩ := Idle.spec (s := ({ s.sync with startPos := n, tail := s.sync.tail.take (n - s.sync.dest.length) } : CdW).appendTail)
            ⟨a1.ok, a1.buf, a1.cur, by
            show n ≤ (s.sync.dest ++ s.sync.tail.take (n - s.sync.dest.length)).length
            omega, fun _ => rfl, by
            have := a1.size
            rw [List.length_append] at this
            show (s.sync.dest ++ s.sync.tail.take (n - s.sync.dest.length) ++ []).length ≤ kMaxSize
            rw [List.append_nil, hl]
            omega⟩
          rw [er]
          refine ⟨b1, a1.ok.trans ho.symm, a5, fun _ => ⟨ho, b3, by omega, b2.trans ?_⟩, nofun⟩
          show s.sync.dest ++ s.sync.tail.take (n - s.sync.dest.length) ++ [] = _
          have e0 : s.sync.dest.take n = s.sync.dest := List.take_of_length_le (by omega)
          rw [List.append_nil, ← a2, List.take_append, e0]
    · rw [if_neg hq] at er
      dsimp only at er
      have hdz : s.dest.length ≤ kMaxSize := by have := h.fit ho; omega
      by_cases hz : s.startPos ≤ n
      · rw [if_pos hz] at er
        unfold pos at hq
        have hn : ¬ (({ s with tail := [], cur := n - s.startPos } : CdW).hasTail = true) := ht
        have hv : ({ s with tail := [], cur := n - s.startPos } : CdW).view = s.view.take n := by
          unfold view
          rw [if_neg hn, if_neg ht]
          show s.dest ++ s.buf.take (n - s.startPos) ++ [].drop _ = _
          have e0 : s.dest.take n = s.dest := List.take_of_length_le (by omega)
          rw [List.drop_nil, List.append_nil, List.append_assoc, List.take_append, e0, List.take_append_of_le_length, List.take_take]
          · congr 2; omega
          · rw [List.length_take]; omega
        rw [er]
        refine ⟨⟨fun h' => (Bool.false_ne_true (Eq.trans h'.symm ho)).elim, ?_, fun _ => hr, fun _ h' => (hn h').elim, fun _ => h.fit ho, fun _ => ?_⟩, rfl, rfl, fun _ => ⟨ho, ?_, ?_, hv⟩, nofun⟩
        · show n - s.startPos ≤ s.buf.length
          omega
        · have e := congrArg List.length hv
          rw [List.length_take] at e
          have := h.size ho
          exact e ▸ Nat.le_trans (Nat.min_le_right _ _) this
        · show s.startPos + (n - s.startPos) = n
          omega
        · unfold pos at hpl
          omega
      · rw [if_neg hz] at er
        have hvt : s.view.take n = s.dest.take n := by
          unfold view
          rw [if_neg ht, List.append_assoc, List.take_append_of_le_length (by omega)]
        have hi : ({ s with tail := [] } : CdW).Inv := by
          refine ⟨h.dead, h.cur, h.room, fun _ h' => (ht h').elim, h.fit, fun _ => ?_⟩
          unfold view
          rw [if_neg (by exact ht)]
          show (s.dest ++ s.buf.take s.cur ++ [].drop s.cur).length ≤ kMaxSize
          rw [List.drop_nil, List.append_nil, List.length_append, List.length_take]
          have := h.fit ho
          omega
        obtain ⟨b1, b2, b3⟩ := cut_spec (s := { s with tail := [] }) (n := n) hi ho (by show n ≤ s.dest.length; omega) (by show n ≤ s.startPos; omega) hdz rfl
        rw [er]
        exact ⟨b1, rfl, rfl, fun _ => ⟨ho, b3, by omega, b2.trans hvt.symm⟩, nofun⟩

theorem core_lawful : (core G minBlock).PushLawful view CdW.seen Inv where
  avail s h ho := by
    have := h.dead ho
    show s.buf.length - s.cur = 0
    rw [this.1]
    exact Nat.zero_sub _
  put bs s h hb := put_spec h hb
  pushSlow n rec s h _ := ⟨(pushSlow_spec h).1, (pushSlow_spec h).2.1⟩

theorem core_total (n rec : Nat) (s : CdW) (h : s.Inv) (_ : s.avail < n) (ho : s.ok = true) (hk : s.pos + n ≤ kMaxSize) :
    (s.pushSlow G minBlock n rec).1 = true := (pushSlow_spec h).2.2 ho hk

theorem mid_write {s : CdW} {bs : Bytes} (h : s.Inv) :
    WritePost (mid G minBlock) view CdW.seen Inv bs s ((mid G minBlock).write bs s) ∧ (((mid G minBlock).write bs s).1 = true → bs = [] ∨ s.ok = true) ∧
    (s.ok = true → s.pos + bs.length ≤ kMaxSize → ((mid G minBlock).write bs s).1 = true) := by
  unfold WriterOps.write
  by_cases hn : bs.length ≤ (mid G minBlock).avail s
  · rw [if_pos hn]
    refine ⟨(core_lawful (G := G) (minBlock := minBlock)).put_post h hn, fun _ => ?_, fun _ _ => rfl⟩
    cases ho : s.ok with
    | true => exact .inr rfl
    | false =>
      have := (core_lawful (G := G) (minBlock := minBlock)).avail s h ho
      exact .inl (List.eq_nil_of_length_eq_zero (Nat.le_zero.1 (this ▸ hn)))
  · rw [if_neg hn]
    have hb : (core G minBlock).avail s < bs.length := Nat.lt_of_not_le hn
    obtain ⟨a1, a2⟩ := (core_lawful (G := G) (minBlock := minBlock)).defaultWriteSlow (fuel := bs.length + 1) h hb (.inl (Nat.lt_succ_self _))
    exact ⟨a1, fun hr => .inr (a2 hr), fun ho hk => (core_lawful (G := G) (minBlock := minBlock)).defaultWriteSlow_true core_total h hb ho hk (.inl (Nat.lt_succ_self _))⟩

theorem fillSlow_spec {s : CdW} {n : Nat} {b : UInt8} (h : s.Inv) (hn : 0 < n) :
    WritePost (core G minBlock) view CdW.seen Inv (List.replicate n b) s (s.fillSlow G minBlock n b) ∧ ((s.fillSlow G minBlock n b).1 = true → s.ok = true) ∧
    (s.ok = true → s.pos + n ≤ kMaxSize → (s.fillSlow G minBlock n b).1 = true) := by
  unfold fillSlow
  split
  · obtain ⟨a1, a2⟩ := (core_lawful (G := G) (minBlock := minBlock)).defaultFillSlow (fuel := n + 1) (b := b) h hn (.inl (Nat.lt_succ_self _))
    exact ⟨a1, a2, fun ho hk => (core_lawful (G := G) (minBlock := minBlock)).defaultFillSlow_true core_total h hn ho hk (.inl (Nat.lt_succ_self _))⟩
  · obtain ⟨a1, a2, a3⟩ := refCore_spec (G := G) (minBlock := minBlock) (bs := List.replicate n b) h
    exact ⟨a1, a2, fun ho hk => a3 ho (by rw [List.length_replicate]; exact hk)⟩

theorem refSlow_spec {s : CdW} {fs : List Bytes} (h : s.Inv) :
    WritePost (core G minBlock) view CdW.seen Inv fs.flatten s (s.refSlow G minBlock fs) ∧
    (s.ok = true → s.pos + fs.flatten.length ≤ kMaxSize → (s.refSlow G minBlock fs).1 = true) := by
  unfold refSlow
  split
  · refine ⟨(writeFragments_of (W := mid G minBlock) (fun bs s h => ⟨(mid_write h).1, (mid_write h).2.1⟩) h).1, fun ho hk => ?_⟩
    exact writeFragments_true (W := mid G minBlock) (fun bs s h => (mid_write h).1) (fun bs s h => (mid_write h).2.2) h ho hk
  · obtain ⟨a1, a2, a3⟩ := refCore_spec (G := G) (minBlock := minBlock) (bs := fs.flatten) h
    exact ⟨a1, a3⟩

theorem setHint_spec {s : CdW} {n : Option Nat} (h : s.Inv) :
    (s.setHint G n).Inv ∧ (s.setHint G n).view = s.view ∧ (s.setHint G n).pos = s.pos ∧ (s.setHint G n).ok = s.ok ∧ (s.setHint G n).seen = s.seen := by
  unfold setHint
  split
  · exact ⟨⟨h.dead, h.cur, h.room, h.tail, h.fit, h.size⟩, rfl, rfl, rfl, rfl⟩
  · split
    · exact ⟨⟨h.dead, h.cur, h.room, h.tail, h.fit, h.size⟩, rfl, rfl, rfl, rfl⟩
    · exact ⟨⟨h.dead, h.cur, h.room, h.tail, h.fit, h.size⟩, rfl, rfl, rfl, rfl⟩

theorem lawful : (ops G minBlock).Lawful view CdW.seen Inv where
  base := {
    avail := (core_lawful (G := G) (minBlock := minBlock)).avail
    put := (core_lawful (G := G) (minBlock := minBlock)).put
    pushSlow := (core_lawful (G := G) (minBlock := minBlock)).pushSlow
    writeSlow := fun bs s h hb => (core_lawful (G := G) (minBlock := minBlock)).defaultWriteSlow h hb (.inl (Nat.lt_succ_self _))
    fillSlow := fun n b s h hn => ⟨(fillSlow_spec h (by omega)).1, (fillSlow_spec h (by omega)).2.1⟩
    flushImpl := fun t s h => by
      obtain ⟨a1, a2, -⟩ := flushImpl_spec (G := G) (minBlock := minBlock) h
      exact ⟨a1, fun hr => ⟨(a2 hr).1, fun _ => (a2 hr).2.1⟩⟩
    seekSlow := fun q s h hq => by
      obtain ⟨a1, a2, a3, a4, a5, a6⟩ := seekSlow_spec (q := q) h
      refine ⟨a1, fun _ => a2, fun hr => ⟨(a5 hr).1, a3.trans (a5 hr).1, (a5 hr).2.1, Nat.le_trans (a5 hr).2.2 (Nat.le_max_left _ _)⟩, fun hr => ?_,
        fun ho => ⟨a3.trans ho, a4⟩, ?_⟩
      · rcases a6 hr with h' | h'
        · exact .inl (a3.trans h')
        · exact .inr h'
      · show Mixed _ _ _ _ _ (s.seekSlow q).2.seen
        rw [a4]; exact Mixed.old _ _ _ _ _
    sizeImpl := fun s h => by
      have e : (ops G minBlock).sizeImpl s = (s.sizeImpl.1, s) := by
        show s.sizeImpl = _
        unfold sizeImpl
        split
        · rfl
        · split <;> rfl
      rw [e]
      refine ⟨h, fun n hn => ?_, fun hn => ?_, fun ho => ⟨ho, rfl⟩, Mixed.old _ _ _ _ _⟩
      · have ho : s.ok = true := by
          cases ho : s.ok with
          | true => rfl
          | false =>
            have hn : s.sizeImpl.1 = some n := hn
            unfold sizeImpl at hn
            rw [if_pos ho] at hn
            exact nomatch hn
        have := (h.view_length ho).1.symm.trans hn
        injection this with this
        exact ⟨this.symm, rfl, rfl, ho, ho⟩
      · cases ho : s.ok with
        | false => exact ho
        | true =>
          have hn : s.sizeImpl.1 = none := hn
          rw [(h.view_length ho).1] at hn
          exact nomatch hn
    truncateImpl := fun n s h _ => by
      obtain ⟨a1, a3, a4, a5, a6⟩ := truncateImpl_spec (n := n) h
      refine ⟨a1, fun hr => ?_, fun hr => ?_, fun ho => ⟨a3.trans ho, a4⟩, ?_⟩
      · obtain ⟨b1, b2, b3, b4⟩ := a5 hr
        exact ⟨Nat.le_trans b3 (Nat.le_max_left _ _), b4.trans (resize_eq_take b3).symm, b2, b1, a3.trans b1⟩
      · rcases a6 hr with h' | h'
        · exact .inl (a3.trans h')
        · exact .inr h'
      · show Mixed _ _ _ _ _ (s.truncateImpl n).2.seen
        rw [a4]; exact Mixed.old _ _ _ _ _
    readModeImpl := fun q s h => by
      obtain ⟨a1, a2, -⟩ := flushImpl_spec (G := G) (minBlock := minBlock) h
      exact ⟨a1, fun hr => ⟨(a2 hr).1, (a2 hr).2.1⟩⟩
    randomAccess := fun s h => ⟨h, rfl, fun _ => ⟨rfl, rfl⟩, fun _ => ⟨rfl, rfl⟩, fun h' => h'⟩
    setHint := fun n s h => by
      obtain ⟨a1, a2, a3, a4, a5⟩ := setHint_spec (G := G) (n := n) h
      exact ⟨a1, fun _ => ⟨a2, a3⟩, fun ho => a4.trans ho, a5⟩ }
  refSlow fs s h _ := (refSlow_spec h).1
  random s _ := rfl

/-- `CordWriter` fails only when a position would not fit in 64 bits. -/
theorem total : (ops G minBlock).Total kMaxSize Inv where
  pushSlow n rec s h hn ho hk := core_total n rec s h hn ho hk
  writeSlow bs s h hb ho hk := (core_lawful (G := G) (minBlock := minBlock)).defaultWriteSlow_true core_total h hb ho hk (.inl (Nat.lt_succ_self _))
  fillSlow n b s h hn ho hk := (fillSlow_spec h hn).2.2 ho hk
  refSlow fs s h ho hk := (refSlow_spec h).2 ho hk
  flushImpl _ s h ho := (flushImpl_spec (G := G) (minBlock := minBlock) h).2.2 ho
  readModeImpl _ s h ho := (flushImpl_spec (G := G) (minBlock := minBlock) h).2.2 ho
  seekSlow q s h _ ho := (seekSlow_spec (q := q) h).2.2.1.trans ho
  sizeImpl s h ho := by
    show s.sizeImpl.2.ok = true
    unfold sizeImpl
    split
    · exact ho
    · split <;> exact ho
  truncateImpl n s h ho := (truncateImpl_spec (n := n) h).2.1.trans ho
  randomAccess s _ ho := ho
  setHint n s h ho := (setHint_spec (G := G) (n := n) h).2.2.2.1.trans ho

theorem init_spec (d : Bytes) (append : Bool) (k room : Nat) (hd : d.length ≤ kMaxSize) :
    (init G d append k room).Inv ∧ (init G d append k room).view = (if append then d else []) ∧ (init G d append k room).pos = (if append then d.length else 0) ∧
      (init G d append k room).ok = true := by
  cases append with
  | true =>
    obtain ⟨e, he⟩ : ∃ e, e = d.take (d.length - k) := ⟨_, rfl⟩
    obtain ⟨x, hx⟩ : ∃ x, x = d.drop (d.length - k) := ⟨_, rfl⟩
    have hex : e ++ x = d := by rw [he, hx, List.take_append_drop]
    have hl : e.length + x.length = d.length := by rw [← hex, List.length_append]
    obtain ⟨b, hb⟩ : ∃ b, b = (if x = [] then [] else x ++ G.fresh 0 (min (x.length + room) (kMaxSize - e.length) - x.length)) := ⟨_, rfl⟩
    have hi : init G d true k room = ⟨e, [], b, e.length, x.length, true, none, false, 1, d⟩ := by
      rw [hb, hx, he]
      rfl
    have hbx : b.take x.length = x ∧ x.length ≤ b.length ∧ e.length + b.length ≤ kMaxSize := by
      by_cases h0 : x = []
      · rw [if_pos h0] at hb
        rw [hb, h0]
        simp only [List.length_nil]
        exact ⟨rfl, Nat.le_refl _, by omega⟩
      · rw [if_neg h0] at hb
        have hlb : b.length = x.length + (min (x.length + room) (kMaxSize - e.length) - x.length) := by rw [hb, List.length_append, SCfg.fresh_length]
        refine ⟨?_, by omega, by omega⟩
        rw [hb, List.take_left]
    rw [hi]
    have ht : ¬ ((⟨e, [], b, e.length, x.length, true, none, false, 1, d⟩ : CdW).hasTail = true) := by
      rw [hasTail_iff]
      exact Nat.lt_irrefl _
    have hv : (⟨e, [], b, e.length, x.length, true, none, false, 1, d⟩ : CdW).view = d := by
      unfold view
      rw [if_neg ht]
      show e ++ b.take x.length ++ [].drop x.length = d
      rw [hbx.1, List.drop_nil, List.append_nil, hex]
    exact ⟨⟨nofun, hbx.2.1, fun _ => Nat.le_refl _, fun _ h' => (ht h').elim, fun _ => hbx.2.2, fun _ => by rw [hv]; exact hd⟩, hv, hl, rfl⟩
  | false =>
    obtain ⟨b1, b2, b3⟩ := Idle.spec (s := init G d false k room) ⟨rfl, rfl, rfl, Nat.le_refl _, fun _ => rfl, Nat.zero_le _⟩
    exact ⟨b1, b2, b3, rfl⟩

end CdW
end Riegeli.Wtr

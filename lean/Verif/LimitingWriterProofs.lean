import Verif.LimitingWriter
/-!
# Proofs about `LimitingWriter`
-/
namespace Riegeli.Wtr

theorem Mixed.length_le {p q m : Nat} {d v w d' : Bytes} (h : Mixed p q d v w d') (hd : d.length ≤ m) (hv : v.length ≤ m) (hw : w.length ≤ m) :
    d'.length ≤ m := by
  by_cases hm : m < d'.length
  · have hs : d'[m]? = some d'[m] := List.getElem?_eq_getElem hm
    rcases h m with h | h | h | ⟨-, -, h⟩
    · rw [List.getElem?_eq_none hd, hs] at h; cases h
    · rw [List.getElem?_eq_none hv, hs] at h; cases h
    · rw [List.getElem?_eq_none hw, hs] at h; cases h
    · rw [h] at hs; cases hs
  · omega

theorem overlay_within {c : Bytes} {p m : Nat} {bs : Bytes} (hc : c.length ≤ m) (hp : p + bs.length ≤ m) : (overlay c p bs).length ≤ m := by
  by_cases hb : bs = []
  · subst hb; rw [overlay_nil]; exact hc
  · rw [overlay_length hb]; omega

theorem le_overlay_length {c : Bytes} {p : Nat} {bs : Bytes} (hp : p ≤ c.length) : p + bs.length ≤ (overlay c p bs).length := by
  by_cases hb : bs = []
  · subst hb; rw [overlay_nil]; simpa using hp
  · rw [overlay_length hb]; omega

/-- Overwriting with the part of the data before the limit. -/
theorem overlay_take {c : Bytes} {p m : Nat} {bs : Bytes} (hp : p ≤ c.length) (hc : c.length ≤ m) (hm : m < p + bs.length) :
    overlay c p (bs.take (m - p)) = (overlay c p bs).take m := by
  have hb : bs ≠ [] := fun h => by subst h; simp at hm; omega
  apply List.ext_getElem?
  intro i
  rw [List.getElem?_take]
  by_cases hk : bs.take (m - p) = []
  · have : m - p = 0 := by
      have := congrArg List.length hk
      rw [List.length_take, List.length_nil] at this; omega
    rw [hk, overlay_nil]
    by_cases hi : i < m
    · rw [if_pos hi, overlay_getElem? hb, if_pos (by omega), if_pos (by omega)]
    · rw [if_neg hi, List.getElem?_eq_none (by omega)]
  · rw [overlay_getElem? hk, List.length_take]
    by_cases hi : i < m
    · rw [if_pos hi, overlay_getElem? hb]
      by_cases h1 : i < p
      · rw [if_pos h1, if_pos h1]
      · rw [if_neg h1, if_neg h1, if_pos (by omega), if_pos (by omega), List.getElem?_take_of_lt (by omega)]
    · rw [if_neg hi, if_neg (by omega), if_neg (by omega), List.getElem?_eq_none (by omega)]

theorem resize_take {n m : Nat} {c : Bytes} (hn : n ≤ m) (hm : m ≤ c.length) : resize n (c.take m) = resize n c := by
  unfold resize
  rw [List.take_take, List.length_take, Nat.min_eq_left hn]
  congr 2; omega

theorem resize_length (n : Nat) (c : Bytes) : (resize n c).length = n := by
  unfold resize; rw [List.length_append, List.length_take, List.length_replicate]; omega

/-- `SupportsRandomAccess()` does not make the writer fail and does not change its buffer, and what it says does not depend on data in the
buffer. -/
def WriterOps.QuietRandomAccess {σ : Type} (W : WriterOps σ) (Inv : σ → Prop) : Prop :=
  ∀ s, Inv s → W.ok (W.randomAccess s).2 = W.ok s ∧ W.avail (W.randomAccess s).2 = W.avail s ∧
    ∀ bs : Bytes, bs.length ≤ W.avail s → (W.randomAccess (W.put bs s)).1 = (W.randomAccess s).1

namespace LW
variable {σ : Type} {W : WriterOps σ} {view dest : σ → Bytes} {Inv : σ → Prop}

/-- What the `LimitingWriter` presents. -/
def viewOf (W : WriterOps σ) (view : σ → Bytes) (l : LW σ) : Bytes := overlay (view l.dst) (W.pos l.dst) l.pend

/-- The invariant; `small` says that the limit applies to all data in the destination rather than only to data written. -/
structure LInv (W : WriterOps σ) (view dest : σ → Bytes) (Inv : σ → Prop) (small : Bool) (l : LW σ) : Prop where
  dst : Inv l.dst
  failed : l.ok = false → l.pend = []
  isOk : l.ok = true → W.ok l.dst = true ∧ l.base = W.pos l.dst ∧ l.pend.length ≤ W.avail l.dst ∧ W.pos l.dst ≤ l.maxPos
  short : small = true → (dest l.dst).length ≤ l.maxPos ∧
    (l.ok = true → W.pos l.dst ≤ (view l.dst).length ∧ (view l.dst).length ≤ l.maxPos)

variable (L : W.Lawful view dest Inv) {small : Bool}
include L

/-- What `SyncBuffer()` does within the limit. -/
theorem sync_spec {l : LW σ} (h : LInv W view dest Inv small l) (ho : l.ok = true) (hm : l.pos ≤ l.maxPos) :
    l.sync W = (true, { l with dst := W.put l.pend l.dst, pend := [], base := l.pos }) ∧
    Inv (W.put l.pend l.dst) ∧ view (W.put l.pend l.dst) = viewOf W view l ∧ W.pos (W.put l.pend l.dst) = l.pos ∧
    W.ok (W.put l.pend l.dst) = true ∧ dest (W.put l.pend l.dst) = dest l.dst ∧
    (small = true → l.pos ≤ (viewOf W view l).length ∧ (viewOf W view l).length ≤ l.maxPos) := by
  obtain ⟨o1, o2, o3, o4⟩ := h.isOk ho
  obtain ⟨p1, p2, p3, p4, p5, p6⟩ := L.put l.pend l.dst h.dst o3
  have hp : l.pos = W.pos l.dst + l.pend.length := by unfold pos; rw [o2]
  refine ⟨?_, p1, p2, p3.trans hp.symm, p5.trans o1, p6, fun hs => ?_⟩
  · unfold sync; rw [if_neg (by omega)]
  · obtain ⟨-, s2⟩ := h.short hs
    obtain ⟨s2, s3⟩ := s2 ho
    exact ⟨by rw [hp]; exact le_overlay_length s2, overlay_within s3 (by omega)⟩

/-- What `SyncBuffer()` does past the limit. -/
theorem sync_over {l : LW σ} (h : LInv W view dest Inv small l) (ho : l.ok = true) (hm : l.maxPos < l.pos) :
    (l.sync W).1 = false ∧ (l.sync W).2.ok = false ∧ LInv W view dest Inv small (l.sync W).2 ∧
    dest (l.sync W).2.dst = dest l.dst ∧ W.ok (l.sync W).2.dst = true ∧
    view (l.sync W).2.dst = overlay (view l.dst) (W.pos l.dst) (l.pend.take (l.maxPos - W.pos l.dst)) ∧
    (l.sync W).2.maxPos = l.maxPos := by
  obtain ⟨o1, o2, o3, o4⟩ := h.isOk ho
  have hk : l.pend.length - (l.pos - l.maxPos) = l.maxPos - W.pos l.dst := by unfold pos at *; omega
  obtain ⟨p1, p2, p3, p4, p5, p6⟩ := L.put (l.pend.take (l.maxPos - W.pos l.dst)) l.dst h.dst (by rw [List.length_take]; omega)
  have e : l.sync W = (false, l.failLimit (W.put (l.pend.take (l.maxPos - W.pos l.dst)) l.dst)) := by
    unfold sync; rw [if_pos hm, hk]
  rw [e]
  refine ⟨rfl, rfl, ⟨p1, fun _ => rfl, fun h => (Bool.false_ne_true h).elim, fun hs => ⟨?_, fun h => (Bool.false_ne_true h).elim⟩⟩, p6,
    p5.trans o1, p2, rfl⟩
  show (dest (W.put _ _)).length ≤ l.maxPos
  rw [p6]; exact (h.short hs).1

omit L in
theorem make_eq {d : σ} {l : LW σ} (ho : l.ok = true) (hp : W.ok d = true → W.pos d ≤ l.maxPos) :
    (l.make W d).ok = W.ok d ∧ (l.make W d).dst = d ∧ (l.make W d).pend = [] ∧ (l.make W d).maxPos = l.maxPos ∧
    (W.ok d = true → (l.make W d).base = W.pos d) := by
  unfold make
  by_cases hm : l.maxPos < W.pos d
  · rw [if_pos hm]
    refine ⟨?_, rfl, rfl, rfl, fun h => absurd (hp h) (by omega)⟩
    cases hd : W.ok d with
    | true => exact absurd (hp hd) (by omega)
    | false => rfl
  · rw [if_neg hm]
    exact ⟨by simp [ho], rfl, rfl, rfl, fun _ => rfl⟩

omit L in
theorem make_inv {d : σ} {l : LW σ} (ho : l.ok = true) (hd : Inv d) (hp : W.ok d = true → W.pos d ≤ l.maxPos)
    (hs : small = true → (dest d).length ≤ l.maxPos ∧ (W.ok d = true → W.pos d ≤ (view d).length ∧ (view d).length ≤ l.maxPos)) :
    LInv W view dest Inv small (l.make W d) := by
  obtain ⟨m1, m2, m3, m4, m5⟩ := make_eq ho hp
  refine ⟨by rw [m2]; exact hd, fun _ => m3, fun h => ?_, fun h => ?_⟩
  · rw [m1] at h
    rw [m2, m3, m4]
    exact ⟨h, m5 h, Nat.zero_le _, hp h⟩
  · rw [m1, m2, m4]; exact hs h

omit L in
theorem make_view {d : σ} {l : LW σ} (ho : l.ok = true) (hp : W.ok d = true → W.pos d ≤ l.maxPos) :
    viewOf W view (l.make W d) = view d ∧ (W.ok d = true → (l.make W d).pos = W.pos d) := by
  obtain ⟨m1, m2, m3, m4, m5⟩ := make_eq ho hp
  unfold viewOf pos
  rw [m2, m3, overlay_nil]
  exact ⟨rfl, fun h => by rw [m5 h]; rfl⟩

omit L in
/-- A writer which failed and was not changed. -/
theorem post_failed {bs : Bytes} {l : LW σ} (h : LInv W view dest Inv small l) (ho : l.ok = false) :
    WritePost (LW.ops W) (viewOf W view) (fun l => dest l.dst) (LInv W view dest Inv small) bs l (false, l) :=
  ⟨h, fun h => (Bool.false_ne_true h).elim, fun _ => ho, fun _ => ⟨ho, rfl⟩, Mixed.old _ _ _ _ _⟩

/-- The limit was exceeded while synchronizing. -/
theorem post_over {bs : Bytes} {l : LW σ} (h : LInv W view dest Inv small l) (ho : l.ok = true) (hm : l.maxPos < l.pos) :
    WritePost (LW.ops W) (viewOf W view) (fun l => dest l.dst) (LInv W view dest Inv small) bs l (false, (l.sync W).2) := by
  obtain ⟨s1, s2, s3, s4, s5, s6, s7⟩ := sync_over L h ho hm
  refine ⟨s3, fun h => (Bool.false_ne_true h).elim, fun _ => s2, fun hf => (Bool.false_ne_true (Eq.trans (Eq.symm hf) ho)).elim, ?_⟩
  dsimp only
  rw [s4]; exact Mixed.old _ _ _ _ _

/-- The result of a function of the destination called when the buffer is synchronized. -/
theorem post_make {bs : Bytes} {l : LW σ} (h : LInv W view dest Inv small l) (ho : l.ok = true) (hm : l.pos + bs.length ≤ l.maxPos)
    {r : Bool × σ} (hr : WritePost W view dest Inv bs (W.put l.pend l.dst) r) :
    WritePost (LW.ops W) (viewOf W view) (fun l => dest l.dst) (LInv W view dest Inv small) bs l (r.1, (l.sync W).2.make W r.2) := by
  obtain ⟨s1, s2, s3, s4, s5, s6, s7⟩ := sync_spec L h ho (by omega)
  obtain ⟨a1, a2, a3, a4, a5⟩ := hr
  rw [s3, s4, s5, s6] at *
  have hp : W.ok r.2 = true → W.pos r.2 ≤ (l.sync W).2.maxPos := fun hk => by
    rw [s1]
    show W.pos r.2 ≤ l.maxPos
    cases hr : r.1 with
    | true => rw [(a2 hr).2.1]; exact hm
    | false => rw [a3 hr] at hk; cases hk
  have ho' : (l.sync W).2.ok = true := by rw [s1]; exact ho
  obtain ⟨m1, m2, m3, m4, m5⟩ := make_eq ho' hp
  obtain ⟨v1, v2⟩ := make_view (view := view) ho' hp
  refine ⟨make_inv ho' a1 hp fun hs => ?_, fun ht => ?_, fun hf => ?_, fun hf => ?_, ?_⟩
  · rw [s1]
    obtain ⟨t1, t2⟩ := s7 hs
    have hov : (overlay (viewOf W view l) l.pos bs).length ≤ l.maxPos := overlay_within t2 hm
    refine ⟨a5.length_le (h.short hs).1 t2 hov, fun hk => ?_⟩
    cases hr : r.1 with
    | false => rw [a3 hr] at hk; cases hk
    | true =>
      obtain ⟨b1, b2, b3⟩ := a2 hr
      rw [b1, b2]
      exact ⟨le_overlay_length t1, hov⟩
  · obtain ⟨b1, b2, b3⟩ := a2 ht
    exact ⟨v1.trans b1, (v2 b3).trans b2, (m1.trans b3).trans ho.symm⟩
  · exact m1.trans (a3 hf)
  · rw [show (LW.ops W).ok l = l.ok from rfl, ho] at hf; cases hf
  · show Mixed _ _ _ _ _ (dest ((l.sync W).2.make W r.2).dst)
    rw [m2]; exact a5

/-- Functions which do not write. -/
theorem through_post {l : LW σ} (h : LInv W view dest Inv small l) {f : σ → Bool × σ}
    (hf : l.ok = true → l.pos ≤ l.maxPos → WritePost W view dest Inv [] (W.put l.pend l.dst) (f (W.put l.pend l.dst))) :
    WritePost (LW.ops W) (viewOf W view) (fun l => dest l.dst) (LInv W view dest Inv small) [] l (l.through W f) ∧
    ((l.through W f).1 = true → l.ok = true ∧ l.pos ≤ l.maxPos ∧ (f (W.put l.pend l.dst)).1 = true ∧
      (l.through W f).2.dst = (f (W.put l.pend l.dst)).2 ∧ (l.through W f).2.pend = []) := by
  unfold through
  cases ho : l.ok with
  | false => exact ⟨by rw [if_pos rfl]; exact post_failed h ho, by rw [if_pos rfl]; exact fun h => (Bool.false_ne_true h).elim⟩
  | true =>
    rw [if_neg (by simp)]
    dsimp only
    by_cases hm : l.maxPos < l.pos
    · rw [if_pos (sync_over L h ho hm).1]
      exact ⟨post_over L h ho hm, fun h => (Bool.false_ne_true h).elim⟩
    · have hm := Nat.le_of_not_lt hm
      have s1 := (sync_spec L h ho hm).1
      have hp := post_make L h ho (bs := []) hm (hf ho hm)
      rw [if_neg (by rw [s1]; simp)]
      have e : (l.sync W).2.dst = W.put l.pend l.dst := by rw [s1]
      rw [e]
      refine ⟨hp, fun ht => ⟨rfl, hm, ht, ?_, ?_⟩⟩
      · unfold make; split <;> rfl
      · unfold make; split <;> rfl

theorem through_ok {l : LW σ} (h : LInv W view dest Inv small l) (ho : l.ok = true) (hm : l.pos ≤ l.maxPos) {f : σ → Bool × σ} :
    l.through W f = ((f (W.put l.pend l.dst)).1, (l.sync W).2.make W (f (W.put l.pend l.dst)).2) := by
  unfold through
  have s1 := (sync_spec L h ho hm).1
  rw [if_neg (by simp [ho])]
  dsimp only
  rw [if_neg (by rw [s1]; simp)]
  rw [show (l.sync W).2.dst = W.put l.pend l.dst by rw [s1]]

theorem through_over {l : LW σ} (h : LInv W view dest Inv small l) (ho : l.ok = true) (hm : l.maxPos < l.pos) {f : σ → Bool × σ} :
    l.through W f = (false, (l.sync W).2) := by
  unfold through
  rw [if_neg (by simp [ho])]
  dsimp only
  rw [if_pos (sync_over L h ho hm).1]

omit L in
theorem through_failed {l : LW σ} (ho : l.ok = false) {f : σ → Bool × σ} : l.through W f = (false, l) := by
  unfold through; rw [if_pos ho]

omit L in
theorem put_spec {bs : Bytes} {l : LW σ} (h : LInv W view dest Inv small l) (hb : bs.length ≤ l.avail W) :
    LInv W view dest Inv small (l.put bs) ∧ viewOf W view (l.put bs) = overlay (viewOf W view l) l.pos bs ∧
    (l.put bs).pos = l.pos + bs.length ∧ (l.put bs).avail W = l.avail W - bs.length := by
  have hpos : (l.put bs).pos = l.pos + bs.length := by simp [put, pos, Nat.add_assoc]
  cases ho : l.ok with
  | false =>
    have hb0 : bs = [] := by
      unfold avail at hb; rw [ho] at hb
      exact List.length_eq_zero_iff.mp (Nat.le_zero.mp hb)
    subst hb0
    have e : l.put [] = l := by unfold put; rw [List.append_nil]
    rw [e, overlay_nil]
    exact ⟨h, rfl, rfl, rfl⟩
  | true =>
    obtain ⟨o1, o2, o3, o4⟩ := h.isOk ho
    have hb' : bs.length ≤ W.avail l.dst - l.pend.length := by unfold avail at hb; rwa [if_pos ho] at hb
    refine ⟨⟨h.dst, fun hf => ?_, fun _ => ⟨o1, o2, ?_, o4⟩, h.short⟩, ?_, hpos, ?_⟩
    · rw [show (l.put bs).ok = l.ok from rfl, ho] at hf; cases hf
    · simp only [put, List.length_append]; omega
    · unfold viewOf put
      dsimp only
      rw [← overlay_append]
      unfold pos
      rw [o2]
    · unfold avail
      rw [show (l.put bs).ok = l.ok from rfl, ho]
      simp only [put, List.length_append, if_true]; omega

theorem pushSlow_spec {n rec : Nat} {l : LW σ} (h : LInv W view dest Inv small l) (_ : l.avail W < n) :
    WritePost (LW.ops W) (viewOf W view) (fun l => dest l.dst) (LInv W view dest Inv small) [] l (l.pushSlow W n rec) ∧
    ((l.pushSlow W n rec).1 = true → n ≤ (l.pushSlow W n rec).2.avail W ∧ l.ok = true) := by
  obtain ⟨t1, t2⟩ := through_post L h (f := W.push n rec) fun ho hm => (L.push (sync_spec L h ho hm).2.1).1
  refine ⟨t1, fun ht => ?_⟩
  obtain ⟨u1, u2, u3, u4, u5⟩ := t2 ht
  have hk := (t1.2.1 ht).2.2
  obtain ⟨-, p2⟩ := L.push (n := n) (rec := rec) (sync_spec L h u1 u2).2.1
  refine ⟨?_, u1⟩
  show n ≤ avail W (l.through W _).2
  unfold avail
  rw [show (l.through W (W.push n rec)).2.ok = l.ok from hk, u1, if_pos rfl, u4, u5]
  exact (p2 u3).1

theorem writeSlow_spec {bs : Bytes} {l : LW σ} (h : LInv W view dest Inv small l) :
    WritePost (LW.ops W) (viewOf W view) (fun l => dest l.dst) (LInv W view dest Inv small) bs l (l.writeSlow W bs) ∧
    ((l.writeSlow W bs).1 = true → l.ok = true) := by
  unfold writeSlow
  cases ho : l.ok with
  | false => exact ⟨by rw [if_pos rfl]; exact post_failed h ho, by rw [if_pos rfl]; exact fun h => (Bool.false_ne_true h).elim⟩
  | true =>
    refine ⟨?_, fun _ => rfl⟩
    rw [if_neg (by simp)]
    dsimp only
    by_cases hm : l.maxPos < l.pos
    · rw [if_pos (sync_over L h ho hm).1]
      exact post_over L h ho hm
    · have hm := Nat.le_of_not_lt hm
      obtain ⟨s1, s2, s3, s4, s5, s6, s7⟩ := sync_spec L h ho hm
      rw [if_neg (by rw [s1]; simp)]
      have e : (l.sync W).2.dst = W.put l.pend l.dst := by rw [s1]
      have e1 : (l.sync W).2.maxPos = l.maxPos := by rw [s1]
      have e2 : (l.sync W).2.pos = l.pos := by rw [s1]; simp [pos]
      rw [e, e1, e2]
      by_cases hb : bs.length ≤ l.maxPos - l.pos
      · rw [if_pos hb]
        exact post_make L h ho (by omega) (L.write s2).1
      · rw [if_neg hb]
        have hl : bs.length - (bs.length - (l.maxPos - l.pos)) = l.maxPos - l.pos := by omega
        rw [hl]
        have hw := (L.write (bs := bs.take (l.maxPos - l.pos)) s2).1
        have hp := post_make L h ho (by rw [List.length_take]; omega) hw
        have htd := List.take_append_drop (l.maxPos - l.pos) bs
        by_cases hr : (W.write (bs.take (l.maxPos - l.pos)) (W.put l.pend l.dst)).1 = false
        · rw [if_pos hr]
          have := hp.failed (bs.drop (l.maxPos - l.pos)) hr
          rwa [htd] at this
        · rw [if_neg hr]
          obtain ⟨a1, a2, a3, a4, a5⟩ := hw
          obtain ⟨-, -, -, -, b5⟩ := hp
          have b5 := b5.weaken (bs.drop (l.maxPos - l.pos))
          rw [htd] at b5
          have e3 : ((l.sync W).2.make W (W.write (bs.take (l.maxPos - l.pos)) (W.put l.pend l.dst)).2).dst =
            (W.write (bs.take (l.maxPos - l.pos)) (W.put l.pend l.dst)).2 := by unfold make; split <;> rfl
          dsimp only at b5
          rw [e3] at b5
          refine ⟨⟨a1, fun _ => rfl, fun h => (Bool.false_ne_true h).elim, fun hs => ⟨?_, fun h => (Bool.false_ne_true h).elim⟩⟩,
            fun h => (Bool.false_ne_true h).elim, fun _ => rfl,
            fun hf => (Bool.false_ne_true (Eq.trans (Eq.symm hf) ho)).elim, b5⟩
          show (dest (W.write _ _).2).length ≤ (l.sync W).2.maxPos
          rw [e1]
          rw [s3, s4, s6] at a5
          refine a5.length_le (h.short hs).1 (s7 hs).2 (overlay_within (s7 hs).2 ?_)
          rw [List.length_take]; omega

theorem fillSlow_spec {n : Nat} {b : UInt8} {l : LW σ} (h : LInv W view dest Inv small l) :
    WritePost (LW.ops W) (viewOf W view) (fun l => dest l.dst) (LInv W view dest Inv small) (List.replicate n b) l (l.fillSlow W n b) ∧
    ((l.fillSlow W n b).1 = true → l.ok = true) := by
  unfold fillSlow
  cases ho : l.ok with
  | false => exact ⟨by rw [if_pos rfl]; exact post_failed h ho, by rw [if_pos rfl]; exact fun h => (Bool.false_ne_true h).elim⟩
  | true =>
    refine ⟨?_, fun _ => rfl⟩
    rw [if_neg (by simp)]
    dsimp only
    by_cases hm : l.maxPos < l.pos
    · rw [if_pos (sync_over L h ho hm).1]
      exact post_over L h ho hm
    · have hm := Nat.le_of_not_lt hm
      obtain ⟨s1, s2, s3, s4, s5, s6, s7⟩ := sync_spec L h ho hm
      rw [if_neg (by rw [s1]; simp)]
      have e : (l.sync W).2.dst = W.put l.pend l.dst := by rw [s1]
      have e1 : (l.sync W).2.maxPos = l.maxPos := by rw [s1]
      have e2 : (l.sync W).2.pos = l.pos := by rw [s1]; simp [pos]
      rw [e, e1, e2]
      by_cases hb : n ≤ l.maxPos - l.pos
      · rw [if_pos hb]
        exact post_make L h ho (by rw [List.length_replicate]; omega) (L.fill s2).1
      · rw [if_neg hb]
        have hw := (L.fill (n := l.maxPos - l.pos) (b := b) s2).1
        have hp := post_make L h ho (by rw [List.length_replicate]; omega) hw
        have htd : List.replicate (l.maxPos - l.pos) b ++ List.replicate (n - (l.maxPos - l.pos)) b = List.replicate n b := by
          rw [List.replicate_append_replicate]; congr 1; omega
        by_cases hr : (W.fill (l.maxPos - l.pos) b (W.put l.pend l.dst)).1 = false
        · rw [if_pos hr]
          have := hp.failed (List.replicate (n - (l.maxPos - l.pos)) b) hr
          rwa [htd] at this
        · rw [if_neg hr]
          obtain ⟨a1, a2, a3, a4, a5⟩ := hw
          obtain ⟨-, -, -, -, b5⟩ := hp
          have b5 := b5.weaken (List.replicate (n - (l.maxPos - l.pos)) b)
          rw [htd] at b5
          have e3 : ((l.sync W).2.make W (W.fill (l.maxPos - l.pos) b (W.put l.pend l.dst)).2).dst =
            (W.fill (l.maxPos - l.pos) b (W.put l.pend l.dst)).2 := by unfold make; split <;> rfl
          dsimp only at b5
          rw [e3] at b5
          refine ⟨⟨a1, fun _ => rfl, fun h => (Bool.false_ne_true h).elim, fun hs => ⟨?_, fun h => (Bool.false_ne_true h).elim⟩⟩,
            fun h => (Bool.false_ne_true h).elim, fun _ => rfl,
            fun hf => (Bool.false_ne_true (Eq.trans (Eq.symm hf) ho)).elim, b5⟩
          show (dest (W.fill _ _ _).2).length ≤ (l.sync W).2.maxPos
          rw [e1]
          rw [s3, s4, s6] at a5
          refine a5.length_le (h.short hs).1 (s7 hs).2 (overlay_within (s7 hs).2 ?_)
          rw [List.length_replicate]; omega

theorem flushImpl_spec {t : FlushType} {l : LW σ} (h : LInv W view dest Inv small l) :
    WritePost (LW.ops W) (viewOf W view) (fun l => dest l.dst) (LInv W view dest Inv small) [] l (l.flushImpl W t) ∧
    ((l.flushImpl W t).1 = true → l.ok = true ∧ l.pos ≤ l.maxPos ∧ view (l.flushImpl W t).2.dst = viewOf W view l ∧
      W.pos (l.flushImpl W t).2.dst = l.pos ∧ W.ok (l.flushImpl W t).2.dst = true ∧
      (t ≠ .fromObject → dest (l.flushImpl W t).2.dst = viewOf W view l)) := by
  have key : ∀ f : σ → Bool × σ, (∀ s, Inv s → W.ok s = true → WritePost W view dest Inv [] s (f s)) →
      (∀ s, Inv s → W.ok s = true → t ≠ .fromObject → (f s).1 = true → dest (f s).2 = view s) →
      WritePost (LW.ops W) (viewOf W view) (fun l => dest l.dst) (LInv W view dest Inv small) [] l (l.through W f) ∧
      ((l.through W f).1 = true → l.ok = true ∧ l.pos ≤ l.maxPos ∧ view (l.through W f).2.dst = viewOf W view l ∧
        W.pos (l.through W f).2.dst = l.pos ∧ W.ok (l.through W f).2.dst = true ∧
        (t ≠ .fromObject → dest (l.through W f).2.dst = viewOf W view l)) := by
    intro f hf hd
    obtain ⟨t1, t2⟩ := through_post L h (f := f) fun ho hm => hf _ (sync_spec L h ho hm).2.1 (sync_spec L h ho hm).2.2.2.2.1
    refine ⟨t1, fun ht => ?_⟩
    obtain ⟨u1, u2, u3, u4, u5⟩ := t2 ht
    obtain ⟨s1, s2, s3, s4, s5, s6, s7⟩ := sync_spec L h u1 u2
    obtain ⟨b1, b2, b3⟩ := (hf _ s2 s5).2.1 u3
    rw [overlay_nil] at b1
    rw [u4]
    exact ⟨u1, u2, b1.trans s3, b2.trans s4, b3.trans s5, fun hc => (hd _ s2 s5 hc u3).trans s3⟩
  have deep := key (W.flushImpl t) (fun s hs _ => (L.flushImpl t s hs).1) (fun s hs _ hc ht => ((L.flushImpl t s hs).2 ht).2 hc)
  unfold flushImpl
  cases t <;> cases ho : l.owns <;> dsimp only <;> try exact deep
  refine key (fun d => (true, d)) (fun s hs hk => ⟨hs, fun _ => ⟨(overlay_nil _ _).symm, rfl, rfl⟩, fun h => (Bool.false_ne_true h.symm).elim,
    fun h => ⟨h, rfl⟩, Mixed.old _ _ _ _ _⟩) (fun s hs hk hc => ?_)
  exact absurd rfl hc

/-- A function which does not write, given its effect on the destination. -/
theorem through_cases {l : LW σ} (h : LInv W view dest Inv small l) (f : σ → Bool × σ) :
    (l.through W f = (false, l) ∧ l.ok = false) ∨
    (l.through W f = (false, (l.sync W).2) ∧ l.ok = true ∧ l.maxPos < l.pos) ∨
    (l.through W f = ((f (W.put l.pend l.dst)).1, (l.sync W).2.make W (f (W.put l.pend l.dst)).2) ∧ l.ok = true ∧ l.pos ≤ l.maxPos) := by
  cases ho : l.ok with
  | false => exact .inl ⟨through_failed ho, rfl⟩
  | true =>
    by_cases hm : l.maxPos < l.pos
    · exact .inr (.inl ⟨through_over L h ho hm, rfl, hm⟩)
    · exact .inr (.inr ⟨through_ok L h ho (by omega), rfl, by omega⟩)

theorem seekSlow_spec {q : Nat} {l : LW σ} (h : LInv W view dest Inv true l) (hq : q ≠ l.pos) :
    LInv W view dest Inv true (l.seekSlow W q).2 ∧
    ((l.seekSlow W q).2.ok = true → viewOf W view (l.seekSlow W q).2 = viewOf W view l) ∧
    ((l.seekSlow W q).1 = true → l.ok = true ∧ (l.seekSlow W q).2.ok = true ∧ (l.seekSlow W q).2.pos = q ∧
      q ≤ max (viewOf W view l).length l.pos) ∧
    ((l.seekSlow W q).1 = false → (l.seekSlow W q).2.ok = false ∨
      ((l.seekSlow W q).2.pos = (viewOf W view l).length ∧ (viewOf W view l).length < q)) ∧
    (l.ok = false → (l.seekSlow W q).2.ok = false ∧ dest (l.seekSlow W q).2.dst = dest l.dst) ∧
    Mixed 0 0 (dest l.dst) (viewOf W view l) (viewOf W view l) (dest (l.seekSlow W q).2.dst) := by
  unfold seekSlow
  dsimp only
  rcases through_cases L h (W.seek (min q l.maxPos)) with ⟨e, ho⟩ | ⟨e, ho, hm⟩ | ⟨e, ho, hm⟩ <;> rw [e]
  · refine ⟨h, fun hk => ?_, fun ht => ?_, fun _ => .inl ho, fun _ => ⟨ho, rfl⟩, Mixed.old _ _ _ _ _⟩
    · exact (Bool.false_ne_true (ho.symm.trans hk)).elim
    · cases ht
  · obtain ⟨s1, s2, s3, s4, s5, s6, s7⟩ := sync_over L h ho hm
    refine ⟨s3, fun hk => ?_, fun ht => ?_, fun _ => .inl s2, fun hf => ?_, ?_⟩
    · dsimp only at hk; rw [s2] at hk; cases hk
    · cases ht
    · rw [ho] at hf; cases hf
    · dsimp only; rw [s4]; exact Mixed.old _ _ _ _ _
  · obtain ⟨s1, s2, s3, s4, s5, s6, s7⟩ := sync_spec L h ho hm
    obtain ⟨t1, t2⟩ := s7 rfl
    obtain ⟨k1, k2, k3, k4, k5, k6⟩ := L.seek (q := min q l.maxPos) s2
    rw [s3] at k2
    rw [s3, s4] at k3 k4
    rw [s3, s6] at k6
    generalize W.seek (min q l.maxPos) (W.put l.pend l.dst) = r at *
    have ho' : (l.sync W).2.ok = true := by rw [s1]; exact ho
    have hmx : (l.sync W).2.maxPos = l.maxPos := by rw [s1]
    have hkp : W.ok r.2 = true → W.pos r.2 ≤ (viewOf W view l).length := fun hk => by
      cases hr : r.1 with
      | true => have := (k3 hr); omega
      | false =>
        rcases k4 hr with h | ⟨h, -⟩
        · rw [h] at hk; cases hk
        · omega
    have hp : W.ok r.2 = true → W.pos r.2 ≤ (l.sync W).2.maxPos := fun hk => by
      rw [hmx]; exact Nat.le_trans (hkp hk) t2
    obtain ⟨m1, m2, m3, m4, m5⟩ := make_eq ho' hp
    obtain ⟨v1, v2⟩ := make_view (view := view) ho' hp
    dsimp only
    rw [m1, m2, v1]
    refine ⟨make_inv ho' k1 hp fun _ => ?_, k2, fun ht => ?_, fun hf => ?_, fun hf => ?_, k6⟩
    · rw [hmx]
      exact ⟨k6.length_le (h.short rfl).1 t2 t2, fun hk => by rw [k2 hk]; exact ⟨hkp hk, t2⟩⟩
    · rw [Bool.and_eq_true] at ht
      obtain ⟨h1, h2⟩ := ht
      have h2 : min q l.maxPos = q := by simpa using h2
      have := k3 h1
      rw [h2] at this
      have hk := this.2.2.trans s5
      exact ⟨ho, hk, (v2 hk).trans this.1, this.2.1⟩
    · cases hk : W.ok r.2 with
      | false => exact .inl rfl
      | true =>
        refine .inr ?_
        rw [v2 hk]
        cases hr : r.1 with
        | false =>
          rcases k4 hr with h | ⟨h, h'⟩
          · rw [h] at hk; cases hk
          · exact ⟨h, by omega⟩
        | true =>
          have := k3 hr
          rw [hr, Bool.true_and] at hf
          have hne : min q l.maxPos ≠ q := by simpa using hf
          constructor <;> omega
    · rw [ho] at hf; cases hf

theorem sizeImpl_spec {l : LW σ} (h : LInv W view dest Inv small l) :
    LInv W view dest Inv small (l.sizeImpl W).2 ∧
    (∀ n, (l.sizeImpl W).1 = some n → n = (viewOf W view l).length ∧ viewOf W view (l.sizeImpl W).2 = viewOf W view l ∧
      (l.sizeImpl W).2.pos = l.pos ∧ l.ok = true ∧ (l.sizeImpl W).2.ok = true) ∧
    ((l.sizeImpl W).1 = none → (l.sizeImpl W).2.ok = false) ∧
    (l.ok = false → (l.sizeImpl W).2.ok = false ∧ dest (l.sizeImpl W).2.dst = dest l.dst) ∧
    Mixed 0 0 (dest l.dst) (viewOf W view l) (viewOf W view l) (dest (l.sizeImpl W).2.dst) := by
  unfold sizeImpl
  cases ho : l.ok with
  | false =>
    rw [if_pos rfl]
    refine ⟨h, fun _ hn => ?_, fun _ => ho, fun _ => ⟨ho, rfl⟩, Mixed.old _ _ _ _ _⟩
    cases hn
  | true =>
    rw [if_neg (by simp)]
    dsimp only
    by_cases hm : l.maxPos < l.pos
    · obtain ⟨s1, s2, s3, s4, s5, s6, s7⟩ := sync_over L h ho hm
      rw [if_pos s1]
      refine ⟨s3, fun _ hn => ?_, fun _ => s2, fun hf => ?_, ?_⟩
      · cases hn
      · cases hf
      dsimp only; rw [s4]; exact Mixed.old _ _ _ _ _
    · have hm := Nat.le_of_not_lt hm
      obtain ⟨s1, s2, s3, s4, s5, s6, s7⟩ := sync_spec L h ho hm
      rw [if_neg (by rw [s1]; simp)]
      rw [show (l.sync W).2.dst = W.put l.pend l.dst by rw [s1]]
      obtain ⟨k1, k2, k3, k4, k5⟩ := L.sizeImpl _ s2
      rw [s3, s4] at k2
      rw [s3, s6] at k5
      generalize W.sizeImpl (W.put l.pend l.dst) = r at *
      have ho' : (l.sync W).2.ok = true := by rw [s1]; exact ho
      have hmx : (l.sync W).2.maxPos = l.maxPos := by rw [s1]
      have hok : W.ok r.2 = true → ∃ n, r.1 = some n := fun hk => by
        cases hr : r.1 with
        | some n => exact ⟨n, rfl⟩
        | none => rw [k3 hr] at hk; cases hk
      have hp : W.ok r.2 = true → W.pos r.2 ≤ (l.sync W).2.maxPos := fun hk => by
        obtain ⟨n, hn⟩ := hok hk
        rw [hmx, (k2 n hn).2.2.1]; exact hm
      obtain ⟨m1, m2, m3, m4, m5⟩ := make_eq ho' hp
      obtain ⟨v1, v2⟩ := make_view (view := view) ho' hp
      rw [m1, m2, v1]
      refine ⟨make_inv ho' k1 hp fun hs => ?_, fun n hn => ?_, k3, fun hf => (Bool.false_ne_true hf.symm).elim, k5⟩
      · obtain ⟨t1, t2⟩ := s7 hs
        rw [hmx]
        refine ⟨k5.length_le (h.short hs).1 t2 t2, fun hk => ?_⟩
        obtain ⟨n, hn⟩ := hok hk
        rw [(k2 n hn).2.2.1, (k2 n hn).2.1]
        exact ⟨t1, t2⟩
      · obtain ⟨j1, j2, j3, j4, j5⟩ := k2 n hn
        exact ⟨j1, j2, (v2 j5).trans j3, rfl, j5⟩

theorem readModeImpl_spec {q : Nat} {l : LW σ} (h : LInv W view dest Inv small l) :
    WritePost (LW.ops W) (viewOf W view) (fun l => dest l.dst) (LInv W view dest Inv small) [] l (l.readModeImpl W q) ∧
    ((l.readModeImpl W q).1 = true → l.ok = true ∧ dest (l.readModeImpl W q).2.dst = viewOf W view l) := by
  obtain ⟨t1, t2⟩ := through_post L h (f := W.readModeImpl q) fun ho hm => (L.readModeImpl q _ (sync_spec L h ho hm).2.1).1
  refine ⟨t1, fun ht => ?_⟩
  obtain ⟨u1, u2, u3, u4, u5⟩ := t2 ht
  obtain ⟨s1, s2, s3, s4, s5, s6, s7⟩ := sync_spec L h u1 u2
  refine ⟨u1, ?_⟩
  show dest (l.through W _).2.dst = _
  rw [u4]
  exact ((L.readModeImpl q _ s2).2 u3).2.trans s3

theorem randomAccess_spec (hq : W.QuietRandomAccess Inv) {l : LW σ} (h : LInv W view dest Inv small l) :
    LInv W view dest Inv small (l.randomAccess W).2 ∧ dest (l.randomAccess W).2.dst = dest l.dst ∧
    ((l.randomAccess W).2.ok = true → viewOf W view (l.randomAccess W).2 = viewOf W view l ∧ (l.randomAccess W).2.pos = l.pos) ∧
    ((l.randomAccess W).1 = true → (l.randomAccess W).2.ok = l.ok ∧ ((l.randomAccess W).2.randomAccess W).1 = true) ∧
    (l.ok = false → (l.randomAccess W).2.ok = false) := by
  obtain ⟨r1, r2, r3, r4, r5⟩ := L.randomAccess _ h.dst
  obtain ⟨q1, q2, -⟩ := hq _ h.dst
  unfold randomAccess
  dsimp only
  refine ⟨⟨r1, h.failed, fun ho => ?_, fun hs => ?_⟩, r2, fun ho => ?_, fun ht => ⟨rfl, (r4 ht).2⟩, id⟩
  · obtain ⟨o1, o2, o3, o4⟩ := h.isOk ho
    have := r3 (q1.trans o1)
    dsimp only
    rw [q1, q2, this.2]
    exact ⟨o1, o2, o3, o4⟩
  · obtain ⟨t1, t2⟩ := h.short hs
    dsimp only
    rw [r2]
    refine ⟨t1, fun ho => ?_⟩
    have := r3 (q1.trans (h.isOk ho).1)
    rw [this.1, this.2]; exact t2 ho
  · have := r3 (q1.trans (h.isOk ho).1)
    unfold viewOf
    dsimp only
    rw [this.1, this.2]
    exact ⟨rfl, rfl⟩

/-- `Truncate()` within the limit. -/
theorem truncate_through {n : Nat} {l : LW σ} (h : LInv W view dest Inv true l) (hr : l.ok = true → (W.randomAccess (W.put l.pend l.dst)).1 = true) :
    let r := l.through W (W.truncateImpl n)
    LInv W view dest Inv true r.2 ∧
    (r.1 = true → n ≤ max (viewOf W view l).length l.pos ∧ viewOf W view r.2 = resize n (viewOf W view l) ∧ r.2.pos = n ∧ l.ok = true ∧ r.2.ok = true) ∧
    (r.1 = false → r.2.ok = false ∨
      (viewOf W view r.2 = viewOf W view l ∧ r.2.pos = (viewOf W view l).length ∧ (viewOf W view l).length < n)) ∧
    (l.ok = false → r.2.ok = false ∧ dest r.2.dst = dest l.dst) ∧
    Mixed 0 0 (dest l.dst) (viewOf W view l)
      (if n ≤ max (viewOf W view l).length l.pos then resize n (viewOf W view l) else viewOf W view l) (dest r.2.dst) := by
  intro r
  rcases through_cases L h (W.truncateImpl n) with ⟨e, ho⟩ | ⟨e, ho, hm⟩ | ⟨e, ho, hm⟩ <;> rw [show r = _ from e]
  · refine ⟨h, fun ht => ?_, fun _ => .inl ho, fun _ => ⟨ho, rfl⟩, Mixed.old _ _ _ _ _⟩
    cases ht
  · obtain ⟨s1, s2, s3, s4, s5, s6, s7⟩ := sync_over L h ho hm
    refine ⟨s3, fun ht => ?_, fun _ => .inl s2, fun hf => ?_, ?_⟩
    · cases ht
    · rw [ho] at hf; cases hf
    · dsimp only; rw [s4]; exact Mixed.old _ _ _ _ _
  · obtain ⟨s1, s2, s3, s4, s5, s6, s7⟩ := sync_spec L h ho hm
    obtain ⟨t1, t2⟩ := s7 rfl
    obtain ⟨k1, k2, k3, k4, k5⟩ := L.truncateImpl n _ s2 (hr ho)
    rw [s3, s4] at k2
    rw [s3] at k3
    rw [s3, s4, s6] at k5
    generalize W.truncateImpl n (W.put l.pend l.dst) = r at *
    have ho' : (l.sync W).2.ok = true := by rw [s1]; exact ho
    have hmx : (l.sync W).2.maxPos = l.maxPos := by rw [s1]
    have hkp : W.ok r.2 = true → W.pos r.2 ≤ (view r.2).length ∧ (view r.2).length ≤ l.maxPos := fun hk => by
      cases hr : r.1 with
      | true =>
        obtain ⟨j1, j2, j3, -⟩ := k2 hr
        rw [j2, j3, resize_length]; omega
      | false =>
        rcases k3 hr with h | ⟨j1, j2, -⟩
        · rw [h] at hk; cases hk
        · rw [j1, j2]; exact ⟨Nat.le_refl _, t2⟩
    have hp : W.ok r.2 = true → W.pos r.2 ≤ (l.sync W).2.maxPos := fun hk => by
      rw [hmx]; exact Nat.le_trans (hkp hk).1 (hkp hk).2
    obtain ⟨m1, m2, m3, m4, m5⟩ := make_eq ho' hp
    obtain ⟨v1, v2⟩ := make_view (view := view) ho' hp
    dsimp only
    rw [m1, m2, v1]
    refine ⟨make_inv ho' k1 hp fun _ => ?_, fun ht => ?_, fun hf => ?_, fun hf => ?_, k5⟩
    · rw [hmx]
      refine ⟨?_, hkp⟩
      refine k5.length_le (h.short rfl).1 t2 ?_
      split
      · rw [resize_length]; omega
      · exact t2
    · obtain ⟨j1, j2, j3, j4, j5⟩ := k2 ht
      exact ⟨j1, j2, (v2 j5).trans j3, ho, j5⟩
    · rcases k3 hf with h | ⟨j1, j2, j3⟩
      · exact .inl h
      · cases hk : W.ok r.2 with
        | false => exact .inl rfl
        | true => exact .inr ⟨j1, (v2 hk).trans j2, j3⟩
    · rw [ho] at hf; cases hf

theorem truncateImpl_spec (hq : W.QuietRandomAccess Inv) {n : Nat} {l : LW σ} (h : LInv W view dest Inv true l) (hr : (W.randomAccess l.dst).1 = true) :
    let r := l.truncateImpl W n
    LInv W view dest Inv true r.2 ∧
    (r.1 = true → n ≤ max (viewOf W view l).length l.pos ∧ viewOf W view r.2 = resize n (viewOf W view l) ∧ r.2.pos = n ∧ l.ok = true ∧ r.2.ok = true) ∧
    (r.1 = false → r.2.ok = false ∨
      (viewOf W view r.2 = viewOf W view l ∧ r.2.pos = (viewOf W view l).length ∧ (viewOf W view l).length < n)) ∧
    (l.ok = false → r.2.ok = false ∧ dest r.2.dst = dest l.dst) ∧
    Mixed 0 0 (dest l.dst) (viewOf W view l)
      (if n ≤ max (viewOf W view l).length l.pos then resize n (viewOf W view l) else viewOf W view l) (dest r.2.dst) := by
  intro r
  have hra : ∀ l' : LW σ, LInv W view dest Inv true l' → l'.dst = l.dst → l'.ok = true → (W.randomAccess (W.put l'.pend l'.dst)).1 = true := by
    intro l' h' e ho
    rw [(hq _ h'.dst).2.2 _ (h'.isOk ho).2.2.1, e]; exact hr
  cases ho : l.ok with
  | false =>
    have e : r = (false, l) := by show l.truncateImpl W n = _; unfold truncateImpl; rw [if_pos ho]
    rw [e]
    refine ⟨h, fun ht => ?_, fun _ => .inl ho, fun _ => ⟨ho, rfl⟩, Mixed.old _ _ _ _ _⟩
    cases ht
  | true =>
    by_cases hc : l.maxPos < l.pos ∧ n ≤ l.maxPos
    · have e : r = ({ l with pend := l.pend.take (l.pend.length - (l.pos - l.maxPos)) } : LW σ).through W (W.truncateImpl n) := by
        show l.truncateImpl W n = _; unfold truncateImpl; rw [if_neg (by simp [ho])]; dsimp only; rw [if_pos hc]
      obtain ⟨o1, o2, o3, o4⟩ := h.isOk ho
      obtain ⟨u1, u2⟩ := h.short rfl
      obtain ⟨u2, u3⟩ := u2 ho
      have hk : l.pend.length - (l.pos - l.maxPos) = l.maxPos - W.pos l.dst := by
        have := hc.1; unfold pos at *; omega
      have hpl : l.pos = W.pos l.dst + l.pend.length := by unfold pos; rw [o2]
      rw [hk] at e
      generalize hl' : ({ l with pend := l.pend.take (l.maxPos - W.pos l.dst) } : LW σ) = l' at e
      have e1 : l'.dst = l.dst := by rw [← hl']
      have e2 : l'.ok = true := by rw [← hl']; exact ho
      have e3 : l'.pos = l.maxPos := by
        rw [← hl']; unfold pos; dsimp only; rw [List.length_take, o2]; omega
      have e4 : viewOf W view l' = (viewOf W view l).take l.maxPos := by
        rw [← hl']; unfold viewOf; dsimp only
        exact overlay_take u2 u3 (by omega)
      have hvl : l.maxPos ≤ (viewOf W view l).length := by
        have : W.pos l.dst + l.pend.length ≤ (viewOf W view l).length := le_overlay_length u2
        omega
      have h' : LInv W view dest Inv true l' := by
        rw [← hl']
        refine ⟨h.dst, fun hf => ?_, fun _ => ⟨o1, o2, ?_, o4⟩, h.short⟩
        · exact (Bool.false_ne_true (hf.symm.trans ho)).elim
        · dsimp only; rw [List.length_take]; omega
      obtain ⟨t1, t2, t3, t4, t5⟩ := truncate_through L (n := n) h' (hra _ h' e1)
      rw [← e] at t1 t2 t3 t5
      rw [e4, e3] at t2 t5
      rw [e4] at t3
      rw [resize_take hc.2 hvl] at t2 t5
      rw [e1] at t5
      rw [List.length_take, Nat.min_eq_left hvl] at t2 t3 t5
      refine ⟨t1, fun ht => ?_, fun hf => ?_, fun hf => ?_, ?_⟩
      · obtain ⟨j1, j2, j3, j4, j5⟩ := t2 ht
        exact ⟨by omega, j2, j3, rfl, j5⟩
      · rcases t3 hf with hh | ⟨-, -, hh⟩
        · exact .inl hh
        · omega
      · cases hf
      · rw [if_pos (by omega)] at t5 ⊢
        intro i
        rcases t5 i with hh | hh | hh | hh
        · exact .inl hh
        · rw [List.getElem?_take] at hh
          by_cases hi : i < l.maxPos
          · rw [if_pos hi] at hh; exact .inr (.inl hh)
          · rw [if_neg hi] at hh
            exact .inl (hh.trans (List.getElem?_eq_none (by omega)).symm)
        · exact .inr (.inr (.inl hh))
        · omega
    · have e : r = l.through W (W.truncateImpl n) := by
        show l.truncateImpl W n = _; unfold truncateImpl; rw [if_neg (by simp [ho])]; dsimp only; rw [if_neg hc]
      have := truncate_through L (n := n) h (hra _ h rfl)
      rw [ho] at this
      rw [e]; exact this

theorem setHint_spec {n : Option Nat} {l : LW σ} (h : LInv W view dest Inv small l) :
    LInv W view dest Inv small (l.setHint W n) ∧
    ((l.setHint W n).ok = true → viewOf W view (l.setHint W n) = viewOf W view l ∧ (l.setHint W n).pos = l.pos) ∧
    (l.ok = false → (l.setHint W n).ok = false) ∧ dest (l.setHint W n).dst = dest l.dst := by
  unfold setHint
  by_cases hc : (l.owns && !l.exact) = true
  · rw [if_pos hc]
    by_cases hb : l.ok = false ∧ W.ok l.dst = true
    · rw [if_pos hb]
      refine ⟨⟨h.dst, h.failed, h.isOk, h.short⟩, fun _ => ⟨rfl, rfl⟩, id, rfl⟩
    · rw [if_neg hb]
      dsimp only
      cases ho : l.ok with
      | false =>
        have hd : W.ok l.dst = false := by
          cases hd : W.ok l.dst with
          | false => rfl
          | true => exact absurd ⟨ho, hd⟩ hb
        have hp := h.failed ho
        obtain ⟨p1, p2, p3, p4, p5, p6⟩ := L.put [] l.dst h.dst (Nat.zero_le _)
        have hsy : (l.sync W).2.dst = W.put [] l.dst ∧ (l.sync W).2.ok = false ∧ (l.sync W).2.pend = [] ∧ (l.sync W).2.maxPos = l.maxPos := by
          unfold sync
          rw [hp]
          split
          · exact ⟨by simp [failLimit], rfl, rfl, rfl⟩
          · exact ⟨rfl, ho, rfl, rfl⟩
        obtain ⟨y1, y2, y3, y4⟩ := hsy
        have fin : ∀ l' : LW σ, l'.ok = false → l'.pend = [] → l'.maxPos = l.maxPos → Inv l'.dst → dest l'.dst = dest l.dst →
            LInv W view dest Inv small l' ∧ (l'.ok = true → viewOf W view l' = viewOf W view l ∧ l'.pos = l.pos) ∧
            (false = false → l'.ok = false) ∧ dest l'.dst = dest l.dst := by
          intro l' f1 f2 f3 f4 f5
          refine ⟨⟨f4, fun _ => f2, fun hf => ?_, fun hs => ⟨?_, fun hf => ?_⟩⟩, fun hf => ?_, fun _ => f1, f5⟩
          · exact (Bool.false_ne_true (f1.symm.trans hf)).elim
          · rw [f5, f3]; exact (h.short hs).1
          · exact (Bool.false_ne_true (f1.symm.trans hf)).elim
          · exact (Bool.false_ne_true (f1.symm.trans hf)).elim
        by_cases hs : (l.sync W).1 = false
        · rw [if_pos hs]
          exact fin _ y2 y3 y4 (by rw [y1]; exact p1) (by rw [y1]; exact p6)
        · rw [if_neg hs, y1]
          obtain ⟨k1, k2, k3, k4⟩ := L.setHint (n.map fun n => min n ((l.sync W).2.maxPos - (l.sync W).2.pos)) _ p1
          generalize W.setHint (n.map fun n => min n ((l.sync W).2.maxPos - (l.sync W).2.pos)) (W.put [] l.dst) = d at *
          have hm : ((l.sync W).2.make W d).dst = d ∧ ((l.sync W).2.make W d).ok = false ∧ ((l.sync W).2.make W d).pend = [] ∧
              ((l.sync W).2.make W d).maxPos = l.maxPos := by
            unfold make
            split
            · exact ⟨rfl, rfl, rfl, y4⟩
            · exact ⟨rfl, by simp [y2], rfl, y4⟩
          obtain ⟨m1, m2, m3, m4⟩ := hm
          exact fin _ m2 m3 m4 (by rw [m1]; exact k1) (by rw [m1]; exact k4.trans p6)
      | true =>
        by_cases hm : l.maxPos < l.pos
        · obtain ⟨s1, s2, s3, s4, s5, s6, s7⟩ := sync_over L h ho hm
          rw [if_pos s1]
          refine ⟨s3, fun hf => ?_, fun hf => (Bool.false_ne_true hf.symm).elim, s4⟩
          exact (Bool.false_ne_true (s2.symm.trans hf)).elim
        · have hm := Nat.le_of_not_lt hm
          obtain ⟨s1, s2, s3, s4, s5, s6, s7⟩ := sync_spec L h ho hm
          rw [if_neg (by rw [s1]; simp)]
          rw [show (l.sync W).2.dst = W.put l.pend l.dst by rw [s1]]
          obtain ⟨k1, k2, k3, k4⟩ := L.setHint (n.map fun n => min n ((l.sync W).2.maxPos - (l.sync W).2.pos)) _ s2
          rw [s3, s4] at k2
          rw [s6] at k4
          generalize W.setHint (n.map fun n => min n ((l.sync W).2.maxPos - (l.sync W).2.pos)) (W.put l.pend l.dst) = d at *
          have ho' : (l.sync W).2.ok = true := by rw [s1]; exact ho
          have hmx : (l.sync W).2.maxPos = l.maxPos := by rw [s1]
          have hp : W.ok d = true → W.pos d ≤ (l.sync W).2.maxPos := fun hk => by
            rw [hmx, (k2 hk).2]; exact hm
          obtain ⟨m1, m2, m3, m4, m5⟩ := make_eq ho' hp
          obtain ⟨v1, v2⟩ := make_view (view := view) ho' hp
          rw [m1, m2, v1]
          refine ⟨make_inv ho' k1 hp fun hs => ?_, fun hk => ⟨(k2 hk).1, (v2 hk).trans (k2 hk).2⟩, fun hf => (Bool.false_ne_true hf.symm).elim, k4⟩
          rw [hmx, k4]
          refine ⟨(h.short hs).1, fun hk => ?_⟩
          rw [(k2 hk).1, (k2 hk).2]; exact s7 hs
  · rw [if_neg hc]
    exact ⟨h, fun _ => ⟨rfl, rfl⟩, id, rfl⟩

/-! ## The contract -/

/-- `LimitingWriter` without `Seek()` and `Truncate()`. -/
def plainOps (W : WriterOps σ) : WriterOps (LW σ) :=
  { LW.ops W with
    seekSlow := fun _ l => (false, { l with ok := false, pend := [] })
    truncateImpl := fun _ l => (false, { l with ok := false, pend := [] }) }

omit L in
theorem avail_spec {l : LW σ} (ho : l.ok = false) : l.avail W = 0 := by unfold avail; rw [ho]; rfl

theorem lawful (hq : W.QuietRandomAccess Inv) :
    (LW.ops W).Lawful (viewOf W view) (fun l => dest l.dst) (LInv W view dest Inv true) where
  avail _ _ ho := avail_spec ho
  put bs l h hb := by
    obtain ⟨p1, p2, p3, p4⟩ := put_spec h hb
    exact ⟨p1, p2, p3, p4, rfl, rfl⟩
  pushSlow n rec l h hn := pushSlow_spec L h hn
  writeSlow bs l h _ := writeSlow_spec L h
  fillSlow n b l h _ := fillSlow_spec L h
  flushImpl t l h := ⟨(flushImpl_spec L h).1, fun ht => ⟨((flushImpl_spec L h).2 ht).1, ((flushImpl_spec L h).2 ht).2.2.2.2.2⟩⟩
  seekSlow q l h hne := seekSlow_spec L h hne
  sizeImpl l h := sizeImpl_spec L h
  truncateImpl n l h hr := truncateImpl_spec L hq h hr
  readModeImpl q l h := readModeImpl_spec L h
  randomAccess l h := randomAccess_spec L hq h
  setHint n l h := setHint_spec L h

omit L in
theorem dead_inv {l : LW σ} (h : LInv W view dest Inv small l) : LInv W view dest Inv small { l with ok := false, pend := [] } :=
  ⟨h.dst, fun _ => rfl, fun h => (Bool.false_ne_true h).elim, fun hs => ⟨(h.short hs).1, fun h => (Bool.false_ne_true h).elim⟩⟩

theorem plain_lawful (hq : W.QuietRandomAccess Inv) :
    (plainOps W).Lawful (viewOf W view) (fun l => dest l.dst) (LInv W view dest Inv small) where
  avail _ _ ho := avail_spec ho
  put bs l h hb := by
    obtain ⟨p1, p2, p3, p4⟩ := put_spec h hb
    exact ⟨p1, p2, p3, p4, rfl, rfl⟩
  pushSlow n rec l h hn := pushSlow_spec L h hn
  writeSlow bs l h _ := writeSlow_spec L h
  fillSlow n b l h _ := fillSlow_spec L h
  flushImpl t l h := ⟨(flushImpl_spec L h).1, fun ht => ⟨((flushImpl_spec L h).2 ht).1, ((flushImpl_spec L h).2 ht).2.2.2.2.2⟩⟩
  seekSlow q l h hne :=
    ⟨dead_inv h, fun h => (Bool.false_ne_true h).elim, fun h => (Bool.false_ne_true h).elim, fun _ => .inl rfl, fun _ => ⟨rfl, rfl⟩, Mixed.old _ _ _ _ _⟩
  sizeImpl l h := sizeImpl_spec L h
  truncateImpl n l h hr :=
    ⟨dead_inv h, fun h => (Bool.false_ne_true h).elim, fun _ => .inl rfl, fun _ => ⟨rfl, rfl⟩, Mixed.old _ _ _ _ _⟩
  readModeImpl q l h := readModeImpl_spec L h
  randomAccess l h := randomAccess_spec L hq h
  setHint n l h := setHint_spec L h

end LW

/-- A property of the state which all functions of a class keep. -/
structure WriterOps.Keeps {σ : Type} (W : WriterOps σ) (P : σ → Prop) : Prop where
  put : ∀ bs s, P s → P (W.put bs s)
  pushSlow : ∀ n rec s, P s → P (W.pushSlow n rec s).2
  writeSlow : ∀ bs s, P s → P (W.writeSlow bs s).2
  fillSlow : ∀ n b s, P s → P (W.fillSlow n b s).2
  flushImpl : ∀ t s, P s → P (W.flushImpl t s).2
  seekSlow : ∀ q s, P s → P (W.seekSlow q s).2
  sizeImpl : ∀ s, P s → P (W.sizeImpl s).2
  truncateImpl : ∀ n s, P s → P (W.truncateImpl n s).2
  readModeImpl : ∀ q s, P s → P (W.readModeImpl q s).2
  randomAccess : ∀ s, P s → P (W.randomAccess s).2
  setHint : ∀ n s, P s → P (W.setHint n s)

namespace WriterOps.Keeps
variable {σ : Type} {W : WriterOps σ} {P : σ → Prop} (K : W.Keeps P)
include K

theorem write (bs : Bytes) (s : σ) (h : P s) : P (W.write bs s).2 := by
  unfold WriterOps.write; split
  · exact K.put _ _ h
  · exact K.writeSlow _ _ h

theorem writeFragments (fs : List Bytes) (s : σ) (h : P s) : P (W.writeFragments fs s).2 := by
  induction fs generalizing s with
  | nil => exact h
  | cons f fs ih =>
    unfold WriterOps.writeFragments; dsimp only; split
    · exact K.write _ _ h
    · exact ih _ (K.write _ _ h)

theorem push (n rec : Nat) (s : σ) (h : P s) : P (W.push n rec s).2 := by
  unfold WriterOps.push; split
  · exact h
  · exact K.pushSlow _ _ _ h

theorem run (op : WOp) (s : σ) (h : P s) : P (op.run W s).2 := by
  cases op with
  | push n rec => exact K.push _ _ _ h
  | writeChar b =>
    show P (W.writeChar b s).2
    unfold WriterOps.writeChar; dsimp only; split
    · exact K.push _ _ _ h
    · exact K.put _ _ (K.push _ _ _ h)
  | write bs => exact K.write _ _ h
  | writeExternal bs =>
    show P (W.writeExternal bs s).2
    unfold WriterOps.writeExternal; split
    · exact K.put _ _ h
    · exact K.write _ _ h
  | writeChain fs =>
    show P (W.writeChain fs s).2
    unfold WriterOps.writeChain; split
    · exact K.put _ _ h
    · exact K.writeFragments _ _ h
  | fill n b =>
    show P (W.fill n b s).2
    unfold WriterOps.fill; split
    · exact K.put _ _ h
    · exact K.fillSlow _ _ _ h
  | flush t => exact K.flushImpl _ _ h
  | seek q =>
    show P (W.seek q s).2
    unfold WriterOps.seek; split
    · exact h
    · exact K.seekSlow _ _ h
  | size => exact K.sizeImpl _ h
  | truncate n => exact K.truncateImpl _ _ h
  | readMode q => exact K.readModeImpl _ _ h
  | supportsRandomAccess => exact K.randomAccess _ h
  | setWriteSizeHint n => exact K.setHint _ _ h

theorem runAll (ops : List WOp) (s : σ) (h : P s) : P (WOp.runAll W ops s).2 := by
  induction ops generalizing s with
  | nil => exact h
  | cons op ops ih => exact ih _ (K.run op s h)

end WriterOps.Keeps

namespace LW
variable {σ : Type} {W : WriterOps σ}

/-- The options of the `LimitingWriter` are kept. -/
theorem keeps (m : Nat) (e o : Bool) : (LW.ops W).Keeps (fun l => l.maxPos = m ∧ l.exact = e ∧ l.owns = o) := by
  let P : LW σ → Prop := fun l => l.maxPos = m ∧ l.exact = e ∧ l.owns = o
  have hsync : ∀ l : LW σ, P l → P (l.sync W).2 := fun l h => by unfold sync; split <;> exact h
  have hmake : ∀ (l : LW σ) d, P l → P (l.make W d) := fun l d h => by unfold make; split <;> exact h
  have hthr : ∀ (l : LW σ) f, P l → P (l.through W f).2 := fun l f h => by
    unfold through; split
    · exact h
    · dsimp only; split
      · exact hsync _ h
      · exact hmake _ _ (hsync _ h)
  refine ⟨fun bs s h => h, fun n rec s h => hthr _ _ h, fun bs s h => ?_, fun n b s h => ?_, fun t s h => ?_, fun q s h => hthr _ _ h,
    fun s h => ?_, fun n s h => ?_, fun q s h => hthr _ _ h, fun s h => h, fun n s h => ?_⟩
  · show P (s.writeSlow W bs).2
    unfold writeSlow; split
    · exact h
    · dsimp only; split
      · exact hsync _ h
      · split
        · exact hmake _ _ (hsync _ h)
        · split
          · exact hmake _ _ (hsync _ h)
          · exact hsync _ h
  · show P (s.fillSlow W n b).2
    unfold fillSlow; split
    · exact h
    · dsimp only; split
      · exact hsync _ h
      · split
        · exact hmake _ _ (hsync _ h)
        · split
          · exact hmake _ _ (hsync _ h)
          · exact hsync _ h
  · show P (s.flushImpl W t).2
    unfold flushImpl; split <;> exact hthr _ _ h
  · show P (s.sizeImpl W).2
    unfold sizeImpl; split
    · exact h
    · dsimp only; split
      · exact hsync _ h
      · exact hmake _ _ (hsync _ h)
  · show P (s.truncateImpl W n).2
    unfold truncateImpl; split
    · exact h
    · dsimp only; split
      · exact hthr _ _ h
      · exact hthr _ _ h
  · show P (s.setHint W n)
    unfold setHint; split
    · split
      · exact h
      · dsimp only; split
        · exact hsync _ h
        · exact hmake _ _ (hsync _ h)
    · exact h

theorem writeFragments_congr {W₁ W₂ : WriterOps σ} (h : ∀ bs s, W₁.write bs s = W₂.write bs s) (fs : List Bytes) (s : σ) :
    W₁.writeFragments fs s = W₂.writeFragments fs s := by
  induction fs generalizing s with
  | nil => rfl
  | cons f fs ih => unfold WriterOps.writeFragments; rw [h]; dsimp only; rw [ih]

theorem run_plain {l : LW σ} {op : WOp} (h : op.Appends = true) : op.run (LW.ops W) l = op.run (plainOps W) l := by
  cases op with
  | writeChain fs =>
    show (LW.ops W).writeChain fs l = (plainOps W).writeChain fs l
    unfold WriterOps.writeChain
    rw [writeFragments_congr (W₁ := LW.ops W) (W₂ := plainOps W) fun _ _ => rfl]
    rfl
  | seek q => cases h
  | truncate n => cases h
  | _ => rfl

theorem runAll_plain {ops : List WOp} {l : LW σ} (h : ∀ op ∈ ops, op.Appends = true) :
    WOp.runAll (LW.ops W) ops l = WOp.runAll (plainOps W) ops l := by
  induction ops generalizing l with
  | nil => rfl
  | cons op ops ih =>
    unfold WOp.runAll
    dsimp only
    rw [run_plain (h _ (List.mem_cons_self ..)), ih fun op' hm => h _ (List.mem_cons_of_mem _ hm)]

/-! ## Exceeding the limit -/

section
variable {view dest : σ → Bytes} {Inv : σ → Prop}

/-- If the writer fails although the destination did not, then the limit was exceeded, and everything up to the limit was written to the
destination. -/
def OverPost (W : WriterOps σ) (view : σ → Bytes) (bs : Bytes) (l : LW σ) (r : LW σ) : Prop :=
  l.ok = true → r.ok = false → W.ok r.dst = true →
    view r.dst = (overlay (viewOf W view l) l.pos bs).take l.maxPos ∧ l.maxPos < l.pos + bs.length

theorem take_overlay {c : Bytes} {p m : Nat} {bs : Bytes} (hm : m ≤ p) (hp : p ≤ c.length) : (overlay c p bs).take m = c.take m := by
  by_cases hb : bs = []
  · rw [hb, overlay_nil]
  · apply List.ext_getElem?
    intro i
    rw [List.getElem?_take, List.getElem?_take]
    by_cases hi : i < m
    · rw [if_pos hi, if_pos hi, overlay_getElem? hb, if_pos (by omega), if_pos (by omega)]
    · rw [if_neg hi, if_neg hi]

variable (L : W.Lawful view dest Inv)
include L

theorem pos_le {l : LW σ} (h : LInv W view dest Inv true l) (ho : l.ok = true) : l.pos ≤ (viewOf W view l).length := by
  obtain ⟨o1, o2, o3, o4⟩ := h.isOk ho
  unfold pos; rw [o2]
  exact le_overlay_length ((h.short rfl).2 ho).1

theorem OverPost.weaken {a : Bytes} (b : Bytes) {l r : LW σ} (h : LInv W view dest Inv true l) (hp : OverPost W view a l r) :
    OverPost W view (a ++ b) l r := by
  intro ho hf hd
  obtain ⟨h1, h2⟩ := hp ho hf hd
  rw [List.length_append]
  refine ⟨?_, by omega⟩
  rw [h1, ← overlay_append]
  exact (take_overlay (p := l.pos + a.length) (by omega) (le_overlay_length (pos_le L h ho))).symm

omit L in
theorem OverPost.ofOk {bs : Bytes} {l r : LW σ} (h : r.ok = true) : OverPost W view bs l r := fun _ hf => by rw [h] at hf; cases hf

omit L in
theorem OverPost.ofDst {bs : Bytes} {l r : LW σ} (h : W.ok r.dst = false) : OverPost W view bs l r := fun _ _ hf => by rw [h] at hf; cases hf

omit L in
theorem OverPost.ofFailed {bs : Bytes} {l r : LW σ} (h : l.ok = false) : OverPost W view bs l r := fun hf => by rw [h] at hf; cases hf

theorem over_sync {bs : Bytes} {l : LW σ} (h : LInv W view dest Inv true l) (ho : l.ok = true) (hm : l.maxPos < l.pos) :
    OverPost W view bs l (l.sync W).2 := by
  have : OverPost W view [] l (l.sync W).2 := fun _ _ _ => by
    obtain ⟨s1, s2, s3, s4, s5, s6, s7⟩ := sync_over L h ho hm
    obtain ⟨o1, o2, o3, o4⟩ := h.isOk ho
    obtain ⟨u2, u3⟩ := (h.short rfl).2 ho
    rw [overlay_nil, s6]
    refine ⟨overlay_take u2 u3 ?_, by simpa using hm⟩
    unfold pos at hm; omega
  exact this.weaken L bs h

theorem make_ok_iff {l : LW σ} {d : σ} (ho : l.ok = true) (hp : W.ok d = true → W.pos d ≤ l.maxPos) (bs : Bytes) (l0 : LW σ) :
    OverPost W view bs l0 (l.make W d) := by
  intro _ hf hd
  obtain ⟨m1, m2, -⟩ := make_eq ho hp
  rw [m2] at hd
  rw [m1, hd] at hf; cases hf

/-- Functions which do not write, provided that the destination does not go past the limit. -/
theorem over_through {bs : Bytes} {l : LW σ} (h : LInv W view dest Inv true l) {f : σ → Bool × σ}
    (hf : l.ok = true → l.pos ≤ l.maxPos → W.ok (f (W.put l.pend l.dst)).2 = true → W.pos (f (W.put l.pend l.dst)).2 ≤ l.maxPos) :
    OverPost W view bs l (l.through W f).2 := by
  rcases through_cases L h f with ⟨e, ho⟩ | ⟨e, ho, hm⟩ | ⟨e, ho, hm⟩
  · exact OverPost.ofFailed ho
  · rw [e]; exact over_sync L h ho hm
  · rw [e]
    obtain ⟨s1, -⟩ := sync_spec L h ho hm
    exact make_ok_iff L (by rw [s1]; exact ho) (fun hk => by rw [s1]; exact hf ho hm hk) _ _

omit L in
theorem post_pos {f : σ → Bool × σ} {s : σ} {bs : Bytes} (h : WritePost W view dest Inv bs s (f s)) (hk : W.ok (f s).2 = true) :
    W.pos (f s).2 = W.pos s + bs.length := by
  cases hr : (f s).1 with
  | true => exact (h.2.1 hr).2.1
  | false => rw [h.2.2.1 hr] at hk; cases hk

theorem over_quiet {bs : Bytes} {l : LW σ} (h : LInv W view dest Inv true l) {f : σ → Bool × σ}
    (hf : ∀ s, Inv s → WritePost W view dest Inv [] s (f s)) : OverPost W view bs l (l.through W f).2 := by
  refine over_through L h fun ho hm hk => ?_
  obtain ⟨s1, s2, s3, s4, -⟩ := sync_spec L h ho hm
  rw [post_pos (hf _ s2) hk, s4]; exact hm

theorem over_writeSlow {bs : Bytes} {l : LW σ} (h : LInv W view dest Inv true l) : OverPost W view bs l (l.writeSlow W bs).2 := by
  cases ho : l.ok with
  | false => exact OverPost.ofFailed ho
  | true =>
    unfold writeSlow
    rw [if_neg (by simp [ho])]
    dsimp only
    by_cases hm : l.maxPos < l.pos
    · rw [if_pos (sync_over L h ho hm).1]
      exact over_sync L h ho hm
    · have hm := Nat.le_of_not_lt hm
      obtain ⟨s1, s2, s3, s4, s5, s6, s7⟩ := sync_spec L h ho hm
      rw [if_neg (by rw [s1]; simp)]
      have e : (l.sync W).2.dst = W.put l.pend l.dst := by rw [s1]
      have e1 : (l.sync W).2.maxPos = l.maxPos := by rw [s1]
      have e2 : (l.sync W).2.pos = l.pos := by rw [s1]; simp [pos]
      have ho' : (l.sync W).2.ok = true := by rw [s1]; exact ho
      rw [e, e1, e2]
      by_cases hb : bs.length ≤ l.maxPos - l.pos
      · rw [if_pos hb]
        refine make_ok_iff L ho' (fun hk => ?_) _ _
        rw [e1, post_pos (f := W.write bs) (L.write s2).1 hk, s4]; omega
      · rw [if_neg hb]
        have hl : bs.length - (bs.length - (l.maxPos - l.pos)) = l.maxPos - l.pos := by omega
        rw [hl]
        have hw := (L.write (bs := bs.take (l.maxPos - l.pos)) s2).1
        by_cases hr : (W.write (bs.take (l.maxPos - l.pos)) (W.put l.pend l.dst)).1 = false
        · rw [if_pos hr]
          refine make_ok_iff L ho' (fun hk => ?_) _ _
          rw [hw.2.2.1 hr] at hk; cases hk
        · rw [if_neg hr]
          have hr := (Bool.not_eq_false _).mp hr
          intro _ _ _
          refine ⟨?_, by omega⟩
          show view (W.write (bs.take (l.maxPos - l.pos)) (W.put l.pend l.dst)).2 = _
          rw [(hw.2.1 hr).1, s3, s4]
          exact overlay_take (s7 rfl).1 (s7 rfl).2 (by omega)

theorem over_fillSlow {n : Nat} {b : UInt8} {l : LW σ} (h : LInv W view dest Inv true l) :
    OverPost W view (List.replicate n b) l (l.fillSlow W n b).2 := by
  cases ho : l.ok with
  | false => exact OverPost.ofFailed ho
  | true =>
    unfold fillSlow
    rw [if_neg (by simp [ho])]
    dsimp only
    by_cases hm : l.maxPos < l.pos
    · rw [if_pos (sync_over L h ho hm).1]
      exact over_sync L h ho hm
    · have hm := Nat.le_of_not_lt hm
      obtain ⟨s1, s2, s3, s4, s5, s6, s7⟩ := sync_spec L h ho hm
      rw [if_neg (by rw [s1]; simp)]
      have e : (l.sync W).2.dst = W.put l.pend l.dst := by rw [s1]
      have e1 : (l.sync W).2.maxPos = l.maxPos := by rw [s1]
      have e2 : (l.sync W).2.pos = l.pos := by rw [s1]; simp [pos]
      have ho' : (l.sync W).2.ok = true := by rw [s1]; exact ho
      rw [e, e1, e2]
      by_cases hb : n ≤ l.maxPos - l.pos
      · rw [if_pos hb]
        refine make_ok_iff L ho' (fun hk => ?_) _ _
        rw [e1, post_pos (f := W.fill n b) (L.fill s2).1 hk, s4, List.length_replicate]; omega
      · rw [if_neg hb]
        have hw := (L.fill (n := l.maxPos - l.pos) (b := b) s2).1
        by_cases hr : (W.fill (l.maxPos - l.pos) b (W.put l.pend l.dst)).1 = false
        · rw [if_pos hr]
          refine make_ok_iff L ho' (fun hk => ?_) _ _
          rw [hw.2.2.1 hr] at hk; cases hk
        · rw [if_neg hr]
          have hr := (Bool.not_eq_false _).mp hr
          intro _ _ _
          rw [List.length_replicate]
          refine ⟨?_, by omega⟩
          show view (W.fill (l.maxPos - l.pos) b (W.put l.pend l.dst)).2 = _
          rw [(hw.2.1 hr).1, s3, s4]
          have := overlay_take (bs := List.replicate n b) (s7 rfl).1 (s7 rfl).2 (by rw [List.length_replicate]; omega)
          rw [List.take_replicate, Nat.min_eq_left (by omega)] at this
          exact this

theorem over_write (hq : W.QuietRandomAccess Inv) {bs : Bytes} {l : LW σ} (h : LInv W view dest Inv true l) :
    OverPost W view bs l ((LW.ops W).write bs l).2 := by
  unfold WriterOps.write
  split
  · cases ho : l.ok with
    | false => exact OverPost.ofFailed ho
    | true => exact OverPost.ofOk ho
  · exact over_writeSlow L h

theorem over_seq {a b : Bytes} {l : LW σ} {r1 : Bool × LW σ} {r2 : LW σ}
    (h1 : WritePost (LW.ops W) (viewOf W view) (fun l => dest l.dst) (LInv W view dest Inv true) a l r1) (ht : r1.1 = true)
    (hm : r1.2.maxPos = l.maxPos) (h2 : OverPost W view b r1.2 r2) : OverPost W view (a ++ b) l r2 := by
  intro ho hf hd
  obtain ⟨p1, p2, p3⟩ := h1.2.1 ht
  have p2 : r1.2.pos = l.pos + a.length := p2
  have p3 : r1.2.ok = l.ok := p3
  obtain ⟨q1, q2⟩ := h2 (p3.trans ho) hf hd
  rw [p1, p2, hm] at q1
  rw [p2, hm] at q2
  have q1 : view r2.dst = (overlay (overlay (viewOf W view l) l.pos a) (l.pos + a.length) b).take l.maxPos := q1
  rw [overlay_append] at q1
  rw [List.length_append]
  exact ⟨q1, by omega⟩

theorem over_fragments (hq : W.QuietRandomAccess Inv) {fs : List Bytes} {l : LW σ} (h : LInv W view dest Inv true l) :
    OverPost W view fs.flatten l ((LW.ops W).writeFragments fs l).2 := by
  induction fs generalizing l with
  | nil =>
    cases ho : l.ok with
    | false => exact OverPost.ofFailed ho
    | true => exact OverPost.ofOk ho
  | cons f fs ih =>
    unfold WriterOps.writeFragments
    dsimp only
    have hw := ((lawful L hq).write (bs := f) h).1
    split
    · exact (over_write L hq h).weaken L fs.flatten h
    · rename_i hr
      refine over_seq L hw ((Bool.not_eq_false _).mp hr) ?_ (ih hw.1)
      have := (keeps (W := W) l.maxPos l.exact l.owns).run (.write f) l ⟨rfl, rfl, rfl⟩
      exact this.1

/-- Every public function. -/
theorem over_run (hq : W.QuietRandomAccess Inv) {op : WOp} {l : LW σ} (h : LInv W view dest Inv true l) (hal : op.Allowed (LW.ops W) l) :
    OverPost W view op.bytes l (op.run (LW.ops W) l).2 := by
  have same : ∀ bs, OverPost W view bs l l := fun bs => by
    cases ho : l.ok with
    | false => exact OverPost.ofFailed ho
    | true => exact OverPost.ofOk ho
  have hput : ∀ bs, OverPost W view bs l (l.put bs) := same
  have hpush : ∀ n rec, OverPost W view [] l ((LW.ops W).push n rec l).2 := fun n rec => by
    unfold WriterOps.push; split
    · exact same _
    · exact over_quiet L h fun s hs => (L.push hs).1
  cases op with
  | push n rec => exact hpush n rec
  | writeChar b =>
    show OverPost W view [b] l ((LW.ops W).writeChar b l).2
    unfold WriterOps.writeChar
    dsimp only
    split
    · exact (hpush 1 0).weaken L [b] h
    · rename_i hr
      have hr := (Bool.not_eq_false _).mp hr
      have := ((lawful L hq).push (n := 1) (rec := 0) h)
      have h1 := (this.1.2.1 hr).2.2
      intro ho hf
      rw [show ((LW.ops W).put [b] ((LW.ops W).push 1 0 l).2).ok = ((LW.ops W).push 1 0 l).2.ok from rfl] at hf
      rw [show ((LW.ops W).push 1 0 l).2.ok = l.ok from h1, ho] at hf
      cases hf
  | write bs => exact over_write L hq h
  | writeExternal bs =>
    show OverPost W view bs l ((LW.ops W).writeExternal bs l).2
    unfold WriterOps.writeExternal
    split
    · exact hput bs
    · exact over_write L hq h
  | writeChain fs =>
    show OverPost W view fs.flatten l ((LW.ops W).writeChain fs l).2
    unfold WriterOps.writeChain
    split
    · exact hput _
    · exact over_fragments L hq h
  | fill n b =>
    show OverPost W view (List.replicate n b) l ((LW.ops W).fill n b l).2
    unfold WriterOps.fill
    split
    · exact hput _
    · exact over_fillSlow L h
  | flush t =>
    show OverPost W view [] l (l.flushImpl W t).2
    unfold flushImpl
    split
    · refine over_through L h fun ho hm hk => ?_
      rw [(sync_spec L h ho hm).2.2.2.1]; exact hm
    · exact over_quiet L h fun s hs => (L.flushImpl _ s hs).1
  | readMode q => exact over_quiet L h fun s hs => (L.readModeImpl q s hs).1
  | seek q =>
    show OverPost W view [] l ((LW.ops W).seek q l).2
    unfold WriterOps.seek
    split
    · exact same _
    · show OverPost W view [] l (l.through W (W.seek (min q l.maxPos))).2
      refine over_through L h fun ho hm hk => ?_
      obtain ⟨s1, s2, s3, s4, s5, s6, s7⟩ := sync_spec L h ho hm
      obtain ⟨k1, k2, k3, k4, -⟩ := L.seek (q := min q l.maxPos) s2
      cases hr : (W.seek (min q l.maxPos) (W.put l.pend l.dst)).1 with
      | true => rw [(k3 hr).1]; omega
      | false =>
        rcases k4 hr with h' | ⟨h', -⟩
        · rw [h'] at hk; cases hk
        · rw [h', s3]; exact (s7 rfl).2
  | size =>
    show OverPost W view [] l (l.sizeImpl W).2
    cases ho : l.ok with
    | false => exact OverPost.ofFailed ho
    | true =>
      unfold sizeImpl
      rw [if_neg (by simp [ho])]
      dsimp only
      by_cases hm : l.maxPos < l.pos
      · rw [if_pos (sync_over L h ho hm).1]
        exact over_sync L h ho hm
      · have hm := Nat.le_of_not_lt hm
        obtain ⟨s1, s2, s3, s4, s5, s6, s7⟩ := sync_spec L h ho hm
        rw [if_neg (by rw [s1]; simp)]
        refine make_ok_iff L (by rw [s1]; exact ho) (fun hk => ?_) _ _
        rw [show (l.sync W).2.dst = W.put l.pend l.dst by rw [s1]] at hk ⊢
        obtain ⟨k1, k2, k3, -⟩ := L.sizeImpl _ s2
        cases hr : (W.sizeImpl (W.put l.pend l.dst)).1 with
        | none => rw [k3 hr] at hk; cases hk
        | some n => rw [(k2 n hr).2.2.1, s4, s1]; exact hm
  | truncate n =>
    show OverPost W view [] l (l.truncateImpl W n).2
    have hra : (W.randomAccess l.dst).1 = true := hal
    cases ho : l.ok with
    | false => exact OverPost.ofFailed ho
    | true =>
      have key : ∀ l' : LW σ, LInv W view dest Inv true l' → l'.dst = l.dst → l'.ok = true → l'.pos ≤ l'.maxPos →
          W.ok (W.truncateImpl n (W.put l'.pend l'.dst)).2 = true → W.pos (W.truncateImpl n (W.put l'.pend l'.dst)).2 ≤ l'.maxPos := by
        intro l' h' e ho' hm hk
        obtain ⟨s1, s2, s3, s4, s5, s6, s7⟩ := sync_spec L h' ho' hm
        have hra' : (W.randomAccess (W.put l'.pend l'.dst)).1 = true := by
          rw [(hq _ h'.dst).2.2 _ (h'.isOk ho').2.2.1, e]; exact hra
        obtain ⟨k1, k2, k3, -⟩ := L.truncateImpl n _ s2 hra'
        rw [s3, s4] at k2
        rw [s3] at k3
        cases hr : (W.truncateImpl n (W.put l'.pend l'.dst)).1 with
        | true =>
          rw [(k2 hr).2.2.1]
          have := (k2 hr).1
          have := s7 rfl
          omega
        | false =>
          rcases k3 hr with h'' | ⟨-, h'', -⟩
          · rw [h''] at hk; cases hk
          · rw [h'']; exact (s7 rfl).2
      by_cases hc : l.maxPos < l.pos ∧ n ≤ l.maxPos
      · have e : l.truncateImpl W n = ({ l with pend := l.pend.take (l.pend.length - (l.pos - l.maxPos)) } : LW σ).through W (W.truncateImpl n) := by
          unfold truncateImpl; rw [if_neg (by simp [ho])]; dsimp only; rw [if_pos hc]
        obtain ⟨o1, o2, o3, o4⟩ := h.isOk ho
        have hle : ({ l with pend := l.pend.take (l.pend.length - (l.pos - l.maxPos)) } : LW σ).pos ≤ l.maxPos := by
          have := hc.1
          show l.base + (l.pend.take (l.pend.length - (l.pos - l.maxPos))).length ≤ l.maxPos
          rw [List.length_take]; unfold pos at *; omega
        have h' : LInv W view dest Inv true ({ l with pend := l.pend.take (l.pend.length - (l.pos - l.maxPos)) } : LW σ) := by
          refine ⟨h.dst, fun hf => ?_, fun _ => ⟨o1, o2, ?_, o4⟩, h.short⟩
          · exact (Bool.false_ne_true (hf.symm.trans ho)).elim
          · dsimp only; rw [List.length_take]; omega
        rw [e]
        intro _ hf hd
        rcases through_cases L h' (W.truncateImpl n) with ⟨e', ho'⟩ | ⟨e', ho', hm⟩ | ⟨e', ho', hm⟩
        · exact (Bool.false_ne_true (ho'.symm.trans ho)).elim
        · exact absurd hle (by have : l.maxPos < _ := hm; omega)
        · obtain ⟨s1, -⟩ := sync_spec L h' ho' hm
          rw [e'] at hf hd ⊢
          have := make_ok_iff (view := view) L (l := (({ l with pend := l.pend.take (l.pend.length - (l.pos - l.maxPos)) } : LW σ).sync W).2)
            (d := (W.truncateImpl n (W.put ({ l with pend := l.pend.take (l.pend.length - (l.pos - l.maxPos)) } : LW σ).pend l.dst)).2)
            (by rw [s1]; exact ho') (fun hk => by rw [s1]; exact key _ h' rfl ho' hm hk) [] l
          exact this ho hf hd
      · have e : l.truncateImpl W n = l.through W (W.truncateImpl n) := by
          unfold truncateImpl; rw [if_neg (by simp [ho])]; dsimp only; rw [if_neg hc]
        rw [e]
        exact over_through L h fun ho' hm hk => key l h rfl ho' hm hk
  | supportsRandomAccess => exact fun ho hf => (Bool.false_ne_true (Eq.trans (Eq.symm hf) ho)).elim
  | setWriteSizeHint n =>
    show OverPost W view [] l (l.setHint W n)
    cases ho : l.ok with
    | false => exact OverPost.ofFailed ho
    | true =>
      unfold setHint
      split
      · rw [if_neg (by simp [ho])]
        dsimp only
        by_cases hm : l.maxPos < l.pos
        · rw [if_pos (sync_over L h ho hm).1]
          exact over_sync L h ho hm
        · have hm := Nat.le_of_not_lt hm
          obtain ⟨s1, s2, s3, s4, s5, s6, s7⟩ := sync_spec L h ho hm
          rw [if_neg (by rw [s1]; simp)]
          refine make_ok_iff L (by rw [s1]; exact ho) (fun hk => ?_) _ _
          rw [show (l.sync W).2.dst = W.put l.pend l.dst by rw [s1]] at hk ⊢
          obtain ⟨k1, k2, -⟩ := L.setHint (n.map fun n => min n ((l.sync W).2.maxPos - (l.sync W).2.pos)) _ s2
          rw [(k2 hk).2, s4, s1]; exact hm
      · exact OverPost.ofOk ho

/-- A writer which failed does not change the destination. -/
theorem failed_run (hq : W.QuietRandomAccess Inv) {op : WOp} {l : LW σ} (h : LInv W view dest Inv true l) (ho : l.ok = false) :
    (op.run (LW.ops W) l).2.ok = false ∧ (W.ok (op.run (LW.ops W) l).2.dst = true → W.ok l.dst = true ∧ view (op.run (LW.ops W) l).2.dst = view l.dst) := by
  have same : l.ok = false ∧ (W.ok l.dst = true → W.ok l.dst = true ∧ view l.dst = view l.dst) := ⟨ho, fun h => ⟨h, rfl⟩⟩
  have hth : ∀ f, (l.through W f).2 = l := fun f => by rw [through_failed ho]
  have hwr : ∀ bs, ((LW.ops W).write bs l).2.ok = false ∧ ((LW.ops W).write bs l).2.dst = l.dst := fun bs => by
    refine ⟨?_, ?_⟩
    · unfold WriterOps.write; split
      · exact ho
      · show (l.writeSlow W bs).2.ok = false
        unfold writeSlow; rw [if_pos ho]; exact ho
    · unfold WriterOps.write; split
      · rfl
      · show (l.writeSlow W bs).2.dst = l.dst
        unfold writeSlow; rw [if_pos ho]
  cases op with
  | push n rec =>
    have : ((WOp.push n rec).run (LW.ops W) l).2 = l := by
      show ((LW.ops W).push n rec l).2 = l
      unfold WriterOps.push; split
      · rfl
      · exact hth _
    rw [this]; exact same
  | writeChar b =>
    have hp : (LW.ops W).push 1 0 l = (false, l) := by
      unfold WriterOps.push
      rw [if_neg (by rw [show (LW.ops W).avail l = 0 from avail_spec ho]; omega)]
      exact through_failed ho
    have : (WOp.writeChar b).run (LW.ops W) l = (false, l) := by
      show (LW.ops W).writeChar b l = _
      unfold WriterOps.writeChar
      rw [hp]; rfl
    rw [this]; exact same
  | write bs => exact ⟨(hwr bs).1, by rw [show ((WOp.write bs).run (LW.ops W) l).2.dst = l.dst from (hwr bs).2]; exact same.2⟩
  | writeExternal bs =>
    have : ((LW.ops W).writeExternal bs l).2.ok = false ∧ ((LW.ops W).writeExternal bs l).2.dst = l.dst := by
      unfold WriterOps.writeExternal; split
      · exact ⟨ho, rfl⟩
      · exact ⟨(hwr bs).1, (hwr bs).2⟩
    exact ⟨this.1, by rw [show ((WOp.writeExternal bs).run (LW.ops W) l).2.dst = l.dst from this.2]; exact same.2⟩
  | writeChain fs =>
    have hfr : ∀ (fs : List Bytes) (l' : LW σ), l'.ok = false → l'.dst = l.dst →
        ((LW.ops W).writeFragments fs l').2.ok = false ∧ ((LW.ops W).writeFragments fs l').2.dst = l.dst := by
      intro fs
      induction fs with
      | nil => exact fun l' h1 h2 => ⟨h1, h2⟩
      | cons f fs ih =>
        intro l' h1 h2
        have hw : ((LW.ops W).write f l').2.ok = false ∧ ((LW.ops W).write f l').2.dst = l.dst := by
          unfold WriterOps.write; split
          · exact ⟨h1, h2⟩
          · show (l'.writeSlow W f).2.ok = false ∧ (l'.writeSlow W f).2.dst = l.dst
            unfold writeSlow; rw [if_pos h1]; exact ⟨h1, h2⟩
        unfold WriterOps.writeFragments
        dsimp only
        split
        · exact hw
        · exact ih _ hw.1 hw.2
    have : ((LW.ops W).writeChain fs l).2.ok = false ∧ ((LW.ops W).writeChain fs l).2.dst = l.dst := by
      unfold WriterOps.writeChain; split
      · exact ⟨ho, rfl⟩
      · exact hfr fs l ho rfl
    exact ⟨this.1, by rw [show ((WOp.writeChain fs).run (LW.ops W) l).2.dst = l.dst from this.2]; exact same.2⟩
  | fill n b =>
    have : ((LW.ops W).fill n b l).2.ok = false ∧ ((LW.ops W).fill n b l).2.dst = l.dst := by
      unfold WriterOps.fill; split
      · exact ⟨ho, rfl⟩
      · show (l.fillSlow W n b).2.ok = false ∧ (l.fillSlow W n b).2.dst = l.dst
        unfold fillSlow; rw [if_pos ho]; exact ⟨ho, rfl⟩
    exact ⟨this.1, by rw [show ((WOp.fill n b).run (LW.ops W) l).2.dst = l.dst from this.2]; exact same.2⟩
  | flush t =>
    have : ((WOp.flush t).run (LW.ops W) l).2 = l := by
      show (l.flushImpl W t).2 = l
      unfold flushImpl; split <;> exact hth _
    rw [this]; exact same
  | readMode q => rw [show ((WOp.readMode q).run (LW.ops W) l).2 = l from hth _]; exact same
  | seek q =>
    have : ((WOp.seek q).run (LW.ops W) l).2 = l := by
      show ((LW.ops W).seek q l).2 = l
      unfold WriterOps.seek; split
      · rfl
      · exact hth _
    rw [this]; exact same
  | size =>
    have : (WOp.size.run (LW.ops W) l).2 = l := by
      show (l.sizeImpl W).2 = l
      unfold sizeImpl; rw [if_pos ho]
    rw [this]; exact same
  | truncate n =>
    have : ((WOp.truncate n).run (LW.ops W) l).2 = l := by
      show (l.truncateImpl W n).2 = l
      unfold truncateImpl; rw [if_pos ho]
    rw [this]; exact same
  | supportsRandomAccess =>
    refine ⟨ho, fun hd => ?_⟩
    obtain ⟨q1, -⟩ := hq _ h.dst
    have hd : W.ok (W.randomAccess l.dst).2 = true := hd
    exact ⟨q1 ▸ hd, ((L.randomAccess _ h.dst).2.2.1 hd).1⟩
  | setWriteSizeHint n =>
    refine ⟨(setHint_spec L h).2.2.1 ho, ?_⟩
    show W.ok (l.setHint W n).dst = true → W.ok l.dst = true ∧ view (l.setHint W n).dst = view l.dst
    unfold setHint
    by_cases hc : (l.owns && !l.exact) = true
    · rw [if_pos hc]
      by_cases hb : l.ok = false ∧ W.ok l.dst = true
      · rw [if_pos hb]; exact same.2
      · rw [if_neg hb]
        have hd : W.ok l.dst = false := by
          cases hd : W.ok l.dst with
          | false => rfl
          | true => exact absurd ⟨ho, hd⟩ hb
        obtain ⟨p1, p2, p3, p4, p5, p6⟩ := L.put [] l.dst h.dst (Nat.zero_le _)
        have hsy : (l.sync W).2.dst = W.put [] l.dst := by
          unfold sync
          rw [h.failed ho]
          split
          · simp [failLimit]
          · rfl
        intro hk
        exfalso
        dsimp only at hk
        by_cases hs : (l.sync W).1 = false
        · rw [if_pos hs, hsy, p5, hd] at hk; cases hk
        · rw [if_neg hs, hsy] at hk
          have hm : ∀ d, ((l.sync W).2.make W d).dst = d := fun d => by unfold make; split <;> rfl
          rw [hm, (L.setHint _ _ p1).2.2.1 (p5.trans hd)] at hk
          cases hk
    · rw [if_neg hc]; exact same.2

/-- If the writer failed and the destination did not, then the limit was exceeded by some call, and everything up to the limit was written. -/
theorem over_runAll (hq : W.QuietRandomAccess Inv) {ops : List WOp} {l : LW σ} (h : LInv W view dest Inv true l)
    (hal : WOp.AllAllowed (LW.ops W) ops l) (ho : l.ok = true) :
    let r := WOp.runAll (LW.ops W) ops l
    r.2.ok = false → W.ok r.2.dst = true →
      ∃ k op, ops[k]? = some op ∧
        let a := WOp.replay (ops.take k) (r.1.take k) (viewOf W view l, l.pos)
        l.maxPos < a.2 + op.bytes.length ∧ view r.2.dst = (overlay a.1 a.2 op.bytes).take l.maxPos := by
  induction ops generalizing l with
  | nil => exact fun hf => by rw [show (WOp.runAll (LW.ops W) [] l).2 = l from rfl, ho] at hf; cases hf
  | cons op ops ih =>
    obtain ⟨a1, a2⟩ := hal
    intro r hf hd
    have hr : r = ((op.run (LW.ops W) l).1 :: (WOp.runAll (LW.ops W) ops (op.run (LW.ops W) l).2).1,
      (WOp.runAll (LW.ops W) ops (op.run (LW.ops W) l).2).2) := rfl
    obtain ⟨i1, i2, i3, i4⟩ := (lawful L hq).run h a1
    have hm : (op.run (LW.ops W) l).2.maxPos = l.maxPos := by
      exact ((keeps (W := W) l.maxPos l.exact l.owns).run op l ⟨rfl, rfl, rfl⟩).1
    cases ho1 : (op.run (LW.ops W) l).2.ok with
    | true =>
      obtain ⟨k, op', g1, g2⟩ := ih i1 a2 ho1 hf hd
      refine ⟨k + 1, op', by simpa using g1, ?_⟩
      have e : (viewOf W view (op.run (LW.ops W) l).2, (op.run (LW.ops W) l).2.pos) = op.after (op.run (LW.ops W) l).1 (viewOf W view l, l.pos) := (i2 ho1).1
      rw [e, hm] at g2
      exact g2
    | false =>
      have hst : ∀ (ops : List WOp) (l' : LW σ), LInv W view dest Inv true l' → l'.ok = false → WOp.AllAllowed (LW.ops W) ops l' →
          W.ok (WOp.runAll (LW.ops W) ops l').2.dst = true →
          W.ok l'.dst = true ∧ view (WOp.runAll (LW.ops W) ops l').2.dst = view l'.dst := by
        intro ops
        induction ops with
        | nil => exact fun l' _ _ _ hd => ⟨hd, rfl⟩
        | cons op ops ih =>
          intro l' h' ho' ha hd
          obtain ⟨f1, f2⟩ := failed_run L hq (op := op) h' ho'
          obtain ⟨j1, j2⟩ := ih _ ((lawful L hq).run h' ha.1).1 f1 ha.2 hd
          obtain ⟨j3, j4⟩ := f2 j1
          exact ⟨j3, j2.trans j4⟩
      obtain ⟨g1, g2⟩ := hst ops _ i1 ho1 a2 hd
      obtain ⟨g3, g4⟩ := over_run L hq h a1 ho ho1 g1
      refine ⟨0, op, rfl, ?_⟩
      exact ⟨g4, g2.trans g3⟩

end
end LW
end Riegeli.Wtr

import Verif.PrefixLimitingWriter
/-!
# Proofs about `PrefixLimitingWriter`
-/
namespace Riegeli.Wtr

theorem overlay_behind (P c bs : Bytes) (p : Nat) : overlay (P ++ c) (P.length + p) bs = P ++ overlay c p bs := by
  unfold overlay
  split
  · rfl
  · have e1 : P.length + p - (P ++ c).length = p - c.length := by rw [List.length_append]; omega
    have e2 : (P ++ c).take (P.length + p) = P ++ c.take p := by rw [List.take_append, List.take_of_length_le (Nat.le_add_right _ _), Nat.add_sub_cancel_left]
    have e3 : (P ++ c).drop (P.length + p + bs.length) = c.drop (p + bs.length) := by
      rw [Nat.add_assoc, List.drop_append]; simp
    rw [e1, e2, e3]; simp only [List.append_assoc]

theorem resize_behind (P c : Bytes) (n : Nat) : resize (n + P.length) (P ++ c) = P ++ resize n c := by
  unfold resize
  have e1 : n + P.length - (P ++ c).length = n - c.length := by rw [List.length_append]; omega
  have e2 : (P ++ c).take (n + P.length) = P ++ c.take n := by rw [Nat.add_comm, List.take_append, List.take_of_length_le (Nat.le_add_right _ _), Nat.add_sub_cancel_left]
  rw [e1, e2, List.append_assoc]

theorem Mixed.behind {P d v w d' : Bytes} {p q p' q' : Nat} (h : Mixed p' q' d (P ++ v) (P ++ w) d') (hp : p' ≤ P.length + p → p ≤ p' - P.length)
    (hl : P.length ≤ p' ∨ q' = 0) (hq : q' ≤ P.length + q) :
    Mixed p q (d.drop P.length) v w (d'.drop P.length) ∧ ∀ i, i < P.length → d'[i]? = d[i]? ∨ d'[i]? = P[i]? := by
  constructor
  · intro i
    have hr : ∀ x : Bytes, (P ++ x)[P.length + i]? = x[i]? := fun x => by
      rw [List.getElem?_append_right (Nat.le_add_right _ _), Nat.add_sub_cancel_left]
    rw [List.getElem?_drop, List.getElem?_drop]
    have := h (P.length + i)
    rw [hr, hr] at this
    rcases this with h1 | h1 | h1 | ⟨h1, h2, h3⟩
    · exact .inl h1
    · exact .inr (.inl h1)
    · exact .inr (.inr (.inl h1))
    · refine .inr (.inr (.inr ⟨?_, by omega, h3⟩))
      rcases hl with hl | hl
      · by_cases hc : p' ≤ P.length + p
        · have := hp hc; omega
        · omega
      · omega
  · intro i hi
    have := h i
    rw [List.getElem?_append_left hi, List.getElem?_append_left hi] at this
    rcases this with h1 | h1 | h1 | ⟨h1, h2, h3⟩
    · exact .inl h1
    · exact .inr h1
    · exact .inr h1
    · omega

namespace PLW
variable {σ : Type} {W : WriterOps σ} {view dest : σ → Bytes} {Inv : σ → Prop} {P D0 : Bytes}

/-- What the `PrefixLimitingWriter` presents. -/
def viewOf (W : WriterOps σ) (view : σ → Bytes) (l : PLW σ) : Bytes := (overlay (view l.dst) (W.pos l.dst) l.pend).drop l.basePos

/-- What the destination has stored, without the prefix. -/
def destOf (dest : σ → Bytes) (l : PLW σ) : Bytes := (dest l.dst).drop l.basePos

/-- The invariant: `P` is the prefix, `D0` is what the destination had stored in the beginning. -/
structure PInv (W : WriterOps σ) (view dest : σ → Bytes) (Inv : σ → Prop) (P D0 : Bytes) (l : PLW σ) : Prop where
  dst : Inv l.dst
  base : l.basePos = P.length
  old : ∀ i, i < P.length → (dest l.dst)[i]? = D0[i]? ∨ (dest l.dst)[i]? = P[i]?
  unbroken : l.broken = false
  failed : l.ok = false → l.pend = [] ∧ W.ok l.dst = false
  isOk : l.ok = true → W.ok l.dst = true ∧ W.pos l.dst = P.length + l.start ∧ l.pend.length ≤ W.avail l.dst ∧ P <+: view l.dst

variable (L : W.Lawful view dest Inv)

theorem view_eq {l : PLW σ} (h : PInv W view dest Inv P D0 l) (ho : l.ok = true) :
    overlay (view l.dst) (W.pos l.dst) l.pend = P ++ viewOf W view l := by
  obtain ⟨o1, o2, o3, v, o4⟩ := h.isOk ho
  unfold viewOf
  rw [← o4, o2, overlay_behind, h.base, List.drop_left]

include L in
theorem sync_spec {l : PLW σ} (h : PInv W view dest Inv P D0 l) (ho : l.ok = true) :
    Inv (l.sync W) ∧ view (l.sync W) = P ++ viewOf W view l ∧ W.pos (l.sync W) = P.length + l.pos ∧ W.ok (l.sync W) = true ∧
    dest (l.sync W) = dest l.dst := by
  obtain ⟨o1, o2, o3, -⟩ := h.isOk ho
  obtain ⟨p1, p2, p3, p4, p5, p6⟩ := L.put l.pend l.dst h.dst o3
  refine ⟨p1, p2.trans (view_eq h ho), ?_, p5.trans o1, p6⟩
  show W.pos (W.put l.pend l.dst) = _
  rw [p3, o2]; unfold pos; omega

theorem make_inv {l : PLW σ} {d : σ} (h : PInv W view dest Inv P D0 l) (ho : l.ok = true) (hd : Inv d)
    (hk : W.ok d = true → P <+: view d ∧ P.length ≤ W.pos d)
    (hm : ∀ i, i < P.length → (dest d)[i]? = (dest l.dst)[i]? ∨ (dest d)[i]? = P[i]?) :
    PInv W view dest Inv P D0 (l.make W d) := by
  have e : (l.make W d).ok = W.ok d := by show (l.ok && W.ok d) = _; rw [ho]; rfl
  refine ⟨hd, h.base, fun i hi => ?_, ?_, fun hf => ⟨rfl, e.symm.trans hf⟩, fun hf => ?_⟩
  · rcases hm i hi with h1 | h1
    · show (dest d)[i]? = _ ∨ (dest d)[i]? = _
      rw [h1]; exact h.old i hi
    · exact .inr h1
  · show (l.broken || (W.ok d && decide (W.pos d < l.basePos))) = false
    rw [h.unbroken, h.base]
    cases hx : W.ok d with
    | false => rfl
    | true =>
      have := (hk hx).2
      rw [decide_eq_false (by omega)]; rfl
  · rw [e] at hf
    obtain ⟨k1, k2⟩ := hk hf
    refine ⟨hf, ?_, Nat.zero_le _, k1⟩
    show W.pos d = P.length + (W.pos d - l.basePos)
    rw [h.base]; omega

theorem make_view {l : PLW σ} {d : σ} (h : PInv W view dest Inv P D0 l) {v : Bytes} (hv : view d = P ++ v) :
    viewOf W view (l.make W d) = v := by
  show (overlay (view d) (W.pos d) []).drop l.basePos = v
  rw [overlay_nil, hv, h.base, List.drop_left]

theorem make_pos {l : PLW σ} {d : σ} (h : PInv W view dest Inv P D0 l) {p : Nat} (hp : W.pos d = P.length + p) : (l.make W d).pos = p := by
  show W.pos d - l.basePos + 0 = p
  rw [hp, h.base]; omega

theorem make_ok {l : PLW σ} {d : σ} (ho : l.ok = true) : (l.make W d).ok = W.ok d := by
  show (l.ok && W.ok d) = _; rw [ho]; rfl

theorem make_dest {l : PLW σ} {d : σ} (h : PInv W view dest Inv P D0 l) : destOf dest (l.make W d) = (dest d).drop P.length := by
  show (dest d).drop l.basePos = _; rw [h.base]

theorem destOf_eq {l : PLW σ} (h : PInv W view dest Inv P D0 l) : destOf dest l = (dest l.dst).drop P.length := by
  unfold destOf; rw [h.base]

/-- The contract for this class. -/
abbrev Post (W : WriterOps σ) (view dest : σ → Bytes) (Inv : σ → Prop) (P D0 : Bytes) (bs : Bytes) (l : PLW σ) (r : Bool × PLW σ) : Prop :=
  WritePost (PLW.ops W) (viewOf W view) (destOf dest) (PInv W view dest Inv P D0) bs l r

include L in
/-- Functions of the destination called when the buffer is synchronized. -/
theorem through_post {bs : Bytes} {l : PLW σ} (h : PInv W view dest Inv P D0 l) {f : σ → Bool × σ}
    (hf : ∀ s, Inv s → WritePost W view dest Inv bs s (f s)) :
    Post W view dest Inv P D0 bs l (l.through W f) ∧
    ((l.through W f).1 = true → l.ok = true ∧ (f (l.sync W)).1 = true ∧ (l.through W f).2 = l.make W (f (l.sync W)).2) := by
  unfold through
  cases ho : l.ok with
  | false =>
    rw [if_pos rfl]
    exact ⟨⟨h, fun h => (Bool.false_ne_true h).elim, fun _ => ho, fun _ => ⟨ho, rfl⟩, Mixed.old _ _ _ _ _⟩, fun h => (Bool.false_ne_true h).elim⟩
  | true =>
    rw [if_neg (by simp)]
    dsimp only
    obtain ⟨s1, s2, s3, s4, s5⟩ := sync_spec L h ho
    obtain ⟨a1, a2, a3, a4, a5⟩ := hf _ s1
    rw [s2, s3, overlay_behind] at a2 a5
    rw [s5] at a5
    generalize f (l.sync W) = r at *
    have hm := Mixed.behind (p := l.pos) (q := l.pos + bs.length) a5 (by omega) (by omega) (by omega)
    have ht : W.ok r.2 = true → r.1 = true := fun hk => by
      cases hr : r.1 with
      | true => rfl
      | false => rw [a3 hr] at hk; cases hk
    have hi : PInv W view dest Inv P D0 (l.make W r.2) := by
      refine make_inv h ho a1 (fun hk => ?_) hm.2
      obtain ⟨b1, b2, -⟩ := a2 (ht hk)
      exact ⟨by rw [b1]; exact List.prefix_append _ _, by rw [b2]; omega⟩
    refine ⟨⟨hi, fun hr => ?_, fun hr => (make_ok ho).trans (a3 hr), fun hf => ?_, ?_⟩, fun hr => ⟨rfl, hr, rfl⟩⟩
    · obtain ⟨b1, b2, b3⟩ := a2 hr
      refine ⟨make_view h b1, make_pos h (by rw [b2]; show _ = P.length + (l.pos + bs.length); omega), ?_⟩
      exact ((make_ok ho).trans (b3.trans s4)).trans ho.symm
    · exact (Bool.false_ne_true (Eq.trans (Eq.symm hf) ho)).elim
    · show Mixed l.pos (l.pos + bs.length) (destOf dest l) (viewOf W view l) (overlay (viewOf W view l) l.pos bs) (destOf dest (l.make W r.2))
      rw [make_dest h, destOf_eq h]; exact hm.1

theorem put_spec {bs : Bytes} {l : PLW σ} (h : PInv W view dest Inv P D0 l) (hb : bs.length ≤ l.avail W) :
    PInv W view dest Inv P D0 (l.put bs) ∧ viewOf W view (l.put bs) = overlay (viewOf W view l) l.pos bs ∧
    (l.put bs).pos = l.pos + bs.length ∧ (l.put bs).avail W = l.avail W - bs.length := by
  have hpos : (l.put bs).pos = l.pos + bs.length := by simp [put, pos, Nat.add_assoc]
  cases ho : l.ok with
  | false =>
    have hb0 : bs = [] := by
      unfold avail at hb; rw [ho] at hb
      exact List.length_eq_zero_iff.mp (Nat.le_zero.mp hb)
    subst hb0
    have e : l.put [] = l := by unfold put; rw [List.append_nil]
    rw [e, overlay_nil]
    exact ⟨h, rfl, rfl, rfl⟩
  | true =>
    obtain ⟨o1, o2, o3, o4⟩ := h.isOk ho
    have hb' : bs.length ≤ W.avail l.dst - l.pend.length := by unfold avail at hb; rwa [if_pos ho] at hb
    have hl : (l.put bs).pend.length = l.pend.length + bs.length := by simp [put]
    refine ⟨⟨h.dst, h.base, h.old, h.unbroken, fun hf => ?_, fun _ => ⟨o1, o2, ?_, o4⟩⟩, ?_, hpos, ?_⟩
    · exact (Bool.false_ne_true (Eq.trans (Eq.symm hf) ho)).elim
    · rw [hl]; show _ ≤ W.avail l.dst; omega
    · have e := view_eq h ho
      show (overlay (view l.dst) (W.pos l.dst) (l.pend ++ bs)).drop l.basePos = _
      rw [← overlay_append, e, o2, show P.length + l.start + l.pend.length = P.length + l.pos by unfold pos; omega, overlay_behind, h.base,
        List.drop_left]
    · unfold avail
      rw [hl, show (l.put bs).ok = l.ok from rfl, ho, if_pos rfl, if_pos rfl]
      show W.avail l.dst - _ = _
      omega

include L in
theorem pushSlow_spec {n rec : Nat} {l : PLW σ} (h : PInv W view dest Inv P D0 l) :
    Post W view dest Inv P D0 [] l (l.pushSlow W n rec) ∧
    ((l.pushSlow W n rec).1 = true → n ≤ (l.pushSlow W n rec).2.avail W ∧ l.ok = true) := by
  obtain ⟨t1, t2⟩ := through_post L h (f := W.push n rec) fun s hs => (L.push hs).1
  refine ⟨t1, fun ht => ?_⟩
  obtain ⟨u1, u2, u3⟩ := t2 ht
  have hk : (l.through W (W.push n rec)).2.ok = true := ((t1.2.1 ht).2.2).trans u1
  obtain ⟨-, p2⟩ := L.push (n := n) (rec := rec) (sync_spec L h u1).1
  refine ⟨?_, u1⟩
  show n ≤ avail W (l.through W _).2
  unfold avail
  rw [if_pos hk, u3]
  exact (p2 u2).1

include L in
theorem flushImpl_spec {t : FlushType} {l : PLW σ} (h : PInv W view dest Inv P D0 l) :
    Post W view dest Inv P D0 [] l (l.flushImpl W t) ∧
    ((l.flushImpl W t).1 = true → l.ok = true ∧ view (l.flushImpl W t).2.dst = P ++ viewOf W view l ∧
      W.pos (l.flushImpl W t).2.dst = P.length + l.pos ∧
      (t ≠ .fromObject → dest (l.flushImpl W t).2.dst = P ++ viewOf W view l)) := by
  have key : ∀ f : σ → Bool × σ, (∀ s, Inv s → WritePost W view dest Inv [] s (f s)) →
      (∀ s, Inv s → t ≠ .fromObject → (f s).1 = true → dest (f s).2 = view s) →
      Post W view dest Inv P D0 [] l (l.through W f) ∧
      ((l.through W f).1 = true → l.ok = true ∧ view (l.through W f).2.dst = P ++ viewOf W view l ∧
        W.pos (l.through W f).2.dst = P.length + l.pos ∧
        (t ≠ .fromObject → dest (l.through W f).2.dst = P ++ viewOf W view l)) := by
    intro f hf hd
    obtain ⟨t1, t2⟩ := through_post L h (f := f) hf
    refine ⟨t1, fun ht => ?_⟩
    obtain ⟨u1, u2, u3⟩ := t2 ht
    obtain ⟨s1, s2, s3, s4, s5⟩ := sync_spec L h u1
    obtain ⟨b1, b2, b3⟩ := (hf _ s1).2.1 u2
    rw [overlay_nil] at b1
    rw [u3]
    exact ⟨u1, b1.trans s2, b2.trans s3, fun hc => (hd _ s1 hc u2).trans s2⟩
  have deep := key (W.flushImpl t) (fun s hs => (L.flushImpl t s hs).1) (fun s hs hc ht => ((L.flushImpl t s hs).2 ht).2 hc)
  unfold flushImpl
  cases t <;> cases ho : l.owns <;> dsimp only <;> try exact deep
  refine key (fun d => (true, d)) (fun s hs => ⟨hs, fun _ => ⟨(overlay_nil _ _).symm, rfl, rfl⟩, fun h => (Bool.false_ne_true h.symm).elim,
    fun h => ⟨h, rfl⟩, Mixed.old _ _ _ _ _⟩) (fun s hs hc => ?_)
  exact absurd rfl hc

include L in
theorem readModeImpl_spec {q : Nat} {l : PLW σ} (h : PInv W view dest Inv P D0 l) :
    Post W view dest Inv P D0 [] l (l.readModeImpl W q) ∧
    ((l.readModeImpl W q).1 = true → l.ok = true ∧ dest (l.readModeImpl W q).2.dst = P ++ viewOf W view l) := by
  obtain ⟨t1, t2⟩ := through_post L h (f := W.readModeImpl (q + l.basePos)) fun s hs => (L.readModeImpl _ _ hs).1
  refine ⟨t1, fun ht => ?_⟩
  obtain ⟨u1, u2, u3⟩ := t2 ht
  obtain ⟨s1, s2, s3, s4, s5⟩ := sync_spec L h u1
  refine ⟨u1, ?_⟩
  show dest (l.through W _).2.dst = _
  rw [u3]
  exact ((L.readModeImpl _ _ s1).2 u2).2.trans s2

include L in
theorem seekSlow_spec {q : Nat} {l : PLW σ} (h : PInv W view dest Inv P D0 l) :
    let r := l.seekSlow W q
    PInv W view dest Inv P D0 r.2 ∧
    (r.2.ok = true → viewOf W view r.2 = viewOf W view l) ∧
    (r.1 = true → l.ok = true ∧ r.2.ok = true ∧ r.2.pos = q ∧ q ≤ max (viewOf W view l).length l.pos) ∧
    (r.1 = false → r.2.ok = false ∨ (r.2.pos = (viewOf W view l).length ∧ (viewOf W view l).length < q)) ∧
    (l.ok = false → r.2.ok = false ∧ destOf dest r.2 = destOf dest l) ∧
    Mixed 0 0 (destOf dest l) (viewOf W view l) (viewOf W view l) (destOf dest r.2) := by
  intro r
  cases ho : l.ok with
  | false =>
    have e : r = (false, l) := by show l.through W _ = _; unfold through; rw [if_pos ho]
    rw [e]
    refine ⟨h, fun _ => rfl, fun h => (Bool.false_ne_true h).elim, fun _ => .inl ho, fun _ => ⟨ho, rfl⟩, Mixed.old _ _ _ _ _⟩
  | true =>
    obtain ⟨s1, s2, s3, s4, s5⟩ := sync_spec L h ho
    obtain ⟨k1, k2, k3, k4, k5, k6⟩ := L.seek (q := q + P.length) s1
    have e : r = ((W.seek (q + P.length) (l.sync W)).1, l.make W (W.seek (q + P.length) (l.sync W)).2) := by
      show l.through W (W.seek (q + l.basePos)) = _; unfold through; rw [if_neg (by simp [ho]), h.base]
    rw [s2] at k2
    rw [s2, s3] at k3 k4
    rw [s2, s5] at k6
    rw [s4] at k3
    generalize W.seek (q + P.length) (l.sync W) = t at *
    rw [List.length_append] at k3 k4
    have hm := Mixed.behind (p := 0) (q := 0) k6 (by omega) (by omega) (by omega)
    rw [e]
    dsimp only
    refine ⟨make_inv h ho k1 (fun hk => ⟨by rw [k2 hk]; exact List.prefix_append _ _, ?_⟩) hm.2, fun hk => ?_, fun ht => ?_, fun hf => ?_,
      fun hf => (Bool.false_ne_true hf.symm).elim, by rw [make_dest h, destOf_eq h]; exact hm.1⟩
    · cases ht : t.1 with
      | true => have := (k3 ht).1; omega
      | false =>
        rcases k4 ht with h | ⟨h, -⟩
        · rw [h] at hk; cases hk
        · omega
    · rw [make_ok ho] at hk
      exact make_view h (k2 hk)
    · obtain ⟨j1, j2, j3⟩ := k3 ht
      exact ⟨rfl, (make_ok ho).trans j3, make_pos h (by omega), by omega⟩
    · rcases k4 hf with h' | ⟨j1, j2, -⟩
      · exact .inl ((make_ok ho).trans h')
      · exact .inr ⟨make_pos h j1, by omega⟩

include L in
theorem sizeImpl_spec {l : PLW σ} (h : PInv W view dest Inv P D0 l) :
    let r := l.sizeImpl W
    PInv W view dest Inv P D0 r.2 ∧
    (∀ n, r.1 = some n → n = (viewOf W view l).length ∧ viewOf W view r.2 = viewOf W view l ∧ r.2.pos = l.pos ∧ l.ok = true ∧ r.2.ok = true) ∧
    (r.1 = none → r.2.ok = false) ∧
    (l.ok = false → r.2.ok = false ∧ destOf dest r.2 = destOf dest l) ∧
    Mixed 0 0 (destOf dest l) (viewOf W view l) (viewOf W view l) (destOf dest r.2) := by
  intro r
  cases ho : l.ok with
  | false =>
    have e : r = (none, l) := by show l.sizeImpl W = _; unfold sizeImpl; rw [if_pos ho]
    rw [e]
    refine ⟨h, fun n hn => ?_, fun _ => ho, fun _ => ⟨ho, rfl⟩, Mixed.old _ _ _ _ _⟩
    cases hn
  | true =>
    obtain ⟨s1, s2, s3, s4, s5⟩ := sync_spec L h ho
    obtain ⟨k1, k2, k3, k4, k5⟩ := L.sizeImpl _ s1
    have e : r = ((W.sizeImpl (l.sync W)).1.map (fun n => n - l.basePos), l.make W (W.sizeImpl (l.sync W)).2) := by
      show l.sizeImpl W = _; unfold sizeImpl; rw [if_neg (by simp [ho])]
    rw [s2, s3] at k2
    rw [s2, s5] at k5
    generalize W.sizeImpl (l.sync W) = t at *
    have hm := Mixed.behind (p := 0) (q := 0) k5 (by omega) (by omega) (by omega)
    rw [e]
    dsimp only
    refine ⟨make_inv h ho k1 (fun hk => ?_) hm.2, fun n hn => ?_, fun hn => ?_, fun hf => (Bool.false_ne_true hf.symm).elim, by rw [make_dest h, destOf_eq h]; exact hm.1⟩
    · cases ht : t.1 with
      | none => rw [k3 ht] at hk; cases hk
      | some m =>
        obtain ⟨j1, j2, j3, -⟩ := k2 m ht
        exact ⟨by rw [j2]; exact List.prefix_append _ _, by omega⟩
    · cases ht : t.1 with
      | none => rw [ht] at hn; cases hn
      | some m =>
        rw [ht] at hn
        obtain ⟨j1, j2, j3, j4, j5⟩ := k2 m ht
        have hn : m - l.basePos = n := Option.some.inj hn
        rw [List.length_append] at j1
        have := h.base
        exact ⟨by omega, make_view h j2, make_pos h j3, rfl, (make_ok ho).trans j5⟩
    · cases ht : t.1 with
      | none => exact (make_ok ho).trans (k3 ht)
      | some m => rw [ht] at hn; cases hn

include L in
theorem truncateImpl_spec (hq : W.QuietRandomAccess Inv) {n : Nat} {l : PLW σ} (h : PInv W view dest Inv P D0 l) (hr : (W.randomAccess l.dst).1 = true) :
    let r := l.truncateImpl W n
    PInv W view dest Inv P D0 r.2 ∧
    (r.1 = true → n ≤ max (viewOf W view l).length l.pos ∧ viewOf W view r.2 = resize n (viewOf W view l) ∧ r.2.pos = n ∧ l.ok = true ∧ r.2.ok = true) ∧
    (r.1 = false → r.2.ok = false ∨
      (viewOf W view r.2 = viewOf W view l ∧ r.2.pos = (viewOf W view l).length ∧ (viewOf W view l).length < n)) ∧
    (l.ok = false → r.2.ok = false ∧ destOf dest r.2 = destOf dest l) ∧
    Mixed 0 0 (destOf dest l) (viewOf W view l)
      (if n ≤ max (viewOf W view l).length l.pos then resize n (viewOf W view l) else viewOf W view l) (destOf dest r.2) := by
  intro r
  cases ho : l.ok with
  | false =>
    have e : r = (false, l) := by show l.through W _ = _; unfold through; rw [if_pos ho]
    rw [e]
    exact ⟨h, fun h => (Bool.false_ne_true h).elim, fun _ => .inl ho, fun _ => ⟨ho, rfl⟩, Mixed.old _ _ _ _ _⟩
  | true =>
    obtain ⟨s1, s2, s3, s4, s5⟩ := sync_spec L h ho
    have hra : (W.randomAccess (l.sync W)).1 = true := ((hq _ h.dst).2.2 _ (h.isOk ho).2.2.1).trans hr
    obtain ⟨k1, k2, k3, k4, k5⟩ := L.truncateImpl (n + P.length) _ s1 hra
    have e : r = ((W.truncateImpl (n + P.length) (l.sync W)).1, l.make W (W.truncateImpl (n + P.length) (l.sync W)).2) := by
      show l.through W (W.truncateImpl (n + l.basePos)) = _; unfold through; rw [if_neg (by simp [ho]), h.base]
    rw [s2, s3] at k2
    rw [s2] at k3
    rw [s2, s3, s5] at k5
    rw [resize_behind] at k2 k5
    generalize W.truncateImpl (n + P.length) (l.sync W) = t at *
    rw [List.length_append] at k2 k3 k5
    have hm : Mixed 0 0 (dest l.dst) (P ++ viewOf W view l)
        (P ++ if n ≤ max (viewOf W view l).length l.pos then resize n (viewOf W view l) else viewOf W view l) (dest t.2) := by
      by_cases hc : n ≤ max (viewOf W view l).length l.pos
      · rw [if_pos (by omega)] at k5; rw [if_pos hc]; exact k5
      · rw [if_neg (by omega)] at k5; rw [if_neg hc]; exact k5
    have hm := Mixed.behind (p := 0) (q := 0) hm (by omega) (by omega) (by omega)
    rw [e]
    dsimp only
    refine ⟨make_inv h ho k1 (fun hk => ?_) hm.2, fun ht => ?_, fun hf => ?_, fun hf => (Bool.false_ne_true hf.symm).elim, by rw [make_dest h, destOf_eq h]; exact hm.1⟩
    · cases ht : t.1 with
      | true =>
        obtain ⟨j1, j2, j3, -⟩ := k2 ht
        exact ⟨by rw [j2]; exact List.prefix_append _ _, by omega⟩
      | false =>
        rcases k3 ht with h | ⟨j1, j2, -⟩
        · rw [h] at hk; cases hk
        · exact ⟨by rw [j1]; exact List.prefix_append _ _, by omega⟩
    · obtain ⟨j1, j2, j3, j4, j5⟩ := k2 ht
      exact ⟨by omega, make_view h j2, make_pos h (by omega), rfl, (make_ok ho).trans j5⟩
    · rcases k3 hf with h' | ⟨j1, j2, j3⟩
      · exact .inl ((make_ok ho).trans h')
      · exact .inr ⟨make_view h j1, make_pos h j2, by omega⟩

include L in
theorem randomAccess_spec (hq : W.QuietRandomAccess Inv) {l : PLW σ} (h : PInv W view dest Inv P D0 l) :
    PInv W view dest Inv P D0 (l.randomAccess W).2 ∧ destOf dest (l.randomAccess W).2 = destOf dest l ∧
    ((l.randomAccess W).2.ok = true → viewOf W view (l.randomAccess W).2 = viewOf W view l ∧ (l.randomAccess W).2.pos = l.pos) ∧
    ((l.randomAccess W).1 = true → (l.randomAccess W).2.ok = l.ok ∧ ((l.randomAccess W).2.randomAccess W).1 = true) ∧
    (l.ok = false → (l.randomAccess W).2.ok = false) := by
  obtain ⟨r1, r2, r3, r4, r5⟩ := L.randomAccess _ h.dst
  obtain ⟨q1, q2, -⟩ := hq _ h.dst
  unfold randomAccess
  dsimp only
  refine ⟨⟨r1, h.base, ?_, h.unbroken, fun hf => ⟨(h.failed hf).1, q1.trans (h.failed hf).2⟩, fun ho => ?_⟩, ?_, fun ho => ?_,
    fun ht => ⟨rfl, (r4 ht).2⟩, id⟩
  · dsimp only; rw [r2]; exact h.old
  · obtain ⟨o1, o2, o3, o4⟩ := h.isOk ho
    have := r3 (q1.trans o1)
    dsimp only
    rw [q1, q2, this.2, this.1]
    exact ⟨o1, o2, o3, o4⟩
  · show (dest (W.randomAccess l.dst).2).drop l.basePos = _
    rw [r2]; rfl
  · have := r3 (q1.trans (h.isOk ho).1)
    unfold viewOf
    dsimp only
    rw [this.1, this.2]
    exact ⟨rfl, rfl⟩

include L in
theorem setHint_spec {n : Option Nat} {l : PLW σ} (h : PInv W view dest Inv P D0 l) :
    PInv W view dest Inv P D0 (l.setHint W n) ∧
    ((l.setHint W n).ok = true → viewOf W view (l.setHint W n) = viewOf W view l ∧ (l.setHint W n).pos = l.pos) ∧
    (l.ok = false → (l.setHint W n).ok = false) ∧ destOf dest (l.setHint W n) = destOf dest l := by
  unfold setHint
  by_cases hw : l.owns = true
  · rw [if_pos hw]
    generalize n.map (fun n => l.basePos + n) = m
    cases ho : l.ok with
    | false =>
      obtain ⟨f1, f2⟩ := h.failed ho
      obtain ⟨p1, p2, p3, p4, p5, p6⟩ := L.put [] l.dst h.dst (Nat.zero_le _)
      have es : l.sync W = W.put [] l.dst := by unfold sync; rw [f1]
      rw [es]
      obtain ⟨k1, k2, k3, k4⟩ := L.setHint m _ p1
      have k3 := k3 (p5.trans f2)
      generalize W.setHint m (W.put [] l.dst) = d at *
      have e : (l.make W d).ok = false := by show (l.ok && W.ok d) = _; rw [ho]; rfl
      refine ⟨⟨k1, h.base, ?_, ?_, fun _ => ⟨rfl, k3⟩, fun hf => (Bool.false_ne_true (e.symm.trans hf)).elim⟩,
        fun hf => (Bool.false_ne_true (e.symm.trans hf)).elim, fun _ => e, ?_⟩
      · show ∀ i, i < P.length → (dest d)[i]? = _ ∨ (dest d)[i]? = _
        rw [k4, p6]; exact h.old
      · show (l.broken || (W.ok d && _)) = false
        rw [h.unbroken, k3]; rfl
      · show (dest d).drop l.basePos = _
        rw [k4, p6]; rfl
    | true =>
      obtain ⟨s1, s2, s3, s4, s5⟩ := sync_spec L h ho
      obtain ⟨k1, k2, k3, k4⟩ := L.setHint m _ s1
      rw [s2, s3] at k2
      rw [s5] at k4
      generalize W.setHint m (l.sync W) = d at *
      refine ⟨make_inv h ho k1 (fun hk => ?_) (fun i _ => .inl (by rw [k4])), fun hk => ?_, fun hf => (Bool.false_ne_true hf.symm).elim,
        by rw [make_dest h, destOf_eq h, k4]⟩
      · exact ⟨by rw [(k2 hk).1]; exact List.prefix_append _ _, by have := (k2 hk).2; omega⟩
      · rw [make_ok ho] at hk
        exact ⟨make_view h (k2 hk).1, make_pos h (k2 hk).2⟩
  · rw [if_neg hw]
    exact ⟨h, fun _ => ⟨rfl, rfl⟩, id, rfl⟩

include L in
/-- `PrefixLimitingWriter` meets the contract of `Writer`. -/
theorem lawful (hq : W.QuietRandomAccess Inv) : (PLW.ops W).Lawful (viewOf W view) (destOf dest) (PInv W view dest Inv P D0) where
  avail l h ho := by show l.avail W = 0; unfold avail; rw [show l.ok = false from ho]; rfl
  put bs l h hb := by
    obtain ⟨p1, p2, p3, p4⟩ := put_spec h hb
    exact ⟨p1, p2, p3, p4, rfl, rfl⟩
  pushSlow n rec l h _ := pushSlow_spec L h
  writeSlow bs l h _ := by
    obtain ⟨a, b⟩ := through_post L h (f := W.write bs) fun s hs => (L.write hs).1
    exact ⟨a, fun ht => (b ht).1⟩
  fillSlow n b l h _ := by
    obtain ⟨x, y⟩ := through_post L h (f := W.fill n b) fun s hs => (L.fill hs).1
    exact ⟨x, fun ht => (y ht).1⟩
  flushImpl t l h := by
    obtain ⟨a, b⟩ := flushImpl_spec L (t := t) h
    refine ⟨a, fun ht => ⟨(b ht).1, fun hc => ?_⟩⟩
    show destOf dest (l.flushImpl W t).2 = _
    rw [destOf_eq a.1, (b ht).2.2.2 hc, List.drop_left]
  seekSlow q l h _ := seekSlow_spec L h
  sizeImpl l h := sizeImpl_spec L h
  truncateImpl n l h hr := truncateImpl_spec L hq h hr
  readModeImpl q l h := by
    obtain ⟨a, b⟩ := readModeImpl_spec L (q := q) h
    refine ⟨a, fun ht => ⟨(b ht).1, ?_⟩⟩
    show destOf dest (l.readModeImpl W q).2 = _
    rw [destOf_eq a.1, (b ht).2, List.drop_left]
  randomAccess l h := randomAccess_spec L hq h
  setHint n l h := setHint_spec L h

/-- A new `PrefixLimitingWriter`. -/
theorem init_inv {d : σ} (h : Inv d) {owns : Bool} {basePos : Option Nat} (hb : basePos.getD (W.pos d) ≤ W.pos d)
    (hv : basePos.getD (W.pos d) ≤ (view d).length) :
    PInv W view dest Inv ((view d).take (basePos.getD (W.pos d))) (dest d) (PLW.init W d basePos owns) := by
  have hl : ((view d).take (basePos.getD (W.pos d))).length = basePos.getD (W.pos d) := by rw [List.length_take]; omega
  refine ⟨h, hl.symm, fun i _ => .inl rfl, ?_, fun hf => ⟨rfl, hf⟩, fun ho => ⟨ho, ?_, Nat.zero_le _, List.take_prefix _ _⟩⟩
  · show (false || (W.ok d && decide (W.pos d < basePos.getD (W.pos d)))) = false
    rw [decide_eq_false (by omega), Bool.and_false]; rfl
  · show W.pos d = _ + (W.pos d - basePos.getD (W.pos d))
    rw [hl]; omega

end PLW
end Riegeli.Wtr

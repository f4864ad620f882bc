import Verif.PositionShiftingWriter
/-!
# Proofs about `PositionShiftingWriter`
-/
namespace Riegeli.Wtr

theorem Mixed.shifted (Z : Bytes) {d v w d' : Bytes} {p q : Nat} (h : Mixed p q d v w d') :
    Mixed (Z.length + p) (Z.length + q) (Z ++ d) (Z ++ v) (Z ++ w) (Z ++ d') := by
  intro i
  by_cases hi : i < Z.length
  · left; rw [List.getElem?_append_left hi, List.getElem?_append_left hi]
  · have hi := Nat.le_of_not_lt hi
    rw [List.getElem?_append_right hi, List.getElem?_append_right hi, List.getElem?_append_right hi, List.getElem?_append_right hi]
    rcases h (i - Z.length) with h1 | h1 | h1 | ⟨h1, h2, h3⟩
    · exact .inl h1
    · exact .inr (.inl h1)
    · exact .inr (.inr (.inl h1))
    · exact .inr (.inr (.inr ⟨by omega, by omega, h3⟩))

theorem Mixed.shifted0 (Z : Bytes) {d v w d' : Bytes} (h : Mixed 0 0 d v w d') : Mixed 0 0 (Z ++ d) (Z ++ v) (Z ++ w) (Z ++ d') :=
  (h.shifted Z).wider 0 0 (Nat.le_refl _)

namespace PSW
variable {σ : Type} {W : WriterOps σ} {view dest : σ → Bytes} {Inv : σ → Prop} {kMax : Nat} {b : Nat}

/-- What the `PositionShiftingWriter` presents, after data standing for positions before the base position, which do not exist. -/
def viewOf (W : WriterOps σ) (view : σ → Bytes) (b : Nat) (l : PSW σ) : Bytes := List.replicate b 0 ++ overlay (view l.dst) (W.pos l.dst) l.pend

/-- What the destination has stored, after these data. -/
def destOf (dest : σ → Bytes) (b : Nat) (l : PSW σ) : Bytes := List.replicate b 0 ++ dest l.dst

/-- The invariant. -/
structure SInv (W : WriterOps σ) (Inv : σ → Prop) (kMax b : Nat) (l : PSW σ) : Prop where
  dst : Inv l.dst
  base : l.basePos = b
  fits : b ≤ kMax
  failed : l.ok = false → l.pend = [] ∧ l.lim = 0
  isOk : l.ok = true → W.ok l.dst = true ∧ l.start = b + W.pos l.dst ∧ l.pend.length ≤ l.lim ∧ l.lim ≤ W.avail l.dst ∧ l.start + l.lim ≤ kMax

theorem make_ok {n : Nat} {d : σ} {l : PSW σ} (ho : l.ok = true) : (l.make W kMax n d).2.ok = (l.make W kMax n d).1 := by
  unfold make dead
  dsimp only
  repeat' split
  all_goals first | rfl | exact ho | (rename_i h; exact absurd ho h)

theorem make_same {n : Nat} {d : σ} {l : PSW σ} : (l.make W kMax n d).2.dst = d ∧ (l.make W kMax n d).2.pend = [] ∧
    (l.make W kMax n d).2.basePos = l.basePos ∧ (l.make W kMax n d).2.owns = l.owns := by
  unfold make dead
  dsimp only
  repeat' split
  all_goals exact ⟨rfl, rfl, rfl, rfl⟩

theorem make_true {n : Nat} {d : σ} {l : PSW σ} (ht : (l.make W kMax n d).1 = true) (hb : l.basePos ≤ kMax) :
    W.ok d = true ∧ (l.make W kMax n d).2.start = l.basePos + W.pos d ∧ (l.make W kMax n d).2.lim ≤ W.avail d ∧
    (l.make W kMax n d).2.start + (l.make W kMax n d).2.lim ≤ kMax ∧ (n ≤ W.avail d → n ≤ (l.make W kMax n d).2.lim) := by
  revert ht
  unfold make dead
  dsimp only
  by_cases h1 : kMax - l.basePos < W.pos d + W.avail d
  · rw [if_pos h1]
    by_cases h2 : kMax - l.basePos < W.pos d
    · rw [if_pos h2]; nofun
    · rw [if_neg h2]
      by_cases h3 : kMax - l.basePos - W.pos d < n
      · rw [if_pos h3]; nofun
      · rw [if_neg h3]
        cases h4 : W.ok d with
        | false => rw [if_pos rfl]; nofun
        | true =>
          rw [if_neg (by simp)]
          intro _
          dsimp only
          exact ⟨rfl, by omega, by omega, by omega, by omega⟩
  · rw [if_neg h1]
    cases h4 : W.ok d with
    | false => rw [if_pos rfl]; nofun
    | true =>
      rw [if_neg (by simp)]
      intro _
      dsimp only
      exact ⟨rfl, by omega, by omega, by omega, fun h => h⟩

theorem make_false {n : Nat} {d : σ} {l : PSW σ} (ho : l.ok = true) (hf : (l.make W kMax n d).1 = false) :
    (l.make W kMax n d).2.lim = 0 ∧ (W.ok d = false ∨ kMax - l.basePos < W.pos d + n) := by
  revert hf
  unfold make dead
  dsimp only
  rw [if_pos ho, if_pos ho, if_pos ho]
  by_cases h1 : kMax - l.basePos < W.pos d + W.avail d
  · rw [if_pos h1]
    by_cases h2 : kMax - l.basePos < W.pos d
    · rw [if_pos h2]; exact fun _ => ⟨rfl, .inr (by omega)⟩
    · rw [if_neg h2]
      by_cases h3 : kMax - l.basePos - W.pos d < n
      · rw [if_pos h3]; exact fun _ => ⟨rfl, .inr (by omega)⟩
      · rw [if_neg h3]
        cases h4 : W.ok d with
        | false => rw [if_pos rfl]; exact fun _ => ⟨rfl, .inl rfl⟩
        | true => rw [if_neg (by simp)]; nofun
  · rw [if_neg h1]
    cases h4 : W.ok d with
    | false => rw [if_pos rfl]; exact fun _ => ⟨rfl, .inl rfl⟩
    | true => rw [if_neg (by simp)]; nofun

theorem make_inv {n : Nat} {d : σ} {l : PSW σ} (h : SInv W Inv kMax b l) (ho : l.ok = true) (hd : Inv d) :
    SInv W Inv kMax b (l.make W kMax n d).2 := by
  obtain ⟨m1, m2, m3, -⟩ := make_same (W := W) (kMax := kMax) (n := n) (d := d) (l := l)
  have mo := make_ok (W := W) (kMax := kMax) (n := n) (d := d) ho
  refine ⟨by rw [m1]; exact hd, m3.trans h.base, h.fits, fun hf => ⟨m2, (make_false ho (mo.symm.trans hf)).1⟩, fun hk => ?_⟩
  obtain ⟨t1, t2, t3, t4, -⟩ := make_true (mo.symm.trans hk) (by rw [h.base]; exact h.fits)
  rw [m1, m2]
  exact ⟨t1, by rw [t2, h.base], Nat.zero_le _, t3, t4⟩

theorem make_view {n : Nat} {d : σ} {l : PSW σ} : viewOf W view b (l.make W kMax n d).2 = List.replicate b 0 ++ view d := by
  obtain ⟨m1, m2, -⟩ := make_same (W := W) (kMax := kMax) (n := n) (d := d) (l := l)
  unfold viewOf; rw [m1, m2, overlay_nil]

theorem make_dest {n : Nat} {d : σ} {l : PSW σ} : destOf dest b (l.make W kMax n d).2 = List.replicate b 0 ++ dest d := by
  unfold destOf; rw [make_same.1]

theorem make_pos {n : Nat} {d : σ} {l : PSW σ} (h : SInv W Inv kMax b l) (ht : (l.make W kMax n d).1 = true) :
    (l.make W kMax n d).2.pos = b + W.pos d := by
  obtain ⟨-, t2, -⟩ := make_true ht (by rw [h.base]; exact h.fits)
  unfold pos
  rw [t2, make_same.2.1, h.base]; rfl

variable (L : W.Lawful view dest Inv)

include L in
theorem sync_spec {l : PSW σ} (h : SInv W Inv kMax b l) (ho : l.ok = true) :
    Inv (l.sync W) ∧ List.replicate b 0 ++ view (l.sync W) = viewOf W view b l ∧ b + W.pos (l.sync W) = l.pos ∧ W.ok (l.sync W) = true ∧
    dest (l.sync W) = dest l.dst := by
  obtain ⟨o1, o2, o3, o4, o5⟩ := h.isOk ho
  obtain ⟨p1, p2, p3, p4, p5, p6⟩ := L.put l.pend l.dst h.dst (Nat.le_trans o3 o4)
  refine ⟨p1, congrArg _ p2, ?_, p5.trans o1, p6⟩
  show b + W.pos (W.put l.pend l.dst) = _
  rw [p3]; unfold pos; omega

/-- The contract for this class. -/
abbrev Post (W : WriterOps σ) (view dest : σ → Bytes) (Inv : σ → Prop) (kMax b : Nat) (bs : Bytes) (l : PSW σ) (r : Bool × PSW σ) : Prop :=
  WritePost (PSW.opsOk W kMax) (viewOf W view b) (destOf dest b) (SInv W Inv kMax b) bs l r

theorem through_eq {n : Nat} {l : PSW σ} {f : σ → Bool × σ} (ho : l.ok = true) :
    l.through W kMax n f = ((l.make W kMax n (f (l.sync W)).2).1 && (f (l.sync W)).1, (l.make W kMax n (f (l.sync W)).2).2) := by
  unfold through; rw [if_neg (by simp [ho])]

include L in
/-- Functions of the destination called when the buffer is synchronized. -/
theorem through_post {n : Nat} {bs : Bytes} {l : PSW σ} (h : SInv W Inv kMax b l) {f : σ → Bool × σ}
    (hf : ∀ s, Inv s → WritePost W view dest Inv bs s (f s)) :
    Post W view dest Inv kMax b bs l (l.through W kMax n f) ∧
    ((l.through W kMax n f).1 = true → l.ok = true ∧ (f (l.sync W)).1 = true ∧ (l.make W kMax n (f (l.sync W)).2).1 = true) := by
  cases ho : l.ok with
  | false =>
    unfold through
    rw [if_pos ho]
    exact ⟨⟨h, fun h => (Bool.false_ne_true h).elim, fun _ => ho, fun _ => ⟨ho, rfl⟩, Mixed.old _ _ _ _ _⟩, fun h => (Bool.false_ne_true h).elim⟩
  | true =>
    rw [through_eq ho]
    obtain ⟨s1, s2, s3, s4, s5⟩ := sync_spec L h ho
    obtain ⟨a1, a2, a3, a4, a5⟩ := hf _ s1
    have hm := a5.shifted (List.replicate b 0)
    have hov : List.replicate b 0 ++ overlay (view (l.sync W)) (W.pos (l.sync W)) bs = overlay (viewOf W view b l) l.pos bs := by
      have := overlay_behind (List.replicate b 0) (view (l.sync W)) bs (W.pos (l.sync W))
      rw [s2, List.length_replicate, s3] at this
      exact this.symm
    rw [hov, s2, List.length_replicate, s3, ← Nat.add_assoc, s3, s5] at hm
    generalize f (l.sync W) = r at *
    have mo := make_ok (W := W) (kMax := kMax) (n := n) (d := r.2) ho
    refine ⟨⟨make_inv h ho a1, fun ht => ?_, fun hf => ?_, fun hf => ?_, ?_⟩, fun ht => ?_⟩
    · have ht : ((l.make W kMax n r.2).1 && r.1) = true := ht
      obtain ⟨t1, t2⟩ := (Bool.and_eq_true_iff).mp ht
      obtain ⟨b1, b2, b3⟩ := a2 t2
      refine ⟨?_, ?_, (mo.trans t1).trans ho.symm⟩
      · show viewOf W view b (l.make W kMax n r.2).2 = _
        rw [make_view, b1]; exact hov
      · show (l.make W kMax n r.2).2.pos = l.pos + bs.length
        rw [make_pos h t1, b2, ← s3]; omega
    · have hf : ((l.make W kMax n r.2).1 && r.1) = false := hf
      show (l.make W kMax n r.2).2.ok = false
      rw [mo]
      cases hr : r.1 with
      | true => rw [hr, Bool.and_true] at hf; exact hf
      | false =>
        cases hx : (l.make W kMax n r.2).1 with
        | false => rfl
        | true =>
          have := (make_true hx (by rw [h.base]; exact h.fits)).1
          rw [a3 hr] at this; cases this
    · exact (Bool.false_ne_true (Eq.trans (Eq.symm hf) ho)).elim
    · show Mixed l.pos (l.pos + bs.length) (destOf dest b l) (viewOf W view b l) (overlay (viewOf W view b l) l.pos bs) (destOf dest b (l.make W kMax n r.2).2)
      rw [make_dest]; exact hm
    · have ht : ((l.make W kMax n r.2).1 && r.1) = true := ht
      obtain ⟨t1, t2⟩ := (Bool.and_eq_true_iff).mp ht
      exact ⟨rfl, t2, t1⟩

theorem put_spec {bs : Bytes} {l : PSW σ} (h : SInv W Inv kMax b l) (hb : bs.length ≤ l.avail) :
    SInv W Inv kMax b (l.put bs) ∧ viewOf W view b (l.put bs) = overlay (viewOf W view b l) l.pos bs ∧
    (l.put bs).pos = l.pos + bs.length ∧ (l.put bs).avail = l.avail - bs.length := by
  have hpos : (l.put bs).pos = l.pos + bs.length := by simp [put, pos, Nat.add_assoc]
  cases ho : l.ok with
  | false =>
    have hb0 : bs = [] := by
      unfold avail at hb; rw [(h.failed ho).2, Nat.zero_sub] at hb
      exact List.length_eq_zero_iff.mp (Nat.le_zero.mp hb)
    subst hb0
    have e : l.put [] = l := by unfold put; rw [List.append_nil]
    rw [e, overlay_nil]
    exact ⟨h, rfl, rfl, rfl⟩
  | true =>
    obtain ⟨o1, o2, o3, o4, o5⟩ := h.isOk ho
    have hb' : bs.length ≤ l.lim - l.pend.length := hb
    have hl : (l.put bs).pend.length = l.pend.length + bs.length := by simp [put]
    refine ⟨⟨h.dst, h.base, h.fits, fun hf => ?_, fun _ => ⟨o1, o2, ?_, o4, o5⟩⟩, ?_, hpos, ?_⟩
    · exact (Bool.false_ne_true (Eq.trans (Eq.symm hf) ho)).elim
    · rw [hl]; show _ ≤ l.lim; omega
    · show List.replicate b 0 ++ overlay (view l.dst) (W.pos l.dst) (l.pend ++ bs) = _
      unfold viewOf
      rw [← overlay_append, ← overlay_behind, List.length_replicate]
      congr 1
      unfold pos; omega
    · unfold avail
      rw [hl]
      show l.lim - _ = _
      omega

include L in
theorem fail_spec {l : PSW σ} (h : SInv W Inv kMax b l) (ho : l.ok = true) : SInv W Inv kMax b (l.fail W kMax) ∧ (l.fail W kMax).ok = false ∧
    (l.fail W kMax).dst = l.sync W ∧ dest (l.fail W kMax).dst = dest l.dst := by
  obtain ⟨s1, s2, s3, s4, s5⟩ := sync_spec L h ho
  have hi := make_inv (n := 0) h ho s1
  obtain ⟨m1, m2, m3, m4⟩ := make_same (W := W) (kMax := kMax) (n := 0) (d := l.sync W) (l := l)
  unfold fail
  generalize (l.make W kMax 0 (l.sync W)).2 = m at *
  unfold dead
  cases hm : m.ok with
  | false => rw [if_neg (by simp)]; exact ⟨hi, hm, m1, by rw [m1]; exact s5⟩
  | true =>
    rw [if_pos rfl]
    exact ⟨⟨hi.dst, hi.base, hi.fits, fun _ => ⟨m2, rfl⟩, fun h => (Bool.false_ne_true h).elim⟩, rfl, m1, by rw [← s5, ← m1]⟩

include L in
theorem pushSlow_spec {n rec : Nat} {l : PSW σ} (h : SInv W Inv kMax b l) :
    Post W view dest Inv kMax b [] l (l.pushSlow W kMax n rec) ∧
    ((l.pushSlow W kMax n rec).1 = true → n ≤ (l.pushSlow W kMax n rec).2.avail ∧ l.ok = true) := by
  obtain ⟨t1, t2⟩ := through_post L h (n := n) (f := W.push n rec) fun s hs => (L.push hs).1
  refine ⟨t1, fun ht => ?_⟩
  obtain ⟨u1, u2, u3⟩ := t2 ht
  obtain ⟨-, p2⟩ := L.push (n := n) (rec := rec) (sync_spec L h u1).1
  refine ⟨?_, u1⟩
  obtain ⟨v1, v2, v3, v4, v5⟩ := make_true u3 (by rw [h.base]; exact h.fits)
  show n ≤ (l.through W kMax n _).2.avail
  rw [through_eq u1]
  unfold avail
  dsimp only
  rw [make_same.2.1]
  exact v5 (p2 u2).1

include L in
theorem flushImpl_spec {t : FlushType} {l : PSW σ} (h : SInv W Inv kMax b l) :
    Post W view dest Inv kMax b [] l (l.flushImpl W kMax t) ∧
    ((l.flushImpl W kMax t).1 = true → l.ok = true ∧ List.replicate b 0 ++ view (l.flushImpl W kMax t).2.dst = viewOf W view b l ∧
      b + W.pos (l.flushImpl W kMax t).2.dst = l.pos ∧
      (t ≠ .fromObject → List.replicate b 0 ++ dest (l.flushImpl W kMax t).2.dst = viewOf W view b l)) := by
  have key : ∀ f : σ → Bool × σ, (∀ s, Inv s → WritePost W view dest Inv [] s (f s)) →
      (∀ s, Inv s → t ≠ .fromObject → (f s).1 = true → dest (f s).2 = view s) →
      Post W view dest Inv kMax b [] l (l.through W kMax 0 f) ∧
      ((l.through W kMax 0 f).1 = true → l.ok = true ∧ List.replicate b 0 ++ view (l.through W kMax 0 f).2.dst = viewOf W view b l ∧
        b + W.pos (l.through W kMax 0 f).2.dst = l.pos ∧
        (t ≠ .fromObject → List.replicate b 0 ++ dest (l.through W kMax 0 f).2.dst = viewOf W view b l)) := by
    intro f hf hd
    obtain ⟨t1, t2⟩ := through_post L h (n := 0) (f := f) hf
    refine ⟨t1, fun ht => ?_⟩
    obtain ⟨u1, u2, u3⟩ := t2 ht
    obtain ⟨s1, s2, s3, s4, s5⟩ := sync_spec L h u1
    obtain ⟨b1, b2, b3⟩ := (hf _ s1).2.1 u2
    rw [overlay_nil] at b1
    rw [through_eq u1]
    dsimp only
    rw [make_same.1, b1, b2]
    exact ⟨u1, s2, s3, fun hc => by rw [hd _ s1 hc u2]; exact s2⟩
  have deep := key (W.flushImpl t) (fun s hs => (L.flushImpl t s hs).1) (fun s hs hc ht => ((L.flushImpl t s hs).2 ht).2 hc)
  unfold flushImpl
  cases t <;> cases ho : l.owns <;> dsimp only <;> try exact deep
  refine key (fun d => (true, d)) (fun s hs => ⟨hs, fun _ => ⟨(overlay_nil _ _).symm, rfl, rfl⟩, fun h => (Bool.false_ne_true h.symm).elim,
    fun h => ⟨h, rfl⟩, Mixed.old _ _ _ _ _⟩) (fun s hs hc => ?_)
  exact absurd rfl hc

include L in
theorem readModeImpl_spec {q : Nat} {l : PSW σ} (h : SInv W Inv kMax b l) :
    Post W view dest Inv kMax b [] l (l.readModeImpl W kMax q) ∧
    ((l.readModeImpl W kMax q).1 = true → l.ok = true ∧ destOf dest b (l.readModeImpl W kMax q).2 = viewOf W view b l) := by
  obtain ⟨t1, t2⟩ := through_post L h (n := 0) (f := W.readModeImpl (q - l.basePos)) fun s hs => (L.readModeImpl _ _ hs).1
  refine ⟨t1, fun ht => ?_⟩
  obtain ⟨u1, u2, u3⟩ := t2 ht
  obtain ⟨s1, s2, s3, s4, s5⟩ := sync_spec L h u1
  refine ⟨u1, ?_⟩
  show destOf dest b (l.through W kMax 0 _).2 = _
  rw [through_eq u1]
  dsimp only
  rw [make_dest, ((L.readModeImpl _ _ s1).2 u2).2]
  exact s2

include L in
theorem seekSlow_spec {q : Nat} {l : PSW σ} (h : SInv W Inv kMax b l) :
    let r := l.seekSlow W kMax q
    SInv W Inv kMax b r.2 ∧
    (r.2.ok = true → viewOf W view b r.2 = viewOf W view b l) ∧
    (r.1 = true → l.ok = true ∧ r.2.ok = true ∧ r.2.pos = q ∧ q ≤ max (viewOf W view b l).length l.pos) ∧
    (r.1 = false → r.2.ok = false ∨ (r.2.pos = (viewOf W view b l).length ∧ (viewOf W view b l).length < q)) ∧
    (l.ok = false → r.2.ok = false ∧ destOf dest b r.2 = destOf dest b l) ∧
    Mixed 0 0 (destOf dest b l) (viewOf W view b l) (viewOf W view b l) (destOf dest b r.2) := by
  intro r
  cases ho : l.ok with
  | false =>
    have e : r = (false, l) := by show l.seekSlow W kMax q = _; unfold seekSlow; rw [if_pos ho]
    rw [e]
    exact ⟨h, fun _ => rfl, fun h => (Bool.false_ne_true h).elim, fun _ => .inl ho, fun _ => ⟨ho, rfl⟩, Mixed.old _ _ _ _ _⟩
  | true =>
    obtain ⟨s1, s2, s3, s4, s5⟩ := sync_spec L h ho
    by_cases hqb : q < b
    · obtain ⟨f1, f2, f3, f4⟩ := fail_spec L h ho
      have e : r = (false, l.fail W kMax) := by
        show l.seekSlow W kMax q = _; unfold seekSlow; rw [if_neg (by simp [ho]), if_pos (by rw [h.base]; exact hqb)]
      rw [e]
      refine ⟨f1, fun hk => (Bool.false_ne_true (f2.symm.trans hk)).elim, fun h => (Bool.false_ne_true h).elim, fun _ => .inl f2,
        fun hf => (Bool.false_ne_true hf.symm).elim, ?_⟩
      show Mixed 0 0 _ _ _ (List.replicate b 0 ++ dest (l.fail W kMax).dst)
      rw [f4]; exact Mixed.old _ _ _ _ _
    · have e : r = ((l.make W kMax 0 (W.seek (q - b) (l.sync W)).2).1 && (W.seek (q - b) (l.sync W)).1,
          (l.make W kMax 0 (W.seek (q - b) (l.sync W)).2).2) := by
        show l.seekSlow W kMax q = _; unfold seekSlow
        rw [if_neg (by simp [ho]), if_neg (by rw [h.base]; exact hqb), h.base, through_eq ho]
      obtain ⟨k1, k2, k3, k4, k5, k6⟩ := L.seek (q := q - b) s1
      have hlen : (viewOf W view b l).length = b + (view (l.sync W)).length := by rw [← s2, List.length_append, List.length_replicate]
      have hm := k6.shifted0 (List.replicate b 0)
      rw [s2, s5] at hm
      rw [s4] at k3
      generalize W.seek (q - b) (l.sync W) = t at *
      have mo := make_ok (W := W) (kMax := kMax) (n := 0) (d := t.2) ho
      rw [e]
      dsimp only
      refine ⟨make_inv h ho k1, fun hk => ?_, fun ht => ?_, fun hf => ?_, fun hf => (Bool.false_ne_true hf.symm).elim, by rw [make_dest]; exact hm⟩
      · have ht := mo.symm.trans hk
        obtain ⟨t1, -⟩ := make_true ht (by rw [h.base]; exact h.fits)
        rw [make_view, k2 t1]; exact s2
      · obtain ⟨t1, t2⟩ := (Bool.and_eq_true_iff).mp ht
        obtain ⟨j1, j2, j3⟩ := k3 t2
        exact ⟨rfl, mo.trans t1, by rw [make_pos h t1, j1]; omega, by rw [hlen]; omega⟩
      · cases hx : (l.make W kMax 0 t.2).1 with
        | false => exact .inl (mo.trans hx)
        | true =>
          rw [hx, Bool.true_and] at hf
          obtain ⟨t1, -⟩ := make_true hx (by rw [h.base]; exact h.fits)
          rcases k4 hf with hh | ⟨j1, j2, -⟩
          · rw [hh] at t1; cases t1
          · exact .inr ⟨by rw [make_pos h hx, j1, hlen], by omega⟩

include L in
theorem sizeImpl_spec {l : PSW σ} (h : SInv W Inv kMax b l) :
    let r := l.sizeImpl W kMax
    SInv W Inv kMax b r.2 ∧
    (∀ n, r.1 = some n → n = (viewOf W view b l).length ∧ viewOf W view b r.2 = viewOf W view b l ∧ r.2.pos = l.pos ∧ l.ok = true ∧ r.2.ok = true) ∧
    (r.1 = none → r.2.ok = false) ∧
    (l.ok = false → r.2.ok = false ∧ destOf dest b r.2 = destOf dest b l) ∧
    Mixed 0 0 (destOf dest b l) (viewOf W view b l) (viewOf W view b l) (destOf dest b r.2) ∧
    (∀ n, r.1 = some n → n ≤ kMax) := by
  intro r
  cases ho : l.ok with
  | false =>
    have e : r = (none, l) := by show l.sizeImpl W kMax = _; unfold sizeImpl; rw [if_pos ho]
    rw [e]
    refine ⟨h, fun n hn => ?_, fun _ => ho, fun _ => ⟨ho, rfl⟩, Mixed.old _ _ _ _ _, fun n hn => ?_⟩ <;> cases hn
  | true =>
    obtain ⟨s1, s2, s3, s4, s5⟩ := sync_spec L h ho
    obtain ⟨k1, k2, k3, k4, k5⟩ := L.sizeImpl _ s1
    have hm := k5.shifted0 (List.replicate b 0)
    rw [s2, s5] at hm
    have hlen : (viewOf W view b l).length = b + (view (l.sync W)).length := by rw [← s2, List.length_append, List.length_replicate]
    have e : r = match (l.make W kMax 0 (W.sizeImpl (l.sync W)).2).1, (W.sizeImpl (l.sync W)).1 with
        | true, some n => if kMax - b < n then (none, (l.make W kMax 0 (W.sizeImpl (l.sync W)).2).2.fail W kMax)
          else (some (n + b), (l.make W kMax 0 (W.sizeImpl (l.sync W)).2).2)
        | _, _ => (none, (l.make W kMax 0 (W.sizeImpl (l.sync W)).2).2) := by
      show l.sizeImpl W kMax = _; unfold sizeImpl; rw [if_neg (by simp [ho]), h.base]; rfl
    generalize W.sizeImpl (l.sync W) = t at *
    have mo := make_ok (W := W) (kMax := kMax) (n := 0) (d := t.2) ho
    have hi := make_inv (n := 0) h ho k1
    have none' : ∀ m : PSW σ, SInv W Inv kMax b m → m.ok = false → destOf dest b m = List.replicate b 0 ++ dest t.2 → r = (none, m) →
        SInv W Inv kMax b r.2 ∧
        (∀ n, r.1 = some n → n = (viewOf W view b l).length ∧ viewOf W view b r.2 = viewOf W view b l ∧ r.2.pos = l.pos ∧ true = true ∧ r.2.ok = true) ∧
        (r.1 = none → r.2.ok = false) ∧
        (true = false → r.2.ok = false ∧ destOf dest b r.2 = destOf dest b l) ∧
        Mixed 0 0 (destOf dest b l) (viewOf W view b l) (viewOf W view b l) (destOf dest b r.2) ∧
        (∀ n, r.1 = some n → n ≤ kMax) := by
      intro m h1 h2 h3 e
      rw [e]
      refine ⟨h1, fun n hn => ?_, fun _ => h2, fun hf => (Bool.false_ne_true hf.symm).elim, ?_, fun n hn => ?_⟩
      · cases hn
      · dsimp only; rw [h3]; exact hm
      · cases hn
    cases hx : (l.make W kMax 0 t.2).1 with
    | false => exact none' _ hi (mo.trans hx) make_dest (by rw [e, hx])
    | true =>
      cases ht : t.1 with
      | none =>
        obtain ⟨t1, -⟩ := make_true hx (by rw [h.base]; exact h.fits)
        rw [k3 ht] at t1; cases t1
      | some n =>
        obtain ⟨j1, j2, j3, j4, j5⟩ := k2 n ht
        rw [hx, ht] at e
        dsimp only at e
        by_cases hc : kMax - b < n
        · rw [if_pos hc] at e
          obtain ⟨f1, f2, f3, f4⟩ := fail_spec L hi (mo.trans hx)
          exact none' _ f1 f2 (by unfold destOf; rw [f4, make_same.1]) e
        · rw [if_neg hc] at e
          rw [e]
          dsimp only
          refine ⟨hi, fun m hn => ?_, fun hn => ?_, fun hf => (Bool.false_ne_true hf.symm).elim, by rw [make_dest]; exact hm, fun m hn => ?_⟩
          · have hn : n + b = m := Option.some.inj hn
            refine ⟨by rw [hlen]; omega, by rw [make_view, j2]; exact s2, by rw [make_pos h hx, j3]; exact s3, rfl, mo.trans hx⟩
          · cases hn
          · have hn : n + b = m := Option.some.inj hn
            have := h.fits
            omega

include L in
theorem truncateImpl_spec (hq : W.QuietRandomAccess Inv) {n : Nat} {l : PSW σ} (h : SInv W Inv kMax b l) (hr : (W.randomAccess l.dst).1 = true) :
    let r := l.truncateImpl W kMax n
    SInv W Inv kMax b r.2 ∧
    (r.1 = true → n ≤ max (viewOf W view b l).length l.pos ∧ viewOf W view b r.2 = resize n (viewOf W view b l) ∧ r.2.pos = n ∧ l.ok = true ∧ r.2.ok = true) ∧
    (r.1 = false → r.2.ok = false ∨
      (viewOf W view b r.2 = viewOf W view b l ∧ r.2.pos = (viewOf W view b l).length ∧ (viewOf W view b l).length < n)) ∧
    (l.ok = false → r.2.ok = false ∧ destOf dest b r.2 = destOf dest b l) ∧
    Mixed 0 0 (destOf dest b l) (viewOf W view b l)
      (if n ≤ max (viewOf W view b l).length l.pos then resize n (viewOf W view b l) else viewOf W view b l) (destOf dest b r.2) := by
  intro r
  cases ho : l.ok with
  | false =>
    have e : r = (false, l) := by show l.truncateImpl W kMax n = _; unfold truncateImpl; rw [if_pos ho]
    rw [e]
    exact ⟨h, fun h => (Bool.false_ne_true h).elim, fun _ => .inl ho, fun _ => ⟨ho, rfl⟩, Mixed.old _ _ _ _ _⟩
  | true =>
    obtain ⟨s1, s2, s3, s4, s5⟩ := sync_spec L h ho
    by_cases hqb : n < b
    · obtain ⟨f1, f2, f3, f4⟩ := fail_spec L h ho
      have e : r = (false, l.fail W kMax) := by
        show l.truncateImpl W kMax n = _; unfold truncateImpl; rw [if_neg (by simp [ho]), if_pos (by rw [h.base]; exact hqb)]
      rw [e]
      refine ⟨f1, fun h => (Bool.false_ne_true h).elim, fun _ => .inl f2, fun hf => (Bool.false_ne_true hf.symm).elim, ?_⟩
      show Mixed 0 0 _ _ _ (List.replicate b 0 ++ dest (l.fail W kMax).dst)
      rw [f4]; exact Mixed.old _ _ _ _ _
    · have hra : (W.randomAccess (l.sync W)).1 = true :=
        ((hq _ h.dst).2.2 _ (Nat.le_trans (h.isOk ho).2.2.1 (h.isOk ho).2.2.2.1)).trans hr
      have e : r = ((l.make W kMax 0 (W.truncateImpl (n - b) (l.sync W)).2).1 && (W.truncateImpl (n - b) (l.sync W)).1,
          (l.make W kMax 0 (W.truncateImpl (n - b) (l.sync W)).2).2) := by
        show l.truncateImpl W kMax n = _; unfold truncateImpl
        rw [if_neg (by simp [ho]), if_neg (by rw [h.base]; exact hqb), h.base, through_eq ho]
      obtain ⟨k1, k2, k3, k4, k5⟩ := L.truncateImpl (n - b) _ s1 hra
      have hlen : (viewOf W view b l).length = b + (view (l.sync W)).length := by rw [← s2, List.length_append, List.length_replicate]
      have hres : List.replicate b 0 ++ resize (n - b) (view (l.sync W)) = resize n (viewOf W view b l) := by
        have := resize_behind (List.replicate b 0) (view (l.sync W)) (n - b)
        rw [s2, List.length_replicate, Nat.sub_add_cancel (Nat.le_of_not_lt hqb)] at this
        exact this.symm
      have hm := k5.shifted0 (List.replicate b 0)
      have hif : List.replicate b 0 ++ (if n - b ≤ max (view (l.sync W)).length (W.pos (l.sync W)) then resize (n - b) (view (l.sync W)) else view (l.sync W)) =
          if n ≤ max (viewOf W view b l).length l.pos then resize n (viewOf W view b l) else viewOf W view b l := by
        by_cases hc : n - b ≤ max (view (l.sync W)).length (W.pos (l.sync W))
        · rw [if_pos hc, if_pos (by omega)]; exact hres
        · rw [if_neg hc, if_neg (by omega)]; exact s2
      rw [hif, s2, s5] at hm
      generalize W.truncateImpl (n - b) (l.sync W) = t at *
      have mo := make_ok (W := W) (kMax := kMax) (n := 0) (d := t.2) ho
      rw [e]
      dsimp only
      refine ⟨make_inv h ho k1, fun ht => ?_, fun hf => ?_, fun hf => (Bool.false_ne_true hf.symm).elim, by rw [make_dest]; exact hm⟩
      · obtain ⟨t1, t2⟩ := (Bool.and_eq_true_iff).mp ht
        obtain ⟨j1, j2, j3, j4, j5⟩ := k2 t2
        exact ⟨by omega, by rw [make_view, j2]; exact hres, by rw [make_pos h t1, j3]; omega, rfl, mo.trans t1⟩
      · cases hx : (l.make W kMax 0 t.2).1 with
        | false => exact .inl (mo.trans hx)
        | true =>
          rw [hx, Bool.true_and] at hf
          obtain ⟨t1, -⟩ := make_true hx (by rw [h.base]; exact h.fits)
          rcases k3 hf with hh | ⟨j1, j2, j3⟩
          · rw [hh] at t1; cases t1
          · exact .inr ⟨by rw [make_view, j1]; exact s2, by rw [make_pos h hx, j2, hlen], by omega⟩

include L in
theorem randomAccess_spec (hq : W.QuietRandomAccess Inv) {l : PSW σ} (h : SInv W Inv kMax b l) :
    SInv W Inv kMax b (l.randomAccess W).2 ∧ destOf dest b (l.randomAccess W).2 = destOf dest b l ∧
    ((l.randomAccess W).2.ok = true → viewOf W view b (l.randomAccess W).2 = viewOf W view b l ∧ (l.randomAccess W).2.pos = l.pos) ∧
    ((l.randomAccess W).1 = true → (l.randomAccess W).2.ok = l.ok ∧ ((l.randomAccess W).2.randomAccess W).1 = true) ∧
    (l.ok = false → (l.randomAccess W).2.ok = false) := by
  obtain ⟨r1, r2, r3, r4, r5⟩ := L.randomAccess _ h.dst
  obtain ⟨q1, q2, -⟩ := hq _ h.dst
  unfold randomAccess
  dsimp only
  refine ⟨⟨r1, h.base, h.fits, h.failed, fun ho => ?_⟩, ?_, fun ho => ?_, fun ht => ⟨rfl, (r4 ht).2⟩, id⟩
  · obtain ⟨o1, o2, o3, o4, o5⟩ := h.isOk ho
    have := r3 (q1.trans o1)
    dsimp only
    rw [q1, q2, this.2]
    exact ⟨o1, o2, o3, o4, o5⟩
  · show List.replicate b 0 ++ dest (W.randomAccess l.dst).2 = _
    rw [r2]; rfl
  · have := r3 (q1.trans (h.isOk ho).1)
    unfold viewOf
    dsimp only
    rw [this.1, this.2]
    exact ⟨rfl, rfl⟩

include L in
theorem setHint_spec {n : Option Nat} {l : PSW σ} (h : SInv W Inv kMax b l) (ho : l.ok = true) :
    SInv W Inv kMax b (l.setHint W kMax n) ∧
    ((l.setHint W kMax n).ok = true → viewOf W view b (l.setHint W kMax n) = viewOf W view b l ∧ (l.setHint W kMax n).pos = l.pos) ∧
    destOf dest b (l.setHint W kMax n) = destOf dest b l := by
  unfold setHint
  by_cases hw : l.owns = true
  · rw [if_pos hw]
    generalize n.map (fun n => l.basePos + n) = m
    obtain ⟨s1, s2, s3, s4, s5⟩ := sync_spec L h ho
    obtain ⟨k1, k2, k3, k4⟩ := L.setHint m _ s1
    rw [s5] at k4
    generalize hd : W.setHint m (l.sync W) = d at *
    have mo := make_ok (W := W) (kMax := kMax) (n := 0) (d := d) ho
    refine ⟨make_inv h ho k1, fun hk => ?_, by rw [make_dest, k4]; rfl⟩
    have hx := mo.symm.trans hk
    obtain ⟨t1, -⟩ := make_true hx (by rw [h.base]; exact h.fits)
    exact ⟨by rw [make_view, (k2 t1).1]; exact s2, by rw [make_pos h hx, (k2 t1).2]; exact s3⟩
  · rw [if_neg hw]
    exact ⟨h, fun _ => ⟨rfl, rfl⟩, rfl⟩

include L in
/-- `PositionShiftingWriter` meets the contract of `Writer`. -/
theorem lawful (hq : W.QuietRandomAccess Inv) : (PSW.opsOk W kMax).Lawful (viewOf W view b) (destOf dest b) (SInv W Inv kMax b) where
  avail l h ho := by show l.lim - l.pend.length = 0; rw [(h.failed ho).2, Nat.zero_sub]
  put bs l h hb := by
    obtain ⟨p1, p2, p3, p4⟩ := put_spec h hb
    exact ⟨p1, p2, p3, p4, rfl, rfl⟩
  pushSlow n rec l h _ := pushSlow_spec L h
  writeSlow bs l h _ := by
    obtain ⟨a, b⟩ := through_post L h (n := 0) (f := W.write bs) fun s hs => (L.write hs).1
    exact ⟨a, fun ht => (b ht).1⟩
  fillSlow n b l h _ := by
    obtain ⟨x, y⟩ := through_post L h (n := 0) (f := W.fill n b) fun s hs => (L.fill hs).1
    exact ⟨x, fun ht => (y ht).1⟩
  flushImpl t l h := by
    obtain ⟨a, b⟩ := flushImpl_spec L (t := t) h
    exact ⟨a, fun ht => ⟨(b ht).1, (b ht).2.2.2⟩⟩
  seekSlow q l h _ := seekSlow_spec L h
  sizeImpl l h := by
    obtain ⟨a1, a2, a3, a4, a5, -⟩ := sizeImpl_spec L h
    exact ⟨a1, a2, a3, a4, a5⟩
  truncateImpl n l h hr := truncateImpl_spec L hq h hr
  readModeImpl q l h := readModeImpl_spec L h
  randomAccess l h := randomAccess_spec L hq h
  setHint n l h := by
    show SInv W Inv kMax b (if l.ok then l.setHint W kMax n else l) ∧ ((if l.ok then l.setHint W kMax n else l).ok = true →
      viewOf W view b (if l.ok then l.setHint W kMax n else l) = _ ∧ (if l.ok then l.setHint W kMax n else l).pos = _) ∧
      (l.ok = false → (if l.ok then l.setHint W kMax n else l).ok = false) ∧ destOf dest b (if l.ok then l.setHint W kMax n else l) = _
    cases ho : l.ok with
    | false => exact ⟨h, fun _ => ⟨rfl, rfl⟩, fun _ => ho, rfl⟩
    | true =>
      obtain ⟨a1, a2, a3⟩ := setHint_spec L (n := n) h ho
      exact ⟨a1, a2, fun h => (Bool.false_ne_true h.symm).elim, a3⟩

/-- A new `PositionShiftingWriter`. -/
theorem init_spec {d : σ} (h : Inv d) {owns : Bool} (hb : b ≤ kMax) :
    SInv W Inv kMax b (PSW.init W kMax d b owns) ∧ (PSW.init W kMax d b owns).dst = d ∧ (PSW.init W kMax d b owns).pend = [] ∧
    ((PSW.init W kMax d b owns).ok = true → (PSW.init W kMax d b owns).pos = b + W.pos d) ∧
    ((PSW.init W kMax d b owns).ok = false → W.ok d = false ∨ kMax < b + W.pos d) := by
  unfold init
  generalize hl : ({ dst := d, pend := [], start := 0, lim := 0, basePos := b, owns := owns, ok := true } : PSW σ) = l
  have ho : l.ok = true := by rw [← hl]
  have hbp : l.basePos = b := by rw [← hl]
  have mo := make_ok (W := W) (kMax := kMax) (n := 0) (d := d) ho
  obtain ⟨m1, m2, m3, -⟩ := make_same (W := W) (kMax := kMax) (n := 0) (d := d) (l := l)
  refine ⟨⟨by rw [m1]; exact h, m3.trans hbp, hb, fun hf => ⟨m2, (make_false ho (mo.symm.trans hf)).1⟩, fun hk => ?_⟩, m1, m2, fun hk => ?_, fun hf => ?_⟩
  · obtain ⟨t1, t2, t3, t4, -⟩ := make_true (mo.symm.trans hk) (by rw [hbp]; exact hb)
    rw [m1, m2]
    exact ⟨t1, by rw [t2, hbp], Nat.zero_le _, t3, t4⟩
  · obtain ⟨-, t2, -⟩ := make_true (mo.symm.trans hk) (by rw [hbp]; exact hb)
    unfold pos; rw [t2, m2, hbp]; rfl
  · rcases (make_false ho (mo.symm.trans hf)).2 with h1 | h1
    · exact .inl h1
    · exact .inr (by omega)

end PSW
end Riegeli.Wtr

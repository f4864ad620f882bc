import Verif.DigestingWriter
/-!
# Proofs about `DigestingWriter`
-/
namespace Riegeli.Wtr
namespace DW
variable {σ : Type} {W : WriterOps σ} {view dest : σ → Bytes} {Inv : σ → Prop} {accepts : Bytes → Bytes → Bool}

/-- What the `DigestingWriter` presents. -/
def viewOf (W : WriterOps σ) (view : σ → Bytes) (l : DW σ) : Bytes := overlay (view l.dst) (W.pos l.dst) l.pend

/-- The invariant. -/
structure DInv (W : WriterOps σ) (Inv : σ → Prop) (l : DW σ) : Prop where
  dst : Inv l.dst
  failed : l.ok = false → l.pend = [] ∧ l.live = false
  isOk : l.ok = true → l.live = true ∧ W.ok l.dst = true ∧ l.base = W.pos l.dst ∧ l.pend.length ≤ W.avail l.dst

/-- What functions do with the digester: `bs` is the data which should be written. -/
def DigPost (bs : Bytes) (l r : DW σ) : Prop :=
  r.digested <+: l.digested ++ l.pend ++ bs ∧ (r.ok = true → l.ok = true ∧ r.digested ++ r.pend = l.digested ++ l.pend ++ bs) ∧
  (l.ok = false → r.digested = l.digested)

theorem DigPost.refl {l : DW σ} : DigPost [] l l :=
  ⟨by rw [List.append_nil]; exact List.prefix_append _ _, fun h => ⟨h, by rw [List.append_nil]⟩, fun _ => rfl⟩

theorem DigPost.dead {bs : Bytes} {l : DW σ} (h : l.ok = false) : DigPost bs l l :=
  ⟨by rw [List.append_assoc]; exact List.prefix_append _ _, fun ho => (Bool.false_ne_true (h.symm.trans ho)).elim, fun _ => rfl⟩

theorem DigPost.weaken {a : Bytes} (b : Bytes) {l r : DW σ} (h : DigPost a l r) (hr : r.ok = false) : DigPost (a ++ b) l r :=
  ⟨h.1.trans (by rw [← List.append_assoc]; exact List.prefix_append _ _), fun ho => (Bool.false_ne_true (hr.symm.trans ho)).elim, h.2.2⟩

theorem DigPost.seq {a b : Bytes} {l m r : DW σ} (h1 : DigPost a l m) (h2 : DigPost b m r) (hk : l.ok = true → m.ok = true) : DigPost (a ++ b) l r := by
  obtain ⟨a1, a2, a3⟩ := h1
  obtain ⟨b1, b2, b3⟩ := h2
  cases hm : m.ok with
  | true =>
    obtain ⟨e1, e2⟩ := a2 hm
    rw [e2, List.append_assoc] at b1 b2
    exact ⟨b1, fun ho => ⟨e1, (b2 ho).2⟩, fun hf => (Bool.false_ne_true (hf.symm.trans e1)).elim⟩
  | false =>
    have hl : l.ok = false := by
      cases hl : l.ok with
      | false => rfl
      | true => exact (Bool.false_ne_true (hm.symm.trans (hk hl))).elim
    have e : r.digested = l.digested := (b3 hm).trans (a3 hl)
    refine ⟨?_, fun ho => ?_, fun _ => e⟩
    · rw [e, List.append_assoc]; exact List.prefix_append _ _
    · have := (b2 ho).1
      exact (Bool.false_ne_true (hm.symm.trans this)).elim

theorem feed_cases (bs : Bytes) (l : DW σ) :
    (l.feed accepts bs = (true, { l with digested := l.digested ++ bs })) ∨ (l.feed accepts bs = (false, { l with digOk := false })) := by
  unfold feed; split
  · exact .inl rfl
  · exact .inr rfl

/-- The state after the digester failed. -/
def digFailed (l : DW σ) : DW σ := { l with digOk := false, ok := false, live := false, pend := [] }

/-- The state after `SyncBuffer()` which succeeded. -/
structure Synced (W : WriterOps σ) (view dest : σ → Bytes) (Inv : σ → Prop) (l s : DW σ) : Prop where
  ok : s.ok = true
  live : s.live = true
  inv : Inv s.dst
  view : view s.dst = viewOf W view l
  pos : W.pos s.dst = l.pos
  base : s.base = l.pos
  dstOk : W.ok s.dst = true
  dest : dest s.dst = dest l.dst
  pend : s.pend = []
  digested : s.digested = l.digested ++ l.pend
  owns : s.owns = l.owns
  broken : s.broken = l.broken

variable (L : W.Lawful view dest Inv)
include L

theorem sync_cases {l : DW σ} (h : DInv W Inv l) (ho : l.ok = true) :
    ((l.sync W accepts).1 = true ∧ Synced W view dest Inv l (l.sync W accepts).2) ∨ l.sync W accepts = (false, l.digFailed) := by
  obtain ⟨o1, o2, o3, o4⟩ := h.isOk ho
  unfold sync
  by_cases hp : l.pend = []
  · rw [if_pos hp]
    refine .inl ⟨rfl, ho, o1, h.dst, ?_, ?_, ?_, o2, rfl, hp, ?_, rfl, rfl⟩
    · unfold viewOf; rw [hp, overlay_nil]
    · unfold pos; rw [hp, o3]; rfl
    · unfold pos; rw [hp]; rfl
    · rw [hp, List.append_nil]
  · rw [if_neg hp]
    dsimp only
    rcases feed_cases (accepts := accepts) l.pend l with e | e <;> rw [e]
    · obtain ⟨p1, p2, p3, p4, p5, p6⟩ := L.put l.pend l.dst h.dst o4
      refine .inl ⟨rfl, ho, o1, p1, p2, ?_, rfl, p5.trans o2, p6, rfl, rfl, rfl, rfl⟩
      show W.pos (W.put l.pend l.dst) = l.pos
      rw [p3]; unfold pos; rw [o3]
    · refine .inr ?_
      dsimp only
      rw [if_pos rfl]
      unfold dead
      rw [if_pos (show ({ l with digOk := false } : DW σ).ok = true from ho)]
      rfl

omit L in
theorem digFailed_inv {l : DW σ} (h : DInv W Inv l) : DInv W Inv l.digFailed :=
  ⟨h.dst, fun _ => ⟨rfl, rfl⟩, fun h => (Bool.false_ne_true h).elim⟩

omit L in
theorem digFailed_dig (bs : Bytes) {l : DW σ} (ho : l.ok = true) : DigPost bs l l.digFailed :=
  ⟨by rw [List.append_assoc]; exact List.prefix_append _ _, fun h => (Bool.false_ne_true h).elim,
    fun hf => (Bool.false_ne_true (hf.symm.trans ho)).elim⟩

omit L in
theorem make_inv {d : σ} {l : DW σ} (ho : l.ok = true) (hd : Inv d) : DInv W Inv (l.make W d) := by
  refine ⟨hd, fun hf => ⟨rfl, ?_⟩, fun hk => ?_⟩
  · have : (l.ok && W.ok d) = false := hf
    show (!l.ok || W.ok d) = false
    rw [ho] at this ⊢; simpa using this
  · have : (l.ok && W.ok d) = true := hk
    rw [ho] at this
    exact ⟨by show (!l.ok || W.ok d) = true; rw [ho]; simpa using this, by show W.ok d = true; simpa using this, rfl, Nat.zero_le _⟩

omit L in
theorem make_ok {d : σ} {l : DW σ} (ho : l.ok = true) : (l.make W d).ok = W.ok d := by
  show (l.ok && W.ok d) = W.ok d
  rw [ho]; rfl

omit L in
theorem make_view {d : σ} {l : DW σ} : viewOf W view (l.make W d) = view d := overlay_nil _ _

omit L in
/-- A writer which failed and was not changed. -/
theorem post_failed {bs : Bytes} {l : DW σ} (h : DInv W Inv l) (ho : l.ok = false) :
    WritePost (DW.opsOk W accepts) (viewOf W view) (fun l => dest l.dst) (DInv W Inv) bs l (false, l) :=
  ⟨h, fun h => (Bool.false_ne_true h).elim, fun _ => ho, fun _ => ⟨ho, rfl⟩, Mixed.old _ _ _ _ _⟩

omit L in
/-- A writer which failed now. -/
theorem post_dead {bs : Bytes} {l r : DW σ} (hr : DInv W Inv r) (hf : r.ok = false) (ho : l.ok = true) (hd : dest r.dst = dest l.dst) :
    WritePost (DW.opsOk W accepts) (viewOf W view) (fun l => dest l.dst) (DInv W Inv) bs l (false, r) :=
  ⟨hr, fun h => (Bool.false_ne_true h).elim, fun _ => hf, fun h => (Bool.false_ne_true (Eq.trans (Eq.symm h) ho)).elim,
    by dsimp only; rw [hd]; exact Mixed.old _ _ _ _ _⟩

omit L in
/-- The result of a function of the destination called when the buffer is synchronized. -/
theorem post_make {bs : Bytes} {l s m : DW σ} (ho : l.ok = true) (hs : Synced W view dest Inv l s) (hm : m.ok = true)
    {r : Bool × σ} (hr : WritePost W view dest Inv bs s.dst r) :
    WritePost (DW.opsOk W accepts) (viewOf W view) (fun l => dest l.dst) (DInv W Inv) bs l (r.1, m.make W r.2) := by
  obtain ⟨a1, a2, a3, a4, a5⟩ := hr
  rw [hs.view, hs.pos] at a2 a5
  rw [hs.dest] at a5
  refine ⟨make_inv hm a1, fun ht => ?_, fun hf => ?_, fun hf => ?_, a5⟩
  · obtain ⟨b1, b2, b3⟩ := a2 ht
    exact ⟨make_view.trans b1, b2, ((make_ok hm).trans (b3.trans hs.dstOk)).trans ho.symm⟩
  · exact (make_ok hm).trans (a3 hf)
  · rw [show (DW.opsOk W accepts).ok l = l.ok from rfl, ho] at hf; cases hf

/-- Functions which do not write. -/
theorem through_post {l : DW σ} (h : DInv W Inv l) {f : σ → Bool × σ} (hf : ∀ s, Inv s → WritePost W view dest Inv [] s (f s)) :
    WritePost (DW.opsOk W accepts) (viewOf W view) (fun l => dest l.dst) (DInv W Inv) [] l (l.through W accepts f) ∧
    DigPost [] l (l.through W accepts f).2 ∧
    ((l.through W accepts f).1 = true → l.ok = true ∧ ∃ s, Synced W view dest Inv l s ∧ (f s.dst).1 = true ∧
      (l.through W accepts f).2 = s.make W (f s.dst).2) := by
  unfold through
  cases ho : l.ok with
  | false =>
    rw [if_pos rfl]
    exact ⟨post_failed h ho, DigPost.refl, fun h => (Bool.false_ne_true h).elim⟩
  | true =>
    rw [if_neg (by simp)]
    dsimp only
    rcases sync_cases (accepts := accepts) L h ho with ⟨s1, s2⟩ | s1
    · rw [if_neg (by rw [s1]; simp)]
      refine ⟨post_make ho s2 s2.ok (hf _ s2.inv), ⟨?_, fun hk => ⟨ho, ?_⟩, fun hf => (Bool.false_ne_true (hf.symm.trans ho)).elim⟩,
        fun ht => ⟨rfl, _, s2, ht, rfl⟩⟩
      · show (l.sync W accepts).2.digested <+: _
        rw [s2.digested, List.append_nil]; exact List.prefix_refl _
      · show (l.sync W accepts).2.digested ++ [] = _
        rw [s2.digested]
    · rw [s1, if_pos rfl]
      exact ⟨post_dead (digFailed_inv h) rfl ho rfl, digFailed_dig _ ho, fun h => (Bool.false_ne_true h).elim⟩

/-- Functions which write. -/
theorem writeWith_post {bs : Bytes} {l : DW σ} (h : DInv W Inv l) {f : σ → Bool × σ} (hf : ∀ s, Inv s → WritePost W view dest Inv bs s (f s)) :
    WritePost (DW.opsOk W accepts) (viewOf W view) (fun l => dest l.dst) (DInv W Inv) bs l (l.writeWith W accepts bs f) ∧
    DigPost bs l (l.writeWith W accepts bs f).2 ∧ ((l.writeWith W accepts bs f).1 = true → l.ok = true) := by
  unfold writeWith
  cases ho : l.ok with
  | false =>
    rw [if_pos rfl]
    exact ⟨post_failed h ho, DigPost.dead ho, fun h => (Bool.false_ne_true h).elim⟩
  | true =>
    rw [if_neg (by simp)]
    dsimp only
    rcases sync_cases (accepts := accepts) L h ho with ⟨s1, s2⟩ | s1
    · rw [if_neg (by rw [s1]; simp)]
      rcases feed_cases (accepts := accepts) bs (l.sync W accepts).2 with e | e <;> rw [e] <;> dsimp only
      · rw [if_neg (by simp)]
        refine ⟨post_make (m := { (l.sync W accepts).2 with digested := (l.sync W accepts).2.digested ++ bs }) ho s2 s2.ok (hf _ s2.inv),
          ⟨?_, fun hk => ⟨ho, ?_⟩, fun hf => (Bool.false_ne_true (hf.symm.trans ho)).elim⟩, fun _ => rfl⟩
        · show (l.sync W accepts).2.digested ++ bs <+: _
          rw [s2.digested]; exact List.prefix_refl _
        · show (l.sync W accepts).2.digested ++ bs ++ [] = _
          rw [s2.digested, List.append_nil]
      · rw [if_pos rfl]
        unfold dead
        rw [if_pos (show ({ (l.sync W accepts).2 with digOk := false } : DW σ).ok = true from s2.ok)]
        refine ⟨post_dead ⟨s2.inv, fun _ => ⟨rfl, rfl⟩, fun h => (Bool.false_ne_true h).elim⟩ rfl ho s2.dest,
          ⟨?_, fun hk => (Bool.false_ne_true hk).elim, fun hf => (Bool.false_ne_true (hf.symm.trans ho)).elim⟩, fun _ => rfl⟩
        show (l.sync W accepts).2.digested <+: _
        rw [s2.digested]; exact List.prefix_append _ _
    · rw [s1, if_pos rfl]
      exact ⟨post_dead (digFailed_inv h) rfl ho rfl, digFailed_dig _ ho, fun _ => rfl⟩

/-- `Fail()` keeps buffered data. -/
theorem fail_spec {l : DW σ} (h : DInv W Inv l) : DInv W Inv (l.fail W accepts) ∧ (l.fail W accepts).ok = false ∧
    dest (l.fail W accepts).dst = dest l.dst ∧ DigPost [] l (l.fail W accepts) ∧
    (l.ok = true → (l.fail W accepts).digOk = true → (l.fail W accepts).digested = l.digested ++ l.pend ∧
      view (l.fail W accepts).dst = viewOf W view l ∧ W.pos (l.fail W accepts).dst = l.pos) := by
  unfold fail
  cases ho : l.ok with
  | false =>
    rw [if_pos rfl]
    exact ⟨h, ho, rfl, DigPost.refl, fun h => (Bool.false_ne_true h).elim⟩
  | true =>
    rw [if_neg (by simp)]
    dsimp only
    rcases sync_cases (accepts := accepts) L h ho with ⟨s1, s2⟩ | s1
    · rw [if_neg (by rw [s1]; simp)]
      have e : (make W (l.sync W accepts).2.dst (l.sync W accepts).2).dead =
          { make W (l.sync W accepts).2.dst (l.sync W accepts).2 with ok := false, live := false, pend := [] } := by
        unfold dead; rw [if_pos ((make_ok s2.ok).trans s2.dstOk)]
      rw [e]
      refine ⟨⟨s2.inv, fun _ => ⟨rfl, rfl⟩, fun h => (Bool.false_ne_true h).elim⟩, rfl, s2.dest, ⟨?_, fun h => (Bool.false_ne_true h).elim,
        fun hf => (Bool.false_ne_true (hf.symm.trans ho)).elim⟩, fun _ _ => ⟨s2.digested, s2.view, s2.pos⟩⟩
      show (l.sync W accepts).2.digested <+: _
      rw [s2.digested, List.append_nil]; exact List.prefix_refl _
    · rw [s1, if_pos rfl]
      refine ⟨digFailed_inv h, rfl, rfl, digFailed_dig _ ho, fun _ hk => (Bool.false_ne_true hk).elim⟩

omit L in
theorem put_spec {bs : Bytes} {l : DW σ} (h : DInv W Inv l) (hb : bs.length ≤ l.avail W) :
    DInv W Inv (l.put bs) ∧ viewOf W view (l.put bs) = overlay (viewOf W view l) l.pos bs ∧
    (l.put bs).pos = l.pos + bs.length ∧ (l.put bs).avail W = l.avail W - bs.length ∧ DigPost bs l (l.put bs) := by
  have hpos : (l.put bs).pos = l.pos + bs.length := by simp [put, pos, Nat.add_assoc]
  cases ho : l.ok with
  | false =>
    obtain ⟨f1, f2⟩ := h.failed ho
    have hb0 : bs = [] := by
      unfold avail at hb; rw [f2] at hb
      exact List.length_eq_zero_iff.mp (Nat.le_zero.mp hb)
    subst hb0
    have e : l.put [] = l := by unfold put; rw [List.append_nil]
    rw [e, overlay_nil]
    exact ⟨h, rfl, rfl, rfl, DigPost.refl⟩
  | true =>
    obtain ⟨o1, o2, o3, o4⟩ := h.isOk ho
    have hb' : bs.length ≤ W.avail l.dst - l.pend.length := by unfold avail at hb; rwa [if_pos o1] at hb
    refine ⟨⟨h.dst, fun hf => ?_, fun _ => ⟨o1, o2, o3, ?_⟩⟩, ?_, hpos, ?_, ?_, fun _ => ⟨ho, ?_⟩, fun _ => rfl⟩
    · rw [show (l.put bs).ok = l.ok from rfl, ho] at hf; cases hf
    · simp only [put, List.length_append]; omega
    · unfold viewOf put
      dsimp only
      rw [← overlay_append]
      unfold pos
      rw [o3]
    · unfold avail
      rw [show (l.put bs).live = l.live from rfl, o1]
      simp only [put, List.length_append, if_true]; omega
    · show l.digested <+: _
      rw [List.append_assoc]; exact List.prefix_append _ _
    · simp only [put, List.append_assoc]

theorem pushSlow_spec {n rec : Nat} {l : DW σ} (h : DInv W Inv l) :
    WritePost (DW.opsOk W accepts) (viewOf W view) (fun l => dest l.dst) (DInv W Inv) [] l (l.pushSlow W accepts n rec) ∧
    ((l.pushSlow W accepts n rec).1 = true → n ≤ (l.pushSlow W accepts n rec).2.avail W ∧ l.ok = true) := by
  obtain ⟨t1, -, t2⟩ := through_post (accepts := accepts) L h (f := W.push n rec) fun s hs => (L.push hs).1
  refine ⟨t1, fun ht => ?_⟩
  obtain ⟨u1, s, u2, u3, u4⟩ := t2 ht
  have hk := (t1.2.1 ht).2.2
  obtain ⟨-, p2⟩ := L.push (n := n) (rec := rec) u2.inv
  refine ⟨?_, u1⟩
  have hk : (l.through W accepts (W.push n rec)).2.ok = true := Eq.trans hk u1
  show n ≤ avail W (l.through W accepts _).2
  rw [u4, make_ok u2.ok] at hk
  rw [u4]
  unfold avail make
  dsimp only
  rw [hk, Bool.or_true, if_pos rfl]
  exact (p2 u3).1

theorem flushImpl_spec {t : FlushType} {l : DW σ} (h : DInv W Inv l) :
    WritePost (DW.opsOk W accepts) (viewOf W view) (fun l => dest l.dst) (DInv W Inv) [] l (l.flushImpl W accepts t) ∧
    DigPost [] l (l.flushImpl W accepts t).2 ∧
    ((l.flushImpl W accepts t).1 = true → l.ok = true ∧ view (l.flushImpl W accepts t).2.dst = viewOf W view l ∧
      W.pos (l.flushImpl W accepts t).2.dst = l.pos ∧ (l.flushImpl W accepts t).2.digested = l.digested ++ l.pend ∧
      (t ≠ .fromObject → dest (l.flushImpl W accepts t).2.dst = viewOf W view l)) := by
  have key : ∀ f : σ → Bool × σ, (∀ s, Inv s → WritePost W view dest Inv [] s (f s)) →
      (∀ s, Inv s → t ≠ .fromObject → (f s).1 = true → dest (f s).2 = view s) →
      WritePost (DW.opsOk W accepts) (viewOf W view) (fun l => dest l.dst) (DInv W Inv) [] l (l.through W accepts f) ∧
      DigPost [] l (l.through W accepts f).2 ∧
      ((l.through W accepts f).1 = true → l.ok = true ∧ view (l.through W accepts f).2.dst = viewOf W view l ∧
        W.pos (l.through W accepts f).2.dst = l.pos ∧ (l.through W accepts f).2.digested = l.digested ++ l.pend ∧
        (t ≠ .fromObject → dest (l.through W accepts f).2.dst = viewOf W view l)) := by
    intro f hf hd
    obtain ⟨t1, t2, t3⟩ := through_post (accepts := accepts) L h (f := f) hf
    refine ⟨t1, t2, fun ht => ?_⟩
    obtain ⟨u1, s, u2, u3, u4⟩ := t3 ht
    obtain ⟨b1, b2, b3⟩ := (hf _ u2.inv).2.1 u3
    rw [overlay_nil] at b1
    rw [u4]
    exact ⟨u1, b1.trans u2.view, b2.trans u2.pos, u2.digested, fun hc => (hd _ u2.inv hc u3).trans u2.view⟩
  have deep := key (W.flushImpl t) (fun s hs => (L.flushImpl t s hs).1) (fun s hs hc ht => ((L.flushImpl t s hs).2 ht).2 hc)
  unfold flushImpl
  cases t <;> cases ho : l.owns <;> dsimp only <;> try exact deep
  refine key (fun d => (true, d)) (fun s hs => ⟨hs, fun _ => ⟨(overlay_nil _ _).symm, rfl, rfl⟩, fun h => (Bool.false_ne_true h.symm).elim,
    fun h => ⟨h, rfl⟩, Mixed.old _ _ _ _ _⟩) (fun s hs hc => ?_)
  exact absurd rfl hc

theorem readModeImpl_spec {q : Nat} {l : DW σ} (h : DInv W Inv l) :
    WritePost (DW.opsOk W accepts) (viewOf W view) (fun l => dest l.dst) (DInv W Inv) [] l (l.readModeImpl W accepts q) ∧
    DigPost [] l (l.readModeImpl W accepts q).2 ∧
    ((l.readModeImpl W accepts q).1 = true → l.ok = true ∧ dest (l.readModeImpl W accepts q).2.dst = viewOf W view l) := by
  obtain ⟨t1, t2, t3⟩ := through_post (accepts := accepts) L h (f := W.readModeImpl q) fun s hs => (L.readModeImpl q _ hs).1
  refine ⟨t1, t2, fun ht => ?_⟩
  obtain ⟨u1, s, u2, u3, u4⟩ := t3 ht
  refine ⟨u1, ?_⟩
  show dest (l.through W accepts _).2.dst = _
  rw [u4]
  exact ((L.readModeImpl q _ u2.inv).2 u3).2.trans u2.view

theorem setHint_spec {n : Option Nat} {l : DW σ} (h : DInv W Inv l) (ho : l.ok = true) :
    DInv W Inv (l.setHint W accepts n) ∧ ((l.setHint W accepts n).ok = true → viewOf W view (l.setHint W accepts n) = viewOf W view l ∧
      (l.setHint W accepts n).pos = l.pos) ∧ dest (l.setHint W accepts n).dst = dest l.dst ∧ DigPost [] l (l.setHint W accepts n) := by
  unfold setHint
  by_cases hw : l.owns = true
  · rw [if_pos hw]
    dsimp only
    rcases sync_cases (accepts := accepts) L h ho with ⟨s1, s2⟩ | s1
    · rw [if_neg (by rw [s1]; simp)]
      obtain ⟨a1, a2, a3, a4⟩ := L.setHint n _ s2.inv
      refine ⟨make_inv s2.ok a1, fun hk => ?_, a4.trans s2.dest, ?_, fun hk => ⟨ho, ?_⟩, fun hf => (Bool.false_ne_true (hf.symm.trans ho)).elim⟩
      · rw [make_ok s2.ok] at hk
        exact ⟨make_view.trans ((a2 hk).1.trans s2.view), (a2 hk).2.trans s2.pos⟩
      · show (l.sync W accepts).2.digested <+: _
        rw [s2.digested, List.append_nil]; exact List.prefix_refl _
      · show (l.sync W accepts).2.digested ++ [] = _
        rw [s2.digested]
    · rw [s1, if_pos rfl]
      exact ⟨digFailed_inv h, fun h => (Bool.false_ne_true h).elim, rfl, digFailed_dig _ ho⟩
  · rw [if_neg hw]
    exact ⟨h, fun _ => ⟨rfl, rfl⟩, rfl, DigPost.refl⟩

/-- `DigestingWriter` meets the contract of `Writer`. -/
theorem lawful : (DW.opsOk W accepts).Lawful (viewOf W view) (fun l => dest l.dst) (DInv W Inv) where
  avail l h ho := by show l.avail W = 0; unfold avail; rw [(h.failed ho).2]; rfl
  put bs l h hb := by
    obtain ⟨p1, p2, p3, p4, p5⟩ := put_spec h hb
    exact ⟨p1, p2, p3, p4, rfl, rfl⟩
  pushSlow n rec l h _ := pushSlow_spec L h
  writeSlow bs l h _ := by
    obtain ⟨a, -, b⟩ := writeWith_post (accepts := accepts) L h (f := W.write bs) fun s hs => (L.write hs).1
    exact ⟨a, b⟩
  fillSlow n b l h _ := by
    obtain ⟨x, -, y⟩ := writeWith_post (accepts := accepts) L h (f := W.fill n b) fun s hs => (L.fill hs).1
    exact ⟨x, y⟩
  flushImpl t l h := by
    obtain ⟨a, -, b⟩ := flushImpl_spec (accepts := accepts) L (t := t) h
    exact ⟨a, fun ht => ⟨(b ht).1, (b ht).2.2.2.2⟩⟩
  seekSlow q l h hne := by
    obtain ⟨a1, a2, a3, a4, a5⟩ := fail_spec (accepts := accepts) L h
    refine ⟨a1, fun ho => (Bool.false_ne_true (a2.symm.trans ho)).elim, fun h => (Bool.false_ne_true h).elim, fun _ => .inl a2, fun _ => ⟨a2, a3⟩, ?_⟩
    show Mixed _ _ _ _ _ (dest (l.fail W accepts).dst)
    rw [a3]; exact Mixed.old _ _ _ _ _
  sizeImpl l h := by
    obtain ⟨a1, a2, a3, a4, a5⟩ := fail_spec (accepts := accepts) L h
    refine ⟨a1, fun n hn => ?_, fun _ => a2, fun _ => ⟨a2, a3⟩, ?_⟩
    · have hn : (none : Option Nat) = some n := hn
      cases hn
    · show Mixed _ _ _ _ _ (dest (l.fail W accepts).dst)
      rw [a3]; exact Mixed.old _ _ _ _ _
  truncateImpl n l h hr := (Bool.false_ne_true hr).elim
  readModeImpl q l h := by
    obtain ⟨a, -, b⟩ := readModeImpl_spec (accepts := accepts) L (q := q) h
    exact ⟨a, b⟩
  randomAccess l h := ⟨h, rfl, fun _ => ⟨rfl, rfl⟩, fun h => (Bool.false_ne_true h).elim, fun h => h⟩
  setHint n l h := by
    show DInv W Inv (if l.ok then l.setHint W accepts n else l) ∧ ((if l.ok then l.setHint W accepts n else l).ok = true →
      viewOf W view (if l.ok then l.setHint W accepts n else l) = _ ∧ (if l.ok then l.setHint W accepts n else l).pos = _) ∧
      (l.ok = false → (if l.ok then l.setHint W accepts n else l).ok = false) ∧ dest (if l.ok then l.setHint W accepts n else l).dst = _
    cases ho : l.ok with
    | false => exact ⟨h, fun _ => ⟨rfl, rfl⟩, fun _ => ho, rfl⟩
    | true =>
      obtain ⟨a1, a2, a3, a4⟩ := setHint_spec (accepts := accepts) L (n := n) h ho
      exact ⟨a1, a2, fun h => (Bool.false_ne_true h.symm).elim, a3⟩

/-! ## What is digested -/

theorem dig_write {bs : Bytes} {l : DW σ} (h : DInv W Inv l) : DigPost bs l ((opsOk W accepts).write bs l).2 := by
  unfold WriterOps.write
  by_cases hn : bs.length ≤ (opsOk W accepts).avail l
  · rw [if_pos hn]; exact (put_spec (view := view) h hn).2.2.2.2
  · rw [if_neg hn]; exact (writeWith_post L h fun s hs => (L.write hs).1).2.1

theorem dig_push {n rec : Nat} {l : DW σ} (h : DInv W Inv l) : DigPost [] l ((opsOk W accepts).push n rec l).2 := by
  unfold WriterOps.push
  by_cases hn : n ≤ (opsOk W accepts).avail l
  · rw [if_pos hn]; exact DigPost.refl
  · rw [if_neg hn]; exact (through_post L h fun s hs => (L.push hs).1).2.1

theorem dig_fragments {fs : List Bytes} {l : DW σ} (h : DInv W Inv l) : DigPost fs.flatten l ((opsOk W accepts).writeFragments fs l).2 := by
  induction fs generalizing l with
  | nil => exact DigPost.refl
  | cons f fs ih =>
    unfold WriterOps.writeFragments
    dsimp only
    obtain ⟨⟨w1, w2, w3, w4, w5⟩, -⟩ := (lawful (accepts := accepts) L).write (bs := f) h
    have hd := dig_write (accepts := accepts) L (bs := f) h
    rw [List.flatten_cons]
    by_cases hr : ((opsOk W accepts).write f l).1 = false
    · rw [if_pos hr]; exact hd.weaken _ (w3 hr)
    · rw [if_neg hr]
      have hr : ((opsOk W accepts).write f l).1 = true := by simpa using hr
      exact hd.seq (ih w1) fun ho => ((w2 hr).2.2).trans ho

theorem dig_run {op : WOp} {l : DW σ} (h : DInv W Inv l) : DigPost op.bytes l (op.run (opsOk W accepts) l).2 := by
  cases op with
  | push n rec => exact dig_push L h
  | writeChar b =>
    show DigPost [b] l ((opsOk W accepts).writeChar b l).2
    unfold WriterOps.writeChar
    dsimp only
    obtain ⟨⟨w1, w2, w3, w4, w5⟩, p2⟩ := (lawful (accepts := accepts) L).push (n := 1) (rec := 0) h
    have hd := dig_push (accepts := accepts) L (n := 1) (rec := 0) h
    by_cases hr : ((opsOk W accepts).push 1 0 l).1 = false
    · rw [if_pos hr]; exact hd.weaken [b] (w3 hr)
    · rw [if_neg hr]
      have hr : ((opsOk W accepts).push 1 0 l).1 = true := by simpa using hr
      exact hd.seq (b := [b]) (put_spec (view := view) (bs := [b]) w1 (p2 hr).1).2.2.2.2 fun ho => ((w2 hr).2.2).trans ho
  | write bs => exact dig_write L h
  | writeExternal bs =>
    show DigPost bs l ((opsOk W accepts).writeExternal bs l).2
    unfold WriterOps.writeExternal
    by_cases hn : bs.length ≤ (opsOk W accepts).avail l ∧ bs.length ≤ kMaxBytesToCopy
    · rw [if_pos hn]; exact (put_spec (view := view) h hn.1).2.2.2.2
    · rw [if_neg hn]; exact dig_write L h
  | writeChain fs =>
    show DigPost fs.flatten l ((opsOk W accepts).writeChain fs l).2
    unfold WriterOps.writeChain
    by_cases hn : fs.flatten.length ≤ (opsOk W accepts).avail l ∧ fs.flatten.length ≤ kMaxBytesToCopy
    · rw [if_pos hn]; exact (put_spec (view := view) h hn.1).2.2.2.2
    · rw [if_neg hn]; exact dig_fragments L h
  | fill n b =>
    show DigPost (List.replicate n b) l ((opsOk W accepts).fill n b l).2
    unfold WriterOps.fill
    by_cases hn : n ≤ (opsOk W accepts).avail l ∧ n ≤ kMaxBytesToCopy
    · rw [if_pos hn]; exact (put_spec (view := view) h (by rw [List.length_replicate]; exact hn.1)).2.2.2.2
    · rw [if_neg hn]; exact (writeWith_post L h fun s hs => (L.fill hs).1).2.1
  | flush t => exact (flushImpl_spec L h).2.1
  | seek q =>
    show DigPost [] l ((opsOk W accepts).seek q l).2
    unfold WriterOps.seek
    split
    · exact DigPost.refl
    · exact (fail_spec L h).2.2.2.1
  | size => exact (fail_spec L h).2.2.2.1
  | truncate n => exact (fail_spec L h).2.2.2.1
  | readMode q => exact (readModeImpl_spec L h).2.1
  | supportsRandomAccess => exact DigPost.refl
  | setWriteSizeHint n =>
    show DigPost [] l (if l.ok then l.setHint W accepts n else l)
    cases ho : l.ok with
    | false => exact DigPost.refl
    | true => exact (setHint_spec L h ho).2.2.2

end DW
end Riegeli.Wtr

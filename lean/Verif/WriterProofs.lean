import Verif.Writer
/-!
# Proofs about `Writer`

What the public functions do follows from the contract of the class (`WriterOps.Lawful`).
-/
namespace Riegeli.Wtr

@[simp] theorem overlay_nil (c : Bytes) (p : Nat) : overlay c p [] = c := by simp [overlay]

theorem overlay_getElem? {c : Bytes} {p : Nat} {bs : Bytes} (hb : bs ≠ []) (i : Nat) :
    (overlay c p bs)[i]? = if i < p then (if i < c.length then c[i]? else some 0) else if i < p + bs.length then bs[i - p]? else c[i]? := by
  rw [overlay, if_neg hb]
  by_cases h1 : i < p
  · rw [if_pos h1]
    by_cases h2 : i < c.length
    · rw [if_pos h2, List.append_assoc, List.append_assoc, List.getElem?_append_left (by rw [List.length_take]; omega),
        List.getElem?_take_of_lt h1]
    · rw [if_neg h2, List.append_assoc, List.append_assoc, List.getElem?_append_right (by rw [List.length_take]; omega), List.getElem?_append_left (by
        rw [List.length_replicate, List.length_take]; omega), List.getElem?_replicate, if_pos (by rw [List.length_take]; omega)]
  · rw [if_neg h1]
    have hl : (c.take p ++ List.replicate (p - c.length) (0 : UInt8)).length = p := by
      rw [List.length_append, List.length_take, List.length_replicate]; omega
    by_cases h2 : i < p + bs.length
    · rw [if_pos h2, List.append_assoc, List.getElem?_append_right (by omega), hl, List.getElem?_append_left (by omega)]
    · rw [if_neg h2, List.getElem?_append_right (by rw [List.length_append]; omega), List.length_append, hl, List.getElem?_drop]
      congr 1; omega

theorem overlay_length {c : Bytes} {p : Nat} {bs : Bytes} (hb : bs ≠ []) : (overlay c p bs).length = max c.length (p + bs.length) := by
  rw [overlay, if_neg hb]
  simp only [List.length_append, List.length_take, List.length_replicate, List.length_drop]
  omega

theorem overlay_append (c : Bytes) (p : Nat) (a b : Bytes) : overlay (overlay c p a) (p + a.length) b = overlay c p (a ++ b) := by
  by_cases ha : a = []
  · subst ha; simp
  by_cases hb : b = []
  · subst hb; simp
  have hab : a ++ b ≠ [] := by simp [ha]
  apply List.ext_getElem?
  intro i
  rw [overlay_getElem? hb, overlay_getElem? hab, overlay_length ha, overlay_getElem? ha, List.length_append]
  have := List.length_pos_iff.2 ha
  by_cases h1 : i < p
  · rw [if_pos (by omega), if_pos (by omega), if_pos h1, if_pos h1]
  · rw [if_neg h1, if_neg h1]
    by_cases h2 : i < p + a.length
    · rw [if_pos h2, if_pos (by omega), if_pos h2, if_pos (by omega), List.getElem?_append_left (by omega)]
    · rw [if_neg h2, if_neg h2]
      by_cases h3 : i < p + a.length + b.length
      · rw [if_pos h3, if_pos (by omega), List.getElem?_append_right (by omega)]
        congr 1; omega
      · rw [if_neg h3, if_neg (by omega)]

/-- A part of the write: each byte is as before or as after. -/
theorem overlay_mid (c : Bytes) (p : Nat) (a b : Bytes) (i : Nat) :
    (overlay c p a)[i]? = c[i]? ∨ (overlay c p a)[i]? = (overlay c p (a ++ b))[i]? := by
  by_cases ha : a = []
  · subst ha; simp
  have hab : a ++ b ≠ [] := by simp [ha]
  rw [overlay_getElem? ha, overlay_getElem? hab, List.length_append]
  by_cases h1 : i < p
  · rw [if_pos h1, if_pos h1]; exact .inr rfl
  · rw [if_neg h1, if_neg h1]
    by_cases h2 : i < p + a.length
    · rw [if_pos h2, if_pos (by omega), List.getElem?_append_left (by omega)]; exact .inr rfl
    · rw [if_neg h2]; exact .inl rfl

theorem overlay_take_mid (c : Bytes) (p : Nat) (a : Bytes) (k i : Nat) :
    (overlay c p (a.take k))[i]? = c[i]? ∨ (overlay c p (a.take k))[i]? = (overlay c p a)[i]? := by
  have := overlay_mid c p (a.take k) (a.drop k) i
  rwa [List.take_append_drop] at this

theorem overlay_end (c : Bytes) (bs : Bytes) : overlay c c.length bs = c ++ bs := by
  by_cases hb : bs = []
  · subst hb; simp
  · rw [overlay, if_neg hb]
    simp [List.drop_eq_nil_of_le]

theorem Mixed.old (p q : Nat) (d v w : Bytes) : Mixed p q d v w d := fun _ => .inl rfl
theorem Mixed.mid (p q : Nat) (d v w : Bytes) : Mixed p q d v w v := fun _ => .inr (.inl rfl)
theorem Mixed.new (p q : Nat) (d v w : Bytes) : Mixed p q d v w w := fun _ => .inr (.inr (.inl rfl))

theorem Mixed.seq {d v d1 d2 : Bytes} {p : Nat} {a b : Bytes} (h1 : Mixed p (p + a.length) d v (overlay v p a) d1)
    (h2 : Mixed (p + a.length) (p + a.length + b.length) d1 (overlay v p a) (overlay v p (a ++ b)) d2) :
    Mixed p (p + (a ++ b).length) d v (overlay v p (a ++ b)) d2 := by
  intro i
  have hm := overlay_mid v p a b i
  rw [List.length_append]
  rcases h2 i with h | h | h | ⟨h3, h4, h5⟩
  · rcases h1 i with h' | h' | h' | ⟨h3, h4, h5⟩
    · exact .inl (h.trans h')
    · exact .inr (.inl (h.trans h'))
    · rcases hm with hm | hm
      · exact .inr (.inl (h.trans (h'.trans hm)))
      · exact .inr (.inr (.inl (h.trans (h'.trans hm))))
    · exact .inr (.inr (.inr ⟨h3, by omega, h.trans h5⟩))
  · rcases hm with hm | hm
    · exact .inr (.inl (h.trans hm))
    · exact .inr (.inr (.inl (h.trans hm)))
  · exact .inr (.inr (.inl h))
  · exact .inr (.inr (.inr ⟨by omega, by omega, h5⟩))

theorem Mixed.weaken {d v d1 : Bytes} {p : Nat} {a : Bytes} (b : Bytes) (h1 : Mixed p (p + a.length) d v (overlay v p a) d1) :
    Mixed p (p + (a ++ b).length) d v (overlay v p (a ++ b)) d1 := h1.seq (Mixed.old _ _ _ _ _)

theorem Mixed.wider {d v w d1 : Bytes} {p q : Nat} (p' q' : Nat) (h : Mixed p q d v w d1) (hq : q ≤ p) : Mixed p' q' d v w d1 := by
  intro i
  rcases h i with h | h | h | ⟨h3, h4, h5⟩
  · exact .inl h
  · exact .inr (.inl h)
  · exact .inr (.inr (.inl h))
  · omega

/-- If the destination has a part of the data written by a writer at the end, then this stays so. -/
theorem Mixed.prefix {d v d' : Bytes} {bs : Bytes} {q : Nat} (h : Mixed v.length q d v (v ++ bs) d') (hd : d <+: v) :
    d <+: d' ∧ d' <+: v ++ bs := by
  obtain ⟨v', rfl⟩ := hd
  constructor
  · rw [List.prefix_iff_eq_take]
    apply List.ext_getElem?
    intro i
    by_cases hi : i < d.length
    · rw [List.getElem?_take_of_lt hi]
      rcases h i with h | h | h | ⟨h3, h4, h5⟩
      · exact h.symm
      · rw [h, List.getElem?_append_left hi]
      · rw [h, List.append_assoc, List.getElem?_append_left hi]
      · rw [List.length_append] at h3; omega
    · rw [List.getElem?_eq_none (by omega), List.getElem?_eq_none (by rw [List.length_take]; omega)]
  · rw [List.prefix_iff_eq_take]
    apply List.ext_getElem?
    intro i
    by_cases hi : i < d'.length
    · rw [List.getElem?_take_of_lt hi]
      have hs : d'[i]? = some d'[i] := List.getElem?_eq_getElem hi
      rcases h i with h | h | h | ⟨h3, h4, h5⟩
      · have h' := h.symm.trans hs
        rw [h, List.append_assoc, List.getElem?_append_left (List.getElem?_eq_some_iff.1 h').1]
      · have h' := h.symm.trans hs
        rw [h, List.getElem?_append_left (List.getElem?_eq_some_iff.1 h').1]
      · exact h
      · rw [h5] at hs; cases hs
    · rw [List.getElem?_eq_none (by omega), List.getElem?_eq_none (by rw [List.length_take]; omega)]

section
variable {σ : Type} {W : WriterOps σ} {view dest : σ → Bytes} {Inv : σ → Prop}

theorem WritePost.seq {a b : Bytes} {s : σ} {r1 r2 : Bool × σ} (h1 : WritePost W view dest Inv a s r1) (ht : r1.1 = true)
    (h2 : WritePost W view dest Inv b r1.2 r2) : WritePost W view dest Inv (a ++ b) s r2 := by
  obtain ⟨a1, a2, a3, a4, a5⟩ := h1
  obtain ⟨b1, b2, b3, b4, b5⟩ := h2
  obtain ⟨e1, e2, e3⟩ := a2 ht
  rw [e1, e2, overlay_append] at b5 b2
  refine ⟨b1, fun h => ?_, b3, fun h => ?_, a5.seq b5⟩
  · obtain ⟨f1, f2, f3⟩ := b2 h
    exact ⟨f1, by rw [f2, List.length_append]; omega, f3.trans e3⟩
  · obtain ⟨f1, f2⟩ := b4 (by rw [e3, h])
    exact ⟨f1, f2.trans (a4 h).2⟩

theorem WritePost.failed {a : Bytes} (b : Bytes) {s : σ} {r1 : Bool × σ} (h1 : WritePost W view dest Inv a s r1) (ht : r1.1 = false) :
    WritePost W view dest Inv (a ++ b) s (false, r1.2) := by
  obtain ⟨a1, a2, a3, a4, a5⟩ := h1
  exact ⟨a1, fun h => (Bool.false_ne_true h).elim, fun _ => a3 ht, a4, a5.weaken b⟩

theorem writeFragments_of (hw : ∀ bs s, Inv s → WritePost W view dest Inv bs s (W.write bs s) ∧ ((W.write bs s).1 = true → bs = [] ∨ W.ok s = true))
    {fs : List Bytes} {s : σ} (h : Inv s) : WritePost W view dest Inv fs.flatten s (W.writeFragments fs s) ∧
    ((W.writeFragments fs s).1 = true → fs.flatten = [] ∨ W.ok s = true) := by
  induction fs generalizing s with
  | nil =>
    exact ⟨⟨h, fun _ => ⟨by simp [WriterOps.writeFragments], rfl, rfl⟩, fun h => (Bool.false_ne_true h.symm).elim, fun h => ⟨h, rfl⟩, Mixed.old _ _ _ _ _⟩, fun _ => .inl rfl⟩
  | cons f fs ih =>
    obtain ⟨h1, h2⟩ := hw f s h
    unfold WriterOps.writeFragments
    generalize W.write f s = r at *
    dsimp only
    rw [List.flatten_cons]
    by_cases hr : r.1 = false
    · rw [if_pos hr]
      exact ⟨h1.failed _ hr, fun h => (Bool.false_ne_true h).elim⟩
    · rw [if_neg hr]
      have hr := (Bool.not_eq_false _).mp hr
      obtain ⟨i1, i2⟩ := ih h1.1
      refine ⟨h1.seq hr i1, fun h => ?_⟩
      rcases h2 hr with h3 | h3
      · rcases i2 h with h4 | h4
        · exact .inl (by rw [h3, h4]; rfl)
        · exact .inr ((h1.2.1 hr).2.2 ▸ h4)
      · exact .inr h3

namespace WriterOps.Lawful
variable (L : W.Lawful view dest Inv)
include L

theorem put_post {bs : Bytes} {s : σ} (h : Inv s) (hb : bs.length ≤ W.avail s) : WritePost W view dest Inv bs s (true, W.put bs s) := by
  obtain ⟨a1, a2, a3, a4, a5, a6⟩ := L.put bs s h hb
  exact ⟨a1, fun _ => ⟨a2, a3, a5⟩, fun h => (Bool.false_ne_true h.symm).elim, fun h => ⟨a5.trans h, a6⟩, a6 ▸ Mixed.old _ _ _ _ _⟩

/-- Where a failed writer still succeeds, there is nothing to write. -/
theorem put_ok {bs : Bytes} {s : σ} (h : Inv s) (hb : bs.length ≤ W.avail s) : bs = [] ∨ W.ok s = true := by
  cases ho : W.ok s with
  | true => exact .inr rfl
  | false => rw [L.avail s h ho] at hb; exact .inl (List.eq_nil_of_length_eq_zero (by omega))

theorem push {n rec : Nat} {s : σ} (h : Inv s) : WritePost W view dest Inv [] s (W.push n rec s) ∧
    ((W.push n rec s).1 = true → n ≤ W.avail (W.push n rec s).2 ∧ (n = 0 ∨ W.ok s = true)) := by
  unfold WriterOps.push
  by_cases hn : n ≤ W.avail s
  · rw [if_pos hn]
    refine ⟨⟨h, fun _ => ⟨by simp, rfl, rfl⟩, fun h => (Bool.false_ne_true h.symm).elim, fun h => ⟨h, rfl⟩, Mixed.old _ _ _ _ _⟩, fun _ => ⟨hn, ?_⟩⟩
    cases ho : W.ok s with
    | true => exact .inr rfl
    | false => rw [L.avail s h ho] at hn; exact .inl (by omega)
  · rw [if_neg hn]
    obtain ⟨h1, h2⟩ := L.pushSlow n rec s h (by omega)
    exact ⟨h1, fun h => ⟨(h2 h).1, .inr (h2 h).2⟩⟩

theorem writeChar {b : UInt8} {s : σ} (h : Inv s) : WritePost W view dest Inv [b] s (W.writeChar b s) ∧
    ((W.writeChar b s).1 = true → W.ok s = true) := by
  unfold WriterOps.writeChar
  obtain ⟨h1, h2⟩ := L.push (n := 1) (rec := 0) h
  generalize W.push 1 0 s = r at *
  dsimp only
  by_cases hr : r.1 = false
  · rw [if_pos hr]
    exact ⟨h1.failed [b] hr, fun h => (Bool.false_ne_true h).elim⟩
  · rw [if_neg hr]
    have hr := (Bool.not_eq_false _).mp hr
    have h3 := L.put_post (bs := [b]) h1.1 (h2 hr).1
    exact ⟨h1.seq hr h3, fun _ => (h2 hr).2.resolve_left (by omega)⟩

theorem write {bs : Bytes} {s : σ} (h : Inv s) : WritePost W view dest Inv bs s (W.write bs s) ∧
    ((W.write bs s).1 = true → bs = [] ∨ W.ok s = true) := by
  unfold WriterOps.write
  by_cases hn : bs.length ≤ W.avail s
  · rw [if_pos hn]; exact ⟨L.put_post h hn, fun _ => L.put_ok h hn⟩
  · rw [if_neg hn]
    obtain ⟨h1, h2⟩ := L.writeSlow bs s h (by omega)
    exact ⟨h1, fun h => .inr (h2 h)⟩

theorem writeExternal {bs : Bytes} {s : σ} (h : Inv s) : WritePost W view dest Inv bs s (W.writeExternal bs s) ∧
    ((W.writeExternal bs s).1 = true → bs = [] ∨ W.ok s = true) := by
  unfold WriterOps.writeExternal
  by_cases hn : bs.length ≤ W.avail s ∧ bs.length ≤ kMaxBytesToCopy
  · rw [if_pos hn]; exact ⟨L.put_post h hn.1, fun _ => L.put_ok h hn.1⟩
  · rw [if_neg hn]; exact L.write h

theorem writeFragments {fs : List Bytes} {s : σ} (h : Inv s) : WritePost W view dest Inv fs.flatten s (W.writeFragments fs s) ∧
    ((W.writeFragments fs s).1 = true → fs.flatten = [] ∨ W.ok s = true) :=
  writeFragments_of (fun _ _ h => L.write h) h

theorem writeChain {fs : List Bytes} {s : σ} (h : Inv s) : WritePost W view dest Inv fs.flatten s (W.writeChain fs s) ∧
    ((W.writeChain fs s).1 = true → fs.flatten = [] ∨ W.ok s = true) := by
  unfold WriterOps.writeChain
  by_cases hn : fs.flatten.length ≤ W.avail s ∧ fs.flatten.length ≤ kMaxBytesToCopy
  · rw [if_pos hn]; exact ⟨L.put_post h hn.1, fun _ => L.put_ok h hn.1⟩
  · rw [if_neg hn]; exact L.writeFragments h

theorem fill {n : Nat} {b : UInt8} {s : σ} (h : Inv s) : WritePost W view dest Inv (List.replicate n b) s (W.fill n b s) ∧
    ((W.fill n b s).1 = true → n = 0 ∨ W.ok s = true) := by
  unfold WriterOps.fill
  by_cases hn : n ≤ W.avail s ∧ n ≤ kMaxBytesToCopy
  · rw [if_pos hn]
    have h1 : (List.replicate n b).length ≤ W.avail s := by rw [List.length_replicate]; exact hn.1
    refine ⟨L.put_post h h1, fun _ => ?_⟩
    rcases L.put_ok h h1 with h2 | h2
    · exact .inl (by simpa using h2)
    · exact .inr h2
  · rw [if_neg hn]
    obtain ⟨h1, h2⟩ := L.fillSlow n b s h (by omega)
    exact ⟨h1, fun h => .inr (h2 h)⟩

theorem seek {q : Nat} {s : σ} (h : Inv s) : Inv (W.seek q s).2 ∧
    (W.ok (W.seek q s).2 = true → view (W.seek q s).2 = view s) ∧
    ((W.seek q s).1 = true → W.pos (W.seek q s).2 = q ∧ q ≤ max (view s).length (W.pos s) ∧ W.ok (W.seek q s).2 = W.ok s) ∧
    ((W.seek q s).1 = false → W.ok (W.seek q s).2 = false ∨
      (W.pos (W.seek q s).2 = (view s).length ∧ (view s).length < q ∧ q ≠ W.pos s)) ∧
    (W.ok s = false → W.ok (W.seek q s).2 = false ∧ dest (W.seek q s).2 = dest s) ∧
    Mixed 0 0 (dest s) (view s) (view s) (dest (W.seek q s).2) := by
  unfold WriterOps.seek
  by_cases hq : q = W.pos s
  · rw [if_pos hq]
    exact ⟨h, fun _ => rfl, fun _ => ⟨hq.symm, by omega, rfl⟩, fun h => (Bool.false_ne_true h.symm).elim, fun h => ⟨h, rfl⟩, Mixed.old _ _ _ _ _⟩
  · rw [if_neg hq]
    obtain ⟨h1, h2, h3, h4, h5, h6⟩ := L.seekSlow q s h hq
    refine ⟨h1, h2, fun ht => ?_, fun hf => ?_, h5, h6⟩
    · obtain ⟨k1, k2, k3, k4⟩ := h3 ht
      exact ⟨k3, k4, by rw [k1, k2]⟩
    · rcases h4 hf with h | ⟨h, h'⟩
      · exact .inl h
      · exact .inr ⟨h, h', hq⟩

/-- The contents and the position. -/
def _root_.Riegeli.Wtr.WriterOps.abs (W : WriterOps σ) (view : σ → Bytes) (s : σ) : Bytes × Nat := (view s, W.pos s)

omit L in
theorem of_post {op : WOp} {s : σ} {r : Bool × σ} (h : WritePost W view dest Inv op.bytes s r)
    (ha : ∀ x c p, op.after x (c, p) = (overlay c p op.bytes, p + op.bytes.length)) (hp : ∀ a, op.Possible true a) :
    (W.ok r.2 = true → W.abs view r.2 = op.after r.1 (W.abs view s) ∧ op.Possible r.1 (W.abs view s)) ∧
    (W.ok s = false → W.ok r.2 = false ∧ dest r.2 = dest s) := by
  obtain ⟨a1, a2, a3, a4, a5⟩ := h
  refine ⟨fun ho => ?_, a4⟩
  cases hr : r.1 with
  | false => rw [a3 hr] at ho; cases ho
  | true =>
    obtain ⟨b1, b2, b3⟩ := a2 hr
    refine ⟨?_, hp _⟩
    unfold WriterOps.abs
    rw [ha, b1, b2]

/-- Every public function does what the specification says. -/
theorem run {op : WOp} {s : σ} (h : Inv s) (hal : op.Allowed W s) :
    Inv (op.run W s).2 ∧
    (W.ok (op.run W s).2 = true → W.abs view (op.run W s).2 = op.after (op.run W s).1 (W.abs view s) ∧
      op.Possible (op.run W s).1 (W.abs view s)) ∧
    (W.ok s = false → W.ok (op.run W s).2 = false ∧ dest (op.run W s).2 = dest s) ∧
    Mixed (W.pos s) (W.pos s + op.bytes.length) (dest s) (view s) (op.after true (W.abs view s)).1 (dest (op.run W s).2) := by
  cases op with
  | push n rec =>
    have h1 := (L.push (n := n) (rec := rec) h).1
    obtain ⟨h2, h3⟩ := of_post (op := .push n rec) h1 (fun _ _ _ => by cases ‹Bool› <;> rfl) (fun _ => rfl)
    exact ⟨h1.1, h2, h3, h1.2.2.2.2⟩
  | writeChar b =>
    have h1 := (L.writeChar (b := b) h).1
    obtain ⟨h2, h3⟩ := of_post (op := .writeChar b) h1 (fun _ _ _ => by cases ‹Bool› <;> rfl) (fun _ => rfl)
    exact ⟨h1.1, h2, h3, h1.2.2.2.2⟩
  | write bs =>
    have h1 := (L.write (bs := bs) h).1
    obtain ⟨h2, h3⟩ := of_post (op := .write bs) h1 (fun _ _ _ => by cases ‹Bool› <;> rfl) (fun _ => rfl)
    exact ⟨h1.1, h2, h3, h1.2.2.2.2⟩
  | writeExternal bs =>
    have h1 := (L.writeExternal (bs := bs) h).1
    obtain ⟨h2, h3⟩ := of_post (op := .writeExternal bs) h1 (fun _ _ _ => by cases ‹Bool› <;> rfl) (fun _ => rfl)
    exact ⟨h1.1, h2, h3, h1.2.2.2.2⟩
  | writeChain fs =>
    have h1 := (L.writeChain (fs := fs) h).1
    obtain ⟨h2, h3⟩ := of_post (op := .writeChain fs) h1 (fun _ _ _ => by cases ‹Bool› <;> rfl) (fun _ => rfl)
    exact ⟨h1.1, h2, h3, h1.2.2.2.2⟩
  | fill n b =>
    have h1 := (L.fill (n := n) (b := b) h).1
    obtain ⟨h2, h3⟩ := of_post (op := .fill n b) h1 (fun _ _ _ => by cases ‹Bool› <;> rfl) (fun _ => rfl)
    exact ⟨h1.1, h2, h3, h1.2.2.2.2⟩
  | flush t =>
    have h1 := (L.flushImpl t s h).1
    obtain ⟨h2, h3⟩ := of_post (op := .flush t) h1 (fun _ _ _ => by cases ‹Bool› <;> rfl) (fun _ => rfl)
    exact ⟨h1.1, h2, h3, h1.2.2.2.2⟩
  | readMode q =>
    have h1 := (L.readModeImpl q s h).1
    obtain ⟨h2, h3⟩ := of_post (op := .readMode q) h1 (fun _ _ _ => by cases ‹Bool› <;> rfl) (fun _ => rfl)
    exact ⟨h1.1, h2, h3, h1.2.2.2.2⟩
  | seek q =>
    obtain ⟨h1, h2, h3, h4, h5, h6⟩ := L.seek (q := q) h
    show Inv (W.seek q s).2 ∧ (W.ok (W.seek q s).2 = true → W.abs view (W.seek q s).2 = (WOp.seek q).after (W.seek q s).1 (W.abs view s) ∧
      (WOp.seek q).Possible (W.seek q s).1 (W.abs view s)) ∧ (W.ok s = false → W.ok (W.seek q s).2 = false ∧ dest (W.seek q s).2 = dest s) ∧
      Mixed _ _ (dest s) (view s) (view s) (dest (W.seek q s).2)
    refine ⟨h1, fun ho => ?_, h5, h6.wider _ _ (Nat.le_refl 0)⟩
    have hv := h2 ho
    unfold WriterOps.abs
    rw [hv]
    cases hr : (W.seek q s).1 with
    | true =>
      obtain ⟨k1, k2, k3⟩ := h3 hr
      rw [k1]; exact ⟨rfl, k2⟩
    | false =>
      rcases h4 hr with h | ⟨h, h'⟩
      · rw [h] at ho; cases ho
      · rw [h]; exact ⟨rfl, h'⟩
  | size =>
    obtain ⟨h1, h2, h3, h4, h5⟩ := L.sizeImpl s h
    have e : WOp.run W s .size = ((W.sizeImpl s).1.isSome, (W.sizeImpl s).2) := rfl
    rw [e]
    generalize W.sizeImpl s = r at *
    refine ⟨h1, fun ho => ?_, h4, ?_⟩
    · cases hr : r.1 with
      | none => rw [show W.ok r.2 = true from ho] at h3; cases h3 hr
      | some n =>
        obtain ⟨k1, k2, k3, k4, k5⟩ := h2 n hr
        refine ⟨?_, rfl⟩
        unfold WriterOps.abs
        dsimp only
        rw [k2, k3]
        show _ = (overlay (view s) (W.pos s) [], W.pos s + 0)
        rw [overlay_nil]; rfl
    · show Mixed _ _ (dest s) (view s) (overlay (view s) (W.pos s) []) _
      rw [overlay_nil]; exact h5.wider _ _ (Nat.le_refl 0)
  | truncate n =>
    obtain ⟨h1, h2, h3, h4, h5⟩ := L.truncateImpl n s h hal
    have e : WOp.run W s (.truncate n) = W.truncateImpl n s := rfl
    rw [e]
    generalize W.truncateImpl n s = r at *
    have h5 : Mixed 0 0 (dest s) (view s) (resize n (view s)) (dest r.2) := fun i => by
      have := h5 i
      split at this
      · exact this
      · rcases this with h | h | h | h
        · exact .inl h
        · exact .inr (.inl h)
        · exact .inr (.inl h)
        · exact .inr (.inr (.inr h))
    refine ⟨h1, fun ho => ?_, h4, h5.wider _ _ (Nat.le_refl 0)⟩
    unfold WriterOps.abs
    cases hr : r.1 with
    | true =>
      obtain ⟨k1, k2, k3, k4, k5⟩ := h2 hr
      rw [k2, k3]; exact ⟨rfl, k1⟩
    | false =>
      rcases h3 hr with h | ⟨k1, k2, k3⟩
      · rw [h] at ho; cases ho
      · rw [k1, k2]; exact ⟨rfl, k3⟩
  | supportsRandomAccess =>
    obtain ⟨h1, h2, h3, h4, h5⟩ := L.randomAccess s h
    have e : WOp.run W s .supportsRandomAccess = W.randomAccess s := rfl
    rw [e]
    generalize W.randomAccess s = r at *
    refine ⟨h1, fun ho => ⟨?_, trivial⟩, fun ho => ⟨h5 ho, h2⟩, h2 ▸ Mixed.old _ _ _ _ _⟩
    unfold WriterOps.abs
    rw [(h3 ho).1, (h3 ho).2]
    show _ = (overlay (view s) (W.pos s) [], W.pos s + 0)
    rw [overlay_nil]; rfl
  | setWriteSizeHint n =>
    obtain ⟨h1, h2, h4, h5⟩ := L.setHint n s h
    have e : WOp.run W s (.setWriteSizeHint n) = (true, W.setHint n s) := rfl
    rw [e]
    refine ⟨h1, fun ho => ⟨?_, rfl⟩, fun ho => ⟨h4 ho, h5⟩, h5 ▸ Mixed.old _ _ _ _ _⟩
    unfold WriterOps.abs
    rw [(h2 ho).1, (h2 ho).2]
    show _ = (overlay (view s) (W.pos s) [], W.pos s + 0)
    rw [overlay_nil]; rfl

theorem runAll {ops : List WOp} {s : σ} (h : Inv s) (hal : WOp.AllAllowed W ops s) :
    Inv (WOp.runAll W ops s).2 ∧
    (W.ok (WOp.runAll W ops s).2 = true →
      W.abs view (WOp.runAll W ops s).2 = WOp.replay ops (WOp.runAll W ops s).1 (W.abs view s) ∧
      WOp.AllPossible ops (WOp.runAll W ops s).1 (W.abs view s)) ∧
    (W.ok s = false → W.ok (WOp.runAll W ops s).2 = false ∧ dest (WOp.runAll W ops s).2 = dest s) := by
  induction ops generalizing s with
  | nil => exact ⟨h, fun _ => ⟨rfl, trivial⟩, fun h => ⟨h, rfl⟩⟩
  | cons op ops ih =>
    obtain ⟨h1, h2⟩ := hal
    obtain ⟨r1, r2, r3, r4⟩ := L.run h h1
    obtain ⟨i1, i2, i3⟩ := ih r1 h2
    show Inv (WOp.runAll W ops (op.run W s).2).2 ∧ _
    refine ⟨i1, fun ho => ?_, fun ho => ?_⟩
    · replace ho : W.ok (WOp.runAll W ops (op.run W s).2).2 = true := ho
      have ho1 : W.ok (op.run W s).2 = true := by
        cases h' : W.ok (op.run W s).2 with
        | true => rfl
        | false => rw [(i3 h').1] at ho; cases ho
      obtain ⟨j1, j2⟩ := i2 ho
      obtain ⟨k1, k2⟩ := r2 ho1
      rw [k1] at j1 j2
      exact ⟨j1, k2, j2⟩
    · obtain ⟨j1, j2⟩ := i3 (r3 ho).1
      exact ⟨j1, j2.trans (r3 ho).2⟩

/-- However the functions are called, and whether they succeed or not, the destination has only bytes which it had in the beginning, or
which the writer presented at some point. -/
theorem only_written {ops : List WOp} {s : σ} (h : Inv s) (hal : WOp.AllAllowed W ops s) {i : Nat} {x : UInt8}
    (hx : (dest (WOp.runAll W ops s).2)[i]? = some x) :
    (dest s)[i]? = some x ∨ ∃ k r, k ≤ ops.length ∧
      (WOp.replay (ops.take k) ((WOp.runAll W ops s).1.take (k - 1) ++ [r]) (W.abs view s)).1[i]? = some x := by
  induction ops generalizing s with
  | nil => exact .inl hx
  | cons op ops ih =>
    obtain ⟨h1, h2⟩ := hal
    obtain ⟨r1, r2, r3, r4⟩ := L.run h h1
    have hx' : (dest (WOp.runAll W ops (op.run W s).2).2)[i]? = some x := hx
    have first : (dest (op.run W s).2)[i]? = some x → (dest s)[i]? = some x ∨ ∃ k r, k ≤ (op :: ops).length ∧
      (WOp.replay ((op :: ops).take k) ((WOp.runAll W (op :: ops) s).1.take (k - 1) ++ [r]) (W.abs view s)).1[i]? = some x := fun hd => by
      rcases r4 i with h | h | h | ⟨h3, h4, h5⟩
      · exact .inl (h.symm.trans hd)
      · exact .inr ⟨0, true, Nat.zero_le _, h.symm.trans hd⟩
      · refine .inr ⟨1, true, by simp, ?_⟩
        have e : WOp.replay ((op :: ops).take 1) ((WOp.runAll W (op :: ops) s).1.take (1 - 1) ++ [true]) (W.abs view s) = op.after true (W.abs view s) := by
          simp [WOp.replay]
        rw [e]; exact h.symm.trans hd
      · rw [h5] at hd; cases hd
    cases ho : W.ok (op.run W s).2 with
    | false =>
      have := (L.runAll r1 h2).2.2 ho
      rw [this.2] at hx'
      exact first hx'
    | true =>
      rcases ih r1 h2 hx' with hd | ⟨k, r, hk, hd⟩
      · exact first hd
      · rw [(r2 ho).1] at hd
        cases k with
        | zero =>
          refine .inr ⟨1, (op.run W s).1, by simp, ?_⟩
          simpa [WOp.replay] using hd
        | succ k =>
          refine .inr ⟨k + 2, r, by simp only [List.length_cons]; omega, ?_⟩
          have e : (WOp.runAll W (op :: ops) s).1 = (op.run W s).1 :: (WOp.runAll W ops (op.run W s).2).1 := rfl
          rw [e]
          show (WOp.replay (op :: ops.take (k + 1)) ((op.run W s).1 :: (WOp.runAll W ops (op.run W s).2).1.take k ++ [r]) (W.abs view s)).1[i]? = some x
          exact hd

omit L in
theorem _root_.Riegeli.Wtr.WOp.allAllowed (ops : List WOp) (s : σ) (hop : ∀ op ∈ ops, op.Appends = true) : WOp.AllAllowed W ops s := by
  induction ops generalizing s with
  | nil => trivial
  | cons o ops ih =>
    refine ⟨?_, ih _ fun op h => hop op (List.mem_cons_of_mem _ h)⟩
    have := hop o (List.mem_cons_self ..)
    cases o <;> first | trivial | cases this

omit L in
theorem _root_.Riegeli.Wtr.WOp.runAll_length (ops : List WOp) (s : σ) : (WOp.runAll W ops s).1.length = ops.length := by
  induction ops generalizing s with
  | nil => rfl
  | cons o ops ih => simp only [WOp.runAll, List.length_cons]; rw [ih]

omit L in
theorem _root_.Riegeli.Wtr.WOp.replay_appends (ops : List WOp) (rs : List Bool) (c : Bytes) (hl : rs.length = ops.length)
    (hop : ∀ op ∈ ops, op.Appends = true) :
    WOp.replay ops rs (c, c.length) = (c ++ ops.flatMap WOp.bytes, (c ++ ops.flatMap WOp.bytes).length) := by
  induction ops generalizing rs c with
  | nil => simp [WOp.replay]
  | cons o ops ih =>
    cases rs with
    | nil => cases hl
    | cons r rs =>
      have ho := hop o (List.mem_cons_self ..)
      have e : o.after r (c, c.length) = (overlay c c.length o.bytes, c.length + o.bytes.length) := by
        cases o <;> first | (cases r <;> rfl) | cases ho
      show WOp.replay ops rs (o.after r (c, c.length)) = _
      rw [e, overlay_end, ← List.length_append, ih rs _ (by simpa using hl) (fun op h => hop op (List.mem_cons_of_mem _ h))]
      simp

/-- If a writer writes at the end, then at any point, even if it failed, the destination has its initial contents followed by a part of the data. -/
theorem appends {ops : List WOp} {s : σ} (h : Inv s) (hop : ∀ op ∈ ops, op.Appends = true) (hp : W.pos s = (view s).length) (hd : dest s <+: view s) :
    dest s <+: dest (WOp.runAll W ops s).2 ∧ dest (WOp.runAll W ops s).2 <+: view s ++ ops.flatMap WOp.bytes := by
  induction ops generalizing s with
  | nil => exact ⟨List.prefix_refl _, by simpa [WOp.runAll] using hd⟩
  | cons op ops ih =>
    have hop1 := hop op (List.mem_cons_self ..)
    have hal : op.Allowed W s := by cases op <;> first | trivial | cases hop1
    have hall := WOp.allAllowed (W := W) ops (op.run W s).2 fun op h => hop op (List.mem_cons_of_mem _ h)
    obtain ⟨r1, r2, r3, r4⟩ := L.run h hal
    have haft : ∀ r, op.after r (W.abs view s) = (view s ++ op.bytes, (view s).length + op.bytes.length) := fun r => by
      unfold WriterOps.abs
      rw [hp]
      have e : op.after r (view s, (view s).length) = (overlay (view s) (view s).length op.bytes, (view s).length + op.bytes.length) := by
        cases op <;> first | (cases r <;> rfl) | cases hop1
      rw [e, overlay_end]
    rw [haft, hp] at r4
    obtain ⟨m1, m2⟩ := r4.prefix hd
    rw [List.flatMap_cons]
    show dest s <+: dest (WOp.runAll W ops (op.run W s).2).2 ∧ dest (WOp.runAll W ops (op.run W s).2).2 <+: _
    cases ho : W.ok (op.run W s).2 with
    | false =>
      rw [((L.runAll r1 hall).2.2 ho).2]
      refine ⟨m1, m2.trans ?_⟩
      rw [← List.append_assoc]; exact List.prefix_append _ _
    | true =>
      have e := (r2 ho).1
      rw [haft] at e
      unfold WriterOps.abs at e
      injection e with e1 e2
      obtain ⟨i1, i2⟩ := ih r1 (fun op h => hop op (List.mem_cons_of_mem _ h)) (by rw [e1, e2, List.length_append]) (by rw [e1]; exact m2)
      rw [e1, List.append_assoc] at i2
      exact ⟨m1.trans i1, i2⟩

/-- The same for the contents which the writer presents. -/
theorem appends_ok {ops : List WOp} {s : σ} (h : Inv s) (hop : ∀ op ∈ ops, op.Appends = true) (hp : W.pos s = (view s).length)
    (ho : W.ok (WOp.runAll W ops s).2 = true) :
    view (WOp.runAll W ops s).2 = view s ++ ops.flatMap WOp.bytes ∧ W.pos (WOp.runAll W ops s).2 = (view s ++ ops.flatMap WOp.bytes).length := by
  have := ((L.runAll h (WOp.allAllowed ops s hop)).2.1 ho).1
  unfold WriterOps.abs at this
  rw [hp, WOp.replay_appends _ _ _ (WOp.runAll_length ops s) hop] at this
  injection this with h1 h2
  exact ⟨h1, h2⟩

end WriterOps.Lawful

/-- What `put()` and `PushSlow()` must do, for classes which do not override other functions. -/
structure WriterOps.PushLawful (W : WriterOps σ) (view dest : σ → Bytes) (Inv : σ → Prop) : Prop where
  avail : ∀ s, Inv s → W.ok s = false → W.avail s = 0
  put : ∀ bs s, Inv s → bs.length ≤ W.avail s → Inv (W.put bs s) ∧ view (W.put bs s) = overlay (view s) (W.pos s) bs ∧
    W.pos (W.put bs s) = W.pos s + bs.length ∧ W.avail (W.put bs s) = W.avail s - bs.length ∧ W.ok (W.put bs s) = W.ok s ∧
    dest (W.put bs s) = dest s
  pushSlow : ∀ n rec s, Inv s → W.avail s < n → WritePost W view dest Inv [] s (W.pushSlow n rec s) ∧
    ((W.pushSlow n rec s).1 = true → n ≤ W.avail (W.pushSlow n rec s).2 ∧ W.ok s = true)

namespace WriterOps.PushLawful
variable (L : W.PushLawful view dest Inv)
include L

theorem put_post {bs : Bytes} {s : σ} (h : Inv s) (hb : bs.length ≤ W.avail s) : WritePost W view dest Inv bs s (true, W.put bs s) := by
  obtain ⟨a1, a2, a3, a4, a5, a6⟩ := L.put bs s h hb
  exact ⟨a1, fun _ => ⟨a2, a3, a5⟩, fun h => (Bool.false_ne_true h.symm).elim, fun h => ⟨a5.trans h, a6⟩, a6 ▸ Mixed.old _ _ _ _ _⟩

/-- `WriteSlow(string_view)` in terms of `PushSlow()`. -/
theorem defaultWriteSlow {fuel : Nat} {bs : Bytes} {s : σ} (h : Inv s) (hb : W.avail s < bs.length)
    (hf : bs.length < fuel ∨ (0 < W.avail s ∧ bs.length ≤ fuel)) :
    WritePost W view dest Inv bs s (W.defaultWriteSlow fuel bs s) ∧ ((W.defaultWriteSlow fuel bs s).1 = true → W.ok s = true) := by
  induction fuel generalizing bs s with
  | zero => exfalso; omega
  | succ fuel ih =>
    unfold WriterOps.defaultWriteSlow
    dsimp only
    have hl : (bs.take (W.avail s)).length = W.avail s := by rw [List.length_take]; omega
    have h1 := L.put_post (bs := bs.take (W.avail s)) h (by omega)
    obtain ⟨-, -, -, h2, h3, -⟩ := L.put (bs.take (W.avail s)) s h (by omega)
    rw [hl, Nat.sub_self] at h2
    obtain ⟨h4, h5⟩ := L.pushSlow 1 (bs.drop (W.avail s)).length _ h1.1 (by dsimp only; omega)
    have h6 := h1.seq rfl h4
    rw [List.append_nil] at h6
    dsimp only at h4 h5 h6
    generalize hr : W.pushSlow 1 (bs.drop (W.avail s)).length (W.put (bs.take (W.avail s)) s) = r at *
    have htd := List.take_append_drop (W.avail s) bs
    have hd : (bs.drop (W.avail s)).length = bs.length - W.avail s := List.length_drop
    by_cases hr1 : r.1 = false
    · rw [if_pos hr1]
      refine ⟨?_, fun h => (Bool.false_ne_true h).elim⟩
      have := h6.failed (bs.drop (W.avail s)) hr1
      rwa [htd] at this
    · rw [if_neg hr1]
      have hr1 := (Bool.not_eq_false _).mp hr1
      obtain ⟨h7, h8⟩ := h5 hr1
      rw [h3] at h8
      by_cases hn : W.avail r.2 < (bs.drop (W.avail s)).length
      · rw [if_pos hn]
        obtain ⟨i1, -⟩ := ih h4.1 hn (by omega)
        refine ⟨?_, fun _ => h8⟩
        have := h6.seq hr1 i1
        rwa [htd] at this
      · rw [if_neg hn]
        refine ⟨?_, fun _ => h8⟩
        have := h6.seq hr1 (L.put_post (bs := bs.drop (W.avail s)) h4.1 (by omega))
        rwa [htd] at this

end WriterOps.PushLawful
end
end Riegeli.Wtr

import Verif.BufferedWriter
import Verif.WriterProofs
import Verif.BufferedReaderProofs
/-!
# Proofs about `BufferedWriter`

`BDst.Lawful` is what `BufferedWriter` requires from the derived class. `BW.lawful`: then `BufferedWriter` is a lawful class of writers.
-/
namespace Riegeli.Wtr

/-- What a function of the derived class which writes `bs` must do: on failure a part of `bs` is written. -/
def BWrites {τ : Type} (dest : τ → Bytes) (PInv : WPhys τ → Prop) (bs : Bytes) (p : WPhys τ) (r : Bool × WPhys τ) : Prop :=
  PInv r.2 ∧
  (∃ k ≤ bs.length, dest r.2.dst = overlay (dest p.dst) p.startPos (bs.take k)) ∧
  (r.1 = true → p.ok = true ∧ r.2.ok = true ∧ dest r.2.dst = overlay (dest p.dst) p.startPos bs ∧ r.2.startPos = p.startPos + bs.length) ∧
  (r.1 = false → r.2.ok = false) ∧
  (p.ok = false → r.2.ok = false ∧ dest r.2.dst = dest p.dst)

/-- The contract of a class derived from `BufferedWriter` (`buffered_writer.h:70-118`). `dest` are the contents of the destination.
`T` says whether `Truncate()` may be called. -/
structure BDst.Lawful {τ : Type} (S : BDst τ) (dest : τ → Bytes) (T : Prop) (PInv : WPhys τ → Prop) : Prop where
  fail : ∀ p, PInv p → PInv { p with ok := false }
  writeInternal : ∀ bs p, PInv p → p.ok = true → bs ≠ [] → BWrites dest PInv bs p (S.writeInternal bs p)
  flushBehind : ∀ bs t p, PInv p → BWrites dest PInv bs p (S.flushBehind bs t p)
  doneBehind : ∀ bs p, PInv p → BWrites dest PInv bs p ((S.doneBehind bs p).ok, S.doneBehind bs p)
  seekBehind : ∀ q p, PInv p → (p.ok = true → q ≠ p.startPos) → PInv (S.seekBehind q p).2 ∧ dest (S.seekBehind q p).2.dst = dest p.dst ∧
    ((S.seekBehind q p).1 = true → p.ok = true ∧ (S.seekBehind q p).2.ok = true ∧ (S.seekBehind q p).2.startPos = q ∧
      q ≤ max (dest p.dst).length p.startPos) ∧
    ((S.seekBehind q p).1 = false → (S.seekBehind q p).2.ok = false ∨
      ((S.seekBehind q p).2.startPos = (dest p.dst).length ∧ (dest p.dst).length < q)) ∧
    (p.ok = false → (S.seekBehind q p).2.ok = false)
  sizeBehind : ∀ p, PInv p → PInv (S.sizeBehind p).2 ∧ dest (S.sizeBehind p).2.dst = dest p.dst ∧
    (∀ n, (S.sizeBehind p).1 = some n → n = (dest p.dst).length ∧ p.ok = true ∧ (S.sizeBehind p).2.ok = true ∧
      (S.sizeBehind p).2.startPos = p.startPos) ∧
    ((S.sizeBehind p).1 = none → (S.sizeBehind p).2.ok = false) ∧
    (p.ok = false → (S.sizeBehind p).2.ok = false)
  truncateBehind : T → ∀ n p, PInv p → PInv (S.truncateBehind n p).2 ∧
    (dest (S.truncateBehind n p).2.dst = dest p.dst ∨
      (n ≤ max (dest p.dst).length p.startPos ∧ dest (S.truncateBehind n p).2.dst = resize n (dest p.dst))) ∧
    ((S.truncateBehind n p).1 = true → n ≤ max (dest p.dst).length p.startPos ∧ dest (S.truncateBehind n p).2.dst = resize n (dest p.dst) ∧
      (S.truncateBehind n p).2.startPos = n ∧ p.ok = true ∧ (S.truncateBehind n p).2.ok = true) ∧
    ((S.truncateBehind n p).1 = false → (S.truncateBehind n p).2.ok = false ∨
      (dest (S.truncateBehind n p).2.dst = dest p.dst ∧ (S.truncateBehind n p).2.startPos = (dest p.dst).length ∧
        (dest p.dst).length < n)) ∧
    (p.ok = false → (S.truncateBehind n p).2.ok = false ∧ dest (S.truncateBehind n p).2.dst = dest p.dst)
  readModeBehind : ∀ q p, PInv p → PInv (S.readModeBehind q p).2 ∧ dest (S.readModeBehind q p).2.dst = dest p.dst ∧
    ((S.readModeBehind q p).1 = true → p.ok = true ∧ (S.readModeBehind q p).2.ok = true ∧
      (S.readModeBehind q p).2.startPos = p.startPos) ∧
    ((S.readModeBehind q p).1 = false → (S.readModeBehind q p).2.ok = false) ∧
    (p.ok = false → (S.readModeBehind q p).2.ok = false)
  randomAccess : ∀ p, PInv p → PInv (S.randomAccess p).2 ∧ dest (S.randomAccess p).2.dst = dest p.dst ∧
    (S.randomAccess p).2.startPos = p.startPos ∧
    ((S.randomAccess p).1 = true → T ∧ (S.randomAccess p).2.ok = p.ok ∧ S.randomAccess (S.randomAccess p).2 = (true, (S.randomAccess p).2)) ∧
    (p.ok = false → (S.randomAccess p).2.ok = false)

/-- The invariant of `BufferedWriter`. -/
structure BWInv {τ : Type} (S : BDst τ) (PInv : WPhys τ → Prop) (b : BW τ) : Prop where
  phys : PInv b.phys
  cur : b.cur ≤ b.mem.length
  written : b.written ≤ b.mem.length
  failed : b.phys.ok = false → b.mem = []
  ra : 0 < b.written → S.randomAccess b.phys = (true, b.phys)
  base : b.phys.ok = true → b.sizer.base ≤ b.phys.startPos

/-- Contents of the destination when the buffer is written. -/
def BW.view {τ : Type} (dest : τ → Bytes) (b : BW τ) : Bytes := overlay (dest b.phys.dst) b.phys.startPos b.data

/-- Writing within the data which are written. -/
theorem overlay_inner (c : Bytes) (p : Nat) (a bs : Bytes) (j : Nat) (hj : j ≤ a.length) :
    overlay (overlay c p a) (p + j) bs = overlay c p (a.take j ++ bs ++ a.drop (j + bs.length)) := by
  by_cases hb : bs = []
  · subst hb; simp
  by_cases ha : a = []
  · subst ha
    have : j = 0 := by simpa using hj
    subst this; simp
  have hab : a.take j ++ bs ++ a.drop (j + bs.length) ≠ [] := by simp [hb]
  have hl := List.length_pos_iff.2 ha
  have hlb := List.length_pos_iff.2 hb
  apply List.ext_getElem?
  intro i
  rw [overlay_getElem? hb, overlay_getElem? hab, overlay_length ha, overlay_getElem? ha]
  have hL : (a.take j ++ bs ++ a.drop (j + bs.length)).length = max a.length (j + bs.length) := by
    simp only [List.length_append, List.length_take, List.length_drop]; omega
  rw [hL]
  have ht : (a.take j).length = j := by rw [List.length_take]; omega
  by_cases h1 : i < p
  · rw [if_pos (by omega), if_pos (by omega), if_pos h1, if_pos h1]
  · rw [if_neg h1, if_neg h1]
    by_cases h2 : i < p + j
    · rw [if_pos h2, if_pos (by omega), if_pos (by omega), if_pos (by omega), List.append_assoc,
        List.getElem?_append_left (by omega), List.getElem?_take_of_lt (by omega)]
    · rw [if_neg h2]
      by_cases h3 : i < p + j + bs.length
      · rw [if_pos h3, if_pos (by omega), List.append_assoc, List.getElem?_append_right (by omega), ht,
          List.getElem?_append_left (by omega)]
        congr 1; omega
      · rw [if_neg h3]
        by_cases h4 : i < p + a.length
        · rw [if_pos h4, if_pos (by omega), List.getElem?_append_right (by rw [List.length_append]; omega), List.length_append, ht,
            List.getElem?_drop]
          congr 1; omega
        · rw [if_neg h4, if_neg (by omega)]

theorem overlay_length_le (c : Bytes) (p : Nat) (bs : Bytes) : (overlay c p bs).length = if bs = [] then c.length else max c.length (p + bs.length) := by
  by_cases hb : bs = []
  · rw [if_pos hb, hb, overlay_nil]
  · rw [if_neg hb, overlay_length hb]

namespace BW
variable {τ : Type} {S : BDst τ} {dest : τ → Bytes} {T : Prop} {PInv : WPhys τ → Prop}

theorem data_length {b : BW τ} (h : BWInv S PInv b) : b.data.length = b.len := by
  have := h.cur; have := h.written
  unfold data len; rw [List.length_take]; omega

theorem put_spec {b : BW τ} {bs : Bytes} (h : BWInv S PInv b) (hb : bs.length ≤ b.avail) :
    BWInv S PInv (b.put bs) ∧ (b.put bs).view dest = overlay (b.view dest) b.pos bs ∧
    (b.put bs).pos = b.pos + bs.length ∧ (b.put bs).avail = b.avail - bs.length ∧ (b.put bs).phys = b.phys := by
  have hc := h.cur
  have hw := h.written
  have hb' : bs.length ≤ b.mem.length - b.cur := hb
  have hml : (b.mem.take b.cur ++ bs ++ b.mem.drop (b.cur + bs.length)).length = b.mem.length := by
    simp only [List.length_append, List.length_take, List.length_drop]; omega
  refine ⟨⟨h.phys, ?_, ?_, fun ho => ?_, h.ra, h.base⟩, ?_, ?_, ?_, rfl⟩
  · show b.cur + bs.length ≤ (b.mem.take b.cur ++ bs ++ b.mem.drop (b.cur + bs.length)).length
    omega
  · show b.written ≤ (b.mem.take b.cur ++ bs ++ b.mem.drop (b.cur + bs.length)).length
    omega
  · apply List.eq_nil_of_length_eq_zero
    show (b.mem.take b.cur ++ bs ++ b.mem.drop (b.cur + bs.length)).length = 0
    rw [hml, h.failed ho]; rfl
  · have hdl := data_length h
    unfold view pos
    rw [overlay_inner _ _ _ _ _ (by rw [hdl]; unfold len; omega)]
    show overlay (dest b.phys.dst) b.phys.startPos (b.put bs).data = _
    congr 1
    show (b.mem.take b.cur ++ bs ++ b.mem.drop (b.cur + bs.length)).take (max (b.cur + bs.length) b.written) = _
    unfold data len
    rw [List.take_take, List.take_append, List.take_of_length_le (by simp only [List.length_append, List.length_take]; omega), List.length_append, List.length_take,
      List.drop_take]
    have e1 : min b.cur (max b.cur b.written) = b.cur := by omega
    rw [e1]
    congr 1
    have e2 : min b.cur b.mem.length = b.cur := by omega
    rw [e2]
    congr 1; omega
  · show b.phys.startPos + (b.cur + bs.length) = _
    unfold pos; omega
  · show (b.mem.take b.cur ++ bs ++ b.mem.drop (b.cur + bs.length)).length - (b.cur + bs.length) = _
    rw [hml]; unfold avail; omega

/-- The buffer is empty. -/
def Empty (b : BW τ) : Prop := b.mem = [] ∧ b.cur = 0 ∧ b.written = 0

theorem Empty.view {b : BW τ} (h : Empty b) : b.view dest = dest b.phys.dst := by
  obtain ⟨h1, h2, h3⟩ := h
  unfold BW.view data; rw [h1]; simp

theorem Empty.pos {b : BW τ} (h : Empty b) : b.pos = b.phys.startPos := by unfold BW.pos; rw [h.2.1]; rfl

theorem clear_empty (b : BW τ) : Empty b.clear := ⟨rfl, rfl, rfl⟩

theorem after_phys (p : WPhys τ) (b : BW τ) : (b.after p).phys = p := by unfold after; split <;> rfl

theorem after_empty {p : WPhys τ} {b : BW τ} (h : Empty b) : Empty (b.after p) := by
  obtain ⟨h1, h2, h3⟩ := h
  unfold after; split
  · exact ⟨h1, h2, h3⟩
  · exact ⟨rfl, rfl, h3⟩

theorem after_sizer (p : WPhys τ) (b : BW τ) : (b.after p).sizer = b.sizer := by unfold after; split <;> rfl

theorem Empty.inv {b : BW τ} (h : Empty b) (hp : PInv b.phys) (hz : b.phys.ok = true → b.sizer.base ≤ b.phys.startPos) : BWInv S PInv b := by
  obtain ⟨h1, h2, h3⟩ := h
  exact ⟨hp, by rw [h2]; exact Nat.zero_le _, by rw [h3]; exact Nat.zero_le _, fun _ => h1, fun hw => by omega, hz⟩

variable (L : S.Lawful dest T PInv)
include L

theorem sync_spec {b : BW τ} (h : BWInv S PInv b) :
    BWInv S PInv (b.sync S).2 ∧ Empty (b.sync S).2 ∧ (b.sync S).2.sizer = b.sizer ∧
    ((b.sync S).1 = true → (b.sync S).2.phys.startPos = b.pos ∧ dest (b.sync S).2.phys.dst = b.view dest ∧
      (b.sync S).2.phys.ok = b.phys.ok) ∧
    ((b.sync S).1 = false → (b.sync S).2.phys.ok = false) ∧
    (b.phys.ok = false → (b.sync S).2.phys.ok = false ∧ dest (b.sync S).2.phys.dst = dest b.phys.dst) ∧
    Mixed 0 0 (dest b.phys.dst) (b.view dest) (b.view dest) (dest (b.sync S).2.phys.dst) := by
  have hdl := data_length h
  have hE := clear_empty b
  have hI : BWInv S PInv b.clear := hE.inv h.phys h.base
  unfold sync
  dsimp only
  by_cases hn : b.len = 0
  · rw [if_pos hn]
    have hv : b.view dest = dest b.phys.dst := by
      unfold view; rw [List.eq_nil_of_length_eq_zero (hdl.trans hn), overlay_nil]
    refine ⟨hI, hE, rfl, fun _ => ⟨?_, hv.symm, rfl⟩, fun h => (Bool.false_ne_true h.symm).elim, fun h => ⟨h, rfl⟩, Mixed.old _ _ _ _ _⟩
    show b.phys.startPos = b.phys.startPos + b.cur
    unfold len at hn; omega
  · rw [if_neg hn]
    have hd : b.data ≠ [] := fun hd => hn (by rw [← hdl, hd]; rfl)
    by_cases ho : b.clear.phys.ok = false
    · rw [if_pos ho]
      exact ⟨hI, hE, rfl, fun h => (Bool.false_ne_true h).elim, fun _ => ho, fun _ => ⟨ho, rfl⟩, Mixed.old _ _ _ _ _⟩
    · rw [if_neg ho]
      have ho : b.phys.ok = true := (Bool.not_eq_false _).mp ho
      obtain ⟨w1, ⟨k, hk, w2⟩, w3, w4, -⟩ := L.writeInternal b.data b.phys h.phys ho hd
      have w2' : dest (S.writeInternal b.data b.phys).2.dst = overlay (dest b.phys.dst) b.phys.startPos (b.data.take k) := w2
      rw [show b.clear.phys = b.phys from rfl]
      generalize S.writeInternal b.data b.phys = r at *
      have hm : Mixed 0 0 (dest b.phys.dst) (b.view dest) (b.view dest) (dest r.2.dst) := by
        intro i
        rw [w2']
        rcases overlay_take_mid (dest b.phys.dst) b.phys.startPos b.data k i with h | h
        · exact .inl h
        · exact .inr (.inl h)
      by_cases hr : r.1 = false
      · rw [if_pos hr]
        have hf := w4 hr
        refine ⟨(after_empty hE).inv (by rw [after_phys]; exact w1) (by rw [after_phys]; intro h; rw [hf] at h; cases h), after_empty hE, after_sizer _ _, fun h => (Bool.false_ne_true h).elim,
          fun _ => by rw [after_phys]; exact hf, fun h => (by rw [ho] at h; cases h), by rw [after_phys]; exact hm⟩
      · rw [if_neg hr]
        have hr := (Bool.not_eq_false _).mp hr
        obtain ⟨-, o1, o2, o3⟩ := w3 hr
        have hb := h.base ho
        by_cases hq : r.2.startPos ≠ b.pos
        · rw [if_pos hq]
          have hq' : b.pos ≤ (dest r.2.dst).length := by
            rw [o2, overlay_length hd, hdl]
            unfold BW.pos len; omega
          obtain ⟨s1, s2, s3, s4, s5⟩ := L.seekBehind b.pos r.2 w1 (fun _ => Ne.symm hq)
          generalize S.seekBehind b.pos r.2 = k at *
          refine ⟨(after_empty hE).inv (by rw [after_phys]; exact s1) ?_, after_empty hE, after_sizer _ _, fun h => ?_, fun h => ?_,
            fun h => (by rw [ho] at h; cases h), by rw [after_phys, s2]; exact hm⟩
          · rw [after_phys, after_sizer]
            intro hk
            cases hk1 : k.1 with
            | true =>
              rw [(s3 hk1).2.2.1]; show b.sizer.base ≤ b.pos; unfold BW.pos; omega
            | false =>
              rcases s4 hk1 with h | h
              · rw [hk] at h; cases h
              · omega
          · rw [after_phys]
            exact ⟨(s3 h).2.2.1, s2.trans o2, by rw [(s3 h).2.1, ho]⟩
          · rw [after_phys]
            rcases s4 h with h | h
            · exact h
            · omega
        · rw [if_neg hq]
          have hq : r.2.startPos = b.pos := Decidable.of_not_not hq
          refine ⟨(after_empty hE).inv (by rw [after_phys]; exact w1) ?_, after_empty hE, after_sizer _ _, fun _ => ?_, fun h => (Bool.false_ne_true h.symm).elim,
            fun h => (by rw [ho] at h; cases h), by rw [after_phys]; exact hm⟩
          · rw [after_phys, after_sizer, hq]; intro _; show b.sizer.base ≤ b.pos; unfold BW.pos; omega
          · rw [after_phys]; exact ⟨hq, o2, by rw [o1, ho]⟩


/-- The post-condition of `WritePost`, for states of `BufferedWriter`. -/
def Post (S : BDst τ) (dest : τ → Bytes) (PInv : WPhys τ → Prop) (bs : Bytes) (b : BW τ) (r : Bool × BW τ) : Prop :=
  WritePost (ops S) (view dest) (fun b => dest b.phys.dst) (BWInv S PInv) bs b r

omit L in
theorem Post.same {b b' : BW τ} {bs : Bytes} {r : Bool × BW τ} (hp : b'.phys = b.phys) (hq : b'.pos = b.pos) (hv : b'.view dest = b.view dest)
    (h : Post S dest PInv bs b' r) : Post S dest PInv bs b r := by
  obtain ⟨a1, a2, a3, a4, a5⟩ := h
  have e1 : (ops S).pos b' = (ops S).pos b := hq
  have e2 : (ops S).ok b' = (ops S).ok b := by show b'.phys.ok = b.phys.ok; rw [hp]
  have e3 : dest b'.phys.dst = dest b.phys.dst := by rw [hp]
  rw [e1, e2, hv] at a2
  rw [e2] at a4
  dsimp only at a4 a5
  rw [e3] at a4 a5
  rw [e1, hv] at a5
  exact ⟨a1, a2, a3, a4, a5⟩

/-- `SyncBuffer()` writes nothing new. -/
theorem sync_post {b : BW τ} (h : BWInv S PInv b) : Post S dest PInv [] b (b.sync S) := by
  obtain ⟨s1, s2, s3, s4, s5, s6, s7⟩ := sync_spec L h
  refine ⟨s1, fun ht => ?_, s5, s6, ?_⟩
  · obtain ⟨t1, t2, t3⟩ := s4 ht
    refine ⟨?_, s2.pos.trans t1, t3⟩
    rw [overlay_nil, s2.view, t2]
  · rw [overlay_nil]; exact s7.wider _ _ (Nat.le_refl 0)

omit L in
/-- A function of the derived class which writes, while the buffer is empty. -/
theorem writes_post {b : BW τ} (h : BWInv S PInv b) (hE : Empty b) {bs : Bytes} {r : Bool × WPhys τ} (hw : BWrites dest PInv bs b.phys r) :
    Post S dest PInv bs b (r.1, b.after r.2) := by
  obtain ⟨w1, ⟨k, hk, w2⟩, w3, w4, w5⟩ := hw
  have hE' : Empty (b.after r.2) := after_empty hE
  have hv := hE.view (dest := dest)
  have hp := hE.pos
  refine ⟨hE'.inv (by rw [after_phys]; exact w1) ?_, fun ht => ?_, fun hf => ?_, fun ho => ?_, ?_⟩
  · rw [after_phys, after_sizer]
    intro ho
    cases hr : r.1 with
    | true => obtain ⟨o1, o2, o3, o4⟩ := w3 hr; have := h.base o1; omega
    | false => rw [w4 hr] at ho; cases ho
  · obtain ⟨o1, o2, o3, o4⟩ := w3 ht
    refine ⟨?_, ?_, ?_⟩
    · show (b.after r.2).view dest = overlay (b.view dest) b.pos bs
      rw [hE'.view, after_phys, o3, hv, hp]
    · show (b.after r.2).pos = b.pos + bs.length
      rw [hE'.pos, after_phys, o4, hp]
    · show (b.after r.2).phys.ok = b.phys.ok
      rw [after_phys, o2, o1]
  · show (b.after r.2).phys.ok = false
    rw [after_phys]; exact w4 hf
  · show (b.after r.2).phys.ok = false ∧ dest (b.after r.2).phys.dst = dest b.phys.dst
    rw [after_phys]; exact w5 ho
  · show Mixed b.pos (b.pos + bs.length) (dest b.phys.dst) (b.view dest) (overlay (b.view dest) b.pos bs) (dest (b.after r.2).phys.dst)
    intro i
    rw [after_phys, w2, hv, hp]
    rcases overlay_take_mid (dest b.phys.dst) b.phys.startPos bs k i with h | h
    · exact .inl h
    · exact .inr (.inr (.inl h))

omit L in
theorem bufferLength_min (z : WSizer) (o : Rdr.BufOpts) (pos min rec : Nat) : min ≤ z.bufferLength o pos min rec := by
  unfold WSizer.bufferLength
  have h := Rdr.roundPos_min (max (pos - z.base) (max z.last o.minSize)) min rec o.maxSize z.hint pos (decide (z.last = 0))
  dsimp only
  split
  · split
    · exact Nat.le_max_right _ _
    · exact h
  · exact h

theorem fail_post {b : BW τ} (h : BWInv S PInv b) (hE : Empty b) (bs : Bytes) : Post S dest PInv bs b (false, b.fail) := by
  refine writes_post (r := (false, { b.phys with ok := false })) h hE ⟨L.fail _ h.phys, ⟨0, Nat.zero_le _, by simp⟩, fun h => (Bool.false_ne_true h).elim,
    fun _ => rfl, fun _ => ⟨rfl, rfl⟩⟩

theorem pushSlow_spec {b : BW τ} (h : BWInv S PInv b) (n rec : Nat) : Post S dest PInv [] b (b.pushSlow S n rec) ∧
    ((b.pushSlow S n rec).1 = true → n ≤ (b.pushSlow S n rec).2.avail ∧ b.phys.ok = true) := by
  have s0 := sync_post L h
  obtain ⟨s1, s2, s3, s4, s5, s6, s7⟩ := sync_spec L h
  unfold pushSlow
  generalize hr : b.sync S = r at *
  dsimp only
  by_cases hr1 : r.1 = false
  · rw [if_pos hr1]
    exact ⟨WritePost.failed [] s0 hr1, fun h => (Bool.false_ne_true h).elim⟩
  · rw [if_neg hr1]
    have hr1 := (Bool.not_eq_false _).mp hr1
    obtain ⟨t1, t2, t3⟩ := s4 hr1
    by_cases ho : r.2.phys.ok = false
    · rw [if_pos ho]
      exact ⟨⟨s1, fun h => (Bool.false_ne_true h).elim, fun _ => ho, s0.2.2.2.1, s0.2.2.2.2⟩, fun h => (Bool.false_ne_true h).elim⟩
    · rw [if_neg ho]
      have ho := (Bool.not_eq_false _).mp ho
      by_cases hm : kMaxPosition - r.2.phys.startPos < n
      · rw [if_pos hm]
        exact ⟨WritePost.seq s0 hr1 (fail_post L s1 s2 []), fun h => (Bool.false_ne_true h).elim⟩
      · rw [if_neg hm]
        have hl := bufferLength_min r.2.sizer S.opts r.2.phys.startPos n rec
        generalize hl' : r.2.sizer.bufferLength S.opts r.2.phys.startPos n rec = len at *
        have hlen : n ≤ min len (kMaxPosition - r.2.phys.startPos) := by omega
        generalize min len (kMaxPosition - r.2.phys.startPos) = len at *
        obtain ⟨e1, e2, e3⟩ := s2
        refine ⟨⟨⟨s1.phys, Nat.zero_le _, ?_, fun hf => ?_, fun hw => ?_, s1.base⟩, fun _ => ⟨?_, ?_, ?_⟩, fun h => (Bool.false_ne_true h.symm).elim, fun hf => ?_, s0.2.2.2.2⟩,
          fun _ => ⟨?_, t3 ▸ ho⟩⟩
        · show r.2.written ≤ _; omega
        · rw [show r.2.phys.ok = false from hf] at ho; cases ho
        · have : 0 < r.2.written := hw
          omega
        · rw [overlay_nil, ← t2]
          show overlay (dest r.2.phys.dst) r.2.phys.startPos (List.take (max 0 r.2.written) _) = _
          rw [e3]; simp
        · show r.2.phys.startPos + 0 = b.pos + 0
          omega
        · exact t3
        · rw [show b.phys.ok = false from hf] at t3
          rw [t3] at ho; cases ho
        · show n ≤ ((List.range len).map (S.junk r.2.tick)).length - 0
          rw [List.length_map, List.length_range]; omega

theorem core_lawful : (core S).PushLawful (view dest) (fun b => dest b.phys.dst) (BWInv S PInv) where
  avail b h ho := by
    show b.mem.length - b.cur = 0
    rw [h.failed ho]; simp
  put bs b h hb := by
    obtain ⟨p1, p2, p3, p4, p5⟩ := put_spec (dest := dest) h hb
    refine ⟨p1, p2, p3, p4, ?_, ?_⟩
    · show (b.put bs).phys.ok = b.phys.ok; rw [p5]
    · show dest (b.put bs).phys.dst = dest b.phys.dst; rw [p5]
  pushSlow n rec b h _ := pushSlow_spec L h n rec

theorem writeSlow_spec {b : BW τ} (h : BWInv S PInv b) (bs : Bytes) (hb : b.avail < bs.length) : Post S dest PInv bs b (b.writeSlow S bs) ∧
    ((b.writeSlow S bs).1 = true → b.phys.ok = true) := by
  unfold writeSlow
  by_cases hc : b.sizer.bufferLength S.opts b.pos 0 0 ≤ bs.length
  · rw [if_pos hc]
    have s0 := sync_post L h
    obtain ⟨s1, s2, s3, s4, s5, s6, s7⟩ := sync_spec L h
    generalize hr : b.sync S = r at *
    dsimp only
    by_cases hr1 : r.1 = false
    · rw [if_pos hr1]
      exact ⟨WritePost.failed bs s0 hr1, fun h => (Bool.false_ne_true h).elim⟩
    · rw [if_neg hr1]
      have hr1 := (Bool.not_eq_false _).mp hr1
      obtain ⟨t1, t2, t3⟩ := s4 hr1
      by_cases ho : r.2.phys.ok = false
      · rw [if_pos ho]
        have hf0 : Post S dest PInv [] b (false, r.2) := ⟨s1, fun h => (Bool.false_ne_true h).elim, fun _ => ho, s0.2.2.2.1, s0.2.2.2.2⟩
        exact ⟨WritePost.failed bs hf0 rfl, fun h => (Bool.false_ne_true h).elim⟩
      · rw [if_neg ho]
        have ho := (Bool.not_eq_false _).mp ho
        have hne : bs ≠ [] := by intro hb'; rw [hb'] at hb; exact Nat.not_lt_zero _ hb
        exact ⟨WritePost.seq s0 hr1 (writes_post s1 s2 (L.writeInternal bs _ s1.phys ho hne)), fun _ => t3 ▸ ho⟩
  · rw [if_neg hc]
    exact (core_lawful L).defaultWriteSlow h hb (.inl (Nat.lt_succ_self _))

theorem write_spec {b : BW τ} (h : BWInv S PInv b) (bs : Bytes) :
    Post S dest PInv bs b (({ core S with writeSlow := writeSlow S } : WriterOps (BW τ)).write bs b) ∧
    ((({ core S with writeSlow := writeSlow S } : WriterOps (BW τ)).write bs b).1 = true → bs = [] ∨ b.phys.ok = true) := by
  unfold WriterOps.write
  dsimp only
  by_cases hn : bs.length ≤ (core S).avail b
  · rw [if_pos hn]
    refine ⟨(core_lawful L).put_post h hn, fun _ => ?_⟩
    cases ho : b.phys.ok with
    | true => exact .inr rfl
    | false => rw [(core_lawful L).avail b h ho] at hn; exact .inl (List.eq_nil_of_length_eq_zero (by omega))
  · rw [if_neg hn]
    obtain ⟨h1, h2⟩ := writeSlow_spec L h bs (Nat.lt_of_not_le hn)
    exact ⟨h1, fun h => .inr (h2 h)⟩

theorem fillSlow_spec {b : BW τ} (h : BWInv S PInv b) (n : Nat) (c : UInt8) (hn : 0 < n) : Post S dest PInv (List.replicate n c) b (b.fillSlow S n c) ∧
    ((b.fillSlow S n c).1 = true → b.phys.ok = true) := by
  have := writeFragments_of (W := ({ core S with writeSlow := writeSlow S } : WriterOps (BW τ))) (view := view dest) (dest := fun b => dest b.phys.dst) (Inv := BWInv S PInv) (fun bs b h => write_spec L h bs) (fs := (Fill.make n c).toList) h
  rw [(Fill.toList_spec n c).1] at this
  refine ⟨this.1, fun ht => (this.2 ht).resolve_left ?_⟩
  intro h0
  rw [List.replicate_eq_nil_iff] at h0; omega

omit L in
theorem endRun_base (z : WSizer) (q : Nat) : (z.endRun q).base = z.base := by unfold WSizer.endRun; split <;> rfl

omit L in
theorem inv_endRun {b : BW τ} (h : BWInv S PInv b) (q : Nat) : BWInv S PInv { b with sizer := b.sizer.endRun q } :=
  ⟨h.phys, h.cur, h.written, h.failed, h.ra, fun ho => by rw [endRun_base]; exact h.base ho⟩

omit L in
theorem inv_beginRun {b : BW τ} (h : BWInv S PInv b) : BWInv S PInv { b with sizer := b.sizer.beginRun b.phys.startPos } :=
  ⟨h.phys, h.cur, h.written, h.failed, h.ra, fun _ => Nat.le_refl _⟩

theorem flushImpl_spec {b : BW τ} (h : BWInv S PInv b) (t : FlushType) : Post S dest PInv [] b (b.flushImpl S t) ∧
    ((b.flushImpl S t).1 = true → b.phys.ok = true ∧ dest (b.flushImpl S t).2.phys.dst = b.view dest ∧ Empty (b.flushImpl S t).2) := by
  have hdl := data_length h
  unfold flushImpl
  dsimp only
  generalize hz : b.sizer.endRun (b.phys.startPos + b.len) = z
  have hzb : z.base = b.sizer.base := by rw [← hz, endRun_base]
  have hE : Empty ({ b with sizer := z } : BW τ).clear := clear_empty _
  have hI : BWInv S PInv ({ b with sizer := z } : BW τ).clear := hE.inv h.phys (fun ho => by show z.base ≤ _; rw [hzb]; exact h.base ho)
  generalize hc : ({ b with sizer := z } : BW τ).clear = c at *
  have c1 : c.phys = b.phys := by rw [← hc]; rfl
  have c2 : ({ b with sizer := z } : BW τ).data = b.data := rfl
  have c3 : ({ b with sizer := z } : BW τ).pos = b.pos := rfl
  rw [c2, c3]
  obtain ⟨w1, ⟨k, hk, w2⟩, w3, w4, w5⟩ := L.flushBehind b.data t c.phys (c1 ▸ h.phys)
  generalize S.flushBehind b.data t c.phys = r at *
  rw [c1] at w2 w3 w5
  have hm : Mixed b.pos (b.pos + ([] : Bytes).length) (dest b.phys.dst) (b.view dest) (overlay (b.view dest) b.pos []) (dest r.2.dst) := by
    intro i
    rw [w2]
    rcases overlay_take_mid (dest b.phys.dst) b.phys.startPos b.data k i with h | h
    · exact .inl h
    · exact .inr (.inl h)
  by_cases hr : r.1 = false
  · rw [if_pos hr]
    have hf := w4 hr
    refine ⟨⟨(after_empty hE).inv (by rw [after_phys]; exact w1) (by rw [after_phys]; intro h; rw [hf] at h; cases h), fun h => (Bool.false_ne_true h).elim,
      fun _ => ?_, fun ho => ?_, ?_⟩, fun h => (Bool.false_ne_true h).elim⟩
    · show (c.after r.2).phys.ok = false
      rw [after_phys]; exact hf
    · show (c.after r.2).phys.ok = false ∧ dest (c.after r.2).phys.dst = dest b.phys.dst
      rw [after_phys]; exact w5 ho
    · show Mixed b.pos _ _ _ _ (dest (c.after r.2).phys.dst)
      rw [after_phys]; exact hm
  · rw [if_neg hr]
    have hr := (Bool.not_eq_false _).mp hr
    obtain ⟨o1, o2, o3, o4⟩ := w3 hr
    generalize hr' : (if r.2.startPos = b.pos then (true, r.2) else S.seekBehind b.pos r.2) = r'
    have key : PInv r'.2 ∧ dest r'.2.dst = dest r.2.dst ∧ (r'.1 = true → r'.2.ok = true ∧ r'.2.startPos = b.pos) ∧ (r'.1 = false → r'.2.ok = false) := by
      by_cases hq : r.2.startPos = b.pos
      · rw [if_pos hq] at hr'
        subst hr'
        exact ⟨w1, rfl, fun _ => ⟨o2, hq⟩, fun h => (Bool.false_ne_true h.symm).elim⟩
      · rw [if_neg hq] at hr'
        obtain ⟨s1, s2, s3, s4, s5⟩ := L.seekBehind b.pos r.2 w1 (fun _ => Ne.symm hq)
        rw [hr'] at s1 s2 s3 s4 s5
        refine ⟨s1, s2, fun h => ⟨(s3 h).2.1, (s3 h).2.2.1⟩, fun h => ?_⟩
        rcases s4 h with h | h
        · exact h
        · exfalso
          have hd : b.data ≠ [] := by
            intro hd
            have : b.len = 0 := by rw [← hdl, hd]; rfl
            rw [hd] at o4
            apply hq; rw [o4]; unfold BW.pos; unfold len at this
            show b.phys.startPos + 0 = _; omega
          have := overlay_length (c := dest b.phys.dst) (p := b.phys.startPos) hd
          rw [← o3, hdl] at this
          have h2 := h.2
          unfold BW.pos at h2; unfold len at this; omega
    obtain ⟨k1, k2, k3, k4⟩ := key
    clear hr'
    have hE' : Empty (c.after r'.2) := after_empty hE
    refine ⟨⟨inv_beginRun (b := c.after r'.2) ⟨by rw [after_phys]; exact k1, ?_, ?_, fun _ => hE'.1, fun hw => ?_, ?_⟩, fun ht => ⟨?_, ?_, ?_⟩, fun hf => ?_, fun ho => ?_, ?_⟩, fun ht => ⟨o1, ?_, hE'⟩⟩
    · rw [hE'.2.1]; exact Nat.zero_le _
    · rw [hE'.2.2]; exact Nat.zero_le _
    · rw [hE'.2.2] at hw; omega
    · rw [after_phys, after_sizer]
      intro ho
      cases ht : r'.1 with
      | false => rw [k4 ht] at ho; cases ho
      | true =>
        rw [(k3 ht).2]
        have h1 := h.base o1
        have : c.sizer = z := by rw [← hc]; rfl
        rw [this, hzb]; unfold BW.pos; omega
    · rw [overlay_nil]
      show (c.after r'.2).view dest = b.view dest
      rw [hE'.view, after_phys, k2, o3]; rfl
    · show (c.after r'.2).pos = b.pos
      rw [hE'.pos, after_phys]; exact (k3 ht).2
    · show (c.after r'.2).phys.ok = b.phys.ok
      rw [after_phys, (k3 ht).1, o1]
    · show (c.after r'.2).phys.ok = false
      rw [after_phys]; exact k4 hf
    · rw [show b.phys.ok = false from ho] at o1; cases o1
    · show Mixed b.pos _ _ _ _ (dest (c.after r'.2).phys.dst)
      rw [after_phys, k2]; exact hm
    · show dest (c.after r'.2).phys.dst = _
      rw [after_phys, k2, o3]; rfl


theorem randomAccess_spec {b : BW τ} (h : BWInv S PInv b) :
    BWInv S PInv (b.randomAccess S).2 ∧ (b.randomAccess S).2.sizer = b.sizer ∧ dest (b.randomAccess S).2.phys.dst = dest b.phys.dst ∧
    (b.randomAccess S).2.phys.startPos = b.phys.startPos ∧
    ((b.randomAccess S).1 = true → T ∧ (b.randomAccess S).2.phys.ok = b.phys.ok ∧
      S.randomAccess (b.randomAccess S).2.phys = (true, (b.randomAccess S).2.phys)) ∧
    (b.phys.ok = false → (b.randomAccess S).2.phys.ok = false) ∧
    ((b.randomAccess S).2.phys.ok = true → (b.randomAccess S).2.data = b.data ∧ (b.randomAccess S).2.pos = b.pos ∧
      (b.randomAccess S).2.len = b.len) := by
  obtain ⟨r1, r2, r3, r4, r5⟩ := L.randomAccess b.phys h.phys
  have hra := h.ra
  unfold randomAccess
  generalize S.randomAccess b.phys = r at *
  dsimp only
  rw [after_phys, after_sizer]
  refine ⟨?_, rfl, r2, r3, r4, r5, ?_⟩
  · unfold after
    by_cases ho : r.2.ok = true
    · rw [if_pos ho]
      refine ⟨r1, h.cur, h.written, fun hf => (by rw [show r.2.ok = false from hf] at ho; cases ho), fun hw => ?_, fun _ => ?_⟩
      · have := hra hw
        rw [this] at r4 ⊢
        exact (r4 rfl).2.2
      · show b.sizer.base ≤ r.2.startPos
        rw [r3]
        cases hb : b.phys.ok with
        | true => exact h.base hb
        | false => rw [r5 hb] at ho; cases ho
    · rw [if_neg ho]
      refine ⟨r1, Nat.le_refl _, ?_, fun _ => rfl, fun hw => ?_, fun hf => (ho hf).elim⟩
      · show b.written ≤ 0
        apply Nat.le_of_not_lt
        intro hw
        rw [hra hw] at ho
        have := h.failed ((Bool.not_eq_true _).mp ho)
        have hw' := h.written
        rw [this] at hw'; exact absurd hw' (by simp; omega)
      · have hw : 0 < b.written := hw
        rw [hra hw] at r4 ⊢
        exact (r4 rfl).2.2
  · intro ho
    unfold after
    rw [if_pos ho]
    exact ⟨rfl, by unfold pos; show r.2.startPos + b.cur = _; rw [r3], rfl⟩

theorem seekSlow_spec {b : BW τ} (h : BWInv S PInv b) (q : Nat) (hq : q ≠ b.pos) :
    BWInv S PInv (b.seekSlow S q).2 ∧
    ((b.seekSlow S q).2.phys.ok = true → (b.seekSlow S q).2.view dest = b.view dest) ∧
    ((b.seekSlow S q).1 = true → b.phys.ok = true ∧ (b.seekSlow S q).2.phys.ok = true ∧ (b.seekSlow S q).2.pos = q ∧
      q ≤ max (b.view dest).length b.pos) ∧
    ((b.seekSlow S q).1 = false → (b.seekSlow S q).2.phys.ok = false ∨
      ((b.seekSlow S q).2.pos = (b.view dest).length ∧ (b.view dest).length < q)) ∧
    (b.phys.ok = false → (b.seekSlow S q).2.phys.ok = false ∧ dest (b.seekSlow S q).2.phys.dst = dest b.phys.dst) ∧
    Mixed 0 0 (dest b.phys.dst) (b.view dest) (b.view dest) (dest (b.seekSlow S q).2.phys.dst) := by
  obtain ⟨r1, r2, r3, r4, r5, r6, r7⟩ := randomAccess_spec L h
  unfold seekSlow
  generalize b.randomAccess S = r at *
  obtain ⟨ra, c⟩ := r
  dsimp only at *
  by_cases hc : ra = true ∧ c.phys.startPos ≤ q ∧ q ≤ c.phys.startPos + c.len
  · rw [if_pos hc]
    obtain ⟨hc1, hc2, hc3⟩ := hc
    obtain ⟨-, t2, t3⟩ := r5 hc1
    have ho : c.phys.ok = true := by
      cases ho : c.phys.ok with
      | true => rfl
      | false =>
        exfalso
        have hm := r1.failed ho
        have h1 := r1.cur
        have h2 := r1.written
        have h3 := h.cur
        rw [h.failed (t2 ▸ ho)] at h3
        rw [hm] at h1 h2
        simp at h1 h2 h3
        unfold len at hc3; unfold pos at hq; omega
    obtain ⟨u1, u2, u3⟩ := r7 ho
    have hdl := data_length r1
    have hdl' := data_length h
    have hlm : c.len ≤ c.mem.length := by have := r1.cur; have := r1.written; unfold len; omega
    have hlen : max (q - c.phys.startPos) c.len = c.len := by omega
    have hv : ({ c with written := c.len, cur := q - c.phys.startPos } : BW τ).view dest = b.view dest := by
      unfold view
      rw [show ({ c with written := c.len, cur := q - c.phys.startPos } : BW τ).data = c.mem.take (max (q - c.phys.startPos) c.len) from rfl, hlen]
      rw [show c.mem.take c.len = b.data from u1]
      show overlay (dest c.phys.dst) c.phys.startPos b.data = _
      rw [r3, r4]
    refine ⟨⟨r1.phys, ?_, hlm, fun hf => r1.failed hf, fun _ => t3, r1.base⟩, fun _ => hv, fun _ => ⟨t2 ▸ ho, ho, ?_, ?_⟩,
      fun h => (Bool.false_ne_true h.symm).elim, fun hf => (by rw [← t2, ho] at hf; cases hf), by rw [r3]; exact Mixed.old _ _ _ _ _⟩
    · show q - c.phys.startPos ≤ c.mem.length; omega
    · show c.phys.startPos + (q - c.phys.startPos) = q; omega
    · by_cases hd : b.data = []
      · have : b.len = 0 := by rw [← hdl', hd]; rfl
        rw [u3, this] at hc3
        unfold pos; omega
      · unfold view
        rw [overlay_length hd, hdl', ← u3, ← r4]; omega
  · rw [if_neg hc]
    clear hc
    have c1 := inv_endRun r1 (c.phys.startPos + c.len)
    obtain ⟨s1, s2, s3, s4, s5, s6, s7⟩ := sync_spec L c1
    rw [show ({ c with sizer := c.sizer.endRun (c.phys.startPos + c.len) } : BW τ).view dest = c.view dest from rfl] at s4 s7
    rw [show ({ c with sizer := c.sizer.endRun (c.phys.startPos + c.len) } : BW τ).pos = c.pos from rfl] at s4
    rw [show ({ c with sizer := c.sizer.endRun (c.phys.startPos + c.len) } : BW τ).phys = c.phys from rfl] at s4 s6 s7
    generalize ({ c with sizer := c.sizer.endRun (c.phys.startPos + c.len) } : BW τ).sync S = s at *
    have hcv : c.phys.ok = true → c.view dest = b.view dest := fun ho => by
      unfold view; rw [(r7 ho).1, r3, r4]
    have hmix : Mixed 0 0 (dest b.phys.dst) (b.view dest) (b.view dest) (dest s.2.phys.dst) := by
      cases ho : c.phys.ok with
      | true => rw [← r3, ← hcv ho]; exact s7
      | false => rw [(s6 ho).2, r3]; exact Mixed.old _ _ _ _ _
    have hfail : b.phys.ok = false → s.2.phys.ok = false ∧ dest s.2.phys.dst = dest b.phys.dst := fun ho =>
      ⟨(s6 (r6 ho)).1, (s6 (r6 ho)).2.trans r3⟩
    by_cases hs : s.1 = false
    · rw [if_pos hs]
      have hf := s5 hs
      exact ⟨s1, fun ho => (by rw [show s.2.phys.ok = true from ho] at hf; cases hf), fun h => (Bool.false_ne_true h).elim, fun _ => .inl hf, hfail, hmix⟩
    · rw [if_neg hs]
      have hs := (Bool.not_eq_false _).mp hs
      obtain ⟨t1, t2, t3⟩ := s4 hs
      have hne : s.2.phys.ok = true → q ≠ s.2.phys.startPos := fun ho => by
        rw [t1, (r7 (t3 ▸ ho)).2.1]; exact hq
      obtain ⟨k1, k2, k3, k4, k5⟩ := L.seekBehind q s.2.phys s1.phys hne
      generalize S.seekBehind q s.2.phys = k at *
      have hE' : Empty (s.2.after k.2) := after_empty s2
      have hE'' : Empty ({ s.2.after k.2 with sizer := (s.2.after k.2).sizer.beginRun (s.2.after k.2).phys.startPos } : BW τ) := hE'
      have hsv : s.2.phys.ok = true → dest s.2.phys.dst = b.view dest := fun ho => t2.trans (hcv (t3 ▸ ho))
      have hok : k.2.ok = true → s.2.phys.ok = true := fun ho => by
        cases hs' : s.2.phys.ok with
        | true => rfl
        | false => rw [k5 hs'] at ho; cases ho
      have hokb : s.2.phys.ok = true → b.phys.ok = true := fun ho => by
        cases hs' : b.phys.ok with
        | true => rfl
        | false => rw [(hfail hs').1] at ho; cases ho
      refine ⟨hE''.inv ?_ (fun _ => Nat.le_refl _), fun ho => ?_, fun ht => ⟨?_, ?_, ?_, ?_⟩, fun hf => ?_, fun hf => ?_, ?_⟩
      · show PInv (s.2.after k.2).phys; rw [after_phys]; exact k1
      · rw [hE''.view]
        show dest (s.2.after k.2).phys.dst = _
        replace ho : (s.2.after k.2).phys.ok = true := ho
        rw [after_phys] at ho ⊢
        rw [k2, hsv (hok ho)]
      · exact hokb (k3 ht).1
      · show (s.2.after k.2).phys.ok = true
        rw [after_phys]; exact (k3 ht).2.1
      · rw [hE''.pos]
        show (s.2.after k.2).phys.startPos = q
        rw [after_phys]; exact (k3 ht).2.2.1
      · obtain ⟨l1, -, -, l2⟩ := k3 ht
        rw [hsv l1, t1, (r7 (t3 ▸ l1)).2.1] at l2
        exact l2
      · show (s.2.after k.2).phys.ok = false ∨ _
        rw [hE''.pos]
        show _ ∨ ((s.2.after k.2).phys.startPos = _ ∧ _)
        rw [after_phys]
        rcases k4 hf with h | ⟨h1, h2⟩
        · exact .inl h
        · cases hko : k.2.ok with
          | false => exact .inl rfl
          | true =>
            rw [hsv (hok hko)] at h1 h2
            exact .inr ⟨h1, h2⟩
      · show (s.2.after k.2).phys.ok = false ∧ dest (s.2.after k.2).phys.dst = _
        rw [after_phys, k2]
        exact ⟨k5 (hfail hf).1, (hfail hf).2⟩
      · show Mixed 0 0 _ _ _ (dest (s.2.after k.2).phys.dst)
        rw [after_phys, k2]; exact hmix

/-- What the functions which write the buffer and then do something else share. -/
theorem sync_endRun_spec {b : BW τ} (h : BWInv S PInv b) :
    ∃ s, ({ b with sizer := b.sizer.endRun (b.phys.startPos + b.len) } : BW τ).sync S = s ∧ BWInv S PInv s.2 ∧ Empty s.2 ∧
    (s.1 = true → s.2.phys.startPos = b.pos ∧ dest s.2.phys.dst = b.view dest ∧ s.2.phys.ok = b.phys.ok) ∧
    (s.1 = false → s.2.phys.ok = false) ∧
    (b.phys.ok = false → s.2.phys.ok = false ∧ dest s.2.phys.dst = dest b.phys.dst) ∧
    Mixed 0 0 (dest b.phys.dst) (b.view dest) (b.view dest) (dest s.2.phys.dst) := by
  obtain ⟨s1, s2, s3, s4, s5, s6, s7⟩ := sync_spec L (inv_endRun h (b.phys.startPos + b.len))
  exact ⟨_, rfl, s1, s2, s4, s5, s6, s7⟩

theorem sizeImpl_spec {b : BW τ} (h : BWInv S PInv b) :
    BWInv S PInv (b.sizeImpl S).2 ∧
    (∀ n, (b.sizeImpl S).1 = some n → n = (b.view dest).length ∧ (b.sizeImpl S).2.view dest = b.view dest ∧
      (b.sizeImpl S).2.pos = b.pos ∧ b.phys.ok = true ∧ (b.sizeImpl S).2.phys.ok = true ∧ Empty (b.sizeImpl S).2) ∧
    ((b.sizeImpl S).1 = none → (b.sizeImpl S).2.phys.ok = false) ∧
    (b.phys.ok = false → (b.sizeImpl S).2.phys.ok = false ∧ dest (b.sizeImpl S).2.phys.dst = dest b.phys.dst) ∧
    Mixed 0 0 (dest b.phys.dst) (b.view dest) (b.view dest) (dest (b.sizeImpl S).2.phys.dst) := by
  obtain ⟨s, hs, s1, s2, s4, s5, s6, s7⟩ := sync_endRun_spec L h
  unfold sizeImpl
  dsimp only
  rw [hs]
  clear hs
  by_cases hs1 : s.1 = false
  · rw [if_pos hs1]
    exact ⟨s1, (fun n h => by cases h), fun _ => s5 hs1, s6, s7⟩
  · rw [if_neg hs1]
    have hs1 := (Bool.not_eq_false _).mp hs1
    obtain ⟨t1, t2, t3⟩ := s4 hs1
    obtain ⟨k1, k2, k3, k4, k5⟩ := L.sizeBehind s.2.phys s1.phys
    generalize S.sizeBehind s.2.phys = k at *
    have hE' : Empty (s.2.after k.2) := after_empty s2
    cases hk : k.1 with
    | none =>
      have hf := k4 hk
      dsimp only
      rw [after_phys, k2]
      exact ⟨hE'.inv (by rw [after_phys]; exact k1) (by rw [after_phys]; intro ho; rw [hf] at ho; cases ho), (fun n h => by cases h), fun _ => hf,
        fun ho => ⟨hf, (s6 ho).2⟩, s7⟩
    | some n =>
      obtain ⟨l1, l2, l3, l4⟩ := k3 n hk
      dsimp only
      have hE'' : Empty ({ s.2.after k.2 with sizer := (s.2.after k.2).sizer.beginRun (s.2.after k.2).phys.startPos } : BW τ) := hE'
      refine ⟨hE''.inv (by show PInv (s.2.after k.2).phys; rw [after_phys]; exact k1) (fun _ => Nat.le_refl _), ?_⟩
      rw [hE''.view, hE''.pos]
      dsimp only
      rw [after_phys, k2]
      refine ⟨fun m hm => ?_, (fun h => by cases h), fun ho => ?_, s7⟩
      · cases hm
        exact ⟨by rw [l1, t2], t2, l4.trans t1, t3 ▸ l2, l3, hE''⟩
      · rw [(s6 ho).1] at l2; cases l2

theorem truncateImpl_spec {b : BW τ} (h : BWInv S PInv b) (hT : T) (n : Nat) :
    BWInv S PInv (b.truncateImpl S n).2 ∧
    ((b.truncateImpl S n).1 = true → n ≤ max (b.view dest).length b.pos ∧ (b.truncateImpl S n).2.view dest = resize n (b.view dest) ∧
      (b.truncateImpl S n).2.pos = n ∧ b.phys.ok = true ∧ (b.truncateImpl S n).2.phys.ok = true) ∧
    ((b.truncateImpl S n).1 = false → (b.truncateImpl S n).2.phys.ok = false ∨
      ((b.truncateImpl S n).2.view dest = b.view dest ∧ (b.truncateImpl S n).2.pos = (b.view dest).length ∧ (b.view dest).length < n)) ∧
    (b.phys.ok = false → (b.truncateImpl S n).2.phys.ok = false ∧ dest (b.truncateImpl S n).2.phys.dst = dest b.phys.dst) ∧
    Mixed 0 0 (dest b.phys.dst) (b.view dest) (if n ≤ max (b.view dest).length b.pos then resize n (b.view dest) else b.view dest)
      (dest (b.truncateImpl S n).2.phys.dst) := by
  obtain ⟨s, hs, s1, s2, s4, s5, s6, s7⟩ := sync_endRun_spec L h
  have s7' : Mixed 0 0 (dest b.phys.dst) (b.view dest) (if n ≤ max (b.view dest).length b.pos then resize n (b.view dest) else b.view dest)
      (dest s.2.phys.dst) := by
    intro i
    rcases s7 i with h | h | h | h
    · exact .inl h
    · exact .inr (.inl h)
    · exact .inr (.inl h)
    · omega
  unfold truncateImpl
  dsimp only
  rw [hs]
  clear hs
  by_cases hs1 : s.1 = false
  · rw [if_pos hs1]
    exact ⟨s1, fun h => (Bool.false_ne_true h).elim, fun _ => .inl (s5 hs1), s6, s7'⟩
  · rw [if_neg hs1]
    have hs1 := (Bool.not_eq_false _).mp hs1
    obtain ⟨t1, t2, t3⟩ := s4 hs1
    obtain ⟨k1, k2, k3, k4, k5⟩ := L.truncateBehind hT n s.2.phys s1.phys
    generalize S.truncateBehind n s.2.phys = k at *
    have hE' : Empty (s.2.after k.2) := after_empty s2
    have hE'' : Empty ({ s.2.after k.2 with sizer := (s.2.after k.2).sizer.beginRun (s.2.after k.2).phys.startPos } : BW τ) := hE'
    dsimp only
    refine ⟨hE''.inv (by show PInv (s.2.after k.2).phys; rw [after_phys]; exact k1) (fun _ => Nat.le_refl _), ?_⟩
    rw [hE''.view, hE''.pos]
    dsimp only
    rw [after_phys]
    rw [t2] at k2 k3 k4
    refine ⟨fun ht => ?_, fun hf => ?_, fun ho => ?_, ?_⟩
    · obtain ⟨l1, l2, l3, l4, l5⟩ := k3 ht
      rw [t1] at l1
      exact ⟨l1, l2, l3, t3 ▸ l4, l5⟩
    · rcases k4 hf with h | ⟨h1, h2, h3⟩
      · exact .inl h
      · exact .inr ⟨h1, h2, h3⟩
    · obtain ⟨l1, l2⟩ := k5 (s6 ho).1
      exact ⟨l1, l2.trans (s6 ho).2⟩
    · rcases k2 with h | ⟨h', h⟩
      · rw [h]; exact Mixed.mid _ _ _ _ _
      · rw [t1] at h'
        rw [h, if_pos h']; exact Mixed.new _ _ _ _ _

theorem readModeImpl_spec {b : BW τ} (h : BWInv S PInv b) (q : Nat) : Post S dest PInv [] b (b.readModeImpl S q) ∧
    ((b.readModeImpl S q).1 = true → b.phys.ok = true ∧ dest (b.readModeImpl S q).2.phys.dst = b.view dest) := by
  obtain ⟨s, hs, s1, s2, s4, s5, s6, s7⟩ := sync_endRun_spec L h
  have s7' : Mixed b.pos (b.pos + ([] : Bytes).length) (dest b.phys.dst) (b.view dest) (overlay (b.view dest) b.pos []) (dest s.2.phys.dst) := by
    rw [overlay_nil]; exact s7.wider _ _ (Nat.le_refl 0)
  unfold readModeImpl
  dsimp only
  rw [hs]
  clear hs
  by_cases hs1 : s.1 = false
  · rw [if_pos hs1]
    exact ⟨⟨s1, fun h => (Bool.false_ne_true h).elim, fun _ => s5 hs1, s6, s7'⟩, fun h => (Bool.false_ne_true h).elim⟩
  · rw [if_neg hs1]
    have hs1 := (Bool.not_eq_false _).mp hs1
    obtain ⟨t1, t2, t3⟩ := s4 hs1
    obtain ⟨k1, k2, k3, k4, k5⟩ := L.readModeBehind q s.2.phys s1.phys
    generalize S.readModeBehind q s.2.phys = k at *
    have hE' : Empty (s.2.after k.2) := after_empty s2
    by_cases hk : k.1 = false
    · rw [if_pos hk]
      have hf := k4 hk
      refine ⟨⟨hE'.inv (by rw [after_phys]; exact k1) (by rw [after_phys]; intro ho; rw [hf] at ho; cases ho), fun h => (Bool.false_ne_true h).elim, fun _ => ?_, fun ho => ⟨?_, ?_⟩, ?_⟩,
        fun h => (Bool.false_ne_true h).elim⟩
      · show (s.2.after k.2).phys.ok = false; rw [after_phys]; exact hf
      · show (s.2.after k.2).phys.ok = false; rw [after_phys]; exact hf
      · show dest (s.2.after k.2).phys.dst = _; rw [after_phys, k2]; exact (s6 ho).2
      · show Mixed _ _ _ _ _ (dest (s.2.after k.2).phys.dst)
        rw [after_phys, k2]; exact s7'
    · rw [if_neg hk]
      have hk := (Bool.not_eq_false _).mp hk
      obtain ⟨l1, l2, l3⟩ := k3 hk
      have hE'' : Empty ({ s.2.after k.2 with sizer := (s.2.after k.2).sizer.beginRun (s.2.after k.2).phys.startPos } : BW τ) := hE'
      refine ⟨⟨hE''.inv (by show PInv (s.2.after k.2).phys; rw [after_phys]; exact k1) (fun _ => Nat.le_refl _), fun _ => ⟨?_, ?_, ?_⟩, fun h => (Bool.false_ne_true h.symm).elim, fun ho => ?_, ?_⟩, fun _ => ⟨t3 ▸ l1, ?_⟩⟩
      · rw [overlay_nil, hE''.view]
        show dest (s.2.after k.2).phys.dst = _
        rw [after_phys, k2, t2]
      · show BW.pos _ = b.pos
        rw [hE''.pos]
        show (s.2.after k.2).phys.startPos = _
        rw [after_phys, l3, t1]
      · show (s.2.after k.2).phys.ok = b.phys.ok
        rw [after_phys, l2, ← t3, l1]
      · rw [(s6 ho).1] at l1; cases l1
      · show Mixed _ _ _ _ _ (dest (s.2.after k.2).phys.dst)
        rw [after_phys, k2]; exact s7'
      · show dest (s.2.after k.2).phys.dst = _
        rw [after_phys, k2, t2]

/-- `BufferedWriter` over a lawful derived class is a lawful class of writers. -/
theorem lawful : (ops S).Lawful (view dest) (fun b => dest b.phys.dst) (BWInv S PInv) where
  avail := (core_lawful L).avail
  put := (core_lawful L).put
  pushSlow n rec b h _ := pushSlow_spec L h n rec
  writeSlow bs b h hb := writeSlow_spec L h bs hb
  fillSlow n c b h hn := fillSlow_spec L h n c (by omega)
  flushImpl t b h := ⟨(flushImpl_spec L h t).1, fun ht => ⟨((flushImpl_spec L h t).2 ht).1, fun _ => ((flushImpl_spec L h t).2 ht).2.1⟩⟩
  seekSlow q b h hq := seekSlow_spec L h q hq
  sizeImpl b h := by
    obtain ⟨h1, h2, h3⟩ := sizeImpl_spec L h
    refine ⟨h1, fun n hn => ?_, h3⟩
    obtain ⟨k1, k2, k3, k4, k5, -⟩ := h2 n hn
    exact ⟨k1, k2, k3, k4, k5⟩
  truncateImpl n b h hr := truncateImpl_spec L h ((randomAccess_spec L h).2.2.2.2.1 hr).1 n
  readModeImpl q b h := readModeImpl_spec L h q
  randomAccess b h := by
    obtain ⟨r1, r2, r3, r4, r5, r6, r7⟩ := randomAccess_spec L h
    refine ⟨r1, r3, fun ho => ⟨?_, (r7 ho).2.1⟩, fun ht => ⟨(r5 ht).2.1, ?_⟩, r6⟩
    · show overlay (dest (b.randomAccess S).2.phys.dst) (b.randomAccess S).2.phys.startPos (b.randomAccess S).2.data = _
      rw [(r7 ho).1, r3, r4]; rfl
    · have : S.randomAccess (b.randomAccess S).2.phys = (true, (b.randomAccess S).2.phys) := (r5 ht).2.2
      show (S.randomAccess (b.randomAccess S).2.phys).1 = true
      rw [this]
  setHint _ _ h := ⟨⟨h.phys, h.cur, h.written, h.failed, h.ra, h.base⟩, fun _ => ⟨rfl, rfl⟩, id, rfl⟩

/-- `Close()`. -/
theorem done_spec {b : BW τ} (h : BWInv S PInv b) :
    PInv (b.done S) ∧
    ((b.done S).ok = true → b.phys.ok = true ∧ dest (b.done S).dst = b.view dest ∧ (b.done S).startPos = b.pos) ∧
    (b.phys.ok = false → (b.done S).ok = false ∧ dest (b.done S).dst = dest b.phys.dst) ∧
    Mixed 0 0 (dest b.phys.dst) (b.view dest) (b.view dest) (dest (b.done S).dst) := by
  have hdl := data_length h
  obtain ⟨w1, ⟨k, hk, w2⟩, w3, w4, w5⟩ := L.doneBehind b.data b.phys h.phys
  unfold done
  generalize S.doneBehind b.data b.phys = p at *
  dsimp only at *
  have hm : Mixed 0 0 (dest b.phys.dst) (b.view dest) (b.view dest) (dest p.dst) := by
    intro i
    rw [w2]
    rcases overlay_take_mid (dest b.phys.dst) b.phys.startPos b.data k i with h | h
    · exact .inl h
    · exact .inr (.inl h)
  by_cases hc : p.startPos ≠ b.pos ∧ p.ok = true
  · rw [if_pos hc]
    obtain ⟨o1, o2, o3, o4⟩ := w3 hc.2
    obtain ⟨s1, s2, s3, s4, s5⟩ := L.seekBehind b.pos p w1 (fun _ => Ne.symm hc.1)
    generalize S.seekBehind b.pos p = r at *
    refine ⟨s1, fun ho => ⟨o1, by rw [s2, o3]; rfl, ?_⟩, fun ho => (by rw [ho] at o1; cases o1), by rw [s2]; exact hm⟩
    cases hr : r.1 with
    | true => exact (s3 hr).2.2.1
    | false =>
      exfalso
      rcases s4 hr with h | ⟨h1, h2⟩
      · rw [h] at ho; cases ho
      · have hd : b.data ≠ [] := by
          intro hd
          have : b.len = 0 := by rw [← hdl, hd]; rfl
          rw [hd] at o4
          apply hc.1; rw [o4]; unfold BW.pos; unfold len at this
          show b.phys.startPos + 0 = _; omega
        have := overlay_length (c := dest b.phys.dst) (p := b.phys.startPos) hd
        rw [← o3, hdl] at this
        unfold BW.pos at h2; unfold len at this; omega
  · rw [if_neg hc]
    refine ⟨w1, fun ho => ?_, w5, hm⟩
    obtain ⟨o1, o2, o3, o4⟩ := w3 ho
    refine ⟨o1, o3, ?_⟩
    apply Decidable.byContradiction
    intro hq
    exact hc ⟨hq, ho⟩

/-! ## Properties of the derived class which all functions keep -/

/-- All functions of the derived class, and failing, keep `Q`. -/
structure _root_.Riegeli.Wtr.BDst.Keeps (S : BDst τ) (Q : WPhys τ → Prop) : Prop where
  fail : ∀ p, Q p → Q { p with ok := false }
  writeInternal : ∀ bs p, Q p → Q (S.writeInternal bs p).2
  flushBehind : ∀ bs t p, Q p → Q (S.flushBehind bs t p).2
  doneBehind : ∀ bs p, Q p → Q (S.doneBehind bs p)
  seekBehind : ∀ q p, Q p → Q (S.seekBehind q p).2
  sizeBehind : ∀ p, Q p → Q (S.sizeBehind p).2
  truncateBehind : ∀ n p, Q p → Q (S.truncateBehind n p).2
  readModeBehind : ∀ q p, Q p → Q (S.readModeBehind q p).2
  randomAccess : ∀ p, Q p → Q (S.randomAccess p).2

section
omit L
variable {Q : WPhys τ → Prop} (K : S.Keeps Q)
include K

theorem sync_keeps {b : BW τ} (h : Q b.phys) : Q (b.sync S).2.phys := by
  unfold sync
  dsimp only
  split
  · exact h
  · split
    · exact h
    · split
      · rw [after_phys]; exact K.writeInternal _ _ h
      · split
        · dsimp only; rw [after_phys]; exact K.seekBehind _ _ (K.writeInternal _ _ h)
        · rw [after_phys]; exact K.writeInternal _ _ h

theorem fail_keeps {b : BW τ} (h : Q b.phys) : Q b.fail.phys := by unfold fail; rw [after_phys]; exact K.fail _ h

theorem pushSlow_keeps {b : BW τ} (n rec : Nat) (h : Q b.phys) : Q (b.pushSlow S n rec).2.phys := by
  have hs := sync_keeps K h
  unfold pushSlow
  dsimp only
  split
  · exact hs
  · split
    · exact hs
    · split
      · exact fail_keeps K hs
      · exact hs

theorem defaultWriteSlow_keeps (fuel : Nat) (bs : Bytes) {b : BW τ} (h : Q b.phys) : Q ((core S).defaultWriteSlow fuel bs b).2.phys := by
  induction fuel generalizing bs b with
  | zero => exact h
  | succ fuel ih =>
    unfold WriterOps.defaultWriteSlow
    dsimp only
    have hp := pushSlow_keeps K (b := b.put (bs.take ((core S).avail b))) 1 (bs.drop ((core S).avail b)).length h
    split
    · exact hp
    · split
      · exact ih _ hp
      · exact hp

theorem writeSlow_keeps (bs : Bytes) {b : BW τ} (h : Q b.phys) : Q (b.writeSlow S bs).2.phys := by
  have hs := sync_keeps K h
  unfold writeSlow
  dsimp only
  split
  · split
    · exact hs
    · split
      · exact hs
      · rw [after_phys]; exact K.writeInternal _ _ hs
  · exact defaultWriteSlow_keeps K _ _ h

omit K in
theorem writeFragments_keeps {W : WriterOps (BW τ)} (hput : ∀ bs b, (W.put bs b).phys = b.phys)
    (hw : ∀ bs b, Q b.phys → Q (W.writeSlow bs b).2.phys) (fs : List Bytes) {b : BW τ} (h : Q b.phys) : Q (W.writeFragments fs b).2.phys := by
  induction fs generalizing b with
  | nil => exact h
  | cons f fs ih =>
    unfold WriterOps.writeFragments
    have h1 : Q (W.write f b).2.phys := by
      unfold WriterOps.write
      split
      · rw [hput]; exact h
      · exact hw _ _ h
    dsimp only
    split
    · exact h1
    · exact ih h1

theorem fillSlow_keeps (n : Nat) (c : UInt8) {b : BW τ} (h : Q b.phys) : Q (b.fillSlow S n c).2.phys :=
  writeFragments_keeps (fun _ _ => rfl) (fun bs b h => writeSlow_keeps K bs h) _ h

theorem flushImpl_keeps (t : FlushType) {b : BW τ} (h : Q b.phys) : Q (b.flushImpl S t).2.phys := by
  unfold flushImpl
  dsimp only
  generalize hf : S.flushBehind _ t _ = r
  have hr : Q r.2 := by rw [← hf]; exact K.flushBehind _ _ _ h
  split
  · rw [after_phys]; exact hr
  · dsimp only; rw [after_phys]
    split
    · exact hr
    · exact K.seekBehind _ _ hr

theorem randomAccess_keeps {b : BW τ} (h : Q b.phys) : Q (b.randomAccess S).2.phys := by
  unfold randomAccess; dsimp only; rw [after_phys]; exact K.randomAccess _ h

theorem seekSlow_keeps (q : Nat) {b : BW τ} (h : Q b.phys) : Q (b.seekSlow S q).2.phys := by
  have h1 := randomAccess_keeps K h
  unfold seekSlow
  dsimp only
  generalize b.randomAccess S = r at *
  split
  · exact h1
  · have h2 := sync_keeps K (b := { r.2 with sizer := r.2.sizer.endRun (r.2.phys.startPos + r.2.len) }) h1
    split
    · exact h2
    · dsimp only; rw [after_phys]; exact K.seekBehind _ _ h2

theorem sizeImpl_keeps {b : BW τ} (h : Q b.phys) : Q (b.sizeImpl S).2.phys := by
  have h2 := sync_keeps K (b := { b with sizer := b.sizer.endRun (b.phys.startPos + b.len) }) h
  unfold sizeImpl
  dsimp only
  split
  · exact h2
  · split <;> (dsimp only; rw [after_phys]; exact K.sizeBehind _ h2)

theorem truncateImpl_keeps (n : Nat) {b : BW τ} (h : Q b.phys) : Q (b.truncateImpl S n).2.phys := by
  have h2 := sync_keeps K (b := { b with sizer := b.sizer.endRun (b.phys.startPos + b.len) }) h
  unfold truncateImpl
  dsimp only
  split
  · exact h2
  · dsimp only; rw [after_phys]; exact K.truncateBehind _ _ h2

theorem readModeImpl_keeps (q : Nat) {b : BW τ} (h : Q b.phys) : Q (b.readModeImpl S q).2.phys := by
  have h2 := sync_keeps K (b := { b with sizer := b.sizer.endRun (b.phys.startPos + b.len) }) h
  unfold readModeImpl
  dsimp only
  split
  · exact h2
  · split <;> (dsimp only; rw [after_phys]; exact K.readModeBehind _ _ h2)

theorem done_keeps {b : BW τ} (h : Q b.phys) : Q (b.done S) := by
  have h1 := K.doneBehind b.data _ h
  unfold done
  dsimp only
  split
  · exact K.seekBehind _ _ h1
  · exact h1

/-- For a class which overrides `WriteSlow(ByteFill)` and `FlushImpl()`. -/
theorem run_keeps {F : Nat → UInt8 → BW τ → Bool × BW τ} {G : FlushType → BW τ → Bool × BW τ} (hF : ∀ n c b, Q b.phys → Q (F n c b).2.phys)
    (hG : ∀ t b, Q b.phys → Q (G t b).2.phys) (op : WOp) {b : BW τ} (h : Q b.phys) :
    Q (op.run { ops S with fillSlow := F, flushImpl := G } b).2.phys := by
  have hw : ∀ bs (b : BW τ), Q b.phys → Q (({ ops S with fillSlow := F, flushImpl := G } : WriterOps (BW τ)).write bs b).2.phys := fun bs b h => by
    unfold WriterOps.write
    dsimp only
    split
    · exact h
    · exact writeSlow_keeps K bs h
  have hp : ∀ n rec (b : BW τ), Q b.phys → Q (({ ops S with fillSlow := F, flushImpl := G } : WriterOps (BW τ)).push n rec b).2.phys := fun n rec b h => by
    unfold WriterOps.push
    dsimp only
    split
    · exact h
    · exact pushSlow_keeps K n rec h
  cases op with
  | push n rec => exact hp n rec b h
  | writeChar c =>
    show Q (WriterOps.writeChar _ c b).2.phys
    have := hp 1 0 b h
    unfold WriterOps.writeChar
    dsimp only
    split <;> exact this
  | write bs => exact hw bs b h
  | writeExternal bs =>
    show Q (WriterOps.writeExternal _ bs b).2.phys
    unfold WriterOps.writeExternal
    split
    · exact h
    · exact hw bs b h
  | writeChain fs =>
    show Q (WriterOps.writeChain _ fs b).2.phys
    unfold WriterOps.writeChain
    split
    · exact h
    · exact writeFragments_keeps (fun _ _ => rfl) (fun bs b h => writeSlow_keeps K bs h) _ h
  | fill n c =>
    show Q (WriterOps.fill _ n c b).2.phys
    unfold WriterOps.fill
    split
    · exact h
    · exact hF n c b h
  | flush t => exact hG t b h
  | seek q =>
    show Q (WriterOps.seek _ q b).2.phys
    unfold WriterOps.seek
    split
    · exact h
    · exact seekSlow_keeps K q h
  | size => exact sizeImpl_keeps K h
  | truncate n => exact truncateImpl_keeps K n h
  | readMode q => exact readModeImpl_keeps K q h
  | supportsRandomAccess => exact randomAccess_keeps K h
  | setWriteSizeHint n => exact h

end

end BW
end Riegeli.Wtr

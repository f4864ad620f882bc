import Verif.StringWriter
/-!
# Proofs about `StringWriter`

`SW.lawful`: `StringWriter` is a class meeting the contract of `Writer`.
-/
namespace Riegeli.Wtr

@[simp] theorem poke_nil (m : Bytes) (i : Nat) : poke m i [] = m := by simp [poke]

theorem poke_length {m bs : Bytes} {i : Nat} (h : i + bs.length ≤ m.length) : (poke m i bs).length = m.length := by
  unfold poke
  simp only [List.length_append, List.length_take, List.length_drop]
  omega

theorem SCfg.fresh_length (G : SCfg) (t n : Nat) : (G.fresh t n).length = n := by simp [SCfg.fresh]

/-- Overwriting data which are followed by unused space. -/
theorem take_poke {m bs : Bytes} {c w : Nat} (h : c + bs.length ≤ m.length) :
    (poke m c bs).take (max (c + bs.length) w) = overlay (m.take (max c w)) c bs := by
  by_cases hb : bs = []
  · subst hb; simp
  apply List.ext_getElem?
  intro i
  rw [overlay_getElem? hb]
  have hl : (m.take c).length = c := by rw [List.length_take]; omega
  have hp : (poke m c bs)[i]? = if i < c then m[i]? else if i < c + bs.length then bs[i - c]? else m[i]? := by
    unfold poke
    by_cases h1 : i < c
    · rw [if_pos h1, List.append_assoc, List.getElem?_append_left (by omega), List.getElem?_take_of_lt h1]
    · rw [if_neg h1]
      by_cases h2 : i < c + bs.length
      · rw [if_pos h2, List.append_assoc, List.getElem?_append_right (by omega), hl, List.getElem?_append_left (by omega)]
      · rw [if_neg h2, List.getElem?_append_right (by rw [List.length_append]; omega), List.length_append, hl, List.getElem?_drop]
        congr 1; omega
  by_cases h0 : i < max (c + bs.length) w
  · rw [List.getElem?_take_of_lt h0, hp]
    by_cases h1 : i < c
    · rw [if_pos h1, if_pos h1, if_pos (by rw [List.length_take]; omega), List.getElem?_take_of_lt (by omega)]
    · rw [if_neg h1, if_neg h1]
      by_cases h2 : i < c + bs.length
      · rw [if_pos h2, if_pos h2]
      · rw [if_neg h2, if_neg h2, List.getElem?_take_of_lt (by omega)]
  · rw [List.getElem?_take_eq_none (by omega), if_neg (by omega), if_neg (by omega), List.getElem?_take_eq_none (by omega)]

/-- Overwriting all data after a position. -/
theorem take_append_eq_overlay {m bs : Bytes} {c w : Nat} (hc : c ≤ m.length) (h : w ≤ c + bs.length) (hb : bs ≠ []) :
    m.take c ++ bs = overlay (m.take (max c w)) c bs := by
  rw [overlay, if_neg hb, List.take_take, Nat.min_eq_left (by omega), List.length_take]
  rw [show c - min (max c w) m.length = 0 by omega, List.replicate_zero, List.append_nil, List.drop_eq_nil_of_le (by rw [List.length_take]; omega),
    List.append_nil]

theorem resize_eq_take {n : Nat} {c : Bytes} (h : n ≤ c.length) : resize n c = c.take n := by
  unfold resize
  rw [Nat.sub_eq_zero_of_le h, List.replicate_zero, List.append_nil]

namespace SW
variable {G : SCfg}

/-- What the writer presents. -/
def view (s : SW) : Bytes :=
  if s.sec = [] then s.str.take s.usedSize else s.str.take (s.limitPos - s.sec.length) ++ s.sec.take (s.sec.length - s.avail)

/-- The invariant. The assertions that the destination did not change unexpectedly are in `room` and `prim`. -/
structure Inv (s : SW) : Prop where
  dead : s.ok = false → s.lim = 0 ∧ s.cur = 0
  cur : s.cur ≤ s.lim
  cap : s.ok = true → s.str.length ≤ s.cap
  room : s.ok = true → s.limitPos - s.sec.length ≤ s.str.length
  prim : s.ok = true → s.sec = [] → s.written ≤ s.str.length ∧ (s.lim = 0 ∨ (s.startPos = 0 ∧ s.lim = s.str.length))
  secd : s.ok = true → s.sec ≠ [] → s.lim ≤ s.sec.length ∧ s.sec.length ≤ s.limitPos ∧ s.written = 0

theorem view_prim {s : SW} (h : s.sec = []) : s.view = s.str.take (max s.pos s.written) := by
  unfold view
  rw [if_pos h]
  rfl

theorem Inv.pos_le {s : SW} (h : s.Inv) (ho : s.ok = true) (hs : s.sec = []) : s.pos ≤ s.str.length := by
  have h1 := h.room ho
  have h2 := h.cur
  rw [hs] at h1
  unfold limitPos at h1
  unfold pos
  simp only [List.length_nil] at h1
  omega

theorem Inv.view_length {s : SW} (h : s.Inv) (ho : s.ok = true) : s.view.length = s.usedSize := by
  by_cases hs : s.sec = []
  · have := h.pos_le ho hs
    have := h.prim ho hs
    rw [view_prim hs, List.length_take]
    unfold usedSize
    omega
  · obtain ⟨a1, a2, a3⟩ := h.secd ho hs
    have a4 := h.room ho
    have a5 := h.cur
    unfold view usedSize
    rw [if_neg hs, List.length_append, List.length_take, List.length_take, a3]
    unfold avail pos
    unfold limitPos at *
    omega

/-! ## Buffers in the string -/

theorem makeDest_spec {s : SW} {c : Nat} (ho : s.ok = true) (hs : s.sec = []) (hcap : s.str.length ≤ s.cap) (hw : s.written ≤ s.str.length)
    (hc : c ≤ s.str.length) :
    (s.makeDest c).Inv ∧ (s.makeDest c).view = s.str.take (max c s.written) ∧ (s.makeDest c).pos = c ∧ (s.makeDest c).ok = true := by
  have e : (s.makeDest c).pos = c := Nat.zero_add c
  refine ⟨⟨fun h => ?_, hc, fun _ => hcap, fun _ => ?_, fun _ _ => ⟨hw, .inr ⟨rfl, rfl⟩⟩, fun _ h => (h hs).elim⟩, ?_, e, ho⟩
  · exact (Bool.false_ne_true (h.symm.trans ho)).elim
  · show 0 + s.str.length - s.sec.length ≤ s.str.length
    omega
  · rw [view_prim (show (s.makeDest c).sec = [] from hs), e]
    rfl

theorem reserve_eq (n : Nat) (s : SW) : ∃ k t, s.reserve G n = { s with cap := k, tick := t } ∧ s.cap ≤ k ∧ n ≤ k := by
  unfold reserve
  by_cases h : s.cap < n
  · exact ⟨_, _, if_pos h, by omega, by omega⟩
  · exact ⟨s.cap, s.tick, if_neg h, Nat.le_refl _, by omega⟩

/-- Adding unused space does not matter. -/
theorem makeDest_fresh {s : SW} {c k j : Nat} {x : Bytes} (ho : s.ok = true) (hs : s.sec = []) (hk : s.str.length + x.length ≤ k)
    (hw : s.written ≤ s.str.length) (hc : c ≤ s.str.length) :
    let t := ({ s with cap := k, str := s.str ++ x, tick := j } : SW).makeDest c
    t.Inv ∧ t.view = s.str.take (max c s.written) ∧ t.pos = c ∧ t.ok = true := by
  intro t
  obtain ⟨a1, a2, a3, a4⟩ := makeDest_spec (s := { s with cap := k, str := s.str ++ x, tick := j }) (c := c) ho hs (by rw [List.length_append]; exact hk)
    (by rw [List.length_append]; exact Nat.le_trans hw (Nat.le_add_right _ _)) (by rw [List.length_append]; omega)
  refine ⟨a1, a2.trans ?_, a3, a4⟩
  show (s.str ++ x).take (max c s.written) = _
  rw [List.take_append_of_le_length (by omega)]

theorem growDest_spec {s : SW} {c n : Nat} (ho : s.ok = true) (hs : s.sec = []) (hcap : s.str.length ≤ s.cap) (hw : s.written ≤ s.str.length)
    (hc : c ≤ s.str.length) :
    let t := s.growDest G c n
    t.Inv ∧ t.view = s.str.take (max c s.written) ∧ t.pos = c ∧ t.ok = true ∧ t.seen = s.seen := by
  intro t
  have e : t = (if s.str.length < n then { s.reserve G n with str := s.str ++ G.fresh s.tick (n - s.str.length), tick := s.tick + 1 } else s).makeDest c := rfl
  obtain ⟨k, kt, k1, k2, k3⟩ := reserve_eq (G := G) n s
  by_cases h : s.str.length < n
  · rw [if_pos h, k1] at e
    obtain ⟨a1, a2, a3, a4⟩ := makeDest_fresh (s := s) (c := c) (k := k) (j := s.tick + 1) (x := G.fresh s.tick (n - s.str.length)) ho hs (by rw [SCfg.fresh_length]; omega) hw hc
    rw [e]
    exact ⟨a1, a2, a3, a4, rfl⟩
  · rw [if_neg h] at e
    obtain ⟨a1, a2, a3, a4⟩ := makeDest_spec (s := s) (c := c) ho hs hcap hw hc
    rw [e]
    exact ⟨a1, a2, a3, a4, rfl⟩

theorem growUnder_spec {s : SW} {c n : Nat} (ho : s.ok = true) (hs : s.sec = []) (hcap : s.str.length ≤ s.cap) (hw : s.written ≤ s.str.length)
    (hc : c ≤ s.str.length) (hn : c + n ≤ s.cap) :
    let t := (s.growUnder G c n).2
    (s.growUnder G c n).1 = true ∧ t.Inv ∧ t.view = s.str.take (max c s.written) ∧ t.pos = c ∧ t.ok = true ∧ t.seen = s.seen ∧ n ≤ t.avail := by
  intro t
  obtain ⟨m, hm⟩ : ∃ m, m = max (min (s.str.length + max (min s.str.length 65536) 512) s.cap) (c + n) := ⟨_, rfl⟩
  have e : s.growUnder G c n = (true, (if s.str.length < m then { s with str := s.str ++ G.fresh s.tick (m - s.str.length), tick := s.tick + 1 } else s).makeDest c) := by
    unfold growUnder
    rw [if_neg (by omega), hm]
  have hmc : m ≤ s.cap := by omega
  have et : t = (if s.str.length < m then { s with str := s.str ++ G.fresh s.tick (m - s.str.length), tick := s.tick + 1 } else s).makeDest c := by
    show (s.growUnder G c n).2 = _
    rw [e]
  have e1 : (s.growUnder G c n).1 = true := by rw [e]
  refine ⟨e1, ?_⟩
  by_cases h : s.str.length < m
  · rw [if_pos h] at et
    obtain ⟨a1, a2, a3, a4⟩ := makeDest_fresh (s := s) (c := c) (k := s.cap) (j := s.tick + 1) (x := G.fresh s.tick (m - s.str.length)) ho hs (by rw [SCfg.fresh_length]; omega) hw hc
    rw [et]
    refine ⟨a1, a2, a3, a4, rfl, ?_⟩
    show n ≤ (s.str ++ G.fresh s.tick (m - s.str.length)).length - c
    rw [List.length_append, SCfg.fresh_length]
    omega
  · rw [if_neg h] at et
    obtain ⟨a1, a2, a3, a4⟩ := makeDest_spec (s := s) (c := c) ho hs hcap hw hc
    rw [et]
    refine ⟨a1, a2, a3, a4, rfl, ?_⟩
    show n ≤ s.str.length - c
    omega

/-! ## The secondary buffer -/

/-- The state after `SyncSecondaryBuffer()` or when the secondary buffer is started: `k` bytes are in the string, the rest in the secondary buffer. -/
structure Synced (s : SW) (c : Bytes) : Prop where
  ok : s.ok = true
  cap : s.str.length ≤ s.cap
  lim : s.lim = 0
  cur : s.cur = 0
  written : s.written = 0
  le : s.sec.length ≤ s.startPos
  room : s.startPos - s.sec.length ≤ s.str.length
  eq : c = s.str.take (s.startPos - s.sec.length) ++ s.sec

theorem Synced.length {s : SW} {c : Bytes} (h : s.Synced c) : c.length = s.startPos := by
  have := h.le
  have := h.room
  rw [h.eq, List.length_append, List.length_take]
  omega

theorem syncSec_spec {s : SW} (h : s.Inv) (ho : s.ok = true) (hs : s.sec ≠ []) : s.syncSec.Synced s.view ∧ s.syncSec.startPos = s.pos := by
  obtain ⟨a1, a2, a3⟩ := h.secd ho hs
  have a4 := h.room ho
  have a5 := h.cur
  have hl : (s.sec.take (s.sec.length - s.avail)).length = s.sec.length - s.avail := by rw [List.length_take]; omega
  have hk : s.pos - (s.sec.length - s.avail) = s.limitPos - s.sec.length := by
    unfold avail pos
    unfold limitPos at *
    omega
  refine ⟨⟨ho, h.cap ho, rfl, rfl, a3, ?_, ?_, ?_⟩, rfl⟩
  · show (s.sec.take (s.sec.length - s.avail)).length ≤ s.pos
    rw [hl]
    unfold avail pos
    unfold limitPos at *
    omega
  · show s.pos - (s.sec.take (s.sec.length - s.avail)).length ≤ s.str.length
    rw [hl, hk]
    exact a4
  · show s.view = s.str.take (s.pos - (s.sec.take (s.sec.length - s.avail)).length) ++ s.sec.take (s.sec.length - s.avail)
    rw [hl, hk]
    unfold view
    rw [if_neg hs]

theorem makeSec_spec {s : SW} {c : Bytes} {n rec : Nat} (h : s.Synced c) (hn : 0 < n ∨ s.sec ≠ []) :
    let t := s.makeSec G n rec
    t.Inv ∧ t.view = c ∧ t.pos = s.startPos ∧ t.ok = true ∧ t.seen = s.seen ∧ n ≤ t.avail := by
  intro t
  obtain ⟨k, hk⟩ : ∃ k, k = max n (G.block s.tick s.sec.length n rec) := ⟨_, rfl⟩
  have e : t = { s with sec := s.sec ++ G.fresh s.tick k, lim := k, cur := 0, tick := s.tick + 1 } := by rw [hk]; rfl
  have hl : (s.sec ++ G.fresh s.tick k).length = s.sec.length + k := by rw [List.length_append, SCfg.fresh_length]
  have hne : s.sec ++ G.fresh s.tick k ≠ [] := by
    intro h0
    have h1 := congrArg List.length h0
    rw [hl] at h1
    rcases hn with hn | hn
    · simp only [List.length_nil] at h1; omega
    · have := List.length_pos_iff.2 hn
      simp only [List.length_nil] at h1
      omega
  have b1 := h.le
  have b2 := h.room
  rw [e]
  refine ⟨⟨fun h' => (Bool.false_ne_true (h'.symm.trans h.ok)).elim, Nat.zero_le _, fun _ => h.cap, fun _ => ?_, fun _ h0 => (hne h0).elim, fun _ _ =>
    ⟨?_, ?_, h.written⟩⟩, ?_, rfl, h.ok, rfl, ?_⟩
  · show s.startPos + k - (s.sec ++ G.fresh s.tick k).length ≤ s.str.length
    rw [hl]; omega
  · show k ≤ (s.sec ++ G.fresh s.tick k).length
    rw [hl]; omega
  · show (s.sec ++ G.fresh s.tick k).length ≤ s.startPos + k
    rw [hl]; omega
  · unfold view
    rw [if_neg hne]
    show s.str.take (s.startPos + k - (s.sec ++ G.fresh s.tick k).length) ++ (s.sec ++ G.fresh s.tick k).take ((s.sec ++ G.fresh s.tick k).length - (k - 0)) = c
    rw [hl, h.eq, show s.startPos + k - (s.sec.length + k) = s.startPos - s.sec.length by omega, show s.sec.length + k - (k - 0) = s.sec.length by omega,
      List.take_left]
  · show n ≤ k - 0
    omega

theorem appendSec_spec {s : SW} {c bs : Bytes} (h : s.Synced c) (hb : bs ≠ []) :
    let t := s.appendSec G bs
    t.Inv ∧ t.view = c ++ bs ∧ t.pos = s.startPos + bs.length ∧ t.ok = true ∧ t.seen = s.seen := by
  intro t
  have b1 := h.le
  have b2 := h.room
  have h1 : ({ s with startPos := s.startPos + bs.length, sec := s.sec ++ bs } : SW).Synced (c ++ bs) := by
    refine ⟨h.ok, h.cap, h.lim, h.cur, h.written, ?_, ?_, ?_⟩
    · show (s.sec ++ bs).length ≤ s.startPos + bs.length
      rw [List.length_append]; omega
    · show s.startPos + bs.length - (s.sec ++ bs).length ≤ s.str.length
      rw [List.length_append]; omega
    · show c ++ bs = s.str.take (s.startPos + bs.length - (s.sec ++ bs).length) ++ (s.sec ++ bs)
      rw [List.length_append, h.eq, show s.startPos + bs.length - (s.sec.length + bs.length) = s.startPos - s.sec.length by omega, List.append_assoc]
  obtain ⟨a1, a2, a3, a4, a5, a6⟩ := makeSec_spec (G := G) (n := 0) (rec := 0) h1 (.inr (by simp [hb]))
  exact ⟨a1, a2, a3, a4, a5⟩

theorem merge_spec {s : SW} (h : s.Inv) (ho : s.ok = true) (hs : s.sec ≠ []) :
    let t := s.merge G
    t.sec = [] ∧ t.str = s.view ∧ t.startPos = s.pos ∧ t.lim = 0 ∧ t.cur = 0 ∧ t.written = 0 ∧ t.str.length ≤ t.cap ∧ t.ok = true ∧ t.seen = s.seen ∧
      s.view.length = s.pos := by
  intro t
  obtain ⟨a1, a2⟩ := syncSec_spec h ho hs
  have hl := a1.length
  have hu : s.syncSec.usedDestSize = s.syncSec.startPos - s.syncSec.sec.length := by
    unfold usedDestSize usedSize pos
    rw [a1.cur, a1.written]
    omega
  have e : t = { s.syncSec.reserve G (s.syncSec.str.take s.syncSec.usedDestSize ++ s.syncSec.sec).length with
    str := s.syncSec.str.take s.syncSec.usedDestSize ++ s.syncSec.sec, sec := [] } := rfl
  rw [hu, ← a1.eq] at e
  obtain ⟨k, kt, k1, k2, k3⟩ := reserve_eq (G := G) s.view.length s.syncSec
  rw [k1] at e
  rw [e]
  exact ⟨rfl, rfl, a2, a1.lim, a1.cur, a1.written, k3, ho, rfl, hl.trans a2⟩

/-! ## Functions -/

theorem failed_post {s : SW} {bs : Bytes} (ho : s.ok = true) : WritePost (ops G) view SW.seen Inv bs s (false, s.failed) := by
  refine ⟨⟨fun _ => ⟨rfl, rfl⟩, Nat.le_refl _, nofun, nofun, nofun, nofun⟩, nofun, fun _ => rfl, fun h => ?_, Mixed.old _ _ _ _ _⟩
  exact (Bool.false_ne_true (Eq.trans h.symm ho)).elim

theorem same_post {s : SW} {bs : Bytes} (h : s.Inv) (ho : s.ok = false) : WritePost (ops G) view SW.seen Inv bs s (false, s) :=
  ⟨h, nofun, fun _ => ho, fun _ => ⟨ho, rfl⟩, Mixed.old _ _ _ _ _⟩

theorem good_post {s t : SW} {bs : Bytes} (ho : s.ok = true) (h1 : t.Inv) (h2 : t.view = overlay s.view s.pos bs) (h3 : t.pos = s.pos + bs.length)
    (h4 : t.ok = true) (h5 : t.seen = s.seen) : WritePost (ops G) view SW.seen Inv bs s (true, t) :=
  ⟨h1, fun _ => ⟨h2, h3, h4.trans ho.symm⟩, nofun, fun h => (Bool.false_ne_true (Eq.trans h.symm ho)).elim,
    by rw [show (true, t).2.seen = s.seen from h5]; exact Mixed.old _ _ _ _ _⟩

theorem put_spec {s : SW} {bs : Bytes} (h : s.Inv) (hb : bs.length ≤ s.avail) :
    (s.put bs).Inv ∧ (s.put bs).view = overlay s.view s.pos bs ∧ (s.put bs).pos = s.pos + bs.length ∧ (s.put bs).avail = s.avail - bs.length ∧
      (s.put bs).ok = s.ok ∧ (s.put bs).seen = s.seen := by
  by_cases hbn : bs = []
  · subst hbn
    have e : s.put [] = s := by
      unfold put
      rw [poke_nil, poke_nil]
      split <;> rfl
    rw [e, overlay_nil]
    exact ⟨h, rfl, rfl, rfl, rfl, rfl⟩
  have hbl := List.length_pos_iff.2 hbn
  have ho : s.ok = true := by
    cases ho : s.ok with
    | true => rfl
    | false =>
      have := h.dead ho
      unfold avail at hb
      omega
  have hc := h.cur
  unfold avail at hb
  by_cases hs : s.sec = []
  · have e : s.put bs = { s with str := poke s.str s.pos bs, cur := s.cur + bs.length } := by
      unfold put
      rw [if_neg (fun h' => h' hs)]
    have hr := h.room ho
    obtain ⟨p1, p2⟩ := h.prim ho hs
    have hpl : s.pos + bs.length ≤ s.str.length := by
      rw [hs] at hr
      unfold limitPos at hr
      unfold pos
      simp only [List.length_nil] at hr
      omega
    have hl := poke_length hpl
    rw [e]
    refine ⟨⟨fun h' => (Bool.false_ne_true (Eq.trans h'.symm ho)).elim, ?_, fun _ => ?_, fun _ => ?_, fun _ _ => ?_, fun _ h' => (h' hs).elim⟩, ?_, ?_, ?_, rfl, rfl⟩
    · show s.cur + bs.length ≤ s.lim
      omega
    · show (poke s.str s.pos bs).length ≤ s.cap
      rw [hl]; exact h.cap ho
    · show s.limitPos - s.sec.length ≤ (poke s.str s.pos bs).length
      rw [hl]; exact hr
    · show s.written ≤ (poke s.str s.pos bs).length ∧ (s.lim = 0 ∨ (s.startPos = 0 ∧ s.lim = (poke s.str s.pos bs).length))
      rw [hl]; exact ⟨p1, p2⟩
    · rw [view_prim hs, view_prim (by exact hs), ← take_poke hpl]
      show (poke s.str s.pos bs).take (max (s.startPos + (s.cur + bs.length)) s.written) = _
      rw [← Nat.add_assoc]
      rfl
    · show s.startPos + (s.cur + bs.length) = s.startPos + s.cur + bs.length
      omega
    · show s.lim - (s.cur + bs.length) = s.lim - s.cur - bs.length
      omega
  · obtain ⟨a1, a2, a3⟩ := h.secd ho hs
    have e : s.put bs = { s with sec := poke s.sec (s.sec.length - s.lim + s.cur) bs, cur := s.cur + bs.length } := by
      unfold put
      rw [if_pos hs]
    have hpl : s.sec.length - s.lim + s.cur + bs.length ≤ s.sec.length := by omega
    have hl := poke_length hpl
    have hne : poke s.sec (s.sec.length - s.lim + s.cur) bs ≠ [] := by
      intro h0
      have h1 := congrArg List.length h0
      rw [hl] at h1
      exact hs (List.length_eq_zero_iff.1 h1)
    have hvl := h.view_length ho
    rw [e]
    refine ⟨⟨fun h' => (Bool.false_ne_true (Eq.trans h'.symm ho)).elim, ?_, fun _ => h.cap ho, fun _ => ?_, fun _ h' => (hne h').elim, fun _ _ => ?_⟩, ?_, ?_, ?_, rfl, rfl⟩
    · show s.cur + bs.length ≤ s.lim
      omega
    · show s.limitPos - (poke s.sec (s.sec.length - s.lim + s.cur) bs).length ≤ s.str.length
      rw [hl]; exact h.room ho
    · show s.lim ≤ (poke s.sec (s.sec.length - s.lim + s.cur) bs).length ∧ (poke s.sec (s.sec.length - s.lim + s.cur) bs).length ≤ s.limitPos ∧ s.written = 0
      rw [hl]; exact ⟨a1, a2, a3⟩
    · have hp : s.pos = s.view.length := by
        rw [hvl]; unfold usedSize; omega
      rw [hp, overlay_end]
      unfold view
      rw [if_neg hs, if_neg hne]
      show s.str.take (s.limitPos - (poke s.sec (s.sec.length - s.lim + s.cur) bs).length) ++
        (poke s.sec (s.sec.length - s.lim + s.cur) bs).take ((poke s.sec (s.sec.length - s.lim + s.cur) bs).length - (s.lim - (s.cur + bs.length))) = _
      rw [hl, List.append_assoc]
      congr 1
      unfold avail poke
      rw [List.take_append_of_le_length (by simp only [List.length_append, List.length_take]; omega),
        List.take_of_length_le (by simp only [List.length_append, List.length_take]; omega)]
      congr 2
      omega
    · show s.startPos + (s.cur + bs.length) = s.startPos + s.cur + bs.length
      omega
    · show s.lim - (s.cur + bs.length) = s.lim - s.cur - bs.length
      omega

/-- Starting the secondary buffer after the data at a position. -/
theorem start_synced {s : SW} {c : Nat} (ho : s.ok = true) (hs : s.sec = []) (hcap : s.str.length ≤ s.cap) (hc : c ≤ s.str.length) :
    ({ s.noBuffer c with written := 0 } : SW).Synced (s.str.take c) := by
  refine ⟨ho, hcap, rfl, rfl, rfl, ?_, ?_, ?_⟩
  · show s.sec.length ≤ c
    rw [hs]; exact Nat.zero_le _
  · show c - s.sec.length ≤ s.str.length
    omega
  · show s.str.take c = s.str.take (c - s.sec.length) ++ s.sec
    rw [hs, List.append_nil]
    rfl

theorem pushSlow_spec {s : SW} {n rec : Nat} (h : s.Inv) (hn : s.avail < n) :
    WritePost (ops G) view SW.seen Inv [] s (s.pushSlow G n rec) ∧
    ((s.pushSlow G n rec).1 = true → n ≤ (s.pushSlow G n rec).2.avail ∧ s.ok = true) := by
  unfold pushSlow
  by_cases ho : s.ok = false
  · rw [if_pos ho]
    exact ⟨same_post h ho, nofun⟩
  rw [if_neg ho]
  have ho : s.ok = true := (Bool.not_eq_false _).mp ho
  by_cases hk : kMaxSize - s.pos < n
  · rw [if_pos hk]
    exact ⟨failed_post ho, nofun⟩
  rw [if_neg hk]
  by_cases hs : s.sec = []
  · rw [if_pos hs]
    have hp := h.pos_le ho hs
    obtain ⟨p1, p2⟩ := h.prim ho hs
    have hcap := h.cap ho
    obtain ⟨k, kt, k1, k2, k3⟩ := reserve_eq (G := G) (min (s.pos + max n rec) kMaxSize) s
    obtain ⟨t, ht, t1, t2, t3, t4, t5, t6, t7⟩ : ∃ t, t = (if s.pos = 0 ∨ s.pos < s.written then s.reserve G (min (s.pos + max n rec) kMaxSize) else s) ∧
        t.str = s.str ∧ t.sec = [] ∧ t.written = s.written ∧ t.ok = true ∧ t.seen = s.seen ∧ s.cap ≤ t.cap ∧
        (s.pos < s.written → s.pos + n ≤ t.cap) := by
      refine ⟨_, rfl, ?_⟩
      by_cases hc : s.pos = 0 ∨ s.pos < s.written
      · rw [if_pos hc, k1]
        exact ⟨rfl, hs, rfl, ho, rfl, k2, fun _ => (show s.pos + n ≤ k by omega)⟩
      · rw [if_neg hc]
        exact ⟨rfl, hs, rfl, ho, rfl, Nat.le_refl _, fun h' => (hc (.inr h')).elim⟩
    rw [← ht]
    by_cases hg : s.pos + n ≤ t.cap
    · obtain ⟨g1, g2, g3, g4, g5, g6, g7⟩ := growUnder_spec (G := G) (s := t) (c := s.pos) (n := n) t4 t2 (by rw [t1]; omega) (by rw [t1, t3]; exact p1)
        (by rw [t1]; exact hp) hg
      dsimp only
      rw [if_pos g1]
      have e : t.growUnder G s.pos n = (true, (t.growUnder G s.pos n).2) := by rw [← g1]
      rw [e]
      refine ⟨good_post ho g2 ?_ g4 g5 (g6.trans t5), fun _ => ⟨g7, ho⟩⟩
      rw [g3, t1, t3, overlay_nil, view_prim hs]
    · have hw : ¬ s.pos < s.written := fun h' => hg (t7 h')
      have g1 : (t.growUnder G s.pos n).1 = false := by
        unfold growUnder
        rw [if_pos (by omega)]
      dsimp only
      rw [if_neg (by rw [g1]; nofun)]
      have st := start_synced (s := t) (c := s.pos) t4 t2 (by rw [t1]; omega) (by rw [t1]; exact hp)
      obtain ⟨a1, a2, a3, a4, a5, a6⟩ := makeSec_spec (G := G) (n := n) (rec := rec) st (.inl (by omega))
      refine ⟨good_post ho a1 ?_ a3 a4 (a5.trans t5), fun _ => ⟨a6, ho⟩⟩
      rw [a2, t1, overlay_nil, view_prim hs, Nat.max_eq_left (by omega)]
  · rw [if_neg hs]
    obtain ⟨b1, b2⟩ := syncSec_spec h ho hs
    obtain ⟨a1, a2, a3, a4, a5, a6⟩ := makeSec_spec (G := G) (n := n) (rec := rec) b1 (.inl (by omega))
    exact ⟨good_post ho a1 (by rw [a2, overlay_nil]) (a3.trans b2) a4 a5, fun _ => ⟨a6, ho⟩⟩

theorem writeDest_spec {s : SW} {bs : Bytes} (ho : s.ok = true) (hs : s.sec = []) (hcap : s.str.length ≤ s.cap) (hw : s.written ≤ s.str.length)
    (hp : s.pos ≤ s.str.length) (hb : bs ≠ []) (hc : s.pos + bs.length ≤ s.cap) :
    let t := s.writeDest G bs
    t.Inv ∧ t.view = overlay (s.str.take (max s.pos s.written)) s.pos bs ∧ t.pos = s.pos + bs.length ∧ t.ok = true ∧ t.seen = s.seen := by
  intro t
  have e : t = (({ s with str := if s.pos + bs.length ≤ s.str.length then poke s.str s.pos bs else s.str.take s.pos ++ bs } : SW).growUnder G
    (s.pos + bs.length) 0).2 := rfl
  by_cases hl : s.pos + bs.length ≤ s.str.length
  · rw [if_pos hl] at e
    have hpl := poke_length hl
    obtain ⟨g1, g2, g3, g4, g5, g6, g7⟩ := growUnder_spec (G := G) (s := { s with str := poke s.str s.pos bs }) (c := s.pos + bs.length) (n := 0) ho hs
      (by show (poke s.str s.pos bs).length ≤ s.cap; omega) (by show s.written ≤ (poke s.str s.pos bs).length; omega)
      (by show s.pos + bs.length ≤ (poke s.str s.pos bs).length; omega) hc
    rw [e]
    refine ⟨g2, ?_, g4, g5, g6⟩
    rw [g3]
    exact take_poke hl
  · rw [if_neg hl] at e
    have hpl : (s.str.take s.pos ++ bs).length = s.pos + bs.length := by rw [List.length_append, List.length_take]; omega
    obtain ⟨g1, g2, g3, g4, g5, g6, g7⟩ := growUnder_spec (G := G) (s := { s with str := s.str.take s.pos ++ bs }) (c := s.pos + bs.length) (n := 0) ho hs
      (by show (s.str.take s.pos ++ bs).length ≤ s.cap; omega) (by show s.written ≤ (s.str.take s.pos ++ bs).length; omega)
      (by show s.pos + bs.length ≤ (s.str.take s.pos ++ bs).length; omega) hc
    rw [e]
    refine ⟨g2, ?_, g4, g5, g6⟩
    rw [g3]
    show (s.str.take s.pos ++ bs).take (max (s.pos + bs.length) s.written) = _
    rw [List.take_of_length_le (by rw [hpl]; omega)]
    exact take_append_eq_overlay hp (by omega) hb

theorem writeSlow_spec {s : SW} {bs : Bytes} (h : s.Inv) (hb : bs ≠ []) :
    WritePost (ops G) view SW.seen Inv bs s (s.writeSlow G bs) ∧ ((s.writeSlow G bs).1 = true → s.ok = true) := by
  unfold writeSlow
  by_cases ho : s.ok = false
  · rw [if_pos ho]
    exact ⟨same_post h ho, nofun⟩
  rw [if_neg ho]
  have ho : s.ok = true := (Bool.not_eq_false _).mp ho
  refine ⟨?_, fun _ => ho⟩
  by_cases hk : kMaxSize - s.pos < bs.length
  · rw [if_pos hk]
    exact failed_post ho
  rw [if_neg hk]
  by_cases hs : s.sec = []
  · rw [if_pos hs]
    have hp := h.pos_le ho hs
    obtain ⟨p1, p2⟩ := h.prim ho hs
    have hcap := h.cap ho
    obtain ⟨k, kt, k1, k2, k3⟩ := reserve_eq (G := G) (s.pos + bs.length) s
    obtain ⟨t, ht, t1, t2, t3, t4, t5, t6, t7⟩ : ∃ t, t = (if s.pos = 0 then s.reserve G (s.pos + bs.length) else s) ∧
        t.str = s.str ∧ t.sec = [] ∧ t.written = s.written ∧ t.ok = true ∧ t.seen = s.seen ∧ s.cap ≤ t.cap ∧ t.pos = s.pos := by
      refine ⟨_, rfl, ?_⟩
      by_cases hc : s.pos = 0
      · rw [if_pos hc, k1]
        exact ⟨rfl, hs, rfl, ho, rfl, k2, rfl⟩
      · rw [if_neg hc]
        exact ⟨rfl, hs, rfl, ho, rfl, Nat.le_refl _, rfl⟩
    dsimp only
    rw [← ht]
    by_cases hc : s.pos + bs.length ≤ t.cap
    · rw [if_pos hc]
      obtain ⟨a1, a2, a3, a4, a5⟩ := writeDest_spec (G := G) (s := t) t4 t2 (by rw [t1]; omega) (by rw [t1, t3]; exact p1) (by rw [t1, t7]; exact hp) hb
        (by rw [t7]; exact hc)
      refine good_post ho a1 ?_ (by rw [a3, t7]) a4 (a5.trans t5)
      rw [a2, t7, t1, t3, view_prim hs]
    · rw [if_neg hc]
      have hl : (t.str.take s.pos ++ bs.take (t.cap - s.pos)).length = t.cap := by
        rw [List.length_append, List.length_take, List.length_take, t1]
        omega
      have st := start_synced (s := { t with str := t.str.take s.pos ++ bs.take (t.cap - s.pos) }) (c := s.pos + (t.cap - s.pos)) t4 t2
        (by show (t.str.take s.pos ++ bs.take (t.cap - s.pos)).length ≤ t.cap; omega)
        (by show s.pos + (t.cap - s.pos) ≤ (t.str.take s.pos ++ bs.take (t.cap - s.pos)).length; omega)
      have hd : bs.drop (t.cap - s.pos) ≠ [] := by
        intro h0
        have h1 := congrArg List.length h0
        rw [List.length_drop, List.length_nil] at h1
        omega
      obtain ⟨a1, a2, a3, a4, a5⟩ := appendSec_spec (G := G) st hd
      refine good_post ho a1 ?_ ?_ a4 (a5.trans t5)
      · rw [a2]
        show (t.str.take s.pos ++ bs.take (t.cap - s.pos)).take (s.pos + (t.cap - s.pos)) ++ bs.drop (t.cap - s.pos) = _
        rw [List.take_of_length_le (by omega), List.append_assoc, List.take_append_drop, t1, view_prim hs]
        exact take_append_eq_overlay hp (by omega) hb
      · rw [a3]
        show s.pos + (t.cap - s.pos) + (bs.drop (t.cap - s.pos)).length = s.pos + bs.length
        rw [List.length_drop]
        omega
  · rw [if_neg hs]
    obtain ⟨b1, b2⟩ := syncSec_spec h ho hs
    obtain ⟨a1, a2, a3, a4, a5⟩ := appendSec_spec (G := G) b1 hb
    refine good_post ho a1 ?_ (by rw [a3, b2]) a4 a5
    rw [a2, ← b2, ← b1.length, overlay_end]

theorem refSlow_spec {s : SW} {bs : Bytes} (h : s.Inv) (hb : bs ≠ []) :
    WritePost (ops G) view SW.seen Inv bs s (s.refSlow G bs) ∧ ((s.refSlow G bs).1 = true → s.ok = true) := by
  unfold refSlow
  by_cases ho : s.ok = false
  · rw [if_pos ho]
    exact ⟨same_post h ho, nofun⟩
  rw [if_neg ho]
  have ho : s.ok = true := (Bool.not_eq_false _).mp ho
  refine ⟨?_, fun _ => ho⟩
  by_cases hk : kMaxSize - s.pos < bs.length
  · rw [if_pos hk]
    exact failed_post ho
  rw [if_neg hk]
  by_cases hs : s.sec = []
  · rw [if_pos hs]
    have hp := h.pos_le ho hs
    obtain ⟨p1, p2⟩ := h.prim ho hs
    have hcap := h.cap ho
    by_cases hc : s.pos + bs.length ≤ s.cap
    · rw [if_pos hc]
      obtain ⟨a1, a2, a3, a4, a5⟩ := writeDest_spec (G := G) (s := s) ho hs hcap p1 hp hb hc
      refine good_post ho a1 ?_ a3 a4 a5
      rw [a2, view_prim hs]
    · rw [if_neg hc]
      have st := start_synced (s := s) (c := s.pos) ho hs hcap hp
      obtain ⟨a1, a2, a3, a4, a5⟩ := appendSec_spec (G := G) st hb
      refine good_post ho a1 ?_ a3 a4 a5
      rw [a2, view_prim hs]
      exact take_append_eq_overlay hp (by omega) hb
  · rw [if_neg hs]
    obtain ⟨b1, b2⟩ := syncSec_spec h ho hs
    obtain ⟨a1, a2, a3, a4, a5⟩ := appendSec_spec (G := G) b1 hb
    refine good_post ho a1 ?_ (by rw [a3, b2]) a4 a5
    rw [a2, ← b2, ← b1.length, overlay_end]

theorem flushImpl_spec {s : SW} (h : s.Inv) :
    WritePost (ops G) view SW.seen Inv [] s (s.flushImpl G) ∧
    ((s.flushImpl G).1 = true → s.ok = true ∧ (s.flushImpl G).2.seen = s.view ∧ (s.flushImpl G).2.str = s.view) := by
  unfold flushImpl
  by_cases ho : s.ok = false
  · rw [if_pos ho]
    exact ⟨same_post h ho, nofun⟩
  rw [if_neg ho]
  have ho : s.ok = true := (Bool.not_eq_false _).mp ho
  obtain ⟨t, ht, t1, t2, t3, t4, t5, t6⟩ : ∃ t, t = (if s.sec = [] then { s with str := s.str.take s.usedSize } else s.merge G) ∧ t.sec = [] ∧ t.str = s.view ∧
      t.str.length ≤ t.cap ∧ t.ok = true ∧ t.written ≤ s.view.length ∧ max s.pos t.written = s.view.length := by
    refine ⟨_, rfl, ?_⟩
    have hvl := h.view_length ho
    by_cases hs : s.sec = []
    · rw [if_pos hs]
      have hv : s.str.take s.usedSize = s.view := (view_prim hs).symm
      have hcap := h.cap ho
      refine ⟨hs, hv, ?_, ho, ?_, ?_⟩
      · show (s.str.take s.usedSize).length ≤ s.cap
        rw [List.length_take]; omega
      · show s.written ≤ _
        rw [hvl]; unfold usedSize; omega
      · rw [hvl]; rfl
    · rw [if_neg hs]
      obtain ⟨a1, a2, a3, a4, a5, a6, a7, a8, a9, a10⟩ := merge_spec (G := G) h ho hs
      exact ⟨a1, a2, a7, a8, by rw [a6]; exact Nat.zero_le _, by rw [a6, a10]; omega⟩
  dsimp only
  rw [← ht]
  have hp : s.pos ≤ s.view.length := by omega
  have e : ({ t.noBuffer s.pos with seen := t.str } : SW).view = s.view := by
    rw [view_prim (by exact t1)]
    show t.str.take (max (s.pos + 0) t.written) = _
    rw [t2, Nat.add_zero, t6, List.take_length]
  refine ⟨⟨⟨fun h' => ?_, Nat.le_refl _, fun _ => t3, fun _ => ?_, fun _ _ => ⟨?_, .inl rfl⟩, fun _ h' => (h' t1).elim⟩, fun _ => ⟨?_, rfl, t4.trans ho.symm⟩, nofun, fun h' => ?_, ?_⟩,
    fun _ => ⟨ho, t2, t2⟩⟩
  · exact (Bool.false_ne_true (h'.symm.trans t4)).elim
  · show s.pos + 0 - t.sec.length ≤ t.str.length
    rw [t2]; omega
  · show t.written ≤ t.str.length
    rw [t2]; exact t5
  · rw [overlay_nil]; exact e
  · exact (Bool.false_ne_true (Eq.trans h'.symm ho)).elim
  · show Mixed _ _ _ _ _ t.str
    rw [t2]
    exact Mixed.mid _ _ _ _ _

theorem seekSlow_spec {s : SW} {q : Nat} (h : s.Inv) :
    let r := s.seekSlow G q
    r.2.Inv ∧ (r.2.ok = true → r.2.view = s.view) ∧ r.2.ok = s.ok ∧ r.2.seen = s.seen ∧
    (r.1 = true → s.ok = true ∧ r.2.pos = q ∧ q ≤ s.view.length) ∧
    (r.1 = false → s.ok = false ∨ (r.2.pos = s.view.length ∧ s.view.length < q)) := by
  intro r
  by_cases ho : s.ok = false
  · have e : r = (false, s) := if_pos ho
    rw [e]
    exact ⟨h, fun _ => rfl, rfl, rfl, nofun, fun _ => .inl ho⟩
  have ho' : s.ok = true := (Bool.not_eq_false _).mp ho
  have hvl := h.view_length ho'
  by_cases hq : s.pos < q
  · by_cases hs : s.sec ≠ []
    · have e : r = (false, s) := by
        show (if s.ok = false then _ else _) = _
        rw [if_neg ho, if_pos hq, if_pos hs]
      obtain ⟨a1, a2, a3⟩ := h.secd ho' hs
      rw [e]
      have : s.pos = s.view.length := by rw [hvl]; unfold usedSize; omega
      exact ⟨h, fun _ => rfl, rfl, rfl, nofun, fun _ => .inr ⟨this, by omega⟩⟩
    · have hs' : s.sec = [] := Classical.not_not.1 hs
      have hp := h.pos_le ho' hs'
      obtain ⟨p1, p2⟩ := h.prim ho' hs'
      by_cases hu : s.usedSize < q
      · have e : r = (false, s.makeDest s.usedSize) := by
          show (if s.ok = false then _ else _) = _
          rw [if_neg ho, if_pos hq, if_neg hs, if_pos hu]
        obtain ⟨a1, a2, a3, a4⟩ := makeDest_spec (s := s) (c := s.usedSize) ho' hs' (h.cap ho') p1 (by unfold usedSize; omega)
        rw [e]
        refine ⟨a1, fun _ => ?_, a4.trans ho'.symm, rfl, nofun, fun _ => .inr ⟨by rw [a3, hvl], by omega⟩⟩
        rw [a2, view_prim hs']
        unfold usedSize
        congr 1
        omega
      · have e : r = (true, s.makeDest q) := by
          show (if s.ok = false then _ else _) = _
          rw [if_neg ho, if_pos hq, if_neg hs, if_neg hu]
        have hu' : q ≤ max s.pos s.written := Nat.le_of_not_lt hu
        obtain ⟨a1, a2, a3, a4⟩ := makeDest_spec (s := s) (c := q) ho' hs' (h.cap ho') p1 (by omega)
        rw [e]
        refine ⟨a1, fun _ => ?_, a4.trans ho'.symm, rfl, fun _ => ⟨ho', a3, by rw [hvl]; exact hu'⟩, nofun⟩
        rw [a2, view_prim hs']
        congr 1
        omega
  · obtain ⟨t, ht, t1, t2, t3, t4, t5, t6⟩ : ∃ t, t = (if s.sec = [] then s else s.merge G) ∧ t.sec = [] ∧ t.str.take t.usedSize = s.view ∧
        t.str.length ≤ t.cap ∧ t.ok = true ∧ t.usedSize = s.view.length ∧ t.seen = s.seen ∧ t.usedSize ≤ t.str.length := by
      refine ⟨_, rfl, ?_⟩
      by_cases hs : s.sec = []
      · rw [if_pos hs]
        have hp := h.pos_le ho' hs
        obtain ⟨p1, p2⟩ := h.prim ho' hs
        exact ⟨hs, (view_prim hs).symm, h.cap ho', ho', hvl.symm, rfl, by unfold usedSize; omega⟩
      · rw [if_neg hs]
        obtain ⟨a1, a2, a3, a4, a5, a6, a7, a8, a9, a10⟩ := merge_spec (G := G) h ho' hs
        have hu : (s.merge G).usedSize = s.view.length := by
          unfold usedSize pos
          rw [a3, a5, a6, a10]; omega
        refine ⟨a1, ?_, a7, a8, hu, a9, ?_⟩
        · rw [hu, a2, List.take_length]
        · rw [hu, a2]; exact Nat.le_refl _
    have e : r = (true, ({ t with written := t.usedSize } : SW).makeDest q) := by
      show (if s.ok = false then _ else _) = _
      rw [if_neg ho, if_neg hq]
      dsimp only
      rw [← ht]
    have hpv : s.pos ≤ s.view.length := by rw [hvl]; unfold usedSize; omega
    obtain ⟨a1, a2, a3, a4⟩ := makeDest_spec (s := { t with written := t.usedSize }) (c := q) t4 t1 t3 t6.2 (by
      show q ≤ t.str.length
      omega)
    rw [e]
    refine ⟨a1, fun _ => ?_, a4.trans ho'.symm, t6.1, fun _ => ⟨ho', a3, by omega⟩, nofun⟩
    rw [a2, ← t2]
    show t.str.take (max q t.usedSize) = _
    rw [Nat.max_eq_right (by omega)]

theorem truncateImpl_spec {s : SW} {n : Nat} (h : s.Inv) :
    let r := s.truncateImpl n
    r.2.Inv ∧ r.2.ok = s.ok ∧ r.2.seen = s.seen ∧
    (r.1 = true → s.ok = true ∧ r.2.pos = n ∧ n ≤ s.view.length ∧ r.2.view = s.view.take n) ∧
    (r.1 = false → s.ok = false ∨ (r.2.view = s.view ∧ r.2.pos = s.view.length ∧ s.view.length < n)) := by
  intro r
  by_cases ho : s.ok = false
  · have e : r = (false, s) := if_pos ho
    rw [e]
    exact ⟨h, rfl, rfl, nofun, fun _ => .inl ho⟩
  have ho' : s.ok = true := (Bool.not_eq_false _).mp ho
  have hvl := h.view_length ho'
  by_cases hq : s.pos < n
  · by_cases hs : s.sec ≠ []
    · have e : r = (false, s) := by
        show (if s.ok = false then _ else _) = _
        rw [if_neg ho, if_pos hq, if_pos hs]
      obtain ⟨a1, a2, a3⟩ := h.secd ho' hs
      rw [e]
      have : s.pos = s.view.length := by rw [hvl]; unfold usedSize; omega
      exact ⟨h, rfl, rfl, nofun, fun _ => .inr ⟨rfl, this, by omega⟩⟩
    · have hs' : s.sec = [] := Classical.not_not.1 hs
      have hp := h.pos_le ho' hs'
      obtain ⟨p1, p2⟩ := h.prim ho' hs'
      by_cases hu : s.usedSize < n
      · have e : r = (false, s.makeDest s.usedSize) := by
          show (if s.ok = false then _ else _) = _
          rw [if_neg ho, if_pos hq, if_neg hs, if_pos hu]
        obtain ⟨a1, a2, a3, a4⟩ := makeDest_spec (s := s) (c := s.usedSize) ho' hs' (h.cap ho') p1 (by unfold usedSize; omega)
        rw [e]
        refine ⟨a1, a4.trans ho'.symm, rfl, nofun, fun _ => .inr ⟨?_, by rw [a3, hvl], by omega⟩⟩
        rw [a2, view_prim hs']
        unfold usedSize
        congr 1
        omega
      · have e : r = (true, ({ s with written := 0 } : SW).makeDest n) := by
          show (if s.ok = false then _ else _) = _
          rw [if_neg ho, if_pos hq, if_neg hs, if_neg hu]
        have hu' : n ≤ max s.pos s.written := Nat.le_of_not_lt hu
        obtain ⟨a1, a2, a3, a4⟩ := makeDest_spec (s := { s with written := 0 }) (c := n) ho' hs' (h.cap ho') (Nat.zero_le _) (by
          show n ≤ s.str.length
          omega)
        rw [e]
        refine ⟨a1, a4.trans ho'.symm, rfl, fun _ => ⟨ho', a3, by rw [hvl]; exact hu', ?_⟩, nofun⟩
        rw [a2, view_prim hs', List.take_take]
        show s.str.take (max n 0) = _
        congr 1
        omega
  · have hpv : s.pos ≤ s.view.length := by rw [hvl]; unfold usedSize; omega
    by_cases hl : s.limitPos - s.sec.length < n
    · have e : r = (true, ({ s with sec := s.sec.take (s.sec.length - (s.limitPos - n)) } : SW).noBuffer n) := by
        show (if s.ok = false then _ else _) = _
        rw [if_neg ho, if_neg hq, if_pos hl]
      have hc := h.cur
      have hs : s.sec ≠ [] := by
        intro h0
        rw [h0] at hl
        simp only [List.length_nil] at hl
        unfold limitPos at hl
        unfold pos at hq
        omega
      obtain ⟨a1, a2, a3⟩ := h.secd ho' hs
      have a4 := h.room ho'
      have hpl : s.pos ≤ s.limitPos := by unfold pos limitPos; omega
      have htl : (s.sec.take (s.sec.length - (s.limitPos - n))).length = s.sec.length - (s.limitPos - n) := by rw [List.length_take]; omega
      have hne : s.sec.take (s.sec.length - (s.limitPos - n)) ≠ [] := by
        intro h0
        have h1 := congrArg List.length h0
        rw [htl, List.length_nil] at h1
        omega
      rw [e]
      refine ⟨⟨fun h' => (Bool.false_ne_true (h'.symm.trans ho')).elim, Nat.le_refl _, fun _ => h.cap ho', fun _ => ?_, fun _ h0 => (hne h0).elim,
        fun _ _ => ⟨Nat.zero_le _, ?_, a3⟩⟩, rfl, rfl, fun _ => ⟨ho', rfl, by omega, ?_⟩, nofun⟩
      · show n + 0 - (s.sec.take (s.sec.length - (s.limitPos - n))).length ≤ s.str.length
        rw [htl]; omega
      · show (s.sec.take (s.sec.length - (s.limitPos - n))).length ≤ n + 0
        rw [htl]; omega
      · unfold view
        rw [if_neg (by exact hne), if_neg hs]
        show s.str.take (n + 0 - (s.sec.take (s.sec.length - (s.limitPos - n))).length) ++ (s.sec.take (s.sec.length - (s.limitPos - n))).take
          ((s.sec.take (s.sec.length - (s.limitPos - n))).length - (0 - 0)) = _
        have hlen : (s.str.take (s.limitPos - s.sec.length)).length = s.limitPos - s.sec.length := by rw [List.length_take]; omega
        rw [htl, List.take_take, List.take_append, hlen, List.take_of_length_le (l := s.str.take (s.limitPos - s.sec.length)) (by omega), List.take_take]
        unfold avail
        unfold limitPos at *
        unfold pos at *
        congr 2
        · omega
        · omega
    · have e : r = (true, ({ s with sec := [], written := 0 } : SW).makeDest n) := by
        show (if s.ok = false then _ else _) = _
        rw [if_neg ho, if_neg hq, if_neg hl]
      have hr := h.room ho'
      obtain ⟨a1, a2, a3, a4⟩ := makeDest_spec (s := { s with sec := [], written := 0 }) (c := n) ho' rfl (h.cap ho') (Nat.zero_le _) (by
        show n ≤ s.str.length
        omega)
      rw [e]
      refine ⟨a1, a4.trans ho'.symm, rfl, fun _ => ⟨ho', a3, by omega, ?_⟩, nofun⟩
      rw [a2]
      show s.str.take (max n 0) = _
      by_cases hs : s.sec = []
      · rw [view_prim hs, List.take_take]
        congr 1
        omega
      · unfold view
        rw [if_neg hs, List.take_append_of_le_length (by rw [List.length_take]; omega), List.take_take]
        congr 1
        omega

theorem readModeImpl_spec {s : SW} {q : Nat} (h : s.Inv) :
    WritePost (ops G) view SW.seen Inv [] s (s.readModeImpl G q) ∧
    ((s.readModeImpl G q).1 = true → s.ok = true ∧ (s.readModeImpl G q).2.seen = s.view) := by
  unfold readModeImpl
  by_cases ho : s.ok = false
  · rw [if_pos ho]
    exact ⟨same_post h ho, nofun⟩
  rw [if_neg ho]
  have ho : s.ok = true := (Bool.not_eq_false _).mp ho
  have hvl := h.view_length ho
  obtain ⟨t, ht, t1, t2, t3, t4, t5, t6⟩ : ∃ t, t = (if s.sec = [] then s else s.merge G) ∧ t.Inv ∧ t.view = s.view ∧
      t.str.take t.usedSize = s.view ∧ t.ok = true ∧ t.pos = s.pos ∧ t.seen = s.seen := by
    refine ⟨_, rfl, ?_⟩
    by_cases hs : s.sec = []
    · rw [if_pos hs]
      exact ⟨h, rfl, (view_prim hs).symm, ho, rfl, rfl⟩
    · rw [if_neg hs]
      obtain ⟨a1, a2, a3, a4, a5, a6, a7, a8, a9, a10⟩ := merge_spec (G := G) h ho hs
      have hp : (s.merge G).pos = s.pos := by unfold pos; rw [a3, a5]; rfl
      have hv : (s.merge G).str.take (s.merge G).usedSize = s.view := by
        unfold usedSize
        rw [hp, a6, a2, List.take_of_length_le (by omega)]
      refine ⟨⟨fun h' => (Bool.false_ne_true (h'.symm.trans a8)).elim, by omega, fun _ => a7, fun _ => ?_, fun _ _ => ⟨by omega, .inl a4⟩,
        fun _ h' => (h' a1).elim⟩, ?_, hv, a8, hp, a9⟩
      · unfold limitPos
        rw [a2, a10, a3, a4]; omega
      · rw [view_prim a1]; exact hv
  dsimp only
  rw [← ht]
  refine ⟨⟨⟨t1.dead, t1.cur, t1.cap, t1.room, t1.prim, t1.secd⟩, fun _ => ⟨?_, t5, t4.trans ho.symm⟩, nofun, fun h' => ?_, ?_⟩, fun _ => ⟨ho, t3⟩⟩
  · rw [overlay_nil]; exact t2
  · exact (Bool.false_ne_true (Eq.trans h'.symm ho)).elim
  · show Mixed _ _ _ _ _ (t.str.take t.usedSize)
    rw [t3]
    exact Mixed.mid _ _ _ _ _

theorem setHint_spec {s : SW} {n : Option Nat} (h : s.Inv) :
    (s.setHint G n).Inv ∧ (s.setHint G n).view = s.view ∧ (s.setHint G n).pos = s.pos ∧ (s.setHint G n).ok = s.ok ∧ (s.setHint G n).seen = s.seen := by
  unfold setHint
  match n with
  | none => exact ⟨h, rfl, rfl, rfl, rfl⟩
  | some m =>
    dsimp only
    by_cases ho : s.ok = false
    · rw [if_pos ho]
      exact ⟨h, rfl, rfl, rfl, rfl⟩
    rw [if_neg ho]
    have ho : s.ok = true := (Bool.not_eq_false _).mp ho
    by_cases hs : s.sec = []
    · rw [if_pos hs]
      obtain ⟨a1, a2, a3, a4, a5⟩ := growDest_spec (G := G) (s := s) (c := s.pos) (n := max (min (s.pos + min m kMaxSize) kMaxSize) s.written) ho hs (h.cap ho) (h.prim ho hs).1
        (h.pos_le ho hs)
      exact ⟨a1, a2.trans (view_prim hs).symm, a3, a4.trans ho.symm, a5⟩
    · rw [if_neg hs]
      obtain ⟨b1, b2⟩ := syncSec_spec h ho hs
      have hl := b1.length
      have hu : s.syncSec.usedDestSize = s.syncSec.startPos - s.syncSec.sec.length := by
        unfold usedDestSize usedSize pos
        rw [b1.cur, b1.written]
        omega
      rw [hu]
      obtain ⟨k, kt, k1, k2, k3⟩ := reserve_eq (G := G) (max (min (s.pos + min m kMaxSize) kMaxSize) s.written)
        ({ s.syncSec with str := s.syncSec.str.take (s.syncSec.startPos - s.syncSec.sec.length) } : SW)
      rw [k1]
      dsimp only
      rw [← b1.eq]
      obtain ⟨j, jt, j1, j2, j3⟩ := reserve_eq (G := G) s.view.length
        ({ s.syncSec with str := s.syncSec.str.take (s.syncSec.startPos - s.syncSec.sec.length), cap := k, tick := kt } : SW)
      rw [j1]
      obtain ⟨a1, a2, a3, a4⟩ := makeDest_spec (s := { s.syncSec with str := s.view, sec := [], cap := j, tick := jt }) (c := s.pos) ho rfl j3
        (by show s.syncSec.written ≤ s.view.length; rw [b1.written]; exact Nat.zero_le _)
        (by show s.pos ≤ s.view.length; rw [hl, b2]; exact Nat.le_refl _)
      refine ⟨a1, a2.trans ?_, a3, a4.trans ho.symm, rfl⟩
      show s.view.take (max s.pos s.syncSec.written) = _
      rw [List.take_of_length_le (by rw [hl, b2]; omega)]

theorem lawful : (ops G).Lawful view SW.seen Inv where
  avail s h ho := by
    have := h.dead ho
    show s.lim - s.cur = 0
    omega
  put bs s h hb := put_spec h hb
  pushSlow n rec s h hn := pushSlow_spec h hn
  writeSlow bs s h hb := writeSlow_spec h (by intro h0; rw [h0] at hb; exact Nat.not_lt_zero _ hb)
  fillSlow n b s h hb := refSlow_spec h (by intro h0; have h1 := congrArg List.length h0; rw [List.length_replicate, List.length_nil] at h1; omega)
  flushImpl t s h := by
    obtain ⟨a1, a2⟩ := flushImpl_spec (G := G) h
    exact ⟨a1, fun hr => ⟨(a2 hr).1, fun _ => (a2 hr).2.1⟩⟩
  seekSlow q s h hq := by
    obtain ⟨a1, a2, a3, a4, a5, a6⟩ := seekSlow_spec (G := G) (q := q) h
    refine ⟨a1, a2, fun hr => ⟨(a5 hr).1, a3.trans (a5 hr).1, (a5 hr).2.1, Nat.le_trans (a5 hr).2.2 (Nat.le_max_left _ _)⟩, fun hr => ?_,
      fun ho => ⟨a3.trans ho, a4⟩, ?_⟩
    · rcases a6 hr with h' | h'
      · exact .inl (a3.trans h')
      · exact .inr h'
    · show Mixed _ _ _ _ _ (s.seekSlow G q).2.seen
      rw [a4]; exact Mixed.old _ _ _ _ _
  sizeImpl s h := by
    show (s.sizeImpl).2.Inv ∧ _
    have e : (ops G).sizeImpl s = s.sizeImpl := rfl
    rw [e]
    unfold sizeImpl
    by_cases ho : s.ok = false
    · rw [if_pos ho]
      exact ⟨h, nofun, fun _ => ho, fun _ => ⟨ho, rfl⟩, Mixed.old _ _ _ _ _⟩
    · rw [if_neg ho]
      have ho : s.ok = true := (Bool.not_eq_false _).mp ho
      refine ⟨h, fun n hn => ⟨?_, rfl, rfl, ho, ho⟩, nofun, fun h' => ?_, Mixed.old _ _ _ _ _⟩
      · injection hn with hn
        rw [← hn, h.view_length ho]
      · exact (Bool.false_ne_true (Eq.trans h'.symm ho)).elim
  truncateImpl n s h _ := by
    obtain ⟨a1, a3, a4, a5, a6⟩ := truncateImpl_spec (n := n) h
    refine ⟨a1, fun hr => ?_, fun hr => ?_, fun ho => ⟨a3.trans ho, a4⟩, ?_⟩
    · obtain ⟨b1, b2, b3, b4⟩ := a5 hr
      exact ⟨Nat.le_trans b3 (Nat.le_max_left _ _), b4.trans (resize_eq_take b3).symm, b2, b1, a3.trans b1⟩
    · rcases a6 hr with h' | h'
      · exact .inl (a3.trans h')
      · exact .inr h'
    · show Mixed _ _ _ _ _ (s.truncateImpl n).2.seen
      rw [a4]; exact Mixed.old _ _ _ _ _
  readModeImpl q s h := readModeImpl_spec (q := q) h
  randomAccess s h := ⟨h, rfl, fun _ => ⟨rfl, rfl⟩, fun _ => ⟨rfl, rfl⟩, fun h' => h'⟩
  setHint n s h := by
    obtain ⟨a1, a2, a3, a4, a5⟩ := setHint_spec (G := G) (n := n) h
    exact ⟨a1, fun _ => ⟨a2, a3⟩, fun ho => a4.trans ho, a5⟩

theorem writeRef_spec {s : SW} {bs : Bytes} (h : s.Inv) : WritePost (ops G) view SW.seen Inv bs s (s.writeRef G bs) := by
  unfold writeRef
  by_cases hb : bs.length ≤ s.avail ∧ bs.length ≤ kMaxBytesToCopy
  · rw [if_pos hb]
    exact lawful.put_post h hb.1
  · rw [if_neg hb]
    refine (refSlow_spec h (fun h0 => hb ?_)).1
    rw [h0]
    exact ⟨Nat.zero_le _, Nat.zero_le _⟩

/-- Every public function does what the specification says. -/
theorem call_spec {op : WOp} {s : SW} (h : s.Inv) :
    (s.call G op).2.Inv ∧
    ((s.call G op).2.ok = true → ((s.call G op).2.view, (s.call G op).2.pos) = op.after (s.call G op).1 (s.view, s.pos) ∧
      op.Possible (s.call G op).1 (s.view, s.pos)) ∧
    (s.ok = false → (s.call G op).2.ok = false ∧ (s.call G op).2.seen = s.seen) := by
  have hall : op.Allowed (ops G) s := by cases op <;> first | exact trivial | exact rfl
  cases op with
  | writeExternal bs =>
    have h1 := writeRef_spec (G := G) (bs := bs) h
    obtain ⟨h2, h3⟩ := WriterOps.Lawful.of_post (op := .writeExternal bs) h1 (fun _ _ _ => by cases ‹Bool› <;> rfl) (fun _ => rfl)
    exact ⟨h1.1, h2, h3⟩
  | writeChain fs =>
    have h1 := writeRef_spec (G := G) (bs := fs.flatten) h
    obtain ⟨h2, h3⟩ := WriterOps.Lawful.of_post (op := .writeChain fs) h1 (fun _ _ _ => by cases ‹Bool› <;> rfl) (fun _ => rfl)
    exact ⟨h1.1, h2, h3⟩
  | _ =>
    obtain ⟨a1, a2, a3, a4⟩ := lawful.run (W := ops G) h hall
    exact ⟨a1, a2, a3⟩

theorem callAll_spec {ops : List WOp} {s : SW} (h : s.Inv) :
    let r := s.callAll G ops
    r.2.Inv ∧
    (r.2.ok = true → (r.2.view, r.2.pos) = WOp.replay ops r.1 (s.view, s.pos) ∧ WOp.AllPossible ops r.1 (s.view, s.pos)) ∧
    (s.ok = false → r.2.ok = false ∧ r.2.seen = s.seen) := by
  induction ops generalizing s with
  | nil => exact ⟨h, fun _ => ⟨rfl, trivial⟩, fun h => ⟨h, rfl⟩⟩
  | cons op ops ih =>
    obtain ⟨r1, r2, r3⟩ := call_spec (G := G) (op := op) h
    obtain ⟨i1, i2, i3⟩ := ih r1
    refine ⟨i1, fun ho => ?_, fun ho => ?_⟩
    · have ho1 : (s.call G op).2.ok = true := by
        cases h' : (s.call G op).2.ok with
        | true => rfl
        | false => exact (Bool.false_ne_true ((i3 h').1.symm.trans ho)).elim
      obtain ⟨j1, j2⟩ := i2 ho
      obtain ⟨k1, k2⟩ := r2 ho1
      rw [k1] at j1 j2
      exact ⟨j1, k2, j2⟩
    · obtain ⟨j1, j2⟩ := i3 (r3 ho).1
      exact ⟨j1, j2.trans (r3 ho).2⟩

theorem init_spec {d : Bytes} {cap : Nat} (hc : d.length ≤ cap) (append : Bool) :
    (init d cap append).Inv ∧ (init d cap append).view = (if append then d else []) ∧ (init d cap append).pos = (if append then d.length else 0) ∧
      (init d cap append).ok = true := by
  cases append with
  | true =>
    refine ⟨⟨nofun, Nat.le_refl _, fun _ => hc, fun _ => ?_, fun _ _ => ⟨Nat.zero_le _, .inl rfl⟩, fun _ h => (h rfl).elim⟩, ?_, rfl, rfl⟩
    · show d.length + 0 - 0 ≤ d.length
      omega
    · rw [view_prim rfl]
      show d.take (max (d.length + 0) 0) = d
      rw [List.take_of_length_le (by omega)]
  | false =>
    refine ⟨⟨nofun, Nat.zero_le _, fun _ => hc, fun _ => ?_, fun _ _ => ⟨Nat.zero_le _, .inr ⟨rfl, rfl⟩⟩, fun _ h => (h rfl).elim⟩, ?_, rfl, rfl⟩
    · show 0 + d.length - 0 ≤ d.length
      omega
    · rw [view_prim rfl]
      show d.take (max (0 + 0) 0) = []
      rfl

end SW
end Riegeli.Wtr

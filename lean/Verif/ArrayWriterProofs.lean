import Verif.ArrayWriter
/-!
# Proofs about `ArrayWriter`

`AW.call_spec`: every public function does what the specification says, or the writer fails because the data do not fit in the array.
-/
namespace Riegeli.Wtr
namespace AW
variable {room : Nat → Nat → Nat → Nat}

theorem overlay_le (c : Bytes) (p : Nat) (a b : Bytes) : (overlay c p a).length ≤ (overlay c p (a ++ b)).length := by
  by_cases ha : a = []
  · subst ha
    rw [overlay_nil]
    by_cases hb : b = []
    · subst hb; simp
    · rw [List.nil_append, overlay_length hb]; omega
  · rw [overlay_length ha, overlay_length (by simp [ha]), List.length_append]; omega

/-- The invariant. -/
structure Inv (s : AW) : Prop where
  off : s.off ≤ s.arr.length
  written : s.written ≤ s.arr.length
  older : s.ok = true → s.older ≠ [] → s.off = s.arr.length
  behind : s.scratch = none → s.older = []

/-- What writing `bs` must do. -/
def Post (bs : Bytes) (s : AW) (r : Bool × AW) : Prop :=
  r.2.Inv ∧ r.2.arr.length = s.arr.length ∧
  (r.2.ok = true → s.ok = true ∧ r.1 = true ∧ r.2.view = overlay s.view s.pos bs ∧ r.2.pos = s.pos + bs.length) ∧
  (s.ok = true → r.2.ok = false → s.arr.length < (overlay s.view s.pos bs).length)

theorem Post.seq {a b : Bytes} {s : AW} {r q : Bool × AW} (h1 : Post a s r) (h2 : Post b r.2 q) : Post (a ++ b) s q := by
  obtain ⟨-, a2, a3, a4⟩ := h1
  obtain ⟨b1, b2, b3, b4⟩ := h2
  refine ⟨b1, b2.trans a2, fun h => ?_, fun hs hq => ?_⟩
  · obtain ⟨c1, c2, c3, c4⟩ := b3 h
    obtain ⟨d1, -, d3, d4⟩ := a3 c1
    refine ⟨d1, c2, ?_, ?_⟩
    · rw [c3, d3, d4, overlay_append]
    · rw [c4, d4, List.length_append, Nat.add_assoc]
  · cases hr : r.2.ok with
    | false => exact Nat.lt_of_lt_of_le (a4 hs hr) (overlay_le _ _ _ _)
    | true =>
      obtain ⟨-, -, d3, d4⟩ := a3 hr
      have := b4 hr hq
      rwa [d3, d4, overlay_append, a2] at this

theorem Post.failed {a : Bytes} (b : Bytes) {s : AW} {r : Bool × AW} (h1 : Post a s r) (hr : r.2.ok = false) : Post (a ++ b) s (false, r.2) := by
  obtain ⟨a1, a2, -, a4⟩ := h1
  exact ⟨a1, a2, fun h => (Bool.false_ne_true (hr.symm.trans h)).elim, fun hs _ => Nat.lt_of_lt_of_le (a4 hs hr) (overlay_le _ _ _ _)⟩

theorem Post.false {a : Bytes} {s : AW} {r : Bool × AW} (h1 : Post a s r) (hr : r.1 = false) : r.2.ok = false := by
  cases h : r.2.ok with
  | false => rfl
  | true => exact (Bool.false_ne_true (hr.symm.trans (h1.2.2.1 h).2.1)).elim

theorem view_behind {s : AW} (h : s.scratch = none) (ho : s.older = []) : s.view = s.arr.take s.size ∧ s.pos = s.off := by
  have : s.fresh = [] := by unfold fresh; rw [h]
  unfold view pos
  rw [ho, this]
  exact ⟨overlay_nil _ _, rfl⟩

theorem size_le {s : AW} (h : s.Inv) : s.size ≤ s.arr.length := Nat.max_le.mpr ⟨h.off, h.written⟩

theorem take_length {s : AW} (h : s.Inv) : (s.arr.take s.size).length = s.size := by
  rw [List.length_take, Nat.min_eq_left (size_le h)]

theorem put_spec {s : AW} {bs : Bytes} (h : s.Inv) (hb : bs.length ≤ s.avail) :
    Post bs s (true, s.put bs) ∧ (s.put bs).ok = s.ok ∧ (s.put bs).avail = s.avail - bs.length ∧
    (s.scratch = none → (s.put bs).scratch = none) ∧ (s.scratch ≠ none → (s.put bs).off = s.off) := by
  cases hs : s.scratch with
  | none =>
    have ho := h.behind hs
    obtain ⟨v1, v2⟩ := view_behind hs ho
    have e : s.put bs = { s with arr := poke s.arr s.off bs, off := s.off + bs.length } := by unfold put; rw [hs]
    have hb0 : bs.length ≤ if s.ok = true then s.arr.length - s.off else 0 := by unfold avail at hb; rw [hs] at hb; exact hb
    have hb1 : s.off + bs.length ≤ s.arr.length := by
      have := h.off
      split at hb0 <;> omega
    have hl := poke_length hb1
    rw [e]
    refine ⟨⟨⟨?_, ?_, fun _ hn => (hn ho).elim, fun _ => ho⟩, hl, fun hk => ⟨hk, rfl, ?_, ?_⟩, fun h1 h2 => (Bool.false_ne_true (h2.symm.trans h1)).elim⟩,
      rfl, ?_, fun _ => hs, fun hn => (hn rfl).elim⟩
    · show s.off + bs.length ≤ (poke s.arr s.off bs).length
      omega
    · show s.written ≤ (poke s.arr s.off bs).length
      have := h.written
      omega
    · rw [v1, v2, (view_behind (s := { s with arr := poke s.arr s.off bs, off := s.off + bs.length }) hs ho).1]
      exact take_poke hb1
    · rw [v2]
      exact (view_behind (s := { s with arr := poke s.arr s.off bs, off := s.off + bs.length }) hs ho).2
    · unfold avail
      dsimp only
      rw [hs]
      dsimp only
      rw [hl]
      split <;> omega
  | some p =>
    have e : s.put bs = { s with scratch := some (p.1 ++ bs, p.2) } := by unfold put; rw [hs]
    have ef : s.fresh = p.1 := by unfold fresh; rw [hs]
    rw [e]
    refine ⟨⟨⟨h.off, h.written, h.older, nofun⟩, rfl, fun hk => ⟨hk, rfl, ?_, ?_⟩, fun h1 h2 => (Bool.false_ne_true (h2.symm.trans h1)).elim⟩,
      rfl, ?_, nofun, fun _ => rfl⟩
    · show overlay (s.arr.take s.size) s.off (s.older ++ (p.1 ++ bs)) = overlay (overlay (s.arr.take s.size) s.off (s.older ++ s.fresh)) (s.off + (s.older ++ s.fresh).length) bs
      rw [overlay_append, ef, List.append_assoc]
    · show s.off + (s.older ++ (p.1 ++ bs)).length = s.off + (s.older ++ s.fresh).length + bs.length
      rw [ef]
      simp only [List.length_append]
      omega
    · unfold avail
      rw [hs]
      dsimp only
      rw [List.length_append]
      omega

theorem fail_inv {s : AW} (h : s.Inv) : s.fail.Inv := ⟨Nat.zero_le _, h.written, nofun, fun _ => rfl⟩

theorem fail_spec {s : AW} {bs : Bytes} (h : s.Inv) (hl : s.ok = true → s.arr.length < (overlay s.view s.pos bs).length) : Post bs s (false, s.fail) :=
  ⟨fail_inv h, rfl, nofun, fun hs _ => hl hs⟩

theorem writeBehind_spec {s : AW} {bs : Bytes} (h : s.Inv) (hs : s.scratch = none) :
    Post bs s (s.writeBehind bs) ∧ (s.writeBehind bs).2.scratch = none := by
  unfold writeBehind
  by_cases hb : bs.length ≤ s.avail
  · rw [if_pos hb]
    obtain ⟨a1, -, -, a2, -⟩ := put_spec h hb
    exact ⟨a1, a2 hs⟩
  · rw [if_neg hb]
    refine ⟨fail_spec h (fun hk => ?_), rfl⟩
    have hb0 : ¬ bs.length ≤ if s.ok = true then s.arr.length - s.off else 0 := by unfold avail at hb; rw [hs] at hb; exact hb
    rw [if_pos hk] at hb0
    rw [(view_behind hs (h.behind hs)).2, overlay_length (by intro h0; subst h0; exact hb0 (Nat.zero_le _))]
    have := h.off
    omega

theorem fragsBehind_spec {fs : List Bytes} {s : AW} (h : s.Inv) (hs : s.scratch = none) :
    Post fs.flatten s (s.fragsBehind fs) ∧ (s.fragsBehind fs).2.scratch = none := by
  induction fs generalizing s with
  | nil =>
    refine ⟨⟨h, rfl, fun hk => ⟨hk, rfl, ?_, rfl⟩, fun h1 h2 => (Bool.false_ne_true (h2.symm.trans h1)).elim⟩, hs⟩
    exact (overlay_nil _ _).symm
  | cons f fs ih =>
    rw [List.flatten_cons]
    obtain ⟨a1, a2⟩ := writeBehind_spec (bs := f) h hs
    unfold fragsBehind
    dsimp only
    generalize s.writeBehind f = r at *
    by_cases hr : r.1 = false
    · rw [if_pos hr]
      exact ⟨a1.failed _ (a1.false hr), a2⟩
    · rw [if_neg hr]
      obtain ⟨b1, b2⟩ := ih a1.1 a2
      exact ⟨a1.seq b1, b2⟩

theorem self_post {s : AW} (h : s.Inv) : Post [] s (true, s) :=
  ⟨h, rfl, fun hk => ⟨hk, rfl, (overlay_nil _ _).symm, rfl⟩, fun h1 h2 => (Bool.false_ne_true (h2.symm.trans h1)).elim⟩

theorem sync_spec {s : AW} (h : s.Inv) : Post [] s s.sync ∧ s.sync.2.scratch = none := by
  unfold sync
  cases hs : s.scratch with
  | none => exact ⟨self_post h, hs⟩
  | some p =>
    dsimp only
    have ef : s.fresh = p.1 := by unfold fresh; rw [hs]
    by_cases ho : s.older ≠ []
    · rw [if_pos ho]
      refine ⟨⟨⟨Nat.zero_le _, h.written, nofun, fun _ => rfl⟩, rfl, nofun, fun hk _ => ?_⟩, rfl⟩
      rw [overlay_nil]
      unfold view
      rw [overlay_length (by simp [ho]), List.length_append]
      have h1 := h.older hk ho
      have h2 := List.length_pos_iff.mpr ho
      omega
    · rw [if_neg ho]
      have ho : s.older = [] := (Classical.not_not).mp ho
      have ht : ({ s with scratch := none } : AW).Inv := ⟨h.off, h.written, fun _ hn => (hn ho).elim, fun _ => ho⟩
      have key : ∀ r, Post p.1 ({ s with scratch := none } : AW) r → Post [] s r := by
        intro r hr
        obtain ⟨v1, v2⟩ := view_behind (s := { s with scratch := none }) rfl ho
        obtain ⟨a1, a2, a3, a4⟩ := hr
        have ev : overlay ({ s with scratch := none } : AW).view ({ s with scratch := none } : AW).pos p.1 = s.view := by
          rw [v1, v2]
          unfold view
          rw [ho, ef, List.nil_append]
          rfl
        have ep : ({ s with scratch := none } : AW).pos + p.1.length = s.pos := by
          rw [v2]
          unfold pos
          rw [ho, ef, List.nil_append]
        rw [ev] at a3 a4
        rw [ep] at a3
        refine ⟨a1, a2, fun hk => ?_, fun h1 h2 => ?_⟩
        · obtain ⟨b1, b2, b3, b4⟩ := a3 hk
          exact ⟨b1, b2, b3.trans (overlay_nil _ _).symm, b4⟩
        · rw [overlay_nil]
          exact a4 h1 h2
      split
      · rename_i hb
        obtain ⟨a1, -, -, a2, -⟩ := put_spec ht hb.1
        exact ⟨key _ a1, a2 rfl⟩
      · obtain ⟨a1, a2⟩ := fragsBehind_spec (fs := [p.1]) ht rfl
        rw [List.flatten_singleton] at a1
        exact ⟨key _ a1, a2⟩

theorem sync_true {s : AW} (h : s.scratch = none) : s.sync = (true, s) := by unfold sync; rw [h]

theorem begin_spec {s : AW} {n rec : Nat} (h : s.Inv) (hc : s.ok = true → s.fresh ≠ [] → s.off = s.arr.length) :
    Post [] s (true, s.begin room n rec) ∧ n ≤ (s.begin room n rec).avail ∧ (s.begin room n rec).scratch.isSome = true ∧
    (s.begin room n rec).fresh = [] := by
  refine ⟨⟨⟨h.off, h.written, fun hk hn => ?_, nofun⟩, rfl, fun hk => ⟨hk, rfl, ?_, ?_⟩, fun h1 h2 => (Bool.false_ne_true (h2.symm.trans h1)).elim⟩, ?_, rfl, rfl⟩
  · have hn : s.older ++ s.fresh ≠ [] := hn
    by_cases ho : s.older = []
    · rw [ho, List.nil_append] at hn
      exact hc hk hn
    · exact h.older hk ho
  · rw [overlay_nil]
    show overlay (s.arr.take s.size) s.off (s.older ++ s.fresh ++ []) = s.view
    rw [List.append_nil]
    rfl
  · show s.off + (s.older ++ s.fresh ++ []).length = s.pos + 0
    rw [List.append_nil]
    rfl
  · show n ≤ max n (room s.tick n rec) - 0
    omega

theorem force_eq (s : AW) : s.force room = s.begin room 1 0 := rfl

theorem fresh_none {s : AW} (h : s.scratch = none) : s.fresh = [] := by unfold fresh; rw [h]

/-- Scratch which was begun and not written to can be dropped. -/
theorem force_sync {s : AW} (h : s.scratch = none) (ho : s.older = []) : (s.force room).sync.1 = true := by
  unfold force sync
  dsimp only
  rw [fresh_none h, ho]
  rw [if_neg (by simp), if_pos ⟨Nat.zero_le _, Nat.zero_le _⟩]

theorem pushSlow_spec {n rec : Nat} {s : AW} (h : s.Inv) :
    Post [] s (s.pushSlow room n rec) ∧ ((s.pushSlow room n rec).1 = true → n ≤ (s.pushSlow room n rec).2.avail ∨ n = 0) := by
  obtain ⟨a1, a2⟩ := sync_spec h
  unfold pushSlow
  dsimp only
  generalize s.sync = r at *
  by_cases hr : r.1 = false
  · rw [if_pos hr]
    exact ⟨a1.failed [] (a1.false hr), nofun⟩
  rw [if_neg hr]
  have hb : ∀ {m k : Nat}, Post [] r.2 (true, r.2.begin room m k) ∧ m ≤ (r.2.begin room m k).avail ∧ (r.2.begin room m k).scratch.isSome = true ∧ _ :=
    fun {m k} => begin_spec a1.1 (fun _ hn => (hn (fresh_none a2)).elim)
  split
  · rename_i hc
    refine ⟨?_, fun _ => .inl hc.2⟩
    have := a1.seq (self_post a1.1)
    exact this
  split
  · rename_i hn
    rw [force_eq]
    subst hn
    exact ⟨a1.seq hb.1, fun _ => .inl hb.2.1⟩
  split
  · rw [force_eq]
    split
    · rename_i hk
      exact ⟨a1.seq hb.1, fun _ => .inl hk⟩
    · have c1 := a1.seq (hb (m := 1) (k := 0)).1
      obtain ⟨d1, d2⟩ := sync_spec (hb (m := 1) (k := 0)).1.1
      have d3 : ((r.2.begin room 1 0).sync).1 = true := by
        rw [← force_eq]
        exact force_sync a2 (a1.1.behind a2)
      generalize (r.2.begin room 1 0).sync = q at *
      rw [if_neg (by rw [d3]; nofun)]
      have d4 := c1.seq d1
      split
      · rename_i hk
        exact ⟨d4.seq (self_post d1.1), fun _ => .inl hk⟩
      · obtain ⟨e1, e2, -⟩ := begin_spec (room := room) (n := n) (rec := rec) d1.1 (fun _ hn => (hn (fresh_none d2)).elim)
        exact ⟨d4.seq e1, fun _ => .inl e2⟩
  · exact ⟨a1.seq hb.1, fun _ => .inl hb.2.1⟩

theorem writeSlow_spec {bs : Bytes} {s : AW} (h : s.Inv) : Post bs s (s.writeSlow bs) := by
  obtain ⟨a1, a2⟩ := sync_spec h
  unfold writeSlow
  dsimp only
  generalize s.sync = r at *
  by_cases hr : r.1 = false
  · rw [if_pos hr]
    exact a1.failed bs (a1.false hr)
  · rw [if_neg hr]
    exact a1.seq (writeBehind_spec a1.1 a2).1

theorem refSlow_spec {fs : List Bytes} {s : AW} (h : s.Inv) : Post fs.flatten s (s.refSlow fs) := by
  obtain ⟨a1, a2⟩ := sync_spec h
  unfold refSlow
  dsimp only
  generalize s.sync = r at *
  by_cases hr : r.1 = false
  · rw [if_pos hr]
    exact a1.failed _ (a1.false hr)
  · rw [if_neg hr]
    split
    · rename_i hc
      exact a1.seq (put_spec a1.1 hc.2.1).1
    · exact a1.seq (fragsBehind_spec a1.1 a2).1

theorem fillBehind_spec {fuel n : Nat} {b : UInt8} {s : AW} (h : s.Inv) (hc : s.ok = true → s.scratch = none ∨ s.off = s.arr.length)
    (hf : n + 1 < fuel ∨ (0 < s.avail ∧ n < fuel)) : Post (List.replicate n b) s (s.fillBehind room fuel n b) := by
  induction fuel generalizing n s with
  | zero => exfalso; omega
  | succ fuel ih =>
    unfold fillBehind
    dsimp only
    by_cases ha : s.avail < n
    · rw [if_pos ha]
      have hl : (List.replicate s.avail b).length = s.avail := List.length_replicate
      obtain ⟨a1, a2, a3, a4, a5⟩ := put_spec (bs := List.replicate s.avail b) h (by omega)
      have hoff : (s.put (List.replicate s.avail b)).ok = true →
          (s.put (List.replicate s.avail b)).off = (s.put (List.replicate s.avail b)).arr.length := by
        intro hk
        have e : (s.put (List.replicate s.avail b)).arr.length = s.arr.length := a1.2.1
        rw [e]
        rw [a2] at hk
        cases hs : s.scratch with
        | none =>
          have e2 : (s.put (List.replicate s.avail b)).off = s.off + s.avail := by
            unfold put
            rw [hs]
            dsimp only
            rw [hl]
          have e3 : s.avail = s.arr.length - s.off := by unfold avail; rw [hs]; dsimp only; rw [if_pos hk]
          have := h.off
          omega
        | some p =>
          rw [a5 (by rw [hs]; nofun)]
          rcases hc hk with h1 | h1
          · rw [hs] at h1; cases h1
          · exact h1
      obtain ⟨b1, b2, -⟩ := begin_spec (room := room) (n := 1) (rec := 0) a1.1 (fun hk _ => hoff hk)
      rw [force_eq]
      have c1 := a1.seq b1
      rw [List.append_nil] at c1
      have c2 := ih (n := n - s.avail) b1.1 (fun hk => .inr (hoff hk)) (by
        right
        exact ⟨Nat.lt_of_lt_of_le Nat.zero_lt_one b2, by omega⟩)
      have := c1.seq c2
      rwa [List.replicate_append_replicate, Nat.add_sub_cancel' (by omega)] at this
    · rw [if_neg ha]
      exact (put_spec h (by rw [List.length_replicate]; omega)).1

theorem fillSlow_spec {n : Nat} {b : UInt8} {s : AW} (h : s.Inv) : Post (List.replicate n b) s (s.fillSlow room n b) := by
  obtain ⟨a1, a2⟩ := sync_spec h
  unfold fillSlow
  dsimp only
  generalize s.sync = r at *
  by_cases hr : r.1 = false
  · rw [if_pos hr]
    exact a1.failed _ (a1.false hr)
  · rw [if_neg hr]
    split
    · rename_i hc
      exact a1.seq (put_spec a1.1 (by rw [List.length_replicate]; exact hc.2.1)).1
    · exact a1.seq (fillBehind_spec a1.1 (fun _ => .inl a2) (.inl (by omega)))

/-- What is known after `SyncScratch()` succeeded. -/
theorem sync_ok {s : AW} (h : s.Inv) (hk : s.sync.2.ok = true) :
    s.ok = true ∧ s.sync.1 = true ∧ s.sync.2.arr.take s.sync.2.size = s.view ∧ s.sync.2.off = s.pos ∧ s.sync.2.size = s.view.length := by
  obtain ⟨a1, a2⟩ := sync_spec h
  obtain ⟨b1, b2, b3, b4⟩ := a1.2.2.1 hk
  obtain ⟨v1, v2⟩ := view_behind a2 (a1.1.behind a2)
  rw [overlay_nil, v1] at b3
  rw [v2] at b4
  exact ⟨b1, b2, b3, b4, by rw [← b3, take_length a1.1]⟩

theorem sync_false {s : AW} (h : s.Inv) (hk : s.sync.1 = false) : s.sync.2.ok = false := (sync_spec h).1.false hk

theorem sync_fails {s : AW} (h : s.Inv) (ho : s.ok = true) (hk : s.sync.2.ok = false) : s.arr.length < s.view.length := by
  have := (sync_spec h).1.2.2.2 ho hk
  rwa [overlay_nil] at this

/-- Functions which begin with `SyncScratch()` and checking `ok()`. -/
theorem sync_step {s : AW} (h : s.Inv) {op : WOp} {r : Bool × AW}
    (h1 : s.sync.1 = false → r = (false, s.sync.2)) (h2 : s.sync.1 = true → s.sync.2.ok = false → r.2 = s.sync.2)
    (h3 : s.sync.2.ok = true → r.2.Inv ∧ r.2.arr.length = s.sync.2.arr.length ∧ r.2.ok = true ∧
      (r.2.view, r.2.pos) = op.after r.1 (s.view, s.pos) ∧ op.Possible r.1 (s.view, s.pos)) :
    r.2.Inv ∧ r.2.arr.length = s.arr.length ∧
    (r.2.ok = true → s.ok = true ∧ (r.2.view, r.2.pos) = op.after r.1 (s.view, s.pos) ∧ op.Possible r.1 (s.view, s.pos)) ∧
    (s.ok = true → r.2.ok = false → s.arr.length < s.view.length) := by
  obtain ⟨a1, a2⟩ := sync_spec h
  cases hk : s.sync.2.ok with
  | true =>
    obtain ⟨b1, b2, b3, b4⟩ := h3 hk
    exact ⟨b1, b2.trans a1.2.1, fun _ => ⟨(sync_ok h hk).1, b4⟩, fun _ hf => (Bool.false_ne_true (hf.symm.trans b3)).elim⟩
  | false =>
    have e : r.2 = s.sync.2 := by
      cases hr : s.sync.1 with
      | false => rw [h1 hr]
      | true => exact h2 hr hk
    rw [e]
    exact ⟨a1.1, a1.2.1, fun hf => (Bool.false_ne_true (hk.symm.trans hf)).elim, fun ho _ => sync_fails h ho hk⟩

theorem flushImpl_spec {s : AW} (h : s.Inv) {t : FlushType} :
    (s.flushImpl.2.Inv ∧ s.flushImpl.2.arr.length = s.arr.length ∧
    (s.flushImpl.2.ok = true → s.ok = true ∧ (s.flushImpl.2.view, s.flushImpl.2.pos) = (WOp.flush t).after s.flushImpl.1 (s.view, s.pos) ∧
      (WOp.flush t).Possible s.flushImpl.1 (s.view, s.pos)) ∧
    (s.ok = true → s.flushImpl.2.ok = false → s.arr.length < s.view.length)) ∧
    (s.flushImpl.1 = true → s.ok = true ∧ s.flushImpl.2.ok = true ∧ s.flushImpl.2.arr.take s.flushImpl.2.written = s.view ∧
      s.flushImpl.2.written = s.view.length ∧ s.flushImpl.2.pos = s.pos ∧ s.flushImpl.2.seen = s.view) ∧
    (s.flushImpl.2.ok = true → s.flushImpl.1 = true) := by
  obtain ⟨a1, a2⟩ := sync_spec h
  have hv : ∀ hk : s.sync.2.ok = true, ({ s.sync.2 with written := s.sync.2.size, seen := s.sync.2.arr.take s.sync.2.size } : AW).view = s.view ∧
      ({ s.sync.2 with written := s.sync.2.size, seen := s.sync.2.arr.take s.sync.2.size } : AW).pos = s.pos := by
    intro hk
    obtain ⟨c1, c2, c3, c4, c5⟩ := sync_ok h hk
    obtain ⟨v1, v2⟩ := view_behind (s := { s.sync.2 with written := s.sync.2.size, seen := s.sync.2.arr.take s.sync.2.size }) a2 (a1.1.behind a2)
    rw [v1, v2]
    refine ⟨?_, c4⟩
    show s.sync.2.arr.take (max s.sync.2.off (max s.sync.2.off s.sync.2.written)) = s.view
    rw [← c3]
    unfold size
    congr 1
    omega
  refine ⟨sync_step h ?_ ?_ ?_, ?_, ?_⟩
  · intro h1
    unfold flushImpl
    dsimp only
    rw [if_pos h1]
  · intro h1 h2
    unfold flushImpl
    dsimp only
    rw [if_neg (by rw [h1]; nofun), if_pos h2]
  · intro hk
    obtain ⟨c1, c2, c3, c4, c5⟩ := sync_ok h hk
    obtain ⟨w1, w2⟩ := hv hk
    unfold flushImpl
    dsimp only
    rw [if_neg (by rw [c2]; nofun), if_neg (by rw [hk]; nofun)]
    refine ⟨⟨a1.1.off, size_le a1.1, a1.1.older, a1.1.behind⟩, rfl, hk, ?_, rfl⟩
    show (_, _) = (overlay s.view s.pos [], s.pos + 0)
    rw [overlay_nil]
    exact Prod.ext w1 w2
  · intro hf
    unfold flushImpl at hf ⊢
    dsimp only at hf ⊢
    split at hf
    · cases hf
    rename_i h1
    split at hf
    · cases hf
    rename_i h2
    have hk : s.sync.2.ok = true := (Bool.not_eq_false _).mp h2
    obtain ⟨c1, c2, c3, c4, c5⟩ := sync_ok h hk
    rw [if_neg h1, if_neg h2]
    exact ⟨c1, hk, c3, c5, (hv hk).2, c3⟩
  · intro hk
    unfold flushImpl at hk ⊢
    dsimp only at hk ⊢
    by_cases h1 : s.sync.1 = false
    · rw [if_pos h1] at hk
      exact (Bool.false_ne_true ((sync_false h h1).symm.trans hk)).elim
    · rw [if_neg h1] at hk ⊢
      by_cases h2 : s.sync.2.ok = false
      · rw [if_pos h2] at hk
        exact (Bool.false_ne_true (h2.symm.trans hk)).elim
      · rw [if_neg h2]

theorem readModeImpl_spec {s : AW} (h : s.Inv) {q : Nat} :
    (s.readModeImpl.2.Inv ∧ s.readModeImpl.2.arr.length = s.arr.length ∧
    (s.readModeImpl.2.ok = true → s.ok = true ∧ (s.readModeImpl.2.view, s.readModeImpl.2.pos) = (WOp.readMode q).after s.readModeImpl.1 (s.view, s.pos) ∧
      (WOp.readMode q).Possible s.readModeImpl.1 (s.view, s.pos)) ∧
    (s.ok = true → s.readModeImpl.2.ok = false → s.arr.length < s.view.length)) ∧
    (s.readModeImpl.1 = true → s.ok = true ∧ s.readModeImpl.2.seen = s.view) := by
  obtain ⟨a1, a2⟩ := sync_spec h
  refine ⟨sync_step h ?_ ?_ ?_, ?_⟩
  · intro h1
    unfold readModeImpl
    dsimp only
    rw [if_pos h1]
  · intro h1 h2
    unfold readModeImpl
    dsimp only
    rw [if_neg (by rw [h1]; nofun), if_pos h2]
  · intro hk
    obtain ⟨c1, c2, c3, c4, c5⟩ := sync_ok h hk
    unfold readModeImpl
    dsimp only
    rw [if_neg (by rw [c2]; nofun), if_neg (by rw [hk]; nofun)]
    refine ⟨⟨a1.1.off, a1.1.written, a1.1.older, a1.1.behind⟩, rfl, hk, ?_, rfl⟩
    obtain ⟨v1, v2⟩ := view_behind (s := { s.sync.2 with seen := s.sync.2.arr.take s.sync.2.size }) a2 (a1.1.behind a2)
    show (_, _) = (overlay s.view s.pos [], s.pos + 0)
    rw [overlay_nil, v1, v2]
    exact Prod.ext c3 c4
  · intro hf
    unfold readModeImpl at hf ⊢
    dsimp only at hf ⊢
    split at hf
    · cases hf
    rename_i h1
    split at hf
    · cases hf
    rename_i h2
    obtain ⟨c1, c2, c3, c4, c5⟩ := sync_ok h ((Bool.not_eq_false _).mp h2)
    rw [if_neg h1, if_neg h2]
    exact ⟨c1, c3⟩

theorem seekSlow_spec {s : AW} (h : s.Inv) {q : Nat} (hq : q ≠ s.pos) :
    (s.seekSlow q).2.Inv ∧ (s.seekSlow q).2.arr.length = s.arr.length ∧
    ((s.seekSlow q).2.ok = true → s.ok = true ∧ ((s.seekSlow q).2.view, (s.seekSlow q).2.pos) = (WOp.seek q).after (s.seekSlow q).1 (s.view, s.pos) ∧
      (WOp.seek q).Possible (s.seekSlow q).1 (s.view, s.pos)) ∧
    (s.ok = true → (s.seekSlow q).2.ok = false → s.arr.length < s.view.length) := by
  obtain ⟨a1, a2⟩ := sync_spec h
  refine sync_step h ?_ ?_ ?_
  · intro h1
    unfold seekSlow
    dsimp only
    rw [if_pos h1]
  · intro h1 h2
    unfold seekSlow
    dsimp only
    rw [if_neg (by rw [h1]; nofun), if_pos h2]
  · intro hk
    obtain ⟨c1, c2, c3, c4, c5⟩ := sync_ok h hk
    unfold seekSlow
    dsimp only
    rw [if_neg (by rw [c2]; nofun), if_neg (by rw [hk]; nofun)]
    by_cases hs : s.sync.2.size < q
    · rw [if_pos hs]
      refine ⟨⟨size_le a1.1, a1.1.written, fun _ hn => (hn (a1.1.behind a2)).elim, a1.1.behind⟩, rfl, hk, ?_, by rw [← c5]; exact hs, hq⟩
      obtain ⟨v1, v2⟩ := view_behind (s := { s.sync.2 with off := s.sync.2.size }) a2 (a1.1.behind a2)
      show (_, _) = (s.view, s.view.length)
      rw [v1, v2]
      refine Prod.ext ?_ c5
      show s.sync.2.arr.take (max (max s.sync.2.off s.sync.2.written) s.sync.2.written) = s.view
      rw [← c3]
      unfold size
      congr 1
      omega
    · rw [if_neg hs]
      refine ⟨⟨?_, size_le a1.1, fun _ hn => (hn (a1.1.behind a2)).elim, a1.1.behind⟩, rfl, hk, ?_, ?_⟩
      · show q ≤ s.sync.2.arr.length
        have := size_le a1.1
        omega
      · obtain ⟨v1, v2⟩ := view_behind (s := { s.sync.2 with written := s.sync.2.size, off := q }) a2 (a1.1.behind a2)
        show (_, _) = (s.view, q)
        rw [v1, v2]
        refine Prod.ext ?_ rfl
        show s.sync.2.arr.take (max q s.sync.2.size) = s.view
        rw [← c3]
        congr 1
        omega
      · show q ≤ max s.view.length s.pos
        omega

theorem sizeImpl_spec {s : AW} (h : s.Inv) :
    (s.sizeImpl.2.Inv ∧ s.sizeImpl.2.arr.length = s.arr.length ∧
    (s.sizeImpl.2.ok = true → s.ok = true ∧ (s.sizeImpl.2.view, s.sizeImpl.2.pos) = WOp.size.after s.sizeImpl.1.isSome (s.view, s.pos) ∧
      WOp.size.Possible s.sizeImpl.1.isSome (s.view, s.pos)) ∧
    (s.ok = true → s.sizeImpl.2.ok = false → s.arr.length < s.view.length)) ∧
    (∀ n, s.sizeImpl.1 = some n → s.ok = true ∧ n = s.view.length) := by
  obtain ⟨a1, a2⟩ := sync_spec h
  refine ⟨sync_step (r := (s.sizeImpl.1.isSome, s.sizeImpl.2)) h ?_ ?_ ?_, ?_⟩
  · intro h1
    unfold sizeImpl
    dsimp only
    rw [if_pos h1]
    rfl
  · intro h1 h2
    unfold sizeImpl
    dsimp only
    rw [if_neg (by rw [h1]; nofun), if_pos h2]
  · intro hk
    obtain ⟨c1, c2, c3, c4, c5⟩ := sync_ok h hk
    unfold sizeImpl
    dsimp only
    rw [if_neg (by rw [c2]; nofun), if_neg (by rw [hk]; nofun)]
    refine ⟨a1.1, rfl, hk, ?_, rfl⟩
    obtain ⟨v1, v2⟩ := view_behind a2 (a1.1.behind a2)
    show (_, _) = (overlay s.view s.pos [], s.pos + 0)
    rw [overlay_nil, v1, v2]
    exact Prod.ext c3 c4
  · intro n hf
    unfold sizeImpl at hf
    dsimp only at hf
    split at hf
    · cases hf
    split at hf
    · cases hf
    rename_i h2
    obtain ⟨c1, c2, c3, c4, c5⟩ := sync_ok h ((Bool.not_eq_false _).mp h2)
    cases hf
    exact ⟨c1, c5⟩

theorem truncateImpl_spec {s : AW} (h : s.Inv) {n : Nat} :
    (s.truncateImpl n).2.Inv ∧ (s.truncateImpl n).2.arr.length = s.arr.length ∧
    ((s.truncateImpl n).2.ok = true → s.ok = true ∧
      ((s.truncateImpl n).2.view, (s.truncateImpl n).2.pos) = (WOp.truncate n).after (s.truncateImpl n).1 (s.view, s.pos) ∧
      (WOp.truncate n).Possible (s.truncateImpl n).1 (s.view, s.pos)) ∧
    (s.ok = true → (s.truncateImpl n).2.ok = false → s.arr.length < s.view.length) := by
  obtain ⟨a1, a2⟩ := sync_spec h
  refine sync_step h ?_ ?_ ?_
  · intro h1
    unfold truncateImpl
    dsimp only
    rw [if_pos h1]
  · intro h1 h2
    unfold truncateImpl
    dsimp only
    rw [if_neg (by rw [h1]; nofun), if_pos h2]
  · intro hk
    obtain ⟨c1, c2, c3, c4, c5⟩ := sync_ok h hk
    unfold truncateImpl
    dsimp only
    rw [if_neg (by rw [c2]; nofun), if_neg (by rw [hk]; nofun)]
    by_cases hs : s.sync.2.size < n
    · rw [if_pos hs]
      refine ⟨⟨size_le a1.1, a1.1.written, fun _ hn => (hn (a1.1.behind a2)).elim, a1.1.behind⟩, rfl, hk, ?_, by rw [c5] at hs; exact hs⟩
      obtain ⟨v1, v2⟩ := view_behind (s := { s.sync.2 with off := s.sync.2.size }) a2 (a1.1.behind a2)
      show (_, _) = (s.view, s.view.length)
      rw [v1, v2]
      refine Prod.ext ?_ c5
      show s.sync.2.arr.take (max (max s.sync.2.off s.sync.2.written) s.sync.2.written) = s.view
      rw [← c3]
      unfold size
      congr 1
      omega
    · rw [if_neg hs]
      have hl := size_le a1.1
      refine ⟨⟨by show n ≤ s.sync.2.arr.length; omega, by show n ≤ s.sync.2.arr.length; omega, fun _ hn => (hn (a1.1.behind a2)).elim, a1.1.behind⟩, rfl, hk, ?_, ?_⟩
      · obtain ⟨v1, v2⟩ := view_behind (s := { s.sync.2 with written := n, off := n }) a2 (a1.1.behind a2)
        show (_, _) = (resize n s.view, n)
        rw [v1, v2]
        refine Prod.ext ?_ rfl
        show s.sync.2.arr.take (max n n) = resize n s.view
        rw [resize_eq_take (by omega), ← c3, List.take_take]
        congr 1
        omega
      · show n ≤ max s.view.length s.pos
        omega

/-- What a call must do. -/
def Step (op : WOp) (s : AW) (r : Bool × AW) : Prop :=
  r.2.Inv ∧ r.2.arr.length = s.arr.length ∧
  (r.2.ok = true → s.ok = true ∧ (r.2.view, r.2.pos) = op.after r.1 (s.view, s.pos) ∧ op.Possible r.1 (s.view, s.pos)) ∧
  (s.ok = true → r.2.ok = false → s.arr.length < (overlay s.view s.pos op.bytes).length)

theorem Post.step {op : WOp} {s : AW} {r : Bool × AW} (h : Post op.bytes s r)
    (ha : ∀ c p, op.after true (c, p) = (overlay c p op.bytes, p + op.bytes.length)) (hp : ∀ a, op.Possible true a) : Step op s r := by
  obtain ⟨a1, a2, a3, a4⟩ := h
  refine ⟨a1, a2, fun hk => ?_, a4⟩
  obtain ⟨b1, b2, b3, b4⟩ := a3 hk
  rw [b2]
  exact ⟨b1, by rw [ha, b3, b4], hp _⟩

theorem push_spec {n rec : Nat} {s : AW} (h : s.Inv) :
    Post [] s ((ops room).push n rec s) ∧ (((ops room).push n rec s).1 = true → n ≤ ((ops room).push n rec s).2.avail) := by
  unfold WriterOps.push
  split
  · rename_i hn
    exact ⟨self_post h, fun _ => hn⟩
  · obtain ⟨a1, a2⟩ := pushSlow_spec (room := room) (n := n) (rec := rec) h
    refine ⟨a1, fun ht => ?_⟩
    rcases a2 ht with h1 | h1
    · exact h1
    · subst h1; exact Nat.zero_le _

theorem writeRef_spec {fs : List Bytes} {s : AW} (h : s.Inv) : Post fs.flatten s ((ops room).writeRef fs s) := by
  unfold RefOps.writeRef
  split
  · rename_i hb
    exact (put_spec h hb.1).1
  · exact refSlow_spec h

/-- Every public function does what the specification says, or the writer fails because the data do not fit in the array. -/
theorem call_spec {op : WOp} {s : AW} (h : s.Inv) : Step op s ((ops room).call op s) := by
  cases op with
  | push n rec => exact (push_spec h).1.step (op := .push n rec) (fun _ _ => rfl) (fun _ => rfl)
  | writeChar b =>
    refine Post.step (op := .writeChar b) ?_ (fun _ _ => rfl) (fun _ => rfl)
    obtain ⟨a1, a2⟩ := push_spec (room := room) (n := 1) (rec := 0) h
    show Post [b] s ((ops room).writeChar b s)
    unfold WriterOps.writeChar
    dsimp only
    generalize (ops room).push 1 0 s = r at *
    by_cases hr : r.1 = false
    · rw [if_pos hr]
      exact a1.failed [b] (a1.false hr)
    · rw [if_neg hr]
      exact a1.seq (put_spec (bs := [b]) a1.1 (a2 ((Bool.not_eq_false _).mp hr))).1
  | write bs =>
    refine Post.step (op := .write bs) ?_ (fun _ _ => rfl) (fun _ => rfl)
    show Post bs s ((ops room).write bs s)
    unfold WriterOps.write
    split
    · rename_i hb
      exact (put_spec h hb).1
    · exact writeSlow_spec h
  | writeExternal bs =>
    have h1 := writeRef_spec (room := room) (fs := [bs]) h
    rw [List.flatten_singleton] at h1
    exact h1.step (op := .writeExternal bs) (fun _ _ => rfl) (fun _ => rfl)
  | writeChain fs => exact (writeRef_spec (fs := fs) h).step (op := .writeChain fs) (fun _ _ => rfl) (fun _ => rfl)
  | fill n b =>
    refine Post.step (op := .fill n b) ?_ (fun _ _ => rfl) (fun _ => rfl)
    show Post (List.replicate n b) s ((ops room).fill n b s)
    unfold WriterOps.fill
    split
    · rename_i hb
      exact (put_spec h (by rw [List.length_replicate]; exact hb.1)).1
    · exact fillSlow_spec h
  | flush t =>
    obtain ⟨a1, a2, a3, a4⟩ := (flushImpl_spec (t := t) h).1
    refine ⟨a1, a2, a3, fun h1 h2 => ?_⟩
    show s.arr.length < (overlay s.view s.pos []).length
    rw [overlay_nil]
    exact a4 h1 h2
  | seek q =>
    show Step (.seek q) s ((ops room).seek q s)
    unfold WriterOps.seek
    split
    · rename_i hq
      refine ⟨h, rfl, fun hk => ⟨hk, ?_, ?_⟩, fun h1 h2 => (Bool.false_ne_true (h2.symm.trans h1)).elim⟩
      · show (s.view, s.pos) = (s.view, q)
        rw [hq]
        rfl
      · show q ≤ max s.view.length s.pos
        rw [hq]
        exact Nat.le_max_right _ _
    · rename_i hq
      obtain ⟨a1, a2, a3, a4⟩ := seekSlow_spec h hq
      refine ⟨a1, a2, a3, fun h1 h2 => ?_⟩
      show s.arr.length < (overlay s.view s.pos []).length
      rw [overlay_nil]
      exact a4 h1 h2
  | size =>
    obtain ⟨a1, a2, a3, a4⟩ := (sizeImpl_spec h).1
    refine ⟨a1, a2, a3, fun h1 h2 => ?_⟩
    show s.arr.length < (overlay s.view s.pos []).length
    rw [overlay_nil]
    exact a4 h1 h2
  | truncate n =>
    obtain ⟨a1, a2, a3, a4⟩ := truncateImpl_spec (n := n) h
    refine ⟨a1, a2, a3, fun h1 h2 => ?_⟩
    show s.arr.length < (overlay s.view s.pos []).length
    rw [overlay_nil]
    exact a4 h1 h2
  | readMode q =>
    obtain ⟨a1, a2, a3, a4⟩ := (readModeImpl_spec (q := q) h).1
    refine ⟨a1, a2, a3, fun h1 h2 => ?_⟩
    show s.arr.length < (overlay s.view s.pos []).length
    rw [overlay_nil]
    exact a4 h1 h2
  | supportsRandomAccess =>
    refine ⟨h, rfl, fun hk => ⟨hk, ?_, trivial⟩, fun h1 h2 => (Bool.false_ne_true (h2.symm.trans h1)).elim⟩
    show (s.view, s.pos) = (overlay s.view s.pos [], s.pos + 0)
    rw [overlay_nil]
    rfl
  | setWriteSizeHint n =>
    refine ⟨h, rfl, fun hk => ⟨hk, ?_, rfl⟩, fun h1 h2 => (Bool.false_ne_true (h2.symm.trans h1)).elim⟩
    show (s.view, s.pos) = (overlay s.view s.pos [], s.pos + 0)
    rw [overlay_nil]
    rfl

theorem callAll_spec {os : List WOp} {s : AW} (h : s.Inv) :
    let r := s.callAll room os
    r.2.Inv ∧ r.2.arr.length = s.arr.length ∧
    (r.2.ok = true → s.ok = true ∧ (r.2.view, r.2.pos) = WOp.replay os r.1 (s.view, s.pos) ∧ WOp.AllPossible os r.1 (s.view, s.pos)) := by
  induction os generalizing s with
  | nil => exact ⟨h, rfl, fun hk => ⟨hk, rfl, trivial⟩⟩
  | cons op os ih =>
    obtain ⟨a1, a2, a3, -⟩ := call_spec (room := room) (op := op) h
    obtain ⟨b1, b2, b3⟩ := ih a1
    refine ⟨b1, b2.trans a2, fun hk => ?_⟩
    obtain ⟨c1, c2, c3⟩ := b3 hk
    obtain ⟨d1, d2, d3⟩ := a3 c1
    rw [d2] at c2 c3
    exact ⟨d1, c2, d3, c3⟩

theorem init_inv (d : Bytes) : (init d).Inv := ⟨Nat.zero_le _, Nat.zero_le _, fun _ h => (h rfl).elim, fun _ => rfl⟩

theorem init_view (d : Bytes) : ((init d).view, (init d).pos) = ([], 0) := by
  obtain ⟨v1, v2⟩ := view_behind (s := init d) rfl rfl
  rw [v1, v2]
  rfl

end AW
end Riegeli.Wtr

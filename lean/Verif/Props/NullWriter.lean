import Verif.NullWriter
/-!
# C66: `NullWriter`

The specification is that of a writer of a sequence of bytes (`WOp.replay`, `WOp.AllPossible` in `Verif/Writer.lean`), as for writers which store data.
`room` are arbitrary sizes of buffers.
-/
namespace Riegeli.Props
open Riegeli Wtr

section
variable {kMax : Nat} {room : Nat → Nat → Nat → Nat}

/-- The invariant. -/
structure NWInv (kMax : Nat) (s : NW) : Prop where
  len : s.len ≤ s.lim
  lim : s.start + s.lim ≤ kMax
  written : s.written ≤ kMax
  failed : s.ok = false → s.lim = 0

/-- The writer agrees with the contents and the position of the specification. -/
def NWRel (s : NW) (a : Bytes × Nat) : Prop := s.pos = a.2 ∧ s.size = a.1.length

theorem nw_overlay {c bs : Bytes} {p : Nat} (h : p ≤ c.length) : (overlay c p bs).length = max c.length (p + bs.length) := by
  by_cases hb : bs = []
  · subst hb; rw [overlay_nil]; show c.length = max c.length p; omega
  · exact overlay_length hb

theorem nw_resize (n : Nat) (c : Bytes) : (resize n c).length = n := by
  unfold resize; rw [List.length_append, List.length_take, List.length_replicate]; omega

theorem nw_fail {s : NW} (h : s.start ≤ kMax) (hw : s.written ≤ kMax) : NWInv kMax s.fail := ⟨Nat.le_refl _, h, hw, fun _ => rfl⟩

theorem nw_make {n rec : Nat} {s : NW} (ho : s.ok = true) (h : s.start ≤ kMax) (hw : s.written ≤ kMax) :
    NWInv kMax (s.make kMax room n rec).2 ∧ (s.make kMax room n rec).2.ok = (s.make kMax room n rec).1 ∧
    ((s.make kMax room n rec).1 = true → (s.make kMax room n rec).2.pos = s.start ∧ (s.make kMax room n rec).2.written = s.written ∧
      n ≤ (s.make kMax room n rec).2.avail) ∧ ((s.make kMax room n rec).1 = false → kMax < s.start + n) := by
  unfold NW.make
  by_cases hn : kMax - s.start < n
  · rw [if_pos hn]
    exact ⟨nw_fail h hw, rfl, nofun, fun _ => by omega⟩
  · rw [if_neg hn]
    refine ⟨⟨Nat.zero_le _, ?_, hw, fun hf => (Bool.false_ne_true (hf.symm.trans ho)).elim⟩, ho, fun _ => ⟨rfl, rfl, ?_⟩, nofun⟩
    · show s.start + min (max n (room s.tick n rec)) (kMax - s.start) ≤ kMax
      omega
    · show n ≤ min (max n (room s.tick n rec)) (kMax - s.start) - 0
      omega

/-- What writing `n` bytes must do. -/
def NWPost (kMax n : Nat) (s : NW) (r : Bool × NW) : Prop :=
  NWInv kMax r.2 ∧ (r.1 = false → r.2.ok = false) ∧ (r.2.ok = true → s.ok = true ∧ r.1 = true ∧ r.2.pos = s.pos + n ∧ r.2.size = max s.size (s.pos + n)) ∧
  (s.ok = true → r.2.ok = false → kMax < s.pos + n)

theorem nw_bound {s : NW} (h : NWInv kMax s) : s.pos ≤ kMax := by
  have := h.len; have := h.lim
  show s.start + s.len ≤ kMax
  omega

theorem nw_put {bs : Bytes} {s : NW} (h : NWInv kMax s) (hb : bs.length ≤ s.avail) : NWPost kMax bs.length s (true, s.put bs) := by
  have h1 := h.len; have h2 := h.lim
  have hb : bs.length ≤ s.lim - s.len := hb
  refine ⟨⟨?_, h2, h.written, h.failed⟩, nofun, fun ho => ⟨ho, rfl, ?_, ?_⟩, fun h1 h2 => (Bool.false_ne_true (h2.symm.trans h1)).elim⟩
  · show s.len + bs.length ≤ s.lim
    omega
  · show s.start + (s.len + bs.length) = s.start + s.len + bs.length
    omega
  · show max (s.start + (s.len + bs.length)) s.written = max (max (s.start + s.len) s.written) (s.start + s.len + bs.length)
    omega

theorem nw_skip {n : Nat} {s : NW} (h : NWInv kMax s) : NWPost kMax n s (s.skipSlow kMax room n) := by
  have hp := nw_bound h
  unfold NW.skipSlow
  by_cases ho : s.ok = false
  · rw [if_pos ho]
    exact ⟨h, fun _ => ho, fun h1 => (Bool.false_ne_true (ho.symm.trans h1)).elim, fun h1 => (Bool.false_ne_true (ho.symm.trans h1)).elim⟩
  · have ho := (Bool.not_eq_false _).mp ho
    rw [if_neg (by rw [ho]; decide)]
    dsimp only
    by_cases hn : kMax - s.sync.start < n
    · rw [if_pos hn]
      have hn : kMax - s.pos < n := hn
      exact ⟨nw_fail hp h.written, fun _ => rfl, nofun, fun _ _ => by omega⟩
    · rw [if_neg hn]
      have hn : ¬ kMax - s.pos < n := hn
      obtain ⟨a1, a2, a3, a4⟩ := nw_make (kMax := kMax) (room := room) (n := 0) (rec := 0) (s := { s.sync with start := s.sync.start + n }) ho
        (show s.pos + n ≤ kMax by omega) h.written
      generalize NW.make kMax room 0 0 { s.sync with start := s.sync.start + n } = r at *
      refine ⟨a1, fun hf => a2.trans hf, fun hk => ?_, fun _ hf => ?_⟩
      · obtain ⟨b1, b2, -⟩ := a3 (a2.symm.trans hk)
        have b1 : r.2.pos = s.pos + n := b1
        have b2 : r.2.written = s.written := b2
        refine ⟨ho, a2.symm.trans hk, b1, ?_⟩
        show max r.2.pos r.2.written = max (max s.pos s.written) (s.pos + n)
        rw [b1, b2]; omega
      · have := a4 (a2.symm.trans hf)
        have : kMax < s.pos + n + 0 := this
        omega

theorem nw_push {n rec : Nat} {s : NW} (h : NWInv kMax s) :
    NWInv kMax ((NW.ops kMax room).push n rec s).2 ∧
    (((NW.ops kMax room).push n rec s).1 = true → n ≤ ((NW.ops kMax room).push n rec s).2.avail ∧ ((NW.ops kMax room).push n rec s).2.ok = s.ok ∧
      ((NW.ops kMax room).push n rec s).2.pos = s.pos ∧ ((NW.ops kMax room).push n rec s).2.size = s.size) ∧
    (((NW.ops kMax room).push n rec s).1 = false → ((NW.ops kMax room).push n rec s).2.ok = false ∧ (s.ok = true → kMax < s.pos + n)) := by
  have hp := nw_bound h
  unfold WriterOps.push
  by_cases hn : n ≤ (NW.ops kMax room).avail s
  · rw [if_pos hn]
    exact ⟨h, fun _ => ⟨hn, rfl, rfl, rfl⟩, nofun⟩
  · rw [if_neg hn]
    show NWInv kMax (s.pushSlow kMax room n rec).2 ∧ ((s.pushSlow kMax room n rec).1 = true → n ≤ (s.pushSlow kMax room n rec).2.avail ∧
      (s.pushSlow kMax room n rec).2.ok = s.ok ∧ (s.pushSlow kMax room n rec).2.pos = s.pos ∧ (s.pushSlow kMax room n rec).2.size = s.size) ∧
      ((s.pushSlow kMax room n rec).1 = false → (s.pushSlow kMax room n rec).2.ok = false ∧ (s.ok = true → kMax < s.pos + n))
    unfold NW.pushSlow
    by_cases ho : s.ok = false
    · rw [if_pos ho]
      exact ⟨h, nofun, fun _ => ⟨ho, fun h1 => (Bool.false_ne_true (ho.symm.trans h1)).elim⟩⟩
    · have ho := (Bool.not_eq_false _).mp ho
      rw [if_neg (by rw [ho]; decide)]
      obtain ⟨a1, a2, a3, a4⟩ := nw_make (kMax := kMax) (room := room) (n := n) (rec := rec) (s := s.sync) ho hp h.written
      generalize NW.make kMax room n rec s.sync = r at *
      refine ⟨a1, fun hk => ?_, fun hf => ⟨a2.trans hf, fun _ => a4 hf⟩⟩
      obtain ⟨b1, b2, b3⟩ := a3 hk
      have b1 : r.2.pos = s.pos := b1
      refine ⟨b3, (a2.trans hk).trans ho.symm, b1, ?_⟩
      show max r.2.pos r.2.written = max s.pos s.written
      rw [b1, show r.2.written = s.written from b2]

/-- What a call must do. -/
def NWCall (kMax : Nat) (op : WOp) (s : NW) (r : Bool × NW) : Prop :=
  NWInv kMax r.2 ∧ (r.2.ok = true → s.ok = true ∧ ∀ a, NWRel s a → op.Possible r.1 a ∧ NWRel r.2 (op.after r.1 a)) ∧
  (s.ok = true → r.2.ok = false → kMax < s.pos + op.needs ∨ ∃ q, op = .readMode q)

theorem nw_rel_le {s : NW} {a : Bytes × Nat} (h : NWRel s a) : a.2 ≤ a.1.length := by
  obtain ⟨h1, h2⟩ := h
  rw [← h1, ← h2]
  show s.pos ≤ max s.pos s.written
  omega

theorem nw_of_post {op : WOp} {s : NW} {r : Bool × NW} (hn : op.needs = op.bytes.length)
    (hp : ∀ a, op.Possible true a) (ha : ∀ a, op.after true a = (overlay a.1 a.2 op.bytes, a.2 + op.bytes.length))
    (h : NWPost kMax op.bytes.length s r) : NWCall kMax op s r := by
  obtain ⟨h1, -, h2, h3⟩ := h
  refine ⟨h1, fun hk => ?_, fun ho hf => .inl (by rw [hn]; exact h3 ho hf)⟩
  obtain ⟨b1, b2, b3, b4⟩ := h2 hk
  refine ⟨b1, fun a hr => ?_⟩
  rw [b2, ha]
  have hl := nw_rel_le hr
  refine ⟨hp a, b3.trans (by rw [hr.1]), ?_⟩
  rw [b4, hr.1, hr.2]
  exact (nw_overlay hl).symm

theorem nw_same {op : WOp} {s : NW} {b : Bool} (h : NWInv kMax s) (hp : s.ok = true → ∀ a, op.Possible b a) (ha : ∀ a, op.after b a = a) :
    NWCall kMax op s (b, s) :=
  ⟨h, fun hk => ⟨hk, fun a hr => ⟨hp hk a, by rw [ha]; exact hr⟩⟩, fun h1 h2 => (Bool.false_ne_true (h2.symm.trans h1)).elim⟩

theorem nw_dead {op : WOp} {s : NW} {b : Bool} (h : NWInv kMax s) (ho : s.ok = false) : NWCall kMax op s (b, s) :=
  ⟨h, fun hk => (Bool.false_ne_true (ho.symm.trans hk)).elim, fun h1 => (Bool.false_ne_true (ho.symm.trans h1)).elim⟩

theorem nw_write_post {n : Nat} {bs : Bytes} {s : NW} {c : Prop} [Decidable c] (h : NWInv kMax s) (hn : bs.length = n) (hc : c → bs.length ≤ s.avail) :
    NWPost kMax n s (if c then (true, s.put bs) else s.skipSlow kMax room n) := by
  subst hn
  split
  · rename_i h1; exact nw_put h (hc h1)
  · exact nw_skip h

theorem nw_call {op : WOp} {s : NW} (h : NWInv kMax s) : NWCall kMax op s ((NW.ops kMax room).call op s) := by
  have hp := nw_bound h
  have hw := h.written
  cases op with
  | push n rec =>
    obtain ⟨a1, a2, a3⟩ := nw_push (room := room) (n := n) (rec := rec) h
    show NWCall kMax _ s ((NW.ops kMax room).push n rec s)
    generalize (NW.ops kMax room).push n rec s = r at *
    cases hr : r.1 with
    | false =>
      obtain ⟨b1, b2⟩ := a3 hr
      exact ⟨a1, fun hk => (Bool.false_ne_true (b1.symm.trans hk)).elim, fun h1 _ => .inl (b2 h1)⟩
    | true =>
      obtain ⟨b1, b2, b3, b4⟩ := a2 hr
      refine ⟨a1, fun hk => ⟨b2.symm.trans hk, fun a hra => ?_⟩, fun h1 h2 => (Bool.false_ne_true ((h2.symm.trans b2).trans h1)).elim⟩
      rw [hr]
      refine ⟨rfl, b3.trans hra.1, ?_⟩
      show r.2.size = (overlay a.1 a.2 []).length
      rw [overlay_nil]
      exact b4.trans hra.2
  | writeChar b =>
    refine nw_of_post rfl (fun _ => rfl) (fun _ => rfl) ?_
    show NWPost kMax 1 s ((NW.ops kMax room).writeChar b s)
    obtain ⟨a1, a2, a3⟩ := nw_push (room := room) (n := 1) (rec := 0) h
    unfold WriterOps.writeChar
    dsimp only
    generalize (NW.ops kMax room).push 1 0 s = r at *
    cases hr : r.1 with
    | false =>
      rw [if_pos rfl]
      obtain ⟨b1, b2⟩ := a3 hr
      exact ⟨a1, fun _ => b1, fun hk => (Bool.false_ne_true (b1.symm.trans hk)).elim, fun h1 _ => b2 h1⟩
    | true =>
      rw [if_neg (by decide)]
      obtain ⟨b1, b2, b3, b4⟩ := a2 hr
      have hq := nw_put (bs := [b]) a1 b1
      unfold NWPost at hq ⊢
      rw [b2, b3, b4] at hq
      exact hq
  | write bs =>
    refine nw_of_post rfl (fun _ => rfl) (fun _ => rfl) ?_
    exact nw_write_post h rfl id
  | writeExternal bs =>
    refine nw_of_post rfl (fun _ => rfl) (fun _ => rfl) ?_
    have := nw_write_post (room := room) (n := bs.length) (bs := [bs].flatten) (s := s)
      (c := [bs].flatten.length ≤ (NW.ops kMax room).avail s ∧ [bs].flatten.length ≤ kMaxBytesToCopy) h (by simp) fun h1 => h1.1
    have e : [bs].flatten.length = bs.length := by simp
    show NWPost kMax bs.length s (if _ then _ else s.skipSlow kMax room [bs].flatten.length)
    rw [e] at this ⊢
    exact this
  | writeChain fs =>
    refine nw_of_post rfl (fun _ => rfl) (fun _ => rfl) ?_
    exact nw_write_post h rfl fun h1 => h1.1
  | fill n b =>
    refine nw_of_post rfl (fun _ => rfl) (fun _ => rfl) ?_
    show NWPost kMax (List.replicate n b).length s _
    rw [List.length_replicate]
    exact nw_write_post h (by rw [List.length_replicate]) fun h1 => by rw [List.length_replicate]; exact h1.1
  | flush t => exact nw_same h (fun ho _ => ho) fun a => by show (overlay a.1 a.2 [], a.2 + 0) = a; rw [overlay_nil]; rfl
  | seek q =>
    show NWCall kMax _ s ((NW.ops kMax room).seek q s)
    unfold WriterOps.seek
    by_cases hq : q = (NW.ops kMax room).pos s
    · rw [if_pos hq]
      have hq : q = s.pos := hq
      refine ⟨h, fun hk => ⟨hk, fun a hr => ⟨?_, hq.symm, hr.2⟩⟩, fun h1 h2 => (Bool.false_ne_true (h2.symm.trans h1)).elim⟩
      show q ≤ max a.1.length a.2
      have := hr.1
      omega
    · rw [if_neg hq]
      have hq : ¬ q = s.pos := hq
      show NWCall kMax _ s (s.seekSlow kMax room q)
      unfold NW.seekSlow
      by_cases ho : s.ok = false
      · rw [if_pos ho]; exact nw_dead h ho
      · have ho := (Bool.not_eq_false _).mp ho
        rw [if_neg (by rw [ho]; decide)]
        have hsz : s.size ≤ kMax := Nat.max_le.mpr ⟨hp, hw⟩
        have h1 := h.len
        by_cases hc : s.start ≤ q ∧ q ≤ s.pos
        · rw [if_pos hc]
          have hc2 : q ≤ s.start + s.len := hc.2
          refine ⟨⟨?_, h.lim, hsz, h.failed⟩, fun _ => ⟨ho, fun a hr => ⟨?_, ?_, ?_⟩⟩, fun _ h2 => (Bool.false_ne_true (h2.symm.trans ho)).elim⟩
          · show q - s.start ≤ s.lim
            omega
          · show q ≤ max a.1.length a.2
            have := hr.1
            omega
          · show s.start + (q - s.start) = q
            omega
          · show max (s.start + (q - s.start)) s.size = a.1.length
            rw [← hr.2]
            have : s.pos ≤ s.size := Nat.le_max_left _ _
            omega
        · rw [if_neg hc]
          by_cases hs : s.size < q
          · rw [if_pos hs]
            obtain ⟨a1, a2, a3, a4⟩ := nw_make (kMax := kMax) (room := room) (n := 0) (rec := 0) (s := { s with start := s.size }) ho hsz hw
            generalize NW.make kMax room 0 0 { s with start := s.size } = r at *
            refine ⟨a1, fun hk => ⟨ho, fun a hr => ⟨⟨?_, ?_⟩, ?_, ?_⟩⟩, fun _ hf => ?_⟩
            · rw [← hr.2]; exact hs
            · rw [← hr.1]; exact hq
            · obtain ⟨b1, b2, -⟩ := a3 (a2.symm.trans hk)
              exact Eq.trans b1 hr.2
            · obtain ⟨b1, b2, -⟩ := a3 (a2.symm.trans hk)
              show max r.2.pos r.2.written = a.1.length
              rw [show r.2.pos = s.size from b1, show r.2.written = s.written from b2, ← hr.2]
              exact Nat.max_eq_left (Nat.le_max_right _ _)
            · have : kMax < s.size + 0 := a4 (a2.symm.trans hf)
              omega
          · rw [if_neg hs]
            obtain ⟨a1, a2, a3, a4⟩ := nw_make (kMax := kMax) (room := room) (n := 0) (rec := 0) (s := { s with written := s.size, start := q }) ho
              (show q ≤ kMax by omega) hsz
            generalize NW.make kMax room 0 0 { s with written := s.size, start := q } = r at *
            have e : r.1 = true := by
              cases hr : r.1 with
              | true => rfl
              | false =>
                have : kMax < q + 0 := a4 hr
                omega
            obtain ⟨b1, b2, -⟩ := a3 e
            refine ⟨a1, fun hk => ⟨ho, fun a hr => ?_⟩, fun _ hf => (Bool.false_ne_true ((hf.symm.trans a2).trans e)).elim⟩
            rw [e]
            refine ⟨?_, b1, ?_⟩
            · show q ≤ max a.1.length a.2
              have := hr.2
              omega
            · show max r.2.pos r.2.written = a.1.length
              rw [show r.2.pos = q from b1, show r.2.written = s.size from b2, ← hr.2]
              omega
  | size =>
    show NWCall kMax _ s ((s.sizeImpl).1.isSome, (s.sizeImpl).2)
    unfold NW.sizeImpl
    by_cases ho : s.ok = false
    · rw [if_pos ho]; exact nw_dead h ho
    · have ho := (Bool.not_eq_false _).mp ho
      rw [if_neg (by rw [ho]; decide)]; exact nw_same h (fun _ _ => rfl) fun a => by show (overlay a.1 a.2 [], a.2 + 0) = a; rw [overlay_nil]; rfl
  | truncate q =>
    show NWCall kMax _ s (s.truncateImpl kMax room q)
    unfold NW.truncateImpl
    by_cases ho : s.ok = false
    · rw [if_pos ho]; exact nw_dead h ho
    · have ho := (Bool.not_eq_false _).mp ho
      rw [if_neg (by rw [ho]; decide)]
      have hsz : s.size ≤ kMax := Nat.max_le.mpr ⟨hp, hw⟩
      have h1 := h.len
      have h2 := h.lim
      by_cases hc : s.start ≤ q ∧ q ≤ s.pos
      · rw [if_pos hc]
        have hc2 : q ≤ s.start + s.len := hc.2
        refine ⟨⟨?_, h.lim, ?_, h.failed⟩, fun _ => ⟨ho, fun a hr => ⟨?_, ?_, ?_⟩⟩, fun _ h2 => (Bool.false_ne_true (h2.symm.trans ho)).elim⟩
        · show q - s.start ≤ s.lim
          omega
        · show q ≤ kMax
          omega
        · show q ≤ max a.1.length a.2
          have := hr.1
          omega
        · show s.start + (q - s.start) = q
          omega
        · show max (s.start + (q - s.start)) q = (resize q a.1).length
          rw [nw_resize]
          omega
      · rw [if_neg hc]
        by_cases hs : s.size < q
        · rw [if_pos hs]
          obtain ⟨a1, a2, a3, a4⟩ := nw_make (kMax := kMax) (room := room) (n := 0) (rec := 0) (s := { s with start := s.size }) ho hsz hw
          generalize NW.make kMax room 0 0 { s with start := s.size } = r at *
          refine ⟨a1, fun hk => ⟨ho, fun a hr => ⟨?_, ?_, ?_⟩⟩, fun _ hf => ?_⟩
          · show a.1.length < q
            rw [← hr.2]; exact hs
          · obtain ⟨b1, b2, -⟩ := a3 (a2.symm.trans hk)
            exact Eq.trans b1 hr.2
          · obtain ⟨b1, b2, -⟩ := a3 (a2.symm.trans hk)
            show max r.2.pos r.2.written = a.1.length
            rw [show r.2.pos = s.size from b1, show r.2.written = s.written from b2, ← hr.2]
            exact Nat.max_eq_left (Nat.le_max_right _ _)
          · have : kMax < s.size + 0 := a4 (a2.symm.trans hf)
            omega
        · rw [if_neg hs]
          obtain ⟨a1, a2, a3, a4⟩ := nw_make (kMax := kMax) (room := room) (n := 0) (rec := 0) (s := { s with written := q, start := q }) ho
            (show q ≤ kMax by omega) (show q ≤ kMax by omega)
          generalize NW.make kMax room 0 0 { s with written := q, start := q } = r at *
          have e : r.1 = true := by
            cases hr : r.1 with
            | true => rfl
            | false =>
              have : kMax < q + 0 := a4 hr
              omega
          obtain ⟨b1, b2, -⟩ := a3 e
          refine ⟨a1, fun hk => ⟨ho, fun a hr => ?_⟩, fun _ hf => (Bool.false_ne_true ((hf.symm.trans a2).trans e)).elim⟩
          rw [e]
          refine ⟨?_, b1, ?_⟩
          · show q ≤ max a.1.length a.2
            have := hr.2
            omega
          · show max r.2.pos r.2.written = (resize q a.1).length
            rw [show r.2.pos = q from b1, show r.2.written = q from b2, nw_resize]
            omega
  | readMode q =>
    show NWCall kMax _ s (false, if s.ok = true then s.fail else s)
    have hs : s.start ≤ kMax := Nat.le_trans (Nat.le_add_right _ _) hp
    by_cases ho : s.ok = false
    · rw [if_neg (by rw [ho]; decide)]; exact nw_dead h ho
    · have ho := (Bool.not_eq_false _).mp ho
      rw [if_pos ho]; exact ⟨nw_fail hs hw, nofun, fun _ _ => .inr ⟨q, rfl⟩⟩
  | supportsRandomAccess => exact nw_same h (fun _ _ => trivial) fun a => by show (overlay a.1 a.2 [], a.2 + 0) = a; rw [overlay_nil]; rfl
  | setWriteSizeHint n => exact nw_same h (fun _ _ => rfl) fun a => by show (overlay a.1 a.2 [], a.2 + 0) = a; rw [overlay_nil]; rfl

theorem nw_callAll {ops : List WOp} {s : NW} (h : NWInv kMax s) :
    NWInv kMax ((NW.ops kMax room).callAll ops s).2 ∧ (((NW.ops kMax room).callAll ops s).2.ok = true → s.ok = true ∧ ∀ a, NWRel s a →
      NWRel ((NW.ops kMax room).callAll ops s).2 (WOp.replay ops ((NW.ops kMax room).callAll ops s).1 a) ∧
      WOp.AllPossible ops ((NW.ops kMax room).callAll ops s).1 a) := by
  induction ops generalizing s with
  | nil => exact ⟨h, fun ho => ⟨ho, fun a hr => ⟨hr, trivial⟩⟩⟩
  | cons op ops ih =>
    obtain ⟨a1, a2, -⟩ := nw_call (room := room) (op := op) h
    obtain ⟨b1, b2⟩ := ih a1
    refine ⟨b1, fun ho => ?_⟩
    obtain ⟨c1, c2⟩ := b2 ho
    obtain ⟨d1, d2⟩ := a2 c1
    refine ⟨d1, fun a hr => ?_⟩
    obtain ⟨e1, e2⟩ := d2 a hr
    obtain ⟨f1, f2⟩ := c2 _ e2
    exact ⟨f1, e1, f2⟩

theorem nw_init (kMax : Nat) : NWInv kMax NW.init ∧ NWRel NW.init ([], 0) :=
  ⟨⟨Nat.le_refl _, Nat.zero_le _, Nat.zero_le _, fun _ => rfl⟩, rfl, rfl⟩

end

section
variable (kMax : Nat) (room : Nat → Nat → Nat → Nat) (ops : List WOp)

/-- **C66.** In any history of calls of a `NullWriter` which did not fail, all results are as for a writer of a sequence of bytes, and `pos()` is right. -/
theorem C66_history :
    let r := (NW.ops kMax room).callAll ops NW.init
    r.2.ok = true → r.2.pos = (WOp.replay ops r.1 ([], 0)).2 ∧ WOp.AllPossible ops r.1 ([], 0) := by
  intro r ho
  obtain ⟨-, a2⟩ := nw_callAll (room := room) (ops := ops) (nw_init kMax).1
  obtain ⟨-, b⟩ := a2 ho
  obtain ⟨b1, b2⟩ := b _ (nw_init kMax).2
  exact ⟨b1.1, b2⟩

/-- **C66.** `Size()` is the size of the contents which a writer storing data would have. -/
theorem C66_size :
    let r := (NW.ops kMax room).callAll ops NW.init
    r.2.ok = true → r.2.sizeImpl = (some (WOp.replay ops r.1 ([], 0)).1.length, r.2) := by
  intro r ho
  obtain ⟨-, a2⟩ := nw_callAll (room := room) (ops := ops) (nw_init kMax).1
  obtain ⟨-, b⟩ := a2 ho
  obtain ⟨b1, b2⟩ := b _ (nw_init kMax).2
  unfold NW.sizeImpl
  rw [if_neg (by rw [ho]; decide), b1.2]

/-- **C66.** In any history, including after a failure, the position, the buffer, and the size do not exceed the maximal position, and a failed writer has no
buffer. -/
theorem C66_in_bounds :
    let r := (NW.ops kMax room).callAll ops NW.init
    r.2.pos + r.2.avail ≤ kMax ∧ (∀ n, r.2.sizeImpl.1 = some n → n ≤ kMax) ∧ (r.2.ok = false → r.2.avail = 0) := by
  intro r
  obtain ⟨a1, -⟩ := nw_callAll (room := room) (ops := ops) (nw_init kMax).1
  have h1 : r.2.len ≤ r.2.lim := a1.len
  have h2 : r.2.start + r.2.lim ≤ kMax := a1.lim
  have h3 : r.2.written ≤ kMax := a1.written
  refine ⟨?_, fun n hn => ?_, fun ho => ?_⟩
  · show r.2.start + r.2.len + (r.2.lim - r.2.len) ≤ kMax
    omega
  · unfold NW.sizeImpl at hn
    split at hn
    · cases hn
    · cases hn
      show max (r.2.start + r.2.len) r.2.written ≤ kMax
      omega
  · show r.2.lim - r.2.len = 0
    have : r.2.lim = 0 := a1.failed ho
    omega

/-- **C66.** A call makes a `NullWriter` fail only if the position would exceed the maximal position, or if it is `ReadMode()`, which is not supported. -/
theorem C66_fails_only_with_a_reason (op : WOp) :
    let r := (NW.ops kMax room).callAll ops NW.init
    r.2.ok = true → ((NW.ops kMax room).call op r.2).2.ok = false → kMax < r.2.pos + op.needs ∨ ∃ q, op = .readMode q := by
  intro r ho hf
  obtain ⟨a1, -⟩ := nw_callAll (room := room) (ops := ops) (nw_init kMax).1
  exact (nw_call a1).2.2 ho hf

/-- **C66.** A call which would make the position exceed the maximal position fails: positions do not wrap around. -/
theorem C66_overflow_fails (op : WOp) :
    let r := (NW.ops kMax room).callAll ops NW.init
    let s := (NW.ops kMax room).call op r.2
    r.2.ok = true → op.Appends = true → kMax < r.2.pos + op.bytes.length → s.2.ok = false := by
  intro r s ho hap hlt
  obtain ⟨a1, a2⟩ := nw_callAll (room := room) (ops := ops) (nw_init kMax).1
  obtain ⟨-, b⟩ := a2 ho
  obtain ⟨b1, -⟩ := b _ (nw_init kMax).2
  obtain ⟨c1, c2, -⟩ := nw_call (room := room) (op := op) a1
  cases hk : s.2.ok with
  | false => rfl
  | true =>
    obtain ⟨-, d⟩ := c2 hk
    obtain ⟨-, d2⟩ := d _ b1
    have hp : s.2.pos ≤ kMax := nw_bound c1
    have : s.2.pos = r.2.pos + op.bytes.length := by
      refine Eq.trans d2.1 ?_
      rw [show r.2.pos = _ from b1.1]
      cases op <;> first | rfl | exact (Bool.false_ne_true hap).elim
    omega

/-- Which calls must return `false` for a failed writer at position `p`: all which need something from the writer. -/
def nwMustFail (p : Nat) : WOp → Prop
  | .push n _ => 0 < n
  | .seek q => q ≠ p
  | .flush _ => True
  | .size => True
  | .truncate _ => True
  | .readMode _ => True
  | .supportsRandomAccess => False
  | .setWriteSizeHint _ => False
  | op => op.bytes ≠ []

/-- **C66.** A failed `NullWriter` stays failed, and its calls return `false`; in particular `Flush()` never hides a failure. -/
theorem C66_failure_stays (op : WOp) :
    let r := (NW.ops kMax room).callAll ops NW.init
    let s := (NW.ops kMax room).call op r.2
    r.2.ok = false → s.2.ok = false ∧ (nwMustFail r.2.pos op → s.1 = false) := by
  intro r s ho
  obtain ⟨a1, -⟩ := nw_callAll (room := room) (ops := ops) (nw_init kMax).1
  obtain ⟨c1, c2, -⟩ := nw_call (room := room) (op := op) a1
  refine ⟨?_, ?_⟩
  · cases hk : s.2.ok with
    | false => rfl
    | true => exact (Bool.false_ne_true (ho.symm.trans (c2 hk).1)).elim
  have hav : (NW.ops kMax room).avail r.2 = 0 := by
    show r.2.lim - r.2.len = 0
    have : r.2.lim = 0 := a1.failed ho
    omega
  have skip : ∀ n, (r.2.skipSlow kMax room n).1 = false := fun n => by unfold NW.skipSlow; rw [if_pos ho]
  have push : ∀ n rec, 0 < n → ((NW.ops kMax room).push n rec r.2).1 = false := fun n rec hn => by
    unfold WriterOps.push
    rw [hav, if_neg (by omega)]
    show (r.2.pushSlow kMax room n rec).1 = false
    unfold NW.pushSlow; rw [if_pos ho]
  have ref : ∀ fs : List Bytes, fs.flatten ≠ [] → ((NW.ops kMax room).writeRef fs r.2).1 = false := fun fs hn => by
    unfold RefOps.writeRef
    have := List.length_pos_iff.mpr hn
    rw [hav, if_neg (by omega)]
    exact skip _
  intro hm
  cases op with
  | push n rec => exact push n rec hm
  | writeChar b =>
    show ((NW.ops kMax room).writeChar b r.2).1 = false
    unfold WriterOps.writeChar
    dsimp only
    rw [if_pos (push 1 0 (by decide))]
  | write bs =>
    show ((NW.ops kMax room).write bs r.2).1 = false
    unfold WriterOps.write
    have := List.length_pos_iff.mpr (show bs ≠ [] from hm)
    rw [hav, if_neg (by omega)]
    exact skip _
  | writeExternal bs => exact ref [bs] (by rw [List.flatten_cons, List.flatten_nil, List.append_nil]; exact hm)
  | writeChain fs => exact ref fs hm
  | fill n b =>
    show ((NW.ops kMax room).fill n b r.2).1 = false
    unfold WriterOps.fill
    have h1 : List.replicate n b ≠ [] := hm
    have : n ≠ 0 := fun h0 => h1 (by rw [h0]; rfl)
    rw [hav, if_neg (by omega)]
    exact skip _
  | flush t => exact ho
  | seek q =>
    show ((NW.ops kMax room).seek q r.2).1 = false
    unfold WriterOps.seek
    rw [if_neg (show ¬ q = (NW.ops kMax room).pos r.2 from hm)]
    show (r.2.seekSlow kMax room q).1 = false
    unfold NW.seekSlow; rw [if_pos ho]
  | size =>
    show r.2.sizeImpl.1.isSome = false
    unfold NW.sizeImpl; rw [if_pos ho]; rfl
  | truncate n =>
    show (r.2.truncateImpl kMax room n).1 = false
    unfold NW.truncateImpl; rw [if_pos ho]
  | readMode q => rfl
  | supportsRandomAccess => exact hm.elim
  | setWriteSizeHint n => exact hm.elim

end

/-! ## Concrete cases -/

/-- Calls: writing, seeking back and past the end, truncating, filling. -/
def exNull : List WOp :=
  [.write [1, 2, 3], .push 10 0, .write [4, 5], .seek 1, .size, .writeChain [[6], [7, 8]], .seek 9, .truncate 2, .seek 0, .truncate 7, .fill 300 7, .flush .fromObject,
    .seek 5]

example :
    let r := (NW.ops (2 ^ 64 - 1) (fun t n _ => t % 3 + n)).callAll exNull NW.init
    r.1 = [true, true, true, true, true, true, false, true, true, false, true, true, true] ∧ r.2.ok = true ∧ r.2.pos = 5 ∧
    r.2.sizeImpl.1 = some 302 ∧ WOp.replay [.write [1, 2, 3], .seek 1, .write [4]] [true, true, true] ([], 0) = ([1, 4, 3], 2) := by decide +kernel

/-- Overflow of the position. -/
example :
    let r := (NW.ops 10 (fun t n _ => t % 3 + n)).callAll [.fill 8 0, .push 2 0, .push 3 0, .write [1]] NW.init
    r.1 = [true, true, false, false] ∧ r.2.ok = false := by decide +kernel

end Riegeli.Props

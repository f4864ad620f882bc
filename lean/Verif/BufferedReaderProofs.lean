import Verif.BufferedReader
/-!
# `BufferedReader` is a lawful reader

If the virtual functions of a derived class meet their contract (`BSrc.Lawful`), then `BufferedReader` meets the contract of `Reader`,
whatever the sizes of buffers.
-/
namespace Riegeli.Rdr

theorem bitCeil_pos (n : Nat) : 0 < bitCeil n := by
  unfold bitCeil; split
  · omega
  · exact Nat.pow_pos (by omega)

theorem roundPos_min (base min rec max' : Nat) (hint : Option Nat) (pos : Nat) (single : Bool) :
    min ≤ roundPos base min rec max' hint pos single := by
  unfold roundPos
  dsimp only
  generalize (if single then applySizeHint base hint pos else base) = base'
  generalize Nat.min (max base' (max min rec)) max' = len
  split
  · exact Nat.le_refl _
  · have hm := bitCeil_pos len
    generalize bitCeil len = m at *
    generalize m - pos % m = r
    split
    · have h1 := Nat.div_add_mod (min - r + (m - 1)) m
      have h2 := Nat.mod_lt (min - r + (m - 1)) hm
      rw [Nat.mul_comm] at h1
      omega
    · omega

theorem Sizer.bufferLength_min (z : Sizer) (o : BufOpts) (exact : Option Nat) (pos min rec : Nat) :
    min ≤ z.bufferLength o exact pos min rec ∨ ∃ e, exact = some e ∧ z.bufferLength o exact pos min rec = e - pos := by
  unfold Sizer.bufferLength
  dsimp only
  have h := roundPos_min (max (pos - z.base) (max z.last o.minSize)) min rec o.maxSize exact pos z.readAll
  generalize roundPos (max (pos - z.base) (max z.last o.minSize)) min rec o.maxSize exact pos z.readAll = len at *
  cases exact with
  | none => exact .inl h
  | some e =>
    dsimp only
    by_cases hl : len ≤ e - pos
    · exact .inl (by rw [show Nat.min len (e - pos) = len from Nat.min_eq_left hl]; exact h)
    · exact .inr ⟨e, rfl, Nat.min_eq_right (by omega)⟩

theorem Sizer.bufferLength_exact (z : Sizer) (o : BufOpts) (e pos min rec : Nat) :
    z.bufferLength o (some e) pos min rec ≤ e - pos := Nat.min_le_right _ _

/-- What `CopyInternal()` must do. -/
def PCopies {τ : Type} (D : Bytes) (E : Prop) (PInv : Phys τ → Prop) (n : Nat) (d : Dest) (p : Phys τ) (r : Bool × Dest × Phys τ) : Prop :=
  PInv r.2.2 ∧ p.limitPos ≤ r.2.2.limitPos ∧ r.2.2.limitPos ≤ p.limitPos + n ∧
  (∃ k, k ≤ r.2.2.limitPos - p.limitPos ∧ r.2.1.written = d.written ++ slice D p.limitPos k ∧
    (r.2.1.ok = true → k = r.2.2.limitPos - p.limitPos)) ∧
  (r.1 = true → r.2.2.limitPos = p.limitPos + n ∧ r.2.1.ok = true) ∧
  (r.1 = false → r.2.1.ok = true → r.2.2.limitPos < p.limitPos + n ∧
    (r.2.2.ok = false ∨ (E ∧ r.2.2.limitPos = D.length))) ∧
  (r.2.1.ok = true → d.ok = true)

/-- The contract of a class derived from `BufferedReader` (`buffered_reader.h:125-156`): it reads the data `D`; `E` says whether the end
of the data is a clean end of the source; `PInv` is the invariant of the class. -/
structure BSrc.Lawful {τ : Type} (S : BSrc τ) (D : Bytes) (E : Prop) (PInv : Phys τ → Prop) : Prop where
  limit : ∀ p, PInv p → p.limitPos ≤ D.length
  exact : ∀ p e, PInv p → p.exact = some e → D.length ≤ e ∧ (D.length = e ↔ E)
  fail : ∀ p, PInv p → PInv { p with ok := false }
  readInternal : ∀ m n p, PInv p → p.ok = true → 0 < m → m ≤ n → (∀ e, p.exact = some e → p.limitPos + n ≤ e) →
    PInv (S.readInternal m n p).2.2 ∧
    (S.readInternal m n p).2.2.limitPos = p.limitPos + (S.readInternal m n p).2.1.length ∧
    (S.readInternal m n p).2.1 = slice D p.limitPos (S.readInternal m n p).2.1.length ∧
    (S.readInternal m n p).2.1.length ≤ n ∧
    ((S.readInternal m n p).1 = true → m ≤ (S.readInternal m n p).2.1.length ∧ (S.readInternal m n p).2.2.ok = true) ∧
    ((S.readInternal m n p).1 = false → (S.readInternal m n p).2.1.length < m ∧
      ((S.readInternal m n p).2.2.ok = false ∨ (E ∧ (S.readInternal m n p).2.2.limitPos = D.length)))
  copyInternal : ∀ n d p r, PInv p → p.ok = true → 0 < n → (∀ e, p.exact = some e → p.limitPos + n ≤ e) →
    S.copyInternal n d p = some r → PCopies D E PInv n d p r
  exactSizeReached : ∀ p, PInv p → PInv (S.exactSizeReached p) ∧ (S.exactSizeReached p).limitPos = p.limitPos ∧
    (p.ok = false → (S.exactSizeReached p).ok = false)
  seekBehind : ∀ q p r, PInv p → q ≠ p.limitPos → S.seekBehind q p = some r → PInv r.2 ∧
    (p.limitPos < q → p.limitPos ≤ r.2.limitPos ∧ r.2.limitPos ≤ q) ∧ (r.1 = true → r.2.limitPos = q) ∧
    (r.1 = false → r.2.ok = false ∨ (E ∧ r.2.limitPos = D.length ∧ D.length < q)) ∧ (p.ok = false → r.2.ok = false)
  rewind : ∀ q p p', PInv p → q ≠ p.limitPos → S.rewind q p = some p' → PInv p' ∧ q < p.limitPos ∧ (p'.ok = true → p'.limitPos ≤ q) ∧
    (p.ok = false → p'.ok = false) ∧ S.randomAccess p = false
  sizeImpl : ∀ p r, PInv p → S.sizeImpl p = some r → PInv r.2 ∧ r.2.limitPos = p.limitPos ∧
    (∀ n, r.1 = some n → (E → n = D.length) ∧ D.length ≤ n) ∧ (r.1 = none → r.2.ok = false) ∧
    (p.ok = false → r.2.ok = false)

/-- The invariant of `BufferedReader`: the buffer holds the data of the source up to its physical position. -/
structure BInv {τ : Type} (D : Bytes) (PInv : Phys τ → Prop) (b : BR τ) : Prop where
  phys : PInv b.phys
  idx : b.idx ≤ b.buf.length
  len : b.buf.length ≤ b.phys.limitPos
  data : b.buf = slice D (b.phys.limitPos - b.buf.length) b.buf.length

namespace BR
variable {τ : Type} {S : BSrc τ} {D : Bytes} {E : Prop} {PInv : Phys τ → Prop}

theorem pos_eq {b : BR τ} (h : BInv D PInv b) : b.pos = b.start + b.idx := by
  have := h.idx; have := h.len; unfold pos start avail; omega

theorem pos_avail {b : BR τ} (h : BInv D PInv b) : b.pos + b.avail = b.phys.limitPos ∧ b.idx + b.avail = b.buf.length := by
  have := h.idx; have := h.len; unfold pos avail; omega

theorem peek_eq {b : BR τ} (h : BInv D PInv b) {n : Nat} (hn : n ≤ b.avail) : b.peek n = slice D b.pos n := by
  have h1 := h.idx; have h2 := h.len
  unfold avail at hn
  rw [peek, h.data, slice_slice (by omega), pos_eq h]
  rfl

theorem move_spec {b : BR τ} (h : BInv D PInv b) {n : Nat} (hn : n ≤ b.avail) :
    BInv D PInv (b.move n) ∧ (b.move n).pos = b.pos + n ∧ (b.move n).phys = b.phys := by
  have h1 := h.idx; have h2 := h.len
  unfold avail at hn
  refine ⟨⟨h.phys, ?_, h.len, h.data⟩, ?_, rfl⟩
  · show b.idx + n ≤ b.buf.length; omega
  · unfold pos avail move; dsimp only; omega

theorem sync_spec {b : BR τ} (h : BInv D PInv b) : BInv D PInv b.sync ∧ b.sync.pos = b.phys.limitPos :=
  ⟨⟨h.phys, Nat.le_refl _, Nat.zero_le _, (slice_zero _ _).symm⟩, rfl⟩

theorem fail_spec (L : S.Lawful D E PInv) {b : BR τ} (h : BInv D PInv b) :
    BInv D PInv b.fail ∧ b.fail.pos = b.pos ∧ b.fail.phys.ok = false :=
  ⟨⟨L.fail _ h.phys, h.idx, h.len, h.data⟩, rfl, rfl⟩

theorem exactSizeReached_spec (L : S.Lawful D E PInv) {b : BR τ} (h : BInv D PInv b) :
    BInv D PInv (b.exactSizeReached S) ∧ (b.exactSizeReached S).pos = b.pos ∧
    (b.exactSizeReached S).phys.limitPos = b.phys.limitPos ∧ (b.exactSizeReached S).avail = b.avail ∧
    (b.phys.ok = false → (b.exactSizeReached S).phys.ok = false) := by
  obtain ⟨e1, e2, e3⟩ := L.exactSizeReached _ h.phys
  refine ⟨⟨e1, h.idx, ?_, ?_⟩, ?_, e2, rfl, e3⟩
  · show _ ≤ (S.exactSizeReached b.phys).limitPos
    rw [e2]; exact h.len
  · show _ = slice D ((S.exactSizeReached b.phys).limitPos - _) _
    rw [e2]; exact h.data
  · show (S.exactSizeReached b.phys).limitPos - _ = _
    rw [e2]; rfl

/-- Having read up to `exact_size()` means that the source ended. -/
theorem exact_end (L : S.Lawful D E PInv) {p : Phys τ} (h : PInv p) {e : Nat} (he : p.exact = some e) (hl : e ≤ p.limitPos) :
    E ∧ p.limitPos = D.length := by
  have h1 := L.limit p h
  obtain ⟨h2, h3⟩ := L.exact p e h he
  exact ⟨h3.1 (by omega), by omega⟩

/-- Dropping the data before the cursor. -/
theorem drop_spec {b : BR τ} (h : BInv D PInv b) :
    BInv D PInv { b with buf := b.buf.drop b.idx, idx := 0 } ∧ BR.avail { b with buf := b.buf.drop b.idx, idx := 0 } = b.avail := by
  have h1 := h.idx; have h2 := h.len
  refine ⟨⟨h.phys, Nat.zero_le _, ?_, ?_⟩, ?_⟩
  · show (b.buf.drop b.idx).length ≤ _
    rw [List.length_drop]; show _ ≤ b.phys.limitPos; omega
  · show b.buf.drop b.idx = slice D (b.phys.limitPos - (b.buf.drop b.idx).length) (b.buf.drop b.idx).length
    have h3 := peek_eq h (Nat.le_refl b.avail)
    have h4 : b.peek b.avail = b.buf.drop b.idx := by
      unfold peek avail slice
      rw [List.take_of_length_le (by rw [List.length_drop]; exact Nat.le_refl _)]
    rw [List.length_drop, ← h4, h3]
    rfl
  · show (b.buf.drop b.idx).length - 0 = _
    rw [List.length_drop]; rfl

theorem fill_spec (L : S.Lawful D E PInv) {b : BR τ} (h : BInv D PInv b) (ho : b.phys.ok = true) {want len : Nat}
    (hw : 0 < want) (hl : 0 < len) (hx : ∀ e, b.phys.exact = some e → b.phys.limitPos + len ≤ e) :
    ∃ k, BInv D PInv (b.fill S want len).2 ∧ (b.fill S want len).2.pos = b.pos ∧ (b.fill S want len).2.avail = b.avail + k ∧
      (b.fill S want len).2.phys.limitPos = b.phys.limitPos + k ∧ k ≤ len ∧
      ((b.fill S want len).1 = true → min want len ≤ k ∧ (b.fill S want len).2.phys.ok = true) ∧
      ((b.fill S want len).1 = false → k < len ∧ ((b.fill S want len).2.phys.ok = false ∨
        (E ∧ (b.fill S want len).2.phys.limitPos = D.length))) ∧
      (k < min want len → (b.fill S want len).1 = false) := by
  unfold fill
  dsimp only
  have hm : min want len ≤ (if b.tolerates S then len else min want len) ∧ 0 < (if b.tolerates S then len else min want len) ∧
      (if b.tolerates S then len else min want len) ≤ len := by split <;> omega
  generalize (if b.tolerates S then len else min want len) = m at *
  obtain ⟨r1, r2, r3, r4, r5, r6⟩ := L.readInternal m len _ h.phys ho hm.2.1 hm.2.2 hx
  generalize S.readInternal m len b.phys = r at *
  have h1 := h.idx; have h2 := h.len
  refine ⟨r.2.1.length, ⟨r1, ?_, ?_, ?_⟩, ?_, ?_, r2, r4, fun hb => ⟨?_, (r5 hb).2⟩, fun hb => ⟨?_, (r6 hb).2⟩, fun hk => ?_⟩
  · show b.idx ≤ (b.buf ++ r.2.1).length
    rw [List.length_append]; omega
  · show (b.buf ++ r.2.1).length ≤ r.2.2.limitPos
    rw [List.length_append]; omega
  · show b.buf ++ r.2.1 = slice D (r.2.2.limitPos - (b.buf ++ r.2.1).length) (b.buf ++ r.2.1).length
    have h3 := h.data
    rw [List.length_append, r2, ← slice_append, Nat.add_sub_add_right, Nat.sub_add_cancel h2, ← r3, ← h3]
  · unfold pos avail; dsimp only; rw [List.length_append]; omega
  · unfold avail; dsimp only; rw [List.length_append]; omega
  · have := (r5 hb).1; omega
  · have := (r6 hb).1; omega
  · cases hb : r.1 with
    | false => rfl
    | true => have := (r5 hb).1; omega

theorem bufferLength_spec (L : S.Lawful D E PInv) {b : BR τ} (h : BInv D PInv b) {m rec : Nat} (hm : 0 < m) :
    (∀ e, b.phys.exact = some e → 0 < b.bufferLength S b.phys.limitPos m rec →
      b.phys.limitPos + b.bufferLength S b.phys.limitPos m rec ≤ e) ∧
    (b.bufferLength S b.phys.limitPos m rec = 0 → E ∧ b.phys.limitPos = D.length) ∧
    (m ≤ b.bufferLength S b.phys.limitPos m rec ∨
      (E → b.phys.limitPos + b.bufferLength S b.phys.limitPos m rec = D.length) ∧
      (b.phys.limitPos + b.bufferLength S b.phys.limitPos m rec ≤ D.length → E ∧ b.phys.limitPos + b.bufferLength S b.phys.limitPos m rec = D.length)) := by
  have h1 := L.limit _ h.phys
  unfold bufferLength
  refine ⟨fun e he hp => ?_, fun hz => ?_, ?_⟩
  · rw [he] at hp ⊢
    have := Sizer.bufferLength_exact b.sizer S.opts e b.phys.limitPos m rec
    omega
  · rcases b.sizer.bufferLength_min S.opts b.phys.exact b.phys.limitPos m rec with h2 | ⟨e, h2, h3⟩
    · omega
    · exact exact_end L h.phys h2 (by omega)
  · rcases b.sizer.bufferLength_min S.opts b.phys.exact b.phys.limitPos m rec with h2 | ⟨e, h2, h3⟩
    · exact .inl h2
    · obtain ⟨h4, h5⟩ := L.exact _ _ h.phys h2
      rw [h3]
      exact .inr ⟨fun hE => by have := h5.2 hE; omega, fun hle => ⟨h5.1 (by omega), by omega⟩⟩

theorem pullSlow_spec (L : S.Lawful D E PInv) {b : BR τ} (h : BInv D PInv b) {n : Nat} (rec : Nat) (hn : b.avail < n) :
    BInv D PInv (b.pullSlow S n rec).2 ∧ (b.pullSlow S n rec).2.pos = b.pos ∧
    ((b.pullSlow S n rec).1 = true → n ≤ (b.pullSlow S n rec).2.avail) ∧
    ((b.pullSlow S n rec).1 = false → (b.pullSlow S n rec).2.avail < n ∧
      ((b.pullSlow S n rec).2.phys.ok = false ∨ (E ∧ (b.pullSlow S n rec).2.phys.limitPos = D.length))) ∧
    (b.phys.ok = false → (b.pullSlow S n rec).2.phys.ok = false) := by
  unfold pullSlow
  split
  · rename_i ho
    exact ⟨h, rfl, by simp, fun _ => ⟨hn, .inl ho⟩, fun _ => ho⟩
  · rename_i ho
    have ho : b.phys.ok = true := by simpa using ho
    dsimp only
    obtain ⟨l1, l2, l3⟩ := bufferLength_spec (S := S) L h (m := n - b.avail) (rec := rec - b.avail) (by omega)
    generalize b.bufferLength S b.phys.limitPos (n - b.avail) (rec - b.avail) = len at *
    split
    · rename_i hz
      obtain ⟨e1, e2, e3, e4, e5⟩ := exactSizeReached_spec L h
      obtain ⟨x1, x2⟩ := l2 hz
      refine ⟨e1, e2, by simp, fun _ => ⟨by rw [e4]; exact hn, .inr ⟨x1, by rw [e3]; exact x2⟩⟩, e5⟩
    · rename_i hz
      have hb : ∃ b' : BR τ, (if S.room b.tick len then b else { b with buf := b.buf.drop b.idx, idx := 0 }) = b' ∧
          BInv D PInv b' ∧ b'.avail = b.avail ∧ b'.phys = b.phys := by
        split
        · exact ⟨b, rfl, h, rfl, rfl⟩
        · exact ⟨_, rfl, (drop_spec h).1, (drop_spec h).2, rfl⟩
      obtain ⟨b', hb', h', ha', hp'⟩ := hb
      rw [hb']
      have hpos : b'.pos = b.pos := by unfold pos; rw [ha', hp']
      rw [← hp'] at l1 l3
      obtain ⟨k, f1, f2, f3, f4, f5, f6, f7, f8⟩ := fill_spec (S := S) L h' (want := n - b.avail) (len := len) (by rw [hp']; exact ho) (by omega)
        (by omega) (fun e he => l1 e he (by omega))
      generalize b'.fill S (n - b.avail) len = r at *
      refine ⟨f1, f2.trans hpos, fun hd => by simpa using hd, fun hd => ?_, fun hd => by rw [ho] at hd; cases hd⟩
      have hd : r.2.avail < n := by simpa using hd
      refine ⟨hd, ?_⟩
      cases hb : r.1 with
      | false => exact (f7 hb).2
      | true =>
        obtain ⟨g1, g2⟩ := f6 hb
        have hlim := L.limit _ f1.phys
        rcases l3 with l3 | ⟨l3, l3'⟩
        · omega
        · have hk : k = len := by omega
          obtain ⟨x1, x2⟩ := l3' (by omega)
          exact .inr ⟨x1, by show r.2.phys.limitPos = _; rw [hp'] at x2 f4; omega⟩

theorem setCursor_spec {b : BR τ} (h : BInv D PInv b) {c : Nat} (h1 : b.start ≤ c) (h2 : c ≤ b.phys.limitPos) :
    BInv D PInv { b with idx := c - b.start } ∧ BR.pos { b with idx := c - b.start } = c := by
  have h3 := h.idx; have h4 := h.len
  unfold start at *
  refine ⟨⟨h.phys, ?_, h.len, h.data⟩, ?_⟩
  · show c - (b.phys.limitPos - b.buf.length) ≤ b.buf.length; omega
  · unfold pos avail; dsimp only; omega

theorem core_avail {b : BR τ} (h : BInv D PInv b) : (core S).avail b = b.avail := by
  have := pos_avail h
  show b.phys.limitPos - b.pos = _
  omega

theorem core_lawful (L : S.Lawful D E PInv) : (core S).Lawful D E (BInv D PInv) where
  window b h := by
    have h1 := h.idx; have h2 := h.len; have h3 := L.limit _ h.phys
    show b.start ≤ b.pos ∧ b.pos ≤ b.phys.limitPos ∧ b.phys.limitPos ≤ D.length
    unfold start pos avail
    omega
  data b h := by
    have h2 := h.len
    show b.buf = slice D (b.phys.limitPos - b.buf.length) (b.phys.limitPos - (b.phys.limitPos - b.buf.length))
    rw [show b.phys.limitPos - (b.phys.limitPos - b.buf.length) = b.buf.length by omega]
    exact h.data
  setCursor b c h h1 h2 := by
    obtain ⟨s1, s2⟩ := setCursor_spec h h1 h2
    exact ⟨s1, s2, rfl, rfl, rfl⟩
  pullSlow b n rec h hn := by
    rw [core_avail h] at hn
    obtain ⟨p1, p2, p3, p4, p5⟩ := pullSlow_spec (S := S) L h rec hn
    have ha := core_avail (S := S) p1
    refine ⟨p1, p2, fun hb => ⟨?_, .inr trivial⟩, fun hb => ⟨?_, (p4 hb).2⟩, p5⟩
    · show n ≤ (core S).avail (b.pullSlow S n rec).2
      rw [ha]; exact p3 hb
    · show (core S).avail (b.pullSlow S n rec).2 < n
      rw [ha]; exact (p4 hb).1
  fail b h := fail_spec L h

theorem direct_spec (L : S.Lawful D E PInv) {p : Phys τ} (h : PInv p) {n : Nat} (hn : 0 < n) :
    (direct n p = none → E ∧ p.limitPos = D.length) ∧
    (∀ k, direct n p = some k → 0 < k ∧ k ≤ n ∧ (∀ e, p.exact = some e → p.limitPos + k ≤ e) ∧
      (k < n → p.limitPos + k ≤ D.length → E ∧ p.limitPos + k = D.length)) := by
  unfold direct
  cases he : p.exact with
  | none => exact ⟨by simp, fun k hk => by cases hk; exact ⟨hn, Nat.le_refl _, by simp, by omega⟩⟩
  | some e =>
    dsimp only
    obtain ⟨x1, x2⟩ := L.exact p e h he
    split
    · rename_i hle
      exact ⟨fun _ => exact_end L h he hle, by simp⟩
    · rename_i hle
      refine ⟨by simp, fun k hk => ?_⟩
      cases hk
      refine ⟨by omega, Nat.min_le_left _ _, fun e' he' => by cases he'; omega, fun h1 h2 => ?_⟩
      have hm : min n (e - p.limitPos) = e - p.limitPos := by omega
      exact ⟨x2.1 (by omega), by omega⟩

/-- What reading functions do. -/
def Reads (D : Bytes) (E : Prop) (PInv : Phys τ → Prop) (S : BSrc τ) (n : Nat) (b : BR τ) (r : Bool × Bytes × BR τ) : Prop :=
  BInv D PInv r.2.2 ∧ (ops S).ReadPost D E n b r ∧ (b.phys.ok = false → r.2.2.phys.ok = false)

theorem Reads.mk {n : Nat} {b : BR τ} {r : Bool × Bytes × BR τ} (h : BInv D PInv r.2.2)
    (h1 : b.pos ≤ r.2.2.pos) (h2 : r.2.1 = slice D b.pos (r.2.2.pos - b.pos)) (h3 : r.1 = true → r.2.2.pos = b.pos + n)
    (h4 : r.1 = false → r.2.2.pos < b.pos + n ∧ (r.2.2.phys.ok = false ∨ (E ∧ r.2.2.pos = D.length)))
    (h5 : b.phys.ok = false → r.2.2.phys.ok = false) : Reads D E PInv S n b r :=
  ⟨h, ⟨h1, h2, fun hb => ⟨h3 hb, .inr trivial⟩, h4⟩, h5⟩

theorem Reads.out {n : Nat} {b : BR τ} {r : Bool × Bytes × BR τ} (h : Reads D E PInv S n b r) :
    BInv D PInv r.2.2 ∧ b.pos ≤ r.2.2.pos ∧ r.2.1 = slice D b.pos (r.2.2.pos - b.pos) ∧ (r.1 = true → r.2.2.pos = b.pos + n) ∧
    (r.1 = false → r.2.2.pos < b.pos + n ∧ (r.2.2.phys.ok = false ∨ (E ∧ r.2.2.pos = D.length))) ∧
    (b.phys.ok = false → r.2.2.phys.ok = false) :=
  ⟨h.1, h.2.1.1, h.2.1.2.1, fun hb => (h.2.1.2.2.1 hb).1, h.2.1.2.2.2, h.2.2⟩

theorem Reads.append {n a : Nat} {b b1 : BR τ} {bs : Bytes} {r : Bool × Bytes × BR τ} (h : Reads D E PInv S (n - a) b1 r)
    (ha : a ≤ n) (hb : bs = slice D b.pos a) (hp : b1.pos = b.pos + a) (ho : b.phys.ok = false → b1.phys.ok = false) :
    Reads D E PInv S n b (r.1, bs ++ r.2.1, r.2.2) := by
  obtain ⟨r1, r2, r3, r4, r5, r6⟩ := h.out
  refine .mk r1 ?_ ?_ ?_ ?_ (fun hf => r6 (ho hf))
  · show b.pos ≤ r.2.2.pos; omega
  · show bs ++ r.2.1 = slice D b.pos (r.2.2.pos - b.pos)
    rw [r3, hb, hp, slice_append]; congr 1; omega
  · intro hb; have := r4 hb; show r.2.2.pos = _; omega
  · intro hb; have := r5 hb; exact ⟨by show r.2.2.pos < _; omega, this.2⟩

theorem Reads.shift {n : Nat} {b b1 : BR τ} {r : Bool × Bytes × BR τ} (h : Reads D E PInv S n b1 r)
    (hp : b1.pos = b.pos) (ho : b.phys.ok = false → b1.phys.ok = false) : Reads D E PInv S n b r := by
  have := Reads.append (a := 0) (bs := []) (b := b) h (Nat.zero_le _) (slice_zero _ _).symm hp ho
  exact this

theorem readEnd_spec {b : BR τ} (h : BInv D PInv b) (n : Nat)
    (hf : b.avail < n → b.phys.ok = false ∨ (E ∧ b.phys.limitPos = D.length)) : Reads D E PInv S n b (b.readEnd n) := by
  unfold readEnd
  have hpa := pos_avail h
  split
  · rename_i hle
    obtain ⟨m1, m2, m3⟩ := move_spec h hle
    refine .mk m1 ?_ ?_ (fun _ => m2) (by simp) (fun ho => by show (b.move n).phys.ok = _; rw [m3]; exact ho)
    · show b.pos ≤ (b.move n).pos; omega
    · show b.peek n = slice D b.pos ((b.move n).pos - b.pos)
      rw [peek_eq h hle, m2, Nat.add_sub_cancel_left]
  · rename_i hle
    obtain ⟨m1, m2, m3⟩ := move_spec h (Nat.le_refl b.avail)
    refine .mk m1 ?_ ?_ (by simp) (fun _ => ⟨?_, ?_⟩) (fun ho => by show (b.move b.avail).phys.ok = _; rw [m3]; exact ho)
    · show b.pos ≤ (b.move b.avail).pos; omega
    · show b.peek b.avail = slice D b.pos ((b.move b.avail).pos - b.pos)
      rw [peek_eq h (Nat.le_refl _), m2, Nat.add_sub_cancel_left]
    · show (b.move b.avail).pos < b.pos + n; omega
    · show (b.move b.avail).phys.ok = false ∨ (E ∧ (b.move b.avail).pos = D.length)
      rw [m3, m2, hpa.1]; exact hf (by omega)

theorem readChars_spec (L : S.Lawful D E PInv) {b : BR τ} (h : BInv D PInv b) {n : Nat} (hn : b.avail < n) :
    Reads D E PInv S n b (b.readChars S n) := by
  unfold readChars
  split
  · have hpa := pos_avail h
    obtain ⟨s1, s2⟩ := sync_spec h
    have hpk := peek_eq h (Nat.le_refl b.avail)
    dsimp only
    have hrd : ∀ r, Reads D E PInv S (n - b.avail) b.sync r → Reads D E PInv S n b (r.1, b.peek b.avail ++ r.2.1, r.2.2) :=
      fun r hr => hr.append (by omega) hpk (by omega) id
    split
    · rename_i ho
      have := hrd (false, [], b.sync) (.mk s1 (Nat.le_refl _) (by rw [Nat.sub_self, slice_zero]) (by simp)
        (fun _ => ⟨by show b.sync.pos < _; omega, .inl ho⟩) id)
      rw [List.append_nil] at this
      exact this
    · rename_i ho
      have ho : b.phys.ok = true := by simpa [sync] using ho
      obtain ⟨d1, d2⟩ := direct_spec (S := S) L s1.phys (n := n - b.avail) (by omega)
      split
      · rename_i hd
        obtain ⟨e1, e2, e3, e4, e5⟩ := exactSizeReached_spec L s1
        obtain ⟨x1, x2⟩ := d1 hd
        have := hrd (false, [], b.sync.exactSizeReached S) (.mk e1 (Nat.le_of_eq e2.symm)
          (by show [] = slice D b.sync.pos (BR.pos (b.sync.exactSizeReached S) - b.sync.pos); rw [e2, Nat.sub_self, slice_zero]) (by simp)
          (fun _ => ⟨by show BR.pos (b.sync.exactSizeReached S) < _; omega, .inr ⟨x1, by
            show BR.pos (b.sync.exactSizeReached S) = _
            have : b.sync.phys = b.phys := rfl
            rw [this] at x2; omega⟩⟩) e5)
        rw [List.append_nil] at this
        exact this
      · rename_i k hd
        obtain ⟨k1, k2, k3, k4⟩ := d2 k hd
        obtain ⟨r1, r2, r3, r4, r5, r6⟩ := L.readInternal k k b.sync.phys s1.phys ho k1 (Nat.le_refl _) k3
        generalize S.readInternal k k b.sync.phys = r at *
        refine hrd (r.1 && decide (n - b.avail ≤ k), r.2.1, { b.sync with phys := r.2.2 }) (.mk ?_ ?_ ?_ ?_ ?_ ?_)
        · exact ⟨r1, Nat.le_refl _, Nat.zero_le _, (slice_zero _ _).symm⟩
        · show b.sync.phys.limitPos - 0 ≤ r.2.2.limitPos - 0; omega
        · show r.2.1 = slice D (b.sync.phys.limitPos - 0) (r.2.2.limitPos - 0 - (b.sync.phys.limitPos - 0))
          rw [Nat.sub_zero, Nat.sub_zero, r2, Nat.add_sub_cancel_left]; exact r3
        · intro hb
          have hb : r.1 = true ∧ n - b.avail ≤ k := by simpa using hb
          have := (r5 hb.1).1
          show r.2.2.limitPos - 0 = b.sync.phys.limitPos - 0 + (n - b.avail)
          omega
        · intro hb
          show r.2.2.limitPos - 0 < b.sync.phys.limitPos - 0 + (n - b.avail) ∧ (r.2.2.ok = false ∨ (E ∧ r.2.2.limitPos - 0 = D.length))
          cases hr : r.1 with
          | false =>
            obtain ⟨g1, g2⟩ := r6 hr
            exact ⟨by omega, g2⟩
          | true =>
            have hb : ¬ n - b.avail ≤ k := by
              intro hle
              have hb : (r.1 && decide (n - b.avail ≤ k)) = false := hb
              rw [hr, decide_eq_true hle] at hb; cases hb
            have := (r5 hr).1
            have hl := L.limit _ r1
            obtain ⟨x1, x2⟩ := k4 (by omega) (by omega)
            exact ⟨by omega, .inr ⟨x1, by omega⟩⟩
        · intro hf
          have hf : b.phys.ok = false := hf
          rw [ho] at hf; cases hf
  · exact (core_lawful L).readChars (n + 1) n h (by rw [core_avail h]; exact hn) ⟨by omega, fun _ => Nat.le_refl _⟩

theorem readBlocks_spec (L : S.Lawful D E PInv) (fuel : Nat) {b : BR τ} (h : BInv D PInv b) {n : Nat} (hf : n - b.avail < fuel) :
    Reads D E PInv S n b (readBlocks S fuel n b) := by
  induction fuel generalizing b n with
  | zero => omega
  | succ fuel ih =>
    unfold readBlocks
    split
    · exact readEnd_spec h n (by omega)
    · rename_i hn
      split
      · rename_i ho
        exact readEnd_spec h n (fun _ => .inl ho)
      · rename_i ho
        have ho : b.phys.ok = true := by simpa using ho
        dsimp only
        obtain ⟨l1, l2, l3⟩ := bufferLength_spec (S := S) L h (m := 1) (rec := n - b.avail) (by omega)
        generalize b.bufferLength S b.phys.limitPos 1 (n - b.avail) = len at *
        split
        · rename_i hc
          obtain ⟨k, f1, f2, f3, f4, f5, f6, f7, f8⟩ := fill_spec (S := S) L h (want := n - b.avail) (len := len) ho (by omega)
            (by omega) (fun e he => l1 e he (by omega))
          generalize b.fill S (n - b.avail) len = r at *
          split
          · rename_i hb
            exact (readEnd_spec f1 n (fun _ => (f7 hb).2)).shift f2 (fun hh => by rw [ho] at hh; cases hh)
          · rename_i hb
            have hb : r.1 = true := by simpa using hb
            have := (f6 hb).1
            exact (ih f1 (by omega)).shift f2 (fun hh => by rw [ho] at hh; cases hh)
        · have hpa := pos_avail h
          obtain ⟨s1, s2⟩ := sync_spec h
          have hpk := peek_eq h (Nat.le_refl b.avail)
          split
          · rename_i hz
            obtain ⟨e1, e2, e3, e4, e5⟩ := exactSizeReached_spec L s1
            obtain ⟨x1, x2⟩ := l2 hz
            refine .mk e1 ?_ ?_ (by simp) (fun _ => ⟨?_, .inr ⟨x1, ?_⟩⟩) e5
            · show b.pos ≤ BR.pos (b.sync.exactSizeReached S); omega
            · show b.peek b.avail = slice D b.pos (BR.pos (b.sync.exactSizeReached S) - b.pos)
              rw [hpk]; congr 1; omega
            · show BR.pos (b.sync.exactSizeReached S) < b.pos + n; omega
            · show BR.pos (b.sync.exactSizeReached S) = _; omega
          · rename_i hz
            obtain ⟨k, f1, f2, f3, f4, f5, f6, f7, f8⟩ := fill_spec (S := S) L s1 (want := n - b.avail) (len := len) ho (by omega)
              (by omega) (fun e he => l1 e he (by omega))
            generalize b.sync.fill S (n - b.avail) len = r at *
            refine Reads.append (r := if r.1 = false then r.2.readEnd (n - b.avail) else readBlocks S fuel (n - b.avail) r.2) (b1 := b.sync) ?_
              (by omega) hpk (by omega) id
            have h0 : b.sync.avail = 0 := rfl
            split
            · rename_i hb
              exact (readEnd_spec f1 _ (fun _ => (f7 hb).2)).shift f2 (fun hh => by
                have hh : b.phys.ok = false := hh
                rw [ho] at hh; cases hh)
            · rename_i hb
              have hb : r.1 = true := by simpa using hb
              have := (f6 hb).1
              exact (ih f1 (by omega)).shift f2 (fun hh => by
                have hh : b.phys.ok = false := hh
                rw [ho] at hh; cases hh)

/-- What copying functions do. -/
def Copies (D : Bytes) (E : Prop) (PInv : Phys τ → Prop) (S : BSrc τ) (n : Nat) (d : Dest) (b : BR τ) (r : Bool × Dest × BR τ) : Prop :=
  BInv D PInv r.2.2 ∧ (ops S).CopyPost D E n d b r ∧ (b.phys.ok = false → r.2.2.phys.ok = false)

theorem Copies.mk {n k : Nat} {d : Dest} {b : BR τ} {r : Bool × Dest × BR τ} (h : BInv D PInv r.2.2)
    (h1 : b.pos ≤ r.2.2.pos) (h2 : r.2.2.pos ≤ b.pos + n) (h3 : k ≤ r.2.2.pos - b.pos)
    (h4 : r.2.1.written = d.written ++ slice D b.pos k) (h5 : r.2.1.ok = true → k = r.2.2.pos - b.pos)
    (h6 : r.1 = true → r.2.2.pos = b.pos + n ∧ r.2.1.ok = true)
    (h7 : r.1 = false → r.2.1.ok = true → r.2.2.pos < b.pos + n ∧ (r.2.2.phys.ok = false ∨ (E ∧ r.2.2.pos = D.length)))
    (h8 : r.2.1.ok = true → d.ok = true)
    (h9 : b.phys.ok = false → r.2.2.phys.ok = false) : Copies D E PInv S n d b r :=
  ⟨h, ⟨h1, h2, ⟨k, h3, h4, h5⟩, fun hb => ⟨(h6 hb).1, .inr trivial, (h6 hb).2⟩, h7, h8⟩, h9⟩

theorem Copies.out {n : Nat} {d : Dest} {b : BR τ} {r : Bool × Dest × BR τ} (h : Copies D E PInv S n d b r) :
    ∃ k, BInv D PInv r.2.2 ∧ b.pos ≤ r.2.2.pos ∧ r.2.2.pos ≤ b.pos + n ∧ k ≤ r.2.2.pos - b.pos ∧
    r.2.1.written = d.written ++ slice D b.pos k ∧ (r.2.1.ok = true → k = r.2.2.pos - b.pos) ∧
    (r.1 = true → r.2.2.pos = b.pos + n ∧ r.2.1.ok = true) ∧
    (r.1 = false → r.2.1.ok = true → r.2.2.pos < b.pos + n ∧ (r.2.2.phys.ok = false ∨ (E ∧ r.2.2.pos = D.length))) ∧
    (r.2.1.ok = true → d.ok = true) ∧ (b.phys.ok = false → r.2.2.phys.ok = false) := by
  obtain ⟨h1, ⟨h2, h3, ⟨k, h4, h5, h6⟩, h7, h8, h9⟩, h10⟩ := h
  exact ⟨k, h1, h2, h3, h4, h5, h6, fun hb => ⟨(h7 hb).1, (h7 hb).2.2⟩, h8, h9, h10⟩

theorem Copies.append {n a : Nat} {b b1 : BR τ} {d d1 : Dest} {r : Bool × Dest × BR τ} (h : Copies D E PInv S (n - a) d1 b1 r)
    (ha : a ≤ n) (hd : d1.written = d.written ++ slice D b.pos a) (hd' : d1.ok = true → d.ok = true)
    (hp : b1.pos = b.pos + a) (ho : b.phys.ok = false → b1.phys.ok = false) :
    Copies D E PInv S n d b r := by
  obtain ⟨k, r1, r2, r3, r4, r5, r6, r7, r8, r9, r10⟩ := h.out
  refine .mk (k := a + k) r1 (by omega) (by omega) (by omega) ?_ ?_ ?_ ?_ (fun h => hd' (r9 h)) (fun h => r10 (ho h))
  · rw [r5, hd, List.append_assoc, hp, slice_append]
  · intro h; have := r6 h; omega
  · intro h; have := r7 h; exact ⟨by omega, this.2⟩
  · intro h h'; have := r8 h h'; exact ⟨by omega, this.2⟩

theorem Copies.shift {n : Nat} {b b1 : BR τ} {d : Dest} {r : Bool × Dest × BR τ} (h : Copies D E PInv S n d b1 r)
    (hp : b1.pos = b.pos) (ho : b.phys.ok = false → b1.phys.ok = false) : Copies D E PInv S n d b r :=
  Copies.append (a := 0) h (Nat.zero_le _) (by rw [slice_zero, List.append_nil]) id hp ho

/-- Writing the data from the buffer failed. -/
theorem Copies.stop {n a : Nat} {b b1 : BR τ} {d : Dest} {bs : Bytes} (h1 : BInv D PInv b1) (ha : a ≤ n) (hbs : bs = slice D b.pos a)
    (hl : bs.length = a) (hp : b1.pos = b.pos + a) (ho : b.phys.ok = false → b1.phys.ok = false) (hw : (d.write bs).1 = false) :
    Copies D E PInv S n d b (false, (d.write bs).2, b1) := by
  obtain ⟨⟨k, w1, w2, w3⟩, w4, w5, w6⟩ := d.write_spec bs
  have hf := w5 hw
  refine .mk (k := k) h1 ?_ ?_ ?_ ?_ ?_ (by simp) ?_ ?_ ho
  · show b.pos ≤ b1.pos; omega
  · show b1.pos ≤ b.pos + n; omega
  · show k ≤ b1.pos - b.pos; omega
  · show (d.write bs).2.written = _
    rw [w2, hbs]
    unfold slice
    rw [List.take_take, Nat.min_eq_left (by omega)]
  · intro h
    have h : (d.write bs).2.ok = true := h
    rw [hf] at h; cases h
  · intro _ h
    have h : (d.write bs).2.ok = true := h
    rw [hf] at h; cases h
  · intro h
    have h : (d.write bs).2.ok = true := h
    rw [hf] at h; cases h

theorem peek_length {b : BR τ} (h : BInv D PInv b) {n : Nat} (hn : n ≤ b.avail) : (b.peek n).length = n := by
  have := (pos_avail h).2
  exact slice_length (by omega)

theorem write_true {d : Dest} {bs : Bytes} (h : (d.write bs).1 = true) :
    (d.write bs).2.written = d.written ++ bs ∧ (d.write bs).2.ok = true ∧ d.ok = true := by
  obtain ⟨⟨k, w1, w2, w3⟩, w4, w5, w6⟩ := d.write_spec bs
  have h1 := w4 h
  have h2 := w3 h1
  rw [h2, List.take_length] at w2
  exact ⟨w2, h1, w6 h1⟩

theorem copyEnd_spec {b : BR τ} (h : BInv D PInv b) (n : Nat) (d : Dest)
    (hf : b.avail < n → b.phys.ok = false ∨ (E ∧ b.phys.limitPos = D.length)) : Copies D E PInv S n d b (b.copyEnd n d) := by
  unfold copyEnd
  dsimp only
  have hk : min n b.avail ≤ b.avail := Nat.min_le_right _ _
  have hk' : min n b.avail ≤ n := Nat.min_le_left _ _
  have hpa := pos_avail h
  have hkn : b.avail < n → min n b.avail = b.avail := by omega
  have hkn' : n ≤ b.avail → min n b.avail = n := by omega
  generalize min n b.avail = k at *
  obtain ⟨m1, m2, m3⟩ := move_spec h hk
  have hpk := peek_eq h hk
  have hpl := peek_length h hk
  cases hw : (d.write (b.peek k)).1 with
  | false =>
    rw [Bool.false_and]
    exact Copies.stop m1 hk' hpk hpl m2 (fun ho => by rw [m3]; exact ho) hw
  | true =>
    obtain ⟨w1, w2, w3⟩ := write_true hw
    rw [Bool.true_and]
    refine .mk (k := k) m1 ?_ ?_ ?_ ?_ ?_ ?_ ?_ (fun _ => w3) (fun ho => by show (b.move k).phys.ok = _; rw [m3]; exact ho)
    · show b.pos ≤ (b.move k).pos; omega
    · show (b.move k).pos ≤ b.pos + n; omega
    · show k ≤ (b.move k).pos - b.pos; omega
    · show (d.write (b.peek k)).2.written = _
      rw [w1, hpk]
    · intro _; show k = (b.move k).pos - b.pos; omega
    · intro hd
      have hd : n ≤ b.avail := by simpa using hd
      exact ⟨by show (b.move k).pos = _; have := hkn' hd; omega, w2⟩
    · intro hd _
      have hd : b.avail < n := by simpa using hd
      have := hkn hd
      refine ⟨by show (b.move k).pos < _; omega, ?_⟩
      show (b.move k).phys.ok = false ∨ (E ∧ (b.move k).pos = _)
      rw [m3, m2, this, hpa.1]; exact hf hd

theorem space_spec (more : Nat → Nat) (d : Dest) :
    ((d.space more).1 = none → (d.space more).2.ok = false ∧ (d.space more).2.written = d.written) ∧
    (∀ k, (d.space more).1 = some k → 0 < k ∧ d.ok = true ∧ (d.space more).2 = d) := by
  unfold Dest.space
  split
  · rename_i ho
    exact ⟨fun _ => ⟨ho, rfl⟩, by simp⟩
  · rename_i ho
    split
    · exact ⟨fun _ => ⟨rfl, rfl⟩, by simp⟩
    · exact ⟨by simp, fun k hk => by cases hk; exact ⟨by omega, by simpa using ho, rfl⟩⟩

theorem copyInternalLoop_spec (L : S.Lawful D E PInv) (fuel : Nat) {n k : Nat} {d : Dest} {p : Phys τ} (h : PInv p) (ho : p.ok = true)
    (hk : 0 < k) (hkn : k ≤ n) (hx : ∀ e, p.exact = some e → p.limitPos + k ≤ e)
    (hkx : k < n → p.limitPos + k ≤ D.length → E ∧ p.limitPos + k = D.length) (hf : n ≤ fuel) :
    PCopies D E PInv n d p (copyInternalLoop S fuel n k d p) := by
  induction fuel generalizing n k d p with
  | zero => omega
  | succ fuel ih =>
    unfold copyInternalLoop
    obtain ⟨s1, s2⟩ := space_spec S.push d
    generalize d.space S.push = sp at *
    obtain ⟨sp1, d1⟩ := sp
    cases sp1 with
    | none =>
      obtain ⟨t1, t2⟩ := s1 rfl
      have t1 : d1.ok = false := t1
      dsimp only
      refine ⟨h, Nat.le_refl _, Nat.le_add_right _ _, ⟨0, Nat.zero_le _, by rw [slice_zero, List.append_nil]; exact t2, ?_⟩, by simp, ?_, ?_⟩ <;> 
      · dsimp only; rw [t1]; simp
    | some sp =>
      obtain ⟨t1, t2, t3⟩ := s2 _ rfl
      have t3 : d1 = d := t3
      subst t3
      dsimp only
      obtain ⟨r1, r2, r3, r4, r5, r6⟩ := L.readInternal (min k sp) (min k sp) p h ho (by omega) (Nat.le_refl _)
        (fun e he => by have := hx e he; omega)
      generalize S.readInternal (min k sp) (min k sp) p = r at *
      have hlim := L.limit _ r1
      split
      · rename_i hb
        obtain ⟨g1, g2⟩ := r6 hb
        refine ⟨r1, ?_, ?_, ⟨r.2.1.length, ?_, ?_, fun _ => ?_⟩, by simp, fun _ _ => ⟨?_, g2⟩, fun _ => t2⟩
        · show p.limitPos ≤ r.2.2.limitPos; omega
        · show r.2.2.limitPos ≤ _; omega
        · show _ ≤ r.2.2.limitPos - _; omega
        · show d1.written ++ r.2.1 = _; rw [← r3]
        · show _ = r.2.2.limitPos - _; omega
        · show r.2.2.limitPos < _; omega
      · rename_i hb
        have hb : r.1 = true := by simpa using hb
        obtain ⟨g1, g2⟩ := r5 hb
        split
        · refine ⟨r1, ?_, ?_, ⟨r.2.1.length, ?_, ?_, fun _ => ?_⟩, fun _ => ⟨?_, t2⟩, by simp, fun _ => t2⟩
          · show p.limitPos ≤ r.2.2.limitPos; omega
          · show r.2.2.limitPos ≤ _; omega
          · show _ ≤ r.2.2.limitPos - _; omega
          · show d1.written ++ r.2.1 = _; rw [← r3]
          · show _ = r.2.2.limitPos - _; omega
          · show r.2.2.limitPos = _; omega
        · rename_i hrem
          obtain ⟨d1', d2'⟩ := direct_spec L r1 (n := n - r.2.1.length) (by omega)
          split
          · rename_i hd
            obtain ⟨x1, x2⟩ := d1' hd
            obtain ⟨e1, e2, e3⟩ := L.exactSizeReached _ r1
            refine ⟨e1, ?_, ?_, ⟨r.2.1.length, ?_, ?_, fun _ => ?_⟩, by simp, fun _ _ => ⟨?_, .inr ⟨x1, ?_⟩⟩, fun _ => t2⟩
            · show p.limitPos ≤ (S.exactSizeReached r.2.2).limitPos; omega
            · show (S.exactSizeReached r.2.2).limitPos ≤ _; omega
            · show _ ≤ (S.exactSizeReached r.2.2).limitPos - _; omega
            · show d1.written ++ r.2.1 = _; rw [← r3]
            · show _ = (S.exactSizeReached r.2.2).limitPos - _; omega
            · show (S.exactSizeReached r.2.2).limitPos < _; omega
            · show (S.exactSizeReached r.2.2).limitPos = _; omega
          · rename_i k' hd
            obtain ⟨k1, k2, k3, k4⟩ := d2' k' hd
            obtain ⟨i1, i2, i3, ⟨j, i4, i5, i6⟩, i7, i8, i9⟩ := ih (d := { d1 with written := d1.written ++ r.2.1 }) r1 g2 k1 k2 k3 k4 (by omega)
            generalize copyInternalLoop S fuel (n - r.2.1.length) k' { d1 with written := d1.written ++ r.2.1 } r.2.2 = z at *
            refine ⟨i1, by omega, by omega, ⟨r.2.1.length + j, by omega, ?_, fun hh => by have := i6 hh; omega⟩,
              fun hh => ⟨by have := (i7 hh).1; omega, (i7 hh).2⟩, fun hh hh' => ⟨by have := (i8 hh hh').1; omega, (i8 hh hh').2⟩, i9⟩
            rw [i5]
            show d1.written ++ r.2.1 ++ _ = _
            rw [← slice_append, ← r3, List.append_assoc, r2]

theorem copyUsingPush_spec (L : S.Lawful D E PInv) {n : Nat} {d : Dest} {b : BR τ} (h : BInv D PInv b) (ho : b.phys.ok = true)
    (h0 : b.buf = []) (hn : 0 < n) : Copies D E PInv S n d b (b.copyUsingPush S n d) := by
  unfold copyUsingPush
  obtain ⟨d1, d2⟩ := direct_spec L h.phys (n := n) hn
  have ha : b.avail = 0 := by unfold avail; rw [h0]; exact Nat.zero_sub _
  have hpa := pos_avail h
  split
  · rename_i hd
    obtain ⟨x1, x2⟩ := d1 hd
    obtain ⟨e1, e2, e3, e4, e5⟩ := exactSizeReached_spec L h
    refine .mk (k := 0) e1 (Nat.le_of_eq e2.symm) ?_ (Nat.zero_le _) (by rw [slice_zero, List.append_nil]) ?_ (by simp) (fun _ _ => ⟨?_, .inr ⟨x1, ?_⟩⟩) id e5
    · show (b.exactSizeReached S).pos ≤ _; omega
    · intro _; show 0 = (b.exactSizeReached S).pos - _; omega
    · show (b.exactSizeReached S).pos < _; omega
    · show (b.exactSizeReached S).pos = _; omega
  · rename_i k hd
    obtain ⟨k1, k2, k3, k4⟩ := d2 k hd
    have hr : PCopies D E PInv k d b.phys ((S.copyInternal k d b.phys).getD (copyInternalLoop S k k k d b.phys)) := by
      cases hc : S.copyInternal k d b.phys with
      | some r => exact L.copyInternal k d b.phys r h.phys ho k1 k3 hc
      | none => exact copyInternalLoop_spec L k h.phys ho k1 (Nat.le_refl _) k3 (by omega) (Nat.le_refl _)
    dsimp only
    generalize (S.copyInternal k d b.phys).getD (copyInternalLoop S k k k d b.phys) = r at *
    obtain ⟨i1, i2, i3, ⟨j, i4, i5, i6⟩, i7, i8, i9⟩ := hr
    have hpos : BR.pos { b with phys := r.2.2 } = r.2.2.limitPos := by
      show r.2.2.limitPos - (b.buf.length - b.idx) = _
      rw [h0]; exact congrArg _ (Nat.zero_sub _)
    have hlim := L.limit _ i1
    have hbp : b.pos = b.phys.limitPos := by omega
    rw [← hbp] at i2 i3 i4 i5 i6 i7 i8
    refine .mk (k := j) ⟨i1, h.idx, by show b.buf.length ≤ _; rw [h0]; exact Nat.zero_le _, by
      show b.buf = slice D (r.2.2.limitPos - b.buf.length) b.buf.length
      rw [h0]; exact (slice_zero _ _).symm⟩ (by rw [hpos]; exact i2) (by rw [hpos]; omega) (by rw [hpos]; exact i4) i5 (by rw [hpos]; exact i6) ?_ ?_ i9 ?_
    · intro hh
      have hh : r.1 = true ∧ k = n := by simpa using hh
      have := i7 hh.1
      exact ⟨by rw [hpos]; omega, this.2⟩
    · intro hh hh'
      rw [hpos]
      cases hb : r.1 with
      | false =>
        obtain ⟨g1, g2⟩ := i8 hb hh'
        exact ⟨by omega, g2⟩
      | true =>
        have hkn : ¬ k = n := by
          intro hkn
          have hh : (r.1 && decide (k = n)) = false := hh
          rw [hb, decide_eq_true hkn] at hh; cases hh
        have := (i7 hb).1
        obtain ⟨x1, x2⟩ := k4 (by omega) (by omega)
        exact ⟨by omega, .inr ⟨x1, by omega⟩⟩
    · intro hh; rw [ho] at hh; cases hh

theorem copyLoop_spec (L : S.Lawful D E PInv) (fuel : Nat) {b : BR τ} (h : BInv D PInv b) {n : Nat} {d : Dest} (hf : n - b.avail < fuel) :
    Copies D E PInv S n d b (copyLoop S fuel n d b) := by
  induction fuel generalizing b n d with
  | zero => omega
  | succ fuel ih =>
    unfold copyLoop
    split
    · exact copyEnd_spec h n d (by omega)
    · rename_i hn
      split
      · rename_i ho
        exact copyEnd_spec h n d (fun _ => .inl ho)
      · rename_i ho
        have ho : b.phys.ok = true := by simpa using ho
        have hno : ∀ {X : Prop}, b.phys.ok = false → X := fun hh => by rw [ho] at hh; cases hh
        dsimp only
        have hpa := pos_avail h
        obtain ⟨s1, s2⟩ := sync_spec h
        have hpk := peek_eq h (Nat.le_refl b.avail)
        have hpl := peek_length h (Nat.le_refl b.avail)
        generalize decide (b.bufferLength S b.pos 0 0 ≤ n) = directly
        split
        · rename_i hc
          split
          · rename_i hw
            obtain ⟨m1, m2, m3⟩ := move_spec h (Nat.le_refl b.avail)
            exact Copies.stop m1 (by omega) hpk hpl m2 (fun ho => by rw [m3]; exact ho) hw
          · rename_i hw
            obtain ⟨w1, w2, w3⟩ := write_true (d := d) (bs := b.peek b.avail) (by simpa using hw)
            exact (copyUsingPush_spec L s1 ho rfl (by omega)).append (by omega) (by rw [w1, hpk]) (fun _ => w3) (by omega) hno
        · obtain ⟨l1, l2, l3⟩ := bufferLength_spec (S := S) L h (m := 1) (rec := n - b.avail) (by omega)
          generalize b.bufferLength S b.phys.limitPos 1 (n - b.avail) = len at *
          split
          · rename_i hc
            obtain ⟨k, f1, f2, f3, f4, f5, f6, f7, f8⟩ := fill_spec (S := S) L h (want := n - b.avail) (len := len) ho (by omega)
              (by omega) (fun e he => l1 e he (by omega))
            generalize b.fill S (n - b.avail) len = r at *
            split
            · rename_i hb
              exact (copyEnd_spec f1 n d (fun _ => (f7 hb).2)).shift f2 hno
            · rename_i hb
              have hb : r.1 = true := by simpa using hb
              have := (f6 hb).1
              exact (ih f1 (by omega)).shift f2 hno
          · have hwr : ∃ w : Bool × Dest, (if 0 < b.avail then d.write (b.peek b.avail) else (true, d)) = w ∧
                (w.1 = false → w = d.write (b.peek b.avail)) ∧
                (w.1 = true → w.2.written = d.written ++ slice D b.pos b.avail ∧ (w.2.ok = true → d.ok = true)) := by
              split
              · refine ⟨_, rfl, fun _ => rfl, fun hw => ?_⟩
                obtain ⟨w1, w2, w3⟩ := write_true hw
                exact ⟨by rw [w1, hpk], fun _ => w3⟩
              · rename_i hz
                refine ⟨_, rfl, by simp, fun _ => ⟨?_, id⟩⟩
                rw [show b.avail = 0 by omega, slice_zero, List.append_nil]
            obtain ⟨w, hw, w1, w2⟩ := hwr
            rw [hw]
            split
            · rename_i hb
              have := w1 hb
              rw [this]
              exact Copies.stop s1 (by omega) hpk hpl (by omega) hno (by rw [← this]; exact hb)
            · rename_i hb
              obtain ⟨w3, w4⟩ := w2 (by simpa using hb)
              have h0 : b.sync.avail = 0 := rfl
              have hno' : ∀ {X : Prop}, b.sync.phys.ok = false → X := fun hh => hno hh
              split
              · rename_i hz
                obtain ⟨e1, e2, e3, e4, e5⟩ := exactSizeReached_spec L s1
                obtain ⟨x1, x2⟩ := l2 hz
                refine Copies.append (a := b.avail) (b1 := b.sync) (d1 := w.2) ?_ (by omega) w3 w4 (by omega) hno
                refine .mk (k := 0) e1 (Nat.le_of_eq e2.symm) ?_ (Nat.zero_le _) (by rw [slice_zero, List.append_nil]) ?_ (by simp) (fun _ _ => ⟨?_, .inr ⟨x1, ?_⟩⟩) id e5
                · show BR.pos (b.sync.exactSizeReached S) ≤ _; omega
                · intro _; show 0 = BR.pos (b.sync.exactSizeReached S) - _; omega
                · show BR.pos (b.sync.exactSizeReached S) < _; omega
                · show BR.pos (b.sync.exactSizeReached S) = _; omega
              · rename_i hz
                split
                · exact (copyUsingPush_spec L s1 ho rfl (by omega)).append (by omega) w3 w4 (by omega) hno
                · obtain ⟨k, f1, f2, f3, f4, f5, f6, f7, f8⟩ := fill_spec (S := S) L s1 (want := n - b.avail) (len := len) ho (by omega)
                    (by omega) (fun e he => l1 e he (by omega))
                  generalize b.sync.fill S (n - b.avail) len = r at *
                  split
                  · rename_i hb
                    exact ((copyEnd_spec f1 _ w.2 (fun _ => (f7 hb).2)).shift f2 hno').append (by omega) w3 w4 (by omega) hno
                  · rename_i hb
                    have hb : r.1 = true := by simpa using hb
                    have := (f6 hb).1
                    exact ((ih f1 (by omega)).shift f2 hno').append (by omega) w3 w4 (by omega) hno

theorem push_spec (n : Nat) (d : Dest) : ((d.push n).1 = true → (d.push n).2 = d ∧ d.ok = true) ∧
    ((d.push n).1 = false → (d.push n).2.ok = false) := by
  unfold Dest.push
  split
  · rename_i ho; exact ⟨by simp, fun _ => ho⟩
  · rename_i ho
    split
    · exact ⟨fun _ => ⟨rfl, by simpa using ho⟩, by simp⟩
    · exact ⟨by simp, fun _ => rfl⟩

theorem copyBackSlow_spec (L : S.Lawful D E PInv) {b : BR τ} (h : BInv D PInv b) {n : Nat} (d : Dest)
    (hn : n ≤ b.avail → kMaxBytesToCopy < n) : BInv D PInv (b.copyBackSlow S n d).2.2 ∧
    (ops S).CopyBackPost D E n d b (b.copyBackSlow S n d) ∧ (b.phys.ok = false → (b.copyBackSlow S n d).2.2.phys.ok = false) := by
  unfold copyBackSlow
  split
  · rename_i hle
    obtain ⟨p1, p2⟩ := push_spec n d
    dsimp only
    generalize d.push n = p at *
    split
    · rename_i hp
      have hpo := p2 hp
      refine ⟨h, ⟨Nat.le_refl _, Nat.le_add_right _ _, by simp, fun _ ho => ?_, fun ho => ?_⟩, id⟩ <;>
      · have ho : p.2.ok = true := ho
        rw [hpo] at ho; cases ho
    · rename_i hp
      obtain ⟨e1, e2⟩ := p1 (by simpa using hp)
      obtain ⟨r1, r2, r3, r4, r5, r6⟩ := (readChars_spec (S := S) L h (n := n) (by
        by_cases hlt : b.avail < n
        · exact hlt
        · have := hn (by omega); omega)).out
      generalize b.readChars S n = r at *
      split
      · rename_i hb
        obtain ⟨g1, g2⟩ := r5 hb
        refine ⟨r1, ⟨r2, ?_, by simp, fun _ _ => ⟨by rw [e1], g1, g2⟩, fun _ => e2⟩, r6⟩
        show r.2.2.pos ≤ b.pos + n; omega
      · rename_i hb
        have g := r4 (by simpa using hb)
        refine ⟨r1, ⟨r2, Nat.le_of_eq g, fun _ => ⟨g, .inr trivial, ?_, ?_⟩, by simp, fun _ => e2⟩, r6⟩
        · show p.2.ok = true; rw [e1]; exact e2
        · show r.2.1 ++ p.2.written = slice D b.pos n ++ d.written
          rw [e1, r3, g, Nat.add_sub_cancel_left]
  · obtain ⟨r1, r2, r3, r4, r5, r6⟩ := (readBlocks_spec (S := S) L (n + 1) h (n := n) (by omega)).out
    dsimp only
    generalize readBlocks S (n + 1) n b = r at *
    split
    · rename_i hb
      obtain ⟨g1, g2⟩ := r5 hb
      refine ⟨r1, ⟨r2, ?_, by simp, fun _ _ => ⟨rfl, g1, g2⟩, id⟩, r6⟩
      show r.2.2.pos ≤ b.pos + n; omega
    · rename_i hb
      have g := r4 (by simpa using hb)
      obtain ⟨h1, h2, h3⟩ := d.prepend_spec r.2.1
      refine ⟨r1, ⟨r2, Nat.le_of_eq g, fun hb' => ⟨g, .inr trivial, (h1 hb').1, ?_⟩, fun hb' ho => ?_, h3⟩, r6⟩
      · show _ = slice D b.pos n ++ _
        rw [show n = r.2.2.pos - b.pos by omega, ← r3]
        exact (h1 hb').2
      · have h4 : (d.prepend r.2.1).2.ok = false := h2 hb'
        have h5 : (d.prepend r.2.1).2.ok = true := ho
        rw [h4] at h5; cases h5

/-- Reading directly at most `k` bytes, for `ReadSomeSlow()` and `CopySomeSlow()`. -/
theorem readDirect_spec (L : S.Lawful D E PInv) {b : BR τ} (h : BInv D PInv b) (ho : b.phys.ok = true) {k : Nat} (hk : 0 < k)
    (hx : ∀ e, b.phys.exact = some e → b.phys.limitPos + k ≤ e) (t : Bool) :
    let r := S.readInternal (if t then k else 1) k b.phys
    BInv D PInv { b.sync with phys := r.2.2 } ∧ r.2.2.limitPos = b.phys.limitPos + r.2.1.length ∧
    r.2.1 = slice D b.phys.limitPos r.2.1.length ∧ r.2.1.length ≤ k ∧
    (r.2.1.length = 0 → r.2.2.ok = false ∨ (E ∧ b.phys.limitPos = D.length)) := by
  dsimp only
  have hm : 0 < (if t then k else 1) ∧ (if t then k else 1) ≤ k := by split <;> omega
  generalize (if t then k else 1) = m at *
  obtain ⟨r1, r2, r3, r4, r5, r6⟩ := L.readInternal m k _ h.phys ho hm.1 hm.2 hx
  generalize S.readInternal m k b.phys = r at *
  refine ⟨⟨r1, Nat.le_refl _, Nat.zero_le _, (slice_zero _ _).symm⟩, r2, r3, r4, fun h0 => ?_⟩
  cases hb : r.1 with
  | true => have := (r5 hb).1; omega
  | false =>
    rcases (r6 hb).2 with h1 | ⟨h1, h2⟩
    · exact .inl h1
    · exact .inr ⟨h1, by omega⟩

theorem readSomeSlow_spec (L : S.Lawful D E PInv) {b : BR τ} (h : BInv D PInv b) {n : Nat} (hn : 0 < n) (h0 : b.avail = 0) :
    BInv D PInv (b.readSomeSlow S n).2.2 ∧ (ops S).SomePost D E n b (b.readSomeSlow S n) ∧
    (b.phys.ok = false → (b.readSomeSlow S n).2.2.phys.ok = false) := by
  have hpa := pos_avail h
  have hz : ∀ x, x = b.pos → [] = slice D b.pos (x - b.pos) := fun x hx => by rw [hx, Nat.sub_self, slice_zero]
  unfold readSomeSlow
  split
  · split
    · rename_i ho
      exact ⟨h, ⟨Nat.le_refl _, Nat.le_add_right _ _, hz _ rfl, by simp, fun _ => ⟨rfl, .inl ho⟩⟩, id⟩
    · rename_i ho
      have ho : b.phys.ok = true := by simpa using ho
      obtain ⟨s1, s2⟩ := sync_spec h
      obtain ⟨d1, d2⟩ := direct_spec L s1.phys (n := n) hn
      dsimp only
      split
      · rename_i hd
        obtain ⟨x1, x2⟩ := d1 hd
        have x2 : b.phys.limitPos = _ := x2
        obtain ⟨e1, e2, e3, e4, e5⟩ := exactSizeReached_spec L s1
        refine ⟨e1, ⟨?_, ?_, hz _ ?_, by simp, fun _ => ⟨?_, .inr ⟨x1, ?_⟩⟩⟩, e5⟩
        · show b.pos ≤ BR.pos (b.sync.exactSizeReached S); omega
        · show BR.pos (b.sync.exactSizeReached S) ≤ b.pos + n; omega
        · show BR.pos (b.sync.exactSizeReached S) = b.pos; omega
        · show BR.pos (b.sync.exactSizeReached S) = b.pos; omega
        · show b.pos = _; omega
      · rename_i k hd
        obtain ⟨k1, k2, k3, k4⟩ := d2 k hd
        obtain ⟨r1, r2, r3, r4, r5⟩ := readDirect_spec L h ho k1 k3 (b.sync.tolerates S)
        rw [show b.sync.phys = b.phys from rfl]
        generalize S.readInternal (if b.sync.tolerates S then k else 1) k b.phys = r at *
        have hpos : BR.pos { b.sync with phys := r.2.2 } = r.2.2.limitPos := rfl
        refine ⟨r1, ⟨?_, ?_, ?_, fun hb => ⟨fun _ => ?_, .inr trivial⟩, fun hb => ⟨?_, ?_⟩⟩, fun hh => by rw [ho] at hh; cases hh⟩
        · show b.pos ≤ r.2.2.limitPos; omega
        · show r.2.2.limitPos ≤ b.pos + n; omega
        · show r.2.1 = slice D b.pos (r.2.2.limitPos - b.pos)
          rw [r2, show b.pos = b.phys.limitPos by omega, Nat.add_sub_cancel_left]; exact r3
        · have hb : ¬ r.2.2.limitPos = b.phys.limitPos := by simpa using hb
          show b.pos < r.2.2.limitPos; omega
        · have hb : r.2.2.limitPos = b.phys.limitPos := by simpa using hb
          show r.2.2.limitPos = b.pos; omega
        · have hb : r.2.2.limitPos = b.phys.limitPos := by simpa using hb
          show r.2.2.ok = false ∨ (E ∧ b.pos = _)
          rw [show b.pos = b.phys.limitPos by omega]
          exact r5 (by omega)
  · exact (core_lawful L).toOps.readSomeSlow b n h hn (by
      show (core S).avail b = 0
      rw [core_avail h]; exact h0)

theorem copySomeSlow_spec (L : S.Lawful D E PInv) {b : BR τ} (h : BInv D PInv b) {n : Nat} (d : Dest) (hn : 0 < n) (h0 : b.avail = 0) :
    BInv D PInv (b.copySomeSlow S n d).2.2 ∧ (ops S).CopySomePost D E n d b (b.copySomeSlow S n d) ∧
    (b.phys.ok = false → (b.copySomeSlow S n d).2.2.phys.ok = false) := by
  have hpa := pos_avail h
  unfold copySomeSlow
  split
  · split
    · rename_i ho
      exact ⟨h, ⟨Nat.le_refl _, Nat.le_add_right _ _, ⟨0, Nat.zero_le _, by rw [slice_zero, List.append_nil], fun _ => (Nat.sub_self _).symm⟩,
        by simp, fun _ _ => .inl ho, id⟩, id⟩
    · rename_i ho
      have ho : b.phys.ok = true := by simpa using ho
      have hno : ∀ {X : Prop}, b.phys.ok = false → X := fun hh => by rw [ho] at hh; cases hh
      obtain ⟨s1, s2⟩ := sync_spec h
      obtain ⟨d1, d2⟩ := direct_spec L s1.phys (n := n) hn
      dsimp only
      split
      · rename_i hd
        obtain ⟨x1, x2⟩ := d1 hd
        have x2 : b.phys.limitPos = _ := x2
        obtain ⟨e1, e2, e3, e4, e5⟩ := exactSizeReached_spec L s1
        refine ⟨e1, ⟨?_, ?_, ⟨0, Nat.zero_le _, by rw [slice_zero, List.append_nil], fun _ => ?_⟩, by simp, fun _ _ => .inr ⟨x1, ?_⟩, id⟩, e5⟩
        · show b.pos ≤ BR.pos (b.sync.exactSizeReached S); omega
        · show BR.pos (b.sync.exactSizeReached S) ≤ b.pos + n; omega
        · show 0 = BR.pos (b.sync.exactSizeReached S) - b.pos; omega
        · show b.pos = _; omega
      · rename_i k hd
        obtain ⟨k1, k2, k3, k4⟩ := d2 k hd
        obtain ⟨sp1, sp2⟩ := space_spec S.push d
        generalize d.space S.push = sp at *
        obtain ⟨spo, d'⟩ := sp
        cases spo with
        | none =>
          obtain ⟨t1, t2⟩ := sp1 rfl
          have t1 : d'.ok = false := t1
          refine ⟨s1, ⟨?_, ?_, ⟨0, Nat.zero_le _, by rw [slice_zero, List.append_nil]; exact t2, ?_⟩, by simp, ?_, ?_⟩, hno⟩
          · show b.pos ≤ b.sync.pos; omega
          · show b.sync.pos ≤ b.pos + n; omega
          all_goals dsimp only; rw [t1]; simp
        | some sp =>
          obtain ⟨t1, t2, t3⟩ := sp2 _ rfl
          have t3 : d' = d := t3
          subst t3
          dsimp only
          obtain ⟨r1, r2, r3, r4, r5⟩ := readDirect_spec L h ho (k := min k sp) (by omega) (fun e he => by
            have : b.phys.limitPos + k ≤ e := k3 e he
            omega) (b.sync.tolerates S)
          rw [show b.sync.phys = b.phys from rfl]
          generalize S.readInternal (if b.sync.tolerates S then min k sp else 1) (min k sp) b.phys = r at *
          refine ⟨r1, ⟨?_, ?_, ⟨r.2.1.length, ?_, ?_, fun _ => ?_⟩, fun hb => ⟨fun _ => ?_, .inr trivial, t2⟩, fun hb _ => ?_, fun _ => t2⟩, hno⟩
          · show b.pos ≤ r.2.2.limitPos; omega
          · show r.2.2.limitPos ≤ b.pos + n; omega
          · show _ ≤ r.2.2.limitPos - b.pos; omega
          · show d'.written ++ r.2.1 = d'.written ++ slice D b.pos r.2.1.length
            rw [show b.pos = b.phys.limitPos by omega, ← r3]
          · show _ = r.2.2.limitPos - b.pos; omega
          · have hb : 0 < r.2.1.length := by simpa using hb
            show b.pos < r.2.2.limitPos; omega
          · have hb : r.2.1.length = 0 := by
              have : ¬ 0 < r.2.1.length := of_decide_eq_false hb
              omega
            show r.2.2.ok = false ∨ (E ∧ b.pos = _)
            rw [show b.pos = b.phys.limitPos by omega]
            exact r5 hb
  · obtain ⟨p1, p2, p3, p4, p5⟩ := pullSlow_spec (S := S) L h n (n := 1) (by omega)
    dsimp only
    generalize b.pullSlow S 1 n = r at *
    have hpa' := pos_avail p1
    split
    · rename_i hb
      refine ⟨p1, ⟨?_, ?_, ⟨0, Nat.zero_le _, by rw [slice_zero, List.append_nil], fun _ => ?_⟩, by simp, fun _ _ => ?_, id⟩, p5⟩
      · show b.pos ≤ r.2.pos; omega
      · show r.2.pos ≤ b.pos + n; omega
      · show 0 = r.2.pos - b.pos; omega
      · show r.2.phys.ok = false ∨ (E ∧ b.pos = _)
        obtain ⟨q1, q2⟩ := p4 hb
        rcases q2 with q2 | ⟨q2, q3⟩
        · exact .inl q2
        · exact .inr ⟨q2, by omega⟩
    · rename_i hb
      have q1 := p3 (by simpa using hb)
      have key : ∀ z : Bool × Dest × BR τ, Copies D E PInv S (min n r.2.avail) d r.2 z →
          BInv D PInv z.2.2 ∧ (ops S).CopySomePost D E n d b z ∧ (b.phys.ok = false → z.2.2.phys.ok = false) := by
        intro z hz
        obtain ⟨k, z1, z2, z3, z4, z5, z6, z7, z8, z9, z10⟩ := hz.out
        rw [p2] at z2 z3 z4 z5 z6 z7 z8
        refine ⟨z1, ⟨z2, ?_, ⟨k, z4, z5, z6⟩, fun hb' => ⟨fun _ => ?_, .inr trivial, (z7 hb').2⟩, fun hb' ho => ?_, z9⟩, fun ho => z10 (p5 ho)⟩
        · show z.2.2.pos ≤ b.pos + n; omega
        · have := (z7 hb').1
          show b.pos < z.2.2.pos; omega
        · obtain ⟨j1, j2⟩ := z8 hb' ho
          have := L.limit _ p1.phys
          rcases j2 with j2 | ⟨j2, j3⟩
          · exact .inl j2
          · omega
      split
      · have hk : min n r.2.avail ≤ r.2.avail := Nat.min_le_right _ _
        generalize min n r.2.avail = k at *
        have := copyEnd_spec (S := S) (E := E) p1 k d (by omega)
        unfold copyEnd at this
        rw [Nat.min_eq_left hk, decide_eq_true hk] at this
        dsimp only at this
        rw [Bool.and_true] at this
        exact key _ this
      · exact key _ (copyLoop_spec L _ p1 (by omega))

theorem seekBehind_spec (L : S.Lawful D E PInv) {b : BR τ} (h : BInv D PInv b) (h0 : b.buf = []) {q : Nat} (hq : q ≠ b.phys.limitPos) :
    BInv D PInv (b.seekBehind S q).2 ∧ (b.phys.limitPos < q → b.phys.limitPos ≤ (b.seekBehind S q).2.pos ∧ (b.seekBehind S q).2.pos ≤ q) ∧
    ((b.seekBehind S q).1 = true → (b.seekBehind S q).2.pos = q) ∧
    ((b.seekBehind S q).1 = false → (b.seekBehind S q).2.phys.ok = false ∨ (E ∧ (b.seekBehind S q).2.pos = D.length ∧ D.length < q)) ∧
    (b.phys.ok = false → (b.seekBehind S q).2.phys.ok = false) := by
  have hpa := pos_avail h
  have ha : b.avail = 0 := by unfold avail; rw [h0]; exact Nat.zero_sub _
  unfold seekBehind
  split
  · rename_i r hr
    obtain ⟨r1, r2, r3, r4, r5⟩ := L.seekBehind q b.phys r h.phys hq hr
    have hpos : BR.pos { b with phys := r.2 } = r.2.limitPos := by
      show r.2.limitPos - (b.buf.length - b.idx) = _
      rw [h0]; exact congrArg _ (Nat.zero_sub _)
    dsimp only
    rw [hpos]
    exact ⟨⟨r1, h.idx, by show b.buf.length ≤ _; rw [h0]; exact Nat.zero_le _, by
      show b.buf = slice D (r.2.limitPos - b.buf.length) b.buf.length
      rw [h0]; exact (slice_zero _ _).symm⟩, r2, r3, r4, r5⟩
  · split
    case _ =>
     have hs : b.start = b.phys.limitPos := by unfold start; rw [h0]; rfl
     obtain ⟨s1, ⟨s2, s3, s4, s5⟩, s6⟩ := (core_lawful L).toOps.seekSlow b q h (by
       show q < b.start ∨ b.phys.limitPos < q
       omega)
     have s2 : BR.pos ((core S).seekSlow q b).2 ≤ max q b.pos ∨ (q < b.pos ∧ _) := s2
     have s3 : b.pos ≤ q → b.pos ≤ BR.pos ((core S).seekSlow q b).2 := s3
     refine ⟨s1, fun hlt => ⟨?_, ?_⟩, fun hb => (s4 hb).1, s5, s6⟩
     · have := s3 (by omega); omega
     · rcases s2 with h | ⟨h, _⟩ <;> omega
    case _ p hr =>
     obtain ⟨r1, r2, r3, r4, r5⟩ := L.rewind q b.phys p h.phys hq hr
     have hb' : BInv D PInv ({ b with phys := p } : BR τ) := ⟨r1, h.idx, by
       show b.buf.length ≤ _; rw [h0]; exact Nat.zero_le _, by
       show b.buf = slice D (p.limitPos - b.buf.length) b.buf.length
       rw [h0]; exact (slice_zero _ _).symm⟩
     have hpos : BR.pos ({ b with phys := p } : BR τ) = p.limitPos := by
       show p.limitPos - (b.buf.length - b.idx) = _
       rw [h0]; exact congrArg _ (Nat.zero_sub _)
     have hs : BR.start ({ b with phys := p } : BR τ) = p.limitPos := by unfold start; rw [h0]; rfl
     split
     · rename_i ho
       exact ⟨hb', fun hlt => by omega, (fun hb => by cases hb), fun _ => .inl ho, fun _ => ho⟩
     · rename_i ho
       have ho : p.ok = true := by simpa using ho
       have hle := r3 ho
       split
       · rename_i hqe
         exact ⟨hb', fun hlt => by omega, fun _ => by rw [hpos]; exact hqe.symm, (fun hb => by cases hb), r4⟩
       · rename_i hqe
         obtain ⟨s1, ⟨s2, s3, s4, s5⟩, s6⟩ := (core_lawful L).toOps.seekSlow { b with phys := p } q hb' (by
           show q < BR.start ({ b with phys := p } : BR τ) ∨ p.limitPos < q
           omega)
         refine ⟨s1, fun hlt => by omega, fun hb => (s4 hb).1, s5, fun hf => ?_⟩
         have := r4 hf
         rw [ho] at this; cases this

theorem seekSlow_spec (L : S.Lawful D E PInv) {b : BR τ} (h : BInv D PInv b) {q : Nat} (hq : q < b.start ∨ b.phys.limitPos < q) :
    BInv D PInv (b.seekSlow S q).2 ∧ (ops S).SeekPost D E q b (b.seekSlow S q) ∧
    (b.phys.ok = false → (b.seekSlow S q).2.phys.ok = false) := by
  have hpa := pos_avail h
  have hse := pos_eq h
  have key : ∀ (b' : BR τ) (z : Sizer → Sizer) (r : Bool × BR τ), b'.buf = [] → BInv D PInv b' → b'.phys = b.phys → r = b'.seekBehind S q →
      BInv D PInv { r.2 with sizer := z r.2.sizer } ∧ (ops S).SeekPost D E q b (r.1, { r.2 with sizer := z r.2.sizer }) ∧
      (b.phys.ok = false → r.2.phys.ok = false) := by
    intro b' z r h0 h' hp hr
    have hlim := L.limit _ h.phys
    obtain ⟨s1, s2, s3, s4, s5⟩ := seekBehind_spec (S := S) L h' h0 (q := q) (by rw [hp]; omega)
    rw [← hr, hp] at *
    refine ⟨⟨s1.phys, s1.idx, s1.len, s1.data⟩, ⟨?_, fun hle => ?_, fun hb => ⟨s3 hb, .inr trivial⟩, s4⟩, s5⟩
    · show r.2.pos ≤ max q b.pos ∨ (q < b.pos ∧ r.2.phys.ok = false)
      rcases hq with hq | hq
      · cases hb : r.1 with
        | true => have := s3 hb; exact .inl (by omega)
        | false =>
          rcases s4 hb with h1 | ⟨h1, h2, h3⟩
          · exact .inr ⟨by omega, h1⟩
          · omega
      · have := s2 hq; exact .inl (by omega)
    · have hle : b.pos ≤ q := hle
      show b.pos ≤ r.2.pos
      have := s2 (by omega); omega
  unfold seekSlow
  split
  · exact key b.sync id _ rfl (sync_spec h).1 rfl rfl
  · dsimp only
    exact key ({ b with sizer := b.sizer.endRun b.pos } : BR τ).sync
      (fun z => z.beginRun (BR.start (({ b with sizer := b.sizer.endRun b.pos } : BR τ).sync.seekBehind S q).2)) _ rfl
      ⟨h.phys, Nat.le_refl _, Nat.zero_le _, (slice_zero _ _).symm⟩ rfl rfl

/-- `BufferedReader` meets the contract of `Reader`. -/
theorem lawful (L : S.Lawful D E PInv) : (ops S).Lawful D E (BInv D PInv) where
  window := (core_lawful L).window
  data := (core_lawful L).data
  setCursor := (core_lawful L).setCursor
  pullSlow := (core_lawful L).pullSlow
  readSlow b k n h hn hp := by
    have hav : (ops S).avail b = b.avail := core_avail (S := S) h
    rw [hav] at hp
    cases k with
    | chars =>
      refine readChars_spec L h ?_
      by_cases hlt : b.avail < n
      · exact hlt
      · cases (hp (by omega)).2
    | blocks => exact readBlocks_spec L (n + 1) h (by omega)
  readAvail b n h hn ha hb := by
    have hav : (ops S).avail b = b.avail := core_avail (S := S) h
    rw [hav] at ha
    have : (readBlocks S (n + 1) n b).1 = false := hb
    unfold readBlocks readEnd at this
    rw [if_pos ha, if_pos ha] at this
    cases this
  copySlow b n d h hn hp := copyLoop_spec L (n + 1) h (by omega)
  copyBackSlow b n d h hn hp := copyBackSlow_spec L h d (by
    have hav : (ops S).avail b = b.avail := core_avail (S := S) h
    rw [hav] at hp
    exact hp)
  readSomeSlow b n h hn h0 := readSomeSlow_spec L h hn (by
    rw [← core_avail (S := S) h]; exact h0)
  copySomeSlow b n d h hn h0 := copySomeSlow_spec L h d hn (by
    rw [← core_avail (S := S) h]; exact h0)
  readHintSlow b n rec h hn := by
    have hn : b.avail < n := by rw [← core_avail (S := S) h]; exact hn
    obtain ⟨p1, p2, p3, p4, p5⟩ := pullSlow_spec (S := S) L h rec hn
    exact ⟨p1, p2, p5⟩
  seekSlow b q h hq := seekSlow_spec L h hq
  sizeImpl b h := by
    show BInv D PInv (b.sizeImpl S).2 ∧ BR.pos (b.sizeImpl S).2 = b.pos ∧ (∀ n, (b.sizeImpl S).1 = some n →
      (E → n = D.length) ∧ D.length ≤ n ∧ _) ∧ ((b.sizeImpl S).1 = none → (b.sizeImpl S).2.phys.ok = false) ∧
      (b.phys.ok = false → (b.sizeImpl S).2.phys.ok = false)
    unfold sizeImpl
    split
    · rename_i r hr
      obtain ⟨r1, r2, r3, r4, r5⟩ := L.sizeImpl _ r h.phys hr
      refine ⟨⟨r1, h.idx, ?_, ?_⟩, ?_, fun n hn => ⟨(r3 n hn).1, (r3 n hn).2, .inr trivial⟩, r4, r5⟩
      · show _ ≤ r.2.limitPos; rw [r2]; exact h.len
      · show b.buf = slice D (r.2.limitPos - b.buf.length) b.buf.length; rw [r2]; exact h.data
      · show r.2.limitPos - _ = _; rw [r2]; rfl
    · split
      · rename_i ho
        exact ⟨h, rfl, by simp, fun _ => ho, id⟩
      · split
        · obtain ⟨f1, f2, f3⟩ := fail_spec L h
          exact ⟨f1, f2, by simp, fun _ => f3, fun _ => f3⟩
        · rename_i e he
          obtain ⟨x1, x2⟩ := L.exact _ _ h.phys he
          exact ⟨h, rfl, fun n hn => by cases hn; exact ⟨fun hE => (x2.2 hE).symm, x1, .inr trivial⟩, by simp, id⟩

theorem seekBehind_back (L : S.Lawful D E PInv) {b : BR τ} (h : BInv D PInv b) (h0 : b.buf = []) {q : Nat} (hq : q < b.phys.limitPos)
    (hra : S.randomAccess b.phys = true) :
    ((b.seekBehind S q).1 = true → (b.seekBehind S q).2.phys.limitPos = q) ∧
    ((b.seekBehind S q).1 = false → (b.seekBehind S q).2.phys.ok = false) := by
  have hlim := L.limit _ h.phys
  obtain ⟨s1, s2, s3, s4, s5⟩ := seekBehind_spec (S := S) L h h0 (q := q) (by omega)
  refine ⟨fun hb => ?_, fun hb => ?_⟩
  · unfold seekBehind at hb ⊢
    split
    · rename_i r hr
      rw [hr] at hb
      exact (L.seekBehind q b.phys r h.phys (by omega) hr).2.2.1 hb
    · rename_i hr
      rw [hr] at hb
      dsimp only at hb
      have hrw : S.rewind q b.phys = none := by
        cases hw : S.rewind q b.phys with
        | none => rfl
        | some p =>
          have := (L.rewind q b.phys p h.phys (by omega) hw).2.2.2.2
          rw [hra] at this; cases this
      rw [hrw] at hb
      dsimp only at hb
      unfold Core.seekSlow at hb
      rw [if_pos (show q ≤ (core S).limit b from Nat.le_of_lt hq)] at hb
      cases hb
  · rcases s4 hb with h1 | ⟨h1, h2, h3⟩
    · exact h1
    · omega

/-- `Sync()` keeps the position, and moves the physical position to it if the source supports random access. -/
theorem syncImpl_spec (L : S.Lawful D E PInv) {b : BR τ} (h : BInv D PInv b) :
    BInv D PInv (b.syncImpl S).2 ∧
    ((b.syncImpl S).1 = true → (b.syncImpl S).2.pos = b.pos ∧
      (S.randomAccess b.phys = true → (b.syncImpl S).2.phys.limitPos = b.pos)) ∧
    ((b.syncImpl S).1 = false → (b.syncImpl S).2.phys.ok = false) ∧
    (b.phys.ok = false → (b.syncImpl S).2.phys.ok = false) := by
  have hpa := pos_avail h
  unfold syncImpl
  split
  · rename_i hc
    refine ⟨h, fun _ => ⟨rfl, fun hr => ?_⟩, id, id⟩
    rw [hc.2] at hr; cases hr
  · dsimp only
    have h' : BInv D PInv ({ b with sizer := b.sizer.endRun b.pos } : BR τ).sync :=
      ⟨h.phys, Nat.le_refl _, Nat.zero_le _, (slice_zero _ _).symm⟩
    have h0 : BR.buf ({ b with sizer := b.sizer.endRun b.pos } : BR τ).sync = [] := rfl
    have hp : BR.phys ({ b with sizer := b.sizer.endRun b.pos } : BR τ).sync = b.phys := rfl
    have hpos : BR.pos ({ b with sizer := b.sizer.endRun b.pos } : BR τ).sync = b.phys.limitPos := rfl
    generalize ({ b with sizer := b.sizer.endRun b.pos } : BR τ).sync = b' at *
    split
    · rename_i hq
      exact ⟨⟨h'.phys, h'.idx, h'.len, h'.data⟩, fun _ => ⟨by show b'.pos = _; rw [hq, hpos, hp], fun _ => hq.symm⟩, id, fun ho => by
        show b'.phys.ok = _; rw [hp]; exact ho⟩
    · rename_i hq
      obtain ⟨s1, s2, s3, s4, s5⟩ := seekBehind_spec (S := S) L h' h0 (q := b.pos) hq
      obtain ⟨t1, t2⟩ := seekBehind_back (S := S) L h' h0 (q := b.pos) (by rw [hp] at hq ⊢; omega) (by
        rw [hp] at hq ⊢
        cases hr : S.randomAccess b.phys with
        | true => rfl
        | false =>
          rename_i hc
          have : ¬ 0 < b.avail := fun h => hc ⟨h, hr⟩
          omega)
      rw [hp] at s5
      exact ⟨⟨s1.phys, s1.idx, s1.len, s1.data⟩, fun hb => ⟨s3 hb, fun _ => t1 hb⟩, t2, s5⟩

/-- `Close()` moves the physical position to the position of the reader if the source supports random access, otherwise leaves it. -/
theorem done_spec (L : S.Lawful D E PInv) {b : BR τ} (h : BInv D PInv b) :
    PInv (b.done S) ∧ (S.randomAccess b.phys = true → (b.done S).ok = true → (b.done S).limitPos = b.pos) ∧
    (S.randomAccess b.phys = false → b.done S = b.phys) ∧ (b.phys.ok = false → (b.done S).ok = false) := by
  have hpa := pos_avail h
  unfold done
  split
  · rename_i hc
    have h' : BInv D PInv ({ b with buf := [], idx := 0 } : BR τ) :=
      ⟨h.phys, Nat.le_refl _, Nat.zero_le _, (slice_zero _ _).symm⟩
    have hp : BR.phys ({ b with buf := [], idx := 0 } : BR τ) = b.phys := rfl
    have h0 : BR.buf ({ b with buf := [], idx := 0 } : BR τ) = [] := rfl
    generalize ({ b with buf := [], idx := 0 } : BR τ) = b' at *
    have hlt : b.pos < b'.phys.limitPos := by rw [hp]; omega
    obtain ⟨s1, s2, s3, s4, s5⟩ := seekBehind_spec (S := S) L h' h0 (q := b.pos) (by omega)
    obtain ⟨t1, t2⟩ := seekBehind_back (S := S) L h' h0 (q := b.pos) hlt (by rw [hp]; exact hc.2)
    rw [hp] at s5
    refine ⟨s1.phys, fun _ ho => ?_, (fun hr => by rw [hc.2] at hr; cases hr), s5⟩
    cases hb : (b'.seekBehind S b.pos).1 with
    | true => exact t1 hb
    | false => rw [t2 hb] at ho; cases ho
  · rename_i hc
    refine ⟨h.phys, fun hr _ => ?_, fun _ => rfl, id⟩
    rw [hr] at hc
    have : ¬ 0 < b.avail := fun h0 => hc ⟨h0, rfl⟩
    omega

end BR
end Riegeli.Rdr

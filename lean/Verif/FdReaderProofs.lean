import Verif.FdReader
import Verif.BufferedReaderProofs
/-!
# `FdReader` meets the contract of a class derived from `BufferedReader`
-/
namespace Riegeli.Rdr

/-- What does not change after an `FdReader` was initialized: whether it has an independent position, whether it supports random access,
and its position and the position of the file descriptor at the beginning. -/
structure FdCfg where
  indep : Bool
  ra : Bool
  pos : Nat
  filePos : Nat

/-- The invariant of `FdReader`: the physical position corresponds to the position of the file descriptor, unless the reader failed; an
independent position leaves the position of the file descriptor unchanged. -/
structure FInv (os : Os) (D : Bytes) (c : FdCfg) (p : Phys Fd) : Prop where
  lim : p.limitPos ≤ D.length
  data : p.ok = true → D.drop p.limitPos = os.content.drop (Fd.at' p)
  const : p.src.indep = c.indep ∧ p.src.ra = c.ra
  ra : c.ra = true → D = os.content ∧ os.statSize = D.length ∧ (c.indep = false → c.pos = c.filePos)
  off : p.ok = true → c.indep = false → p.src.filePos + c.pos = p.limitPos + c.filePos
  indep : c.indep = true → p.src.filePos = c.filePos
  exact : ∀ e, p.exact = some e → e = D.length

namespace Fd
variable {os : Os} {D : Bytes} {c : FdCfg} {p : Phys Fd}

theorem fail_spec (h : FInv os D c p) : FInv os D c (fail p) :=
  ⟨h.lim, (fun ho => by cases ho), h.const, h.ra, (fun ho => by cases ho), h.indep, h.exact⟩

theorem tick_spec (h : FInv os D c p) : FInv os D c (tick p) := ⟨h.lim, h.data, h.const, h.ra, h.off, h.indep, h.exact⟩

theorem setExact_spec (h : FInv os D c p) {e : Nat} (he : e = D.length) : FInv os D c (setExact e p) ∧
    (setExact e p).limitPos = p.limitPos ∧ (setExact e p).ok = p.ok ∧ (setExact e p).src = p.src := by
  unfold setExact
  split
  · exact ⟨h, rfl, rfl, rfl⟩
  · exact ⟨⟨h.lim, h.data, h.const, h.ra, h.off, h.indep, fun e' he' => by cases he'; exact he⟩, rfl, rfl, rfl⟩

theorem rest (h : FInv os D c p) (ho : p.ok = true) : D.length - p.limitPos = os.content.length - at' p := by
  have := congrArg List.length (h.data ho)
  rwa [List.length_drop, List.length_drop] at this

theorem data_eq (h : FInv os D c p) (ho : p.ok = true) (k : Nat) : slice os.content (at' p) k = slice D p.limitPos k := by
  unfold slice; rw [h.data ho]

theorem advance_spec (h : FInv os D c p) (ho : p.ok = true) {k : Nat} (hk : k ≤ os.content.length - at' p) : FInv os D c (advance k p) := by
  have hr := rest h ho
  have hl := h.lim
  have hat : at' (advance k p) = at' p + k := by
    unfold at' advance; dsimp only; split <;> rfl
  refine ⟨?_, fun _ => ?_, h.const, h.ra, fun _ hi => ?_, fun hi => ?_, h.exact⟩
  · show p.limitPos + k ≤ _; omega
  · rw [hat]
    show D.drop (p.limitPos + k) = _
    rw [← List.drop_drop, h.data ho, List.drop_drop]
  · show (if p.src.indep then _ else p.src.filePos + k) + c.pos = p.limitPos + k + c.filePos
    have := h.off ho hi
    rw [h.const.1, hi]
    show p.src.filePos + k + c.pos = _
    omega
  · show (if p.src.indep then p.src.filePos else _) = c.filePos
    rw [h.const.1, hi, if_pos rfl]; exact h.indep hi

theorem at_tick : at' (tick p) = at' p := rfl

theorem readInternal_spec (fuel : Nat) {m n : Nat} (h : FInv os D c p) (ho : p.ok = true) (hm : 0 < m) (hmn : m ≤ n) (hf : m ≤ fuel) :
    FInv os D c (readInternal os fuel m n p).2.2 ∧
    (readInternal os fuel m n p).2.2.limitPos = p.limitPos + (readInternal os fuel m n p).2.1.length ∧
    (readInternal os fuel m n p).2.1 = slice D p.limitPos (readInternal os fuel m n p).2.1.length ∧
    (readInternal os fuel m n p).2.1.length ≤ n ∧
    ((readInternal os fuel m n p).1 = true → m ≤ (readInternal os fuel m n p).2.1.length ∧ (readInternal os fuel m n p).2.2.ok = true) ∧
    ((readInternal os fuel m n p).1 = false → (readInternal os fuel m n p).2.1.length < m ∧
      ((readInternal os fuel m n p).2.2.ok = false ∨ (True ∧ (readInternal os fuel m n p).2.2.limitPos = D.length))) := by
  induction fuel generalizing p m n with
  | zero => omega
  | succ fuel ih =>
    unfold readInternal
    split
    · exact ⟨fail_spec h, rfl, (slice_zero _ _).symm, Nat.zero_le _, by simp, fun _ => ⟨hm, .inl rfl⟩⟩
    · rename_i hmax
      dsimp only
      split
      · exact ⟨fail_spec (tick_spec h), rfl, (slice_zero _ _).symm, Nat.zero_le _, by simp, fun _ => ⟨hm, .inl rfl⟩⟩
      · rename_i more _
        have hr := rest h ho
        have hl := h.lim
        have hk : min (min (min n (min (fdMaxPos - p.limitPos) (2 ^ 30))) (os.content.length - at' p)) (more + 1) ≤ os.content.length - at' p := by omega
        have hkn : min (min (min n (min (fdMaxPos - p.limitPos) (2 ^ 30))) (os.content.length - at' p)) (more + 1) ≤ n := by omega
        have hk0 : min (min (min n (min (fdMaxPos - p.limitPos) (2 ^ 30))) (os.content.length - at' p)) (more + 1) = 0 →
          os.content.length - at' p = 0 := by omega
        generalize min (min (min n (min (fdMaxPos - p.limitPos) (2 ^ 30))) (os.content.length - at' p)) (more + 1) = k at *
        split
        · rename_i hz
          have := hk0 hz
          obtain ⟨e1, e2, e3, e4⟩ := setExact_spec (tick_spec h) (e := p.limitPos) (by omega)
          refine ⟨e1, e2, (slice_zero _ _).symm, Nat.zero_le _, by simp, fun _ => ⟨hm, .inr ⟨trivial, ?_⟩⟩⟩
          show (setExact p.limitPos (tick p)).limitPos = _
          rw [e2]; show p.limitPos = _; omega
        · rename_i hz
          have ha := advance_spec (tick_spec h) ho (k := k) (by rw [at_tick]; exact hk)
          have hd := data_eq h ho k
          have hsl : (slice D p.limitPos k).length = k := slice_length (by omega)
          rw [hd]
          split
          · rename_i hle
            refine ⟨ha, ?_, ?_, ?_, fun _ => ⟨?_, ho⟩, by simp⟩
            · show p.limitPos + k = _; dsimp only; rw [hsl]
            · dsimp only; rw [hsl]
            · dsimp only; rw [hsl]; exact hkn
            · dsimp only; rw [hsl]; exact hle
          · rename_i hle
            obtain ⟨i1, i2, i3, i4, i5, i6⟩ := ih (m := m - k) (n := n - k) ha ho (by omega) (by omega) (by omega)
            generalize readInternal os fuel (m - k) (n - k) (advance k (tick p)) = r at *
            have i2 : r.2.2.limitPos = p.limitPos + k + r.2.1.length := i2
            have i3 : r.2.1 = slice D (p.limitPos + k) r.2.1.length := i3
            have hlen : (slice D p.limitPos k ++ r.2.1).length = k + r.2.1.length := by rw [List.length_append, hsl]
            dsimp only
            rw [hlen]
            refine ⟨i1, by omega, ?_, by omega, fun hb => ⟨?_, (i5 hb).2⟩, fun hb => ⟨?_, (i6 hb).2⟩⟩
            · rw [← slice_append, ← i3]
            · have := (i5 hb).1; omega
            · have := (i6 hb).1; omega

theorem seekInternal_spec (h : FInv os D c p) (hr : c.ra = true) {q : Nat} (hq : q ≤ D.length) :
    FInv os D c (seekInternal os q p).2 ∧
    ((seekInternal os q p).1 = true → (seekInternal os q p).2.limitPos = q) ∧
    ((seekInternal os q p).1 = false → (seekInternal os q p).2.ok = false ∧ (seekInternal os q p).2.limitPos = p.limitPos) := by
  obtain ⟨r1, r2, r3⟩ := h.ra hr
  unfold seekInternal
  split
  · rename_i hi
    refine ⟨⟨hq, fun _ => ?_, h.const, h.ra, fun _ hi' => ?_, h.indep, h.exact⟩, fun _ => rfl, by simp⟩
    · unfold at'; rw [if_pos hi, r1]
    · rw [h.const.1, hi'] at hi; cases hi
  · rename_i hi
    split
    · exact ⟨fail_spec (tick_spec h), by simp, fun _ => ⟨rfl, rfl⟩⟩
    · refine ⟨⟨hq, fun _ => ?_, h.const, h.ra, fun _ hi' => ?_, fun hi' => absurd (h.const.1.trans hi') hi, h.exact⟩, fun _ => rfl, by simp⟩
      · show D.drop q = os.content.drop (if p.src.indep then q else q)
        rw [if_neg hi, r1]
      · show q + c.pos = q + c.filePos
        rw [r3 hi']

theorem findSize_spec (h : FInv os D c p) (ho : p.ok = true) (hr : c.ra = true) :
    FInv os D c (findSize os p).2 ∧ (findSize os p).2.limitPos = p.limitPos ∧
    (∀ e, (findSize os p).1 = some e → e = D.length ∧ (findSize os p).2.ok = true) ∧
    ((findSize os p).1 = none → (findSize os p).2.ok = false) := by
  obtain ⟨r1, r2, r3⟩ := h.ra hr
  unfold findSize
  split
  · rename_i e he
    exact ⟨h, rfl, (fun e' he' => by cases he'; exact ⟨h.exact e he, ho⟩), by simp⟩
  · split
    · exact ⟨fail_spec (tick_spec h), rfl, by simp, fun _ => rfl⟩
    · obtain ⟨e1, e2, e3, e4⟩ := setExact_spec (tick_spec h) r2
      refine ⟨e1, e2, fun e he => ?_, by simp⟩
      cases he
      exact ⟨r2, by dsimp only; rw [e3]; exact ho⟩

theorem seekBehind_spec {q : Nat} {r : Bool × Phys Fd} (h : FInv os D c p) (hq : q ≠ p.limitPos) (hr : seekBehind os q p = some r) :
    FInv os D c r.2 ∧ (p.limitPos < q → p.limitPos ≤ r.2.limitPos ∧ r.2.limitPos ≤ q) ∧ (r.1 = true → r.2.limitPos = q) ∧
    (r.1 = false → r.2.ok = false ∨ (True ∧ r.2.limitPos = D.length ∧ D.length < q)) ∧ (p.ok = false → r.2.ok = false) := by
  have hl := h.lim
  unfold seekBehind at hr
  split at hr
  · split at hr
    · rename_i hlt
      cases hr
      exact ⟨fail_spec h, fun h' => by omega, by simp, fun _ => .inl rfl, fun _ => rfl⟩
    · cases hr
  · rename_i hra
    have hra : c.ra = true := by rw [h.const.2] at hra; simpa using hra
    split at hr
    · rename_i ho
      cases hr
      exact ⟨h, fun _ => ⟨Nat.le_refl _, by dsimp only; omega⟩, by simp, fun _ => .inl ho, id⟩
    · rename_i ho
      have ho : p.ok = true := by simpa using ho
      have hno : ∀ {X : Prop}, p.ok = false → X := fun hh => by rw [ho] at hh; cases hh
      split at hr
      · rename_i hlt
        obtain ⟨f1, f2, f4, f5⟩ := findSize_spec h ho hra
        generalize findSize os p = f at *
        obtain ⟨fs, p'⟩ := f
        cases fs with
        | none =>
          cases hr
          have f2 : p'.limitPos = p.limitPos := f2
          exact ⟨f1, fun _ => ⟨by dsimp only; omega, by dsimp only; omega⟩, by simp, fun _ => .inl (f5 rfl), hno⟩
        | some size =>
          obtain ⟨g1, g2⟩ := f4 _ rfl
          have f2 : p'.limitPos = p.limitPos := f2
          have f1 : FInv os D c p' := f1
          dsimp only at hr
          split at hr
          · rename_i hs
            cases hr
            obtain ⟨i1, i2, i3⟩ := seekInternal_spec (os := os) (q := size) f1 hra (by omega)
            refine ⟨i1, fun _ => ?_, by simp, fun _ => ?_, hno⟩
            · dsimp only
              cases hb : (seekInternal os size p').1 with
              | true => have := i2 hb; omega
              | false => have := (i3 hb).2; omega
            · dsimp only
              cases hb : (seekInternal os size p').1 with
              | true => have := i2 hb; exact .inr ⟨trivial, by omega, by omega⟩
              | false => exact .inl (i3 hb).1
          · rename_i hs
            cases hr
            obtain ⟨i1, i2, i3⟩ := seekInternal_spec (os := os) (q := q) f1 hra (by omega)
            refine ⟨i1, fun _ => ?_, i2, fun hb => .inl (i3 hb).1, hno⟩
            cases hb : (seekInternal os q p').1 with
            | true => have := i2 hb; omega
            | false => have := (i3 hb).2; omega
      · rename_i hlt
        cases hr
        obtain ⟨i1, i2, i3⟩ := seekInternal_spec (os := os) (q := q) h hra (by omega)
        exact ⟨i1, fun h' => absurd h' hlt, i2, fun hb => .inl (i3 hb).1, hno⟩

theorem sizeImpl_spec (h : FInv os D c p) : FInv os D c (sizeImpl os p).2 ∧ (sizeImpl os p).2.limitPos = p.limitPos ∧
    (∀ n, (sizeImpl os p).1 = some n → (True → n = D.length) ∧ D.length ≤ n) ∧ ((sizeImpl os p).1 = none → (sizeImpl os p).2.ok = false) ∧
    (p.ok = false → (sizeImpl os p).2.ok = false) := by
  unfold sizeImpl
  split
  · rename_i ho
    exact ⟨h, rfl, by simp, fun _ => ho, id⟩
  · rename_i ho
    have hno : ∀ {X : Prop}, p.ok = false → X := fun hh => absurd hh ho
    split
    · rename_i e he
      exact ⟨h, rfl, fun n hn => by cases hn; have := h.exact _ he; exact ⟨fun _ => this, by omega⟩, by simp, id⟩
    · split
      · exact ⟨fail_spec h, rfl, by simp, fun _ => rfl, fun _ => rfl⟩
      · rename_i hr
        have hr : c.ra = true := by rw [h.const.2] at hr; simpa using hr
        obtain ⟨r1, r2, r3⟩ := h.ra hr
        split
        · exact ⟨fail_spec (tick_spec h), rfl, by simp, fun _ => rfl, fun _ => rfl⟩
        · obtain ⟨e1, e2, e3, e4⟩ := setExact_spec (tick_spec h) r2
          refine ⟨e1, e2, fun n hn => by cases hn; exact ⟨fun _ => r2, by omega⟩, by simp, fun hf => hno hf⟩

/-- `FdReaderBase` with `ReadInternal()` meets the contract. -/
theorem base_lawful (os : Os) (o : BufOpts) (room : Nat → Nat → Bool) (push : Nat → Nat) (D : Bytes) (c : FdCfg) :
    (base os o room push).Lawful D True (FInv os D c) where
  limit p h := h.lim
  exact p e h he := by have := h.exact e he; exact ⟨by omega, ⟨fun _ => trivial, fun _ => this.symm⟩⟩
  fail p h := fail_spec h
  readInternal m n p h ho hm hmn hx := readInternal_spec m h ho hm hmn (Nat.le_refl _)
  copyInternal n d p r _ _ _ _ hr := by cases hr
  exactSizeReached p h := ⟨h, rfl, id⟩
  seekBehind q p r _ _ hr := by cases hr
  rewind q p r _ _ hr := by cases hr
  sizeImpl p r _ hr := by cases hr

theorem PCopies.append {n k : Nat} {d d1 : Dest} {p1 : Phys Fd} {r : Bool × Dest × Phys Fd}
    (h : PCopies D True (FInv os D c) (n - k) d1 p1 r) (hk : k ≤ n) (hp : p1.limitPos = p.limitPos + k)
    (hd : d1.written = d.written ++ slice D p.limitPos k) (hd' : d1.ok = true → d.ok = true) :
    PCopies D True (FInv os D c) n d p r := by
  obtain ⟨i1, i2, i3, ⟨j, i4, i5, i6⟩, i7, i8, i9⟩ := h
  refine ⟨i1, by omega, by omega, ⟨k + j, by omega, ?_, fun hh => by have := i6 hh; omega⟩,
    fun hh => ⟨by have := (i7 hh).1; omega, (i7 hh).2⟩, fun hh hh' => ⟨by have := (i8 hh hh').1; omega, (i8 hh hh').2⟩, fun h => hd' (i9 h)⟩
  rw [i5, hd, List.append_assoc, hp, slice_append]

theorem PCopies.none {n : Nat} {d d1 : Dest} {p1 : Phys Fd} (hn : 0 < n) (h : FInv os D c p1) (hp : p1.limitPos = p.limitPos) (hd : d1.written = d.written)
    (hd' : d1.ok = true → d.ok = true ∧ (p1.ok = false ∨ p1.limitPos = D.length)) :
    PCopies D True (FInv os D c) n d p (false, d1, p1) := by
  refine ⟨h, Nat.le_of_eq hp.symm, by dsimp only; omega, ⟨0, Nat.zero_le _, by rw [slice_zero, List.append_nil]; exact hd, fun _ => by dsimp only; omega⟩,
    by simp, fun _ ho => ⟨by dsimp only; omega, (hd' ho).2.imp id fun h => ⟨trivial, h⟩⟩, fun ho => (hd' ho).1⟩

theorem copyRange_spec (fuel : Nat) {n : Nat} {d : Dest} (h : FInv os D c p) (ho : p.ok = true) (hn : 0 < n) (hf : n ≤ fuel) :
    (∀ r, (copyRange os fuel n d p).1 = some r → PCopies D True (FInv os D c) n d p r) ∧
    ((copyRange os fuel n d p).1 = none →
      FInv os D c (copyRange os fuel n d p).2.2.2 ∧ (copyRange os fuel n d p).2.2.2.ok = true ∧
      (copyRange os fuel n d p).2.2.2.exact = p.exact ∧
      ∃ k, k < n ∧ (copyRange os fuel n d p).2.1 = n - k ∧
        (copyRange os fuel n d p).2.2.2.limitPos = p.limitPos + k ∧
        (copyRange os fuel n d p).2.2.1.written = d.written ++ slice D p.limitPos k ∧
        ((copyRange os fuel n d p).2.2.1.ok = true → d.ok = true)) := by
  induction fuel generalizing p n d with
  | zero => omega
  | succ fuel ih =>
    unfold copyRange
    split
    · rename_i hd
      refine ⟨(fun r hr => by cases hr; exact PCopies.none hn h rfl rfl (fun ho => by rw [hd] at ho; cases ho)), by simp⟩
    · rename_i hd
      have hd : d.ok = true := by simpa using hd
      split
      · exact ⟨fun r hr => by cases hr; exact PCopies.none hn (fail_spec h) rfl rfl fun _ => ⟨hd, .inl rfl⟩, by simp⟩
      · rename_i hmax
        dsimp only
        split
        · exact ⟨(fun r hr => by cases hr; exact PCopies.none hn h rfl rfl (fun ho => by cases ho)), by simp⟩
        · split
          · exact ⟨by simp, fun _ => ⟨tick_spec h, ho, rfl, 0, hn, rfl, rfl, by rw [slice_zero, List.append_nil], id⟩⟩
          · rename_i more _
            have hr := rest h ho
            have hl := h.lim
            have hk : min (min (min n (min (fdMaxPos - p.limitPos) (2 ^ 62))) (os.content.length - at' p)) (more + 1) ≤ os.content.length - at' p := by omega
            have hkn : min (min (min n (min (fdMaxPos - p.limitPos) (2 ^ 62))) (os.content.length - at' p)) (more + 1) ≤ n := by omega
            have hk0 : min (min (min n (min (fdMaxPos - p.limitPos) (2 ^ 62))) (os.content.length - at' p)) (more + 1) = 0 →
              os.content.length - at' p = 0 := by omega
            generalize min (min (min n (min (fdMaxPos - p.limitPos) (2 ^ 62))) (os.content.length - at' p)) (more + 1) = k0 at *
            split
            · rename_i hz
              have := hk0 hz
              obtain ⟨e1, e2, e3, e4⟩ := setExact_spec (tick_spec h) (e := p.limitPos) (by omega)
              exact ⟨(fun r hr => by
                cases hr
                exact PCopies.none hn e1 e2 rfl fun _ => ⟨hd, .inr (by rw [e2]; show p.limitPos = _; omega)⟩), by simp⟩
            · generalize hkk : min k0 (d.cap - d.written.length) = k
              have hk' : k ≤ k0 := by omega
              split
              · exact ⟨by simp, fun _ => ⟨tick_spec h, ho, rfl, 0, hn, rfl, rfl, by rw [slice_zero, List.append_nil], id⟩⟩
              · rename_i hz
                have ha := advance_spec (tick_spec h) ho (k := k) (by rw [at_tick]; omega)
                have hda := data_eq h ho k
                rw [hda]
                split
                · rename_i hz'
                  refine ⟨fun r hr => by
                    cases hr
                    refine ⟨ha, ?_, ?_, ⟨k, ?_, rfl, fun _ => ?_⟩, fun _ => ⟨?_, hd⟩, by simp, fun _ => hd⟩
                    · show p.limitPos ≤ p.limitPos + k; omega
                    · show p.limitPos + k ≤ _; omega
                    · show k ≤ p.limitPos + k - _; omega
                    · show k = p.limitPos + k - _; omega
                    · show p.limitPos + k = _; omega, by simp⟩
                · rename_i hz'
                  obtain ⟨i1, i2⟩ := ih (n := n - k) (d := { d with written := d.written ++ slice D p.limitPos k }) ha ho (by omega) (by omega)
                  generalize copyRange os fuel (n - k) { d with written := d.written ++ slice D p.limitPos k } (advance k (tick p)) = z at *
                  refine ⟨fun r hr => PCopies.append (i1 r hr) (by omega) rfl rfl id, fun hz => ?_⟩
                  obtain ⟨j1, j2, j3, j, j4, j5, j6, j7, j8⟩ := i2 hz
                  refine ⟨j1, j2, j3, k + j, by omega, by omega, ?_, ?_, j8⟩
                  · rw [j6]; show p.limitPos + k + j = _; omega
                  · rw [j7]
                    show d.written ++ _ ++ slice D (p.limitPos + k) j = _
                    rw [List.append_assoc, slice_append]

theorem copyInternal_spec (o : BufOpts) (room : Nat → Nat → Bool) (push : Nat → Nat) {n : Nat} {d : Dest} (h : FInv os D c p)
    (ho : p.ok = true) (hn : 0 < n) (hx : ∀ e, p.exact = some e → p.limitPos + n ≤ e) :
    PCopies D True (FInv os D c) n d p (copyInternal os (base os o room push) n d p) := by
  have L := base_lawful os o room push D c
  unfold copyInternal
  split
  · obtain ⟨c1, c2⟩ := copyRange_spec (os := os) n (d := d) h ho hn (Nat.le_refl _)
    generalize copyRange os n n d p = z at *
    obtain ⟨zr, zn, zd, zp⟩ := z
    cases zr with
    | some r => exact c1 r rfl
    | none =>
      obtain ⟨j1, j2, j3, j, j4, j5, j6, j7, j8⟩ := c2 rfl
      dsimp only at *
      rw [j5]
      refine PCopies.append (k := j) (p1 := zp) (d1 := zd) ?_ (by omega) j6 j7 j8
      exact BR.copyInternalLoop_spec L (n - j) j1 j2 (by omega) (Nat.le_refl _) (fun e he => by have := hx e (j3 ▸ he); omega)
        (by omega) (Nat.le_refl _)
  · exact BR.copyInternalLoop_spec L n h ho hn (Nat.le_refl _) hx (by omega) (Nat.le_refl _)

/-- `FdReaderBase` meets the contract of a class derived from `BufferedReader`. -/
theorem src_lawful (os : Os) (o : BufOpts) (room : Nat → Nat → Bool) (push : Nat → Nat) (D : Bytes) (c : FdCfg) :
    (src os o room push).Lawful D True (FInv os D c) where
  limit := (base_lawful os o room push D c).limit
  exact := (base_lawful os o room push D c).exact
  fail := (base_lawful os o room push D c).fail
  readInternal := (base_lawful os o room push D c).readInternal
  copyInternal n d p r h ho hn hx hr := by
    cases hr
    exact copyInternal_spec o room push h ho hn hx
  exactSizeReached := (base_lawful os o room push D c).exactSizeReached
  seekBehind q p r h hq hr := seekBehind_spec h hq hr
  rewind q p r _ _ hr := by cases hr
  sizeImpl p r h hr := by
    cases hr
    exact sizeImpl_spec h

theorem lseekEnd_spec (h : FInv os D c p) (hi : c.indep = false) (hc : c.pos = c.filePos) :
    FInv os D c (lseekEnd os p).2 ∧ (lseekEnd os p).2.limitPos = p.limitPos ∧
    (lseekEnd os p).1 = os.endPos := by
  have hd : p.ok = true → D.drop p.limitPos = os.content.drop p.limitPos := by
    intro ho
    have hp : p.src.filePos = p.limitPos := by have := h.off ho hi; omega
    have hat : at' p = p.limitPos := by unfold at'; rw [h.const.1, hi]; exact hp
    have hd := h.data ho
    rwa [hat] at hd
  have hno : ∀ {X : Prop}, c.indep = true → X := fun hh => by rw [hi] at hh; cases hh
  unfold lseekEnd
  split
  · rename_i he
    exact ⟨tick_spec h, rfl, he.symm⟩
  · rename_i size he
    dsimp only
    split
    · rename_i hs
      refine ⟨⟨h.lim, fun ho => ?_, h.const, h.ra, fun _ _ => ?_, fun hh => hno hh, h.exact⟩, rfl, he.symm⟩
      · show D.drop p.limitPos = os.content.drop (if p.src.indep then p.limitPos else size)
        rw [hd ho, h.const.1, hi, hs]; rfl
      · show size + c.pos = p.limitPos + c.filePos
        omega
    · split
      · exact ⟨⟨h.lim, (fun hh => by cases hh), h.const, h.ra, (fun hh => by cases hh), fun hh => hno hh, h.exact⟩, rfl, he.symm⟩
      · refine ⟨⟨h.lim, fun ho => ?_, h.const, h.ra, fun _ _ => ?_, fun hh => hno hh, h.exact⟩, rfl, he.symm⟩
        · show D.drop p.limitPos = os.content.drop (if p.src.indep then p.limitPos else p.limitPos)
          rw [hd ho, h.const.1, hi]; rfl
        · show p.limitPos + c.pos = p.limitPos + c.filePos
          omega

theorem regular_spec {b : BR Fd} (h : BInv D (FInv os D c) b) (hi : c.indep = false) {size : Nat} (hs : size = D.length) (hD : D = os.content)
    (hst : os.statSize = D.length) (hp : c.pos = c.filePos) :
    BInv D (FInv os D { c with ra := true }) (regular size b) ∧ (regular size b).pos = b.pos := by
  unfold regular
  dsimp only
  have h1 : FInv os D { c with ra := true } { b.phys with src := { b.phys.src with ra := true } } :=
    ⟨h.phys.lim, h.phys.data, ⟨h.phys.const.1, rfl⟩, fun _ => ⟨hD, hst, fun _ => hp⟩, h.phys.off, h.phys.indep, h.phys.exact⟩
  obtain ⟨e1, e2, e3, e4⟩ := setExact_spec h1 hs
  have e2 : (setExact size { b.phys with src := { b.phys.src with ra := true } }).limitPos = b.phys.limitPos := e2
  refine ⟨⟨e1, h.idx, ?_, ?_⟩, ?_⟩
  · dsimp only; rw [e2]; exact h.len
  · dsimp only; rw [e2]; exact h.data
  · unfold BR.pos BR.avail; dsimp only; rw [e2]

/-- The position of the reader initially. -/
def startPos (os : Os) (o : FdPos) (pos : Nat) : Nat :=
  match o with
  | .assumed a => a
  | .independent a => a
  | .current => if os.seekable = false then 0 else pos

/-- Whether the options ask for an independent position. -/
def isIndep : FdPos → Bool
  | .independent _ => true
  | _ => false

theorem init_spec (os : Os) (bo : BufOpts) (room : Nat → Nat → Bool) (push : Nat → Nat) (o : FdPos) (growing : Bool) (pos : Nat)
    (hD : Reads os o pos D) : ∃ ra,
    BInv D (FInv os D ⟨isIndep o, ra, startPos os o pos, pos⟩) (init os (src os bo room push) o growing pos) ∧
    ((init os (src os bo room push) o growing pos).phys.ok = true → (init os (src os bo room push) o growing pos).pos = startPos os o pos ∧
      (ra = true ↔ isIndep o = true ∨ (o = .current ∧ os.seekable = true ∧ os.endPos = some D.length))) := by
  have key : ∀ {c : FdCfg} (p : Phys Fd) (z : Sizer) (t : Nat), FInv os D c p → BInv D (FInv os D c) ⟨p, [], 0, z, t⟩ :=
    fun p z t h => ⟨h, Nat.le_refl _, Nat.zero_le _, (slice_zero _ _).symm⟩
  unfold init
  cases o with
  | assumed a =>
    dsimp only
    unfold Reads at hD
    refine ⟨false, ?_⟩
    dsimp only at hD
    split
    · exact ⟨key _ _ _ ⟨Nat.zero_le _, (fun h => by cases h), ⟨rfl, rfl⟩, (fun h => by cases h), (fun h => by cases h), (fun h => by cases h), by simp [fail]⟩, (fun h => by cases h)⟩
    · rename_i ha
      rw [if_neg ha] at hD
      exact ⟨key _ _ _ ⟨hD.1, fun _ => hD.2, ⟨rfl, rfl⟩, (fun h => by cases h), fun _ _ => Nat.add_comm _ _, (fun h => by cases h), by simp⟩, fun _ => ⟨rfl, by simp [isIndep]⟩⟩
  | independent a =>
    dsimp only
    obtain ⟨h1, h2, h3⟩ := hD
    split
    · exact ⟨false, key _ _ _ ⟨Nat.zero_le _, (fun h => by cases h), ⟨rfl, rfl⟩, (fun h => by cases h), (fun h => by cases h), fun _ => rfl, by simp [fail]⟩, (fun h => by cases h)⟩
    · exact ⟨true, key _ _ _ ⟨h2, fun _ => by rw [h1]; rfl, ⟨rfl, rfl⟩, fun _ => ⟨h1, h3, fun h => by cases h⟩, (fun _ h => by cases h), fun _ => rfl, by simp⟩,
        fun _ => ⟨rfl, by simp [isIndep]⟩⟩
  | current =>
    unfold Reads at hD
    unfold startPos
    dsimp only [isIndep] at hD ⊢
    split
    · rename_i hs
      rw [if_pos hs] at hD
      exact ⟨false, key _ _ _ ⟨Nat.zero_le _, fun _ => hD, ⟨rfl, rfl⟩, (fun h => by cases h), fun _ _ => Nat.add_comm _ _, (fun h => by cases h), by simp [tick]⟩,
        fun _ => ⟨rfl, by simp [hs]⟩⟩
    · rename_i hs
      rw [if_neg hs] at hD
      have hs' : os.seekable = true := by simpa using hs
      obtain ⟨h1, h2, h3⟩ := hD
      have hp0 : FInv os D ⟨false, false, pos, pos⟩ { tick { src := ⟨pos, 0, false, growing, false⟩, limitPos := 0, ok := true, exact := none } with limitPos := pos } :=
        ⟨h2, fun _ => by rw [h1]; rfl, ⟨rfl, rfl⟩, (fun h => by cases h), fun _ _ => rfl, (fun h => by cases h), by simp [tick]⟩
      obtain ⟨l1, l2, l4⟩ := lseekEnd_spec hp0 rfl rfl
      have l2 : _ = pos := l2
      generalize lseekEnd os { tick { src := ⟨pos, 0, false, growing, false⟩, limitPos := 0, ok := true, exact := none } with limitPos := pos } = q at *
      obtain ⟨qs, p⟩ := q
      dsimp only at l1 l2 l4 ⊢
      cases qs with
      | none => exact ⟨false, key _ _ _ l1, fun _ => ⟨l2, by simp [← l4]⟩⟩
      | some size =>
        dsimp only
        split
        · rename_i hok
          exact ⟨false, key _ _ _ l1, fun ho => by rw [hok] at ho; cases ho⟩
        · rename_i hok
          have hok : p.ok = true := by simpa using hok
          have hpos : BR.pos (⟨p, [], 0, ⟨0, 0, false⟩, 0⟩ : BR Fd) = pos := l2
          have hnz : size = D.length → (true = true ↔ false = true ∨ FdPos.current = FdPos.current ∧ os.seekable = true ∧ os.endPos = some D.length) :=
            fun h => by simp [hs', ← l4, h]
          split
          · rename_i hz
            have L := src_lawful os bo room push D ⟨false, false, pos, pos⟩
            have hb := key p ⟨0, 0, false⟩ 0 l1
            obtain ⟨g1, g2, g3, g4, g5⟩ := BR.pullSlow_spec (S := src os bo room push) L hb 0 (n := 1) (by show 0 < 1; omega)
            have g2 := g2.trans hpos
            generalize BR.pullSlow (src os bo room push) 1 0 (⟨p, [], 0, ⟨0, 0, false⟩, 0⟩ : BR Fd) = r at *
            split
            · rename_i hr
              have hav := g3 hr
              have hpa := BR.pos_avail g1
              have hlim := L.limit _ g1.phys
              have hD0 : 0 < D.length := by omega
              have hnz' : (false = true ↔ false = true ∨ FdPos.current = FdPos.current ∧ os.seekable = true ∧ os.endPos = some D.length) := by
                rw [← l4, hz.1]; simp; omega
              split
              · obtain ⟨m1, m2, m4⟩ := lseekEnd_spec g1.phys rfl rfl
                generalize lseekEnd os r.2.phys = q at *
                obtain ⟨qs, p'⟩ := q
                dsimp only at m1 m2 m4 ⊢
                rw [← l4] at m4
                cases m4
                dsimp only
                have hb' : BInv D (FInv os D ⟨false, false, pos, pos⟩) { r.2 with phys := p' } :=
                  ⟨m1, g1.idx, by rw [m2]; exact g1.len, by dsimp only; rw [m2]; exact g1.data⟩
                have hps : BR.pos { r.2 with phys := p' } = pos := by
                  rw [← g2]; unfold BR.pos BR.avail; dsimp only; rw [m2]
                split
                · rename_i hpo
                  exact ⟨false, hb', fun ho => by rw [hpo] at ho; cases ho⟩
                · split
                  · omega
                  · exact ⟨false, hb', fun _ => ⟨hps, hnz'⟩⟩
              · exact ⟨false, g1, fun _ => ⟨g2, hnz'⟩⟩
            · rename_i hr
              split
              · rename_i hro
                exact ⟨false, g1, fun ho => by rw [hro] at ho; cases ho⟩
              · rename_i hro
                obtain ⟨x1, x2⟩ := g4 (by simpa using hr)
                have hpa := BR.pos_avail g1
                have hpz : pos = 0 := by omega
                have hDz : D.length = 0 := by
                  rcases x2 with x2 | ⟨-, x2⟩
                  · exact absurd x2 hro
                  · omega
                have hst : os.statSize = D.length := by
                  rcases h3 with h3 | ⟨h3, h4⟩ | ⟨h3, h4, h5⟩
                  · rw [h3] at l4; cases l4
                  · exact h4
                  · omega
                obtain ⟨r1, r2⟩ := regular_spec g1 rfl (size := size) (by omega) h1 hst rfl
                exact ⟨true, r1, fun _ => ⟨r2.trans g2, hnz (by omega)⟩⟩
          · rename_i hz
            have hsz : size = D.length ∧ os.statSize = D.length := by
              rcases h3 with h3 | ⟨h3, h4⟩ | ⟨h3, h4, h5⟩
              · rw [h3] at l4; cases l4
              · rw [h3] at l4; cases l4; exact ⟨rfl, h4⟩
              · rw [h3] at l4; cases l4; exact absurd ⟨rfl, by omega⟩ hz
            obtain ⟨r1, r2⟩ := regular_spec (key p ⟨0, 0, false⟩ 0 l1) rfl hsz.1 h1 hsz.2 rfl
            exact ⟨true, r1, fun _ => ⟨r2.trans hpos, hnz hsz.1⟩⟩

end Fd
end Riegeli.Rdr

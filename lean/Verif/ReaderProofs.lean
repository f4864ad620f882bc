import Verif.Reader
/-!
# The public functions of a lawful reader
-/
namespace Riegeli.Rdr

theorem slice_length {D : Bytes} {p n : Nat} (h : p + n ≤ D.length) : (slice D p n).length = n := by
  simp only [slice, List.length_take, List.length_drop]; omega

theorem slice_append (D : Bytes) (p a b : Nat) : slice D p a ++ slice D (p + a) b = slice D p (a + b) := by
  simp only [slice, ← List.drop_drop]
  exact (List.take_add (l := D.drop p) (i := a) (j := b)).symm

theorem slice_zero (D : Bytes) (p : Nat) : slice D p 0 = [] := by simp [slice]

theorem slice_slice {D : Bytes} {p n q m : Nat} (h : q + m ≤ n) : slice (slice D p n) q m = slice D (p + q) m := by
  simp only [slice, List.drop_take, List.take_take, List.drop_drop]
  rw [Nat.min_eq_left (by omega)]

theorem slice_take {D : Bytes} {p n m : Nat} (h : p + n ≤ m) : slice (D.take m) p n = slice D p n := by
  simp only [slice, List.drop_take, List.take_take]
  rw [Nat.min_eq_left (by omega)]

namespace Dest

theorem write_spec (d : Dest) (bs : Bytes) :
    (∃ k, k ≤ bs.length ∧ (d.write bs).2.written = d.written ++ bs.take k ∧ ((d.write bs).2.ok = true → k = bs.length)) ∧
    ((d.write bs).1 = true → (d.write bs).2.ok = true) ∧ ((d.write bs).1 = false → (d.write bs).2.ok = false) ∧
    ((d.write bs).2.ok = true → d.ok = true) := by
  unfold write
  split
  · rename_i h
    exact ⟨⟨0, by omega, by simp, by intro h'; rw [h] at h'; cases h'⟩, by simp, fun _ => h, fun h => h⟩
  · rename_i h
    have h : d.ok = true := by simpa using h
    split
    · exact ⟨⟨bs.length, by omega, by simp, fun _ => rfl⟩, fun _ => h, by simp, fun _ => h⟩
    · exact ⟨⟨min (d.cap - d.written.length) bs.length, by omega, by rw [List.take_eq_take_min], by intro h'; cases h'⟩,
        by simp, fun _ => rfl, fun _ => h⟩

theorem prepend_spec (d : Dest) (bs : Bytes) :
    ((d.prepend bs).1 = true → (d.prepend bs).2.ok = true ∧ (d.prepend bs).2.written = bs ++ d.written) ∧
    ((d.prepend bs).1 = false → (d.prepend bs).2.ok = false) ∧ ((d.prepend bs).2.ok = true → d.ok = true) := by
  unfold prepend
  split
  · rename_i h
    exact ⟨by simp, fun _ => h, fun h => h⟩
  · rename_i h
    have h : d.ok = true := by simpa using h
    split
    · exact ⟨fun _ => ⟨h, rfl⟩, by simp, fun _ => h⟩
    · exact ⟨by simp, fun _ => rfl, fun _ => h⟩

end Dest

namespace ReaderOps
variable {σ : Type} {R : ReaderOps σ} {D : Bytes} {E : Prop} {Inv : σ → Prop}

theorem Keeps.rfl {s : σ} : R.Keeps s s := .inl (Eq.refl _)

theorem Keeps.of_eq {s s' : σ} (h : R.ok s' = R.ok s) : R.Keeps s s' := .inl h

theorem Keeps.trans {s s' s'' : σ} (h : R.Keeps s s') (h' : R.Keeps s' s'') : R.Keeps s s'' := by
  rcases h with h | h
  · exact h'.imp (fun h' => h'.trans h) id
  · exact .inr h

namespace Lawful

theorem move (L : R.Lawful D E Inv) {s : σ} {n : Nat} (h : Inv s) (hn : n ≤ R.avail s) :
    Inv (R.move n s) ∧ R.cursor (R.move n s) = R.cursor s + n ∧ R.start (R.move n s) = R.start s ∧
    R.limit (R.move n s) = R.limit s ∧ R.ok (R.move n s) = R.ok s := by
  have hw := L.window s h
  unfold avail at hn
  exact L.setCursor s _ h (by omega) (by omega)

theorem peek (L : R.Lawful D E Inv) {s : σ} {n : Nat} (h : Inv s) (hn : n ≤ R.avail s) :
    R.peek n s = slice D (R.cursor s) n := by
  have hw := L.window s h
  unfold avail at hn
  rw [ReaderOps.peek, L.data s h, slice_slice (by omega)]
  congr 1; omega

theorem pull (L : R.Lawful D E Inv) {s : σ} (n rec : Nat) (h : Inv s) :
    Inv (R.pull n rec s).2 ∧ R.cursor (R.pull n rec s).2 = R.cursor s ∧
    ((R.pull n rec s).1 = true → n ≤ R.avail (R.pull n rec s).2 ∧ R.Keeps s (R.pull n rec s).2) ∧
    ((R.pull n rec s).1 = false → R.avail (R.pull n rec s).2 < n ∧
      (R.ok (R.pull n rec s).2 = false ∨ (E ∧ R.limit (R.pull n rec s).2 = D.length))) ∧
    (R.ok s = false → R.ok (R.pull n rec s).2 = false) := by
  unfold ReaderOps.pull
  split
  · rename_i hn
    exact ⟨h, rfl, fun _ => ⟨hn, .rfl⟩, by simp, id⟩
  · exact L.pullSlow s n rec h (by omega)

theorem readPost_fast (L : R.Lawful D E Inv) {s : σ} {n : Nat} (h : Inv s) (hn : n ≤ R.avail s) :
    R.ReadPost D E n s (true, R.peek n s, R.move n s) := by
  have hm := L.move h hn
  refine ⟨by show _ ≤ R.cursor (R.move n s); omega, ?_, fun _ => ⟨hm.2.1, .inl hm.2.2.2.2⟩, by simp⟩
  show R.peek n s = slice D _ (R.cursor (R.move n s) - _)
  rw [L.peek h hn, hm.2.1]
  congr 1; omega

theorem read (L : R.Lawful D E Inv) {s : σ} (k : Kind) (n : Nat) (h : Inv s) :
    Inv (R.read k n s).2.2 ∧ R.ReadPost D E n s (R.read k n s) ∧ (R.ok s = false → R.ok (R.read k n s).2.2 = false) := by
  unfold ReaderOps.read
  split
  · rename_i hn
    have hm := L.move h hn.1
    exact ⟨hm.1, L.readPost_fast h hn.1, fun ho => hm.2.2.2.2.trans ho⟩
  · rename_i hn
    refine L.readSlow s k n h ?_ ?_
    · rcases Nat.eq_zero_or_pos n with rfl | h0
      · exact absurd ⟨Nat.zero_le _, .inr (Nat.zero_le _)⟩ hn
      · exact h0
    · intro h1
      cases k with
      | chars => exact absurd ⟨h1, .inl rfl⟩ hn
      | blocks =>
        refine ⟨?_, rfl⟩
        by_cases h2 : n ≤ kMaxBytesToCopy
        · exact absurd ⟨h1, .inr h2⟩ hn
        · omega

theorem readView (L : R.Lawful D E Inv) {s : σ} (n : Nat) (h : Inv s) :
    Inv (R.readView n s).2.2 ∧ R.ReadPost D E n s (R.readView n s) ∧
    (R.ok s = false → R.ok (R.readView n s).2.2 = false) := by
  obtain ⟨hi, hc, ht, hf, ho⟩ := L.pull n 0 h
  unfold ReaderOps.readView
  cases hb : (R.pull n 0 s).1 with
  | true =>
    have hn := (ht hb).1
    simp only [hb, if_true]
    have hm := L.move hi hn
    have hp := L.readPost_fast hi hn
    refine ⟨hm.1, ?_, fun h' => hm.2.2.2.2.trans (ho h')⟩
    unfold ReadPost at *
    rw [hc] at hp
    exact ⟨hp.1, hp.2.1, fun h => ⟨(hp.2.2.1 h).1, (ht hb).2.trans (hp.2.2.1 h).2⟩, hp.2.2.2⟩
  | false =>
    simp only [hb, Bool.false_eq_true, if_false]
    have hn := hf hb
    have hw := L.window _ hi
    have hm := L.move hi (Nat.le_refl _)
    refine ⟨hm.1, ⟨?_, ?_, by simp, fun _ => ⟨?_, ?_⟩⟩, fun h' => hm.2.2.2.2.trans (ho h')⟩
    · show _ ≤ R.cursor (R.move _ _); omega
    · show R.peek _ _ = slice D _ (R.cursor (R.move _ _) - _)
      rw [L.peek hi (Nat.le_refl _), hm.2.1, hc]; congr 1; omega
    · show R.cursor (R.move _ _) < _; omega
    · show R.ok (R.move _ _) = false ∨ (E ∧ R.cursor (R.move _ _) = _)
      rw [hm.2.2.2.2, hm.2.1]
      rcases hn.2 with h1 | ⟨h1, h2⟩
      · exact .inl h1
      · refine .inr ⟨h1, ?_⟩
        unfold avail; omega

theorem readByte (L : R.Lawful D E Inv) {s : σ} (h : Inv s) :
    Inv (R.readByte s).2 ∧
    (∀ b, (R.readByte s).1 = some b → D[R.cursor s]? = some b ∧ R.cursor (R.readByte s).2 = R.cursor s + 1 ∧
      R.Keeps s (R.readByte s).2) ∧
    ((R.readByte s).1 = none → R.cursor (R.readByte s).2 = R.cursor s ∧
      (R.ok (R.readByte s).2 = false ∨ (E ∧ R.cursor s = D.length))) ∧
    (R.ok s = false → R.ok (R.readByte s).2 = false) := by
  obtain ⟨hi, hc, ht, hf, ho⟩ := L.pull 1 0 h
  unfold ReaderOps.readByte
  cases hb : (R.pull 1 0 s).1 with
  | true =>
    have hn := (ht hb).1
    simp only [hb, if_true]
    have hm := L.move hi hn
    have hw := L.window _ hi
    unfold avail at hn
    have hlt : R.cursor s < D.length := by omega
    have hp : (R.peek 1 (R.pull 1 0 s).2).head? = some D[R.cursor s] := by
      rw [L.peek hi (by unfold avail; omega), hc, slice, List.drop_eq_getElem_cons hlt]
      rfl
    refine ⟨hm.1, ?_, ?_, fun h' => hm.2.2.2.2.trans (ho h')⟩
    · intro b hb'
      have e := hp.symm.trans hb'
      cases e
      exact ⟨List.getElem?_eq_getElem hlt, by rw [hm.2.1, hc], (ht hb).2.trans (.inl hm.2.2.2.2)⟩
    · intro hb'
      have e := hp.symm.trans hb'
      cases e
  | false =>
    simp only [hb, Bool.false_eq_true, if_false]
    have hn := hf hb
    have hw := L.window _ hi
    refine ⟨hi, by simp, fun _ => ⟨hc, ?_⟩, ho⟩
    rcases hn.2 with h1 | ⟨h1, h2⟩
    · exact .inl h1
    · refine .inr ⟨h1, ?_⟩
      have := hn.1
      unfold avail at this; omega

theorem copyPost_fast (L : R.Lawful D E Inv) {s : σ} {n : Nat} (d : Dest) (h : Inv s) (hn : n ≤ R.avail s) :
    R.CopyPost D E n d s ((d.write (R.peek n s)).1, (d.write (R.peek n s)).2, R.move n s) := by
  have hm := L.move h hn
  have hw := L.window s h
  have hl : (R.peek n s).length = n := by
    rw [L.peek h hn]; exact slice_length (by unfold avail at hn; omega)
  obtain ⟨⟨k, hk, hwr, hko⟩, h1, h2, h3⟩ := d.write_spec (R.peek n s)
  refine ⟨by show _ ≤ R.cursor (R.move n s); omega, by show R.cursor (R.move n s) ≤ _; omega, ⟨k, ?_, ?_, ?_⟩, ?_, ?_, h3⟩
  · show k ≤ R.cursor (R.move n s) - _; omega
  · show (d.write (R.peek n s)).2.written = _
    rw [hwr, L.peek h hn]
    congr 1
    simp only [slice, List.take_take]
    rw [Nat.min_eq_left (by omega)]
  · intro ho
    show k = R.cursor (R.move n s) - _
    have := hko ho; omega
  · intro hb
    exact ⟨hm.2.1, .inl hm.2.2.2.2, h1 hb⟩
  · intro hb ho
    have : (d.write (R.peek n s)).2.ok = false := h2 hb
    rw [show (d.write (R.peek n s)).2.ok = true from ho] at this
    cases this

theorem copy (L : R.Lawful D E Inv) {s : σ} (n : Nat) (d : Dest) (h : Inv s) :
    Inv (R.copy n d s).2.2 ∧ R.CopyPost D E n d s (R.copy n d s) ∧ (R.ok s = false → R.ok (R.copy n d s).2.2 = false) := by
  unfold ReaderOps.copy
  split
  · rename_i hn
    have hm := L.move h hn.1
    exact ⟨hm.1, L.copyPost_fast d h hn.1, fun ho => hm.2.2.2.2.trans ho⟩
  · rename_i hn
    refine L.copySlow s n d h ?_ ?_
    · rcases Nat.eq_zero_or_pos n with rfl | h0
      · exact absurd ⟨Nat.zero_le _, Nat.zero_le _⟩ hn
      · exact h0
    · intro h1
      by_cases h2 : n ≤ kMaxBytesToCopy
      · exact absurd ⟨h1, h2⟩ hn
      · omega

theorem copyBack (L : R.Lawful D E Inv) {s : σ} (n : Nat) (d : Dest) (h : Inv s) :
    Inv (R.copyBack n d s).2.2 ∧ R.CopyBackPost D E n d s (R.copyBack n d s) ∧
    (R.ok s = false → R.ok (R.copyBack n d s).2.2 = false) := by
  unfold ReaderOps.copyBack
  split
  · rename_i hn
    have hm := L.move h hn.1
    obtain ⟨h1, h2, h3⟩ := d.prepend_spec (R.peek n s)
    refine ⟨hm.1, ⟨by show _ ≤ R.cursor (R.move n s); omega, by show R.cursor (R.move n s) ≤ _; omega, ?_, ?_, h3⟩,
      fun ho => hm.2.2.2.2.trans ho⟩
    · intro hb
      refine ⟨hm.2.1, .inl hm.2.2.2.2, (h1 hb).1, ?_⟩
      rw [← L.peek h hn.1]; exact (h1 hb).2
    · intro hb ho
      have : (d.prepend (R.peek n s)).2.ok = false := h2 hb
      rw [show (d.prepend (R.peek n s)).2.ok = true from ho] at this
      cases this
  · rename_i hn
    refine L.copyBackSlow s n d h ?_ ?_
    · rcases Nat.eq_zero_or_pos n with rfl | h0
      · exact absurd ⟨Nat.zero_le _, Nat.zero_le _⟩ hn
      · exact h0
    · intro h1
      by_cases h2 : n ≤ kMaxBytesToCopy
      · exact absurd ⟨h1, h2⟩ hn
      · omega

/-- Reading a part of the buffer fails only if the reader fails. -/
theorem somePost_of_read (L : R.Lawful D E Inv) {s : σ} {n m : Nat} {r : Bool × Bytes × σ} (h : Inv s)
    (hp : R.ReadPost D E n s r) (hn : n ≤ m) (ha : n ≤ R.avail s) (h0 : 0 < m → 0 < n)
    (hz : r.1 = false → R.cursor r.2.2 = R.cursor s) : R.SomePost D E m s r := by
  obtain ⟨h1, h2, h3, h4⟩ := hp
  have hw := L.window s h
  unfold avail at ha
  refine ⟨h1, ?_, h2, fun hk => ⟨fun hm => by have := h0 hm; have := h3 hk; omega, (h3 hk).2⟩, fun hk => ?_⟩
  · cases hb : r.1 with
    | true => have := h3 hb; omega
    | false => have := h4 hb; omega
  · refine ⟨hz hk, ?_⟩
    rcases (h4 hk).2 with h5 | ⟨h5, h6⟩
    · exact .inl h5
    · have := h4 hk; omega

/-- Reading available data either succeeds or reads nothing. -/
theorem read_avail (L : R.Lawful D E Inv) {s : σ} (k : Kind) {n : Nat} (h : Inv s) (ha : n ≤ R.avail s) (hb : (R.read k n s).1 = false) :
    R.cursor (R.read k n s).2.2 = R.cursor s := by
  unfold ReaderOps.read at hb ⊢
  split
  · rename_i hc
    rw [if_pos hc] at hb; cases hb
  · rename_i hc
    rw [if_neg hc] at hb
    cases k with
    | chars => exact absurd ⟨ha, .inl rfl⟩ hc
    | blocks => exact L.readAvail s n h (Nat.lt_of_not_le fun h' => hc ⟨ha, .inr h'⟩) ha hb

theorem readSome (L : R.Lawful D E Inv) {s : σ} (k : Kind) (n : Nat) (h : Inv s) :
    Inv (R.readSome k n s).2.2 ∧ R.SomePost D E n s (R.readSome k n s) ∧
    (R.ok s = false → R.ok (R.readSome k n s).2.2 = false) := by
  unfold ReaderOps.readSome
  split
  · rename_i ha
    have hle : min n (R.avail s) ≤ R.avail s := Nat.min_le_right _ _
    have h0 : 0 < n → 0 < min n (R.avail s) := by omega
    dsimp only
    split
    · have hm := L.move h hle
      exact ⟨hm.1, L.somePost_of_read h (L.readPost_fast h hle) (Nat.min_le_left _ _) hle h0 nofun, fun ho => hm.2.2.2.2.trans ho⟩
    · rename_i hk
      obtain ⟨h1, h2, h3⟩ := L.readSlow s k _ h
        (show 0 < min n (R.avail s) by
          rcases Nat.eq_zero_or_pos n with rfl | h1
          · exact absurd (.inr (by simp)) hk
          · exact h0 h1)
        (fun _ => by
          have : ¬ (k = .chars) := fun e => hk (.inl e)
          have h5 : ¬ (min n (R.avail s) ≤ kMaxBytesToCopy) := fun e => hk (.inr e)
          refine ⟨by omega, ?_⟩
          cases k with
          | chars => exact absurd rfl this
          | blocks => rfl)
      refine ⟨h1, L.somePost_of_read h h2 (Nat.min_le_left _ _) hle h0 (fun hb => ?_), h3⟩
      cases k with
      | chars => exact absurd (.inl rfl) hk
      | blocks => exact L.readAvail s _ h (Nat.lt_of_not_le fun h' => hk (.inr h')) hle hb
  · rename_i ha
    have h1 : R.avail s = 0 := by omega
    have h2 : 0 < n := by omega
    split
    · exact L.readSomeSlow s n h h2 h1
    · obtain ⟨hi, hc, ht, hf, ho⟩ := L.pullSlow s 1 n h (by omega)
      have hw := L.window _ hi
      cases hb : (R.pullSlow 1 n s).1 with
      | true =>
        simp only [hb, if_true]
        obtain ⟨g1, g2, g3⟩ := L.read k (min n (R.avail (R.pullSlow 1 n s).2)) hi
        have g4 := L.somePost_of_read (m := n) hi g2 (Nat.min_le_left _ _) (Nat.min_le_right _ _)
          (by have := (ht hb).1; omega) (fun hb => L.read_avail k hi (Nat.min_le_right _ _) hb)
        refine ⟨g1, ?_, fun h' => g3 (ho h')⟩
        unfold SomePost at *
        rw [hc] at g4
        exact ⟨g4.1, g4.2.1, g4.2.2.1, fun h => ⟨(g4.2.2.2.1 h).1, (ht hb).2.trans (g4.2.2.2.1 h).2⟩, g4.2.2.2.2⟩
      | false =>
        simp only [hb, Bool.false_eq_true, if_false]
        have hf' := hf hb
        refine ⟨hi, ⟨by show _ ≤ R.cursor (R.pullSlow 1 n s).2; omega, by show R.cursor (R.pullSlow 1 n s).2 ≤ _; omega, ?_,
          by simp, fun _ => ?_⟩, ho⟩
        · show [] = slice D _ (R.cursor (R.pullSlow 1 n s).2 - _)
          rw [hc, Nat.sub_self, slice_zero]
        · refine ⟨hc, ?_⟩
          rcases hf'.2 with h5 | ⟨h5, h6⟩
          · exact .inl h5
          · refine .inr ⟨h5, ?_⟩
            have := hf'.1
            unfold avail at this; omega

theorem copySome_of_copy (L : R.Lawful D E Inv) {s : σ} {n m : Nat} {d : Dest} {r : Bool × Dest × σ} (h : Inv s)
    (hp : R.CopyPost D E n d s r) (hn : n ≤ m) (ha : n ≤ R.avail s) (h0 : 0 < m → 0 < n) : R.CopySomePost D E m d s r := by
  obtain ⟨h1, h2, h3, h4, h5, h6⟩ := hp
  have hw := L.window s h
  unfold avail at ha
  refine ⟨h1, by omega, h3, fun hk => ⟨fun hm => by have := h0 hm; have := (h4 hk).1; omega, (h4 hk).2⟩, fun hk hd => ?_, h6⟩
  rcases (h5 hk hd).2 with h7 | ⟨h7, h8⟩
  · exact .inl h7
  · have := h5 hk hd; omega

theorem copySome (L : R.Lawful D E Inv) {s : σ} (n : Nat) (d : Dest) (h : Inv s) :
    Inv (R.copySome n d s).2.2 ∧ R.CopySomePost D E n d s (R.copySome n d s) ∧
    (R.ok s = false → R.ok (R.copySome n d s).2.2 = false) := by
  unfold ReaderOps.copySome
  split
  · rename_i ha
    have hle : min n (R.avail s) ≤ R.avail s := Nat.min_le_right _ _
    have h0 : 0 < n → 0 < min n (R.avail s) := by omega
    dsimp only
    split
    · have hm := L.move h hle
      exact ⟨hm.1, L.copySome_of_copy h (L.copyPost_fast d h hle) (Nat.min_le_left _ _) hle h0,
        fun ho => hm.2.2.2.2.trans ho⟩
    · rename_i hk
      obtain ⟨h1, h2, h3⟩ := L.copySlow s _ d h (show 0 < min n (R.avail s) by omega) (fun _ => by omega)
      exact ⟨h1, L.copySome_of_copy h h2 (Nat.min_le_left _ _) hle h0, h3⟩
  · exact L.copySomeSlow s n d h (by omega) (by omega)

theorem readHint (L : R.Lawful D E Inv) {s : σ} (n rec : Nat) (h : Inv s) :
    Inv (R.readHint n rec s) ∧ R.cursor (R.readHint n rec s) = R.cursor s ∧
    (R.ok s = false → R.ok (R.readHint n rec s) = false) := by
  unfold ReaderOps.readHint
  split
  · exact ⟨h, rfl, id⟩
  · exact L.readHintSlow s n rec h (by omega)

theorem seek (L : R.Lawful D E Inv) {s : σ} (p : Nat) (h : Inv s) :
    Inv (R.seek p s).2 ∧ R.SeekPost D E p s (R.seek p s) ∧ (R.ok s = false → R.ok (R.seek p s).2 = false) := by
  unfold ReaderOps.seek
  split
  · rename_i hp
    have hs := L.setCursor s p h hp.1 hp.2
    refine ⟨hs.1, ⟨?_, ?_, fun _ => ⟨hs.2.1, .inl hs.2.2.2.2⟩, by simp⟩, fun ho => hs.2.2.2.2.trans ho⟩
    · left; show R.cursor (R.setCursor p s) ≤ _; omega
    · intro _; show _ ≤ R.cursor (R.setCursor p s); omega
  · exact L.seekSlow s p h (by omega)

/-- `Skip(n)` is `Seek(pos() + n)` (positions do not overflow). -/
theorem skip (L : R.Lawful D E Inv) {s : σ} (n : Nat) (h : Inv s) (hD : D.length < 2 ^ 64 - 1) :
    Inv (R.skip n s).2 ∧ R.SeekPost D E (R.cursor s + n) s (R.skip n s) ∧
    (R.ok s = false → R.ok (R.skip n s).2 = false) := by
  unfold ReaderOps.skip
  have hw := L.window s h
  split
  · rename_i hn
    have hs := L.move h hn
    refine ⟨hs.1, ⟨?_, ?_, fun _ => ⟨hs.2.1, .inl hs.2.2.2.2⟩, by simp⟩, fun ho => hs.2.2.2.2.trans ho⟩
    · left; show R.cursor (R.move n s) ≤ _; omega
    · intro _; show _ ≤ R.cursor (R.move n s); omega
  · rename_i hn
    unfold avail at hn
    split
    · rename_i hlt
      · obtain ⟨h1, h2, h3⟩ := L.seekSlow s (2 ^ 64 - 1) h (by omega)
        obtain ⟨g1, g2, g3, g4⟩ := h2
        have hw' := L.window _ h1
        refine ⟨h1, ⟨?_, ?_, by simp, fun _ => ?_⟩, h3⟩
        · left; show R.cursor (R.seekSlow (2 ^ 64 - 1) s).2 ≤ _; omega
        · intro _; exact g2 (by omega)
        · cases hb : (R.seekSlow (2 ^ 64 - 1) s).1 with
          | true => have := (g3 hb).1; omega
          | false =>
            rcases g4 hb with h5 | ⟨h5, h6, h7⟩
            · exact .inl h5
            · exact .inr ⟨h5, h6, by omega⟩
    · exact L.seekSlow s _ h (by omega)

end Lawful
end ReaderOps
end Riegeli.Rdr

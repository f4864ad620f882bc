import Verif.LimitingReader
/-!
# A `LimitingReader` is a reader of the source truncated at the limit
-/
namespace Riegeli.Rdr

namespace LR
variable {σ : Type} {R : ReaderOps σ} {D : Bytes} {E : Prop} {Inv : σ → Prop}

/-- The invariant of a `LimitingReader` with the limit `m`, with exactness `ex`, and `fail_if_longer` set to `f`. `P` tells whether it may have failed for
another reason, `Q` tells which sources may be at a position past the limit. -/
structure LInv (R : ReaderOps σ) (D : Bytes) (Inv : σ → Prop) (m : Nat) (ex f : Bool) (P : Prop) (Q : σ → Prop) (l : LR σ) : Prop where
  inv : Inv l.src
  start_le : R.start l.src ≤ l.start
  start_cur : l.start ≤ l.cur
  cur_lim : l.cur ≤ l.lim
  lim_le : l.lim ≤ R.limit l.src
  limitPos : l.limitPos = l.lim
  lim_max : l.lim ≤ m
  maxPos : l.maxPos = m
  exact : l.exact = ex
  fil : l.failIfLonger = f
  srcOk : l.ok = true → R.ok l.src = true
  why : l.ok = false → R.ok l.src = false ∨ (ex = true ∧ D.length < m) ∨ P
  srcPos : R.cursor l.src ≤ m ∨ Q l.src

section
variable {m : Nat} {ex f : Bool} {P : Prop} {Q : σ → Prop} {l : LR σ}

theorem LInv.pos (h : LInv R D Inv m ex f P Q l) : l.pos = l.cur := by
  have h1 := h.limitPos; have h2 := h.cur_lim
  unfold LR.pos; omega

theorem LInv.mono {P' : Prop} {Q' : σ → Prop} (h : LInv R D Inv m ex f P Q l) (hp : P → P') (hq : ∀ s, Q s → Q' s) :
    LInv R D Inv m ex f P' Q' l :=
  { h with why := fun ho => (h.why ho).imp id (fun h => h.imp id hp), srcPos := h.srcPos.imp id (hq _) }

/-- Forget why the reader may have failed earlier and where the source was earlier. -/
theorem LInv.rebase (h : LInv R D Inv m ex f P Q l) : LInv R D Inv m ex f (l.ok = false) (· = l.src) l :=
  { h with why := fun ho => .inr (.inr ho), srcPos := .inr rfl }

theorem LInv.sync (L : R.Lawful D E Inv) (h : LInv R D Inv m ex f P Q l) :
    LInv R D Inv m ex f P Q (l.sync R) ∧ R.cursor (l.sync R).src = l.cur := by
  have h1 := h.start_le; have h2 := h.start_cur; have h3 := h.cur_lim; have h4 := h.lim_le
  obtain ⟨g1, g2, g3, g4, g5⟩ := L.setCursor l.src l.cur h.inv (by omega) (by omega)
  have g3 : R.start (l.sync R).src = R.start l.src := g3
  have g4 : R.limit (l.sync R).src = R.limit l.src := g4
  have g5 : R.ok (l.sync R).src = R.ok l.src := g5
  have hm := h.lim_max
  refine ⟨{ h with inv := g1, start_le := ?_, lim_le := ?_, srcOk := ?_, why := ?_, srcPos := ?_ }, g2⟩
  · rw [g3]; exact h1
  · rw [g4]; exact h4
  · rw [g5]; exact h.srcOk
  · rw [g5]; exact h.why
  · left
    show R.cursor (R.setCursor l.cur l.src) ≤ m
    omega

/-- `MakeBuffer()` with the source at a position which does not exceed the limit. -/
theorem makeBuffer_spec (L : R.Lawful D E Inv) (hi : Inv l.src) (hc : R.cursor l.src ≤ m) (hm : l.maxPos = m)
    (he : l.exact = ex) (hf : l.failIfLonger = f) (hw : l.ok = false → R.ok l.src = false ∨ (ex = true ∧ D.length < m) ∨ P) :
    LInv R D Inv m ex f P Q (l.makeBuffer R) ∧ (l.makeBuffer R).cur = R.cursor l.src ∧
    (l.makeBuffer R).src = l.src ∧ (l.makeBuffer R).ok = (l.ok && R.ok l.src) ∧
    (l.makeBuffer R).lim = min (R.limit l.src) m ∧ (l.makeBuffer R).failIfLonger = l.failIfLonger := by
  have hwin := L.window _ hi
  unfold makeBuffer makeBufferSlow LR.pos
  dsimp only
  by_cases h1 : l.maxPos < R.limit l.src
  · have h2 : ¬ (l.maxPos < R.limit l.src - (R.limit l.src - R.cursor l.src)) := by omega
    simp only [h1, h2, if_true, if_false]
    split
    · rename_i ho
      refine ⟨⟨hi, Nat.le_refl _, hwin.1, ?_, ?_, ?_, ?_, hm, he, hf, by simp, fun _ => .inl ho, .inl hc⟩, rfl, rfl, by rw [ho]; simp, ?_,
        rfl⟩ <;> dsimp only <;> omega
    · rename_i ho
      have ho : R.ok l.src = true := by simpa using ho
      refine ⟨⟨hi, Nat.le_refl _, hwin.1, ?_, ?_, ?_, ?_, hm, he, hf, fun _ => ho, hw, .inl hc⟩, rfl, rfl, by rw [ho]; simp, ?_,
        rfl⟩ <;> dsimp only <;> omega
  · rw [if_neg h1]
    split
    · rename_i ho
      refine ⟨⟨hi, Nat.le_refl _, hwin.1, hwin.2.1, Nat.le_refl _, rfl, ?_, hm, he, hf, by simp, fun _ => .inl ho, .inl hc⟩, rfl, rfl, by rw [ho]; simp, ?_,
        rfl⟩ <;> dsimp only <;> omega
    · rename_i ho
      have ho : R.ok l.src = true := by simpa using ho
      refine ⟨⟨hi, Nat.le_refl _, hwin.1, hwin.2.1, Nat.le_refl _, rfl, ?_, hm, he, hf, fun _ => ho, hw, .inl hc⟩, rfl, rfl, by rw [ho]; simp, ?_,
        rfl⟩ <;> dsimp only <;> omega

/-- `Fail()` does not move the reader. -/
theorem fail_spec (L : R.Lawful D E Inv) (h : LInv R D Inv m ex f P Q l) (hP : R.ok l.src = false ∨ (ex = true ∧ D.length < m) ∨ P) :
    LInv R D Inv m ex f P Q (l.fail R) ∧ (l.fail R).cur = l.cur ∧ (l.fail R).ok = false ∧
    l.lim ≤ (l.fail R).lim ∧ (l.fail R).failIfLonger = l.failIfLonger ∧ R.ok (l.fail R).src = R.ok l.src ∧
    (l.fail R).lim = min (R.limit l.src) m := by
  obtain ⟨h1, h2⟩ := h.sync L
  have hs := h.start_le; have hs2 := h.start_cur; have hs3 := h.cur_lim; have hs4 := h.lim_le; have hs5 := h.lim_max
  obtain ⟨g1, g2, g3, g4, g5⟩ := L.setCursor l.src l.cur h.inv (by omega) (by omega)
  obtain ⟨k1, k2, k3, k4, k5, k6⟩ := makeBuffer_spec (Q := Q) (l := l.sync R) L h1.inv (by omega) h1.maxPos h1.exact h1.fil h1.why
  have e : R.ok (l.sync R).src = R.ok l.src := g5
  have e2 : R.limit (l.sync R).src = R.limit l.src := g4
  refine ⟨{ k1 with srcOk := (by intro h; cases h), why := fun _ => ?_ }, k2.trans h2, rfl, ?_, k6, ?_, ?_⟩
  · show R.ok ((l.sync R).makeBuffer R).src = false ∨ _
    rw [k3, e]; exact hP
  · show l.lim ≤ ((l.sync R).makeBuffer R).lim
    rw [k5, e2]; omega
  · show R.ok ((l.sync R).makeBuffer R).src = _
    rw [k3, e]
  · show ((l.sync R).makeBuffer R).lim = _
    rw [k5, e2]

theorem checkEnough_spec (L : R.Lawful D E Inv) (h : LInv R D Inv m ex f P Q l)
    (hP : ex = true → R.ok l.src = false ∨ (ex = true ∧ D.length < m) ∨ P) :
    LInv R D Inv m ex f P Q (l.checkEnough R) ∧ (l.checkEnough R).cur = l.cur ∧
    (l.checkEnough R).ok = (l.ok && !ex) ∧ (l.checkEnough R).failIfLonger = l.failIfLonger ∧
    R.ok (l.checkEnough R).src = R.ok l.src ∧ ((l.checkEnough R).lim = l.lim ∨ (l.checkEnough R).lim = min (R.limit l.src) m) := by
  unfold checkEnough
  rw [h.exact]
  cases ex with
  | true =>
    obtain ⟨h1, h2, h3, h4, h5, h6, h7⟩ := fail_spec L h (hP rfl)
    simp only [if_true]
    exact ⟨h1, h2, by rw [h3]; simp, h5, h6, .inr h7⟩
  | false =>
    simp only [Bool.false_eq_true, if_false]
    exact ⟨h, by simp⟩

theorem LInv.ops_start (h : LInv R D Inv m ex f P Q l) : (ops R).start l = l.start := by
  have h1 := h.limitPos; have h2 := h.cur_lim; have h3 := h.start_cur
  show l.limitPos - (l.lim - l.start) = l.start; omega

theorem LInv.ops_cursor (h : LInv R D Inv m ex f P Q l) : (ops R).cursor l = l.cur := h.pos

theorem LInv.ops_limit (h : LInv R D Inv m ex f P Q l) : (ops R).limit l = l.lim := h.limitPos

theorem LInv.ops_avail (h : LInv R D Inv m ex f P Q l) : (ops R).avail l = l.lim - l.cur := by
  unfold ReaderOps.avail; rw [h.ops_limit, h.ops_cursor]

/-- The effect of `SyncBuffer()`, an operation of the source, and `MakeBuffer()`. -/
theorem LInv.remake (L : R.Lawful D E Inv) (h : LInv R D Inv m ex f P Q l) (hok : l.ok = true) {s' : σ} (hi : Inv s')
    (hc : R.cursor s' ≤ m) :
    LInv R D Inv m ex f P Q (makeBuffer R ((l.sync R).setSrc s')) ∧
    (makeBuffer R ((l.sync R).setSrc s')).cur = R.cursor s' ∧
    (makeBuffer R ((l.sync R).setSrc s')).src = s' ∧
    (makeBuffer R ((l.sync R).setSrc s')).ok = R.ok s' ∧
    (makeBuffer R ((l.sync R).setSrc s')).lim = min (R.limit s') m ∧
    (makeBuffer R ((l.sync R).setSrc s')).failIfLonger = l.failIfLonger := by
  obtain ⟨k1, k2, k3, k4, k5, k6⟩ := makeBuffer_spec (P := P) (Q := Q) (l := ((l.sync R).setSrc s')) L hi hc h.maxPos h.exact h.fil
    (fun ho => by have : l.ok = false := ho; rw [hok] at this; cases this)
  refine ⟨k1, k2, k3, ?_, k5, k6⟩
  rw [k4]
  show (l.ok && R.ok s') = R.ok s'
  rw [hok]; rfl

/-- ... and `CheckEnough()`. -/
theorem LInv.recheck (L : R.Lawful D E Inv) (h : LInv R D Inv m ex f P Q l) (hok : l.ok = true) {s' : σ} (hi : Inv s')
    (hc : R.cursor s' ≤ m) (hP : R.ok s' = false ∨ D.length < m) :
    LInv R D Inv m ex f P Q ((makeBuffer R ((l.sync R).setSrc s')).checkEnough R) ∧
    ((makeBuffer R ((l.sync R).setSrc s')).checkEnough R).cur = R.cursor s' ∧
    ((makeBuffer R ((l.sync R).setSrc s')).checkEnough R).ok = (R.ok s' && !ex) ∧
    ((makeBuffer R ((l.sync R).setSrc s')).checkEnough R).lim = min (R.limit s') m ∧
    ((makeBuffer R ((l.sync R).setSrc s')).checkEnough R).failIfLonger = l.failIfLonger := by
  obtain ⟨k1, k2, k3, k4, k5, k6⟩ := h.remake L hok hi hc
  obtain ⟨g1, g2, g3, g4, g5, g6⟩ := checkEnough_spec L k1 (fun he => by
    rw [k3]
    rcases hP with h1 | h1
    · exact .inl h1
    · exact .inr (.inl ⟨he, h1⟩))
  refine ⟨g1, g2.trans k2, by rw [g3, k4], ?_, g4.trans k6⟩
  rcases g6 with h1 | h1
  · rw [h1, k5]
  · rw [h1, k3]

/-- A `LimitingReader` whose source failed while seeking back, possibly past the limit. -/
structure Dead (R : ReaderOps σ) (D : Bytes) (Inv : σ → Prop) (m : Nat) (ex f : Bool) (l : LR σ) : Prop where
  inv : Inv l.src
  ok : l.ok = false
  srcOk : R.ok l.src = false
  start_le : R.start l.src ≤ l.cur
  start : l.start = l.cur
  lim : l.lim = l.cur
  lim_le : l.cur ≤ R.limit l.src
  limitPos : l.limitPos ≤ m
  limitPos_le : l.limitPos ≤ D.length
  maxPos : l.maxPos = m
  exact : l.exact = ex
  fil : l.failIfLonger = f

theorem Dead.pos (h : Dead R D Inv m ex f l) : l.pos = l.limitPos := by
  unfold LR.pos; rw [h.lim]; omega

/-- `MakeBuffer()` with a failed source past the limit. -/
theorem makeBuffer_dead (L : R.Lawful D E Inv) (hi : Inv l.src) (ho : R.ok l.src = false) (hm : l.maxPos = m)
    (he : l.exact = ex) (hf : l.failIfLonger = f) (hc : m < R.cursor l.src) :
    Dead R D Inv m ex f (l.makeBuffer R) := by
  have hwin := L.window _ hi
  unfold makeBuffer makeBufferSlow LR.pos
  dsimp only
  have c1 : l.maxPos < R.limit l.src := by omega
  have c2 : l.maxPos < R.limit l.src - (R.limit l.src - R.cursor l.src) := by omega
  simp only [c1, c2, ho, if_true]
  exact ⟨hi, rfl, ho, hwin.1, rfl, rfl, hwin.2.1, by dsimp only; omega, by dsimp only; omega, hm, he, hf⟩

theorem makeBuffer_src : (l.makeBuffer R).src = l.src := by
  unfold makeBuffer makeBufferSlow; dsimp only; split <;> split <;> (try split) <;> rfl

/-- The invariant of a `LimitingReader`: a failed reader may be `Dead`. -/
def Any (R : ReaderOps σ) (D : Bytes) (Inv : σ → Prop) (m : Nat) (ex f : Bool) (P : Prop) (Q : σ → Prop) (l : LR σ) : Prop :=
  LInv R D Inv m ex f P Q l ∨ Dead R D Inv m ex f l

theorem Dead.sync (L : R.Lawful D E Inv) (h : Dead R D Inv m ex f l) :
    Inv (l.sync R).src ∧ R.ok (l.sync R).src = false := by
  obtain ⟨g1, g2, g3, g4, g5⟩ := L.setCursor l.src l.cur h.inv h.start_le h.lim_le
  exact ⟨g1, g5.trans h.srcOk⟩

theorem Dead.fail (L : R.Lawful D E Inv) (h : Dead R D Inv m ex f l) :
    Any R D Inv m ex f P Q (l.fail R) ∧ (l.fail R).ok = false := by
  obtain ⟨h1, h2⟩ := h.sync L
  refine ⟨?_, rfl⟩
  by_cases hc : R.cursor (l.sync R).src ≤ m
  · obtain ⟨g, -⟩ := makeBuffer_spec (P := P) (Q := Q) (l := l.sync R) L h1 hc h.maxPos h.exact h.fil (fun _ => .inl h2)
    have hs : R.ok ((l.sync R).makeBuffer R).src = false := by rw [makeBuffer_src]; exact h2
    exact .inl { g with srcOk := (by intro h; cases h), why := fun _ => .inl hs }
  · have g := makeBuffer_dead (l := l.sync R) L h1 h2 h.maxPos h.exact h.fil (by omega)
    exact .inr { g with ok := rfl }

theorem keeps {s' : σ} {l' : LR σ} (hso : R.ok (l.sync R).src = true) (hok : l.ok = true) (h4 : l'.ok = R.ok s')
    (hk : R.Keeps (l.sync R).src s') : (ops R).Keeps l l' :=
  hk.imp (fun h => by show l'.ok = l.ok; rw [h4, h, hso, hok]) id

/-- The data of a `LimitingReader` end cleanly. -/
def CleanEnd (D : Bytes) (E : Prop) (m : Nat) (ex : Bool) : Prop := m ≤ D.length ∨ (E ∧ ex = false)

theorem lawful_setCursor (h : LInv R D Inv m ex f P Q l) (c : Nat) (h1 : (ops R).start l ≤ c) (h2 : c ≤ (ops R).limit l) :
    LInv R D Inv m ex f P Q ((ops R).setCursor c l) ∧ (ops R).cursor ((ops R).setCursor c l) = c ∧
    (ops R).start ((ops R).setCursor c l) = (ops R).start l ∧ (ops R).limit ((ops R).setCursor c l) = (ops R).limit l ∧
    (ops R).ok ((ops R).setCursor c l) = (ops R).ok l := by
  rw [h.ops_start] at h1
  rw [h.ops_limit] at h2
  have hl := h.limitPos
  have hi : LInv R D Inv m ex f P Q ((ops R).setCursor c l) := by
    refine { h with start_cur := ?_, cur_lim := ?_ }
    · show l.start ≤ l.lim - (l.limitPos - c); omega
    · show l.lim - (l.limitPos - c) ≤ l.lim; omega
  refine ⟨hi, ?_, rfl, rfl, rfl⟩
  rw [hi.ops_cursor]
  show l.lim - (l.limitPos - c) = c; omega

theorem lawful_pullSlow (L : R.Lawful D E Inv) (h : LInv R D Inv m ex f P Q l) (n rec : Nat) (hn : (ops R).avail l < n) :
    LInv R D Inv m ex f P Q (pullSlow R n rec l).2 ∧ (ops R).cursor (pullSlow R n rec l).2 = (ops R).cursor l ∧
    ((pullSlow R n rec l).1 = true → n ≤ (ops R).avail (pullSlow R n rec l).2 ∧ (ops R).Keeps l (pullSlow R n rec l).2) ∧
    ((pullSlow R n rec l).1 = false → (ops R).avail (pullSlow R n rec l).2 < n ∧
      ((pullSlow R n rec l).2.ok = false ∨
        (CleanEnd D E m ex ∧ (ops R).limit (pullSlow R n rec l).2 = (D.take m).length))) ∧
    (l.ok = false → (pullSlow R n rec l).2.ok = false) ∧
    (pullSlow R n rec l).2.failIfLonger = l.failIfLonger := by
  unfold pullSlow
  by_cases hok : l.ok = false
  · rw [if_pos hok]
    exact ⟨h, rfl, by simp, fun _ => ⟨hn, .inl hok⟩, id, rfl⟩
  rw [if_neg hok]
  have hok : l.ok = true := by simpa using hok
  obtain ⟨hs, hsc⟩ := h.sync L
  have hm : (l.sync R).maxPos = m := h.maxPos
  have hp : (l.sync R).pos = l.cur := h.pos
  dsimp only
  rw [hm, hp]
  have hcm : l.cur ≤ m := by have := h.cur_lim; have := h.lim_max; omega
  have hso : R.ok (l.sync R).src = true := hs.srcOk hok
  rw [h.ops_cursor]
  generalize hk : min n (m - l.cur) = k
  obtain ⟨p1, p2, p3, p4, p5⟩ := L.pull k rec hs.inv
  rw [hsc] at p2
  have hw := L.window _ p1
  have hD : (D.take m).length = min m D.length := List.length_take
  cases hb : (R.pull k rec (l.sync R).src).1 with
  | true =>
    obtain ⟨k1, k2, k3, k4, k5, k6⟩ := h.remake L hok p1 (by omega)
    obtain ⟨q1, q2⟩ := p3 hb
    unfold ReaderOps.avail at q1
    rw [if_neg (by simp)]
    dsimp only
    rw [k1.ops_cursor, k1.ops_limit, k1.ops_avail]
    refine ⟨k1, k2.trans p2, fun he => ?_, fun he => ?_, (fun ho => by rw [hok] at ho; cases ho), k6⟩
    · have he : k = n := by simpa using he
      exact ⟨by omega, keeps hso hok k4 q2⟩
    · have he : k ≠ n := by simpa using he
      refine ⟨by omega, .inr ⟨.inl ?_, ?_⟩⟩ <;> omega
  | false =>
    obtain ⟨q1, q2⟩ := p4 hb
    unfold ReaderOps.avail at q1
    obtain ⟨k1, k3, k4, k5, k6⟩ := h.recheck L hok p1 (by omega) (by
      rcases q2 with q2 | ⟨_, q2⟩
      · exact .inl q2
      · right; omega)
    rw [if_pos rfl]
    dsimp only
    rw [k1.ops_cursor, k1.ops_limit, k1.ops_avail]
    refine ⟨k1, k3.trans p2, by simp, fun _ => ⟨by omega, ?_⟩, (fun ho => by rw [hok] at ho; cases ho), k6⟩
    rw [k4]
    rcases q2 with q2 | ⟨q2, q3⟩
    · rw [q2]; simp
    · cases ex with
      | true => simp
      | false =>
        right
        exact ⟨.inr ⟨q2, rfl⟩, by omega⟩

theorem lawful_readSlow (L : R.Lawful D E Inv) (h : LInv R D Inv m ex f P Q l) (kd : Kind) (n : Nat) (hn : 0 < n) :
    LInv R D Inv m ex f P Q (readSlow R kd n l).2.2 ∧
    (ops R).ReadPost (D.take m) (CleanEnd D E m ex) n l (readSlow R kd n l) ∧
    (l.ok = false → (readSlow R kd n l).2.2.ok = false) ∧
    (readSlow R kd n l).2.2.failIfLonger = l.failIfLonger := by
  unfold ReaderOps.ReadPost
  unfold readSlow
  by_cases hok : l.ok = false
  · rw [if_pos hok]
    refine ⟨h, ⟨Nat.le_refl _, ?_, by simp, fun _ => ⟨Nat.lt_add_of_pos_right hn, .inl hok⟩⟩, id, rfl⟩
    simp [slice]
  rw [if_neg hok]
  have hok : l.ok = true := by simpa using hok
  obtain ⟨hs, hsc⟩ := h.sync L
  have hm : (l.sync R).maxPos = m := h.maxPos
  have hp : (l.sync R).pos = l.cur := h.pos
  dsimp only
  rw [hm, hp]
  have hcm : l.cur ≤ m := by have := h.cur_lim; have := h.lim_max; omega
  have hso : R.ok (l.sync R).src = true := hs.srcOk hok
  rw [h.ops_cursor]
  generalize hk : min n (m - l.cur) = k
  obtain ⟨p1, ⟨p2, p3, p4, p5⟩, p6⟩ := L.read kd k hs.inv
  rw [hsc] at p2 p3 p4 p5
  have hD : (D.take m).length = min m D.length := List.length_take
  have hw := L.window _ p1
  cases hb : (R.read kd k (l.sync R).src).1 with
  | true =>
    obtain ⟨q1, q2⟩ := p4 hb
    obtain ⟨k1, k2, k3, k4, k5, k6⟩ := h.remake L hok p1 (by omega)
    rw [if_neg (by simp)]
    dsimp only
    rw [k1.ops_cursor]
    refine ⟨k1, ⟨by omega, ?_, fun he => ?_, fun he => ?_⟩, (fun ho => by rw [hok] at ho; cases ho), k6⟩
    · rw [p3, k2, slice_take (by omega)]
    · have he : k = n := by simpa using he
      exact ⟨by omega, keeps hso hok k4 q2⟩
    · have he : k ≠ n := by simpa using he
      refine ⟨by omega, .inr ⟨.inl ?_, ?_⟩⟩ <;> omega
  | false =>
    obtain ⟨q1, q2⟩ := p5 hb
    obtain ⟨k1, k3, k4, k5, k6⟩ := h.recheck L hok p1 (by omega) (by
      rcases q2 with q2 | ⟨_, q2⟩
      · exact .inl q2
      · right; omega)
    rw [if_pos rfl]
    dsimp only
    rw [k1.ops_cursor]
    refine ⟨k1, ⟨by omega, ?_, by simp, fun _ => ⟨by omega, ?_⟩⟩, (fun ho => by rw [hok] at ho; cases ho), k6⟩
    · rw [p3, k3, slice_take (by omega)]
    · show _ = false ∨ _
      rcases q2 with q2 | ⟨q2, q3⟩
      · left; exact k4.trans (by rw [q2]; rfl)
      · cases ex with
        | true => left; exact k4.trans (by simp)
        | false => right; exact ⟨.inr ⟨q2, rfl⟩, by omega⟩

theorem lawful_readAvail (L : R.Lawful D E Inv) (h : LInv R D Inv m ex f P Q l) (n : Nat) (ha : n ≤ (ops R).avail l)
    (hb : (readSlow R .blocks n l).1 = false) : (ops R).cursor (readSlow R .blocks n l).2.2 = (ops R).cursor l := by
  rw [h.ops_avail] at ha
  unfold readSlow at hb ⊢
  by_cases hok : l.ok = false
  · rw [if_pos hok]
  rw [if_neg hok] at hb ⊢
  have hok : l.ok = true := by simpa using hok
  obtain ⟨hs, hsc⟩ := h.sync L
  have hm : (l.sync R).maxPos = m := h.maxPos
  have hp : (l.sync R).pos = l.cur := h.pos
  dsimp only at hb ⊢
  rw [hm, hp] at hb ⊢
  have h1 := h.cur_lim; have h2 := h.lim_max
  have hk : min n (m - l.cur) = n := by omega
  rw [hk] at hb ⊢
  have hav : n ≤ R.avail (l.sync R).src := by
    have h3 := h.lim_le
    have h4 : R.limit (l.sync R).src = R.limit l.src := by
      have := h.start_le; have := h.start_cur
      exact (L.setCursor l.src l.cur h.inv (by omega) (by omega)).2.2.2.1
    unfold ReaderOps.avail
    omega
  cases hq : (R.read .blocks n (l.sync R).src).1 with
  | true =>
    rw [hq, if_neg (by simp)] at hb
    simp at hb
  | false =>
    obtain ⟨p1, ⟨p2, p3, p4, p5⟩, p6⟩ := L.read .blocks n hs.inv
    have hc := L.read_avail .blocks hs.inv hav hq
    obtain ⟨q1, q2⟩ := p5 hq
    rw [hsc] at hc
    obtain ⟨k1, k3, k4, k5, k6⟩ := h.recheck L hok p1 (by omega) (by
      have hw := L.window _ p1
      have hw' := L.window _ hs.inv
      unfold ReaderOps.avail at hav
      rcases q2 with q2 | ⟨_, q2⟩
      · exact .inl q2
      · right; omega)
    rw [if_pos rfl]
    dsimp only
    rw [k1.ops_cursor, h.ops_cursor, k3]
    exact hc

theorem lawful_readSomeSlow (L : R.Lawful D E Inv) (h : LInv R D Inv m ex f P Q l) (n : Nat) (hn : 0 < n) :
    LInv R D Inv m ex f P Q (readSomeSlow R n l).2.2 ∧
    (ops R).SomePost (D.take m) (CleanEnd D E m ex) n l (readSomeSlow R n l) ∧
    (l.ok = false → (readSomeSlow R n l).2.2.ok = false) ∧
    (readSomeSlow R n l).2.2.failIfLonger = l.failIfLonger := by
  unfold ReaderOps.SomePost
  unfold readSomeSlow
  by_cases hok : l.ok = false
  · rw [if_pos hok]
    refine ⟨h, ⟨Nat.le_refl _, Nat.le_add_right _ _, ?_, by simp, fun _ => ⟨rfl, .inl hok⟩⟩, id, rfl⟩
    simp [slice]
  rw [if_neg hok]
  have hok : l.ok = true := by simpa using hok
  obtain ⟨hs, hsc⟩ := h.sync L
  have hm : (l.sync R).maxPos = m := h.maxPos
  have hp : (l.sync R).pos = l.cur := h.pos
  dsimp only
  rw [hm, hp]
  have hcm : l.cur ≤ m := by have := h.cur_lim; have := h.lim_max; omega
  have hso : R.ok (l.sync R).src = true := hs.srcOk hok
  rw [h.ops_cursor]
  generalize hk : min n (m - l.cur) = k
  obtain ⟨p1, ⟨p2, p2', p3, p4, p5⟩, p6⟩ := L.readSome .chars k hs.inv
  rw [hsc] at p2 p2' p3 p4 p5
  have hD : (D.take m).length = min m D.length := List.length_take
  have hw := L.window _ p1
  have hcl : l.cur ≤ D.length := by have := h.cur_lim; have := h.lim_le; have := (L.window _ h.inv).2.2; omega
  cases hb : (R.readSome .chars k (l.sync R).src).1 with
  | true =>
    obtain ⟨q1, q2⟩ := p4 hb
    obtain ⟨k1, k2, k3, k4, k5, k6⟩ := h.remake L hok p1 (by omega)
    rw [if_neg (by simp)]
    dsimp only
    rw [k1.ops_cursor]
    refine ⟨k1, ⟨by omega, by omega, ?_, fun he => ?_, fun he => ?_⟩, (fun ho => by rw [hok] at ho; cases ho), k6⟩
    · rw [p3, k2, slice_take (by omega)]
    · have he : 0 < k := by simpa using he
      exact ⟨fun _ => by have := q1 he; omega, keeps hso hok k4 q2⟩
    · have he : ¬ (0 < k) := by simpa using he
      refine ⟨by omega, .inr ⟨.inl ?_, ?_⟩⟩ <;> omega
  | false =>
    have q1 := (p5 hb).1
    have q2 := (p5 hb).2
    have q3 : R.ok (R.readSome .chars k (l.sync R).src).2.2 = false ∨ D.length < m := by
      rcases q2 with q2 | ⟨_, q2⟩
      · exact .inl q2
      · by_cases hlt : D.length < m
        · exact .inr hlt
        · exfalso
          have hk0 : k = 0 := by omega
          rw [hk0] at hb
          simp [ReaderOps.readSome] at hb
    obtain ⟨k1, k3, k4, k5, k6⟩ := h.recheck L hok p1 (by omega) q3
    rw [if_pos rfl]
    dsimp only
    rw [k1.ops_cursor]
    refine ⟨k1, ⟨by omega, by omega, ?_, by simp, fun _ => ⟨by omega, ?_⟩⟩, (fun ho => by rw [hok] at ho; cases ho), k6⟩
    · rw [p3, k3, slice_take (by omega)]
    · show _ = false ∨ _
      rcases q2 with q2 | ⟨q2, q4⟩
      · left; exact k4.trans (by rw [q2]; rfl)
      · rcases q3 with q3 | q3
        · left; exact k4.trans (by rw [q3]; rfl)
        cases ex with
        | true => left; exact k4.trans (by simp)
        | false => right; exact ⟨.inr ⟨q2, rfl⟩, by omega⟩

theorem lawful_copySlow (L : R.Lawful D E Inv) (h : LInv R D Inv m ex f P Q l) (n : Nat) (d : Dest) (hn : 0 < n) :
    LInv R D Inv m ex f P Q (copySlow R n d l).2.2 ∧
    (ops R).CopyPost (D.take m) (CleanEnd D E m ex) n d l (copySlow R n d l) ∧
    (l.ok = false → (copySlow R n d l).2.2.ok = false) ∧
    (copySlow R n d l).2.2.failIfLonger = l.failIfLonger := by
  unfold ReaderOps.CopyPost
  unfold copySlow
  by_cases hok : l.ok = false
  · rw [if_pos hok]
    refine ⟨h, ⟨Nat.le_refl _, Nat.le_add_right _ _, ⟨0, Nat.zero_le _, by simp [slice], by simp⟩, by simp,
      fun _ _ => ⟨Nat.lt_add_of_pos_right hn, .inl hok⟩, id⟩, id, rfl⟩
  rw [if_neg hok]
  have hok : l.ok = true := by simpa using hok
  obtain ⟨hs, hsc⟩ := h.sync L
  have hm : (l.sync R).maxPos = m := h.maxPos
  have hp : (l.sync R).pos = l.cur := h.pos
  dsimp only
  rw [hm, hp]
  have hcm : l.cur ≤ m := by have := h.cur_lim; have := h.lim_max; omega
  have hso : R.ok (l.sync R).src = true := hs.srcOk hok
  rw [h.ops_cursor]
  generalize hk : min n (m - l.cur) = k
  obtain ⟨p1, ⟨p2, p2', ⟨j, p3, p3', p3''⟩, p4, p5, p7⟩, p6⟩ := L.copy k d hs.inv
  rw [hsc] at p2 p2' p3 p3' p3'' p4 p5
  have hD : (D.take m).length = min m D.length := List.length_take
  have hw := L.window _ p1
  cases hb : (R.copy k d (l.sync R).src).1 with
  | true =>
    obtain ⟨q1, q2, q2'⟩ := p4 hb
    obtain ⟨k1, k2, k3, k4, k5, k6⟩ := h.remake L hok p1 (by omega)
    rw [if_neg (by simp)]
    dsimp only
    rw [k1.ops_cursor]
    refine ⟨k1, ⟨by omega, by omega, ⟨j, by omega, ?_, fun ho => ?_⟩, fun he => ?_, fun he ho => ?_, p7⟩,
      (fun ho => by rw [hok] at ho; cases ho), k6⟩
    · rw [p3', slice_take (by omega)]
    · have := p3'' ho; omega
    · have he : k = n := by simpa using he
      exact ⟨by omega, keeps hso hok k4 q2, q2'⟩
    · have he : k ≠ n := by simpa using he
      refine ⟨by omega, .inr ⟨.inl ?_, ?_⟩⟩ <;> omega
  | false =>
    rw [if_pos rfl]
    cases hd : (R.copy k d (l.sync R).src).2.1.ok with
    | true =>
      obtain ⟨q1, q2⟩ := p5 hb hd
      obtain ⟨k1, k3, k4, k5, k6⟩ := h.recheck L hok p1 (by omega) (by
        rcases q2 with q2 | ⟨_, q2⟩
        · exact .inl q2
        · right; omega)
      simp only [if_true]
      rw [k1.ops_cursor]
      refine ⟨k1, ⟨by omega, by omega, ⟨j, by omega, ?_, fun ho => ?_⟩, by simp, fun _ _ => ⟨by omega, ?_⟩, fun ho => p7 hd⟩,
        (fun ho => by rw [hok] at ho; cases ho), k6⟩
      · rw [p3', slice_take (by omega)]
      · have := p3'' hd; omega
      · show _ = false ∨ _
        rcases q2 with q2 | ⟨q2, q3⟩
        · left; exact k4.trans (by rw [q2]; rfl)
        · cases ex with
          | true => left; exact k4.trans (by simp)
          | false => right; exact ⟨.inr ⟨q2, rfl⟩, by omega⟩
    | false =>
      obtain ⟨k1, k2, k3, k4, k5, k6⟩ := h.remake L hok p1 (by omega)
      simp only [Bool.false_eq_true, if_false]
      rw [k1.ops_cursor]
      refine ⟨k1, ⟨by omega, by omega, ⟨j, by omega, ?_, fun ho => ?_⟩, by simp, fun _ ho => ?_, fun ho => ?_⟩,
        (fun ho => by rw [hok] at ho; cases ho), k6⟩
      · rw [p3', slice_take (by omega)]
      · first | exact ho.elim | (rw [hd] at ho; cases ho)
      · first | exact ho.elim | (rw [hd] at ho; cases ho)
      · first | exact ho.elim | (rw [hd] at ho; cases ho)

theorem lawful_copySomeSlow (L : R.Lawful D E Inv) (h : LInv R D Inv m ex f P Q l) (n : Nat) (d : Dest) (hn : 0 < n) :
    LInv R D Inv m ex f P Q (copySomeSlow R n d l).2.2 ∧
    (ops R).CopySomePost (D.take m) (CleanEnd D E m ex) n d l (copySomeSlow R n d l) ∧
    (l.ok = false → (copySomeSlow R n d l).2.2.ok = false) ∧
    (copySomeSlow R n d l).2.2.failIfLonger = l.failIfLonger := by
  unfold ReaderOps.CopySomePost
  unfold copySomeSlow
  by_cases hok : l.ok = false
  · rw [if_pos hok]
    refine ⟨h, ⟨Nat.le_refl _, Nat.le_add_right _ _, ⟨0, Nat.zero_le _, by simp [slice], by simp⟩, by simp,
      fun _ _ => .inl hok, id⟩, id, rfl⟩
  rw [if_neg hok]
  have hok : l.ok = true := by simpa using hok
  obtain ⟨hs, hsc⟩ := h.sync L
  have hm : (l.sync R).maxPos = m := h.maxPos
  have hp : (l.sync R).pos = l.cur := h.pos
  dsimp only
  rw [hm, hp]
  have hcm : l.cur ≤ m := by have := h.cur_lim; have := h.lim_max; omega
  have hso : R.ok (l.sync R).src = true := hs.srcOk hok
  rw [h.ops_cursor]
  generalize hk : min n (m - l.cur) = k
  obtain ⟨p1, ⟨p2, p2', ⟨j, p3, p3', p3''⟩, p4, p5, p7⟩, p6⟩ := L.copySome k d hs.inv
  rw [hsc] at p2 p2' p3 p3' p3'' p4 p5
  have hD : (D.take m).length = min m D.length := List.length_take
  have hw := L.window _ p1
  have hcl : l.cur ≤ D.length := by have := h.cur_lim; have := h.lim_le; have := (L.window _ h.inv).2.2; omega
  cases hb : (R.copySome k d (l.sync R).src).1 with
  | true =>
    obtain ⟨q1, q2, q2'⟩ := p4 hb
    obtain ⟨k1, k2, k3, k4, k5, k6⟩ := h.remake L hok p1 (by omega)
    rw [if_neg (by simp)]
    dsimp only
    rw [k1.ops_cursor]
    refine ⟨k1, ⟨by omega, by omega, ⟨j, by omega, ?_, fun ho => ?_⟩, fun he => ?_, fun he ho => ?_, p7⟩,
      (fun ho => by rw [hok] at ho; cases ho), k6⟩
    · rw [p3', slice_take (by omega)]
    · have := p3'' ho; omega
    · have he : 0 < k := by simpa using he
      exact ⟨fun _ => by have := q1 he; omega, keeps hso hok k4 q2, q2'⟩
    · have he : ¬ (0 < k) := by simpa using he
      refine .inr ⟨.inl ?_, ?_⟩ <;> omega
  | false =>
    rw [if_pos rfl]
    cases hd : (R.copySome k d (l.sync R).src).2.1.ok with
    | true =>
      have q2 := p5 hb hd
      have q3 : R.ok (R.copySome k d (l.sync R).src).2.2 = false ∨ D.length < m := by
        rcases q2 with q2 | ⟨_, q2⟩
        · exact .inl q2
        · by_cases hlt : D.length < m
          · exact .inr hlt
          · exfalso
            have hk0 : k = 0 := by omega
            rw [hk0] at hb hd
            simp only [ReaderOps.copySome, Nat.zero_min, Nat.zero_le, if_true, or_true] at hb hd
            have := (d.write_spec (R.peek 0 (l.sync R).src)).2.2.1 hb
            rw [hd] at this; cases this
      obtain ⟨k1, k3, k4, k5, k6⟩ := h.recheck L hok p1 (by omega) q3
      simp only [if_true]
      rw [k1.ops_cursor]
      refine ⟨k1, ⟨by omega, by omega, ⟨j, by omega, ?_, fun ho => ?_⟩, by simp, fun _ _ => ?_, fun ho => p7 hd⟩,
        (fun ho => by rw [hok] at ho; cases ho), k6⟩
      · rw [p3', slice_take (by omega)]
      · have := p3'' hd; omega
      · show _ = false ∨ _
        rcases q2 with q2 | ⟨q2, q4⟩
        · left; exact k4.trans (by rw [q2]; rfl)
        · rcases q3 with q3 | q3
          · left; exact k4.trans (by rw [q3]; rfl)
          cases ex with
          | true => left; exact k4.trans (by simp)
          | false => right; exact ⟨.inr ⟨q2, rfl⟩, by omega⟩
    | false =>
      obtain ⟨k1, k2, k3, k4, k5, k6⟩ := h.remake L hok p1 (by omega)
      simp only [Bool.false_eq_true, if_false]
      rw [k1.ops_cursor]
      refine ⟨k1, ⟨by omega, by omega, ⟨j, by omega, ?_, fun ho => ?_⟩, by simp, fun _ ho => ?_, fun ho => ?_⟩,
        (fun ho => by rw [hok] at ho; cases ho), k6⟩
      · rw [p3', slice_take (by omega)]
      · first | exact ho.elim | (rw [hd] at ho; cases ho)
      · first | exact ho.elim | (rw [hd] at ho; cases ho)
      · first | exact ho.elim | (rw [hd] at ho; cases ho)

theorem lawful_seekSlow (L : R.Lawful D E Inv) (h : LInv R D Inv m ex f P Q l) (p : Nat) :
    Any R D Inv m ex f P Q (seekSlow R p l).2 ∧
    (ops R).SeekPost (D.take m) (CleanEnd D E m ex) p l (seekSlow R p l) ∧
    (l.ok = false → (seekSlow R p l).2.ok = false) := by
  unfold ReaderOps.SeekPost
  unfold seekSlow
  by_cases hok : l.ok = false
  · rw [if_pos hok]
    refine ⟨.inl h, ⟨.inl (Nat.le_max_right _ _), fun _ => Nat.le_refl _, by simp, fun _ => .inl hok⟩, id⟩
  rw [if_neg hok]
  have hok : l.ok = true := by simpa using hok
  obtain ⟨hs, hsc⟩ := h.sync L
  have hm : (l.sync R).maxPos = m := h.maxPos
  dsimp only
  rw [hm]
  have hcm : l.cur ≤ m := by have := h.cur_lim; have := h.lim_max; omega
  have hso : R.ok (l.sync R).src = true := hs.srcOk hok
  rw [h.ops_cursor]
  generalize hk : min p m = q
  obtain ⟨p1, ⟨p2, p3, p4, p5⟩, p6⟩ := L.seek q hs.inv
  rw [hsc] at p2 p3
  have hD : (D.take m).length = min m D.length := List.length_take
  have hw := L.window _ p1
  cases hb : (R.seek q (l.sync R).src).1 with
  | true =>
    obtain ⟨q1, q2⟩ := p4 hb
    obtain ⟨k1, k2, k3, k4, k5, k6⟩ := h.remake L hok p1 (by omega)
    rw [if_neg (by simp)]
    dsimp only
    rw [k1.ops_cursor]
    refine ⟨.inl k1, ⟨.inl (by omega), fun _ => by omega, fun he => ?_, fun he => ?_⟩, (fun ho => by rw [hok] at ho; cases ho)⟩
    · have he : q = p := by simpa using he
      exact ⟨by omega, keeps hso hok k4 q2⟩
    · have he : q ≠ p := by simpa using he
      refine .inr ⟨.inl ?_, ?_, ?_⟩ <;> omega
  | false =>
    have q2 := p5 hb
    rw [if_pos rfl]
    by_cases hc : R.cursor (R.seek q (l.sync R).src).2 ≤ m
    · obtain ⟨k1, k3, k4, k5, k6⟩ := h.recheck L hok p1 hc (by
        rcases q2 with q2 | ⟨_, q2, q3⟩
        · exact .inl q2
        · right; omega)
      dsimp only
      rw [k1.ops_cursor]
      refine ⟨.inl k1, ⟨?_, fun hcp => ?_, by simp, fun _ => ?_⟩, (fun ho => by rw [hok] at ho; cases ho)⟩
      · rcases p2 with p2 | ⟨p2, p2'⟩
        · left; omega
        · right
          exact ⟨by omega, k4.trans (by rw [p2']; rfl)⟩
      · have := p3 (by omega); omega
      · show _ = false ∨ _
        rcases q2 with q2 | ⟨q2, q3, q4⟩
        · left; exact k4.trans (by rw [q2]; rfl)
        · cases ex with
          | true => left; exact k4.trans (by simp)
          | false => right; exact ⟨.inr ⟨q2, rfl⟩, by omega, by omega⟩
    · obtain ⟨p2, p2'⟩ : q < l.cur ∧ R.ok (R.seek q (l.sync R).src).2 = false := by
        rcases p2 with p2 | p2
        · exfalso; omega
        · exact p2
      have key : ∀ l' : LR σ, Any R D Inv m ex f P Q l' → l'.ok = false → Any R D Inv m ex f P Q l' ∧
          (((ops R).cursor l' ≤ max p l.cur ∨ (p < l.cur ∧ l'.ok = false)) ∧ (l.cur ≤ p → l.cur ≤ (ops R).cursor l') ∧
          ((false : Bool) = true → (ops R).cursor l' = p ∧ (ops R).Keeps l l') ∧ ((false : Bool) = false → l'.ok = false ∨
            (CleanEnd D E m ex ∧ (ops R).cursor l' = (D.take m).length ∧ (D.take m).length < p))) ∧
          (l.ok = false → l'.ok = false) := fun l' ha ho =>
        ⟨ha, ⟨.inr ⟨by omega, ho⟩, fun h => by exfalso; omega, by simp, fun _ => .inl ho⟩, fun _ => ho⟩
      have hmk := makeBuffer_dead (l := (l.sync R).setSrc (R.seek q (l.sync R).src).2) L p1 p2' h.maxPos h.exact h.fil
        (Nat.lt_of_not_le hc)
      dsimp only
      generalize makeBuffer R ((l.sync R).setSrc (R.seek q (l.sync R).src).2) = l1 at hmk
      refine key _ ?_ ?_ <;> unfold checkEnough <;> split
      · exact (hmk.fail L).1
      · exact .inr hmk
      · rfl
      · exact hmk.ok

theorem lawful_copyBackSlow (L : R.Lawful D E Inv) (h : LInv R D Inv m ex f P Q l) (n : Nat) (d : Dest) (hn : 0 < n) :
    LInv R D Inv m ex f P Q (copyBackSlow R n d l).2.2 ∧
    (ops R).CopyBackPost (D.take m) (CleanEnd D E m ex) n d l (copyBackSlow R n d l) ∧
    (l.ok = false → (copyBackSlow R n d l).2.2.ok = false) ∧
    (copyBackSlow R n d l).2.2.failIfLonger = l.failIfLonger := by
  unfold ReaderOps.CopyBackPost
  unfold copyBackSlow
  by_cases hok : l.ok = false
  · rw [if_pos hok]
    refine ⟨h, ⟨Nat.le_refl _, Nat.le_add_right _ _, by simp, fun _ _ => ⟨rfl, Nat.lt_add_of_pos_right hn, .inl hok⟩, id⟩, id, rfl⟩
  rw [if_neg hok]
  have hok : l.ok = true := by simpa using hok
  obtain ⟨hs, hsc⟩ := h.sync L
  have hm : (l.sync R).maxPos = m := h.maxPos
  have hp : (l.sync R).pos = l.cur := h.pos
  dsimp only
  rw [hm, hp]
  have hcm : l.cur ≤ m := by have := h.cur_lim; have := h.lim_max; omega
  have hso : R.ok (l.sync R).src = true := hs.srcOk hok
  rw [h.ops_cursor]
  have hD : (D.take m).length = min m D.length := List.length_take
  by_cases hlt : m - l.cur < n
  · rw [if_pos hlt]
    obtain ⟨p1, ⟨p2, p3, p4, p5⟩, p6⟩ := L.seek m hs.inv
    rw [hsc] at p2 p3
    have p3 := p3 hcm
    have hw := L.window _ p1
    dsimp only
    cases hb : (R.seek m (l.sync R).src).1 with
    | true =>
      obtain ⟨q1, q2⟩ := p4 hb
      obtain ⟨k1, k2, k3, k4, k5, k6⟩ := h.remake L hok p1 (by omega)
      rw [if_neg (by simp), k1.ops_cursor]
      refine ⟨k1, ⟨by omega, by omega, by simp, fun _ ho => ⟨rfl, by omega, .inr ⟨.inl (by omega), by omega⟩⟩, id⟩,
        (fun ho => by rw [hok] at ho; cases ho), k6⟩
    | false =>
      have q2 := p5 hb
      obtain ⟨k1, k3, k4, k5, k6⟩ := h.recheck L hok p1 (by omega) (by
        rcases q2 with q2 | ⟨_, q2, q3⟩
        · exact .inl q2
        · right; omega)
      rw [if_pos rfl, k1.ops_cursor]
      refine ⟨k1, ⟨by omega, by omega, by simp, fun _ ho => ⟨rfl, by omega, ?_⟩, id⟩,
        (fun ho => by rw [hok] at ho; cases ho), k6⟩
      show _ = false ∨ _
      rcases q2 with q2 | ⟨q2, q3, q4⟩
      · left; exact k4.trans (by rw [q2]; rfl)
      · cases ex with
        | true => left; exact k4.trans (by simp)
        | false => right; exact ⟨.inr ⟨q2, rfl⟩, by omega⟩
  · rw [if_neg hlt]
    obtain ⟨p1, ⟨p2, p2', p4, p5, p7⟩, p6⟩ := L.copyBack n d hs.inv
    rw [hsc] at p2 p2' p4 p5
    have hw := L.window _ p1
    cases hb : (R.copyBack n d (l.sync R).src).1 with
    | true =>
      obtain ⟨q1, q2, q2', q3⟩ := p4 hb
      obtain ⟨k1, k2, k3, k4, k5, k6⟩ := h.remake L hok p1 (by omega)
      rw [if_neg (by simp)]
      dsimp only
      rw [k1.ops_cursor]
      refine ⟨k1, ⟨by omega, by omega, fun _ => ⟨by omega, keeps hso hok k4 q2, q2', ?_⟩, by simp, p7⟩,
        (fun ho => by rw [hok] at ho; cases ho), k6⟩
      rw [q3, slice_take (by omega)]
    | false =>
      rw [if_pos rfl]
      cases hd : (R.copyBack n d (l.sync R).src).2.1.ok with
      | true =>
        obtain ⟨q0, q1, q2⟩ := p5 hb hd
        obtain ⟨k1, k3, k4, k5, k6⟩ := h.recheck L hok p1 (by omega) (by
          rcases q2 with q2 | ⟨_, q2⟩
          · exact .inl q2
          · right; omega)
        simp only [if_true]
        rw [k1.ops_cursor]
        refine ⟨k1, ⟨by omega, by omega, by simp, fun _ _ => ⟨q0, by omega, ?_⟩, fun ho => p7 hd⟩,
          (fun ho => by rw [hok] at ho; cases ho), k6⟩
        show _ = false ∨ _
        rcases q2 with q2 | ⟨q2, q3⟩
        · left; exact k4.trans (by rw [q2]; rfl)
        · cases ex with
          | true => left; exact k4.trans (by simp)
          | false => right; exact ⟨.inr ⟨q2, rfl⟩, by omega⟩
      | false =>
        obtain ⟨k1, k2, k3, k4, k5, k6⟩ := h.remake L hok p1 (by omega)
        simp only [Bool.false_eq_true, if_false]
        rw [k1.ops_cursor]
        refine ⟨k1, ⟨by omega, by omega, by simp, fun _ ho => ?_, fun ho => ?_⟩,
          (fun ho => by rw [hok] at ho; cases ho), k6⟩
        · first | exact ho.elim | (rw [hd] at ho; cases ho)
        · first | exact ho.elim | (rw [hd] at ho; cases ho)

theorem lawful_readHintSlow (L : R.Lawful D E Inv) (h : LInv R D Inv m ex f P Q l) (n rec : Nat) :
    LInv R D Inv m ex f P Q (readHintSlow R n rec l) ∧ (ops R).cursor (readHintSlow R n rec l) = (ops R).cursor l ∧
    (l.ok = false → (readHintSlow R n rec l).ok = false) ∧
    (readHintSlow R n rec l).failIfLonger = l.failIfLonger := by
  unfold readHintSlow
  by_cases hok : l.ok = false
  · rw [if_pos hok]
    exact ⟨h, rfl, id, rfl⟩
  rw [if_neg hok]
  have hok : l.ok = true := by simpa using hok
  obtain ⟨hs, hsc⟩ := h.sync L
  have hm : (l.sync R).maxPos = m := h.maxPos
  have hp : (l.sync R).pos = l.cur := h.pos
  dsimp only
  rw [hm, hp]
  have hcm : l.cur ≤ m := by have := h.cur_lim; have := h.lim_max; omega
  have hso : R.ok (l.sync R).src = true := hs.srcOk hok
  rw [h.ops_cursor]
  obtain ⟨p1, p2, p3⟩ := L.readHint (min n (m - l.cur)) (min rec (m - l.cur)) hs.inv
  rw [hsc] at p2
  obtain ⟨k1, k2, k3, k4, k5, k6⟩ := h.remake L hok p1 (by omega)
  rw [k1.ops_cursor]
  exact ⟨k1, k2.trans p2, (fun ho => by rw [hok] at ho; cases ho), k6⟩

theorem lawful_sizeImpl (L : R.Lawful D E Inv) (h : LInv R D Inv m ex f P Q l) :
    LInv R D Inv m ex f P Q (sizeImpl R l).2 ∧ (ops R).cursor (sizeImpl R l).2 = (ops R).cursor l ∧
    (∀ n, (sizeImpl R l).1 = some n → (CleanEnd D E m ex → n = (D.take m).length) ∧ (D.take m).length ≤ n ∧ (ops R).Keeps l (sizeImpl R l).2) ∧
    ((sizeImpl R l).1 = none → (sizeImpl R l).2.ok = false) ∧
    (l.ok = false → (sizeImpl R l).2.ok = false) ∧
    (sizeImpl R l).2.failIfLonger = l.failIfLonger := by
  unfold sizeImpl
  have hD : (D.take m).length = min m D.length := List.length_take
  by_cases hok : l.ok = false
  · rw [if_pos hok]
    exact ⟨h, rfl, by simp, fun _ => hok, id, rfl⟩
  rw [if_neg hok, h.exact]
  have hok : l.ok = true := by simpa using hok
  cases ex with
  | true =>
    rw [if_pos rfl]
    refine ⟨h, rfl, fun n hn => ⟨fun hc => ?_, ?_, .rfl⟩, by simp, id, rfl⟩ <;> cases hn
    · rw [h.maxPos]
      rcases hc with hc | hc
      · omega
      · cases hc.2
    · rw [h.maxPos]; omega
  | false =>
    simp only [Bool.false_eq_true, if_false]
    obtain ⟨hs, hsc⟩ := h.sync L
    have hso : R.ok (l.sync R).src = true := hs.srcOk hok
    obtain ⟨p1, p2, p3, p4, p5⟩ := L.sizeImpl (l.sync R).src hs.inv
    rw [hsc] at p2
    have hcm : l.cur ≤ m := by have := h.cur_lim; have := h.lim_max; omega
    obtain ⟨k1, k2, k3, k4, k5, k6⟩ := h.remake L hok p1 (by omega)
    rw [k1.ops_cursor, h.ops_cursor, k1.maxPos]
    refine ⟨k1, k2.trans p2, fun n hn => ?_, fun hn => ?_, (fun ho => by rw [hok] at ho; cases ho), k6⟩
    · simp only [Option.map_eq_some_iff] at hn
      obtain ⟨z, hz, rfl⟩ := hn
      obtain ⟨q1, q1', q2⟩ := p3 z hz
      refine ⟨fun hc => ?_, by omega, keeps hso hok k4 q2⟩
      rcases hc with hc | hc
      · omega
      · have := q1 hc.1; omega
    · simp only [Option.map_eq_none_iff] at hn
      exact k4.trans (p4 hn)

/-- A failed `LimitingReader` does nothing. -/
theorem lawful_dead (h : Dead R D Inv m ex f l) :
    (ops R).start l = l.limitPos ∧ (ops R).cursor l = l.limitPos ∧ (ops R).avail l = 0 ∧
    (∀ n rec, pullSlow R n rec l = (false, l)) ∧ (∀ k n, readSlow R k n l = (false, [], l)) ∧
    (∀ n d, copySlow R n d l = (false, d, l)) ∧ (∀ n d, copyBackSlow R n d l = (false, d, l)) ∧
    (∀ n, readSomeSlow R n l = (false, [], l)) ∧ (∀ n d, copySomeSlow R n d l = (false, d, l)) ∧
    (∀ n rec, readHintSlow R n rec l = l) ∧ (∀ p, seekSlow R p l = (false, l)) ∧ sizeImpl R l = (none, l) := by
  have hp : (ops R).cursor l = l.limitPos := h.pos
  have ho := h.ok
  refine ⟨?_, hp, ?_, ?_, ?_, ?_, ?_, ?_, ?_, ?_, ?_, ?_⟩
  · show l.limitPos - (l.lim - l.start) = _
    rw [h.lim, h.start]; omega
  · unfold ReaderOps.avail; rw [hp]; exact Nat.sub_self _
  all_goals intros
  all_goals simp only [pullSlow, readSlow, copySlow, copyBackSlow, readSomeSlow, copySomeSlow, readHintSlow, seekSlow, sizeImpl, ho, if_true]

/-- A `LimitingReader` is a lawful reader of the data of its source truncated at the limit. -/
theorem lawful (L : R.Lawful D E Inv) (m : Nat) (ex f : Bool) (P : Prop) (Q : σ → Prop) :
    (ops R).Lawful (D.take m) (CleanEnd D E m ex) (Any R D Inv m ex f P Q) where
  window l h := by
    have hD : (D.take m).length = min m D.length := List.length_take
    rcases h with h | h
    · rw [h.ops_start, h.ops_cursor, h.ops_limit]
      have := (L.window _ h.inv).2.2
      have := h.lim_le
      have := h.lim_max
      exact ⟨h.start_cur, h.cur_lim, by omega⟩
    · obtain ⟨h1, h2, -⟩ := lawful_dead h
      have h3 := h.limitPos; have h4 := h.limitPos_le
      rw [h1, h2]
      refine ⟨Nat.le_refl _, Nat.le_refl _, ?_⟩
      show l.limitPos ≤ _
      omega
  data l h := by
    rcases h with h | h
    · have hw := L.window _ h.inv
      have h1 := h.start_le; have h2 := h.start_cur; have h3 := h.cur_lim; have h4 := h.lim_le; have h5 := h.lim_max
      rw [h.ops_start, h.ops_limit]
      show slice (R.buf l.src) _ _ = _
      rw [L.data _ h.inv, slice_slice (by omega), slice_take (by omega)]
      congr 1; omega
    · obtain ⟨h1, h2, -⟩ := lawful_dead h
      rw [h1]
      show slice (R.buf l.src) _ (l.lim - l.start) = slice _ _ (l.limitPos - l.limitPos)
      rw [h.lim, h.start, Nat.sub_self, Nat.sub_self, slice_zero, slice_zero]
  setCursor l c h h1 h2 := by
    rcases h with h | h
    · obtain ⟨g1, g2⟩ := lawful_setCursor h c h1 h2
      exact ⟨.inl g1, g2⟩
    · obtain ⟨d1, d2, -⟩ := lawful_dead h
      have hc : c = l.limitPos := by
        have h2 : c ≤ l.limitPos := h2
        omega
      have e : (ops R).setCursor c l = l := by
        have hl := h.lim
        subst hc
        cases l
        simp only [ops, Nat.sub_self, Nat.sub_zero] at hl ⊢
        rw [hl]
      rw [e]
      exact ⟨.inr h, d2.trans hc.symm, rfl, rfl, rfl⟩
  pullSlow l n rec h hn := by
    rcases h with h | h
    · obtain ⟨h1, h2, h3, h4, h5, _⟩ := lawful_pullSlow L h n rec hn
      exact ⟨.inl h1, h2, h3, h4, h5⟩
    · have e : (ops R).pullSlow n rec l = (false, l) := (lawful_dead h).2.2.2.1 n rec
      rw [e]
      exact ⟨.inr h, rfl, by simp, fun _ => ⟨hn, .inl h.ok⟩, id⟩
  readSlow l k n h hn _ := by
    rcases h with h | h
    · obtain ⟨h1, h2, h3, _⟩ := lawful_readSlow L h k n hn
      exact ⟨.inl h1, h2, h3⟩
    · have e : (ops R).readSlow k n l = (false, [], l) := (lawful_dead h).2.2.2.2.1 k n
      rw [e]
      refine ⟨.inr h, ⟨Nat.le_refl _, by simp [slice], by simp, fun _ => ⟨Nat.lt_add_of_pos_right hn, .inl h.ok⟩⟩, id⟩
  readAvail l n h hn ha hb := by
    rcases h with h | h
    · exact lawful_readAvail L h n ha hb
    · have e : (ops R).readSlow .blocks n l = (false, [], l) := (lawful_dead h).2.2.2.2.1 .blocks n
      rw [e]
  copySlow l n d h hn _ := by
    rcases h with h | h
    · obtain ⟨h1, h2, h3, _⟩ := lawful_copySlow L h n d hn
      exact ⟨.inl h1, h2, h3⟩
    · have e : (ops R).copySlow n d l = (false, d, l) := (lawful_dead h).2.2.2.2.2.1 n d
      rw [e]
      exact ⟨.inr h, ⟨Nat.le_refl _, Nat.le_add_right _ _, ⟨0, Nat.zero_le _, by simp [slice], by simp⟩, by simp,
        fun _ _ => ⟨Nat.lt_add_of_pos_right hn, .inl h.ok⟩, id⟩, id⟩
  copyBackSlow l n d h hn _ := by
    rcases h with h | h
    · obtain ⟨h1, h2, h3, _⟩ := lawful_copyBackSlow L h n d hn
      exact ⟨.inl h1, h2, h3⟩
    · have e : (ops R).copyBackSlow n d l = (false, d, l) := (lawful_dead h).2.2.2.2.2.2.1 n d
      rw [e]
      exact ⟨.inr h, ⟨Nat.le_refl _, Nat.le_add_right _ _, by simp,
        fun _ _ => ⟨rfl, Nat.lt_add_of_pos_right hn, .inl h.ok⟩, id⟩, id⟩
  readSomeSlow l n h hn _ := by
    rcases h with h | h
    · obtain ⟨h1, h2, h3, _⟩ := lawful_readSomeSlow L h n hn
      exact ⟨.inl h1, h2, h3⟩
    · have e : (ops R).readSomeSlow n l = (false, [], l) := (lawful_dead h).2.2.2.2.2.2.2.1 n
      rw [e]
      exact ⟨.inr h, ⟨Nat.le_refl _, Nat.le_add_right _ _, by simp [slice], by simp, fun _ => ⟨rfl, .inl h.ok⟩⟩, id⟩
  copySomeSlow l n d h hn _ := by
    rcases h with h | h
    · obtain ⟨h1, h2, h3, _⟩ := lawful_copySomeSlow L h n d hn
      exact ⟨.inl h1, h2, h3⟩
    · have e : (ops R).copySomeSlow n d l = (false, d, l) := (lawful_dead h).2.2.2.2.2.2.2.2.1 n d
      rw [e]
      exact ⟨.inr h, ⟨Nat.le_refl _, Nat.le_add_right _ _, ⟨0, Nat.zero_le _, by simp [slice], by simp⟩, by simp,
        fun _ _ => .inl h.ok, id⟩, id⟩
  readHintSlow l n rec h _ := by
    rcases h with h | h
    · obtain ⟨h1, h2, h3, _⟩ := lawful_readHintSlow L h n rec
      exact ⟨.inl h1, h2, h3⟩
    · have e : (ops R).readHintSlow n rec l = l := (lawful_dead h).2.2.2.2.2.2.2.2.2.1 n rec
      rw [e]
      exact ⟨.inr h, rfl, id⟩
  seekSlow l p h _ := by
    rcases h with h | h
    · exact lawful_seekSlow L h p
    · have e : (ops R).seekSlow p l = (false, l) := (lawful_dead h).2.2.2.2.2.2.2.2.2.2.1 p
      rw [e]
      exact ⟨.inr h, ⟨.inl (Nat.le_max_right _ _), fun _ => Nat.le_refl _, by simp, fun _ => .inl h.ok⟩, id⟩
  sizeImpl l h := by
    rcases h with h | h
    · obtain ⟨h1, h2, h3, h4, h5, _⟩ := lawful_sizeImpl L h
      exact ⟨.inl h1, h2, h3, h4, h5⟩
    · have e : (ops R).sizeImpl l = (none, l) := (lawful_dead h).2.2.2.2.2.2.2.2.2.2.2
      rw [e]
      exact ⟨.inr h, rfl, by simp, fun _ => h.ok, id⟩

theorem pull_linv (L : R.Lawful D E Inv) (h : LInv R D Inv m ex f P Q l) (n rec : Nat) :
    LInv R D Inv m ex f P Q ((ops R).pull n rec l).2 := by
  unfold ReaderOps.pull
  split
  · exact h
  · exact (lawful_pullSlow L h n rec (by omega)).1

/-! ## Changing the limit -/

theorem Dead.setMaxPos (h : Dead R D Inv m ex f l) {m' : Nat} (hp : l.limitPos ≤ m') :
    Dead R D Inv m' ex f (l.setMaxPos m') ∧ (l.setMaxPos m').limitPos = l.limitPos ∧ (l.setMaxPos m').src = l.src := by
  unfold LR.setMaxPos
  dsimp only
  rw [if_neg (by omega)]
  exact ⟨{ h with maxPos := rfl, limitPos := hp }, rfl, rfl⟩

theorem Dead.clearLimit (h : Dead R D Inv m ex f l) (hm : m ≤ kMaxPosition) : Dead R D Inv kMaxPosition ex f l.clearLimit :=
  { h with maxPos := rfl, limitPos := Nat.le_trans h.limitPos hm }

theorem Dead.setExact (h : Dead R D Inv m ex f l) (ex' : Bool) : Dead R D Inv m ex' f { l with exact := ex' } :=
  { h with exact := rfl }

theorem Dead.restore (h : Dead R D Inv m ex f l) {m' : Nat} (ex' : Bool) (hm : m ≤ m') :
    Dead R D Inv m' ex' f { l with maxPos := m', exact := ex' } :=
  { h with exact := rfl, maxPos := rfl, limitPos := Nat.le_trans h.limitPos hm }

theorem Dead.setMaxLength (L : R.Lawful D E Inv) (h : Dead R D Inv m ex f l) (hm : m ≤ kMaxPosition) {n : Nat} (hn : n ≤ kMaxPosition) :
    Any R D Inv (min (l.pos + n) kMaxPosition) ex f P Q (l.setMaxLength R n) ∧ (l.setMaxLength R n).ok = false := by
  have hp := h.limitPos
  unfold LR.setMaxLength
  rw [h.pos]
  unfold kMaxPosition at hm hn
  by_cases hlt : l.limitPos + n < 2 ^ 64
  · have e : w64 (l.limitPos + n) = l.limitPos + n := Nat.mod_eq_of_lt hlt
    rw [e]
    dsimp only
    rw [if_neg (by omega), if_neg (by omega), Nat.min_eq_left (by unfold kMaxPosition; omega)]
    exact ⟨.inr { h with maxPos := rfl, limitPos := Nat.le_add_right _ _ }, h.ok⟩
  · have e : w64 (l.limitPos + n) < n := by unfold w64; omega
    dsimp only
    rw [if_pos e, Nat.min_eq_right (by unfold kMaxPosition; omega)]
    have hc := h.clearLimit hm
    split
    · exact hc.fail L
    · exact ⟨.inr hc, h.ok⟩

theorem Dead.enter (L : R.Lawful D E Inv) (h : Dead R D Inv m ex f l) (o : LOpts) (hm : m ≤ kMaxPosition)
    (hl : l.pos ≤ o.requested l.pos) :
    Any R D Inv (min m (o.requested l.pos)) true f ((enter R o l).2.ok = false) (· = (enter R o l).2.src) (enter R o l).2 ∧
    (enter R o l).1 = ⟨m, ex, o.failIfLonger⟩ ∧ (enter R o l).2.ok = false := by
  have setEx : ∀ {m'} {l' : LR σ} {P' : Prop} {Q' : σ → Prop}, Any R D Inv m' ex f P' Q' l' → l'.ok = false →
      Any R D Inv m' true f (({ l' with exact := true } : LR σ).ok = false) (· = ({ l' with exact := true } : LR σ).src)
        { l' with exact := true } ∧ ({ l' with exact := true } : LR σ).ok = false := by
    intro m' l' P' Q' ha ho
    refine ⟨ha.imp (fun h => ?_) (fun h => h.setExact true), ho⟩
    exact { h.rebase with exact := rfl, why := fun h => .inr (.inr h) }
  have failed := h.fail (P := True) (Q := fun _ => True) L
  have hml : l.maxLength = m - l.pos := by unfold maxLength; rw [h.maxPos]
  have hp := h.pos
  have hp2 := h.limitPos
  unfold LR.enter LOpts.requested at *
  rw [hml, h.maxPos, h.exact]
  cases ho : o.limit with
  | none =>
    dsimp only
    rw [Nat.min_eq_left hm]
    split
    · have := setEx failed.1 failed.2
      exact ⟨this.1, rfl, this.2⟩
    · have := setEx (P' := True) (Q' := fun _ => True) (.inr h) h.ok
      exact ⟨this.1, rfl, this.2⟩
  | pos q =>
    simp only [ho] at hl
    dsimp only
    by_cases hlt : m < q
    · rw [Nat.min_eq_left (by omega)]
      simp only [hlt, if_true]
      split
      · have := setEx failed.1 failed.2
        exact ⟨this.1, trivial, this.2⟩
      · have := setEx (P' := True) (Q' := fun _ => True) (.inr h) h.ok
        exact ⟨this.1, trivial, this.2⟩
    · rw [Nat.min_eq_right (by omega)]
      simp only [hlt, if_false]
      obtain ⟨g, -⟩ := h.setMaxPos (m' := q) (by omega)
      have := setEx (P' := True) (Q' := fun _ => True) (.inr g) g.ok
      exact ⟨this.1, trivial, this.2⟩
  | length n =>
    simp only [ho] at hl
    dsimp only
    by_cases hlt : m - l.pos < n
    · rw [Nat.min_eq_left (by omega)]
      simp only [hlt, if_true]
      split
      · have := setEx failed.1 failed.2
        exact ⟨this.1, trivial, this.2⟩
      · have := setEx (P' := True) (Q' := fun _ => True) (.inr h) h.ok
        exact ⟨this.1, trivial, this.2⟩
    · rw [Nat.min_eq_right (by omega)]
      simp only [hlt, if_false]
      obtain ⟨g, g'⟩ := h.setMaxLength (P := True) (Q := fun _ => True) L hm (n := n) (by unfold kMaxPosition at *; omega)
      rw [Nat.min_eq_left (by unfold kMaxPosition at *; omega)] at g
      have := setEx g g'
      exact ⟨this.1, trivial, this.2⟩

theorem Dead.leave (h : Dead R D Inv m ex f l) (sc : Scope) (hm : m ≤ sc.oldMaxPos) :
    Dead R D Inv sc.oldMaxPos sc.oldExact f (leave R sc l) ∧ (leave R sc l).limitPos = l.limitPos := by
  have hr := h.restore (m' := sc.oldMaxPos) sc.oldExact hm
  have e : (ops R).pull 1 0 ({ l with maxPos := sc.oldMaxPos, exact := sc.oldExact } : LR σ) =
      (false, ({ l with maxPos := sc.oldMaxPos, exact := sc.oldExact } : LR σ)) := by
    obtain ⟨-, -, h3, h4, -⟩ := lawful_dead hr
    unfold ReaderOps.pull
    rw [h3, if_neg (by omega)]
    exact h4 1 0
  unfold LR.leave
  dsimp only
  rw [e]
  simp only [Bool.false_eq_true, if_false]
  split <;> exact ⟨hr, rfl⟩

/-- The buffer after the limit became `m'`, with the position within it. -/
theorem setMaxPos_spec (h : LInv R D Inv m ex f P Q l) {m' : Nat} (hc : l.cur ≤ m') :
    LInv R D Inv m' ex f (l.ok = false) (· = l.src) (l.setMaxPos m') ∧ (l.setMaxPos m').cur = l.cur ∧
    (l.setMaxPos m').ok = l.ok ∧ (l.setMaxPos m').src = l.src ∧ (l.setMaxPos m').failIfLonger = l.failIfLonger := by
  have h1 := h.limitPos; have h2 := h.cur_lim
  have hp : ¬ (m' < l.limitPos - (l.lim - l.cur)) := by omega
  unfold setMaxPos makeBufferSlow LR.pos
  simp only [hp, if_false]
  split
  · rename_i hlt
    refine ⟨⟨h.inv, h.start_le, h.start_cur, ?_, ?_, ?_, ?_, rfl, h.exact, h.fil, h.srcOk, fun ho => .inr (.inr ho), .inr rfl⟩,
      rfl, rfl, rfl, rfl⟩ <;> dsimp only <;> have := h.lim_le <;> omega
  · rename_i hlt
    exact ⟨⟨h.inv, h.start_le, h.start_cur, h.cur_lim, h.lim_le, h.limitPos, (by have := h.limitPos; dsimp only at *; omega),
      rfl, h.exact, h.fil, h.srcOk, fun ho => .inr (.inr ho), .inr rfl⟩, rfl, rfl, rfl, rfl⟩

/-- `set_max_length(n)` without an overflow of the position is `set_max_pos(pos() + n)`. -/
theorem setMaxLength_spec (h : LInv R D Inv m ex f P Q l) {n : Nat} (hn : l.cur + n < 2 ^ 64) :
    LInv R D Inv (l.cur + n) ex f (l.ok = false) (· = l.src) (l.setMaxLength R n) ∧ (l.setMaxLength R n).cur = l.cur ∧
    (l.setMaxLength R n).ok = l.ok ∧ (l.setMaxLength R n).src = l.src ∧
    (l.setMaxLength R n).failIfLonger = l.failIfLonger := by
  have h1 := h.limitPos; have h2 := h.cur_lim
  have e : w64 (l.pos + n) = l.cur + n := by rw [h.pos]; exact Nat.mod_eq_of_lt hn
  unfold setMaxLength
  rw [e]
  simp only [show ¬ (l.cur + n < n) by omega, if_false]
  split
  · rename_i hlt
    refine ⟨⟨h.inv, h.start_le, h.start_cur, ?_, ?_, ?_, ?_, rfl, h.exact, h.fil, h.srcOk, fun ho => .inr (.inr ho), .inr rfl⟩,
      rfl, rfl, rfl, rfl⟩ <;> dsimp only <;> have := h.lim_le <;> omega
  · rename_i hlt
    exact ⟨⟨h.inv, h.start_le, h.start_cur, h.cur_lim, h.lim_le, h.limitPos, (by have := h.limitPos; dsimp only at *; omega),
      rfl, h.exact, h.fil, h.srcOk, fun ho => .inr (.inr ho), .inr rfl⟩, rfl, rfl, rfl, rfl⟩

theorem clearLimit_spec (h : LInv R D Inv m ex f P Q l) (hm : m ≤ kMaxPosition) :
    LInv R D Inv kMaxPosition ex f (l.ok = false) (· = l.src) l.clearLimit :=
  ⟨h.inv, h.start_le, h.start_cur, h.cur_lim, h.lim_le, h.limitPos, Nat.le_trans h.lim_max hm, rfl, h.exact, h.fil, h.srcOk,
    fun ho => .inr (.inr ho), .inr rfl⟩

/-- `set_max_length(n)` with an overflow of the position clears the limit, and fails if the limit is exact. -/
theorem setMaxLength_overflow (L : R.Lawful D E Inv) (h : LInv R D Inv m ex f P Q l) (hm : m ≤ kMaxPosition) {n : Nat}
    (hD : D.length < kMaxPosition) (hn64 : n < 2 ^ 64) (hn : 2 ^ 64 ≤ l.cur + n) :
    LInv R D Inv kMaxPosition ex f (l.ok = false) (· = l.src) (l.setMaxLength R n) ∧ (l.setMaxLength R n).cur = l.cur ∧
    (l.setMaxLength R n).ok = (l.ok && !ex) ∧ R.ok (l.setMaxLength R n).src = R.ok l.src ∧
    (l.setMaxLength R n).failIfLonger = l.failIfLonger := by
  have hcl : l.cur < 2 ^ 64 := by have := h.cur_lim; have := h.lim_max; unfold kMaxPosition at hm; omega
  have e : w64 (l.pos + n) < n := by rw [h.pos]; unfold w64; omega
  have hc := clearLimit_spec h hm
  unfold setMaxLength
  dsimp only
  rw [if_pos e]
  have he := h.exact
  cases ex with
  | true =>
    obtain ⟨h1, h2, h3, h4, h5, h6, h7⟩ := fail_spec L hc (.inr (.inl ⟨rfl, hD⟩))
    rw [if_pos he]
    exact ⟨h1, h2, (show _ = _ from h3).trans (by simp), h6, h5⟩
  | false =>
    rw [if_neg (by rw [he]; simp)]
    exact ⟨hc, rfl, by simp, rfl, rfl⟩

/-- `set_exact()`. -/
theorem setExact_spec (h : LInv R D Inv m ex f P Q l) (ex' : Bool) :
    LInv R D Inv m ex' f (l.ok = false) (· = l.src) { l with exact := ex' } :=
  ⟨h.inv, h.start_le, h.start_cur, h.cur_lim, h.lim_le, h.limitPos, h.lim_max, h.maxPos, rfl, h.fil, h.srcOk,
    fun ho => .inr (.inr ho), .inr rfl⟩

/-- Creating a `LimitingReader` with a limit not smaller than the position. -/
theorem init_base {s : σ} (L : R.Lawful D E Inv) (o : LOpts) (hs : Inv s) (hD : D.length ≤ kMaxPosition) :
    LInv R D Inv kMaxPosition o.exact o.failIfLonger (R.ok s = false) (· = s)
      ⟨s, R.start s, R.cursor s, R.limit s, R.limit s, kMaxPosition, o.exact, o.failIfLonger, R.ok s⟩ := by
  have hw := L.window s hs
  exact ⟨hs, Nat.le_refl _, hw.1, hw.2.1, Nat.le_refl _, rfl, Nat.le_trans hw.2.2 hD, rfl, rfl, rfl, id, fun ho => .inl ho, .inr rfl⟩

/-- Creating a `LimitingReader` with a limit not smaller than the position. -/
theorem init_spec {s : σ} (L : R.Lawful D E Inv) (o : LOpts) (hs : Inv s) (hD : D.length < kMaxPosition)
    (hr : o.InRange) (hl : R.cursor s ≤ o.requested (R.cursor s)) :
    LInv R D Inv (min (o.requested (R.cursor s)) kMaxPosition) o.exact o.failIfLonger (R.ok s = false) (· = s) (init R o s) ∧
    (init R o s).cur = R.cursor s ∧ (init R o s).failIfLonger = o.failIfLonger ∧
    (init R o s).ok = (R.ok s && !(o.exact && decide (kMaxPosition < o.requested (R.cursor s)))) := by
  have hb := init_base L o hs (Nat.le_of_lt hD)
  unfold init
  unfold LOpts.requested at *
  unfold LOpts.InRange at hr
  cases ho : o.limit with
  | none =>
    refine ⟨?_, rfl, rfl, by simp⟩
    dsimp only
    rw [Nat.min_self]; exact hb
  | pos m =>
    simp only [ho] at hl hr
    dsimp only
    obtain ⟨h1, h2, h3, h4, h5⟩ := setMaxPos_spec hb hl
    refine ⟨?_, h2, h5, ?_⟩
    · rw [Nat.min_eq_left hr]; exact h1
    · rw [h3]; simp; intro; omega
  | length n =>
    simp only [ho] at hl hr
    dsimp only
    by_cases hlt : R.cursor s + n < 2 ^ 64
    · obtain ⟨h1, h2, h3, h4, h5⟩ := setMaxLength_spec (R := R) hb hlt
      refine ⟨?_, h2, h5, ?_⟩
      · rw [Nat.min_eq_left (by unfold kMaxPosition; omega)]; exact h1
      · rw [h3]; simp; intro _; right; unfold kMaxPosition; omega
    · obtain ⟨h1, h2, h3, h4, h5⟩ := setMaxLength_overflow L hb (Nat.le_refl _) hD
        (show n < 2 ^ 64 by unfold kMaxPosition at hr; omega) (by dsimp only; omega)
      refine ⟨?_, h2, h5, ?_⟩
      · rw [Nat.min_eq_right (by unfold kMaxPosition; omega)]; exact h1
      · rw [h3]
        have : kMaxPosition < R.cursor s + n := by unfold kMaxPosition; omega
        simp [this]

/-- `ScopedLimiter` makes the limit the smaller of the current one and the requested one. -/
theorem enter_spec (L : R.Lawful D E Inv) (h : LInv R D Inv m ex f P Q l) (o : LOpts) (hm : m ≤ kMaxPosition)
    (hl : l.cur ≤ o.requested l.cur) :
    LInv R D Inv (min m (o.requested l.cur)) true f ((enter R o l).2.ok = false) (· = (enter R o l).2.src) (enter R o l).2 ∧
    (enter R o l).1 = ⟨m, ex, o.failIfLonger⟩ ∧ (enter R o l).2.cur = l.cur ∧
    (enter R o l).2.failIfLonger = l.failIfLonger ∧ R.ok (enter R o l).2.src = R.ok l.src ∧
    (enter R o l).2.ok = (l.ok && !(o.exact && decide (m < o.requested l.cur))) := by
  have hcm : l.cur ≤ m := Nat.le_trans h.cur_lim h.lim_max
  have hml : l.maxLength = m - l.cur := by unfold maxLength; rw [h.maxPos, h.pos]
  have hfail := fail_spec L h.rebase
  unfold enter LOpts.requested at *
  rw [hml, h.maxPos, h.exact]
  have failCase : ∀ q, m < q → o.exact = true →
      LInv R D Inv (min m q) true f (({ l.fail R with exact := true } : LR σ).ok = false)
        (· = ({ l.fail R with exact := true } : LR σ).src) { l.fail R with exact := true } ∧
      (⟨m, ex, o.failIfLonger⟩ : Scope) = ⟨m, ex, o.failIfLonger⟩ ∧ (l.fail R).cur = l.cur ∧
      (l.fail R).failIfLonger = l.failIfLonger ∧ R.ok (l.fail R).src = R.ok l.src ∧
      (l.fail R).ok = (l.ok && !(o.exact && decide (m < q))) := by
    intro q hq he
    have hi : LInv R D Inv m ex f True Q l := h.mono (fun _ => trivial) (fun _ => id)
    obtain ⟨h1, h2, h3, h4, h5, h6, h7⟩ := fail_spec L hi (.inr (.inr trivial))
    rw [Nat.min_eq_left (by omega)]
    refine ⟨setExact_spec h1 true, rfl, h2, h5, h6, ?_⟩
    rw [h3, he]; simp [hq]
  have keepCase : ∀ q, m ≤ q → (o.exact = false ∨ ¬ (m < q)) →
      LInv R D Inv (min m q) true f (({ l with exact := true } : LR σ).ok = false)
        (· = ({ l with exact := true } : LR σ).src) { l with exact := true } ∧
      (⟨m, ex, o.failIfLonger⟩ : Scope) = ⟨m, ex, o.failIfLonger⟩ ∧ l.cur = l.cur ∧
      l.failIfLonger = l.failIfLonger ∧ R.ok l.src = R.ok l.src ∧
      l.ok = (l.ok && !(o.exact && decide (m < q))) := by
    intro q hq he
    rw [Nat.min_eq_left (by omega)]
    refine ⟨setExact_spec h true, rfl, rfl, rfl, rfl, ?_⟩
    rcases he with he | he
    · rw [he]; simp
    · simp [he]
  cases ho : o.limit with
  | none =>
    dsimp only
    split
    · rename_i hc; exact failCase _ hc.1 hc.2
    · rename_i hc
      refine keepCase _ hm ?_
      cases he : o.exact with
      | false => exact .inl rfl
      | true => right; intro hlt; exact hc ⟨hlt, he⟩
  | pos q =>
    simp only [ho] at hl
    dsimp only
    by_cases hlt : m < q
    · simp only [hlt, if_true]
      cases he : o.exact with
      | true => simpa [he, hlt] using failCase q hlt he
      | false => simpa [he, hlt] using keepCase q (by omega) (.inl he)
    · simp only [hlt, if_false]
      obtain ⟨h1, h2, h3, h4, h5⟩ := setMaxPos_spec h hl
      rw [Nat.min_eq_right (by omega)]
      refine ⟨setExact_spec h1 true, trivial, h2, h5, by show R.ok (l.setMaxPos q).src = _; rw [h4], ?_⟩
      show (l.setMaxPos q).ok = _
      rw [h3]; simp
  | length n =>
    dsimp only
    by_cases hlt : m - l.cur < n
    · have hlt' : m < l.cur + n := by omega
      simp only [hlt, if_true]
      cases he : o.exact with
      | true => simpa [he, hlt'] using failCase (l.cur + n) hlt' he
      | false => simpa [he, hlt'] using keepCase (l.cur + n) (by omega) (.inl he)
    · have hlt' : ¬ (m < l.cur + n) := by omega
      simp only [hlt, if_false]
      obtain ⟨h1, h2, h3, h4, h5⟩ := setMaxLength_spec (R := R) (n := n) h (by unfold kMaxPosition at hm; omega)
      rw [Nat.min_eq_right (by omega)]
      refine ⟨setExact_spec h1 true, trivial, h2, h5, by show R.ok (l.setMaxLength R n).src = _; rw [h4], ?_⟩
      show (l.setMaxLength R n).ok = _
      rw [h3]; simp [hlt']

/-- Restoring the limit. -/
theorem restore_spec (h : LInv R D Inv m ex f P Q l) {m' : Nat} (ex' : Bool) (hm : m ≤ m') :
    LInv R D Inv m' ex' f (l.ok = false) (· = l.src) { l with maxPos := m', exact := ex' } :=
  ⟨h.inv, h.start_le, h.start_cur, h.cur_lim, h.lim_le, h.limitPos, Nat.le_trans h.lim_max hm, rfl, rfl, h.fil, h.srcOk,
    fun ho => .inr (.inr ho), .inr rfl⟩

/-- The destructor of `ScopedLimiter` restores the limit, and fails if required and there are more data within the restored
limit. -/
theorem leave_spec (L : R.Lawful D E Inv) (h : LInv R D Inv m ex f P Q l) (sc : Scope) (hm : m ≤ sc.oldMaxPos) :
    LInv R D Inv sc.oldMaxPos sc.oldExact f ((leave R sc l).ok = false)
      (fun s => R.cursor s ≤ sc.oldMaxPos ∨ s = l.src) (leave R sc l) ∧
    (leave R sc l).cur = l.cur ∧ (leave R sc l).failIfLonger = l.failIfLonger ∧
    (l.ok = false → (leave R sc l).ok = false) ∧
    ((leave R sc l).ok = true → sc.failIfLonger = true → l.cur = m → (D.take sc.oldMaxPos).length ≤ l.cur) ∧
    ((leave R sc l).ok = false → l.ok = false ∨ R.ok (leave R sc l).src = false ∨
      (sc.oldExact = true ∧ D.length < sc.oldMaxPos) ∨
      (sc.failIfLonger = true ∧ l.cur = m ∧ m < (D.take sc.oldMaxPos).length)) := by
  have hr := restore_spec (ex' := sc.oldExact) h hm
  have L' := lawful L sc.oldMaxPos sc.oldExact f (l.ok = false) (· = l.src)
  obtain ⟨-, p2, p3, p4, p5⟩ := L'.pull 1 0 (.inl hr)
  have p1 := pull_linv L hr 1 0
  have hD : (D.take sc.oldMaxPos).length = min sc.oldMaxPos D.length := List.length_take
  unfold leave
  dsimp only
  rw [hr.pos, h.maxPos]
  rw [hr.ops_cursor] at p2
  rw [p1.ops_cursor] at p2
  dsimp only at p2
  split
  · rename_i hc
    cases hb : ((ops R).pull 1 0 ({ l with maxPos := sc.oldMaxPos, exact := sc.oldExact } : LR σ)).1 with
    | true =>
      simp only [if_true]
      have q := (p3 hb).1
      rw [p1.ops_avail] at q
      have hw := L'.window _ (.inl p1)
      rw [p1.ops_limit] at hw
      have hi := p1.mono (P' := True) (Q' := (· = l.src)) (fun _ => trivial) (fun _ => id)
      obtain ⟨h1, h2, h3, h4, h5, h6, h7⟩ := fail_spec L hi (.inr (.inr trivial))
      refine ⟨{ h1.rebase with srcPos := ?_ }, h2.trans p2, h1.fil.trans h.fil.symm, fun _ => h3, ?_, ?_⟩
      · exact h1.srcPos.elim (fun h => .inl h) (fun h => .inr (.inr h))
      · intro ho; rw [h3] at ho; cases ho
      · intro _
        have hcm : l.cur = m := hc.2
        refine .inr (.inr (.inr ⟨hc.1, hcm, by omega⟩))
    | false =>
      simp only [Bool.false_eq_true, if_false]
      have q := p4 hb
      rw [p1.ops_avail, p1.ops_limit] at q
      refine ⟨{ p1.rebase with srcPos := ?_ }, p2, p1.fil.trans h.fil.symm, fun ho => p5 ho, ?_, ?_⟩
      · exact p1.srcPos.elim (fun h => .inl h) (fun h => .inr (.inr h))
      · intro ho _ _
        rcases q.2 with q2 | ⟨q2, q3⟩
        · have : _ = false := q2
          rw [show (ops R).ok _ = true from ho] at this; cases this
        · have := p1.cur_lim; omega
      · intro ho
        rcases p1.why ho with h | h | h
        · exact .inr (.inl h)
        · exact .inr (.inr (.inl h))
        · exact .inl h
  · rename_i hc
    refine ⟨hr.mono id (fun _ h => .inr h), rfl, rfl, id, fun _ h1 h2 => absurd ⟨h1, h2⟩ hc, fun ho => .inl ho⟩

/-- `Close()` leaves the source at the position of the `LimitingReader`. -/
theorem close_spec (L : R.Lawful D E Inv) (h : LInv R D Inv m ex f P Q l) :
    Inv (l.close R).2 ∧
    (l.ok = true → R.cursor (l.close R).2 = l.cur) ∧
    ((l.close R).1 = true → l.ok = true ∧
      (l.failIfLonger = true → l.cur = m → D.length ≤ m ∨ R.ok (l.close R).2 = false)) ∧
    ((l.close R).1 = false → l.ok = false ∨ (l.failIfLonger = true ∧ l.cur = m ∧ m < D.length)) := by
  unfold close
  obtain ⟨hs, hsc⟩ := h.sync L
  cases hok : l.ok with
  | false => simp; exact h.inv
  | true =>
    have hm : (l.sync R).maxPos = m := h.maxPos
    have hp : (l.sync R).pos = l.cur := h.pos
    have hf : (l.sync R).failIfLonger = l.failIfLonger := rfl
    simp only [if_true]
    rw [hm, hp, hf]
    obtain ⟨p1, p2, p3, p4, p5⟩ := L.pull 1 0 hs.inv
    split
    · rename_i hc
      refine ⟨p1, fun _ => p2.trans hsc, fun hb => ⟨trivial, fun _ _ => ?_⟩, fun hb => .inr ⟨hc.1, hc.2, ?_⟩⟩
      · have hb : (R.pull 1 0 (l.sync R).src).1 = false := by simpa using hb
        obtain ⟨q1, q2⟩ := p4 hb
        unfold ReaderOps.avail at q1
        rcases q2 with q2 | ⟨q2, q3⟩
        · exact .inr q2
        · have := (L.window _ p1).2.1; left; omega
      · have hb : (R.pull 1 0 (l.sync R).src).1 = true := by simpa using hb
        have q1 := (p3 hb).1
        unfold ReaderOps.avail at q1
        have := (L.window _ p1); omega
    · rename_i hc
      exact ⟨hs.inv, fun _ => hsc, fun _ => ⟨trivial, fun h1 h2 => absurd ⟨h1, h2⟩ hc⟩, by simp⟩

end
end LR
end Riegeli.Rdr

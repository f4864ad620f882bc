import Verif.TextReader
import Verif.BufferedReaderProofs
/-!
# `TextReader` meets the contract of a class derived from `BufferedReader`
-/
namespace Riegeli.Rdr

/-- The meaning of `ReadNewline::kCrLfOrLf`: each CR LF is replaced with LF. -/
def toLf : Bytes → Bytes
  | [] => []
  | [a] => [a]
  | a :: b :: r => if a = crByte ∧ b = lfByte then lfByte :: toLf r else a :: toLf (b :: r)

theorem toLf_ne {a : UInt8} (h : a ≠ crByte) (r : Bytes) : toLf (a :: r) = a :: toLf r := by
  cases r with
  | nil => rfl
  | cons b r => rw [toLf, if_neg (fun hh => h hh.1)]

theorem toLf_append {pre : Bytes} (h : ∀ b ∈ pre, b ≠ crByte) (r : Bytes) : toLf (pre ++ r) = pre ++ toLf r := by
  induction pre with
  | nil => rfl
  | cons a pre ih =>
    rw [List.cons_append, toLf_ne (h a (List.mem_cons_self ..)), ih fun b hb => h b (List.mem_cons_of_mem _ hb), List.cons_append]

theorem toLf_crlf (r : Bytes) : toLf (crByte :: lfByte :: r) = lfByte :: toLf r := by rw [toLf, if_pos ⟨rfl, rfl⟩]

theorem toLf_cr {b : UInt8} (h : b ≠ lfByte) (r : Bytes) : toLf (crByte :: b :: r) = crByte :: toLf (b :: r) := by
  rw [toLf, if_neg fun hh => h hh.2]

/-- The source does not fail while reading from it. -/
structure Steady {σ : Type} (R : ReaderOps σ) (Inv : σ → Prop) : Prop where
  pull : ∀ s n rec, Inv s → R.ok s = true → R.ok (R.pull n rec s).2 = true
  seek : ∀ s q, Inv s → R.ok s = true → (R.seek q s).1 = true → R.ok (R.seek q s).2 = true

namespace TR
variable {σ : Type} {R : ReaderOps σ} {D₀ : Bytes} {E : Prop} {Inv : σ → Prop}

/-- What remains to be read. -/
def rest (R : ReaderOps σ) (D₀ : Bytes) (t : TR σ) : Bytes :=
  toLf ((if t.pending then [crByte] else []) ++ D₀.drop (R.cursor t.src))

theorem takeWhile_split (bs : Bytes) :
    (∀ b ∈ bs.takeWhile (· != crByte), b ≠ crByte) ∧
    ((bs.takeWhile (· != crByte)).length = bs.length ∧ bs.takeWhile (· != crByte) = bs ∨
      (bs.takeWhile (· != crByte)).length < bs.length ∧ ∃ r, bs = bs.takeWhile (· != crByte) ++ crByte :: r) := by
  induction bs with
  | nil => exact ⟨fun b hb => (nomatch hb), .inl ⟨rfl, rfl⟩⟩
  | cons a bs ih =>
    by_cases h : a = crByte
    · subst h
      have : List.takeWhile (· != crByte) (crByte :: bs) = [] := by simp [List.takeWhile]
      rw [this]
      exact ⟨fun b hb => (nomatch hb), .inr ⟨Nat.succ_pos _, bs, rfl⟩⟩
    · have : List.takeWhile (· != crByte) (a :: bs) = a :: List.takeWhile (· != crByte) bs := by
        rw [List.takeWhile_cons, if_pos (by simp [h])]
      rw [this]
      refine ⟨fun b hb => ?_, ?_⟩
      · cases hb with
        | head => exact h
        | tail _ hb => exact ih.1 b hb
      · rcases ih.2 with ⟨h1, h2⟩ | ⟨h1, r, h2⟩
        · exact .inl ⟨by simp [h1], by rw [h2]⟩
        · exact .inr ⟨by simp [h1], r, by rw [List.cons_append, ← h2]⟩

theorem drop_slice (D : Bytes) (c n : Nat) : D.drop c = slice D c n ++ D.drop (c + n) := by
  unfold slice
  rw [← List.drop_drop]
  exact (List.take_append_drop n _).symm

/-- One iteration converts a part of the data. -/
theorem piece_spec (L : R.Lawful D₀ E Inv) {s : σ} {t : TR σ} {n : Nat} (h : Inv s) (hc : R.cursor s = R.cursor t.src) (ha : 1 ≤ R.avail s)
    (hn : 0 < n) :
    Inv (piece R n s t).2.src ∧ R.ok (piece R n s t).2.src = R.ok s ∧ (piece R n s t).2.initial = t.initial ∧
    (piece R n s t).1.length ≤ n ∧ rest R D₀ t = (piece R n s t).1 ++ rest R D₀ (piece R n s t).2 ∧
    ((piece R n s t).1.length = 0 → t.pending = false ∧ (piece R n s t).2.pending = true) := by
  have hw := L.window s h
  have hav : R.cursor s + R.avail s ≤ D₀.length := by unfold ReaderOps.avail; omega
  unfold piece
  split
  · rename_i hp
    have h1 := L.peek h ha
    have hd := drop_slice D₀ (R.cursor s) 1
    have hl := slice_length (D := D₀) (p := R.cursor s) (n := 1) (by omega)
    obtain ⟨m1, m2, m3, m4, m5⟩ := L.move h ha
    split
    · rename_i hlf
      rw [h1] at hlf
      refine ⟨m1, m5, rfl, hn, ?_, by simp⟩
      unfold rest
      rw [hp, ← hc, hd, hlf]
      show toLf (crByte :: lfByte :: _) = lfByte :: toLf (D₀.drop (R.cursor (R.move 1 s)))
      rw [m2]; exact toLf_crlf _
    · rename_i hlf
      rw [h1] at hlf
      refine ⟨h, rfl, rfl, hn, ?_, by simp⟩
      unfold rest
      rw [hp, ← hc]
      show toLf (crByte :: D₀.drop (R.cursor s)) = crByte :: toLf (D₀.drop (R.cursor s))
      match hs : slice D₀ (R.cursor s) 1, hl with
      | [b], _ =>
        rw [hd, hs]
        exact toLf_cr (fun hb => hlf (by rw [hs, hb])) _
  · rename_i hp
    have hp : t.pending = false := by simpa using hp
    have hr : rest R D₀ t = toLf (D₀.drop (R.cursor s)) := by unfold rest; rw [hp, ← hc]; rfl
    dsimp only
    have hk : min (R.avail s) n ≤ R.avail s := Nat.min_le_left _ _
    have hkn : min (R.avail s) n ≤ n := Nat.min_le_right _ _
    have hk0 : 0 < min (R.avail s) n := by omega
    generalize min (R.avail s) n = k at *
    rw [L.peek h hk]
    have hl := slice_length (D := D₀) (p := R.cursor s) (n := k) (by omega)
    obtain ⟨t1, t2⟩ := takeWhile_split (slice D₀ (R.cursor s) k)
    have hd := drop_slice D₀ (R.cursor s) k
    generalize (slice D₀ (R.cursor s) k).takeWhile (· != crByte) = pre at *
    rw [hl] at t2
    split
    · rename_i he
      rcases t2 with ⟨-, t2⟩ | ⟨t2, -⟩
      · obtain ⟨m1, m2, m3, m4, m5⟩ := L.move h hk
        refine ⟨m1, m5, rfl, by dsimp only; omega, ?_, fun h0 => ?_⟩
        · rw [hr, hd, ← t2, toLf_append t1]
          unfold rest
          dsimp only
          rw [hp, m2]; rfl
        · dsimp only at h0; omega
      · omega
    · rename_i he
      rcases t2 with ⟨t2, -⟩ | ⟨t2, r, t3⟩
      · omega
      have hd' : D₀.drop (R.cursor s) = pre ++ crByte :: D₀.drop (R.cursor s + (pre.length + 1)) := by
        have e1 : D₀.drop (R.cursor s) = pre ++ crByte :: (r ++ D₀.drop (R.cursor s + k)) := by
          rw [hd, t3, List.append_assoc]; rfl
        rw [e1]
        have e2 : (D₀.drop (R.cursor s)).drop (pre.length + 1) = r ++ D₀.drop (R.cursor s + k) := by
          rw [e1, ← List.drop_drop, List.drop_left]; rfl
        rw [List.drop_drop] at e2
        rw [e2]
      obtain ⟨m1, m2, m3, m4, m5⟩ := L.move (n := pre.length + 1) h (by omega)
      split
      · refine ⟨m1, m5, rfl, by dsimp only; omega, ?_, fun _ => ⟨hp, rfl⟩⟩
        rw [hr, hd', toLf_append t1]
        unfold rest
        dsimp only
        rw [m2]; rfl
      · rename_i hlast
        have h2 : pre.length + 2 ≤ R.avail s := by omega
        rw [L.peek h h2]
        have hget : (slice D₀ (R.cursor s) (pre.length + 2))[pre.length + 1]? = D₀[R.cursor s + (pre.length + 1)]? := by
          rw [slice_getElem?, if_pos (by omega)]
        rw [hget]
        have hlt : R.cursor s + (pre.length + 1) < D₀.length := by omega
        have hcons : D₀.drop (R.cursor s + (pre.length + 1)) =
            D₀[R.cursor s + (pre.length + 1)] :: D₀.drop (R.cursor s + (pre.length + 2)) := by
          rw [List.drop_eq_getElem_cons hlt]; rfl
        have hsome := List.getElem?_eq_getElem hlt
        rw [hsome]
        obtain ⟨n1, n2, n3, n4, n5⟩ := L.move h h2
        split
        · rename_i hlf
          injection hlf with hlf
          refine ⟨n1, n5, rfl, by simp; omega, ?_, by simp⟩
          rw [hr, hd', toLf_append t1, hcons, hlf, toLf_crlf]
          unfold rest
          dsimp only
          rw [n2, hp, List.append_assoc]; rfl
        · rename_i hlf
          refine ⟨m1, m5, rfl, by simp; omega, ?_, by simp⟩
          rw [hr, hd', toLf_append t1, hcons, toLf_cr fun hb => hlf (by rw [hb]), ← hcons]
          unfold rest
          dsimp only
          rw [m2, hp, List.append_assoc]; rfl

theorem readLoop_spec (L : R.Lawful D₀ E Inv) (hst : Steady R Inv) (fuel : Nat) {m n : Nat} {t : TR σ} (h : Inv t.src) (ho : R.ok t.src = true)
    (hm : 0 < m) (hmn : m ≤ n) (hf : 2 * m + (if t.pending then 0 else 1) ≤ fuel) :
    Inv (readLoop R fuel m n t).2.2.src ∧ R.ok (readLoop R fuel m n t).2.2.src = true ∧ (readLoop R fuel m n t).2.2.initial = t.initial ∧
    rest R D₀ t = (readLoop R fuel m n t).2.1 ++ rest R D₀ (readLoop R fuel m n t).2.2 ∧
    (readLoop R fuel m n t).2.1.length ≤ n ∧
    ((readLoop R fuel m n t).1 = true → m ≤ (readLoop R fuel m n t).2.1.length) ∧
    ((readLoop R fuel m n t).1 = false → (readLoop R fuel m n t).2.1.length < m ∧ E ∧ rest R D₀ (readLoop R fuel m n t).2.2 = []) := by
  induction fuel generalizing m n t with
  | zero => omega
  | succ fuel ih =>
    obtain ⟨p1, p2, p3, p4, p5⟩ := L.pull 1 n h
    have po := hst.pull _ 1 n h ho
    unfold readLoop
    dsimp only
    generalize R.pull 1 n t.src = p at *
    split
    · rename_i hp
      obtain ⟨q1, q2⟩ := p4 hp
      have hw := L.window _ p1
      have q2 : E ∧ R.cursor p.2 = D₀.length := by
        rcases q2 with q2 | q2
        · rw [po] at q2; cases q2
        · have := q2.2
          unfold ReaderOps.avail at q1
          exact ⟨q2.1, by omega⟩
      have hnil : D₀.drop (R.cursor p.2) = [] := by rw [q2.2]; exact List.drop_length
      split
      · rename_i hpe
        refine ⟨p1, po, rfl, ?_, by dsimp only [List.length]; omega, fun hb => of_decide_eq_true hb, fun hb => ⟨?_, q2.1, ?_⟩⟩
        · unfold rest
          dsimp only
          rw [hpe, ← p2, hnil]; rfl
        · have := of_decide_eq_false hb
          dsimp only [List.length]; omega
        · unfold rest
          dsimp only
          rw [hnil]; rfl
      · rename_i hpe
        have hpe : t.pending = false := by simpa using hpe
        refine ⟨p1, po, rfl, ?_, Nat.zero_le _, (fun hb => by cases hb), fun _ => ⟨hm, q2.1, ?_⟩⟩
        · unfold rest
          dsimp only
          rw [p2]; rfl
        · unfold rest
          dsimp only
          rw [hpe, hnil]; rfl
    · rename_i hp
      have hp : p.1 = true := by simpa using hp
      obtain ⟨s1, s2, s3, s4, s5, s6⟩ := piece_spec L (t := t) p1 p2 (p3 hp).1 (n := n) (by omega)
      generalize piece R n p.2 t = s at *
      split
      · rename_i hle
        exact ⟨s1, s2.trans po, s3, s5, s4, fun _ => hle, fun hb => by cases hb⟩
      · rename_i hle
        have hf' : 2 * (m - s.1.length) + (if s.2.pending then 0 else 1) ≤ fuel := by
          by_cases h0 : s.1.length = 0
          · obtain ⟨g1, g2⟩ := s6 h0
            rw [g1] at hf; rw [g2, h0]
            simp at hf ⊢; omega
          · split <;> split at hf <;> omega
        obtain ⟨r1, r2, r3, r4, r5, r6, r7⟩ := ih s1 (s2.trans po) (m := m - s.1.length) (n := n - s.1.length) (by omega) (by omega) hf'
        generalize readLoop R fuel (m - s.1.length) (n - s.1.length) s.2 = z at *
        refine ⟨r1, r2, r3.trans s3, ?_, ?_, fun hb => ?_, fun hb => ⟨?_, (r7 hb).2⟩⟩
        · rw [s5, r4, List.append_assoc]
        · rw [List.length_append]; omega
        · have := r6 hb
          rw [List.length_append]; omega
        · have := (r7 hb).1
          rw [List.length_append]; omega

/-- The invariant of `TextReader`: the rest of the converted data comes from the rest of the source. -/
structure TInv (R : ReaderOps σ) (D₀ : Bytes) (Inv : σ → Prop) (c : Nat) (p : Phys (TR σ)) : Prop where
  lim : p.limitPos ≤ (toLf (D₀.drop c)).length
  exact : p.exact = none
  initial : p.src.initial = c
  src : Inv p.src.src
  data : p.ok = true → R.ok p.src.src = true ∧ (toLf (D₀.drop c)).drop p.limitPos = rest R D₀ p.src

/-- `TextReader` meets the contract of a class derived from `BufferedReader`, for the data with CR LF replaced with LF. -/
theorem lawful (L : R.Lawful D₀ E Inv) (hst : Steady R Inv) (c : Nat) (tolerates : σ → Bool) (opts : BufOpts)
    (room : Nat → Nat → Bool) (push : Nat → Nat) :
    (cls R tolerates opts room push).Lawful (toLf (D₀.drop c)) E (TInv R D₀ Inv c) where
  limit p h := h.lim
  exact p e h he := by rw [h.exact] at he; cases he
  fail p h := ⟨h.lim, h.exact, h.initial, h.src, fun hb => by cases hb⟩
  readInternal m n p h ho hm hmn _ := by
    obtain ⟨d1, d2⟩ := h.data ho
    obtain ⟨r1, r2, r3, r4, r5, r6, r7⟩ := readLoop_spec L hst (2 * m + 1) h.src d1 hm hmn (by split <;> omega)
    show TInv R D₀ Inv c (readInternal R m n p).2.2 ∧ (readInternal R m n p).2.2.limitPos = _ ∧ (readInternal R m n p).2.1 = _ ∧
      (readInternal R m n p).2.1.length ≤ n ∧ ((readInternal R m n p).1 = true → _) ∧ ((readInternal R m n p).1 = false → _)
    unfold cls readInternal
    dsimp only
    generalize readLoop R (2 * m + 1) m n p.src = z at *
    have hl := h.lim
    rw [← d2] at r4
    have hlen := congrArg List.length r4
    rw [List.length_drop, List.length_append] at hlen
    have hd : (toLf (D₀.drop c)).drop (p.limitPos + z.2.1.length) = rest R D₀ z.2.2 := by
      rw [← List.drop_drop, r4, List.drop_left]
    refine ⟨⟨by dsimp only; omega, h.exact, r3.trans h.initial, r1, fun _ => ⟨r2, hd⟩⟩, rfl, ?_, r5, fun hb => ⟨r6 hb, ho⟩,
      fun hb => ⟨(r7 hb).1, .inr ⟨(r7 hb).2.1, ?_⟩⟩⟩
    · unfold slice
      rw [r4, List.take_left]
    · have := (r7 hb).2.2
      rw [this] at hlen
      simp at hlen; omega
  copyInternal n d p r _ _ _ _ hr := by cases hr
  exactSizeReached p h := ⟨h, rfl, id⟩
  seekBehind q p r _ _ hr := by cases hr
  rewind q p p' h hq hr := by
    have hr : rewind R q p = some p' := hr
    unfold rewind at hr
    split at hr
    · rename_i hle
      split at hr
      · rename_i ho
        cases hr
        exact ⟨⟨h.lim, h.exact, h.initial, h.src, fun hb => (Bool.false_ne_true (ho.symm.trans hb)).elim⟩, by omega,
          fun hb => (Bool.false_ne_true (ho.symm.trans hb)).elim, id, rfl⟩
      · rename_i ho
        have ho : p.ok = true := by simpa using ho
        obtain ⟨d1, d2⟩ := h.data ho
        obtain ⟨s1, ⟨s2, s3, s4, s5⟩, s6⟩ := L.seek p.src.initial h.src
        have hso := hst.seek _ p.src.initial h.src d1
        cases hr
        dsimp only
        refine ⟨⟨Nat.zero_le _, h.exact, h.initial, s1, fun hb => ⟨hso hb, ?_⟩⟩, by omega, fun _ => Nat.zero_le _,
          fun hf => (Bool.false_ne_true (hf.symm.trans ho)).elim, rfl⟩
        unfold rest
        dsimp only
        rw [(s4 hb).1, h.initial]; rfl
    · cases hr
  sizeImpl p r _ hr := by cases hr

theorem init_spec (L : R.Lawful D₀ E Inv) {s : σ} (z : Sizer) (h : Inv s) (ho : R.ok s = true) :
    BInv (toLf (D₀.drop (R.cursor s))) (TInv R D₀ Inv (R.cursor s)) (init R s z) :=
  ⟨⟨Nat.zero_le _, rfl, rfl, h, fun _ => ⟨ho, rfl⟩⟩, Nat.le_refl _, Nat.zero_le _, (slice_zero _ _).symm⟩

end TR
end Riegeli.Rdr

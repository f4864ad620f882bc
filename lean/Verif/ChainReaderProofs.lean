import Verif.ChainReader
import Verif.PullableReaderProofs
/-!
# `ChainReader` and `CordReader` meet the contract of `Reader`
-/
namespace Riegeli.Rdr

theorem Dest.push_spec (d : Dest) (n : Nat) : ((d.push n).1 = true → (d.push n).2 = d ∧ d.ok = true) ∧ ((d.push n).1 = false → (d.push n).2.ok = false) ∧
    (d.push n).2.written = d.written ∧ ((d.push n).2.ok = true → d.ok = true) := by
  unfold Dest.push
  split
  · rename_i ho; exact ⟨nofun, fun _ => ho, rfl, id⟩
  · rename_i ho
    split
    · exact ⟨fun _ => ⟨rfl, by simpa using ho⟩, nofun, rfl, id⟩
    · exact ⟨nofun, fun _ => rfl, rfl, nofun⟩

/-! ## Copying from a source which is a whole -/
section
variable {σ : Type} {R : ReaderOps σ} {D : Bytes} {I : σ → Prop} (L : R.Lawful D True I)
  (hr : ∀ s k n, I s → 0 < n → (n ≤ R.avail s → kMaxBytesToCopy < n ∧ k = .blocks) → R.ok (R.readSlow k n s).2.2 = R.ok s)
  (hs : ∀ s p, I s → (p < R.start s ∨ R.limit s < p) → R.ok (R.seekSlow p s).2 = R.ok s) (hD : D.length < 2 ^ 64 - 1)
include L

include hr in
theorem read_whole {s : σ} {k : Kind} {n : Nat} (h : I s) (ho : R.ok s = true) (hn : n ≤ D.length - R.cursor s) :
    I (R.read k n s).2.2 ∧ R.ok (R.read k n s).2.2 = true ∧ (R.read k n s).1 = true ∧ (R.read k n s).2.1 = slice D (R.cursor s) n ∧
    R.cursor (R.read k n s).2.2 = R.cursor s + n := by
  obtain ⟨r1, ⟨r2, r3, r4, r5⟩, r6⟩ := L.read k n h
  have hw := L.window _ h
  have hok : R.ok (R.read k n s).2.2 = true := by
    unfold ReaderOps.read
    split
    · rename_i hc
      exact (L.move h hc.1).2.2.2.2.trans ho
    · rename_i hc
      rw [hr s k n h ?_ ?_]
      · exact ho
      · refine Nat.pos_of_ne_zero fun h0 => hc ⟨by omega, .inr (by rw [h0]; exact Nat.zero_le _)⟩
      · intro hle
        cases k with
        | chars => exact (hc ⟨hle, .inl rfl⟩).elim
        | blocks => exact ⟨Nat.lt_of_not_le fun h => hc ⟨hle, .inr h⟩, rfl⟩
  generalize R.read k n s = r at *
  cases hb : r.1 with
  | true =>
    have := (r4 hb).1
    exact ⟨r1, hok, rfl, by rw [r3, this, Nat.add_sub_cancel_left], this⟩
  | false =>
    obtain ⟨h1, h2⟩ := r5 hb
    rcases h2 with h2 | ⟨_, h2⟩
    · rw [hok] at h2; cases h2
    · omega

include hr in
theorem readSlow_whole {s : σ} {k : Kind} {n : Nat} (h : I s) (ho : R.ok s = true) (h0 : 0 < n) (hp : n ≤ R.avail s → kMaxBytesToCopy < n ∧ k = .blocks)
    (hn : n ≤ D.length - R.cursor s) :
    I (R.readSlow k n s).2.2 ∧ R.ok (R.readSlow k n s).2.2 = true ∧ (R.readSlow k n s).1 = true ∧ (R.readSlow k n s).2.1 = slice D (R.cursor s) n ∧
    R.cursor (R.readSlow k n s).2.2 = R.cursor s + n := by
  have hw := L.window _ h
  have e : R.read k n s = R.readSlow k n s := by
    unfold ReaderOps.read
    rw [if_neg]
    rintro ⟨h1, h2⟩
    obtain ⟨h3, h4⟩ := hp h1
    rw [h4] at h2
    rcases h2 with h2 | h2
    · cases h2
    · omega
  rw [← e]
  exact read_whole L hr h ho hn

include hs in
theorem seek_whole {s : σ} {p : Nat} (h : I s) (ho : R.ok s = true) (hp : p ≤ D.length) :
    I (R.seek p s).2 ∧ R.ok (R.seek p s).2 = true ∧ R.cursor (R.seek p s).2 = p := by
  obtain ⟨r1, ⟨r2, r3, r4, r5⟩, r6⟩ := L.seek p h
  have hok : R.ok (R.seek p s).2 = true := by
    unfold ReaderOps.seek
    split
    · rename_i hc
      exact (L.setCursor s p h hc.1 hc.2).2.2.2.2.trans ho
    · rename_i hc
      rw [hs s p h ?_]
      · exact ho
      · by_cases h1 : R.start s ≤ p
        · exact .inr (Nat.lt_of_not_le fun h2 => hc ⟨h1, h2⟩)
        · exact .inl (by omega)
  generalize R.seek p s = r at *
  cases hb : r.1 with
  | true => exact ⟨r1, hok, (r4 hb).1⟩
  | false =>
    rcases r5 hb with h2 | ⟨_, _, h2⟩
    · rw [hok] at h2; cases h2
    · omega

include hs hD in
theorem skip_whole {s : σ} {n : Nat} (h : I s) (ho : R.ok s = true) (hn : n ≤ D.length - R.cursor s) :
    I (R.skip n s).2 ∧ R.ok (R.skip n s).2 = true ∧ R.cursor (R.skip n s).2 = R.cursor s + n := by
  have hw := L.window _ h
  unfold ReaderOps.skip
  split
  · rename_i hle
    obtain ⟨m1, m2, m3, m4, m5⟩ := L.move h hle
    exact ⟨m1, m5.trans ho, m2⟩
  · rename_i hle
    unfold ReaderOps.avail at hle
    rw [if_neg (by omega)]
    have := seek_whole L hs h ho (p := R.cursor s + n) (by omega)
    unfold ReaderOps.seek at this
    rw [if_neg (by omega)] at this
    exact this

include hr hs hD in
theorem copyVia_spec {s : σ} (n : Nat) (d : Dest) (h : I s) (hn : 0 < n) :
    I (copyVia R D n d s).2.2 ∧ R.CopyPost D True n d s (copyVia R D n d s) ∧ (R.ok s = false → R.ok (copyVia R D n d s).2.2 = false) := by
  have hw := L.window _ h
  unfold copyVia
  split
  · rename_i ho
    exact ⟨h, ⟨Nat.le_refl _, Nat.le_add_right _ _, ⟨0, Nat.zero_le _, by simp [slice], fun _ => (Nat.sub_self _).symm⟩, nofun,
      fun _ _ => ⟨by show R.cursor s < _; omega, .inl ho⟩, id⟩, fun _ => ho⟩
  · rename_i ho
    have ho : R.ok s = true := (Bool.not_eq_false _).mp ho
    have hlen : min n (D.length - R.cursor s) ≤ D.length - R.cursor s := Nat.min_le_right _ _
    have hlen' : min n (D.length - R.cursor s) ≤ n := Nat.min_le_left _ _
    have hsmall : min n (D.length - R.cursor s) ≠ n → R.cursor s + min n (D.length - R.cursor s) = D.length := by omega
    dsimp only
    generalize min n (D.length - R.cursor s) = len at *
    -- what was written
    have key : ∀ (bs : Bytes) (t : σ), bs = slice D (R.cursor s) len → I t → R.ok t = true → R.cursor t = R.cursor s + len →
        I (if (d.write bs).1 = false then (false, (d.write bs).2, t) else (decide (len = n), (d.write bs).2, t)).2.2 ∧
        R.CopyPost D True n d s (if (d.write bs).1 = false then (false, (d.write bs).2, t) else (decide (len = n), (d.write bs).2, t)) ∧
        (R.ok s = false → R.ok (if (d.write bs).1 = false then (false, (d.write bs).2, t) else (decide (len = n), (d.write bs).2, t)).2.2 = false) := by
      intro bs t hbs ht hot hct
      obtain ⟨⟨k, hk, hwr, hko⟩, h1, h2, h3⟩ := d.write_spec bs
      have hl : bs.length = len := by rw [hbs]; exact slice_length (by omega)
      have hwr' : (d.write bs).2.written = d.written ++ slice D (R.cursor s) k := by
        rw [hwr, hbs]
        congr 1
        simp only [slice, List.take_take]
        rw [Nat.min_eq_left (by omega)]
      split
      · rename_i hb
        refine ⟨ht, ⟨by show _ ≤ R.cursor t; omega, by show R.cursor t ≤ _; omega, ⟨k, by show k ≤ R.cursor t - _; omega, hwr', fun hk' => ?_⟩, nofun,
          fun _ hk' => (Bool.false_ne_true ((h2 hb).symm.trans hk')).elim, h3⟩, fun h => (Bool.false_ne_true (h.symm.trans ho)).elim⟩
        show k = R.cursor t - _
        have := hko hk'; omega
      · rename_i hb
        have hb := (Bool.not_eq_false _).mp hb
        refine ⟨ht, ⟨by show _ ≤ R.cursor t; omega, by show R.cursor t ≤ _; omega, ⟨k, by show k ≤ R.cursor t - _; omega, hwr', fun hk' => ?_⟩,
          fun hb' => ?_, fun hb' _ => ?_, h3⟩, fun h => (Bool.false_ne_true (h.symm.trans ho)).elim⟩
        · show k = R.cursor t - _
          have := hko hk'; omega
        · have hb' := of_decide_eq_true hb'
          exact ⟨by show R.cursor t = _; omega, .inl (hot.trans ho.symm), h1 hb⟩
        · have hb' := of_decide_eq_false hb'
          have := hsmall hb'
          exact ⟨by show R.cursor t < _; omega, .inr ⟨trivial, by show R.cursor t = _; omega⟩⟩
    split
    · rename_i he
      obtain ⟨s1, s2, s3⟩ := skip_whole L hs hD h ho hlen
      refine key D _ ?_ s1 s2 s3
      rw [show R.cursor s = 0 by omega, he]
      exact (slice_all D).symm
    · split
      · obtain ⟨p1, p2, p3, p4⟩ := d.push_spec len
        split
        · rename_i hb
          exact ⟨h, ⟨Nat.le_refl _, Nat.le_add_right _ _, ⟨0, Nat.zero_le _, by show (d.push len).2.written = _; rw [p3]; simp [slice], fun _ => (Nat.sub_self _).symm⟩, nofun,
            fun _ hk => (Bool.false_ne_true ((p2 hb).symm.trans hk)).elim, p4⟩, id⟩
        · rename_i hb
          obtain ⟨q1, q2⟩ := p1 ((Bool.not_eq_false _).mp hb)
          obtain ⟨r1, r2, r3, r4, r5⟩ := read_whole L hr (k := .chars) h ho hlen
          generalize R.read .chars len s = r at *
          rw [q1]
          refine ⟨r1, ⟨by show _ ≤ R.cursor r.2.2; omega, by show R.cursor r.2.2 ≤ _; omega,
            ⟨len, by show len ≤ R.cursor r.2.2 - _; omega, ?_, fun _ => by show len = R.cursor r.2.2 - _; omega⟩,
            fun hb' => ?_, fun hb' _ => ?_, fun _ => q2⟩, fun h => (Bool.false_ne_true (h.symm.trans ho)).elim⟩
          · show d.written ++ r.2.1 = _
            rw [r4]
          · have hb' := of_decide_eq_true hb'
            exact ⟨by show R.cursor r.2.2 = _; omega, .inl (r2.trans ho.symm), q2⟩
          · have hb' := of_decide_eq_false hb'
            have := hsmall hb'
            exact ⟨by show R.cursor r.2.2 < _; omega, .inr ⟨trivial, by show R.cursor r.2.2 = _; omega⟩⟩
      · obtain ⟨r1, r2, r3, r4, r5⟩ := read_whole L hr (k := .blocks) h ho hlen
        exact key _ _ r4 r1 r2 r5

include hr hs hD in
theorem copyBackVia_spec {s : σ} (n : Nat) (d : Dest) (h : I s) (hn : 0 < n) (hp : n ≤ R.avail s → kMaxBytesToCopy < n) :
    I (copyBackVia R D n d s).2.2 ∧ R.CopyBackPost D True n d s (copyBackVia R D n d s) ∧ (R.ok s = false → R.ok (copyBackVia R D n d s).2.2 = false) := by
  have hw := L.window _ h
  unfold copyBackVia
  split
  · rename_i ho
    exact ⟨h, ⟨Nat.le_refl _, Nat.le_add_right _ _, nofun, fun _ _ => ⟨rfl, by show R.cursor s < _; omega, .inl ho⟩, id⟩, fun _ => ho⟩
  · rename_i ho
    have ho : R.ok s = true := (Bool.not_eq_false _).mp ho
    have hno : ∀ x : Bool, R.ok s = false → x = false := fun _ h => (Bool.false_ne_true (h.symm.trans ho)).elim
    split
    · rename_i hlt
      obtain ⟨s1, s2, s3⟩ := seek_whole L hs h ho (Nat.le_refl D.length)
      exact ⟨s1, ⟨by show _ ≤ R.cursor (R.seek _ s).2; omega, by show R.cursor (R.seek _ s).2 ≤ _; omega, nofun,
        fun _ _ => ⟨rfl, by show R.cursor (R.seek _ s).2 < _; omega, .inr ⟨trivial, s3⟩⟩, id⟩, hno _⟩
    · rename_i hle
      have key : ∀ (bs : Bytes) (t : σ), bs = slice D (R.cursor s) n → R.ok t = true → R.cursor t = R.cursor s + n →
          R.CopyBackPost D True n d s ((d.prepend bs).1, (d.prepend bs).2, t) := by
        intro bs t hbs hot hct
        obtain ⟨h1, h2, h3⟩ := d.prepend_spec bs
        refine ⟨by show _ ≤ R.cursor t; omega, by show R.cursor t ≤ _; omega, fun hb => ⟨hct, .inl (hot.trans ho.symm), (h1 hb).1, ?_⟩,
          fun hb hk => (Bool.false_ne_true ((h2 hb).symm.trans hk)).elim, h3⟩
        rw [← hbs]; exact (h1 hb).2
      split
      · rename_i he
        obtain ⟨s1, s2, s3⟩ := skip_whole L hs hD h ho (n := n) (by omega)
        refine ⟨s1, key D _ ?_ s2 s3, hno _⟩
        rw [show R.cursor s = 0 by omega, he]
        exact (slice_all D).symm
      · split
        · rename_i hk
          obtain ⟨p1, p2, p3, p4⟩ := d.push_spec n
          dsimp only
          split
          · rename_i hb
            exact ⟨h, ⟨Nat.le_refl _, Nat.le_add_right _ _, nofun, fun _ hk => (Bool.false_ne_true ((p2 hb).symm.trans hk)).elim, p4⟩, id⟩
          · rename_i hb
            obtain ⟨q1, q2⟩ := p1 ((Bool.not_eq_false _).mp hb)
            obtain ⟨r1, r2, r3, r4, r5⟩ := readSlow_whole L hr (k := .chars) h ho hn (fun h1 => by have := hp h1; omega) (by omega)
            generalize R.readSlow .chars n s = r at *
            rw [if_neg (by rw [r3]; simp), q1]
            refine ⟨r1, ⟨by show _ ≤ R.cursor r.2.2; omega, by show R.cursor r.2.2 ≤ _; omega, fun _ => ⟨r5, .inl (r2.trans ho.symm), q2, ?_⟩, nofun, fun _ => q2⟩, hno _⟩
            show r.2.1 ++ d.written = _
            rw [r4]
        · rename_i hk
          obtain ⟨r1, r2, r3, r4, r5⟩ := readSlow_whole L hr (k := .blocks) h ho hn (fun h1 => ⟨hp h1, rfl⟩) (by omega)
          exact ⟨r1, key _ _ r4 r2 r5, hno _⟩

include hr hs hD in
theorem via_lawful : (via R D).Lawful D True I where
  window := L.window
  data := L.data
  setCursor := L.setCursor
  pullSlow := L.pullSlow
  readSlow := L.readSlow
  readAvail := L.readAvail
  copySlow s n d h hn _ := copyVia_spec L hr hs hD n d h hn
  copyBackSlow s n d h hn hp := copyBackVia_spec L hr hs hD n d h hn hp
  readSomeSlow := L.readSomeSlow
  copySomeSlow s n d h hn h0 := by
    obtain ⟨p1, p2, p3, p4, p5⟩ := L.pullSlow s 1 n h (by show R.avail s < 1; exact Nat.lt_of_le_of_lt (Nat.le_of_eq h0) Nat.one_pos)
    show I (copySomeVia R D n d s).2.2 ∧ R.CopySomePost D True n d s (copySomeVia R D n d s) ∧ (R.ok s = false → R.ok (copySomeVia R D n d s).2.2 = false)
    unfold copySomeVia
    dsimp only
    generalize R.pullSlow 1 n s = r at *
    have hw := L.window _ p1
    cases hb : r.1 with
    | false =>
      rw [if_pos rfl]
      obtain ⟨q1, q2⟩ := p4 hb
      unfold ReaderOps.avail at q1
      refine ⟨p1, ⟨by show _ ≤ R.cursor r.2; omega, by show R.cursor r.2 ≤ _; omega, ⟨0, Nat.zero_le _, by simp [slice], fun _ => by show 0 = R.cursor r.2 - _; omega⟩, nofun,
        fun _ _ => q2.imp id fun q => ⟨q.1, ?_⟩, id⟩, p5⟩
      have := q.2
      omega
    | true =>
      rw [if_neg (by simp)]
      obtain ⟨q1, q2⟩ := p3 hb
      have hle : min n (R.avail r.2) ≤ R.avail r.2 := Nat.min_le_right _ _
      have tr : ∀ z, R.CopyPost D True (min n (R.avail r.2)) d r.2 z → R.CopySomePost D True n d s z := by
        intro z hz
        obtain ⟨h1, h2, h3, h4, h5, h6⟩ := L.copySome_of_copy p1 hz (Nat.min_le_left n _) hle (fun _ => by omega)
        unfold ReaderOps.CopySomePost
        rw [← p2]
        exact ⟨h1, h2, h3, fun hb' => ⟨(h4 hb').1, q2.trans (h4 hb').2.1, (h4 hb').2.2⟩, h5, h6⟩
      split
      · obtain ⟨m1, m2, m3, m4, m5⟩ := L.move p1 hle
        exact ⟨m1, tr _ (L.copyPost_fast d p1 hle), fun ho => m5.trans (p5 ho)⟩
      · obtain ⟨c1, c2, c3⟩ := copyVia_spec L hr hs hD (min n (R.avail r.2)) d p1 (by omega)
        exact ⟨c1, tr _ c2, fun ho => c3 (p5 ho)⟩
  readHintSlow := L.readHintSlow
  seekSlow := L.seekSlow
  sizeImpl := L.sizeImpl
end

/-- `ReadBehindScratch(char*)` keeps `ok()` if `PullBehindScratch()` does. -/
theorem Core.readChars_ok {σ : Type} {C : Core σ} {I : σ → Prop} {D : Bytes} {E : Prop} (L : C.Lawful D E I)
    (hp : ∀ s rec, I s → C.ok (C.pullSlow 1 rec s).2 = C.ok s) (fuel n : Nat) {s : σ} (h : I s) : C.ok (C.readChars fuel n s).2.2 = C.ok s := by
  induction fuel generalizing n s with
  | zero => rfl
  | succ fuel ih =>
    have hm := L.move h (Nat.le_refl _)
    have hx := L.next h (n - C.avail s)
    have ho := hp _ (n - C.avail s) hm.1
    rw [hm.2.2.2.2] at ho
    unfold Core.readChars
    dsimp only
    generalize C.pullSlow 1 (n - C.avail s) (C.move (C.avail s) s) = r at *
    split
    · exact ho
    · split
      · exact (ih _ hx.1).trans ho
      · rename_i hlt
        exact (L.move hx.1 (by omega)).2.2.2.2.trans ho

/-- The default `ReadBehindScratch(Chain&)` keeps `ok()` if `PullBehindScratch()` does. -/
theorem Core.readBlocks_ok {σ : Type} {C : Core σ} {I : σ → Prop} {D : Bytes} {E : Prop} (L : C.Lawful D E I)
    (hp : ∀ s rec, I s → C.ok (C.pullSlow 1 rec s).2 = C.ok s) (fuel n : Nat) {s : σ} (h : I s) : C.ok (C.readBlocks fuel n s).2.2 = C.ok s := by
  induction fuel generalizing n s with
  | zero => rfl
  | succ fuel ih =>
    have hx := L.readFast (C.blockSize n) h
    have ho : C.ok (C.readFast (C.blockSize n) s).2.2 = C.ok s := by
      unfold Core.readFast
      split
      · rename_i hle; exact (L.move h hle).2.2.2.2
      · exact C.readChars_ok L hp _ _ h
    unfold Core.readBlocks
    dsimp only
    generalize C.readFast (C.blockSize n) s = r at *
    split
    · exact ho
    · split
      · exact (ih _ hx.1).trans ho
      · exact ho

/-! ## `ChainReader` -/
namespace ChR

/-- The invariant of `ChainReader`: the buffer is the block at `iter_`, or it is empty at the end. -/
def Inv (bs : List Bytes) (s : ChR) : Prop :=
  s.i ≤ bs.length ∧ s.w.off ≤ s.w.buf.length ∧ s.w.buf = bs.getD s.i [] ∧ s.w.limitPos = (bs.take s.i).flatten.length + s.w.buf.length

theorem flat_split (bs : List Bytes) (i : Nat) : bs.flatten = (bs.take i).flatten ++ (bs.getD i [] ++ (bs.drop (i + 1)).flatten) := by
  induction bs generalizing i with
  | nil => simp
  | cons b l ih =>
    cases i with
    | zero => simp
    | succ i => simp [ih i]

theorem take_succ_flat (bs : List Bytes) (i : Nat) : (bs.take (i + 1)).flatten = (bs.take i).flatten ++ bs.getD i [] := by
  induction bs generalizing i with
  | nil => simp
  | cons b l ih =>
    cases i with
    | zero => simp
    | succ i => simp [ih i]

theorem take_add_flat (bs : List Bytes) (i k : Nat) : (bs.take (i + k)).flatten = (bs.take i).flatten ++ ((bs.drop i).take k).flatten := by
  rw [List.take_add, List.flatten_append]

theorem getD_drop (bs : List Bytes) (i k : Nat) : (bs.drop i).getD k [] = bs.getD (i + k) [] := by
  simp [List.getD_eq_getElem?_getD, List.getElem?_drop]

theorem nextFull_spec (l : List Bytes) (j : Nat) : ∃ k, nextFull l j = j + k ∧ k ≤ l.length ∧ (l.take k).flatten = [] ∧ (k < l.length → l.getD k [] ≠ []) := by
  induction l generalizing j with
  | nil => exact ⟨0, rfl, Nat.le_refl _, rfl, nofun⟩
  | cons b l ih =>
    unfold nextFull
    split
    · rename_i hb
      obtain ⟨k, h1, h2, h3, h4⟩ := ih (j + 1)
      have hb : b = [] := by simpa using hb
      refine ⟨k + 1, by omega, by simp; omega, by simp [hb]; simpa using h3, fun hk => ?_⟩
      have := h4 (by simp at hk; omega)
      simpa using this
    · rename_i hb
      exact ⟨0, rfl, Nat.zero_le _, rfl, fun _ => by simpa using hb⟩

theorem start_eq {bs : List Bytes} {s : ChR} (h : Inv bs s) : s.w.start = (bs.take s.i).flatten.length := by
  unfold Win.start
  have := h.2.2.2
  omega

theorem limit_le {bs : List Bytes} {s : ChR} (h : Inv bs s) : s.w.limitPos ≤ bs.flatten.length := by
  obtain ⟨_, _, h3, h4⟩ := h
  have := congrArg List.length (flat_split bs s.i)
  simp only [List.length_append, ← h3] at this
  omega

/-- Lemma for `pull` : there is no data after `iter_` when no nonempty block follows. -/
theorem pull_spec {bs : List Bytes} {s : ChR} (h : Inv bs s) (ha : (core bs).avail s < 1) :
    Inv bs (s.pull bs).2 ∧ (s.pull bs).2.w.cursor = s.w.cursor ∧ (s.pull bs).2.ok = s.ok ∧
    ((s.pull bs).1 = true → 1 ≤ (core bs).avail (s.pull bs).2) ∧
    ((s.pull bs).1 = false → (core bs).avail (s.pull bs).2 < 1 ∧ (s.ok = false ∨ (s.pull bs).2.w.limitPos = bs.flatten.length)) := by
  have hl := limit_le h
  have hst := start_eq h
  obtain ⟨h1, h2, h3, h4⟩ := h
  have ha' : s.w.off = s.w.buf.length := by
    have ha : s.w.limitPos - (s.w.limitPos - (s.w.buf.length - s.w.off)) < 1 := ha
    omega
  have hc : s.w.cursor = s.w.limitPos := by unfold Win.cursor; omega
  unfold pull
  split
  · rename_i ho
    exact ⟨⟨h1, h2, h3, h4⟩, rfl, rfl, nofun, fun _ => ⟨ha, .inl ho⟩⟩
  · split
    · rename_i hi
      refine ⟨⟨h1, h2, h3, h4⟩, rfl, rfl, nofun, fun _ => ⟨ha, .inr ?_⟩⟩
      show s.w.limitPos = _
      rw [h4, h3, hi]
      simp
    · rename_i hi
      obtain ⟨k, k1, k2, k3, k4⟩ := nextFull_spec (bs.drop (s.i + 1)) (s.i + 1)
      have k2 : k ≤ bs.length - (s.i + 1) := by simpa using k2
      have hlp : s.w.limitPos = (bs.take (s.i + 1 + k)).flatten.length := by
        rw [take_add_flat, k3, take_succ_flat, h4, h3]; simp
      rw [getD_drop] at k4
      dsimp only
      rw [k1]
      cases hb : bs[s.i + 1 + k]? with
      | some b =>
        dsimp only
        have hg : bs.getD (s.i + 1 + k) [] = b := by rw [List.getD_eq_getElem?_getD, hb]; rfl
        have hlt : s.i + 1 + k < bs.length := by
          have := List.getElem?_eq_some_iff.mp hb
          exact this.1
        have hne : b ≠ [] := by rw [← hg]; exact k4 (by simp; omega)
        have hpos : 0 < b.length := List.length_pos_iff.mpr hne
        refine ⟨⟨?_, Nat.zero_le _, ?_, ?_⟩, ?_, rfl, fun _ => ?_, nofun⟩
        · show s.i + 1 + k ≤ _; omega
        · exact hg.symm
        · show s.w.limitPos + b.length = _ + b.length; rw [hlp]
        · show s.w.limitPos + b.length - (b.length - 0) = _; omega
        · show 1 ≤ s.w.limitPos + b.length - (s.w.limitPos + b.length - (b.length - 0)); omega
      | none =>
        dsimp only
        have hge : bs.length ≤ s.i + 1 + k := by simpa using hb
        refine ⟨⟨?_, Nat.zero_le _, ?_, ?_⟩, ?_, rfl, nofun, fun _ => ⟨?_, .inr ?_⟩⟩
        · show s.i + 1 + k ≤ _; omega
        · show [] = _; rw [List.getD_eq_getElem?_getD, hb]; rfl
        · show s.w.limitPos = _ + 0; rw [hlp]; rfl
        · show s.w.limitPos - (0 - 0) = _; omega
        · show s.w.limitPos - (s.w.limitPos - (0 - 0)) < 1; omega
        · show s.w.limitPos = _
          rw [hlp, List.take_of_length_le hge]

theorem core_lawful (bs : List Bytes) : (core bs).Lawful bs.flatten True (Inv bs) where
  window s h := by
    have := h.2.2.2
    have := h.2.1
    refine ⟨?_, ?_, limit_le h⟩
    · show s.w.limitPos - _ ≤ s.w.limitPos - _; omega
    · show s.w.limitPos - _ ≤ s.w.limitPos; omega
  data s h := by
    have hst := start_eq h
    show s.w.buf = slice bs.flatten s.w.start (s.w.limitPos - s.w.start)
    rw [hst, h.2.2.2, Nat.add_sub_cancel_left]
    conv => rhs; rw [flat_split bs s.i]
    rw [← h.2.2.1]
    simp [slice]
  setCursor s c h h1 h2 := by
    have h1 : s.w.start ≤ c := h1
    have h2 : c ≤ s.w.limitPos := h2
    have hst := start_eq h
    obtain ⟨g1, g2, g3, g4⟩ := h
    refine ⟨⟨g1, ?_, g3, g4⟩, ?_, rfl, rfl, rfl⟩
    · show c - s.w.start ≤ s.w.buf.length; omega
    · show s.w.limitPos - (s.w.buf.length - (c - s.w.start)) = c; omega
  pullSlow s n rec h ha := by
    show Inv bs (if n = 1 then s.pull bs else (false, { s with ok := false })).2 ∧ _
    have hu : (core bs).pullSlow n rec s = if n = 1 then s.pull bs else (false, { s with ok := false }) := rfl
    rw [hu]
    by_cases hn : n = 1
    · rw [if_pos hn]
      obtain ⟨p1, p2, p3, p4, p5⟩ := pull_spec h (by omega)
      rw [hn]
      refine ⟨p1, p2, fun hb => ⟨p4 hb, .inl p3⟩, fun hb => ⟨(p5 hb).1, ?_⟩, fun ho => p3.trans ho⟩
      rcases (p5 hb).2 with q | q
      · exact .inl (p3.trans q)
      · exact .inr ⟨trivial, q⟩
    · rw [if_neg hn]
      exact ⟨h, rfl, nofun, fun _ => ⟨ha, .inl rfl⟩, fun _ => rfl⟩
  fail s h := ⟨h, rfl, rfl⟩

theorem readLoop_spec (l : List Bytes) (i n lp : Nat) (hn : 0 < n) : ∃ k, (readLoop l i n lp).2.2.1 = i + k ∧ k ≤ l.length ∧
    (readLoop l i n lp).2.2.2.buf = l.getD k [] ∧ (readLoop l i n lp).2.2.2.off ≤ (readLoop l i n lp).2.2.2.buf.length ∧
    (readLoop l i n lp).2.2.2.limitPos = lp + (l.take k).flatten.length + (readLoop l i n lp).2.2.2.buf.length ∧
    (readLoop l i n lp).2.1 = l.flatten.take n ∧ (readLoop l i n lp).1 = decide (n ≤ l.flatten.length) ∧
    (readLoop l i n lp).2.2.2.cursor = lp + min n l.flatten.length := by
  induction l generalizing i n lp with
  | nil => exact ⟨0, rfl, Nat.le_refl _, rfl, Nat.le_refl _, rfl, by simp [readLoop], by simp [readLoop]; omega, by simp [readLoop, Win.cursor]⟩
  | cons b l ih =>
    unfold readLoop
    split
    · rename_i hle
      refine ⟨0, rfl, Nat.zero_le _, by simp, hle, by simp, ?_, ?_, ?_⟩
      · show b.take n = _
        rw [List.flatten_cons, List.take_append_of_le_length hle]
      · symm; apply decide_eq_true
        simp; omega
      · show lp + b.length - (b.length - n) = _
        simp; omega
    · rename_i hle
      obtain ⟨k, k1, k2, k3, k4, k5, k6, k7, k8⟩ := ih (i + 1) (n - b.length) (lp + b.length) (by omega)
      dsimp only
      generalize readLoop l (i + 1) (n - b.length) (lp + b.length) = q at *
      refine ⟨k + 1, by omega, by simp; omega, by simpa using k3, k4, ?_, ?_, ?_, ?_⟩
      · rw [k5]; simp; omega
      · rw [k6, List.flatten_cons, List.take_append, List.take_of_length_le (i := n) (l := b) (by omega)]
      · rw [k7]
        simp only [List.flatten_cons, List.length_append]
        congr 1
        apply propext
        omega
      · rw [k8]; simp only [List.flatten_cons, List.length_append]; omega

theorem locate_spec (l : List Bytes) (i p : Nat) (hp : p < l.flatten.length) : ∃ k, (locate l i p).1 = i + k ∧ k < l.length ∧
    (locate l i p).2 < (l.getD k []).length ∧ p = (l.take k).flatten.length + (locate l i p).2 := by
  induction l generalizing i p with
  | nil => simp at hp
  | cons b l ih =>
    unfold locate
    split
    · rename_i hlt
      exact ⟨0, rfl, by simp, by simpa using hlt, by simp⟩
    · rename_i hlt
      simp only [List.flatten_cons, List.length_append] at hp
      obtain ⟨k, k1, k2, k3, k4⟩ := ih (i + 1) (p - b.length) (by omega)
      refine ⟨k + 1, by omega, by simp; omega, by simpa using k3, ?_⟩
      simp only [List.take_succ_cons, List.flatten_cons, List.length_append]
      omega

theorem readBlocks_spec {bs : List Bytes} {s : ChR} (n : Nat) (h : Inv bs s) (hn : 0 < n) :
    Inv bs (s.readBlocks bs n).2.2 ∧ (core bs).toOps.ReadPost bs.flatten True n s (s.readBlocks bs n) ∧ (s.readBlocks bs n).2.2.ok = s.ok := by
  have L := core_lawful bs
  have hw := L.window s h
  have hl := limit_le h
  unfold readBlocks
  split
  · rename_i ho
    refine ⟨h, ⟨Nat.le_refl _, ?_, nofun, fun _ => ⟨?_, .inl ho⟩⟩, rfl⟩
    · show [] = slice _ _ ((core bs).cursor s - (core bs).cursor s); rw [Nat.sub_self, slice_zero]
    · show (core bs).cursor s < (core bs).cursor s + n; omega
  · split
    · rename_i hle
      obtain ⟨m1, m2, m3, m4, m5⟩ := L.move h hle
      refine ⟨m1, ⟨?_, ?_, fun _ => ⟨m2, .inl m5⟩, nofun⟩, m5⟩
      · show (core bs).cursor s ≤ (core bs).cursor ((core bs).move n s); omega
      · show (core bs).peek n s = slice _ ((core bs).cursor s) ((core bs).cursor ((core bs).move n s) - (core bs).cursor s)
        rw [L.peek h hle, m2, Nat.add_sub_cancel_left]
    · rename_i hle
      have hav : (core bs).avail s = s.w.limitPos - (core bs).cursor s := rfl
      have hcl : (core bs).cursor s ≤ s.w.limitPos := hw.2.1
      split
      · rename_i hi
        have hbl : s.w.buf.length = 0 := by rw [h.2.2.1, hi]; simp
        have hlim : s.w.limitPos = bs.flatten.length := by
          rw [h.2.2.2, hbl, hi, List.take_length]; rfl
        have hcc : (core bs).cursor s = s.w.limitPos := by
          show s.w.limitPos - (s.w.buf.length - s.w.off) = _; omega
        refine ⟨h, ⟨Nat.le_refl _, ?_, nofun, fun _ => ⟨?_, .inr ⟨trivial, ?_⟩⟩⟩, rfl⟩
        · show [] = slice _ _ ((core bs).cursor s - (core bs).cursor s); rw [Nat.sub_self, slice_zero]
        · show (core bs).cursor s < (core bs).cursor s + n; omega
        · show (core bs).cursor s = _; omega
      · rename_i hi
        obtain ⟨k, k1, k2, k3, k4, k5, k6, k7, k8⟩ := readLoop_spec (bs.drop (s.i + 1)) (s.i + 1) (n - (core bs).avail s) s.w.limitPos (by omega)
        have k2 : k ≤ bs.length - (s.i + 1) := by simpa using k2
        have hi' := h.1
        have hrest : bs.flatten = (bs.take (s.i + 1)).flatten ++ (bs.drop (s.i + 1)).flatten := by
          rw [← List.flatten_append, List.take_append_drop]
        have hlim : s.w.limitPos = (bs.take (s.i + 1)).flatten.length := by
          rw [take_succ_flat, h.2.2.2, h.2.2.1]; simp
        have hlen : bs.flatten.length = s.w.limitPos + (bs.drop (s.i + 1)).flatten.length := by
          rw [hlim]; conv => lhs; rw [hrest]
          simp
        have hdr : bs.flatten.drop s.w.limitPos = (bs.drop (s.i + 1)).flatten := by
          rw [hlim, hrest, List.drop_left]
        dsimp only
        generalize readLoop (bs.drop (s.i + 1)) (s.i + 1) (n - (core bs).avail s) s.w.limitPos = q at *
        have hc : (core bs).cursor { s with i := q.2.2.1, w := q.2.2.2 } = s.w.limitPos + min (n - (core bs).avail s) (bs.drop (s.i + 1)).flatten.length := k8
        refine ⟨⟨?_, k4, ?_, ?_⟩, ⟨?_, ?_, fun hb => ⟨?_, .inl rfl⟩, fun hb => ⟨?_, .inr ⟨trivial, ?_⟩⟩⟩, rfl⟩
        · show q.2.2.1 ≤ _; omega
        · show q.2.2.2.buf = bs.getD q.2.2.1 []
          rw [k3, getD_drop, k1]
        · show q.2.2.2.limitPos = (bs.take q.2.2.1).flatten.length + _
          rw [k5, k1, take_add_flat, List.length_append, hlim]
        · show (core bs).cursor s ≤ (core bs).cursor { s with i := q.2.2.1, w := q.2.2.2 }
          omega
        · show (core bs).peek _ s ++ q.2.1 = slice _ ((core bs).cursor s) ((core bs).cursor { s with i := q.2.2.1, w := q.2.2.2 } - (core bs).cursor s)
          have e1 : (core bs).peek ((core bs).avail s) s = slice bs.flatten ((core bs).cursor s) ((core bs).avail s) := L.peek h (Nat.le_refl _)
          have e2 : q.2.1 = slice bs.flatten ((core bs).cursor s + (core bs).avail s) (min (n - (core bs).avail s) (bs.drop (s.i + 1)).flatten.length) := by
            rw [k6, show (core bs).cursor s + (core bs).avail s = s.w.limitPos by omega]
            unfold slice
            rw [hdr]
            by_cases hx : n - (core bs).avail s ≤ (bs.drop (s.i + 1)).flatten.length
            · rw [Nat.min_eq_left hx]
            · rw [Nat.min_eq_right (by omega), List.take_of_length_le (by omega), List.take_length]
          rw [e1, e2, slice_append, hc]
          congr 1
          omega
        · have hb : q.1 = true := hb
          rw [k7] at hb
          have := of_decide_eq_true hb
          show (core bs).cursor { s with i := q.2.2.1, w := q.2.2.2 } = (core bs).cursor s + n
          omega
        · have hb : q.1 = false := hb
          rw [k7] at hb
          have := of_decide_eq_false hb
          show (core bs).cursor { s with i := q.2.2.1, w := q.2.2.2 } < (core bs).cursor s + n
          omega
        · have hb : q.1 = false := hb
          rw [k7] at hb
          have := of_decide_eq_false hb
          show (core bs).cursor { s with i := q.2.2.1, w := q.2.2.2 } = _
          omega

theorem seek_spec {bs : List Bytes} {s : ChR} (p : Nat) (h : Inv bs s) (hp : p < s.w.start ∨ s.w.limitPos < p) :
    Inv bs (s.seek bs p).2 ∧ (core bs).toOps.SeekPost bs.flatten True p s (s.seek bs p) ∧ (s.seek bs p).2.ok = s.ok := by
  have hw := (core_lawful bs).window s h
  have hl := limit_le h
  have hw1 : s.w.start ≤ s.w.cursor := hw.1
  have hw2 : s.w.cursor ≤ s.w.limitPos := hw.2.1
  unfold seek
  split
  · rename_i ho
    refine ⟨h, ⟨.inl ?_, fun _ => Nat.le_refl _, nofun, fun _ => .inl ho⟩, rfl⟩
    show s.w.cursor ≤ max p s.w.cursor; omega
  · split
    · rename_i hge
      refine ⟨⟨Nat.le_refl _, Nat.le_refl _, by simp, by simp⟩, ⟨.inl ?_, fun _ => ?_, fun hb => ⟨?_, .inl rfl⟩, fun hb => .inr ⟨trivial, ?_, ?_⟩⟩, rfl⟩
      · show bs.flatten.length - (0 - 0) ≤ max p _; omega
      · show s.w.cursor ≤ bs.flatten.length - (0 - 0); omega
      · have := of_decide_eq_true hb
        show bs.flatten.length - (0 - 0) = p; omega
      · show bs.flatten.length - (0 - 0) = _; omega
      · have := of_decide_eq_false hb
        omega
    · rename_i hge
      obtain ⟨k, k1, k2, k3, k4⟩ := locate_spec bs 0 p (by omega)
      dsimp only
      rw [k1, Nat.zero_add]
      generalize (locate bs 0 p).2 = q at *
      have hc : p + ((bs.getD k []).length - q) - ((bs.getD k []).length - q) = p := by omega
      refine ⟨⟨?_, ?_, rfl, ?_⟩, ⟨.inl ?_, fun hx => ?_, fun _ => ⟨hc, .inl rfl⟩, nofun⟩, rfl⟩
      · show k ≤ _; omega
      · show q ≤ (bs.getD k []).length; omega
      · show p + ((bs.getD k []).length - q) = (bs.take k).flatten.length + (bs.getD k []).length; omega
      · show p + ((bs.getD k []).length - q) - ((bs.getD k []).length - q) ≤ max p _; omega
      · show _ ≤ p + ((bs.getD k []).length - q) - ((bs.getD k []).length - q)
        rw [hc]; exact hx

theorem pull_ok (bs : List Bytes) (s : ChR) : (s.pull bs).2.ok = s.ok := by
  unfold pull
  split
  · rfl
  · split
    · rfl
    · dsimp only
      split <;> rfl

theorem base_lawful (bs : List Bytes) : (base bs).Lawful bs.flatten True (Inv bs) :=
  have L := (core_lawful bs).toOps
  { window := L.window
    data := L.data
    setCursor := L.setCursor
    pullSlow := L.pullSlow
    readSlow := fun s k n h hn hp => by
      cases k with
      | chars => exact L.readSlow s .chars n h hn hp
      | blocks =>
        obtain ⟨r1, r2, r3⟩ := readBlocks_spec n h hn
        exact ⟨r1, r2, fun ho => r3.trans ho⟩
    readAvail := fun s n h hn ha hb => by
      have hb : (s.readBlocks bs n).1 = false := hb
      have ha : n ≤ (core bs).avail s := ha
      show (core bs).cursor (s.readBlocks bs n).2.2 = (core bs).cursor s
      unfold readBlocks at hb ⊢
      split
      · rfl
      · rename_i ho
        rw [if_neg ho, if_pos ha] at hb
        cases hb
    copySlow := L.copySlow
    copyBackSlow := L.copyBackSlow
    readSomeSlow := L.readSomeSlow
    copySomeSlow := L.copySomeSlow
    readHintSlow := L.readHintSlow
    seekSlow := fun s p h hp => by
      obtain ⟨r1, r2, r3⟩ := seek_spec p h hp
      exact ⟨r1, r2, fun ho => r3.trans ho⟩
    sizeImpl := fun s h => by
      show Inv bs (if s.ok = false then (none, s) else (some bs.flatten.length, s)).2 ∧ _
      have hu : (base bs).sizeImpl s = if s.ok = false then (none, s) else (some bs.flatten.length, s) := rfl
      rw [hu]
      split
      · rename_i ho
        exact ⟨h, rfl, nofun, fun _ => ho, fun _ => ho⟩
      · exact ⟨h, rfl, fun n hn => by cases hn; exact ⟨fun _ => rfl, Nat.le_refl _, .inl rfl⟩, nofun, id⟩ }

theorem behind_lawful (bs : List Bytes) (hD : bs.flatten.length < 2 ^ 64 - 1) : (behind bs).Lawful bs.flatten True (Inv bs) := by
  refine via_lawful (base_lawful bs) (fun s k n h hn _ => ?_) (fun s p h hp => ?_) hD
  · cases k with
    | chars => exact Core.readChars_ok (core_lawful bs) (fun s rec _ => pull_ok bs s) (n + 1) n h
    | blocks => exact (readBlocks_spec n h hn).2.2
  · exact (seek_spec p h hp).2.2

theorem init_inv (bs : List Bytes) : Inv bs (init bs) ∧ (core bs).cursor (init bs) = 0 ∧ (init bs).ok = true := by
  cases bs with
  | nil => exact ⟨⟨Nat.le_refl _, Nat.le_refl _, rfl, rfl⟩, rfl, rfl⟩
  | cons b l =>
    refine ⟨⟨Nat.zero_le _, Nat.zero_le _, rfl, by simp [init]⟩, ?_, rfl⟩
    show b.length - (b.length - 0) = 0; omega

end ChR

/-! ## `CordReader` -/
namespace CdR
variable {D : Bytes} {chunk block : Nat → Nat}

/-- The invariant of `CordReader`: the buffer is the chunk at `*iter_`, or the whole `Cord`. -/
def Inv (D : Bytes) (s : CdR) : Prop :=
  s.w.off ≤ s.w.buf.length ∧ s.w.buf.length ≤ s.w.limitPos ∧ s.w.limitPos ≤ D.length ∧ s.w.buf = slice D s.w.start s.w.buf.length ∧
  match s.iter with
  | none => s.w.start = 0 ∧ s.w.limitPos = D.length
  | some p => p = s.w.start

theorem remaining_spec {p : Nat} (hp : p < D.length) : remaining D chunk p = slice D p (remaining D chunk p).length ∧
    1 ≤ (remaining D chunk p).length ∧ p + (remaining D chunk p).length ≤ D.length := by
  have : (remaining D chunk p).length = max 1 (min (chunk p) (D.length - p)) := slice_length (by omega)
  refine ⟨?_, by omega, by omega⟩
  rw [this]; rfl

theorem makeBuffer_inv {p : Nat} (hp : p ≤ D.length) (ok : Bool) : Inv D ⟨some p, makeBuffer D chunk p p, ok⟩ ∧ (makeBuffer D chunk p p).cursor = p := by
  unfold makeBuffer
  split
  · rename_i he
    exact ⟨⟨Nat.le_refl _, Nat.zero_le _, hp, rfl, rfl⟩, rfl⟩
  · obtain ⟨h1, h2, h3⟩ := remaining_spec (chunk := chunk) (show p < D.length by omega)
    generalize remaining D chunk p = b at *
    have hs : (⟨b, 0, p + b.length⟩ : Win).start = p := by show p + b.length - b.length = p; omega
    refine ⟨⟨Nat.zero_le _, by show b.length ≤ p + b.length; omega, h3, ?_, hs.symm⟩, ?_⟩
    · show b = slice D (Win.start _) b.length
      rw [hs]; exact h1
    · show p + b.length - (b.length - 0) = p; omega

theorem start_add {s : CdR} (h : Inv D s) : s.w.start + s.w.buf.length = s.w.limitPos ∧ s.w.cursor = s.w.start + s.w.off := by
  obtain ⟨h1, h2, _⟩ := h
  unfold Win.start Win.cursor
  omega

theorem pull_spec {s : CdR} (h : Inv D s) (ha : (core D chunk block).avail s < 1) :
    Inv D (s.pull D chunk).2 ∧ (s.pull D chunk).2.w.cursor = s.w.cursor ∧ (s.pull D chunk).2.ok = s.ok ∧
    ((s.pull D chunk).1 = true → 1 ≤ (core D chunk block).avail (s.pull D chunk).2) ∧
    ((s.pull D chunk).1 = false → (core D chunk block).avail (s.pull D chunk).2 < 1 ∧ (s.ok = false ∨ (s.pull D chunk).2.w.limitPos = D.length)) := by
  have hs := start_add h
  obtain ⟨h1, h2, h3, h4, h5⟩ := h
  have ha' : s.w.off = s.w.buf.length := by
    have ha : s.w.limitPos - (s.w.limitPos - (s.w.buf.length - s.w.off)) < 1 := ha
    omega
  unfold pull
  cases hi : s.iter with
  | none =>
    rw [hi] at h5
    exact ⟨⟨h1, h2, h3, h4, by rw [hi]; exact h5⟩, rfl, rfl, nofun, fun _ => ⟨ha, .inr h5.2⟩⟩
  | some p =>
    rw [hi] at h5
    have h5 : p = s.w.start := h5
    dsimp only
    split
    · rename_i ho
      exact ⟨⟨h1, h2, h3, h4, by rw [hi]; exact h5⟩, rfl, rfl, nofun, fun _ => ⟨ha, .inl ho⟩⟩
    · split
      · rename_i he
        refine ⟨⟨Nat.le_refl _, Nat.zero_le _, h3, rfl, ?_⟩, ?_, rfl, nofun, fun _ => ⟨?_, .inr ?_⟩⟩
        · show p + s.w.off = s.w.limitPos - 0; omega
        · show s.w.limitPos - (0 - 0) = _; omega
        · show s.w.limitPos - (s.w.limitPos - (0 - 0)) < 1; omega
        · show s.w.limitPos = _; omega
      · rename_i he
        have hp : p + s.w.off = s.w.limitPos := by omega
        rw [hp] at he ⊢
        obtain ⟨m1, m2⟩ := makeBuffer_inv (chunk := chunk) h3 s.ok
        obtain ⟨g1, g2, g3⟩ := remaining_spec (chunk := chunk) (show s.w.limitPos < D.length by omega)
        unfold makeBuffer at m1 m2
        rw [if_neg he] at m1 m2
        refine ⟨m1, by rw [m2]; omega, rfl, fun _ => ?_, nofun⟩
        show 1 ≤ s.w.limitPos + (remaining D chunk s.w.limitPos).length - Win.cursor _
        rw [m2]; omega

theorem core_lawful : (core D chunk block).Lawful D True (Inv D) where
  window s h := by
    have := start_add h
    have := h.1
    refine ⟨?_, ?_, h.2.2.1⟩
    · show s.w.start ≤ s.w.cursor; omega
    · show s.w.cursor ≤ s.w.limitPos; omega
  data s h := by
    have := start_add h
    show s.w.buf = slice D s.w.start (s.w.limitPos - s.w.start)
    rw [show s.w.limitPos - s.w.start = s.w.buf.length by omega]
    exact h.2.2.2.1
  setCursor s c h h1 h2 := by
    have h1 : s.w.start ≤ c := h1
    have h2 : c ≤ s.w.limitPos := h2
    have hs := start_add h
    obtain ⟨g1, g2, g3, g4, g5⟩ := h
    refine ⟨⟨?_, g2, g3, g4, g5⟩, ?_, rfl, rfl, rfl⟩
    · show c - s.w.start ≤ s.w.buf.length; omega
    · show s.w.limitPos - (s.w.buf.length - (c - s.w.start)) = c; omega
  pullSlow s n rec h ha := by
    have hu : (core D chunk block).pullSlow n rec s = if n = 1 then s.pull D chunk else (false, { s with ok := false }) := rfl
    rw [hu]
    by_cases hn : n = 1
    · rw [if_pos hn]
      obtain ⟨p1, p2, p3, p4, p5⟩ := pull_spec (chunk := chunk) (block := block) h (by omega)
      rw [hn]
      refine ⟨p1, p2, fun hb => ⟨p4 hb, .inl p3⟩, fun hb => ⟨(p5 hb).1, ?_⟩, fun ho => p3.trans ho⟩
      rcases (p5 hb).2 with q | q
      · exact .inl (p3.trans q)
      · exact .inr ⟨trivial, q⟩
    · rw [if_neg hn]
      exact ⟨h, rfl, nofun, fun _ => ⟨ha, .inl rfl⟩, fun _ => rfl⟩
  fail s h := ⟨h, rfl, rfl⟩

theorem pull_ok (s : CdR) : (s.pull D chunk).2.ok = s.ok := by
  unfold pull
  split
  · rfl
  · split
    · rfl
    · dsimp only
      split <;> rfl

theorem readBlocks_spec {s : CdR} (n : Nat) (h : Inv D s) (hn : 0 < n) :
    Inv D (s.readBlocks D chunk block n).2.2 ∧ (core D chunk block).toOps.ReadPost D True n s (s.readBlocks D chunk block n) ∧
    (s.readBlocks D chunk block n).2.2.ok = s.ok := by
  have L := core_lawful (D := D) (chunk := chunk) (block := block)
  have hs := start_add h
  unfold readBlocks
  cases hi : s.iter with
  | none =>
    obtain ⟨r1, r2, _⟩ := L.readBlocks n n h hn (Nat.le_refl _)
    exact ⟨r1, r2, Core.readBlocks_ok L (fun s _ _ => pull_ok s) n n h⟩
  | some p =>
    have hp : p = s.w.start := by have := h.2.2.2.2; rw [hi] at this; exact this
    have hw := L.window s h
    have hw2 : s.w.cursor ≤ s.w.limitPos := hw.2.1
    have hw3 : s.w.limitPos ≤ D.length := hw.2.2
    dsimp only
    split
    · rename_i ho
      refine ⟨h, ⟨Nat.le_refl _, ?_, nofun, fun _ => ⟨?_, .inl ho⟩⟩, rfl⟩
      · show [] = slice D _ (s.w.cursor - s.w.cursor); rw [Nat.sub_self, slice_zero]
      · show s.w.cursor < s.w.cursor + n; omega
    · have hpo : p + s.w.off = s.w.cursor := by omega
      rw [hpo]
      have hle : min n (D.length - s.w.cursor) ≤ D.length - s.w.cursor := Nat.min_le_right _ _
      have hle' : min n (D.length - s.w.cursor) ≤ n := Nat.min_le_left _ _
      have hsm : min n (D.length - s.w.cursor) ≠ n → min n (D.length - s.w.cursor) = D.length - s.w.cursor := by omega
      generalize min n (D.length - s.w.cursor) = len at *
      obtain ⟨m1, m2⟩ := makeBuffer_inv (chunk := chunk) (show s.w.cursor + len ≤ D.length by omega) s.ok
      refine ⟨m1, ⟨?_, ?_, fun hb => ⟨?_, .inl rfl⟩, fun hb => ⟨?_, .inr ⟨trivial, ?_⟩⟩⟩, rfl⟩
      · show s.w.cursor ≤ (makeBuffer D chunk _ _).cursor; rw [m2]; omega
      · show slice D s.w.cursor len = slice D s.w.cursor ((makeBuffer D chunk _ _).cursor - s.w.cursor)
        rw [m2, Nat.add_sub_cancel_left]
      · have := of_decide_eq_true hb
        show (makeBuffer D chunk _ _).cursor = s.w.cursor + n; rw [m2]; omega
      · have := of_decide_eq_false hb
        show (makeBuffer D chunk _ _).cursor < s.w.cursor + n; rw [m2]; omega
      · have := hsm (of_decide_eq_false hb)
        show (makeBuffer D chunk _ _).cursor = _; rw [m2]; omega

theorem readBlocks_avail {s : CdR} {n : Nat} (h : Inv D s) (hn : 0 < n) (ha : n ≤ (core D chunk block).avail s) (hb : (s.readBlocks D chunk block n).1 = false) :
    (s.readBlocks D chunk block n).2.2.w.cursor = s.w.cursor := by
  have L := core_lawful (D := D) (chunk := chunk) (block := block)
  have hw := L.window s h
  have hw3 : s.w.limitPos ≤ D.length := hw.2.2
  have ha' : n ≤ s.w.limitPos - s.w.cursor := ha
  unfold readBlocks at hb ⊢
  cases hi : s.iter with
  | none =>
    rw [hi] at hb
    dsimp only at hb
    rw [L.readBlocks_avail n n h hn (Nat.le_refl _) ha] at hb
    cases hb
  | some p =>
    rw [hi] at hb
    dsimp only at hb ⊢
    split
    · rfl
    · rename_i ho
      rw [if_neg ho] at hb
      have := of_decide_eq_false hb
      omega

theorem seek_spec {s : CdR} (q : Nat) (h : Inv D s) (hq : q < s.w.start ∨ s.w.limitPos < q) :
    Inv D (s.seek D chunk q).2 ∧ (core D chunk block).toOps.SeekPost D True q s (s.seek D chunk q) ∧ (s.seek D chunk q).2.ok = s.ok := by
  have L := core_lawful (D := D) (chunk := chunk) (block := block)
  have hs := start_add h
  have hw := L.window s h
  have hw1 : s.w.start ≤ s.w.cursor := hw.1
  have hw2 : s.w.cursor ≤ s.w.limitPos := hw.2.1
  have hw3 : s.w.limitPos ≤ D.length := hw.2.2
  unfold seek
  split
  · rename_i ho
    refine ⟨h, ⟨.inl ?_, fun _ => Nat.le_refl _, nofun, fun _ => .inl ho⟩, rfl⟩
    show s.w.cursor ≤ max q s.w.cursor; omega
  · have h5 := h.2.2.2.2
    cases hi : s.iter with
    | none =>
      rw [hi] at h5
      obtain ⟨g1, g2⟩ := h5
      obtain ⟨m1, m2, m3, m4, m5⟩ := L.setCursor s s.w.limitPos h (by show s.w.start ≤ _; omega) (Nat.le_refl _)
      have m2 : (s.w.setCursor s.w.limitPos).cursor = s.w.limitPos := m2
      have m1 : Inv D ⟨none, s.w.setCursor s.w.limitPos, s.ok⟩ := by
        have m1 : Inv D ⟨s.iter, s.w.setCursor s.w.limitPos, s.ok⟩ := m1
        rw [hi] at m1; exact m1
      refine ⟨m1, ⟨.inl ?_, fun _ => ?_, nofun, fun _ => .inr ⟨trivial, ?_, ?_⟩⟩, rfl⟩
      · show (s.w.setCursor s.w.limitPos).cursor ≤ max q s.w.cursor; rw [m2]; omega
      · show s.w.cursor ≤ (s.w.setCursor s.w.limitPos).cursor; rw [m2]; omega
      · show (s.w.setCursor s.w.limitPos).cursor = _; rw [m2]; exact g2
      · omega
    | some p =>
      rw [hi] at h5
      have h5 : p = s.w.start := h5
      dsimp only
      have key : q ≤ D.length → Inv D { s with iter := some q, w := makeBuffer D chunk q q } ∧
          (core D chunk block).toOps.SeekPost D True q s (true, { s with iter := some q, w := makeBuffer D chunk q q }) := by
        intro hle
        obtain ⟨m1, m2⟩ := makeBuffer_inv (chunk := chunk) hle s.ok
        refine ⟨m1, ⟨.inl ?_, fun hx => ?_, fun _ => ⟨m2, .inl rfl⟩, nofun⟩⟩
        · show (makeBuffer D chunk q q).cursor ≤ max q s.w.cursor; rw [m2]; omega
        · show s.w.cursor ≤ (makeBuffer D chunk q q).cursor; rw [m2]; exact hx
      split
      · rename_i hlt
        split
        · rename_i hge
          refine ⟨⟨Nat.le_refl _, Nat.zero_le _, Nat.le_refl _, rfl, rfl⟩, ⟨.inl ?_, fun _ => ?_, fun hb => ⟨?_, .inl rfl⟩, fun hb => .inr ⟨trivial, ?_, ?_⟩⟩, rfl⟩
          · show D.length - (0 - 0) ≤ max q _; omega
          · show s.w.cursor ≤ D.length - (0 - 0); omega
          · have := of_decide_eq_true hb
            show D.length - (0 - 0) = q; omega
          · show D.length - (0 - 0) = _; omega
          · have := of_decide_eq_false hb
            omega
        · rw [show p + (q - s.w.start) = q by omega]
          obtain ⟨k1, k2⟩ := key (by omega)
          exact ⟨k1, k2, rfl⟩
      · obtain ⟨k1, k2⟩ := key (by omega)
        exact ⟨k1, k2, rfl⟩

theorem base_lawful : (base D chunk block).Lawful D True (Inv D) :=
  have L := (core_lawful (D := D) (chunk := chunk) (block := block)).toOps
  { window := L.window
    data := L.data
    setCursor := L.setCursor
    pullSlow := L.pullSlow
    readSlow := fun s k n h hn hp => by
      cases k with
      | chars => exact L.readSlow s .chars n h hn hp
      | blocks =>
        obtain ⟨r1, r2, r3⟩ := readBlocks_spec (chunk := chunk) (block := block) n h hn
        exact ⟨r1, r2, fun ho => r3.trans ho⟩
    readAvail := fun s n h hn ha hb => readBlocks_avail h (by omega) ha hb
    copySlow := L.copySlow
    copyBackSlow := L.copyBackSlow
    readSomeSlow := L.readSomeSlow
    copySomeSlow := L.copySomeSlow
    readHintSlow := L.readHintSlow
    seekSlow := fun s p h hp => by
      obtain ⟨r1, r2, r3⟩ := seek_spec (chunk := chunk) (block := block) p h hp
      exact ⟨r1, r2, fun ho => r3.trans ho⟩
    sizeImpl := fun s h => by
      have hu : (base D chunk block).sizeImpl s = if s.ok = false then (none, s) else (some D.length, s) := rfl
      rw [hu]
      split
      · rename_i ho
        exact ⟨h, rfl, nofun, fun _ => ho, fun _ => ho⟩
      · exact ⟨h, rfl, fun n hn => by cases hn; exact ⟨fun _ => rfl, Nat.le_refl _, .inl rfl⟩, nofun, id⟩ }

theorem behind_lawful (hD : D.length < 2 ^ 64 - 1) : (behind D chunk block).Lawful D True (Inv D) := by
  refine via_lawful base_lawful (fun s k n h hn _ => ?_) (fun s p h hp => ?_) hD
  · cases k with
    | chars => exact Core.readChars_ok (core_lawful (D := D) (chunk := chunk) (block := block)) (fun s rec _ => pull_ok s) (n + 1) n h
    | blocks => exact (readBlocks_spec n h hn).2.2
  · exact (seek_spec (block := block) p h hp).2.2

theorem init_inv (flat : Bool) : Inv D (init D chunk flat) ∧ (init D chunk flat).w.cursor = 0 ∧ (init D chunk flat).ok = true := by
  unfold init
  split
  · refine ⟨⟨Nat.zero_le _, Nat.le_refl _, Nat.le_refl _, ?_, ?_⟩, ?_, rfl⟩
    · show D = slice D (D.length - D.length) D.length
      rw [Nat.sub_self]; exact (slice_all D).symm
    · exact ⟨by show D.length - D.length = 0; omega, rfl⟩
    · show D.length - (D.length - 0) = 0; omega
  · obtain ⟨m1, m2⟩ := makeBuffer_inv (D := D) (chunk := chunk) (Nat.zero_le _) true
    exact ⟨m1, m2, rfl⟩

end CdR
end Riegeli.Rdr

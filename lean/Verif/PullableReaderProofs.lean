import Verif.PullableReader
/-!
# `PullableReader` meets the contract of `Reader`
-/
namespace Riegeli.Rdr
namespace PS
variable {σ : Type} {R : ReaderOps σ} {room : Nat → Nat → Nat} {D : Bytes} {E : Prop} {I : σ → Prop}

/-- The invariant: scratch has the data before the position of the source. -/
structure Inv (R : ReaderOps σ) (D : Bytes) (I : σ → Prop) (s : PS σ) : Prop where
  src : I s.src
  off : s.off ≤ s.scratch.length
  len : s.scratch.length ≤ R.cursor s.src
  data : s.scratch = slice D (R.cursor s.src - s.scratch.length) s.scratch.length

theorem used_nil {s : PS σ} (h : s.scratch = []) : s.used = false := by unfold used; rw [h]; rfl

theorem nil_of {s : PS σ} (h : s.used = false) : s.scratch = [] := by
  unfold used at h
  cases hs : s.scratch with
  | nil => rfl
  | cons a l => rw [hs] at h; cases h

theorem init_inv {s : σ} (h : I s) : Inv R D I (init s) := ⟨h, Nat.le_refl _, Nat.zero_le _, rfl⟩

theorem inv_nil {s : σ} {o : Nat} (h : I s) (ho : o = 0) : Inv R D I ⟨s, [], o⟩ := ⟨h, by rw [ho]; exact Nat.le_refl _, Nat.zero_le _, rfl⟩

theorem Inv.offNil {s : PS σ} (h : Inv R D I s) (hu : s.used = false) : s = ⟨s.src, [], 0⟩ := by
  have h1 := h.off
  have h2 := nil_of hu
  rw [h2] at h1
  cases s
  simp only at h1 h2
  simp at h1
  subst h1 h2
  rfl

section
variable {s : PS σ}

theorem start_unused (h : s.used = false) : s.start R = R.start s.src := by unfold start; rw [h]; rfl
theorem cursor_unused (h : s.used = false) : s.cursor R = R.cursor s.src := by unfold cursor; rw [h]; rfl
theorem limit_unused (h : s.used = false) : s.limit R = R.limit s.src := by unfold limit; rw [h]; rfl
theorem avail_unused (h : s.used = false) : s.avail R = R.avail s.src := by unfold avail; rw [cursor_unused h, limit_unused h]; rfl
theorem start_used (h : s.used = true) : s.start R = R.cursor s.src - s.scratch.length := by unfold start; rw [h]; rfl
theorem cursor_used (h : s.used = true) : s.cursor R = R.cursor s.src - (s.scratch.length - s.off) := by unfold cursor; rw [h]; rfl
theorem limit_used (h : s.used = true) : s.limit R = R.cursor s.src := by unfold limit; rw [h]; rfl
theorem avail_used (h : s.used = true) (hi : Inv R D I s) : s.avail R = s.scratch.length - s.off := by
  have := hi.len
  unfold avail; rw [cursor_used h, limit_used h]; omega
theorem cursor_add (h : s.used = true) (hi : Inv R D I s) : s.cursor R + s.avail R = R.cursor s.src := by
  have := hi.len
  rw [avail_used h hi, cursor_used h]; omega
end

variable (L : R.Lawful D E I)
include L

theorem window {s : PS σ} (h : Inv R D I s) : s.start R ≤ s.cursor R ∧ s.cursor R ≤ s.limit R ∧ s.limit R ≤ D.length := by
  have hw := L.window _ h.src
  have := h.off
  have := h.len
  cases hu : s.used with
  | false => rw [start_unused hu, cursor_unused hu, limit_unused hu]; exact hw
  | true => rw [start_used hu, cursor_used hu, limit_used hu]; omega

theorem setCursor_spec {s : PS σ} {c : Nat} (h : Inv R D I s) (h1 : s.start R ≤ c) (h2 : c ≤ s.limit R) :
    Inv R D I (s.setCursor R c) ∧ (s.setCursor R c).cursor R = c ∧ (s.setCursor R c).start R = s.start R ∧
    (s.setCursor R c).limit R = s.limit R ∧ R.ok (s.setCursor R c).src = R.ok s.src := by
  have hl := h.len
  cases hu : s.used with
  | false =>
    rw [start_unused hu] at h1
    rw [limit_unused hu] at h2
    obtain ⟨m1, m2, m3, m4, m5⟩ := L.setCursor s.src c h.src h1 h2
    have e : s.setCursor R c = { s with src := R.setCursor c s.src } := by unfold setCursor; rw [hu]; rfl
    have hn := nil_of hu
    have hu' : ({ s with src := R.setCursor c s.src } : PS σ).used = false := hu
    rw [e, start_unused hu, limit_unused hu, start_unused hu', limit_unused hu', cursor_unused hu']
    refine ⟨⟨m1, h.off, ?_, ?_⟩, m2, m3, m4, m5⟩
    · show s.scratch.length ≤ _; rw [hn]; exact Nat.zero_le _
    · show s.scratch = slice D _ s.scratch.length
      rw [hn]; rfl
  | true =>
    rw [start_used hu] at h1
    rw [limit_used hu] at h2
    have e : s.setCursor R c = { s with off := c - s.start R } := by unfold setCursor; rw [hu]; rfl
    have hu' : ({ s with off := c - s.start R } : PS σ).used = true := hu
    rw [e, start_used hu', limit_used hu', cursor_used hu', limit_used hu]
    refine ⟨⟨h.src, ?_, hl, h.data⟩, ?_, (start_used hu).symm, rfl, rfl⟩
    · show c - s.start R ≤ s.scratch.length
      rw [start_used hu]; omega
    · show R.cursor s.src - (s.scratch.length - (c - s.start R)) = c
      rw [start_used hu]; omega

theorem data_spec {s : PS σ} (h : Inv R D I s) : s.buf R = slice D (s.start R) (s.limit R - s.start R) := by
  have hl := h.len
  cases hu : s.used with
  | false =>
    rw [start_unused hu, limit_unused hu, show s.buf R = R.buf s.src by unfold buf; rw [hu]; rfl]
    exact L.data _ h.src
  | true =>
    rw [start_used hu, limit_used hu, show s.buf R = s.scratch by unfold buf; rw [hu]; rfl,
      show R.cursor s.src - (R.cursor s.src - s.scratch.length) = s.scratch.length by omega]
    exact h.data

theorem peek_spec {s : PS σ} {n : Nat} (h : Inv R D I s) (hn : n ≤ s.avail R) : s.peek R n = slice D (s.cursor R) n := by
  have hw := window L h
  unfold avail at hn
  rw [peek, data_spec L h, slice_slice (by omega)]
  congr 1; omega

theorem move_spec {s : PS σ} {n : Nat} (h : Inv R D I s) (hn : n ≤ s.avail R) :
    Inv R D I (s.move R n) ∧ (s.move R n).cursor R = s.cursor R + n ∧ (s.move R n).start R = s.start R ∧
    (s.move R n).limit R = s.limit R ∧ R.ok (s.move R n).src = R.ok s.src := by
  have hw := window L h
  unfold avail at hn
  exact setCursor_spec L h (by omega) (by omega)

theorem sync_inv {s : PS σ} (h : Inv R D I s) : Inv R D I s.sync := inv_nil h.src rfl

theorem ends_true {s : PS σ} (h : Inv R D I s) (hu : s.used = true) (he : (s.ends R).1 = true) :
    Inv R D I (s.ends R).2 ∧ (s.ends R).2.scratch = [] ∧ R.cursor (s.ends R).2.src = s.cursor R ∧ R.ok (s.ends R).2.src = R.ok s.src ∧
    s.avail R ≤ R.avail (s.ends R).2.src := by
  have ha := cursor_add hu h
  have hw := L.window _ h.src
  unfold ends at he ⊢
  dsimp only at he ⊢
  split at he
  · rename_i hle
    rw [if_pos hle]
    obtain ⟨m1, m2, m3, m4, m5⟩ := L.setCursor s.src (R.cursor s.src - s.avail R) h.src (by omega) (by omega)
    refine ⟨inv_nil m1 rfl, rfl, ?_, m5, ?_⟩
    · show R.cursor (R.setCursor _ s.src) = _
      rw [m2]; omega
    · show s.avail R ≤ R.limit (R.setCursor _ s.src) - R.cursor (R.setCursor _ s.src)
      rw [m2, m4]; omega
  · cases he

omit L in
theorem ends_false {s : PS σ} (he : (s.ends R).1 = false) : (s.ends R).2 = s ∧ 0 < s.avail R := by
  unfold ends at he ⊢
  dsimp only at he ⊢
  split at he
  · cases he
  · rename_i hle
    rw [if_neg hle]
    exact ⟨rfl, by omega⟩

/-- What follows the data of scratch, if `ScratchEnds()` returned false. -/
theorem sync_spec {s : PS σ} (h : Inv R D I s) (hu : s.used = true) :
    Inv R D I s.sync ∧ R.cursor s.sync.src = s.cursor R + s.avail R := ⟨sync_inv L h, (cursor_add hu h).symm⟩

theorem gather_spec (fuel need most rec : Nat) {s : σ} (h : I s) (hm : need ≤ most) (hf : need ≤ fuel ∧ (R.avail s = 0 → need + 1 ≤ fuel)) (h0 : 0 < need) :
    I (gather R fuel need most rec s).2 ∧ R.cursor (gather R fuel need most rec s).2 = R.cursor s + (gather R fuel need most rec s).1.length ∧
    (gather R fuel need most rec s).1 = slice D (R.cursor s) (gather R fuel need most rec s).1.length ∧
    (need ≤ (gather R fuel need most rec s).1.length → R.Keeps s (gather R fuel need most rec s).2) ∧
    ((gather R fuel need most rec s).1.length < need → (R.ok (gather R fuel need most rec s).2 = false ∨ (E ∧ R.cursor (gather R fuel need most rec s).2 = D.length))) ∧
    (R.ok s = false → R.ok (gather R fuel need most rec s).2 = false) := by
  induction fuel generalizing need most rec s with
  | zero => omega
  | succ fuel ih =>
    unfold gather
    dsimp only
    have hle : min (R.avail s) most ≤ R.avail s := Nat.min_le_left _ _
    have hle' : min (R.avail s) most ≤ most := Nat.min_le_right _ _
    have hcase : min (R.avail s) most < need → min (R.avail s) most = R.avail s := by omega
    obtain ⟨m1, m2, m3, m4, m5⟩ := L.move h hle
    have hpk := L.peek h hle
    have hw := L.window _ h
    have hlen : (R.peek (min (R.avail s) most) s).length = min (R.avail s) most := by
      rw [hpk, slice_length]
      unfold ReaderOps.avail at hle ⊢; omega
    generalize min (R.avail s) most = len at *
    split
    · rename_i hn
      refine ⟨m1, ?_, ?_, fun _ => .inl m5, ?_, fun ho => m5.trans ho⟩
      · rw [hlen]; exact m2
      · rw [hlen]; exact hpk
      · intro hlt; exfalso; simp only [hlen] at hlt; omega
    · rename_i hn
      have hz := hcase (by omega)
      have ha : R.avail (R.move len s) = 0 := by
        unfold ReaderOps.avail at hz ⊢
        rw [m2, m4]; omega
      obtain ⟨p1, p2, p3, p4, p5⟩ := L.pullSlow _ 1 (rec - len) m1 (by omega)
      generalize R.pullSlow 1 (rec - len) (R.move len s) = r at *
      cases hb : r.1 with
      | false =>
        rw [if_pos rfl]
        have hw' := L.window _ p1
        obtain ⟨q1, q2⟩ := p4 hb
        refine ⟨p1, ?_, ?_, ?_, fun _ => ?_, fun ho => p5 (m5.trans ho)⟩
        · rw [hlen]; exact p2.trans m2
        · rw [hlen]; exact hpk
        · intro hlt; exfalso; simp only [hlen] at hlt; omega
        · refine q2.imp id fun q => ⟨q.1, ?_⟩
          have := q.2
          unfold ReaderOps.avail at q1
          show R.cursor r.2 = _
          omega
      | true =>
        rw [if_neg (by simp)]
        obtain ⟨q1, q2⟩ := p3 hb
        obtain ⟨i1, i2, i3, i4, i5, i6⟩ := ih (need - len) (most - len) (rec - len) p1 (by omega) (by
          by_cases h0 : R.avail s = 0
          · have := hf.2 h0; omega
          · omega) (by omega)
        generalize gather R fuel (need - len) (most - len) (rec - len) r.2 = q at *
        rw [p2, m2] at i2 i3
        refine ⟨i1, ?_, ?_, ?_, ?_, fun ho => i6 (p5 (m5.trans ho))⟩
        · simp only [List.length_append, hlen]; omega
        · simp only [List.length_append, hlen]
          rw [hpk, ← slice_append, ← i3]
        · intro hlt
          simp only [List.length_append, hlen] at hlt
          exact (ReaderOps.Keeps.trans (.inl m5) q2).trans (i4 (by omega))
        · intro hlt
          simp only [List.length_append, hlen] at hlt
          exact i5 (by omega)

theorem gather_pos (fuel need most rec : Nat) {s : σ} (h : I s) (ha : 0 < R.avail s) (hm : 0 < most) :
    0 < (gather R (fuel + 1) need most rec s).1.length := by
  have hw := L.window _ h
  have hle : min (R.avail s) most ≤ R.avail s := Nat.min_le_left _ _
  have hlen : 0 < (R.peek (min (R.avail s) most) s).length := by
    rw [L.peek h hle, slice_length (by unfold ReaderOps.avail at hle ⊢; omega)]
    omega
  unfold gather
  dsimp only
  split
  · exact hlen
  · split
    · exact hlen
    · exact Nat.lt_of_lt_of_le hlen (List.prefix_append _ _).length_le

theorem collect_spec {s : PS σ} (n rec : Nat) (h : Inv R D I s) (hn : s.avail R < n) (ha : 0 < s.avail R) :
    Inv R D I (s.collect R room n rec).2 ∧ (s.collect R room n rec).2.cursor R = s.cursor R ∧
    ((s.collect R room n rec).1 = true → n ≤ (s.collect R room n rec).2.avail R ∧ R.Keeps s.src (s.collect R room n rec).2.src) ∧
    ((s.collect R room n rec).1 = false → (s.collect R room n rec).2.avail R < n ∧
      (R.ok (s.collect R room n rec).2.src = false ∨ (E ∧ (s.collect R room n rec).2.limit R = D.length))) ∧
    (R.ok s.src = false → R.ok (s.collect R room n rec).2.src = false) := by
  have hw := window L h
  have hws := L.window _ h.src
  have hkl : (s.scratch.drop s.off).length = if s.used then s.avail R else 0 := by
    cases hu : s.used with
    | false => rw [nil_of hu]; simp
    | true => rw [List.length_drop, avail_used hu h]; rfl
  have hkd : s.scratch.drop s.off = slice D (s.cursor R) (s.scratch.drop s.off).length ∧ s.cursor R + (s.scratch.drop s.off).length = R.cursor s.src := by
    cases hu : s.used with
    | false =>
      rw [hkl, hu, cursor_unused hu, nil_of hu]
      exact ⟨by simp [slice], rfl⟩
    | true =>
      rw [hkl, hu]
      refine ⟨?_, cursor_add hu h⟩
      rw [if_pos rfl, ← peek_spec L h (Nat.le_refl _), peek, show s.buf R = s.scratch by unfold buf; rw [hu]; rfl, cursor_used hu, start_used hu,
        avail_used hu h, slice]
      have := h.off
      have := h.len
      rw [show R.cursor s.src - (s.scratch.length - s.off) - (R.cursor s.src - s.scratch.length) = s.off by omega, List.take_of_length_le (by simp)]
  have hkn : (s.scratch.drop s.off).length < n := by
    rw [hkl]; split <;> omega
  unfold collect
  dsimp only
  generalize s.scratch.drop s.off = kept at *
  have hg := gather_spec L (n - kept.length + 1) (n - kept.length) (max (n - kept.length) (room (n - kept.length) (max n rec - kept.length))) (max n rec - kept.length) h.src
    (Nat.le_max_left _ _) ⟨by omega, fun _ => Nat.le_refl _⟩ (by omega)
  have hne : 0 < kept.length + (gather R (n - kept.length + 1) (n - kept.length) (max (n - kept.length) (room (n - kept.length) (max n rec - kept.length))) (max n rec - kept.length) s.src).1.length := by
    cases hu : s.used with
    | true =>
      rw [hu, if_pos rfl] at hkl
      omega
    | false =>
      rw [avail_unused hu] at ha
      exact Nat.lt_of_lt_of_le (gather_pos L _ _ _ _ h.src ha (by omega)) (Nat.le_add_left _ _)
  generalize gather R (n - kept.length + 1) (n - kept.length) (max (n - kept.length) (room (n - kept.length) (max n rec - kept.length))) (max n rec - kept.length) s.src = q at *
  obtain ⟨g1, g2, g3, g4, g5, g6⟩ := hg
  have hdata : kept ++ q.1 = slice D (s.cursor R) (kept.length + q.1.length) := by
    rw [← slice_append, ← hkd.1, hkd.2, ← g3]
  have hu' : (⟨q.2, kept ++ q.1, 0⟩ : PS σ).used = true := by
    unfold used
    cases hk : kept ++ q.1 with
    | nil =>
      have := congrArg List.length hk
      simp only [List.length_append, List.length_nil] at this
      omega
    | cons a l => rfl
  have hi : Inv R D I ⟨q.2, kept ++ q.1, 0⟩ := by
    refine ⟨g1, Nat.zero_le _, ?_, ?_⟩
    · simp only [List.length_append]; omega
    · simp only [List.length_append]
      rw [show R.cursor q.2 - (kept.length + q.1.length) = s.cursor R by omega]
      exact hdata
  have hav : (⟨q.2, kept ++ q.1, 0⟩ : PS σ).avail R = (kept ++ q.1).length := avail_used hu' hi
  rw [limit_used hu', cursor_used hu', hav]
  refine ⟨hi, ?_, ?_, ?_, g6⟩
  · simp only [List.length_append]; omega
  · intro hb
    have hb := of_decide_eq_true hb
    simp only [List.length_append] at hb ⊢
    exact ⟨hb, g4 (by omega)⟩
  · intro hb
    have hb := of_decide_eq_false hb
    simp only [List.length_append] at hb ⊢
    exact ⟨by omega, g5 (by omega)⟩

theorem pullSlow_spec {s : PS σ} (n rec : Nat) (h : Inv R D I s) (hn : s.avail R < n) :
    Inv R D I (s.pullSlow R room n rec).2 ∧ (s.pullSlow R room n rec).2.cursor R = s.cursor R ∧
    ((s.pullSlow R room n rec).1 = true → n ≤ (s.pullSlow R room n rec).2.avail R ∧ R.Keeps s.src (s.pullSlow R room n rec).2.src) ∧
    ((s.pullSlow R room n rec).1 = false → (s.pullSlow R room n rec).2.avail R < n ∧
      (R.ok (s.pullSlow R room n rec).2.src = false ∨ (E ∧ (s.pullSlow R room n rec).2.limit R = D.length))) ∧
    (R.ok s.src = false → R.ok (s.pullSlow R room n rec).2.src = false) := by
  -- pulling behind scratch in a state in which scratch is not used
  have hpull : ∀ (t : PS σ) (m : Nat), Inv R D I t → t.used = false → R.avail t.src = 0 →
      Inv R D I { t with src := (R.pullSlow 1 rec t.src).2 } ∧ ({ t with src := (R.pullSlow 1 rec t.src).2 } : PS σ).cursor R = t.cursor R ∧
      ((R.pullSlow 1 rec t.src).1 = true → 1 ≤ ({ t with src := (R.pullSlow 1 rec t.src).2 } : PS σ).avail R ∧ R.Keeps t.src (R.pullSlow 1 rec t.src).2) ∧
      ((R.pullSlow 1 rec t.src).1 = false → ({ t with src := (R.pullSlow 1 rec t.src).2 } : PS σ).avail R < 1 ∧
        (R.ok (R.pullSlow 1 rec t.src).2 = false ∨ (E ∧ ({ t with src := (R.pullSlow 1 rec t.src).2 } : PS σ).limit R = D.length))) ∧
      (R.ok t.src = false → R.ok (R.pullSlow 1 rec t.src).2 = false) := by
    intro t m ht hu h0
    obtain ⟨p1, p2, p3, p4, p5⟩ := L.pullSlow t.src 1 rec ht.src (by omega)
    have hu' : ({ t with src := (R.pullSlow 1 rec t.src).2 } : PS σ).used = false := hu
    rw [cursor_unused hu', cursor_unused hu, avail_unused hu', limit_unused hu']
    rw [ht.offNil hu]
    exact ⟨inv_nil p1 rfl, p2, p3, p4, p5⟩
  unfold pullSlow
  split
  · rename_i h1
    subst h1
    dsimp only
    have hu' : s.sync.used = false := rfl
    cases hu : s.used with
    | true =>
      have hadd := cursor_add hu h
      have hc : s.sync.cursor R = s.cursor R := by
        rw [cursor_unused hu']
        show R.cursor s.src = _
        omega
      by_cases hav : 0 < R.avail s.sync.src
      · rw [if_pos ⟨rfl, hav⟩]
        refine ⟨sync_inv L h, hc, fun _ => ⟨?_, .inl rfl⟩, by simp, id⟩
        rw [avail_unused hu']; exact hav
      · rw [if_neg (fun h => hav h.2)]
        obtain ⟨p1, p2, p3, p4, p5⟩ := hpull s.sync 0 (sync_inv L h) hu' (by omega)
        exact ⟨p1, p2.trans hc, p3, p4, p5⟩
    | false =>
      rw [if_neg (fun h => Bool.noConfusion h.1)]
      have e := h.offNil hu
      rw [avail_unused hu] at hn
      have hs : s.sync = s := by rw [e]; rfl
      rw [hs]
      exact hpull s 0 h hu (by omega)
  · rename_i h1
    dsimp only
    -- the state after `ScratchEnds()`
    have he : Inv R D I (if s.used then s.ends R else (false, s)).2 ∧ (if s.used then s.ends R else (false, s)).2.cursor R = s.cursor R ∧
        R.ok (if s.used then s.ends R else (false, s)).2.src = R.ok s.src ∧
        ((if s.used then s.ends R else (false, s)).1 = false → (if s.used then s.ends R else (false, s)).2 = s) ∧
        ((if s.used then s.ends R else (false, s)).2.avail R = 0 → (if s.used then s.ends R else (false, s)).2.used = false) := by
      cases hu : s.used with
      | false => exact ⟨h, rfl, rfl, fun _ => rfl, fun _ => hu⟩
      | true =>
        rw [if_pos rfl]
        cases hb : (s.ends R).1 with
        | false =>
          obtain ⟨e1, e2⟩ := ends_false hb
          rw [e1]
          exact ⟨h, rfl, rfl, fun _ => rfl, fun h0 => by omega⟩
        | true =>
          obtain ⟨e1, e2, e3, e4, e5⟩ := ends_true L h hu hb
          refine ⟨e1, ?_, e4, fun hb' => Bool.noConfusion hb', fun _ => used_nil e2⟩
          rw [cursor_unused (used_nil e2)]; exact e3
    generalize (if s.used then s.ends R else (false, s)) = e at *
    obtain ⟨e1, e2, e3, e4, e5⟩ := he
    split
    · rename_i hc
      exact ⟨e1, e2, fun _ => ⟨hc.2, .inl e3⟩, by simp, fun ho => e3.trans ho⟩
    · rename_i hc
      have hlt : e.2.avail R < n := by
        cases hb : e.1 with
        | true => exact Nat.lt_of_not_le fun hle => hc ⟨hb, hle⟩
        | false => rw [e4 hb]; exact hn
      split
      · rename_i h0
        have hu := e5 h0
        rw [avail_unused hu] at h0
        obtain ⟨p1, p2, p3, p4, p5⟩ := hpull e.2 n e1 hu h0
        generalize R.pullSlow 1 rec e.2.src = r at *
        cases hb : r.1 with
        | false =>
          rw [if_pos rfl]
          obtain ⟨q1, q2⟩ := p4 hb
          exact ⟨p1, p2.trans e2, by simp, fun _ => ⟨Nat.lt_of_lt_of_le q1 (by omega), q2⟩, fun ho => p5 (e3.trans ho)⟩
        | true =>
          rw [if_neg (by simp)]
          obtain ⟨q1, q2⟩ := p3 hb
          have q2 : R.Keeps s.src r.2 := ReaderOps.Keeps.trans (.inl e3) q2
          split
          · rename_i hle
            exact ⟨p1, p2.trans e2, fun _ => ⟨hle, q2⟩, by simp, fun ho => p5 (e3.trans ho)⟩
          · rename_i hle
            obtain ⟨c1, c2, c3, c4, c5⟩ := collect_spec (room := room) L n rec p1 (by omega) (by omega)
            exact ⟨c1, c2.trans (p2.trans e2), fun hb' => ⟨(c3 hb').1, q2.trans (c3 hb').2⟩, c4, fun ho => c5 (p5 (e3.trans ho))⟩
      · rename_i h0
        obtain ⟨c1, c2, c3, c4, c5⟩ := collect_spec (room := room) L n rec e1 hlt (by omega)
        exact ⟨c1, c2.trans e2, fun hb' => ⟨(c3 hb').1, ReaderOps.Keeps.trans (.inl e3) (c3 hb').2⟩, c4, fun ho => c5 (e3.trans ho)⟩


/-! The other functions: a part may be in scratch, the rest is handled behind scratch. -/

omit L in
/-- Reading `a` bytes and then `m` bytes behind scratch. -/
theorem readPost_behind {s t : PS σ} {a m n : Nat} {r : Bool × Bytes × σ} {pre : Bytes} (hu : t.used = false) (hc : R.cursor t.src = s.cursor R + a)
    (ho : R.ok t.src = R.ok s.src) (hn : n = a + m) (hp : pre = slice D (s.cursor R) a) (H : R.ReadPost D E m t.src r) :
    (ops R room).ReadPost D E n s (r.1, pre ++ r.2.1, { t with src := r.2.2 }) := by
  obtain ⟨h1, h2, h3, h4⟩ := H
  have hu' : ({ t with src := r.2.2 } : PS σ).used = false := hu
  have e : (ops R room).cursor ({ t with src := r.2.2 } : PS σ) = R.cursor r.2.2 := cursor_unused hu'
  have e' : (ops R room).cursor s = s.cursor R := rfl
  unfold ReaderOps.ReadPost
  rw [e, e']
  refine ⟨by omega, ?_, fun hb => ⟨by have := (h3 hb).1; omega, ReaderOps.Keeps.trans (.inl ho) (h3 hb).2⟩, fun hb => ⟨by have := (h4 hb).1; omega, (h4 hb).2⟩⟩
  show pre ++ r.2.1 = _
  rw [hp, h2, hc, slice_append]
  congr 1; omega

/-- Reading available data. -/
theorem readPost_fast {s t : PS σ} {a m n : Nat} {pre : Bytes} (ht : Inv R D I t) (hm : m ≤ t.avail R) (hc : t.cursor R = s.cursor R + a)
    (ho : R.ok t.src = R.ok s.src) (hn : n = a + m) (hp : pre = slice D (s.cursor R) a) :
    Inv R D I (t.move R m) ∧ (ops R room).ReadPost D E n s (true, pre ++ t.peek R m, t.move R m) ∧ (R.ok s.src = false → R.ok (t.move R m).src = false) := by
  obtain ⟨m1, m2, m3, m4, m5⟩ := move_spec L ht hm
  have e : (ops R room).cursor (t.move R m) = (t.move R m).cursor R := rfl
  have e' : (ops R room).cursor s = s.cursor R := rfl
  refine ⟨m1, ?_, fun h => m5.trans (ho.trans h)⟩
  unfold ReaderOps.ReadPost
  rw [e, e', m2, hc]
  refine ⟨by omega, ?_, fun _ => ⟨by omega, .inl (m5.trans ho)⟩, by simp⟩
  show pre ++ t.peek R m = _
  rw [hp, peek_spec L ht hm, hc, slice_append]
  congr 1; omega

/-- The state in which scratch is not used, with the data of scratch either read or given back. -/
theorem drained {s : PS σ} (h : Inv R D I s) (hu : s.used = true) :
    Inv R D I (if (s.ends R).1 then (s.ends R).2 else s.sync) ∧ (if (s.ends R).1 then (s.ends R).2 else s.sync).used = false ∧
    R.cursor (if (s.ends R).1 then (s.ends R).2 else s.sync).src = s.cursor R + (if (s.ends R).1 then 0 else s.avail R) ∧
    R.ok (if (s.ends R).1 then (s.ends R).2 else s.sync).src = R.ok s.src ∧
    ((s.ends R).1 = true → s.avail R ≤ (if (s.ends R).1 then (s.ends R).2 else s.sync).avail R) := by
  cases hb : (s.ends R).1 with
  | true =>
    obtain ⟨e1, e2, e3, e4, e5⟩ := ends_true L h hu hb
    exact ⟨e1, used_nil e2, e3, e4, fun _ => by rw [if_pos rfl, avail_unused (used_nil e2)]; exact e5⟩
  | false =>
    exact ⟨sync_inv L h, rfl, (sync_spec L h hu).2, rfl, fun h => Bool.noConfusion h⟩

theorem readSlow_spec {s : PS σ} (k : Kind) (n : Nat) (h : Inv R D I s) (hn : 0 < n) (hp : n ≤ s.avail R → kMaxBytesToCopy < n ∧ k = .blocks) :
    Inv R D I (s.readSlow R k n).2.2 ∧ (ops R room).ReadPost D E n s (s.readSlow R k n) ∧ (R.ok s.src = false → R.ok (s.readSlow R k n).2.2.src = false) := by
  unfold readSlow
  cases hu : s.used with
  | false =>
    rw [if_neg (by simp)]
    rw [avail_unused hu] at hp
    obtain ⟨p1, p2, p3⟩ := L.readSlow s.src k n h.src hn hp
    refine ⟨?_, ?_, p3⟩
    · rw [h.offNil hu]; exact inv_nil p1 rfl
    · have := readPost_behind (room := room) (s := s) (t := s) (a := 0) (n := n) (pre := []) hu (cursor_unused hu).symm rfl (by omega) (slice_zero _ _).symm p2
      exact this
  | true =>
    rw [if_pos rfl]
    dsimp only
    split
    · rename_i hc
      exact readPost_fast (room := room) (pre := []) (a := 0) L h hc.2.2 rfl rfl (by omega) (slice_zero _ _).symm
    · rename_i hc
      obtain ⟨d1, d2, d3, d4, d5⟩ := drained L h hu
      have hpre : s.peek R (if (s.ends R).1 then 0 else s.avail R) = slice D (s.cursor R) (if (s.ends R).1 then 0 else s.avail R) :=
        peek_spec L h (by split <;> omega)
      have hlt : (s.ends R).1 = false → s.avail R < n := by
        intro hb
        refine Nat.lt_of_not_le fun hle => ?_
        cases k with
        | blocks => exact hc ⟨hb, rfl, hle⟩
        | chars => cases (hp hle).2
      have hm : n = (if (s.ends R).1 then 0 else s.avail R) + (n - (if (s.ends R).1 then 0 else s.avail R)) ∧ 0 < n - (if (s.ends R).1 then 0 else s.avail R) := by
        cases hb : (s.ends R).1 with
        | true => simp; exact hn
        | false => have := hlt hb; simp; omega
      generalize (if (s.ends R).1 then (s.ends R).2 else s.sync) = t at *
      generalize (if (s.ends R).1 then 0 else s.avail R) = a at *
      generalize n - a = m at *
      split
      · rename_i hf
        exact readPost_fast (room := room) L d1 hf.1 (by rw [cursor_unused d2]; exact d3) d4 hm.1 hpre
      · rename_i hf
        obtain ⟨p1, p2, p3⟩ := L.readSlow t.src k m d1.src hm.2 (by
          intro hle
          rw [avail_unused d2] at hf
          cases k with
          | chars => exact (hf ⟨hle, .inl rfl⟩).elim
          | blocks => exact ⟨Nat.lt_of_not_le fun h => hf ⟨hle, .inr h⟩, rfl⟩)
        refine ⟨?_, readPost_behind (room := room) d2 d3 d4 hm.1 hpre p2, fun ho => p3 (d4.trans ho)⟩
        rw [d1.offNil d2]; exact inv_nil p1 rfl

theorem readAvail_spec {s : PS σ} (n : Nat) (h : Inv R D I s) (hn : kMaxBytesToCopy < n) (ha : n ≤ s.avail R) (hb : (s.readSlow R .blocks n).1 = false) :
    (s.readSlow R .blocks n).2.2.cursor R = s.cursor R := by
  unfold readSlow at hb ⊢
  cases hu : s.used with
  | false =>
    rw [hu] at hb
    rw [if_neg (by simp)] at hb ⊢
    rw [avail_unused hu] at ha
    have hu' : ({ s with src := (R.readSlow .blocks n s.src).2.2 } : PS σ).used = false := hu
    show cursor R { s with src := (R.readSlow .blocks n s.src).2.2 } = _
    rw [cursor_unused hu', cursor_unused hu]
    exact L.readAvail s.src n h.src hn ha hb
  | true =>
    rw [hu] at hb
    rw [if_pos rfl] at hb ⊢
    dsimp only at hb ⊢
    cases he : (s.ends R).1 with
    | false =>
      rw [he, if_pos ⟨rfl, rfl, ha⟩] at hb
      cases hb
    | true =>
      obtain ⟨e1, e2, e3, e4, e5⟩ := ends_true L h hu he
      rw [he, if_neg (fun h => Bool.noConfusion h.1)] at hb
      rw [if_neg (fun h => Bool.noConfusion h.1)]
      simp only [if_true, Nat.sub_zero] at hb ⊢
      have hnf : ¬ (n ≤ (s.ends R).2.avail R ∧ (Kind.blocks = Kind.chars ∨ n ≤ kMaxBytesToCopy)) := by
        rintro ⟨_, h | h⟩
        · cases h
        · omega
      rw [if_neg hnf] at hb ⊢
      have hu' : ({ (s.ends R).2 with src := (R.readSlow .blocks n (s.ends R).2.src).2.2 } : PS σ).used = false := used_nil e2
      rw [cursor_unused hu', ← e3]
      exact L.readAvail _ n e1.src hn (by omega) hb

omit L in
theorem copyPost_behind {s t : PS σ} {a m n : Nat} {d d' : Dest} {r : Bool × Dest × σ} (hu : t.used = false) (hc : R.cursor t.src = s.cursor R + a)
    (ho : R.ok t.src = R.ok s.src) (hn : n = a + m) (hd : d'.written = d.written ++ slice D (s.cursor R) a) (hdo : d'.ok = true → d.ok = true)
    (H : R.CopyPost D E m d' t.src r) : (ops R room).CopyPost D E n d s (r.1, r.2.1, { t with src := r.2.2 }) := by
  obtain ⟨h1, h2, ⟨k, h3, h4, h5⟩, h6, h7, h8⟩ := H
  have hu' : ({ t with src := r.2.2 } : PS σ).used = false := hu
  have e : (ops R room).cursor ({ t with src := r.2.2 } : PS σ) = R.cursor r.2.2 := cursor_unused hu'
  have e' : (ops R room).cursor s = s.cursor R := rfl
  unfold ReaderOps.CopyPost
  rw [e, e']
  refine ⟨by omega, by omega, ⟨a + k, by omega, ?_, fun hk => by have := h5 hk; omega⟩,
    fun hb => ⟨by have := (h6 hb).1; omega, ReaderOps.Keeps.trans (.inl ho) (h6 hb).2.1, (h6 hb).2.2⟩,
    fun hb hk => ⟨by have := (h7 hb hk).1; omega, (h7 hb hk).2⟩, fun hk => hdo (h8 hk)⟩
  show r.2.1.written = _
  rw [h4, hd, hc, List.append_assoc, slice_append]

theorem copyPost_fast {s t : PS σ} {a m n : Nat} {d d' : Dest} (ht : Inv R D I t) (hm : m ≤ t.avail R) (hc : t.cursor R = s.cursor R + a)
    (ho : R.ok t.src = R.ok s.src) (hn : n = a + m) (hd : d'.written = d.written ++ slice D (s.cursor R) a) (hdo : d'.ok = true → d.ok = true) :
    Inv R D I (t.move R m) ∧ (ops R room).CopyPost D E n d s ((d'.write (t.peek R m)).1, (d'.write (t.peek R m)).2, t.move R m) ∧
    (R.ok s.src = false → R.ok (t.move R m).src = false) := by
  obtain ⟨m1, m2, m3, m4, m5⟩ := move_spec L ht hm
  have hw := window L ht
  have hl : (t.peek R m).length = m := by
    rw [peek_spec L ht hm]; exact slice_length (by unfold avail at hm; omega)
  obtain ⟨⟨k, hk, hwr, hko⟩, h1, h2, h3⟩ := d'.write_spec (t.peek R m)
  have e : (ops R room).cursor (t.move R m) = (t.move R m).cursor R := rfl
  have e' : (ops R room).cursor s = s.cursor R := rfl
  refine ⟨m1, ?_, fun h => m5.trans (ho.trans h)⟩
  unfold ReaderOps.CopyPost
  rw [e, e', m2, hc]
  refine ⟨by omega, by omega, ⟨a + k, by omega, ?_, fun hk' => by have := hko hk'; omega⟩, fun hb => ⟨by omega, .inl (m5.trans ho), h1 hb⟩,
    fun hb hk' => (Bool.false_ne_true ((h2 hb).symm.trans hk')).elim, fun hk' => hdo (h3 hk')⟩
  show (d'.write (t.peek R m)).2.written = _
  rw [hwr, hd, peek_spec L ht hm, hc, List.append_assoc, ← slice_append]
  congr 2
  simp only [slice, List.take_take]
  rw [Nat.min_eq_left (by omega)]

theorem copySlow_spec {s : PS σ} (n : Nat) (d : Dest) (h : Inv R D I s) (hn : 0 < n) (hp : n ≤ s.avail R → kMaxBytesToCopy < n) :
    Inv R D I (s.copySlow R n d).2.2 ∧ (ops R room).CopyPost D E n d s (s.copySlow R n d) ∧ (R.ok s.src = false → R.ok (s.copySlow R n d).2.2.src = false) := by
  unfold copySlow
  cases hu : s.used with
  | false =>
    rw [if_neg (by simp)]
    rw [avail_unused hu] at hp
    obtain ⟨p1, p2, p3⟩ := L.copySlow s.src n d h.src hn hp
    refine ⟨?_, ?_, p3⟩
    · rw [h.offNil hu]; exact inv_nil p1 rfl
    · exact copyPost_behind (room := room) (s := s) (t := s) (a := 0) (n := n) (d := d) (d' := d) hu (cursor_unused hu).symm rfl (by omega)
        (by rw [slice_zero, List.append_nil]) id p2
  | true =>
    rw [if_pos rfl]
    dsimp only
    split
    · rename_i hc
      exact copyPost_fast (room := room) (a := 0) (d := d) (d' := d) L h hc.2 rfl rfl (by omega) (by rw [slice_zero, List.append_nil]) id
    · rename_i hc
      obtain ⟨d1, d2, d3, d4, d5⟩ := drained L h hu
      have hlt : (s.ends R).1 = false → s.avail R < n := fun hb => Nat.lt_of_not_le fun hle => hc ⟨hb, hle⟩
      have hw := window L h
      -- what was written from scratch
      obtain ⟨a, ha⟩ : ∃ a, a = (if (s.ends R).1 then 0 else s.avail R) := ⟨_, rfl⟩
      have hwr : ((if (s.ends R).1 then (true, d) else d.write (s.peek R (s.avail R))).1 = true →
            (if (s.ends R).1 then (true, d) else d.write (s.peek R (s.avail R))).2.written = d.written ++ slice D (s.cursor R) a) ∧
          ((if (s.ends R).1 then (true, d) else d.write (s.peek R (s.avail R))).1 = false →
            (if (s.ends R).1 then (true, d) else d.write (s.peek R (s.avail R))).2.ok = false ∧
            ∃ k, k ≤ a ∧ (if (s.ends R).1 then (true, d) else d.write (s.peek R (s.avail R))).2.written = d.written ++ slice D (s.cursor R) k) ∧
          ((if (s.ends R).1 then (true, d) else d.write (s.peek R (s.avail R))).2.ok = true → d.ok = true) := by
        rw [ha]
        cases hb : (s.ends R).1 with
        | true => exact ⟨fun _ => by simp [slice], fun h => Bool.noConfusion h, id⟩
        | false =>
          have hpk := peek_spec L h (Nat.le_refl (s.avail R))
          have hl : (s.peek R (s.avail R)).length = s.avail R := by rw [hpk]; exact slice_length (by unfold avail; omega)
          obtain ⟨⟨k, hk, hwr, hko⟩, h1, h2, h3⟩ := d.write_spec (s.peek R (s.avail R))
          simp only [Bool.false_eq_true, if_false]
          refine ⟨fun hb' => ?_, fun hb' => ⟨h2 hb', k, by omega, ?_⟩, h3⟩
          · rw [hwr, hko (h1 hb'), List.take_of_length_le (Nat.le_refl _), hpk]
          · rw [hwr, hpk]
            congr 1
            simp only [slice, List.take_take]
            rw [Nat.min_eq_left (by omega)]
      have hm : (if (s.ends R).1 then n else n - s.avail R) = n - a ∧ n = a + (n - a) ∧ 0 < n - a := by
        rw [ha]
        cases hb : (s.ends R).1 with
        | true => simp; exact hn
        | false => have := hlt hb; simp; omega
      rw [← ha] at d3
      rw [hm.1]
      replace hm := hm.2
      generalize (if (s.ends R).1 then (true, d) else d.write (s.peek R (s.avail R))) = w at *
      generalize (if (s.ends R).1 then (s.ends R).2 else s.sync) = t at *
      generalize n - a = m at *
      obtain ⟨w1, w2, w3⟩ := hwr
      cases hb : w.1 with
      | false =>
        rw [if_pos rfl]
        obtain ⟨w4, k, w5, w6⟩ := w2 hb
        refine ⟨d1, ?_, fun ho => d4.trans ho⟩
        have e : (ops R room).cursor t = R.cursor t.src := cursor_unused d2
        have e' : (ops R room).cursor s = s.cursor R := rfl
        unfold ReaderOps.CopyPost
        rw [e, e']
        exact ⟨by omega, by omega, ⟨k, by omega, w6, fun hk => (Bool.false_ne_true (w4.symm.trans hk)).elim⟩, nofun,
          fun _ hk => (Bool.false_ne_true (w4.symm.trans hk)).elim, w3⟩
      | true =>
        rw [if_neg (by simp)]
        split
        · rename_i hf
          exact copyPost_fast (room := room) L d1 hf.1 (by rw [cursor_unused d2]; exact d3) d4 hm.1 (w1 hb) w3
        · rename_i hf
          rw [avail_unused d2] at hf
          obtain ⟨p1, p2, p3⟩ := L.copySlow t.src m w.2 d1.src hm.2 (fun hle => Nat.lt_of_not_le fun h => hf ⟨hle, h⟩)
          refine ⟨?_, copyPost_behind (room := room) d2 d3 d4 hm.1 (w1 hb) w3 p2, fun ho => p3 (d4.trans ho)⟩
          rw [d1.offNil d2]; exact inv_nil p1 rfl

/-- Prepending `m` bytes, and then the data of scratch before them. -/
theorem copyBackPost_of {s t : PS σ} {a m n : Nat} {d d' : Dest} {b : Bool} {pre : Bytes} (hc1 : s.cursor R + a ≤ t.cursor R)
    (hn : n = a + m) (hp : pre = slice D (s.cursor R) a) (hle : t.cursor R ≤ s.cursor R + n) (hdo : d'.ok = true → d.ok = true)
    (ht : b = true → t.cursor R = s.cursor R + n ∧ R.Keeps s.src t.src ∧ d'.written = slice D (s.cursor R + a) m ++ d.written)
    (hf : b = false → d'.ok = true → d'.written = d.written ∧ t.cursor R < s.cursor R + n ∧ (R.ok t.src = false ∨ (E ∧ t.cursor R = D.length))) :
    (ops R room).CopyBackPost D E n d s (if b = false then (false, d', t) else ((d'.prepend pre).1, (d'.prepend pre).2, t)) := by
  have _ := L
  have e : (ops R room).cursor t = t.cursor R := rfl
  have e' : (ops R room).cursor s = s.cursor R := rfl
  cases b with
  | false =>
    rw [if_pos rfl]
    unfold ReaderOps.CopyBackPost
    rw [e, e']
    exact ⟨by omega, hle, nofun, fun _ hk => hf rfl hk, hdo⟩
  | true =>
    rw [if_neg (by simp)]
    obtain ⟨h1, h2, h3⟩ := d'.prepend_spec pre
    obtain ⟨t1, t2, t3⟩ := ht rfl
    unfold ReaderOps.CopyBackPost
    rw [e, e']
    refine ⟨by omega, hle, fun hb => ⟨t1, t2, (h1 hb).1, ?_⟩, fun hb hk => (Bool.false_ne_true ((h2 hb).symm.trans hk)).elim, fun hk => hdo (h3 hk)⟩
    show (d'.prepend pre).2.written = _
    rw [(h1 hb).2, t3, hp, hn, ← slice_append, List.append_assoc]

theorem copyBackSlow_spec {s : PS σ} (n : Nat) (d : Dest) (h : Inv R D I s) (hn : 0 < n) (hp : n ≤ s.avail R → kMaxBytesToCopy < n) :
    Inv R D I (s.copyBackSlow R n d).2.2 ∧ (ops R room).CopyBackPost D E n d s (s.copyBackSlow R n d) ∧
    (R.ok s.src = false → R.ok (s.copyBackSlow R n d).2.2.src = false) := by
  unfold copyBackSlow
  cases hu : s.used with
  | false =>
    rw [if_neg (by simp)]
    rw [avail_unused hu] at hp
    obtain ⟨p1, p2, p3⟩ := L.copyBackSlow s.src n d h.src hn hp
    refine ⟨?_, ?_, p3⟩
    · rw [h.offNil hu]; exact inv_nil p1 rfl
    · have hu' : ({ s with src := (R.copyBackSlow n d s.src).2.2 } : PS σ).used = false := hu
      have e : (ops R room).cursor ({ s with src := (R.copyBackSlow n d s.src).2.2 } : PS σ) = R.cursor (R.copyBackSlow n d s.src).2.2 := cursor_unused hu'
      have e' : (ops R room).cursor s = R.cursor s.src := cursor_unused hu
      unfold ReaderOps.CopyBackPost
      rw [e, e']
      exact p2
  | true =>
    rw [if_pos rfl]
    dsimp only
    split
    · rename_i hc
      obtain ⟨m1, m2, m3, m4, m5⟩ := move_spec L h hc.2
      obtain ⟨h1, h2, h3⟩ := d.prepend_spec (s.peek R n)
      refine ⟨m1, ?_, fun ho => m5.trans ho⟩
      have e : (ops R room).cursor (s.move R n) = (s.move R n).cursor R := rfl
      have e' : (ops R room).cursor s = s.cursor R := rfl
      unfold ReaderOps.CopyBackPost
      rw [e, e', m2]
      refine ⟨by omega, by omega, fun hb => ⟨rfl, .inl m5, (h1 hb).1, ?_⟩, fun hb hk => (Bool.false_ne_true ((h2 hb).symm.trans hk)).elim, h3⟩
      rw [← peek_spec L h hc.2]
      exact (h1 hb).2
    · rename_i hc
      obtain ⟨d1, d2, d3, d4, d5⟩ := drained L h hu
      have hlt : (s.ends R).1 = false → s.avail R < n := fun hb => Nat.lt_of_not_le fun hle => hc ⟨hb, hle⟩
      obtain ⟨a, ha⟩ : ∃ a, a = (if (s.ends R).1 then 0 else s.avail R) := ⟨_, rfl⟩
      have hpre : (if (s.ends R).1 then [] else s.peek R (s.avail R)) = slice D (s.cursor R) a := by
        rw [ha]
        cases hb : (s.ends R).1 with
        | true => simp [slice]
        | false => exact peek_spec L h (Nat.le_refl _)
      have hm : (if (s.ends R).1 then n else n - s.avail R) = n - a ∧ n = a + (n - a) ∧ 0 < n - a := by
        rw [ha]
        cases hb : (s.ends R).1 with
        | true => simp; exact hn
        | false => have := hlt hb; simp; omega
      rw [← ha] at d3
      rw [hm.1]
      replace hm := hm.2
      generalize (if (s.ends R).1 then [] else s.peek R (s.avail R)) = pre at *
      generalize (if (s.ends R).1 then (s.ends R).2 else s.sync) = t at *
      generalize n - a = m at *
      have hct : t.cursor R = s.cursor R + a := by rw [cursor_unused d2]; exact d3
      split
      · rename_i hf
        obtain ⟨m1, m2, m3, m4, m5⟩ := move_spec L d1 hf.1
        obtain ⟨h1, h2, h3⟩ := d.prepend_spec (t.peek R m)
        have key := copyBackPost_of (room := room) (E := E) (s := s) (t := t.move R m) (d := d) (d' := (d.prepend (t.peek R m)).2) (b := (d.prepend (t.peek R m)).1) (pre := pre)
          (a := a) (m := m) L (by omega) hm.1 hpre (by omega) h3
          (fun hb => ⟨by omega, .inl (m5.trans d4), by rw [(h1 hb).2, peek_spec L d1 hf.1, hct]⟩)
          (fun hb hk => (Bool.false_ne_true ((h2 hb).symm.trans hk)).elim)
        split
        · rename_i hb
          rw [if_pos hb] at key
          exact ⟨m1, key, fun ho => m5.trans (d4.trans ho)⟩
        · rename_i hb
          rw [if_neg hb] at key
          exact ⟨m1, key, fun ho => m5.trans (d4.trans ho)⟩
      · rename_i hf
        rw [avail_unused d2] at hf
        obtain ⟨p1, ⟨p2, p3, p4, p5, p6⟩, p7⟩ := L.copyBackSlow t.src m d d1.src hm.2 (fun hle => Nat.lt_of_not_le fun h => hf ⟨hle, h⟩)
        generalize R.copyBackSlow m d t.src = r at *
        have hi : Inv R D I { t with src := r.2.2 } := by rw [d1.offNil d2]; exact inv_nil p1 rfl
        have hu' : ({ t with src := r.2.2 } : PS σ).used = false := d2
        have hcr := cursor_unused (R := R) hu'
        simp only at hcr
        have key := copyBackPost_of (room := room) (E := E) (s := s) (t := { t with src := r.2.2 }) (d := d) (d' := r.2.1) (b := r.1) (pre := pre)
          (a := a) (m := m) L (by omega) hm.1 hpre (by omega) p6
          (fun hb => ⟨by have := (p4 hb).1; omega, ReaderOps.Keeps.trans (.inl d4) (p4 hb).2.1, by rw [(p4 hb).2.2.2, d3]⟩)
          (fun hb hk => by
            obtain ⟨q1, q2, q3⟩ := p5 hb hk
            exact ⟨q1, by omega, by rw [hcr]; exact q3⟩)
        split
        · rename_i hb
          rw [if_pos hb] at key
          exact ⟨hi, key, fun ho => p7 (d4.trans ho)⟩
        · rename_i hb
          rw [if_neg hb] at key
          exact ⟨hi, key, fun ho => p7 (d4.trans ho)⟩

/-- With no data available, stopping to use scratch keeps the position. -/
theorem sync_zero {s : PS σ} (h : Inv R D I s) (h0 : s.avail R = 0) : R.cursor s.sync.src = s.cursor R := by
  cases hu : s.used with
  | false => rw [cursor_unused hu]; rfl
  | true => rw [(sync_spec L h hu).2, h0]; rfl

theorem readSomeSlow_spec {s : PS σ} (n : Nat) (h : Inv R D I s) (hn : 0 < n) (h0 : s.avail R = 0) :
    Inv R D I (s.readSomeSlow R n).2.2 ∧ (ops R room).SomePost D E n s (s.readSomeSlow R n) ∧ (R.ok s.src = false → R.ok (s.readSomeSlow R n).2.2.src = false) := by
  have hc := sync_zero L h h0
  have tr : ∀ r : Bool × Bytes × σ, R.SomePost D E n s.sync.src r → (ops R room).SomePost D E n s (r.1, r.2.1, { s.sync with src := r.2.2 }) := by
    intro r H
    have e : (ops R room).cursor ({ s.sync with src := r.2.2 } : PS σ) = R.cursor r.2.2 := cursor_unused (s := ⟨r.2.2, [], 0⟩) rfl
    have e' : (ops R room).cursor s = s.cursor R := rfl
    unfold ReaderOps.SomePost at H ⊢
    rw [e, e', ← hc]
    exact H
  unfold readSomeSlow
  dsimp only
  split
  · rename_i hp
    have hle : min n (R.avail s.sync.src) ≤ R.avail s.sync.src := Nat.min_le_right _ _
    obtain ⟨m1, m2, m3, m4, m5⟩ := L.move (sync_inv L h).src hle
    refine ⟨inv_nil m1 rfl, tr (true, _, _) ?_, fun ho => m5.trans ho⟩
    exact L.somePost_of_read (sync_inv L h).src (L.readPost_fast (sync_inv L h).src hle) (Nat.min_le_left _ _) hle (fun _ => by omega) (by simp)
  · rename_i hp
    have ha : R.avail s.sync.src = 0 := by
      cases hu : s.used with
      | false => rw [avail_unused hu] at h0; exact h0
      | true => exact Nat.eq_zero_of_not_pos fun h => hp ⟨hu, h⟩
    obtain ⟨p1, p2, p3⟩ := L.readSomeSlow s.sync.src n (sync_inv L h).src hn ha
    exact ⟨inv_nil p1 rfl, tr _ p2, p3⟩

theorem copySomeSlow_spec {s : PS σ} (n : Nat) (d : Dest) (h : Inv R D I s) (hn : 0 < n) (h0 : s.avail R = 0) :
    Inv R D I (s.copySomeSlow R n d).2.2 ∧ (ops R room).CopySomePost D E n d s (s.copySomeSlow R n d) ∧
    (R.ok s.src = false → R.ok (s.copySomeSlow R n d).2.2.src = false) := by
  -- `ScratchEnds()` is true
  have he : (if s.used then s.ends R else (true, s)).1 = true ∧ Inv R D I (if s.used then s.ends R else (true, s)).2 ∧
      (if s.used then s.ends R else (true, s)).2.used = false ∧ R.cursor (if s.used then s.ends R else (true, s)).2.src = s.cursor R ∧
      R.ok (if s.used then s.ends R else (true, s)).2.src = R.ok s.src ∧
      (s.used = false → (if s.used then s.ends R else (true, s)).2.avail R = 0) := by
    cases hu : s.used with
    | false => exact ⟨rfl, h, hu, (cursor_unused hu).symm, rfl, fun _ => h0⟩
    | true =>
      rw [if_pos rfl]
      cases hb : (s.ends R).1 with
      | false => have := (ends_false hb).2; omega
      | true =>
        obtain ⟨e1, e2, e3, e4, e5⟩ := ends_true L h hu hb
        exact ⟨rfl, e1, used_nil e2, e3, e4, nofun⟩
  unfold copySomeSlow
  dsimp only
  generalize (if s.used then s.ends R else (true, s)) = e at *
  obtain ⟨e1, e2, e3, e4, e5, e6⟩ := he
  have tr : ∀ r : Bool × Dest × σ, R.CopySomePost D E n d e.2.src r → (ops R room).CopySomePost D E n d s (r.1, r.2.1, { e.2 with src := r.2.2 }) := by
    intro r H
    have hu' : ({ e.2 with src := r.2.2 } : PS σ).used = false := e3
    have c : (ops R room).cursor ({ e.2 with src := r.2.2 } : PS σ) = R.cursor r.2.2 := cursor_unused hu'
    have c' : (ops R room).cursor s = s.cursor R := rfl
    obtain ⟨h1, h2, h3, h4, h5, h6⟩ := H
    unfold ReaderOps.CopySomePost
    rw [c, c', ← e4]
    exact ⟨h1, h2, h3, fun hb => ⟨(h4 hb).1, ReaderOps.Keeps.trans (.inl e5) (h4 hb).2.1, (h4 hb).2.2⟩, h5, h6⟩
  have inv' : ∀ x : σ, I x → Inv R D I { e.2 with src := x } := by
    intro x hx
    rw [e2.offNil e3]; exact inv_nil hx rfl
  rw [if_neg (by rw [e1]; simp)]
  have hav := avail_unused (R := R) e3
  split
  · rename_i hp
    rw [hav] at hp ⊢
    have hle : min n (R.avail e.2.src) ≤ R.avail e.2.src := Nat.min_le_right _ _
    split
    · have hmv : e.2.move R (min n (R.avail e.2.src)) = { e.2 with src := R.move (min n (R.avail e.2.src)) e.2.src } := by
        unfold move setCursor
        rw [e3, cursor_unused e3]; rfl
      have hpk : e.2.peek R (min n (R.avail e.2.src)) = R.peek (min n (R.avail e.2.src)) e.2.src := by
        rw [peek_spec L e2 (by rw [hav]; exact hle), L.peek e2.src hle, cursor_unused e3]
      rw [hmv, hpk]
      obtain ⟨m1, m2, m3, m4, m5⟩ := L.move e2.src hle
      refine ⟨inv' _ m1, tr (_, _, _) ?_, fun ho => m5.trans (e5.trans ho)⟩
      exact L.copySome_of_copy e2.src (L.copyPost_fast d e2.src hle) (Nat.min_le_left _ _) hle (fun _ => by omega)
    · rename_i hk
      obtain ⟨p1, p2, p3⟩ := L.copySlow e.2.src (min n (R.avail e.2.src)) d e2.src (by omega) (fun _ => by omega)
      exact ⟨inv' _ p1, tr _ (L.copySome_of_copy e2.src p2 (Nat.min_le_left _ _) hle (fun _ => by omega)), fun ho => p3 (e5.trans ho)⟩
  · rename_i hp
    have ha : R.avail e.2.src = 0 := by
      rw [← hav]
      cases hu : s.used with
      | false => exact e6 hu
      | true => exact Nat.eq_zero_of_not_pos fun h => hp ⟨hu, h⟩
    obtain ⟨p1, p2, p3⟩ := L.copySomeSlow e.2.src n d e2.src hn ha
    exact ⟨inv' _ p1, tr _ p2, fun ho => p3 (e5.trans ho)⟩

theorem readHintSlow_spec {s : PS σ} (n rec : Nat) (h : Inv R D I s) (hn : s.avail R < n) :
    Inv R D I (s.readHintSlow R n rec) ∧ (s.readHintSlow R n rec).cursor R = s.cursor R ∧ (R.ok s.src = false → R.ok (s.readHintSlow R n rec).src = false) := by
  unfold readHintSlow
  cases hu : s.used with
  | false =>
    rw [if_neg (by simp)]
    rw [avail_unused hu] at hn
    obtain ⟨p1, p2, p3⟩ := L.readHintSlow s.src n rec h.src hn
    have hu' : ({ s with src := R.readHintSlow n rec s.src } : PS σ).used = false := hu
    refine ⟨?_, by rw [cursor_unused hu', cursor_unused hu]; exact p2, p3⟩
    rw [h.offNil hu]; exact inv_nil p1 rfl
  | true =>
    rw [if_pos rfl]
    dsimp only
    cases hb : (s.ends R).1 with
    | false =>
      rw [if_pos rfl]
      split
      · rename_i hlt
        obtain ⟨p1, p2, p3⟩ := L.readHintSlow s.src (n - s.avail R) (max rec n - s.avail R) h.src hlt
        have hu' : ({ s with src := R.readHintSlow (n - s.avail R) (max rec n - s.avail R) s.src } : PS σ).used = true := hu
        refine ⟨⟨p1, h.off, ?_, ?_⟩, ?_, p3⟩
        · show s.scratch.length ≤ R.cursor _
          rw [p2]; exact h.len
        · show s.scratch = slice D (R.cursor _ - s.scratch.length) s.scratch.length
          rw [p2]; exact h.data
        · rw [cursor_used hu', cursor_used hu]
          show R.cursor (R.readHintSlow _ _ s.src) - (s.scratch.length - s.off) = _
          rw [p2]
      · exact ⟨h, rfl, id⟩
    | true =>
      obtain ⟨e1, e2, e3, e4, e5⟩ := ends_true L h hu hb
      have hu1 := used_nil e2
      rw [if_neg (by simp)]
      split
      · exact ⟨e1, by rw [cursor_unused hu1]; exact e3, fun ho => e4.trans ho⟩
      · rename_i hle
        rw [avail_unused hu1] at hle
        obtain ⟨p1, p2, p3⟩ := L.readHintSlow (s.ends R).2.src n rec e1.src (by omega)
        have hu' : ({ (s.ends R).2 with src := R.readHintSlow n rec (s.ends R).2.src } : PS σ).used = false := hu1
        refine ⟨?_, by rw [cursor_unused hu']; exact p2.trans e3, fun ho => p3 (e4.trans ho)⟩
        rw [e1.offNil hu1]; exact inv_nil p1 rfl

theorem seekSlow_spec {s : PS σ} (p : Nat) (h : Inv R D I s) (hp : p < s.start R ∨ s.limit R < p) :
    Inv R D I (s.seekSlow R p).2 ∧ (ops R room).SeekPost D E p s (s.seekSlow R p) ∧ (R.ok s.src = false → R.ok (s.seekSlow R p).2.src = false) := by
  have hw := window L h
  have hws := L.window _ h.src
  have hc : ∀ x : σ, (ops R room).cursor ({ s.sync with src := x } : PS σ) = R.cursor x := fun x => cursor_unused (s := ⟨x, [], 0⟩) rfl
  have hcs : (ops R room).cursor s = s.cursor R := rfl
  have hge : s.cursor R ≤ R.cursor s.src := by
    cases hu : s.used with
    | false => rw [cursor_unused hu]; exact Nat.le_refl _
    | true => have := cursor_add hu h; omega
  have hlim : s.used = true → s.limit R = R.cursor s.src := limit_used
  unfold seekSlow
  dsimp only
  split
  · rename_i hq
    obtain ⟨m1, m2, m3, m4, m5⟩ := L.setCursor s.sync.src p h.src hq.2.1 hq.2.2
    refine ⟨inv_nil m1 rfl, ?_, fun ho => m5.trans ho⟩
    unfold ReaderOps.SeekPost
    rw [hc, hcs, m2]
    exact ⟨.inl (Nat.le_max_left _ _), id, fun _ => ⟨rfl, .inl m5⟩, by simp⟩
  · rename_i hq
    have hpre : p < R.start s.src ∨ R.limit s.src < p := by
      cases hu : s.used with
      | false => rw [start_unused hu, limit_unused hu] at hp; exact hp
      | true =>
        by_cases h1 : R.start s.src ≤ p
        · exact .inr (Nat.lt_of_not_le fun h2 => hq ⟨hu, h1, h2⟩)
        · exact .inl (by omega)
    obtain ⟨p1, ⟨p2, p3, p4, p5⟩, p6⟩ := L.seekSlow s.sync.src p h.src hpre
    have p2 : R.cursor (R.seekSlow p s.sync.src).2 ≤ max p (R.cursor s.src) ∨ (p < R.cursor s.src ∧ R.ok (R.seekSlow p s.sync.src).2 = false) := p2
    have p3 : R.cursor s.src ≤ p → R.cursor s.src ≤ R.cursor (R.seekSlow p s.sync.src).2 := p3
    generalize R.seekSlow p s.sync.src = r at *
    have hle : s.cursor R ≤ p → R.cursor s.src ≤ p := by
      intro h1
      cases hu : s.used with
      | false => rw [cursor_unused hu] at h1; exact h1
      | true => have := hlim hu; omega
    refine ⟨inv_nil p1 rfl, ?_, p6⟩
    unfold ReaderOps.SeekPost
    rw [hc, hcs]
    refine ⟨?_, fun h1 => ?_, fun hb => ⟨(p4 hb).1, (p4 hb).2⟩, p5⟩
    · by_cases h1 : s.cursor R ≤ p
      · have := hle h1
        rcases p2 with p2 | p2
        · left; omega
        · omega
      · cases hb : r.1 with
        | true => left; rw [(p4 hb).1]; exact Nat.le_max_left _ _
        | false =>
          rcases p5 hb with h2 | ⟨_, _, h2⟩
          · exact .inr ⟨by omega, h2⟩
          · omega
    · have := hle h1
      have := p3 this
      omega

/-- A class derived from `PullableReader` is a class of readers meeting the contract of `Reader`, if its functions behind scratch do. -/
theorem lawful : (ops R room).Lawful D E (Inv R D I) where
  window _ h := window L h
  data _ h := data_spec L h
  setCursor _ _ h h1 h2 := setCursor_spec L h h1 h2
  pullSlow s n rec h hn := pullSlow_spec L n rec h hn
  readSlow s k n h hn hp := readSlow_spec L k n h hn hp
  readAvail s n h hn ha hb := readAvail_spec L n h hn ha hb
  copySlow s n d h hn hp := copySlow_spec L n d h hn hp
  copyBackSlow s n d h hn hp := copyBackSlow_spec L n d h hn hp
  readSomeSlow s n h hn h0 := readSomeSlow_spec L n h hn h0
  copySomeSlow s n d h hn h0 := copySomeSlow_spec L n d h hn h0
  readHintSlow s n rec h hn := readHintSlow_spec L n rec h hn
  seekSlow s p h hp := seekSlow_spec L p h hp
  sizeImpl s h := by
    obtain ⟨p1, p2, p3, p4, p5⟩ := L.sizeImpl s.src h.src
    refine ⟨⟨p1, h.off, ?_, ?_⟩, ?_, p3, p4, p5⟩
    · show s.scratch.length ≤ R.cursor (R.sizeImpl s.src).2
      rw [p2]; exact h.len
    · show s.scratch = slice D (R.cursor (R.sizeImpl s.src).2 - s.scratch.length) s.scratch.length
      rw [p2]; exact h.data
    · show cursor R { s with src := (R.sizeImpl s.src).2 } = cursor R s
      unfold cursor used
      simp only [p2]

/-- `Sync()` and `Close()` leave the source at the current position, unless seeking it back failed. -/
theorem syncImpl_spec {s : PS σ} (h : Inv R D I s) :
    Inv R D I (s.syncImpl R) ∧ (s.syncImpl R).used = false ∧ (R.cursor (s.syncImpl R).src = s.cursor R ∨ R.ok (s.syncImpl R).src = false) := by
  have hw := window L h
  have hws := L.window _ h.src
  unfold syncImpl
  cases hu : s.used with
  | false => exact ⟨h, hu, .inl (cursor_unused hu).symm⟩
  | true =>
    rw [if_pos rfl]
    dsimp only
    cases hb : (s.ends R).1 with
    | true =>
      obtain ⟨e1, e2, e3, e4, e5⟩ := ends_true L h hu hb
      exact ⟨e1, used_nil e2, .inl e3⟩
    | false =>
      rw [if_neg (by simp)]
      obtain ⟨p1, ⟨p2, p3, p4, p5⟩, p6⟩ := L.seek (s.cursor R) (sync_inv L h).src
      refine ⟨inv_nil p1 rfl, rfl, ?_⟩
      cases hc : (R.seek (s.cursor R) s.sync.src).1 with
      | true => exact .inl (p4 hc).1
      | false =>
        rcases p5 hc with h1 | ⟨_, _, h1⟩
        · exact .inr h1
        · omega

end PS
end Riegeli.Rdr

import Verif.TrForest
/-!
# Transposed chunks: `ComputeBaseIndices`
-/
namespace Riegeli.Tr

theorem Anc.trans {sm : SM} {p a b i j : Nat} (h1 : Anc sm p a i) (h2 : Anc sm a b j) : Anc sm p b (i + j) := by
  induction h1 with
  | refl => rw [Nat.zero_add]; exact h2
  | @step p c a k hc _ ih => rw [show k + 1 + j = (k + j) + 1 by omega]; exact .step hc (ih h2)

/-- The way up ends with the first block. -/
theorem Anc.le_depth {sm : SM} {p a r i n : Nat} (h1 : Anc sm p a i) (h2 : Anc sm p r n) (hr : (sm.get r).cs = none) :
    i ≤ n := by
  induction h1 generalizing n with
  | refl => exact Nat.zero_le _
  | @step p c a k hc _ ih =>
    cases h2 with
    | refl => rw [hr] at hc; cases hc
    | @step _ c' _ j hc' h2 =>
      rw [hc] at hc'; cases hc'
      have := ih h2
      omega

theorem Lst.depth_lt {sm : SM} {maxT s0 top : Nat} (h : Lst sm maxT s0 top) {p a j : Nat} (h1 : s0 ≤ p) (h2 : p < top)
    (ha : Anc sm p a j) : j < 32 := by
  obtain ⟨r, n, e1, e2, _, _, e3⟩ := h.depth p h1 h2
  have := ha.le_depth e1 e2
  omega

/-- A state with transitions from `x` reaches position `d`, through a state of the block at `b`. -/
def Cover (sm : SM) (maxT b x d : Nat) : Prop := ∃ a j, Anc sm d a j ∧ x ≤ a ∧ b ≤ a ∧ a ≤ b + maxT

/-- `b` is the position of a block and `x` of a state in that block. -/
def InBlock (s0 top maxT b x : Nat) : Prop := ∃ t, b = s0 + t * (maxT + 1) ∧ b ≤ x ∧ x ≤ b + maxT ∧ x < top

theorem Lst.blockAt {s0 top maxT b x : Nat} (hb : InBlock s0 top maxT b x) :
    s0 ≤ x ∧ s0 + (x - s0) / (maxT + 1) * (maxT + 1) = b := by
  obtain ⟨t, rfl, h1, h2, h3⟩ := hb
  refine ⟨by omega, ?_⟩
  rw [div_block (by omega) h1 (by rw [Nat.add_mul]; omega)]

theorem InBlock.of {s0 top maxT x : Nat} (h1 : s0 ≤ x) (h2 : x < top) :
    InBlock s0 top maxT (s0 + (x - s0) / (maxT + 1) * (maxT + 1)) x := by
  have := block_div (s0 := s0) (p := x) (B := maxT + 1) (by omega) h1
  rw [Nat.add_mul] at this
  exact ⟨_, rfl, this.1, by omega, h2⟩

/-- The first destination. -/
theorem baseLoop_first {sm : SM} {maxT s0 top : Nat} (hL : Lst sm maxT s0 top) {pos fuel : Nat} (m : Option Nat)
    (h1 : s0 ≤ pos) (h2 : pos < top) :
    baseLoop maxT s0 sm (fuel + 2) none m pos = some (some (s0 + (pos - s0) / (maxT + 1) * (maxT + 1)), m, pos) := by
  have hb := block_div (s0 := s0) (p := pos) (B := maxT + 1) (by omega) h1
  rw [Nat.add_mul] at hb
  by_cases hr : pos < s0 + (maxT + 1)
  · have hd : (pos - s0) / (maxT + 1) = 0 := Nat.div_eq_of_lt (by omega)
    simp only [baseLoop, inWindow, Bool.false_eq_true, if_false, hL.root pos h1 h2 hr, Bool.and_eq_true, decide_eq_true_eq,
      hd, Nat.zero_mul, Nat.add_zero]
    rw [if_pos (by omega)]
  · obtain ⟨c, e1, e2, e3, e4, e5⟩ := hL.up pos (by omega) h2
    simp only [baseLoop, inWindow, Bool.false_eq_true, if_false, e1, e5, Bool.and_eq_true, decide_eq_true_eq]
    rw [if_pos (by omega)]

/-- The next destinations. -/
theorem baseLoop_spec {sm : SM} {maxT s0 top : Nat} (hL : Lst sm maxT s0 top) :
    ∀ {fuel b x pos : Nat}, InBlock s0 top maxT b x → s0 ≤ pos → pos < top → b + pos < fuel →
      ∃ b' x' pos' j, baseLoop maxT s0 sm fuel (some b) (some x) pos = some (some b', some x', pos') ∧
        InBlock s0 top maxT b' x' ∧ InBlock s0 top maxT b' pos' ∧ Anc sm pos pos' j ∧
        ∀ d, Cover sm maxT b x d → (∀ a j, Anc sm d a j → a < top) → Cover sm maxT b' x' d := by
  intro fuel
  induction fuel with
  | zero => intro b x pos _ _ _ h; omega
  | succ fuel ih =>
    intro b x pos hb h1 h2 hf
    obtain ⟨hx0, hxb⟩ := Lst.blockAt hb
    unfold baseLoop
    by_cases hin : inWindow maxT (some b) pos = true
    · rw [if_pos hin]
      simp only [inWindow, Bool.and_eq_true, decide_eq_true_eq] at hin
      obtain ⟨t, ht⟩ := hb
      exact ⟨b, x, pos, 0, rfl, ⟨t, ht⟩, ⟨t, ht.1, hin.1, by omega, h2⟩, .refl, fun d h _ => h⟩
    · rw [if_neg hin]
      simp only [inWindow, Bool.and_eq_true, decide_eq_true_eq] at hin
      simp only
      obtain ⟨t, ht1, ht2, ht3, ht4⟩ := hb
      by_cases hgt : b > pos
      · rw [if_pos hgt]
        have htp : 1 ≤ t := by
          cases t with
          | zero => omega
          | succ t => omega
        have hge : s0 + (maxT + 1) ≤ b := by
          have : 1 * (maxT + 1) ≤ t * (maxT + 1) := Nat.mul_le_mul_right _ htp
          omega
        have hbt : b < top := by omega
        obtain ⟨c, e1, e2, e3, e4, e5⟩ := hL.up b hge hbt
        have hbd : (b - s0) / (maxT + 1) = t := div_block (by omega) (by omega) (by rw [Nat.add_mul]; omega)
        rw [hbd, ← ht1] at e3 e5
        simp only [e1]
        have hmin : minPos (some x) c = some c := by
          simp only [minPos]; congr 1; exact Nat.min_eq_right (by omega)
        rw [hmin]
        have hblk : InBlock s0 top maxT (s0 + (c - s0) / (maxT + 1) * (maxT + 1)) c := InBlock.of e2 (by omega)
        have hcont : ∃ b' x' pos' j,
            baseLoop maxT s0 sm fuel (some (s0 + (c - s0) / (maxT + 1) * (maxT + 1))) (some c) pos =
              some (some b', some x', pos') ∧
            InBlock s0 top maxT b' x' ∧ InBlock s0 top maxT b' pos' ∧ Anc sm pos pos' j ∧
            ∀ d, Cover sm maxT b x d → (∀ a j, Anc sm d a j → a < top) → Cover sm maxT b' x' d := by
          obtain ⟨b', x', pos', j, g1, g2, g3, g4, g5⟩ := ih hblk h1 h2 (by
            obtain ⟨_, _, q, _⟩ := hblk; omega)
          refine ⟨b', x', pos', j, g1, g2, g3, g4, ?_⟩
          intro d hd hdt
          apply g5 d _ hdt
          obtain ⟨a, i, f1, f2, f3, f4⟩ := hd
          have hat := hdt a i f1
          have hac : (sm.get a).cs = some c := by
            rw [← e1]
            apply hL.same a b (by omega) hat (by omega) hbt
            rw [hbd]
            exact div_block (by omega) (by omega) (by rw [Nat.add_mul]; omega)
          refine ⟨c, i + 1, f1.trans (.step hac .refl), Nat.le_refl _, ?_⟩
          obtain ⟨_, _, q1, q2, _⟩ := hblk
          exact ⟨q1, q2⟩
        by_cases hr : c < s0 + (maxT + 1)
        · have hd0 : (c - s0) / (maxT + 1) = 0 := Nat.div_eq_of_lt (by omega)
          simp only [hL.root c e2 (by omega) hr]
          rw [hd0, Nat.zero_mul, Nat.add_zero] at hcont
          exact hcont
        · obtain ⟨c', f1, f2, f3, f4, f5⟩ := hL.up c (by omega) (by omega)
          simp only [f1, f5]
          exact hcont
      · rw [if_neg hgt]
        obtain ⟨c, e1, e2, e3, e4, e5⟩ := hL.up pos (by omega) h2
        have hbp := block_div (s0 := s0) (p := pos) (B := maxT + 1) (by omega) h1
        simp only [e1]
        obtain ⟨b', x', pos', j, g1, g2, g3, g4, g5⟩ := ih ⟨t, ht1, ht2, ht3, ht4⟩ e2 (by omega : c < top) (by omega)
        exact ⟨b', x', pos', j + 1, g1, g2, g3, .step e1 g4, g5⟩

theorem Lst.anc_lt {sm : SM} {maxT s0 top : Nat} (h : Lst sm maxT s0 top) {p a j : Nat} (ha : Anc sm p a j) :
    s0 ≤ p → p < top → a < top := by
  induction ha with
  | refl => intro _ h; exact h
  | @step p c a j h1 _ ih =>
    intro h2 h3
    by_cases hr : p < s0 + (maxT + 1)
    · rw [h.root p h2 h3 hr] at h1; cases h1
    · obtain ⟨c', e1, e2, e3, _⟩ := h.up p (by omega) h3
      rw [h1] at e1; cases e1
      have := block_div (s0 := s0) (p := p) (B := maxT + 1) (by omega) h2
      exact ih e2 (by omega)

theorem baseOfDests_step {sm : SM} {maxT s0 top : Nat} (hL : Lst sm maxT s0 top) {tags : Nat → TagInfo} {a : Nat} :
    ∀ {ds : List Nat} {b x : Nat}, InBlock s0 top maxT b x →
      (∀ d ∈ ds, (tags a).pos d = none → ∃ p, (tags d).smPos = some p ∧ s0 ≤ p ∧ p < top) →
      ∃ b' x', baseOfDests maxT s0 sm tags a (some b) (some x) ds = some (some x') ∧ InBlock s0 top maxT b' x' ∧
        (∀ d, s0 ≤ d → d < top → Cover sm maxT b x d → Cover sm maxT b' x' d) ∧
        ∀ d ∈ ds, (tags a).pos d = none → ∀ p, (tags d).smPos = some p → Cover sm maxT b' x' p
  | [], b, x, hb, _ => ⟨b, x, rfl, hb, fun _ _ _ h => h, by simp⟩
  | d :: ds, b, x, hb, hd => by
    unfold baseOfDests
    by_cases hp : (tags a).pos d ≠ none
    · rw [if_pos hp]
      obtain ⟨b', x', e1, e2, e3, e4⟩ := baseOfDests_step hL (ds := ds) hb (fun d h => hd d (List.mem_cons_of_mem _ h))
      refine ⟨b', x', e1, e2, e3, ?_⟩
      intro d' hd' hn
      rcases List.mem_cons.1 hd' with rfl | hd'
      · exact absurd hn hp
      · exact e4 d' hd' hn
    · rw [if_neg hp]
      have hp' : (tags a).pos d = none := by
        cases h : (tags a).pos d with
        | none => rfl
        | some v => exact absurd (by rw [h]; simp) hp
      obtain ⟨p, h1, h2, h3⟩ := hd d List.mem_cons_self hp'
      simp only [h1]
      have hle := hL.le
      obtain ⟨b1, x1, p1, j, g1, g2, g3, g4, g5⟩ := baseLoop_spec hL (fuel := 2 * sm.size + 2) (pos := p) hb h2 h3 (by
        obtain ⟨_, _, q, _⟩ := hb; omega)
      simp only [g1]
      have hmin : minPos (some x1) p1 = some (min x1 p1) := rfl
      rw [hmin]
      have hb2 : InBlock s0 top maxT b1 (min x1 p1) := by
        obtain ⟨t, q1, q2, q3, q4⟩ := g2
        obtain ⟨t', r1, r2, r3, r4⟩ := g3
        exact ⟨t, q1, by omega, by omega, by omega⟩
      have hmono : ∀ d, Cover sm maxT b1 x1 d → Cover sm maxT b1 (min x1 p1) d := by
        rintro d ⟨a', i, f1, f2, f3⟩
        exact ⟨a', i, f1, Nat.le_trans (Nat.min_le_left _ _) f2, f3⟩
      obtain ⟨b', x', e1, e2, e3, e4⟩ := baseOfDests_step hL (ds := ds) hb2 (fun d h => hd d (List.mem_cons_of_mem _ h))
      refine ⟨b', x', e1, e2, ?_, ?_⟩
      · intro d' k1 k2 hc
        exact e3 d' k1 k2 (hmono d' (g5 d' hc (fun a' i ha => hL.anc_lt ha k1 k2)))
      · intro d' hd' hn p' hpp
        rcases List.mem_cons.1 hd' with rfl | hd'
        · rw [h1] at hpp; cases hpp
          apply e3 p h2 h3
          obtain ⟨t', r1, r2, r3, r4⟩ := g3
          exact ⟨p1, j, g4, Nat.min_le_right _ _, r2, r3⟩
        · exact e4 d' hd' hn p' hpp

/-- `base` computed for a tag or `kNoOp`. -/
theorem baseOfDests_spec {sm : SM} {maxT s0 top : Nat} {tags : Nat → TagInfo} {a : Nat} :
    ∀ {ds : List Nat},
      (∀ d ∈ ds, (tags a).pos d = none → ∃ p, Lst sm maxT s0 top ∧ (tags d).smPos = some p ∧ s0 ≤ p ∧ p < top) →
      ((∀ d ∈ ds, (tags a).pos d ≠ none) ∧ baseOfDests maxT s0 sm tags a none none ds = some none) ∨
      ∃ b x, Lst sm maxT s0 top ∧ baseOfDests maxT s0 sm tags a none none ds = some (some x) ∧
        InBlock s0 top maxT b x ∧
        ∀ d ∈ ds, (tags a).pos d = none → ∀ p, (tags d).smPos = some p → Cover sm maxT b x p
  | [], _ => Or.inl ⟨by simp, rfl⟩
  | d :: ds, hd => by
    unfold baseOfDests
    by_cases hp : (tags a).pos d ≠ none
    · rw [if_pos hp]
      rcases baseOfDests_spec (ds := ds) (fun d h => hd d (List.mem_cons_of_mem _ h)) with h | ⟨b, x, hL, e1, e2, e3⟩
      · refine Or.inl ⟨?_, h.2⟩
        intro d' hd'
        rcases List.mem_cons.1 hd' with rfl | hd'
        · exact hp
        · exact h.1 d' hd'
      · refine Or.inr ⟨b, x, hL, e1, e2, ?_⟩
        intro d' hd' hn
        rcases List.mem_cons.1 hd' with rfl | hd'
        · exact absurd hn hp
        · exact e3 d' hd' hn
    · rw [if_neg hp]
      have hp' : (tags a).pos d = none := by
        cases h : (tags a).pos d with
        | none => rfl
        | some v => exact absurd (by rw [h]; simp) hp
      obtain ⟨p, hL, h1, h2, h3⟩ := hd d List.mem_cons_self hp'
      right
      simp only [h1, baseLoop_first hL none h2 h3]
      have hmin : minPos none p = some p := rfl
      rw [hmin]
      obtain ⟨b', x', e1, e2, e3, e4⟩ := baseOfDests_step hL (ds := ds) (InBlock.of h2 h3)
        (fun d h hn => by
          obtain ⟨p, _, q⟩ := hd d (List.mem_cons_of_mem _ h) hn
          exact ⟨p, q⟩)
      refine ⟨b', x', hL, e1, e2, ?_⟩
      intro d' hd' hn p' hpp
      rcases List.mem_cons.1 hd' with rfl | hd'
      · rw [h1] at hpp; cases hpp
        apply e3 p h2 h3
        obtain ⟨t', r1, r2, r3, r4⟩ := InBlock.of (maxT := maxT) h2 h3
        exact ⟨p, 0, .refl, Nat.le_refl _, r2, r3⟩
      · exact e4 d' hd' hn p' hpp

/-- `base` of a tag with one destination. -/
theorem baseOfDests_one {sm : SM} {maxT s0 top : Nat} (hL : Lst sm maxT s0 top) {tags : Nat → TagInfo} {a d p : Nat}
    (hn : (tags a).pos d = none) (hp : (tags d).smPos = some p) (h1 : s0 ≤ p) (h2 : p < top) :
    baseOfDests maxT s0 sm tags a none none [d] = some (some p) := by
  unfold baseOfDests
  rw [if_neg (by rw [hn]; simp)]
  simp only [hp, baseLoop_first hL none h1 h2]
  rfl

/-- The offsets from `x` to a covered position. -/
theorem climb_cover {sm : SM} {maxT s0 top : Nat} (hL : Lst sm maxT s0 top) {b x p : Nat} (hb : InBlock s0 top maxT b x)
    (h1 : s0 ≤ p) (h2 : p < top) (hc : Cover sm maxT b x p) :
    ∃ o ws mids, climb maxT sm (some x) kWriteBufSize p [] = some (o :: ws) ∧ Tail sm (x + o) ws p mids ∧
      ∀ o' ∈ o :: ws, o' ≤ maxT := by
  obtain ⟨a, j, e1, e2, e3, e4⟩ := hc
  obtain ⟨t, q1, q2, q3, q4⟩ := hb
  exact climb_spec hL e2 (by omega) h1 h2 e1 (hL.depth_lt h1 h2 e1) .nil (by simp)

end Riegeli.Tr

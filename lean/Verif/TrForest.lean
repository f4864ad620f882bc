import Verif.TrList
import Verif.TrPath
/-!
# Transposed chunks: reaching a state of a list
-/
namespace Riegeli.Tr

/-- `a` is reached from `p` in `j` steps to the `kNoOp` leading to the block. -/
inductive Anc (sm : SM) : Nat → Nat → Nat → Prop
  | refl {p : Nat} : Anc sm p p 0
  | step {p c a j : Nat} : (sm.get p).cs = some c → Anc sm c a j → Anc sm p a (j + 1)

/-- The states from `s0` to `top` are a list: blocks of `maxT + 1` states, all but the first one being reached
through `kNoOp` states of earlier blocks, with a bounded number of steps. -/
structure Lst (sm : SM) (maxT s0 top : Nat) : Prop where
  lt : s0 < top
  le : top ≤ sm.size
  root : ∀ p, s0 ≤ p → p < top → p < s0 + (maxT + 1) → (sm.get p).cs = none
  up : ∀ p, s0 + (maxT + 1) ≤ p → p < top → ∃ c, (sm.get p).cs = some c ∧ s0 ≤ c ∧
    c < s0 + (p - s0) / (maxT + 1) * (maxT + 1) ∧ (sm.get c).etag = none ∧
    (sm.get c).base = some (s0 + (p - s0) / (maxT + 1) * (maxT + 1))
  same : ∀ p p', s0 ≤ p → p < top → s0 ≤ p' → p' < top →
    (p - s0) / (maxT + 1) = (p' - s0) / (maxT + 1) → (sm.get p).cs = (sm.get p').cs
  depth : ∀ p, s0 ≤ p → p < top → ∃ a n, Anc sm p a n ∧ (sm.get a).cs = none ∧ s0 ≤ a ∧ a ≤ s0 + maxT ∧ n < 32

/-- A list remains a list if positions are only added. -/
theorem Lst.frame {sm sm' : SM} {maxT s0 top : Nat} (h : Lst sm maxT s0 top) (hsz : sm.size ≤ sm'.size)
    (hg : ∀ i, i < top → (sm'.get i).cs = (sm.get i).cs ∧ (sm'.get i).etag = (sm.get i).etag ∧
      ∀ b, (sm.get i).base = some b → (sm'.get i).base = some b) : Lst sm' maxT s0 top := by
  have hanc : ∀ {p a n}, Anc sm p a n → s0 ≤ p → p < top → Anc sm' p a n := by
    intro p a n ha
    induction ha with
    | refl => intro _ _; exact .refl
    | @step p c a j h1 _ ih =>
      intro h2 h3
      have hup : s0 ≤ c ∧ c < top := by
        by_cases hr : p < s0 + (maxT + 1)
        · rw [h.root p h2 h3 hr] at h1; cases h1
        · obtain ⟨c', e1, e2, e3, _⟩ := h.up p (by omega) h3
          rw [h1] at e1; cases e1
          have := block_div (s0 := s0) (p := p) (B := maxT + 1) (by omega) h2
          omega
      exact .step (by rw [(hg p h3).1]; exact h1) (ih hup.1 hup.2)
  constructor
  · exact h.lt
  · exact Nat.le_trans h.le hsz
  · intro p h1 h2 h3; rw [(hg p h2).1]; exact h.root p h1 h2 h3
  · intro p h1 h2
    obtain ⟨c, e1, e2, e3, e4, e5⟩ := h.up p h1 h2
    have hb := block_div (s0 := s0) (p := p) (B := maxT + 1) (by omega) (by omega)
    obtain ⟨g1, g2, g3⟩ := hg c (by omega)
    exact ⟨c, by rw [(hg p h2).1]; exact e1, e2, e3, by rw [g2]; exact e4, g3 _ e5⟩
  · intro p p' h1 h2 h3 h4 h5
    rw [(hg p h2).1, (hg p' h4).1]
    exact h.same p p' h1 h2 h3 h4 h5
  · intro p h1 h2
    obtain ⟨a, n, e1, e2, e3, e4, e5⟩ := h.depth p h1 h2
    have hat : a < top := by
      by_cases hc : a < top
      · exact hc
      · exfalso
        have : ∀ {p a n}, Anc sm p a n → s0 ≤ p → p < top → a < top := by
          intro p a n ha
          induction ha with
          | refl => intro _ h; exact h
          | @step p c a j h1 _ ih =>
            intro h2 h3
            by_cases hr : p < s0 + (maxT + 1)
            · rw [h.root p h2 h3 hr] at h1; cases h1
            · obtain ⟨c', e1, e2, e3, _⟩ := h.up p (by omega) h3
              rw [h1] at e1; cases e1
              have := block_div (s0 := s0) (p := p) (B := maxT + 1) (by omega) h2
              exact ih e2 (by omega)
        exact hc (this e1 h1 h2)
    exact ⟨a, n, hanc e1 h1 h2, by rw [(hg a hat).1]; exact e2, e3, e4, e5⟩

/-- The lists created by the encoder. -/
theorem Listed.lst {m0 : SM} {maxT mb total : Nat} {keys : List Key} {W : Nat → Nat} {b : BSt}
    (h : Listed m0 maxT mb total keys W b) (hlt : m0.size < b.sm.size) (htot : total < (maxT + 1) ^ 15) :
    Lst b.sm maxT m0.size b.sm.size := by
  obtain ⟨hp, hq, hsz, h⟩ := h
  obtain ⟨s0, hs0⟩ : ∃ s0, m0.size = s0 := ⟨_, rfl⟩
  obtain ⟨top, htop⟩ : ∃ top, b.sm.size = top := ⟨_, rfl⟩
  rw [hs0] at h hp hsz hlt ⊢
  rw [htop] at h hsz hlt ⊢
  have hup : ∀ p, s0 + (maxT + 1) ≤ p → p < top → ∃ c, (b.sm.get p).cs = some c ∧ s0 ≤ c ∧
      c < s0 + (p - s0) / (maxT + 1) * (maxT + 1) ∧ (b.sm.get c).etag = none ∧
      (b.sm.get c).base = some (s0 + (p - s0) / (maxT + 1) * (maxT + 1)) ∧
      W c = sumW W (s0 + (p - s0) / (maxT + 1) * (maxT + 1)) (blockEnd s0 top (maxT + 1) ((p - s0) / (maxT + 1))) := by
    intro p h1 h2
    have hd : 1 ≤ (p - s0) / (maxT + 1) := by rw [Nat.le_div_iff_mul_le (by omega)]; omega
    obtain ⟨c, e1, e2, e3⟩ := h.csd p (by omega) h2 (by omega) (by rw [hq]; simp)
    exact ⟨c, e1, by omega, e3⟩
  have hroot : ∀ p, s0 ≤ p → p < top → p < s0 + (maxT + 1) → (b.sm.get p).cs = none := by
    intro p h1 h2 h3
    refine h.csq p (by omega) h2 (Or.inl ?_)
    exact Nat.div_eq_of_lt (by omega)
  -- two steps multiply the number of transitions
  have hmul : ∀ p c a, s0 ≤ p → p < top → (b.sm.get p).cs = some c → (b.sm.get c).cs = some a →
      W p * (maxT + 1) ≤ W a ∧ s0 ≤ a ∧ a < c ∧ c < p := by
    intro p c a h1 h2 h3 h4
    by_cases hr : p < s0 + (maxT + 1)
    · rw [hroot p h1 h2 hr] at h3; cases h3
    · obtain ⟨c', e1, e2, e3, e4, e5, e6⟩ := hup p (by omega) h2
      rw [h3] at e1; cases e1
      have hbp := block_div (s0 := s0) (p := p) (B := maxT + 1) (by omega) h1
      by_cases hrc : c < s0 + (maxT + 1)
      · rw [hroot c e2 (by omega) hrc] at h4; cases h4
      · obtain ⟨a', f1, f2, f3, f4, f5, f6⟩ := hup c (by omega) (by omega)
        rw [h4] at f1; cases f1
        have hbc := block_div (s0 := s0) (p := c) (B := maxT + 1) (by omega) e2
        have hdlt : (c - s0) / (maxT + 1) < (p - s0) / (maxT + 1) := by
          rw [Nat.div_lt_iff_lt_mul (by omega)]; omega
        have hle : ((c - s0) / (maxT + 1) + 1) * (maxT + 1) ≤ (p - s0) / (maxT + 1) * (maxT + 1) :=
          Nat.mul_le_mul_right _ hdlt
        refine ⟨?_, f2, by omega, by omega⟩
        rw [f6]
        have hbe : blockEnd s0 top (maxT + 1) ((c - s0) / (maxT + 1)) =
            s0 + (c - s0) / (maxT + 1) * (maxT + 1) + (maxT + 1) := by
          unfold blockEnd
          rw [Nat.add_mul] at hle ⊢
          omega
        rw [hbe, Nat.mul_comm]
        apply sumW_mul
        intro x g1 g2
        apply h.wmono x p (by omega) _ h2
        rw [Nat.add_mul] at hle
        omega
  have hgrow : ∀ n {p a}, Anc b.sm p a n → s0 ≤ p → p < top → W p * (maxT + 1) ^ (n / 2) ≤ total := by
    intro n
    induction n using Nat.strongRecOn with
    | _ n ih =>
      intro p a ha h1 h2
      match n, ha with
      | 0, _ => simp only [Nat.zero_div, Nat.pow_zero, Nat.mul_one]; exact h.wle p (by omega) h2
      | 1, _ => simp only [show 1 / 2 = 0 from rfl, Nat.pow_zero, Nat.mul_one]; exact h.wle p (by omega) h2
      | n + 2, .step hc (.step hc' ha) =>
        obtain ⟨e1, e2, e3, e4⟩ := hmul _ _ _ h1 h2 hc hc'
        have := ih n (by omega) ha e2 (by omega)
        rw [show (n + 2) / 2 = n / 2 + 1 by omega, Nat.pow_succ]
        refine Nat.le_trans ?_ this
        rw [Nat.mul_comm ((maxT + 1) ^ (n / 2)), ← Nat.mul_assoc]
        exact Nat.mul_le_mul_right _ e1
  have hex : ∀ p, s0 ≤ p → p < top → ∃ a n, Anc b.sm p a n ∧ (b.sm.get a).cs = none ∧ s0 ≤ a ∧ a ≤ s0 + maxT := by
    intro p
    induction p using Nat.strongRecOn with
    | _ p ih =>
      intro h1 h2
      by_cases hr : p < s0 + (maxT + 1)
      · exact ⟨p, 0, .refl, hroot p h1 h2 hr, h1, by omega⟩
      · obtain ⟨c, e1, e2, e3, _⟩ := hup p (by omega) h2
        have hbp := block_div (s0 := s0) (p := p) (B := maxT + 1) (by omega) h1
        obtain ⟨a, n, g1, g2⟩ := ih c (by omega) e2 (by omega)
        exact ⟨a, n + 1, .step e1 g1, g2⟩
  constructor
  · exact hlt
  · omega
  · exact hroot
  · intro p h1 h2
    obtain ⟨c, e1, e2, e3, e4, e5, _⟩ := hup p h1 h2
    exact ⟨c, e1, e2, e3, e4, e5⟩
  · intro p p' h1 h2 h3 h4 h5
    exact h.same p p' (by omega) h2 (by omega) h4 h5
  · intro p h1 h2
    obtain ⟨a, n, g1, g2, g3, g4⟩ := hex p h1 h2
    refine ⟨a, n, g1, g2, g3, g4, ?_⟩
    have h3 := hgrow n g1 h1 h2
    have h4 := h.wpos p (by omega) h2
    apply Nat.lt_of_not_le
    intro hn
    have h5 : (maxT + 1) ^ 15 ≤ (maxT + 1) ^ (n / 2) := Nat.pow_le_pow_right (by omega) (by omega)
    have h6 : (maxT + 1) ^ (n / 2) ≤ W p * (maxT + 1) ^ (n / 2) := Nat.le_mul_of_pos_left _ h4
    omega

/-! ## Offsets written for a transition -/

/-- From the state `p`, the offsets `w` lead to `q` through `kNoOp` states `mids`. -/
inductive Tail (sm : SM) : Nat → List Nat → Nat → List Nat → Prop
  | nil {q : Nat} : Tail sm q [] q []
  | cons {p o b q : Nat} {w mids : List Nat} : p < sm.size → (sm.get p).etag = none → (sm.get p).base = some b →
      Tail sm (b + o) w q mids → Tail sm p (o :: w) q (p :: mids)

theorem Tail.append {sm : SM} {p q r : Nat} {w1 w2 m1 m2 : List Nat} (h1 : Tail sm p w1 q m1)
    (h2 : Tail sm q w2 r m2) : Tail sm p (w1 ++ w2) r (m1 ++ m2) := by
  induction h1 with
  | nil => exact h2
  | cons a b c _ ih => exact .cons a b c (ih h2)

theorem climb_spec {sm : SM} {maxT s0 top m : Nat} (hL : Lst sm maxT s0 top) {a q : Nat} (ha1 : m ≤ a) (ha2 : a ≤ m + maxT) :
    ∀ {j room pos : Nat} {w mids : List Nat}, s0 ≤ pos → pos < top → Anc sm pos a j → j < room →
      Tail sm pos w q mids → (∀ o ∈ w, o ≤ maxT) →
      ∃ o ws mids', climb maxT sm (some m) room pos w = some (o :: ws) ∧ Tail sm (m + o) ws q mids' ∧
        ∀ o' ∈ o :: ws, o' ≤ maxT := by
  intro j room
  induction room generalizing j with
  | zero => intro pos w mids _ _ _ h; omega
  | succ room ih =>
    intro pos w mids h1 h2 hA hj hT hw
    unfold climb
    by_cases hin : inWindow maxT (some m) pos = true
    · rw [if_pos hin]
      simp only [inWindow, Bool.and_eq_true, decide_eq_true_eq] at hin
      refine ⟨pos - m, w, mids, rfl, ?_, ?_⟩
      · rw [show m + (pos - m) = pos by omega]; exact hT
      · intro o' ho
        rcases List.mem_cons.1 ho with rfl | ho
        · exact hin.2
        · exact hw _ ho
    · rw [if_neg hin]
      simp only [inWindow, Bool.and_eq_true, decide_eq_true_eq] at hin
      cases hA with
      | refl => exact absurd ⟨ha1, by omega⟩ hin
      | @step _ c _ j hc hA =>
        simp only [hc]
        by_cases hr : pos < s0 + (maxT + 1)
        · rw [hL.root pos h1 h2 hr] at hc; cases hc
        · obtain ⟨c', e1, e2, e3, e4, e5⟩ := hL.up pos (by omega) h2
          rw [hc] at e1; cases e1
          have hb := block_div (s0 := s0) (p := pos) (B := maxT + 1) (by omega) h1
          rw [Nat.add_mul] at hb
          simp only [e5]
          have hle := hL.le
          rw [if_pos (by omega)]
          refine ih (mids := c :: mids) e2 (by omega) hA (by omega) (Tail.cons (by omega) e4 e5 ?_) ?_
          · rw [show s0 + (pos - s0) / (maxT + 1) * (maxT + 1) + (pos - (s0 + (pos - s0) / (maxT + 1) * (maxT + 1))) = pos
              by omega]
            exact hT
          · intro o' ho
            rcases List.mem_cons.1 ho with rfl | ho
            · omega
            · exact hw _ ho

/-- From the first block every state of the list is reached. -/
theorem climb_root {sm : SM} {maxT s0 top : Nat} (hL : Lst sm maxT s0 top) {pos : Nat} (h1 : s0 ≤ pos) (h2 : pos < top) :
    ∃ o ws mids, climb maxT sm (some s0) kWriteBufSize pos [] = some (o :: ws) ∧ Tail sm (s0 + o) ws pos mids ∧
      ∀ o' ∈ o :: ws, o' ≤ maxT := by
  obtain ⟨a, n, e1, e2, e3, e4, e5⟩ := hL.depth pos h1 h2
  exact climb_spec hL e3 e4 h1 h2 e1 e5 .nil (by simp)

end Riegeli.Tr

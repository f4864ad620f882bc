import Verif.TrBuild
/-!
# Transposed chunks: complete lists of states created by the encoder
-/
namespace Riegeli.Tr

/-- Creating the rest of a block. -/
theorem buildBlock_spec {m0 : SM} {s0 top maxT mb total : Nat} {q0 : List Key} {r : Nat}
    (htop : top ≤ s0 + mb * (maxT + 1)) :
    ∀ (n : Nat) (W : Nat → Nat) (s : BSt), BInv m0 s0 top (maxT + 1) mb total q0 W s r →
      s.prev = s0 + r * (maxT + 1) + n →
      ∃ s' W', buildBlock maxT n s (sumW W s.prev (blockEnd s0 top (maxT + 1) r)) =
          some (s', sumW W' s'.prev (blockEnd s0 top (maxT + 1) r)) ∧
        s'.prev = s0 + r * (maxT + 1) ∧ BInv m0 s0 top (maxT + 1) mb total q0 W' s' r
  | 0, W, s, h, hp => ⟨s, W, rfl, hp, h⟩
  | n + 1, W, s, h, hp => by
    obtain ⟨s1, w, h1, h2, h3⟩ := buildPop_spec h htop (by omega)
    obtain ⟨s', W', g1, g2, g3⟩ := buildBlock_spec htop n _ s1 h3 (by omega)
    refine ⟨s', W', ?_, g2, g3⟩
    rw [← g1]
    have hlt : s1.prev < blockEnd s0 top (maxT + 1) r := by have := h.hi; omega
    rw [sumW_cons _ hlt, sumW_setW _ _ _ (Or.inl (by omega))]
    simp only [buildBlock, h1, setW, if_pos]
    rw [h2, Nat.add_comm w]

/-- Adding the `kNoOp` of a block to the queue. -/
theorem BInv.next {m0 : SM} {s0 top maxT mb total : Nat} {q0 : List Key} {W : Nat → Nat} {s : BSt} {r : Nat}
    (htop : top ≤ s0 + mb * (maxT + 1))
    (h : BInv m0 s0 top (maxT + 1) mb total q0 W s (r + 1)) (hp : s.prev = s0 + (r + 1) * (maxT + 1))
    (hlt : s.prev < top) (n : Nat) :
    BInv m0 s0 top (maxT + 1) mb total q0 W
      { s with queue := pqPush n ⟨.block s.noopBase.length, sumW W s.prev (blockEnd s0 top (maxT + 1) (r + 1))⟩ s.queue
               noopBase := s.noopBase ++ [s.prev] } r := by
  have hB : (r + 1) * (maxT + 1) = r * (maxT + 1) + (maxT + 1) := by rw [Nat.add_mul]; omega
  have hnl := h.nlen
  have hhi := h.hi
  have hperm := pqPush_perm n ⟨.block s.noopBase.length, sumW W s.prev (blockEnd s0 top (maxT + 1) (r + 1))⟩ s.queue
  have hkeys : ∀ k, k ∈ (pqPush n ⟨.block s.noopBase.length, sumW W s.prev (blockEnd s0 top (maxT + 1) (r + 1))⟩
      s.queue).map (·.key) ↔ k = .block s.noopBase.length ∨ k ∈ s.queue.map (·.key) := by
    intro k
    rw [(hperm.map (·.key)).mem_iff, List.map_cons, List.mem_cons]
  have hbe : blockEnd s0 top (maxT + 1) r = s.prev := by unfold blockEnd; omega
  have hsum : W s.prev ≤ sumW W s.prev (blockEnd s0 top (maxT + 1) (r + 1)) := by
    apply sumW_ge _ (Nat.le_refl _)
    unfold blockEnd
    rw [Nat.add_mul (r + 1)]
    omega
  have hdl : ∀ x, s0 ≤ x → x < top → (x - s0) / (maxT + 1) < mb := by
    intro x h0 h1
    rw [Nat.div_lt_iff_lt_mul (by omega)]
    omega
  have hdg : ∀ x, s.prev ≤ x → r + 1 ≤ (x - s0) / (maxT + 1) := by
    intro x hx
    rw [Nat.le_div_iff_mul_le (by omega)]; omega
  constructor
  · exact h.size
  · simp only; omega
  · rw [hbe]; exact Nat.le_refl _
  · simp only [hperm.length_eq, List.length_cons]
    have := h.cnt
    omega
  · simp only [List.length_append, List.length_singleton]; omega
  · intro t h1 h2
    simp only
    by_cases ht : t = r + 1
    · rw [show mb - 1 - t = s.noopBase.length by omega, List.getElem?_concat_length, hp, ht]
    · rw [List.getElem?_append_left (by omega)]
      exact h.nb t (by omega) h2
  · exact h.old
  · intro e he k hk
    rcases List.mem_cons.1 (hperm.mem_iff.1 he) with rfl | he
    · simp only [Key.block.injEq] at hk
      exact ⟨r + 1, by omega, by omega, by omega, by simp only [hp]⟩
    · obtain ⟨t, h1, h2, h3, h4⟩ := h.qblock e he k hk
      exact ⟨t, by omega, h2, h3, h4⟩
  · rw [List.Perm.nodup_iff (hperm.map (·.key)), List.map_cons, List.nodup_cons]
    refine ⟨?_, h.qnodup⟩
    intro hm
    obtain ⟨e, he, hk⟩ := List.mem_map.1 hm
    obtain ⟨t, h1, h2, h3, h4⟩ := h.qblock e he _ hk
    omega
  · intro p h1 h2 h3
    simp only at h1 h3
    rw [hkeys] at h3
    have hd := hdg p h1
    apply h.csq p h1 h2
    rcases h3 with h3 | h3 | h3
    · omega
    · left
      simp only [Key.block.injEq] at h3
      have := hdl p (by omega) h2
      omega
    · exact Or.inr h3
  · intro p h1 h2 h3 h4
    simp only at h1 h4
    rw [hkeys, not_or] at h4
    refine h.csd p h1 h2 ?_ h4.2
    intro h5
    apply h4.1
    simp only [Key.block.injEq]
    omega
  · exact h.tgt
  · exact h.same
  · exact h.all
  · refine List.Perm.trans ?_ h.perm
    refine List.Perm.append_left _ ?_
    refine ((hperm.map (·.key)).filter _).trans ?_
    simp only [List.map_cons, List.filter_cons, Key.isBlock, Bool.not_true, Bool.false_eq_true, if_false]
    exact List.Perm.refl _
  · exact pqPush_sorted _ _ _ h.sorted
  · exact h.wpos
  · intro e he
    rcases List.mem_cons.1 (hperm.mem_iff.1 he) with rfl | he
    · exact Nat.le_trans (h.wpos s.prev (Nat.le_refl _) hlt) hsum
    · exact h.qpos e he
  · exact h.wmono
  · intro e he p h1 h2
    rcases List.mem_cons.1 (hperm.mem_iff.1 he) with rfl | he
    · exact Nat.le_trans (h.wmono s.prev p (Nat.le_refl _) h1 h2) hsum
    · exact h.wq e he p h1 h2
  · have := h.wtot
    simp only
    rw [(hperm.map (·.weight)).sum_nat, List.map_cons, List.sum_cons, hbe, sumW_self]
    simp only
    omega
  · exact h.wle

/-- All blocks. -/
theorem buildLoop_spec {m0 : SM} {s0 top maxT mb total : Nat} {q0 : List Key} {n : Nat} (hT : 0 < maxT)
    (htop : top ≤ s0 + mb * (maxT + 1)) :
    ∀ (r fuel bs : Nat) (W : Nat → Nat) (s : BSt), BInv m0 s0 top (maxT + 1) mb total q0 W s r → r < fuel →
      s.prev = s0 + r * (maxT + 1) + bs → s.prev = blockEnd s0 top (maxT + 1) r → s0 + r * (maxT + 1) < top →
      ∃ s' W', buildLoop n maxT fuel bs s = some s' ∧ s'.prev = s0 ∧ s'.queue = [] ∧
        BInv m0 s0 top (maxT + 1) mb total q0 W' s' 0
  | r, fuel + 1, bs, W, s, h, hf, hp, hpe, hlt => by
    obtain ⟨s1, W1, h1, h2, h3⟩ := buildBlock_spec htop bs W s h hp
    rw [hpe, sumW_self] at h1
    have hc := h3.cnt
    rw [h2, Nat.mul_add] at hc
    simp only [buildLoop, h1]
    cases r with
    | zero =>
      have : s1.queue = [] := List.eq_nil_of_length_eq_zero (by omega)
      rw [if_pos this]
      exact ⟨s1, W1, rfl, by omega, this, h3⟩
    | succ r =>
      have hm : 0 < (r + 1) * maxT := Nat.mul_pos (by omega) hT
      have : s1.queue ≠ [] := by
        intro hh; rw [hh] at hc; simp only [List.length_nil] at hc; omega
      rw [if_neg this]
      have h4 := h3.next htop h2 (by omega) n
      refine buildLoop_spec hT htop r fuel (maxT + 1) W1 _ h4 (by omega) ?_ ?_ ?_
      · simp only; rw [h2, Nat.add_mul r 1]; omega
      · simp only; unfold blockEnd; omega
      · rw [Nat.add_mul r 1] at hlt; omega

/-- `b` is a list of states following those of `m0`, for the given keys with the given total number of
transitions. -/
def Listed (m0 : SM) (maxT mb total : Nat) (keys : List Key) (W : Nat → Nat) (b : BSt) : Prop :=
  b.prev = m0.size ∧ b.queue = [] ∧ b.sm.size ≤ m0.size + mb * (maxT + 1) ∧
    BInv m0 m0.size b.sm.size (maxT + 1) mb total keys W b 0

theorem buildList_spec {n maxT : Nat} (hT : 0 < maxT) (m0 : SM) (q : List Entry) (hq : q ≠ [])
    (hnb : ∀ e ∈ q, e.key.isBlock = false) (hnd : (q.map (·.key)).Nodup) (hw : ∀ e ∈ q, 1 ≤ e.weight)
    (hs : q.Pairwise (fun a b => a.weight ≤ b.weight)) :
    ∃ b W mb, buildList n maxT m0 q = some b ∧
      Listed m0 maxT mb (q.map (·.weight)).sum (q.map (·.key)) W b ∧
      m0.size + q.length ≤ b.sm.size ∧ b.sm.size ≤ m0.size + 2 * q.length ∧
      (q.length ≤ maxT + 1 → b.sm.size = m0.size + q.length) := by
  have hk : 0 < q.length := List.length_pos_iff.2 hq
  obtain ⟨k, hkk⟩ : ∃ k, q.length = k := ⟨_, rfl⟩
  obtain ⟨noops, hno⟩ : ∃ m, m = if k ≤ maxT + 1 then 0 else (k - 2) / maxT := ⟨_, rfl⟩
  have hnk : noops ≤ k := by
    rw [hno]
    split
    · omega
    · exact Nat.le_trans (Nat.div_le_self _ _) (by omega)
  have hdiv : (k + noops - 1) / (maxT + 1) = noops ∧ (k + noops - 1) % (maxT + 1) + 1 + noops * (maxT + 1) = k + noops := by
    have h1 : (k + noops - 1) / (maxT + 1) = noops := by
      rw [Nat.div_eq_iff (by omega)]
      rw [Nat.mul_add]
      split at hno
      · subst hno; omega
      · have h2 := Nat.div_add_mod (k - 2) maxT
        have h3 := Nat.mod_lt (k - 2) hT
        rw [← hno, Nat.mul_comm] at h2
        omega
    refine ⟨h1, ?_⟩
    have := Nat.div_add_mod (k + noops - 1) (maxT + 1)
    rw [h1, Nat.mul_comm] at this
    omega
  have htot : m0.size + (k + noops) ≤ m0.size + (noops + 1) * (maxT + 1) := by
    have := Nat.mod_lt (k + noops - 1) (y := maxT + 1) (by omega)
    rw [Nat.add_mul]
    omega
  have hbe : blockEnd m0.size (m0.size + (k + noops)) (maxT + 1) noops = m0.size + (k + noops) := by
    unfold blockEnd; omega
  have hinit : BInv m0 m0.size (m0.size + (k + noops)) (maxT + 1) (noops + 1) (q.map (·.weight)).sum (q.map (·.key))
      (fun _ => 0) ⟨⟨m0.size + (k + noops), fun i => if i < m0.size then m0.get i else StateInfo.invalid⟩,
        m0.size + (k + noops), q, [], []⟩ noops := by
    constructor
    · rfl
    · simp only; omega
    · simp only; omega
    · simp only; omega
    · simp
    · intro t h1 h2; omega
    · intro i hi; simp only; rw [if_pos hi]
    · intro e he k hk'
      have := hnb e he
      rw [hk'] at this
      simp [Key.isBlock] at this
    · exact hnd
    · intro p h1 h2; simp only at h1; omega
    · intro p h1 h2; simp only at h1; omega
    · intro x hx; simp at hx
    · intro p p' h1 h2; simp only at h1; omega
    · intro p h1 h2; simp only at h1; omega
    · simp only [List.map_nil, List.nil_append]
      rw [List.filter_eq_self.2]
      intro k hk'
      obtain ⟨e, he, rfl⟩ := List.mem_map.1 hk'
      simp [hnb e he]
    · exact hs
    · intro p h1 h2; simp only at h1; omega
    · exact hw
    · intro p p' h1 h2 h3; simp only at h1; omega
    · intro e he p h1 h2; simp only at h1; omega
    · simp only; rw [hbe, sumW_self]; omega
    · intro p h1 h2; simp only at h1; omega
  obtain ⟨b, W, h1, h2, h3, h4⟩ := buildLoop_spec (n := n) hT htot noops (k + noops + 1)
    ((k + noops - 1) % (maxT + 1) + 1) _ _ hinit (by omega) (by simp only; omega) (by simp only; rw [hbe]) (by omega)
  have hsz := h4.size
  refine ⟨b, W, noops + 1, ?_, ⟨h2, h3, by rw [hsz]; exact htot, by rw [hsz]; exact h4⟩, by omega, by omega, ?_⟩
  · unfold buildList
    simp only [hkk, ← hno]
    exact h1
  · intro hle
    rw [hkk, if_pos (by omega)] at *
    omega

end Riegeli.Tr

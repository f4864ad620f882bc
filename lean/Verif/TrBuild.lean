import Verif.TrEnc
/-!
# Transposed chunks: lists of states created by the encoder

A list of states consists of blocks of `maxT + 1` states. Blocks other than the first one are reached through
`kNoOp` states in earlier blocks. The order in which states leave the priority queue bounds the number of
`kNoOp` states on a path logarithmically.
-/
namespace Riegeli.Tr

/-! ## Sums over ranges -/

/-- The sum of `W` over positions from `a` to `b`, exclusive. -/
def sumW (W : Nat → Nat) (a b : Nat) : Nat := ((List.range (b - a)).map (fun i => W (a + i))).sum

theorem sumW_self (W : Nat → Nat) (a : Nat) : sumW W a a = 0 := by simp [sumW]

theorem sumW_cons (W : Nat → Nat) {a b : Nat} (h : a < b) : sumW W a b = W a + sumW W (a + 1) b := by
  unfold sumW
  rw [show b - a = (b - (a + 1)) + 1 by omega, List.range_succ_eq_map]
  simp only [List.map_cons, List.map_map, List.sum_cons, Nat.add_zero]
  congr 3
  funext i
  simp only [Function.comp_apply]
  congr 1
  omega

theorem sumW_congr {W W' : Nat → Nat} {a b : Nat} (h : ∀ x, a ≤ x → x < b → W x = W' x) :
    sumW W a b = sumW W' a b := by
  unfold sumW
  congr 1
  apply List.map_congr_left
  intro i hi
  simp only [List.mem_range] at hi
  exact h _ (by omega) (by omega)

theorem sumW_ge (W : Nat → Nat) {a b x : Nat} : a ≤ x → x < b → W x ≤ sumW W a b := by
  intro h1 h2
  have : ∃ k, x = a + k := ⟨x - a, by omega⟩
  obtain ⟨k, rfl⟩ := this
  induction k generalizing a with
  | zero => simp only [Nat.add_zero] at h2 ⊢; rw [sumW_cons W h2]; exact Nat.le_add_right _ _
  | succ k ih =>
    rw [sumW_cons W (by omega)]
    have := ih (a := a + 1) (by omega) (by omega)
    rw [show a + 1 + k = a + (k + 1) by omega] at this
    omega

theorem sumW_mul (W : Nat → Nat) {w : Nat} : ∀ (n a : Nat), (∀ x, a ≤ x → x < a + n → w ≤ W x) → n * w ≤ sumW W a (a + n)
  | 0, a, _ => by simp
  | n + 1, a, h => by
    rw [sumW_cons W (by omega)]
    have := sumW_mul W n (a + 1) (fun x h1 h2 => h x (by omega) (by omega))
    have h0 := h a (by omega) (by omega)
    rw [show a + 1 + n = a + (n + 1) by omega] at this
    rw [Nat.add_mul]
    omega

/-! ## The priority queue -/

theorem pqPush_perm (n : Nat) (e : Entry) (q : List Entry) : (pqPush n e q).Perm (e :: q) := by
  induction q with
  | nil => exact List.Perm.refl _
  | cons x q ih =>
    simp only [pqPush]
    split
    · exact List.Perm.refl _
    · exact (List.Perm.cons x ih).trans (List.Perm.swap e x q)

theorem pqPush_sorted (n : Nat) (e : Entry) (q : List Entry) (h : q.Pairwise (fun a b => a.weight ≤ b.weight)) :
    (pqPush n e q).Pairwise (fun a b => a.weight ≤ b.weight) := by
  induction q with
  | nil => simp [pqPush]
  | cons x q ih =>
    rw [List.pairwise_cons] at h
    simp only [pqPush]
    split
    · rename_i hb
      have hex : e.weight ≤ x.weight := by
        simp only [Entry.before, Bool.or_eq_true, decide_eq_true_eq, Bool.and_eq_true, beq_iff_eq] at hb
        omega
      rw [List.pairwise_cons, List.pairwise_cons]
      refine ⟨?_, h⟩
      intro y hy
      rcases List.mem_cons.1 hy with rfl | hy
      · exact hex
      · exact Nat.le_trans hex (h.1 y hy)
    · rename_i hb
      have hex : x.weight ≤ e.weight := by
        simp only [Entry.before, Bool.or_eq_true, decide_eq_true_eq, Bool.and_eq_true, beq_iff_eq] at hb
        omega
      rw [List.pairwise_cons]
      refine ⟨?_, ih h.2⟩
      intro y hy
      rcases List.mem_cons.1 ((pqPush_perm n e q).mem_iff.1 hy) with rfl | hy
      · exact hex
      · exact h.1 y hy

/-- Whether a key denotes a block. -/
def Key.isBlock : Key → Bool
  | .block _ => true
  | _ => false

/-! ## The invariant of the loop -/

/-- The end of block number `t`. -/
def blockEnd (s0 top B t : Nat) : Nat := min top (s0 + (t + 1) * B)

/-- Invariant of the loop creating states from `s0` to `top`, `mb` blocks of `B` states; the current block has
number `r`. `W` are the numbers of transitions with which states left the queue. -/
structure BInv (m0 : SM) (s0 top B mb total : Nat) (q0 : List Key) (W : Nat → Nat) (s : BSt) (r : Nat) : Prop where
  size : s.sm.size = top
  lo : s0 + r * B ≤ s.prev
  hi : s.prev ≤ blockEnd s0 top B r
  cnt : s.queue.length + r = s.prev - s0
  nlen : s.noopBase.length + r + 1 = mb
  nb : ∀ t, r < t → t < mb → s.noopBase[mb - 1 - t]? = some (s0 + t * B)
  old : ∀ i, i < s0 → s.sm.get i = m0.get i
  qblock : ∀ e ∈ s.queue, ∀ k, e.key = .block k → ∃ t, r < t ∧ t < mb ∧ k = mb - 1 - t ∧
    e.weight = sumW W (s0 + t * B) (blockEnd s0 top B t)
  qnodup : (s.queue.map (·.key)).Nodup
  csq : ∀ p, s.prev ≤ p → p < top → ((p - s0) / B = r ∨ .block (mb - 1 - (p - s0) / B) ∈ s.queue.map (·.key)) →
    (s.sm.get p).cs = none
  csd : ∀ p, s.prev ≤ p → p < top → (p - s0) / B ≠ r → .block (mb - 1 - (p - s0) / B) ∉ s.queue.map (·.key) →
    ∃ c, (s.sm.get p).cs = some c ∧ s.prev ≤ c ∧ c < s0 + (p - s0) / B * B ∧ (s.sm.get c).etag = none ∧
      (s.sm.get c).base = some (s0 + (p - s0) / B * B) ∧
      W c = sumW W (s0 + (p - s0) / B * B) (blockEnd s0 top B ((p - s0) / B))
  tgt : ∀ x ∈ s.placed, s.prev ≤ x.2 ∧ x.2 < top ∧ x.1.isBlock = false ∧
    (∀ i, x.1 = .tag i → (s.sm.get x.2).etag = some i) ∧ (x.1 = .pub → (s.sm.get x.2).etag = none) ∧
    (s.sm.get x.2).base = none
  same : ∀ p p', s.prev ≤ p → p < top → s.prev ≤ p' → p' < top → (p - s0) / B = (p' - s0) / B →
    (s.sm.get p).cs = (s.sm.get p').cs
  all : ∀ p, s.prev ≤ p → p < top → ((s.sm.get p).etag = none ∧ ∃ b, (s.sm.get p).base = some b ∧ s0 ≤ b ∧ b < top) ∨
    ∃ key, (key, p) ∈ s.placed
  perm : (s.placed.map (·.1) ++ (s.queue.map (·.key)).filter (fun k => !k.isBlock)).Perm q0
  sorted : s.queue.Pairwise (fun a b => a.weight ≤ b.weight)
  wpos : ∀ p, s.prev ≤ p → p < top → 1 ≤ W p
  qpos : ∀ e ∈ s.queue, 1 ≤ e.weight
  wmono : ∀ p p', s.prev ≤ p → p ≤ p' → p' < top → W p' ≤ W p
  wq : ∀ e ∈ s.queue, ∀ p, s.prev ≤ p → p < top → W p ≤ e.weight
  wtot : (s.queue.map (·.weight)).sum + sumW W s.prev (blockEnd s0 top B r) = total
  wle : ∀ p, s.prev ≤ p → p < top → W p ≤ total

theorem div_block {s0 p B t : Nat} (hB : 0 < B) (h1 : s0 + t * B ≤ p) (h2 : p < s0 + (t + 1) * B) :
    (p - s0) / B = t := by
  rw [Nat.div_eq_iff hB]
  rw [Nat.add_mul] at h2
  omega

theorem block_div {s0 p B : Nat} (hB : 0 < B) (h : s0 ≤ p) :
    s0 + (p - s0) / B * B ≤ p ∧ p < s0 + ((p - s0) / B + 1) * B := by
  have := Nat.div_add_mod (p - s0) B
  have h2 := Nat.mod_lt (p - s0) hB
  rw [Nat.mul_comm] at this
  rw [Nat.add_mul]
  omega

/-- `W` after the state at `p` was created. -/
def setW (W : Nat → Nat) (p w : Nat) : Nat → Nat := fun x => if x = p then w else W x

theorem sumW_setW (W : Nat → Nat) (p w : Nat) {a b : Nat} (h : p < a ∨ b ≤ p) : sumW (setW W p w) a b = sumW W a b :=
  sumW_congr (fun x h1 h2 => by unfold setW; rw [if_neg (by omega)])

theorem mem_sum_le : ∀ {l : List Nat} {x : Nat}, x ∈ l → x ≤ l.sum
  | y :: l, x, h => by
    rw [List.sum_cons]
    rcases List.mem_cons.1 h with rfl | h
    · omega
    · have := mem_sum_le h; omega

/-- Creating a state which is not a `kNoOp` of a block. -/
theorem buildPop_state {m0 : SM} {s0 top maxT mb total : Nat} {q0 : List Key} {W : Nat → Nat} {s : BSt} {r : Nat}
    (h : BInv m0 s0 top (maxT + 1) mb total q0 W s r) (hr : s0 + r * (maxT + 1) < s.prev)
    {e : Entry} {q : List Entry} (hq : s.queue = e :: q) (hk : e.key.isBlock = false) (et : Option Nat)
    (het : ∀ i, e.key = .tag i → et = some i) (het' : e.key = .pub → et = none) :
    BInv m0 s0 top (maxT + 1) mb total q0 (setW W (s.prev - 1) e.weight)
      ⟨s.sm.set (s.prev - 1) ⟨et, none, none⟩, s.prev - 1, q, s.noopBase, (e.key, s.prev - 1) :: s.placed⟩ r := by
  obtain ⟨p, hp⟩ : ∃ p, s.prev = p + 1 := ⟨s.prev - 1, by omega⟩
  have hhi := h.hi
  have hbe : p + 1 ≤ s0 + (r + 1) * (maxT + 1) := by unfold blockEnd at hhi; omega
  have hptop : p < top := by unfold blockEnd at hhi; omega
  rw [hp] at hr hhi
  have hpr : (p - s0) / (maxT + 1) = r := div_block (by omega) (by omega) (by omega)
  have hget : ∀ x, x ≠ p → (s.sm.set p ⟨et, none, none⟩).get x = s.sm.get x := by
    intro x hx; simp [SM.set, hx]
  have hgetp : (s.sm.set p ⟨et, none, none⟩).get p = ⟨et, none, none⟩ := by simp [SM.set]
  have hsum : ∀ t, r < t → sumW (setW W p e.weight) (s0 + t * (maxT + 1)) (blockEnd s0 top (maxT + 1) t) =
      sumW W (s0 + t * (maxT + 1)) (blockEnd s0 top (maxT + 1) t) := by
    intro t ht
    apply sumW_setW
    have : (r + 1) * (maxT + 1) ≤ t * (maxT + 1) := Nat.mul_le_mul_right _ ht
    omega
  have hW : ∀ x, x ≠ p → setW W p e.weight x = W x := by intro x hx; simp [setW, hx]
  have hWp : setW W p e.weight p = e.weight := by simp [setW]
  have hmem : ∀ e' ∈ q, e' ∈ s.queue := fun e' he => by rw [hq]; exact List.mem_cons_of_mem _ he
  have hnd := h.qnodup
  have hso := h.sorted
  have hcnt := h.cnt
  have htot := h.wtot
  have hperm := h.perm
  rw [hq] at hnd hso hcnt htot hperm
  rw [hp] at hcnt htot
  rw [List.map_cons, List.nodup_cons] at hnd
  rw [List.pairwise_cons] at hso
  rw [List.map_cons, List.sum_cons] at htot
  have hkb : ∀ k, e.key ≠ .block k := by intro k hk'; rw [hk'] at hk; simp [Key.isBlock] at hk
  rw [hp, Nat.add_sub_cancel]
  constructor
  · exact h.size
  · simp only; omega
  · simp only; omega
  · simp only [List.length_cons] at hcnt ⊢; omega
  · exact h.nlen
  · exact h.nb
  · intro i hi; rw [hget i (by omega)]; exact h.old i hi
  · intro e' he k hk'
    obtain ⟨t, h1, h2, h3, h4⟩ := h.qblock e' (hmem e' he) k hk'
    exact ⟨t, h1, h2, h3, by rw [hsum t h1]; exact h4⟩
  · exact hnd.2
  · intro x h1 h2 h3
    by_cases hx : x = p
    · rw [hx, hgetp]
    · rw [hget x hx]
      simp only at h1
      refine h.csq x (by omega) h2 ?_
      rcases h3 with h3 | h3
      · exact Or.inl h3
      · right; rw [hq]; exact List.mem_cons_of_mem _ h3
  · intro x h1 h2 h3 h4
    simp only at h1
    by_cases hx : x = p
    · rw [hx] at h3; exact absurd hpr h3
    · have hge : r < (x - s0) / (maxT + 1) := by
        have : r ≤ (x - s0) / (maxT + 1) := by
          rw [Nat.le_div_iff_mul_le (by omega)]; omega
        omega
      obtain ⟨c, g1, g2, g3, g4, g5, g6⟩ := h.csd x (by omega) h2 h3 (by
        rw [hq, List.map_cons, List.mem_cons]
        rintro (h5 | h5)
        · exact hkb _ h5.symm
        · exact h4 h5)
      rw [hp] at g2
      refine ⟨c, ?_, by simp only; omega, g3, ?_, ?_, ?_⟩
      · rw [hget x hx]; exact g1
      · rw [hget c (by omega)]; exact g4
      · rw [hget c (by omega)]; exact g5
      · rw [hW c (by omega), hsum _ hge]; exact g6
  · intro x hx
    rcases List.mem_cons.1 hx with rfl | hx
    · exact ⟨Nat.le_refl _, hptop, hk, fun i hi => by simp only [hgetp]; exact het i hi,
        fun hi => by simp only [hgetp]; exact het' hi, by simp only [hgetp]⟩
    · obtain ⟨g1, g2, g3, g4, g5⟩ := h.tgt x hx
      rw [hp] at g1
      rw [hget x.2 (by omega)]
      exact ⟨by simp only; omega, g2, g3, g4, g5⟩
  · have key : ∀ x, x ≠ p → p + 1 ≤ x → x < top → (x - s0) / (maxT + 1) = r → (s.sm.get x).cs = none :=
      fun x _ h1 h2 h3 => h.csq x (by omega) h2 (Or.inl h3)
    intro x x' h1 h2 h3 h4 h5
    simp only at h1 h3 ⊢
    by_cases hx : x = p
    · by_cases hx' : x' = p
      · rw [hx, hx']
      · rw [hx, hgetp, hget x' hx', key x' hx' (by omega) h4 (by rw [← h5, hx]; exact hpr)]
    · by_cases hx' : x' = p
      · rw [hx', hgetp, hget x hx, key x hx (by omega) h2 (by rw [h5, hx']; exact hpr)]
      · rw [hget x hx, hget x' hx']
        exact h.same x x' (by omega) h2 (by omega) h4 h5
  · intro x h1 h2
    simp only at h1
    by_cases hx : x = p
    · exact Or.inr ⟨e.key, by rw [hx]; exact List.mem_cons_self⟩
    · rw [hget x hx]
      rcases h.all x (by omega) h2 with g | ⟨key, g⟩
      · exact Or.inl g
      · exact Or.inr ⟨key, List.mem_cons_of_mem _ g⟩
  · refine List.Perm.trans ?_ hperm
    simp only [List.map_cons, List.filter_cons, hk, Bool.not_false, if_true, List.cons_append]
    exact List.perm_middle.symm
  · exact hso.2
  · intro x h1 h2
    simp only at h1
    by_cases hx : x = p
    · rw [hx, hWp]; exact h.qpos e (by rw [hq]; exact List.mem_cons_self)
    · rw [hW x hx]; exact h.wpos x (by omega) h2
  · exact fun e' he => h.qpos e' (hmem e' he)
  · intro x x' h1 h2 h3
    simp only at h1
    by_cases hx' : x' = p
    · have : x = p := by omega
      rw [this, hx']; exact Nat.le_refl _
    · rw [hW x' hx']
      by_cases hx : x = p
      · rw [hx, hWp]; exact h.wq e (by rw [hq]; exact List.mem_cons_self) x' (by omega) h3
      · rw [hW x hx]; exact h.wmono x x' (by omega) h2 h3
  · intro e' he x h1 h2
    simp only at h1
    by_cases hx : x = p
    · rw [hx, hWp]; exact hso.1 e' he
    · rw [hW x hx]; exact h.wq e' (hmem e' he) x (by omega) h2
  · simp only
    rw [sumW_cons _ (by unfold blockEnd at hhi ⊢; omega), hWp, sumW_setW _ _ _ (Or.inl (by omega))]
    omega
  · intro x h1 h2
    simp only at h1
    by_cases hx : x = p
    · rw [hx, hWp]; omega
    · rw [hW x hx]; exact h.wle x (by omega) h2

/-- Creating a `kNoOp` of a block. -/
theorem buildPop_block {m0 : SM} {s0 top maxT mb total : Nat} {q0 : List Key} {W : Nat → Nat} {s : BSt} {r : Nat}
    (h : BInv m0 s0 top (maxT + 1) mb total q0 W s r) (htop : top ≤ s0 + mb * (maxT + 1))
    (hr : s0 + r * (maxT + 1) < s.prev)
    {e : Entry} {q : List Entry} (hq : s.queue = e :: q) {k base : Nat} (hk : e.key = .block k)
    (hbase : s.noopBase[k]? = some base) (m : SM) (hm : m = s.sm.set (s.prev - 1) ⟨none, some base, none⟩) :
    BInv m0 s0 top (maxT + 1) mb total q0 (setW W (s.prev - 1) e.weight)
      ⟨{ m with get := fun i =>
            if base ≤ i ∧ i ≤ base + maxT ∧ i < m.size then { m.get i with cs := some (s.prev - 1) } else m.get i },
        s.prev - 1, q, s.noopBase, s.placed⟩ r := by
  obtain ⟨p, hp⟩ : ∃ p, s.prev = p + 1 := ⟨s.prev - 1, by omega⟩
  have hhi := h.hi
  have hbe : p + 1 ≤ s0 + (r + 1) * (maxT + 1) := by unfold blockEnd at hhi; omega
  have hptop : p < top := by unfold blockEnd at hhi; omega
  rw [hp] at hr hhi hm
  rw [Nat.add_sub_cancel] at hm
  have hpr : (p - s0) / (maxT + 1) = r := div_block (by omega) (by omega) (by omega)
  obtain ⟨t, ht1, ht2, ht3, ht4⟩ := h.qblock e (by rw [hq]; exact List.mem_cons_self) k hk
  have hb : base = s0 + t * (maxT + 1) := by
    have := h.nb t ht1 ht2
    rw [← ht3, hbase] at this
    cases this; rfl
  have hrt : (r + 1) * (maxT + 1) ≤ t * (maxT + 1) := Nat.mul_le_mul_right _ ht1
  have hmsize : m.size = top := by rw [hm]; exact h.size
  have hpm : m.get p = ⟨none, some base, none⟩ := by rw [hm]; simp [SM.set]
  have hxm : ∀ x, x ≠ p → m.get x = s.sm.get x := by intro x hx; rw [hm]; simp [SM.set, hx]
  rw [hmsize, hp, Nat.add_sub_cancel]
  have hdiv : ∀ x, s0 ≤ x → ((x - s0) / (maxT + 1) = t ↔ base ≤ x ∧ x ≤ base + maxT) := by
    intro x hx
    constructor
    · intro hd
      have := block_div (B := maxT + 1) (by omega) hx
      rw [hd, Nat.add_mul] at this
      omega
    · intro hd
      exact div_block (by omega) (by omega) (by rw [Nat.add_mul]; omega)
  generalize hG : (fun i => if base ≤ i ∧ i ≤ base + maxT ∧ i < top then { m.get i with cs := some p } else m.get i) = G
  have hGp : G p = ⟨none, some base, none⟩ := by
    rw [← hG]; simp only; rw [if_neg (by omega), hpm]
  have hGe : ∀ x, x ≠ p → (G x).etag = (s.sm.get x).etag ∧ (G x).base = (s.sm.get x).base := by
    intro x hx
    rw [← hG]; simp only [hxm x hx]
    split <;> exact ⟨rfl, rfl⟩
  have hGt : ∀ x, x ≠ p → s0 ≤ x → x < top → (x - s0) / (maxT + 1) = t → (G x).cs = some p := by
    intro x hx h0 h1 h2
    rw [hdiv x h0] at h2
    rw [← hG]; simp only; rw [if_pos ⟨h2.1, h2.2, h1⟩]
  have hGn : ∀ x, x ≠ p → s0 ≤ x → (x - s0) / (maxT + 1) ≠ t → (G x).cs = (s.sm.get x).cs := by
    intro x hx h0 h2
    rw [Ne, hdiv x h0] at h2
    rw [← hG]; simp only; rw [if_neg (fun hh => h2 ⟨hh.1, hh.2.1⟩), hxm x hx]
  have hsum : ∀ t, r < t → sumW (setW W p e.weight) (s0 + t * (maxT + 1)) (blockEnd s0 top (maxT + 1) t) =
      sumW W (s0 + t * (maxT + 1)) (blockEnd s0 top (maxT + 1) t) := by
    intro t ht
    apply sumW_setW
    have : (r + 1) * (maxT + 1) ≤ t * (maxT + 1) := Nat.mul_le_mul_right _ ht
    omega
  have hW : ∀ x, x ≠ p → setW W p e.weight x = W x := by intro x hx; simp [setW, hx]
  have hWp : setW W p e.weight p = e.weight := by simp [setW]
  have hmem : ∀ e' ∈ q, e' ∈ s.queue := fun e' he => by rw [hq]; exact List.mem_cons_of_mem _ he
  have hnd := h.qnodup
  have hso := h.sorted
  have hcnt := h.cnt
  have htot := h.wtot
  have hperm := h.perm
  rw [hq] at hnd hso hcnt htot hperm
  rw [hp] at hcnt htot
  rw [List.map_cons, List.nodup_cons] at hnd
  rw [List.pairwise_cons] at hso
  rw [List.map_cons, List.sum_cons] at htot
  have hlt : ∀ x, s0 ≤ x → x < top → (x - s0) / (maxT + 1) < mb := by
    intro x h0 h1
    rw [Nat.div_lt_iff_lt_mul (by omega)]
    omega
  constructor
  · exact rfl
  · simp only; omega
  · simp only; omega
  · simp only [List.length_cons] at hcnt ⊢; omega
  · exact h.nlen
  · exact h.nb
  · intro i hi
    simp only
    rw [← hG]
    simp only
    rw [if_neg (by omega), hxm i (by omega)]
    exact h.old i hi
  · intro e' he k hk'
    obtain ⟨t, h1, h2, h3, h4⟩ := h.qblock e' (hmem e' he) k hk'
    exact ⟨t, h1, h2, h3, by rw [hsum t h1]; exact h4⟩
  · exact hnd.2
  · intro x h1 h2 h3
    simp only at h1 h3 ⊢
    by_cases hx : x = p
    · rw [hx, hGp]
    · have hne : (x - s0) / (maxT + 1) ≠ t := by
        intro hh
        rcases h3 with h3 | h3
        · omega
        · rw [hh, ← ht3, ← hk] at h3; exact hnd.1 h3
      rw [hGn x hx (by omega) hne]
      refine h.csq x (by omega) h2 ?_
      rcases h3 with h3 | h3
      · exact Or.inl h3
      · right; rw [hq]; exact List.mem_cons_of_mem _ h3
  · intro x h1 h2 h3 h4
    simp only at h1 h4 ⊢
    by_cases hx : x = p
    · rw [hx] at h3; exact absurd hpr h3
    · have hge : r < (x - s0) / (maxT + 1) := by
        have : r ≤ (x - s0) / (maxT + 1) := by
          rw [Nat.le_div_iff_mul_le (by omega)]; omega
        omega
      by_cases hxt : (x - s0) / (maxT + 1) = t
      · refine ⟨p, hGt x hx (by omega) h2 hxt, Nat.le_refl _, ?_, ?_, ?_, ?_⟩
        · rw [hxt]; omega
        · rw [hGp]
        · rw [hGp, hxt, hb]
        · rw [hWp, hsum _ hge, hxt]; exact ht4
      · obtain ⟨c, g1, g2, g3, g4, g5, g6⟩ := h.csd x (by omega) h2 h3 (by
          rw [hq, List.map_cons, List.mem_cons]
          rintro (h5 | h5)
          · rw [hk, ht3] at h5
            simp only [Key.block.injEq] at h5
            have := hlt x (by omega) h2
            omega
          · exact h4 h5)
        rw [hp] at g2
        refine ⟨c, ?_, by omega, g3, ?_, ?_, ?_⟩
        · rw [hGn x hx (by omega) hxt]; exact g1
        · rw [(hGe c (by omega)).1]; exact g4
        · rw [(hGe c (by omega)).2]; exact g5
        · rw [hW c (by omega), hsum _ hge]; exact g6
  · intro x hx
    obtain ⟨g1, g2, g3, g4, g5⟩ := h.tgt x hx
    rw [hp] at g1
    simp only
    rw [(hGe x.2 (by omega)).1, (hGe x.2 (by omega)).2]
    exact ⟨by omega, g2, g3, g4, g5⟩
  · have key : ∀ x, x ≠ p → p + 1 ≤ x → x < top → (x - s0) / (maxT + 1) = r → (G x).cs = none := by
      intro x h0 h1 h2 h3
      rw [hGn x h0 (by omega) (by omega)]
      exact h.csq x (by omega) h2 (Or.inl h3)
    intro x x' h1 h2 h3 h4 h5
    simp only at h1 h3 ⊢
    by_cases hx : x = p
    · by_cases hx' : x' = p
      · rw [hx, hx']
      · rw [hx, hGp, key x' hx' (by omega) h4 (by rw [← h5, hx]; exact hpr)]
    · by_cases hx' : x' = p
      · rw [hx', hGp, key x hx (by omega) h2 (by rw [h5, hx']; exact hpr)]
      · by_cases ht : (x - s0) / (maxT + 1) = t
        · rw [hGt x hx (by omega) h2 ht, hGt x' hx' (by omega) h4 (by rw [← h5]; exact ht)]
        · rw [hGn x hx (by omega) ht, hGn x' hx' (by omega) (by rw [← h5]; exact ht)]
          exact h.same x x' (by omega) h2 (by omega) h4 h5
  · intro x h1 h2
    simp only at h1 ⊢
    by_cases hx : x = p
    · left
      rw [hx, hGp]
      refine ⟨rfl, base, rfl, by omega, ?_⟩
      have : s.noopBase.length + r + 1 = mb := h.nlen
      have htt := h.wtot
      -- block `t` is not empty, as its weight is positive
      have hw := h.qpos e (by rw [hq]; exact List.mem_cons_self)
      rw [ht4] at hw
      apply Nat.lt_of_not_le
      intro hle
      have : blockEnd s0 top (maxT + 1) t - (s0 + t * (maxT + 1)) = 0 := by unfold blockEnd; omega
      unfold sumW at hw
      rw [this] at hw
      simp at hw
    · rw [(hGe x hx).1, (hGe x hx).2]
      exact h.all x (by omega) h2
  · refine List.Perm.trans ?_ hperm
    simp only [List.map_cons, List.filter_cons, hk, Key.isBlock, Bool.not_true, Bool.false_eq_true, if_false]
    exact List.Perm.refl _
  · exact hso.2
  · intro x h1 h2
    simp only at h1
    by_cases hx : x = p
    · rw [hx, hWp]; exact h.qpos e (by rw [hq]; exact List.mem_cons_self)
    · rw [hW x hx]; exact h.wpos x (by omega) h2
  · exact fun e' he => h.qpos e' (hmem e' he)
  · intro x x' h1 h2 h3
    simp only at h1
    by_cases hx' : x' = p
    · have : x = p := by omega
      rw [this, hx']; exact Nat.le_refl _
    · rw [hW x' hx']
      by_cases hx : x = p
      · rw [hx, hWp]; exact h.wq e (by rw [hq]; exact List.mem_cons_self) x' (by omega) h3
      · rw [hW x hx]; exact h.wmono x x' (by omega) h2 h3
  · intro e' he x h1 h2
    simp only at h1
    by_cases hx : x = p
    · rw [hx, hWp]; exact hso.1 e' he
    · rw [hW x hx]; exact h.wq e' (hmem e' he) x (by omega) h2
  · simp only
    rw [sumW_cons _ (by unfold blockEnd at hhi ⊢; omega), hWp, sumW_setW _ _ _ (Or.inl (by omega))]
    omega
  · intro x h1 h2
    simp only at h1
    by_cases hx : x = p
    · rw [hx, hWp]; omega
    · rw [hW x hx]; exact h.wle x (by omega) h2

/-- Creating one state. -/
theorem buildPop_spec {m0 : SM} {s0 top maxT mb total : Nat} {q0 : List Key} {W : Nat → Nat} {s : BSt} {r : Nat}
    (h : BInv m0 s0 top (maxT + 1) mb total q0 W s r) (htop : top ≤ s0 + mb * (maxT + 1))
    (hr : s0 + r * (maxT + 1) < s.prev) :
    ∃ s' w, buildPop maxT s = some (s', w) ∧ s'.prev + 1 = s.prev ∧
      BInv m0 s0 top (maxT + 1) mb total q0 (setW W s'.prev w) s' r := by
  cases hq : s.queue with
  | nil =>
    exfalso
    have := h.cnt
    rw [hq] at this
    have h2 : r ≤ r * (maxT + 1) := Nat.le_mul_of_pos_right _ (by omega)
    simp only [List.length_nil] at this
    omega
  | cons e q =>
    unfold buildPop
    simp only [hq]
    rw [if_neg (by omega)]
    cases hk : e.key with
    | pub =>
      simp only
      refine ⟨_, _, rfl, by simp only; omega, ?_⟩
      have := buildPop_state h hr hq (by rw [hk]; rfl) none (by rw [hk]; intro i hi; cases hi) (fun _ => rfl)
      rw [hk] at this
      exact this
    | tag i =>
      simp only
      refine ⟨_, _, rfl, by simp only; omega, ?_⟩
      have := buildPop_state h hr hq (by rw [hk]; rfl) (some i) (by rw [hk]; intro j hj; cases hj; rfl)
        (by rw [hk]; intro hj; cases hj)
      rw [hk] at this
      exact this
    | block k =>
      simp only
      obtain ⟨t, ht1, ht2, ht3, ht4⟩ := h.qblock e (by rw [hq]; exact List.mem_cons_self) k hk
      have hb := h.nb t ht1 ht2
      rw [← ht3] at hb
      rw [hb]
      simp only
      refine ⟨_, _, rfl, by simp only; omega, ?_⟩
      exact buildPop_block h htop hr hq hk hb _ rfl

end Riegeli.Tr

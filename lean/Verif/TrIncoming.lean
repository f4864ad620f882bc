import Verif.TrBase
/-!
# Transposed chunks: numbers of transitions
-/
namespace Riegeli.Tr

/-- The sum of `f` over numbers less than `n`. -/
def sumN : Nat → (Nat → Nat) → Nat
  | 0, _ => 0
  | n + 1, f => sumN n f + f n

theorem sumN_le {n : Nat} {f g : Nat → Nat} (h : ∀ i, i < n → f i ≤ g i) : sumN n f ≤ sumN n g := by
  induction n with
  | zero => exact Nat.le_refl _
  | succ n ih => exact Nat.add_le_add (ih (fun i hi => h i (by omega))) (h n (by omega))

theorem le_sumN {n i : Nat} (f : Nat → Nat) (h : i < n) : f i ≤ sumN n f := by
  induction n with
  | zero => omega
  | succ n ih =>
    simp only [sumN]
    by_cases hi : i = n
    · subst hi; omega
    · have := ih (by omega); omega

theorem sumN_add {n i v : Nat} {f g : Nat → Nat} (hi : i < n) (h : ∀ j, j ≠ i → g j ≤ f j) (hv : g i + v ≤ f i) :
    sumN n g + v ≤ sumN n f := by
  induction n with
  | zero => omega
  | succ n ih =>
    simp only [sumN]
    by_cases hin : i = n
    · subst hin
      have := sumN_le (n := i) (f := g) (g := f) (fun j hj => h j (by omega))
      omega
    · have := ih (by omega)
      have := h n (by omega)
      omega

theorem sumN_incr {n i v : Nat} {f g : Nat → Nat} (h : ∀ j, j ≠ i → g j ≤ f j) (hv : g i ≤ f i + v) :
    sumN n g ≤ sumN n f + v := by
  induction n with
  | zero => simp [sumN]
  | succ n ih =>
    simp only [sumN]
    by_cases hin : i = n
    · subst hin
      have := sumN_le (n := i) (f := g) (g := f) (fun j hj => h j (by omega))
      omega
    · have := h n (by omega)
      omega

/-- What holds about the numbers of transitions between tags of `E`. -/
structure TInv (n k first : Nat) (E : List Nat) (tags : Nat → TagInfo) : Prop where
  nodup : ∀ a, (tags a).dests.Nodup
  cnt : ∀ a d, d ∈ (tags a).dests ↔ 1 ≤ (tags a).cnt d
  mem : ∀ a d, d ∈ (tags a).dests → a ∈ E ∧ d ∈ E
  posmem : ∀ a d, (tags a).pos d ≠ none → d ∈ (tags a).dests
  inc : ∀ d, sumN n (fun a => if (tags a).pos d = none then (tags a).cnt d else 0) ≤ (tags d).incoming
  incE : ∀ d, (tags d).incoming ≠ 0 → d ∈ E
  start : (tags first).incoming ≠ 0 ∨ ∃ a, (tags a).pos first ≠ none
  len : sumN n (fun a => (tags a).dests.length) ≤ k
  tot : sumN n (fun a => (tags a).incoming) ≤ k + 1
  cntle : ∀ a d, (tags a).cnt d ≤ k

/-- A tag whose list was not created. -/
def Fresh (t : TagInfo) : Prop := t.smPos = none ∧ t.noopPos = none ∧ t.base = none ∧ ∀ d p, t.pos d = some p → p = 0

/-- Invariant of `collectLoop`. -/
structure CInv (n k : Nat) (E : List Nat) (tags : Nat → TagInfo) : Prop where
  nodup : ∀ a, (tags a).dests.Nodup
  cnt : ∀ a d, d ∈ (tags a).dests ↔ 1 ≤ (tags a).cnt d
  mem : ∀ a d, d ∈ (tags a).dests → a ∈ E ∧ d ∈ E
  inc : ∀ d, sumN n (fun a => (tags a).cnt d) ≤ (tags d).incoming
  incE : ∀ d, (tags d).incoming ≠ 0 → d ∈ E
  len : sumN n (fun a => (tags a).dests.length) ≤ k
  tot : sumN n (fun a => (tags a).incoming) ≤ k
  cntle : ∀ a d, (tags a).cnt d ≤ k
  fresh : ∀ a, (tags a).smPos = none ∧ (tags a).noopPos = none ∧ (tags a).base = none ∧ ∀ d, (tags a).pos d = none

theorem updTag_self (tags : Nat → TagInfo) (i : Nat) (f : TagInfo → TagInfo) : updTag tags i f i = f (tags i) := by
  simp [updTag]

theorem updTag_ne (tags : Nat → TagInfo) {i j : Nat} (f : TagInfo → TagInfo) (h : j ≠ i) : updTag tags i f j = tags j := by
  simp [updTag, h]

theorem collectLoop_spec {n : Nat} {E : List Nat} : ∀ (rest : List Nat) (prev k : Nat) (tags : Nat → TagInfo),
    CInv n k E tags → prev ∈ E → (∀ x ∈ rest, x ∈ E) →
    CInv n (k + rest.length) E (collectLoop tags prev rest) ∧
    (∀ a d, d ∈ (tags a).dests → d ∈ (collectLoop tags prev rest a).dests) ∧
    (∀ i a d, (prev :: rest)[i]? = some a → (prev :: rest)[i + 1]? = some d → d ∈ (collectLoop tags prev rest a).dests)
  | [], prev, k, tags, h, hp, hr => by
    refine ⟨h, fun a d hd => hd, ?_⟩
    intro i a d _ h2
    simp at h2
  | x :: rest, prev, k, tags, h, hp, hr => by
    simp only [collectLoop]
    generalize hT : updTag (updTag tags prev (·.countDest x)) x (fun t => { t with incoming := t.incoming + 1 }) = T
    have hx : x ∈ E := hr x List.mem_cons_self
    have hd : ∀ a, (T a).dests = if a = prev then (if x ∈ (tags a).dests then (tags a).dests else (tags a).dests ++ [x])
        else (tags a).dests := by
      intro a; rw [← hT]; unfold updTag TagInfo.countDest
      by_cases h1 : a = x <;> by_cases h2 : a = prev <;> simp [h1, h2] <;> (try subst h1) <;> (try simp [h2]) <;> simp_all
    have hc : ∀ a d, (T a).cnt d = if a = prev ∧ d = x then (tags a).cnt d + 1 else (tags a).cnt d := by
      intro a d; rw [← hT]; unfold updTag TagInfo.countDest
      by_cases h1 : a = x <;> by_cases h2 : a = prev <;> by_cases h3 : d = x <;> simp_all
      all_goals (split <;> simp_all)
    have hi : ∀ a, (T a).incoming = if a = x then (tags a).incoming + 1 else (tags a).incoming := by
      intro a; rw [← hT]; unfold updTag TagInfo.countDest
      by_cases h1 : a = x <;> by_cases h2 : a = prev <;> simp_all
    have hf : ∀ a, (T a).smPos = (tags a).smPos ∧ (T a).noopPos = (tags a).noopPos ∧ (T a).base = (tags a).base ∧
        (T a).pos = (tags a).pos := by
      intro a; rw [← hT]; unfold updTag TagInfo.countDest
      by_cases h1 : a = x <;> by_cases h2 : a = prev <;> simp_all
    have hmem : ∀ a d, d ∈ (T a).dests ↔ (a = prev ∧ d = x) ∨ d ∈ (tags a).dests := by
      intro a d; rw [hd]
      by_cases h2 : a = prev
      · by_cases h3 : x ∈ (tags a).dests
        · rw [if_pos h2, if_pos h3]
          constructor
          · exact Or.inr
          · rintro (⟨_, rfl⟩ | h)
            · exact h3
            · exact h
        · rw [if_pos h2, if_neg h3, List.mem_append, List.mem_singleton]
          constructor
          · rintro (h | h)
            · exact Or.inr h
            · exact Or.inl ⟨h2, h⟩
          · rintro (h | h)
            · exact Or.inr h.2
            · exact Or.inl h
      · simp [h2]
    have hinv : CInv n (k + 1) E T := by
      constructor
      · intro a; rw [hd]
        split
        · split
          · exact h.nodup a
          · rw [List.nodup_append]
            refine ⟨h.nodup a, by simp, ?_⟩
            intro y hy z hz
            simp only [List.mem_singleton] at hz
            rintro rfl
            subst hz
            contradiction
        · exact h.nodup a
      · intro a d
        rw [hmem, hc]
        by_cases h1 : a = prev ∧ d = x
        · rw [if_pos h1]; simp [h1]
        · rw [if_neg h1, ← h.cnt a d]; simp [h1]
      · intro a d h1
        rw [hmem] at h1
        rcases h1 with ⟨rfl, rfl⟩ | h1
        · exact ⟨hp, hx⟩
        · exact h.mem a d h1
      · intro d
        have h0 := h.inc d
        rw [hi]
        by_cases h1 : d = x
        · rw [if_pos h1]
          refine Nat.le_trans (sumN_incr (i := prev) (v := 1) (f := fun a => (tags a).cnt d) ?_ ?_) (by omega)
          · intro j hj; simp only [hc]; rw [if_neg (fun hh => hj hh.1)]; exact Nat.le_refl _
          · simp only [hc]; split <;> omega
        · rw [if_neg h1]
          refine Nat.le_trans (sumN_le ?_) h0
          intro j _
          simp only [hc]
          rw [if_neg (fun hh => h1 hh.2)]
          exact Nat.le_refl _
      · intro d h1
        rw [hi] at h1
        by_cases h2 : d = x
        · rw [h2]; exact hx
        · rw [if_neg h2] at h1; exact h.incE d h1
      · refine Nat.le_trans (sumN_incr (i := prev) (v := 1) (f := fun a => (tags a).dests.length) ?_ ?_)
          (by have := h.len; omega)
        · intro j hj; simp only [hd]; rw [if_neg hj]; exact Nat.le_refl _
        · simp only [hd, if_pos]
          split
          · omega
          · simp
      · refine Nat.le_trans (sumN_incr (i := x) (v := 1) (f := fun a => (tags a).incoming) ?_ ?_)
          (by have := h.tot; omega)
        · intro j hj; simp only [hi]; rw [if_neg hj]; exact Nat.le_refl _
        · simp only [hi, if_pos]; exact Nat.le_refl _
      · intro a d
        have := h.cntle a d
        rw [hc]; split <;> omega
      · intro a
        obtain ⟨e1, e2, e3, e4⟩ := hf a
        rw [e1, e2, e3, e4]
        exact h.fresh a
    obtain ⟨g1, g2, g3⟩ := collectLoop_spec rest x (k + 1) T hinv hx (fun y hy => hr y (List.mem_cons_of_mem _ hy))
    refine ⟨?_, ?_, ?_⟩
    · rw [List.length_cons, show k + (rest.length + 1) = k + 1 + rest.length by omega]; exact g1
    · intro a d h1
      exact g2 a d ((hmem a d).2 (Or.inr h1))
    · intro i a d h1 h2
      cases i with
      | zero =>
        simp only [List.getElem?_cons_zero, Option.some.injEq] at h1
        simp only [Nat.zero_add, List.getElem?_cons_succ, List.getElem?_cons_zero, Option.some.injEq] at h2
        subst h1 h2
        exact g2 _ _ ((hmem _ _).2 (Or.inl ⟨rfl, rfl⟩))
      | succ i =>
        rw [List.getElem?_cons_succ] at h1 h2
        exact g3 i a d h1 h2

/-- After `CollectTransitionStatistics`. -/
theorem collect_spec {n : Nat} (first : Nat) (rest : List Nat) (hn : first < n) :
    TInv n rest.length first (first :: rest) (collect first rest) ∧ (∀ a, Fresh (collect first rest a)) ∧
    (∀ a d, (collect first rest a).pos d = none) ∧
    (∀ i a d, (first :: rest)[i]? = some a → (first :: rest)[i + 1]? = some d → d ∈ (collect first rest a).dests) := by
  have h0 : CInv n 0 (first :: rest) (fun _ => TagInfo.init) := by
    have hz : ∀ m, sumN m (fun _ => 0) = 0 := by
      intro m; induction m with
      | zero => rfl
      | succ m ih => simp [sumN, ih]
    constructor <;> simp [TagInfo.init, hz]
  obtain ⟨h1, _, h3⟩ := collectLoop_spec rest first 0 _ h0 List.mem_cons_self (fun x hx => List.mem_cons_of_mem _ hx)
  rw [Nat.zero_add] at h1
  unfold collect
  simp only
  generalize collectLoop (fun _ => TagInfo.init) first rest = T at *
  have key : ∀ T' : Nat → TagInfo, (∀ a, (T' a).dests = (T a).dests ∧ (T' a).cnt = (T a).cnt ∧ (T' a).pos = (T a).pos ∧
      (T' a).smPos = (T a).smPos ∧ (T' a).noopPos = (T a).noopPos ∧ (T' a).base = (T a).base) →
      (∀ a, a ≠ first → (T' a).incoming = (T a).incoming) → (T first).incoming ≤ (T' first).incoming →
      (T' first).incoming ≤ (T first).incoming + 1 → (T' first).incoming ≠ 0 →
      TInv n rest.length first (first :: rest) T' ∧ (∀ a, Fresh (T' a)) ∧
      (∀ a d, (T' a).pos d = none) ∧
      (∀ i a d, (first :: rest)[i]? = some a → (first :: rest)[i + 1]? = some d → d ∈ (T' a).dests) := by
    intro T' hs hne hlo hhi hnz
    have hfr := h1.fresh
    refine ⟨⟨?_, ?_, ?_, ?_, ?_, ?_, ?_, ?_, ?_, ?_⟩, ?_, ?_, ?_⟩
    · intro a; rw [(hs a).1]; exact h1.nodup a
    · intro a d; rw [(hs a).1, (hs a).2.1]; exact h1.cnt a d
    · intro a d; rw [(hs a).1]; exact h1.mem a d
    · intro a d hp; rw [(hs a).2.2.1, (hfr a).2.2.2 d] at hp; exact absurd rfl hp
    · intro d
      refine Nat.le_trans (sumN_le (g := fun a => (T a).cnt d) ?_) (Nat.le_trans (h1.inc d) ?_)
      · intro a _; simp only [(hs a).2.1]; split <;> omega
      · by_cases hd : d = first
        · rw [hd]; exact hlo
        · rw [hne d hd]; exact Nat.le_refl _
    · intro d hd
      by_cases hdf : d = first
      · rw [hdf]; exact List.mem_cons_self
      · rw [hne d hdf] at hd; exact h1.incE d hd
    · exact Or.inl hnz
    · refine Nat.le_trans (sumN_le ?_) h1.len
      intro a _; simp only [(hs a).1]; exact Nat.le_refl _
    · refine Nat.le_trans (sumN_incr (i := first) (v := 1) ?_ ?_) (Nat.add_le_add_right h1.tot 1)
      · intro j hj; simp only [hne j hj]; exact Nat.le_refl _
      · exact hhi
    · intro a d; rw [(hs a).2.1]; exact h1.cntle a d
    · intro a
      obtain ⟨e1, e2, e3, e4⟩ := hfr a
      refine ⟨by rw [(hs a).2.2.2.1, e1], by rw [(hs a).2.2.2.2.1, e2], by rw [(hs a).2.2.2.2.2, e3], ?_⟩
      intro d p hp
      rw [(hs a).2.2.1, e4 d] at hp; cases hp
    · intro a d; rw [(hs a).2.2.1]; exact (hfr a).2.2.2 d
    · intro i a d g1 g2; rw [(hs a).1]; exact h3 i a d g1 g2
  split
  · rename_i hz
    apply key
    · intro a; by_cases ha : a = first
      · subst ha; rw [updTag_self]; simp
      · rw [updTag_ne _ _ ha]; simp
    · intro a ha; rw [updTag_ne _ _ ha]
    · rw [updTag_self]; simp only; omega
    · rw [updTag_self]; simp only; omega
    · rw [updTag_self]; simp
  · rename_i hz
    exact key T (fun _ => ⟨rfl, rfl, rfl, rfl, rfl, rfl⟩) (fun _ _ => rfl) (Nat.le_refl _) (by omega) hz

/-! ## Assigning transitions to private lists -/

/-- `T'` is `T` where the transitions from `a` to `D` were assigned, not being counted in `incoming` any longer if
they were. -/
structure Assigned (T T' : Nat → TagInfo) (a : Nat) (D : Nat → Prop) : Prop where
  dests : ∀ x, (T' x).dests = (T x).dests ∧ (T' x).cnt = (T x).cnt
  other : ∀ x d, x ≠ a → (T' x).pos d = (T x).pos d
  pos : ∀ d, (T' a).pos d ≠ none ↔ (T a).pos d ≠ none ∨ D d
  inc : ∀ d, (T' d).incoming = (T d).incoming ∨
    (D d ∧ (T a).pos d = none ∧ (T' d).incoming = (T d).incoming - (T a).cnt d)

theorem TInv.assigned {n k first : Nat} {E : List Nat} {T T' : Nat → TagInfo} (h : TInv n k first E T) {a : Nat}
    {D : Nat → Prop} (hA : Assigned T T' a D) (hD : ∀ d, D d → d ∈ (T a).dests) (hE : ∀ e ∈ E, e < n) :
    TInv n k first E T' := by
  have hle : ∀ d, (T' d).incoming ≤ (T d).incoming := by
    intro d; rcases hA.inc d with h1 | ⟨_, _, h1⟩ <;> omega
  constructor
  · intro x; rw [(hA.dests x).1]; exact h.nodup x
  · intro x d; rw [(hA.dests x).1, (hA.dests x).2]; exact h.cnt x d
  · intro x d; rw [(hA.dests x).1]; exact h.mem x d
  · intro x d hx
    rw [(hA.dests x).1]
    by_cases hxa : x = a
    · subst hxa
      rcases (hA.pos d).1 hx with h1 | h1
      · exact h.posmem x d h1
      · exact hD d h1
    · rw [hA.other x d hxa] at hx; exact h.posmem x d hx
  · intro d
    have hmono : ∀ x, (if (T' x).pos d = none then (T' x).cnt d else 0) ≤ (if (T x).pos d = none then (T x).cnt d else 0) := by
      intro x
      rw [(hA.dests x).2]
      by_cases hxa : x = a
      · subst hxa
        by_cases hp : (T' x).pos d = none
        · have : (T x).pos d = none := by
            cases hq : (T x).pos d with
            | none => rfl
            | some v => exact absurd hp ((hA.pos d).2 (Or.inl (by rw [hq]; simp)))
          rw [if_pos hp, if_pos this]; exact Nat.le_refl _
        · rw [if_neg hp]; exact Nat.zero_le _
      · rw [hA.other x d hxa]; exact Nat.le_refl _
    rcases hA.inc d with h1 | ⟨h1, h2, h3⟩
    · rw [h1]; exact Nat.le_trans (sumN_le (fun x _ => hmono x)) (h.inc d)
    · rw [h3]
      have han : a < n := hE a (h.mem a d (hD d h1)).1
      have := sumN_add (n := n) (i := a) (v := (T a).cnt d)
        (f := fun x => if (T x).pos d = none then (T x).cnt d else 0)
        (g := fun x => if (T' x).pos d = none then (T' x).cnt d else 0) han (fun x _ => hmono x) (by
          rw [if_pos h2, if_neg ((hA.pos d).2 (Or.inr h1))]; omega)
      have := h.inc d
      omega
  · intro d hd
    have := hle d
    exact h.incE d (by omega)
  · rcases h.start with h1 | ⟨x, h1⟩
    · rcases hA.inc first with h2 | ⟨h2, _, _⟩
      · rw [h2]; exact Or.inl h1
      · exact Or.inr ⟨a, (hA.pos first).2 (Or.inr h2)⟩
    · right
      refine ⟨x, ?_⟩
      by_cases hxa : x = a
      · subst hxa; exact (hA.pos first).2 (Or.inl h1)
      · rw [hA.other x first hxa]; exact h1
  · refine Nat.le_trans (sumN_le ?_) h.len
    intro x _; simp only [(hA.dests x).1]; exact Nat.le_refl _
  · exact Nat.le_trans (sumN_le (fun x _ => hle x)) h.tot
  · intro x d; rw [(hA.dests x).2]; exact h.cntle x d

/-- What does not change. -/
def SameDests (T T' : Nat → TagInfo) : Prop := ∀ x, (T' x).dests = (T x).dests

theorem markDests_spec {n k first minCount a : Nat} {E : List Nat} (hE : ∀ e ∈ E, e < n) :
    ∀ (ds : List Nat) (T : Nat → TagInfo), TInv n k first E T → ds.Nodup → (∀ d ∈ ds, d ∈ (T a).dests) →
      (∀ d ∈ ds, (T a).pos d = none) → (∀ x, Fresh (T x)) →
      TInv n k first E (markDests minCount a T ds) ∧ (∀ x, Fresh (markDests minCount a T ds x)) ∧
      SameDests T (markDests minCount a T ds) ∧
      ∀ x d, x ≠ a → (markDests minCount a T ds x).pos d = (T x).pos d
  | [], T, h, _, _, _, hf => ⟨h, hf, fun _ => rfl, fun _ _ _ => rfl⟩
  | d :: ds, T, h, hnd, hmem, hpos, hf => by
    rw [List.nodup_cons] at hnd
    unfold markDests
    split
    · simp only
      generalize hT : updTag (updTag T d (fun t => { t with incoming := t.incoming - (T a).cnt d })) a
          (fun t => { t with pos := fun i => if i = d then some 0 else t.pos i }) = T'
      have hp : ∀ x i, (T' x).pos i = if x = a ∧ i = d then some 0 else (T x).pos i := by
        intro x i; rw [← hT]; unfold updTag
        by_cases h1 : x = a <;> by_cases h2 : x = d <;> by_cases h3 : i = d <;> simp_all
        all_goals (split <;> simp_all)
      have hs : ∀ x, (T' x).dests = (T x).dests ∧ (T' x).cnt = (T x).cnt ∧ (T' x).smPos = (T x).smPos ∧
          (T' x).noopPos = (T x).noopPos ∧ (T' x).base = (T x).base := by
        intro x; rw [← hT]; unfold updTag
        by_cases h1 : x = a <;> by_cases h2 : x = d <;> simp_all
        all_goals (split <;> simp_all)
      have hi : ∀ x, (T' x).incoming = if x = d then (T x).incoming - (T a).cnt d else (T x).incoming := by
        intro x; rw [← hT]; unfold updTag
        by_cases h1 : x = a <;> by_cases h2 : x = d <;> simp_all
        all_goals (split <;> simp_all)
      have hA : Assigned T T' a (fun i => i = d) := by
        constructor
        · intro x; exact ⟨(hs x).1, (hs x).2.1⟩
        · intro x i hx; rw [hp, if_neg (fun hh => hx hh.1)]
        · intro i; rw [hp]
          by_cases hid : i = d
          · rw [if_pos ⟨rfl, hid⟩]; simp [hid]
          · rw [if_neg (fun hh => hid hh.2)]; simp [hid]
        · intro i; rw [hi]
          by_cases hid : i = d
          · rw [if_pos hid]; right; exact ⟨hid, by rw [hid]; exact hpos d List.mem_cons_self, by rw [hid]⟩
          · rw [if_neg hid]; exact Or.inl rfl
      have hinv := h.assigned hA (by rintro i rfl; exact hmem i List.mem_cons_self) hE
      obtain ⟨g1, g2, g3, g4⟩ := markDests_spec (minCount := minCount) (a := a) hE ds T' hinv hnd.2
        (fun x hx => by rw [(hs a).1]; exact hmem x (List.mem_cons_of_mem _ hx))
        (fun x hx => by
          rw [hp, if_neg]
          · exact hpos x (List.mem_cons_of_mem _ hx)
          · rintro ⟨_, rfl⟩; exact hnd.1 hx)
        (fun x => by
          obtain ⟨e1, e2, e3, e4⟩ := hf x
          obtain ⟨_, _, s1, s2, s3⟩ := hs x
          refine ⟨by rw [s1, e1], by rw [s2, e2], by rw [s3, e3], ?_⟩
          intro i p hip
          rw [hp] at hip
          split at hip
          · cases hip; rfl
          · exact e4 i p hip)
      refine ⟨g1, g2, fun x => by rw [g3 x, (hs x).1], ?_⟩
      intro x i hx
      rw [g4 x i hx, hp, if_neg (fun hh => hx hh.1)]
    · exact markDests_spec hE ds T h hnd.2 (fun x hx => hmem x (List.mem_cons_of_mem _ hx))
        (fun x hx => hpos x (List.mem_cons_of_mem _ hx)) hf

theorem markAll_spec {n k first minCount : Nat} {E : List Nat} (O : HashOrder) (hE : ∀ e ∈ E, e < n) :
    ∀ (m a : Nat) (T : Nat → TagInfo), TInv n k first E T → (∀ x, Fresh (T x)) →
      (∀ x d, a ≤ x → (T x).pos d = none) →
      TInv n k first E (markAll O minCount T m a) ∧ (∀ x, Fresh (markAll O minCount T m a x)) ∧
      SameDests T (markAll O minCount T m a)
  | 0, a, T, h, hf, _ => ⟨h, hf, fun _ => rfl⟩
  | m + 1, a, T, h, hf, hp => by
    unfold markAll
    have hperm := O.perm 0 a (T a).dests
    obtain ⟨g1, g2, g3, g4⟩ := markDests_spec (minCount := minCount) (a := a) hE (O.order 0 a (T a).dests) T h
      (hperm.nodup_iff.2 (h.nodup a)) (fun d hd => hperm.mem_iff.1 hd) (fun d _ => hp a d (Nat.le_refl _)) hf
    obtain ⟨e1, e2, e3⟩ := markAll_spec (minCount := minCount) O hE m (a + 1) _ g1 g2
      (fun x d hx => by rw [g4 x d (by omega)]; exact hp x d (by omega))
    exact ⟨e1, e2, fun x => by rw [e3 x, g3 x]⟩

end Riegeli.Tr

import Verif.TrPrivate
/-!
# Transposed chunks: the loop creating private lists
-/
namespace Riegeli.Tr

/-- The private list of tag `x`, or its absence. -/
def PTag (maxT : Nat) (s : CSt) (x : Nat) : Prop :=
  ((s.tags x).base = none ∧ (∀ d, (s.tags x).pos d = none) ∧ (s.tags x).noopPos = none) ∨
  ∃ b top, (s.tags x).base = some b ∧ Lst s.sm maxT b top ∧
    (∀ d p, (s.tags x).pos d = some p → b ≤ p ∧ p < top ∧ (s.sm.get p).etag = some d) ∧
    (∀ p, (s.tags x).noopPos = some p → b ≤ p ∧ p < top ∧ (s.sm.get p).etag = none ∧ (s.sm.get p).base = none ∧
      (x, p) ∈ s.noops) ∧
    (∀ d ∈ (s.tags x).dests, (s.tags x).pos d = none → (s.tags x).noopPos ≠ none) ∧
    ((s.tags x).noopPos ≠ none → ∃ d ∈ (s.tags x).dests, (s.tags x).pos d = none) ∧
    (∀ d, (s.tags x).dests = [d] → (s.tags x).pos d = some b)

/-- Invariant of the loop creating private lists, before tag `a`. -/
structure PInv (n k first maxT : Nat) (E : List Nat) (s : CSt) (a : Nat) : Prop where
  tinv : TInv n k first E s.tags
  fresh : ∀ x, a ≤ x → Fresh (s.tags x)
  smp : ∀ x, (s.tags x).smPos = none
  done : ∀ x, x < a → PTag maxT s x
  noops : ∀ y ∈ s.noops, (s.tags y.1).noopPos = some y.2 ∧ y.2 < s.sm.size
  nd : s.noops.Pairwise (fun y z => y.2 ≠ z.2)
  states : ∀ p, p < s.sm.size → (∀ e, (s.sm.get p).etag = some e → e ∈ E) ∧
    ((s.sm.get p).etag = none → (∃ b, (s.sm.get p).base = some b ∧ b < s.sm.size) ∨ ∃ x, (x, p) ∈ s.noops)
  size : s.sm.size ≤ 2 * sumN a (fun x => (s.tags x).dests.length)

theorem sumN_congr {n : Nat} {f g : Nat → Nat} (h : ∀ i, i < n → f i = g i) : sumN n f = sumN n g :=
  Nat.le_antisymm (sumN_le (fun i hi => Nat.le_of_eq (h i hi))) (sumN_le (fun i hi => Nat.le_of_eq (h i hi).symm))

theorem sumN_mono {m n : Nat} (f : Nat → Nat) (h : m ≤ n) : sumN m f ≤ sumN n f := by
  induction n with
  | zero => rw [Nat.le_zero.1 h]; exact Nat.le_refl _
  | succ n ih =>
    by_cases hm : m = n + 1
    · rw [hm]; exact Nat.le_refl _
    · have := ih (by omega); simp only [sumN]; omega

theorem filterMap_pub {a : Nat} : ∀ (placed : List (Key × Nat)), (placed.map (·.1)).Nodup →
    (Key.pub ∉ placed.map (·.1) ∧
      placed.filterMap (fun (k, p) => if k = Key.pub then some (a, p) else none) = []) ∨
    ∃ p, (Key.pub, p) ∈ placed ∧
      placed.filterMap (fun (k, p) => if k = Key.pub then some (a, p) else none) = [(a, p)]
  | [], _ => Or.inl ⟨by simp, rfl⟩
  | (k, p) :: rest, hnd => by
    rw [List.map_cons, List.nodup_cons] at hnd
    rw [List.filterMap_cons]
    by_cases hk : k = Key.pub
    · right
      subst hk
      refine ⟨p, List.mem_cons_self, ?_⟩
      simp only [if_true]
      rcases filterMap_pub (a := a) rest hnd.2 with h | ⟨p', h, _⟩
      · rw [h.2]
      · exact absurd (List.mem_map.2 ⟨_, h, rfl⟩) hnd.1
    · simp only [if_neg hk]
      rcases filterMap_pub (a := a) rest hnd.2 with h | ⟨p', h1, h2⟩
      · left
        refine ⟨?_, h.2⟩
        rw [List.map_cons, List.mem_cons, not_or]
        exact ⟨fun hh => hk hh.symm, h.1⟩
      · exact Or.inr ⟨p', List.mem_cons_of_mem _ h1, h2⟩

theorem privateStep_spec {n k first maxT : Nat} {E : List Nat} (O : HashOrder) (hT : 0 < maxT) (hE : ∀ e ∈ E, e < n)
    (hk : (k + 1) * (k + 1) < (maxT + 1) ^ 15) {s : CSt} {a : Nat} (han : a < n) (h : PInv n k first maxT E s a) :
    ∃ s', privateStep O n maxT s a = some s' ∧ PInv n k first maxT E s' (a + 1) ∧ SameDests s.tags s'.tags := by
  obtain ⟨T, sm, noops⟩ := s
  have hti := h.tinv
  simp only at hti
  have hfa : Fresh (T a) := h.fresh a (Nat.le_refl _)
  obtain ⟨T1, q, excl, last, e1, e2, e3⟩ := privateQueue (n := n) hti hfa O
  unfold privateStep
  simp only [e1]
  by_cases h0 : q.length = 0
  · rw [if_pos h0]
    obtain ⟨rfl, g2⟩ := e2 h0
    refine ⟨_, rfl, ?_, fun _ => rfl⟩
    constructor
    · exact hti
    · intro x hx; exact h.fresh x (by omega)
    · exact h.smp
    · intro x hx
      by_cases hxa : x = a
      · subst hxa
        left
        refine ⟨hfa.2.2.1, ?_, hfa.2.1⟩
        intro d
        by_cases hd : d ∈ (T1 x).dests
        · exact g2 d hd
        · cases hp : (T1 x).pos d with
          | none => rfl
          | some p => exact absurd (hti.posmem x d (by rw [hp]; simp)) hd
      · exact h.done x (by omega)
    · exact h.noops
    · exact h.nd
    · exact h.states
    · refine Nat.le_trans h.size ?_
      simp only [sumN]
      omega
  · rw [if_neg h0]
    obtain ⟨A, pub, w, hA0, hAnd, hAm, hw, hApos, hpubf, hpubt, hAlen, hAsum, T2, q2, hT2, hq2, hs2, hp2, hinc⟩ := e3 h0
    rw [hT2, hq2]
    have hkeys : (q2.map (·.key)).Perm (A.map Key.tag ++ if pub then [Key.pub] else []) := by
      refine (hp2.map (·.key)).trans ?_
      rw [List.map_append, List.map_map]
      cases pub <;> exact List.Perm.refl _
    have hq2m : ∀ e ∈ q2, (∃ d ∈ A, e = ⟨.tag d, (T a).cnt d⟩) ∨ (pub = true ∧ e = ⟨.pub, w⟩) := by
      intro e he
      rw [hp2.mem_iff, List.mem_append, List.mem_map] at he
      rcases he with ⟨d, hd, he⟩ | he
      · exact Or.inl ⟨d, hd, he.symm⟩
      · cases pub
        · simp at he
        · simp only [if_true, List.mem_singleton] at he; exact Or.inr ⟨rfl, he⟩
    have hknd : (q2.map (·.key)).Nodup := by
      rw [hkeys.nodup_iff, List.nodup_append]
      refine ⟨?_, by cases pub <;> simp, ?_⟩
      · rw [List.nodup_iff_pairwise_ne, List.pairwise_map]
        exact hAnd.imp (fun hne hh => hne (Key.tag.inj hh))
      · intro x hx y hy
        obtain ⟨d, _, rfl⟩ := List.mem_map.1 hx
        cases pub
        · simp at hy
        · simp only [if_true, List.mem_singleton] at hy; rw [hy]; simp
    have hq2ne : q2 ≠ [] := by
      intro hh
      have := hp2.length_eq
      rw [hh, List.length_append, List.length_map] at this
      have hpos := List.length_pos_iff.2 hA0
      simp only [List.length_nil] at this
      omega
    have hcnt1 : ∀ d ∈ A, 1 ≤ (T a).cnt d := fun d hd => (hti.cnt a d).1 (hAm d hd)
    obtain ⟨b, W, mb, hb1, hb2, hb3, hb4, hb5⟩ := buildList_spec (n := n) hT sm q2 hq2ne
      (by intro e he; rcases hq2m e he with ⟨d, _, rfl⟩ | ⟨_, rfl⟩ <;> rfl) hknd
      (by intro e he; rcases hq2m e he with ⟨d, hd, rfl⟩ | ⟨_, rfl⟩
          · exact hcnt1 d hd
          · exact hw) hs2
    have hq2l : q2.length = A.length + (if pub then 1 else 0) := by
      rw [hp2.length_eq, List.length_append, List.length_map]; cases pub <;> rfl
    have hq2p : 0 < q2.length := List.length_pos_iff.2 hq2ne
    have htot : (q2.map (·.weight)).sum < (maxT + 1) ^ 15 := by
      have h1 : (q2.map (·.weight)).sum = (A.map (T a).cnt).sum + if pub then w else 0 := by
        rw [(hp2.map (·.weight)).sum_nat, List.map_append, List.map_map, List.sum_append_nat]
        cases pub <;> rfl
      rw [h1]
      have h2 : (T a).dests.length ≤ k := Nat.le_trans (le_sumN (fun x => (T x).dests.length) han) hti.len
      have h3 : (T a).dests.length * k ≤ (k + 1) * (k + 1) := Nat.mul_le_mul (by omega) (by omega)
      omega
    have hL := hb2.lst (by omega) htot
    obtain ⟨hprev, hqe, _, hB⟩ := hb2
    simp only [hb1]
    have hpk : (b.placed.map (·.1)).Perm (A.map Key.tag ++ if pub then [Key.pub] else []) := by
      have := hB.perm
      rw [hqe] at this
      simp only [List.map_nil, List.filter_nil, List.append_nil] at this
      exact this.trans hkeys
    have hpnd : (b.placed.map (·.1)).Nodup := by
      have := hB.perm
      rw [hqe] at this
      simp only [List.map_nil, List.filter_nil, List.append_nil] at this
      rw [this.nodup_iff]; exact hknd
    have hpub_iff : Key.pub ∈ b.placed.map (·.1) ↔ pub = true := by
      rw [hpk.mem_iff, List.mem_append, List.mem_map]
      constructor
      · rintro (⟨_, _, hh⟩ | hh)
        · cases hh
        · cases pub
          · simp at hh
          · rfl
      · intro hh; right; rw [hh]; simp
    have htag_iff : ∀ d, Key.tag d ∈ b.placed.map (·.1) ↔ d ∈ A := by
      intro d
      rw [hpk.mem_iff, List.mem_append, List.mem_map]
      constructor
      · rintro (⟨d', hd', hh⟩ | hh)
        · cases hh; exact hd'
        · cases pub <;> simp at hh
      · intro hh; exact Or.inl ⟨d, hh, rfl⟩
    obtain ⟨f, g, hf1, hf2, hf3, hf4, hf5⟩ := assignPrivate_spec (a := a)
      (updTag T2 a (fun t => { t with base := some sm.size })) b.placed hpnd
    rw [hf1]
    rw [updTag_self] at hf3 hf5
    simp only at hf3 hf5
    generalize hT' : updTag (updTag T2 a (fun t => { t with base := some sm.size })) a
        (fun t => { t with pos := f, noopPos := g }) = T'
    have hT2x : ∀ x, (T2 x).dests = (T x).dests ∧ (T2 x).cnt = (T x).cnt ∧ (T2 x).pos = (T x).pos ∧
        (T2 x).smPos = (T x).smPos ∧ (T2 x).noopPos = (T x).noopPos ∧ (T2 x).base = (T x).base := by
      intro x; obtain ⟨i, f1, _⟩ := hinc x; rw [f1]; exact ⟨rfl, rfl, rfl, rfl, rfl, rfl⟩
    rw [(hT2x a).2.2.1] at hf3
    rw [(hT2x a).2.2.2.2.1, hfa.2.1] at hf5
    have hTa : T' a = { T2 a with base := some sm.size, pos := f, noopPos := g } := by
      rw [← hT', updTag_self, updTag_self]
    have hTo : ∀ x, x ≠ a → T' x = T2 x := by
      intro x hx; rw [← hT', updTag_ne _ _ hx, updTag_ne _ _ hx]
    have hAA : Assigned T T' a (fun d => d ∈ A) := by
      constructor
      · intro x
        by_cases hx : x = a
        · rw [hx, hTa]; exact ⟨(hT2x a).1, (hT2x a).2.1⟩
        · rw [hTo x hx]; exact ⟨(hT2x x).1, (hT2x x).2.1⟩
      · intro x d hx; rw [hTo x hx, (hT2x x).2.2.1]
      · intro d
        rw [hTa]
        simp only
        by_cases hd : d ∈ A
        · obtain ⟨y, hy, hy2⟩ := List.mem_map.1 ((htag_iff d).2 hd)
          obtain ⟨yk, yp⟩ := y
          simp only at hy2
          subst hy2
          rw [hf2 d yp hy]; simp [hd]
        · rw [hf3 d (fun hh => hd ((htag_iff d).1 hh))]; simp [hd]
      · intro d
        have hi : (T' d).incoming = (T2 d).incoming := by
          by_cases hd : d = a
          · rw [hd, hTa]
          · rw [hTo d hd]
        rw [hi]
        obtain ⟨i, f1, f2⟩ := hinc d
        rw [f1]
        simp only
        rcases f2 with f2 | ⟨f2, f3, f4⟩
        · exact Or.inl f2
        · exact Or.inr ⟨f2, f3, f4⟩
    have hti' : TInv n k first E T' := hti.assigned hAA (fun d hd => hAm d hd) hE
    have hsame : SameDests T T' := fun x => (hAA.dests x).1
    have hold : ∀ i, i < sm.size → b.sm.get i = sm.get i := hB.old
    have hpl : ∀ x ∈ b.placed, sm.size ≤ x.2 ∧ x.2 < b.sm.size := by
      intro x hx
      obtain ⟨g1, g2, _⟩ := hB.tgt x hx
      rw [hprev] at g1
      exact ⟨g1, g2⟩
    have hnoop : ∀ y ∈ noops, (T y.1).noopPos = some y.2 ∧ y.2 < sm.size := h.noops
    have hfm := filterMap_pub (a := a) b.placed hpnd
    refine ⟨_, rfl, ?_, hsame⟩
    constructor
    · exact hti'
    · intro x hx
      simp only
      rw [hTo x (by omega)]
      obtain ⟨f1, f2, f3, f4⟩ := h.fresh x (by omega)
      obtain ⟨g1, g2, g3, g4, g5, g6⟩ := hT2x x
      exact ⟨by rw [g4]; exact f1, by rw [g5]; exact f2, by rw [g6]; exact f3, by rw [g3]; exact f4⟩
    · intro x
      simp only
      have : (T' x).smPos = (T2 x).smPos := by
        by_cases hx : x = a
        · rw [hx, hTa]
        · rw [hTo x hx]
      rw [this, (hT2x x).2.2.2.1]
      exact h.smp x
    · intro x hx
      by_cases hxa : x = a
      · subst hxa
        right
        refine ⟨sm.size, b.sm.size, ?_, hL, ?_, ?_, ?_, ?_, ?_⟩
        · simp only [hTa]
        · intro d p hp
          simp only [hTa] at hp
          by_cases hd : d ∈ A
          · obtain ⟨y, hy, hy2⟩ := List.mem_map.1 ((htag_iff d).2 hd)
            obtain ⟨yk, yp⟩ := y
            simp only at hy2
            subst hy2
            rw [hf2 d yp hy] at hp
            cases hp
            have := hB.tgt _ hy
            have h5 := hpl _ hy
            exact ⟨h5.1, h5.2, this.2.2.2.1 d rfl⟩
          · rw [hf3 d (fun hh => hd ((htag_iff d).1 hh))] at hp
            have h6 : d ∈ (T x).dests := hti.posmem x d (by rw [hp]; simp)
            rw [hApos d h6 hd] at hp; cases hp
        · intro p hp
          simp only [hTa] at hp
          rcases hfm with ⟨hn, _⟩ | ⟨p', hp', hpe⟩
          · rw [hf5 hn] at hp; cases hp
          · rw [hf4 p' hp'] at hp
            cases hp
            obtain ⟨_, _, _, _, k5, k6⟩ := hB.tgt _ hp'
            have h5 := hpl _ hp'
            refine ⟨h5.1, h5.2, k5 rfl, k6, ?_⟩
            simp only [hpe]
            exact List.mem_append_right _ (by simp)
        · intro d hd hp
          simp only [hTa] at hd hp ⊢
          rw [(hT2x x).1] at hd
          have hdA : d ∉ A := by
            intro hd
            obtain ⟨y, hy, hy2⟩ := List.mem_map.1 ((htag_iff d).2 hd)
            obtain ⟨yk, yp⟩ := y
            simp only at hy2
            subst hy2
            rw [hf2 d yp hy] at hp; cases hp
          have hpt : pub = true := by
            cases hpb : pub with
            | true => rfl
            | false => exact absurd (hpubf hpb d hd) hdA
          obtain ⟨y, hy, hy2⟩ := List.mem_map.1 (hpub_iff.2 hpt)
          obtain ⟨yk, yp⟩ := y
          simp only at hy2
          subst hy2
          rw [hf4 yp hy]; simp
        · intro hn
          simp only [hTa] at hn ⊢
          rcases hfm with ⟨hn', _⟩ | ⟨p', hp', hpe⟩
          · rw [hf5 hn'] at hn; exact absurd rfl hn
          · have hpt := hpub_iff.1 (List.mem_map.2 ⟨_, hp', rfl⟩)
            obtain ⟨d, hd, hdA⟩ := hpubt hpt
            refine ⟨d, by rw [(hT2x x).1]; exact hd, ?_⟩
            rw [hf3 d (fun hh => hdA ((htag_iff d).1 hh))]
            exact hApos d hd hdA
        · intro d hd
          simp only [hTa] at hd ⊢
          rw [(hT2x x).1] at hd
          have hdA : d ∈ A := by
            obtain ⟨d', hd'⟩ := List.exists_mem_of_ne_nil A hA0
            have := hAm d' hd'
            rw [hd, List.mem_singleton] at this
            rw [← this]; exact hd'
          have hl1 : q2.length = 1 := by
            rw [hd] at hAlen
            simp only [List.length_singleton] at hAlen
            omega
          have hsz := hb5 (by omega)
          obtain ⟨y, hy, hy2⟩ := List.mem_map.1 ((htag_iff d).2 hdA)
          obtain ⟨yk, yp⟩ := y
          simp only at hy2
          subst hy2
          have h5 := hpl _ hy
          simp only at h5
          rw [hf2 d yp hy]
          congr 1
          omega
      · have hd := h.done x (by omega)
        have hx1 : (T' x).dests = (T x).dests ∧ (T' x).pos = (T x).pos ∧ (T' x).noopPos = (T x).noopPos ∧
            (T' x).base = (T x).base := by
          rw [hTo x hxa]
          obtain ⟨g1, g2, g3, g4, g5, g6⟩ := hT2x x
          exact ⟨g1, g3, g5, g6⟩
        unfold PTag at hd ⊢
        simp only at hd ⊢
        rw [hx1.1, hx1.2.1, hx1.2.2.1, hx1.2.2.2]
        rcases hd with hd | ⟨b', top, k1, k2, k3, k4, k5⟩
        · exact Or.inl hd
        · right
          have hle := k2.le
          refine ⟨b', top, k1, k2.frame (by omega) ?_, ?_, ?_, k5⟩
          · intro i hi
            rw [hold i (by omega)]
            exact ⟨rfl, rfl, fun _ hh => hh⟩
          · intro d p hp
            obtain ⟨j1, j2, j3⟩ := k3 d p hp
            exact ⟨j1, j2, by rw [hold p (by omega)]; exact j3⟩
          · intro p hp
            obtain ⟨j1, j2, j3, j4, j5⟩ := k4 p hp
            rw [hold p (by omega)]
            exact ⟨j1, j2, j3, j4, List.mem_append_left _ j5⟩
    · intro y hy
      simp only at hy ⊢
      rcases List.mem_append.1 hy with hy | hy
      · obtain ⟨k1, k2⟩ := hnoop y hy
        have hya : y.1 ≠ a := by
          intro hh
          rw [hh, hfa.2.1] at k1; cases k1
        rw [hTo _ hya, (hT2x y.1).2.2.2.2.1]
        exact ⟨k1, by omega⟩
      · rcases hfm with ⟨_, hn⟩ | ⟨p', hp', hpe⟩
        · rw [hn] at hy; simp at hy
        · rw [hpe, List.mem_singleton] at hy
          subst hy
          simp only [hTa, hf4 p' hp']
          exact ⟨trivial, (hpl _ hp').2⟩
    · simp only
      rw [List.pairwise_append]
      refine ⟨h.nd, ?_, ?_⟩
      · rcases hfm with ⟨_, hn⟩ | ⟨p', hp', hpe⟩
        · rw [hn]; exact List.Pairwise.nil
        · rw [hpe]; exact List.pairwise_singleton _ _
      · intro y hy z hz
        have k2 := (hnoop y hy).2
        rcases hfm with ⟨_, hn⟩ | ⟨p', hp', hpe⟩
        · rw [hn] at hz; simp at hz
        · rw [hpe, List.mem_singleton] at hz
          subst hz
          have := (hpl _ hp').1
          simp only at this ⊢
          omega
    · intro p hp
      simp only at hp ⊢
      by_cases hps : p < sm.size
      · rw [hold p hps]
        obtain ⟨k1, k2⟩ := h.states p hps
        refine ⟨k1, ?_⟩
        intro hh
        rcases k2 hh with ⟨b', j1, j2⟩ | ⟨x, j1⟩
        · simp only at j2
          exact Or.inl ⟨b', j1, by omega⟩
        · exact Or.inr ⟨x, List.mem_append_left _ j1⟩
      · rcases hB.all p (by omega) hp with ⟨k1, b', k2, k3, k4⟩ | ⟨key, hk⟩
        · refine ⟨?_, fun _ => Or.inl ⟨b', k2, k4⟩⟩
          intro e he
          rw [k1] at he; cases he
        · obtain ⟨_, _, k3, k4, k5, k6⟩ := hB.tgt _ hk
          cases key with
          | tag d =>
            have := k4 d rfl
            simp only at this
            rw [this]
            refine ⟨?_, by simp⟩
            intro e he
            cases he
            exact (hti.mem a d (hAm d ((htag_iff d).1 (List.mem_map.2 ⟨_, hk, rfl⟩)))).2
          | pub =>
            have := k5 rfl
            simp only at this
            rw [this]
            refine ⟨by simp, ?_⟩
            intro _
            right
            rcases hfm with ⟨hn', _⟩ | ⟨p', hp', hpe⟩
            · exact absurd (List.mem_map.2 ⟨_, hk, rfl⟩) hn'
            · refine ⟨a, List.mem_append_right _ ?_⟩
              exact List.mem_filterMap.2 ⟨(Key.pub, p), hk, by simp⟩
          | block j => simp [Key.isBlock] at k3
    · have hsz := h.size
      simp only [sumN] at hsz ⊢
      rw [sumN_congr (g := fun x => (T x).dests.length) (fun i _ => by simp only [hsame i]), hsame a]
      omega

theorem privateLoop_spec {n k first maxT : Nat} {E : List Nat} (O : HashOrder) (hT : 0 < maxT) (hE : ∀ e ∈ E, e < n)
    (hk : (k + 1) * (k + 1) < (maxT + 1) ^ 15) : ∀ (m a : Nat) (s : CSt), a + m = n → PInv n k first maxT E s a →
    ∃ s', privateLoop O n maxT s m a = some s' ∧ PInv n k first maxT E s' n ∧ SameDests s.tags s'.tags
  | 0, a, s, ha, h => by
    have : a = n := by omega
    subst this
    exact ⟨s, rfl, h, fun _ => rfl⟩
  | m + 1, a, s, ha, h => by
    obtain ⟨s1, h1, h2, h3⟩ := privateStep_spec O hT hE hk (by omega) h
    obtain ⟨s2, g1, g2, g3⟩ := privateLoop_spec O hT hE hk m (a + 1) s1 (by omega) h2
    simp only [privateLoop, h1]
    exact ⟨s2, g1, g2, fun x => by rw [g3 x, h3 x]⟩

end Riegeli.Tr
